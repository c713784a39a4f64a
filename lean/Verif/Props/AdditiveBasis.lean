import Verif.Proof.AdditiveBasis
import Verif.Props.Sample

/-! # `rand_additive_basis` (properties C205 to C207) -/

namespace Props

set_option linter.unusedSectionVars false
open Model Spec

variable {α : Type} [DecidableEq α] {N : ℕ} {G : DAG α} {op : SetOrder α α} {r2 : R2Dict α} {D : AdditiveDraws α N}
  {o : SetOrder (Option α) α} {oa : SetOrder Bool (α × α)} {on : SetOrder Unit α} {C : DAG α} {names : List α} {s : AdditiveState α N}

/-- C205. If `rand_additive_basis` returns, the graph is the given one, and there are nonnegative coefficients and columns that satisfy
the additive equations for the drawn weights, bases and noise, such that the variances of the two parts of each column are `r2` and
`1 - r2`. The noise and the mean function of each node use these coefficients, at the parents in the order of the given graph. -/
theorem C205_calibrated (hG : G.Valid) (hfit : DrawsFit G D) (h : randAdditive G o oa on op r2 D = some (.ok (some (C, names, s)))) :
    C.Valid ∧ C.nodes = G.nodes ∧ C.arcs = G.arcs ∧ names.Nodup ∧ (∀ v, v ∈ names ↔ v ∈ G.nodes) ∧
    ∃ c b x, CalibratedOn (G.nodes : Set α) G op r2 D c b x ∧
      ∀ (M : ℕ) (draws : α → Fin M → ℝ), ∀ v ∈ G.nodes,
        (additiveCam C names s.node draws).noises v = some (fun j => b v * draws v j) ∧
        ∃ f, (additiveCam C names s.node draws).meanFunctions v = some f ∧
          ∀ y, f ((op.ord v (G.parents v)).map y) (op.ord v (G.parents v)) = additiveMean (c v) (drawnTerms G op D v) y := by
  obtain ⟨h1, h2, h3, rfl, h5⟩ := randAdditive_some hG hfit h
  refine ⟨h1, h2, h3, on.nodup _ _, fun v => on.mem_iff _ _ _, _, _, _, h5.calibrated hG.sortable, fun M draws v hv => ?_⟩
  obtain ⟨a, a1, a2, -⟩ := h5.some v hv
  refine ⟨by simp [additiveCam, a1], _, by simp only [additiveCam, a1]; rfl, fun y => ?_⟩
  simp only [a1, Option.elim_some]
  rw [a2.base]
  have hl := op.length_ord v (G.parents v)
  by_cases h0 : G.parents v = ∅
  · have e : op.ord v (G.parents v) = [] := by
      rw [← List.length_eq_zero_iff, hl, h0]; rfl
    funext j
    simp [camMean, additiveMean, drawnTerms, e]
  · rw [a2.weights.2 h0]
    exact camMean_eq _ (op.nodup _ _) (by rw [hl, hfit.bases v hv]) (by rw [hl, hfit.weights v hv]) y

/-- C206 (partial: the parents of each node must be iterated over in the same order in the returned graph `C` as in the given one).
`sample()` of the result satisfies the additive equations with the calibrated coefficients. -/
theorem C206_sample_partial (hG : G.Valid) (hfit : DrawsFit G D)
    (h : randAdditive G o oa on op r2 D = some (.ok (some (C, names, s)))) {M : ℕ} (draws : α → Fin M → ℝ) (o' : SetOrder (Option α) α)
    (op' : SetOrder α α) (ho : ∀ v ∈ G.nodes, op'.ord v (C.parents v) = op.ord v (G.parents v)) :
    ∃ c b x, CalibratedOn (G.nodes : Set α) G op r2 D c b x ∧
      ∃ y : α → Fin M → ℝ, (additiveCam C names s.node draws).sample o' op' = some (.ok (y ∘ names.get)) ∧
        ∀ v ∈ G.nodes, ∀ j, y v j = additiveMean (c v) (drawnTerms G op D v) y j + b v * draws v j := by
  obtain ⟨h1, h2, h3, h4, h5, c, b, x, hc, hn⟩ := C205_calibrated hG hfit h
  refine ⟨c, b, x, hc, ?_⟩
  have hL : Listed (additiveCam C names s.node draws).dag (additiveCam C names s.node draws).names :=
    ⟨h1.sortable, List.nodup_iff_injective_get.1 h4, fun v => by
      rw [show (additiveCam C names s.node draws).dag.nodes = G.nodes from h2, ← h5, List.mem_iff_get]; rfl⟩
  have hname : ∀ a : Fin names.length, names.get a ∈ G.nodes := fun a => (h5 _).1 (List.get_mem _ _)
  have hf : ∀ v ∈ G.nodes, ∃ f, (additiveCam C names s.node draws).meanFunctions v = some f ∧
      ∀ y : α → Fin M → ℝ, f ((op.ord v (G.parents v)).map y) (op.ord v (G.parents v)) = additiveMean (c v) (drawnTerms G op D v) y :=
    fun v hv => (hn M draws v hv).2
  classical
  choose! f hf1 hf2 using hf
  obtain ⟨y, y1, y2⟩ := CamDAG.sample_spec (D := additiveCam C names s.node draws) (o := o') (op := op') (f := f)
    (e := fun v j => b v * draws v j) hL (fun a _ => hf1 _ (hname a)) (fun a => (hn M draws _ (hname a)).1)
  refine ⟨y, y1, fun v hv j => ?_⟩
  have e := congrFun (y2 v (by rw [show (additiveCam C names s.node draws).dag.nodes = G.nodes from h2]; exact hv)) j
  rw [e]
  have hd : (additiveCam C names s.node draws).dag = C := rfl
  have hp : C.parents v = G.parents v := by
    ext u; rw [h1.parents_iff, hG.parents_iff, h3]
  unfold CamDAG.eqn
  rw [hd, ho v hv, hf2 v hv]
  split
  · rename_i h0
    have e : drawnTerms G op D v = [] := by
      unfold drawnTerms
      have : op.ord v (G.parents v) = [] := by
        rw [← List.length_eq_zero_iff, op.length_ord, ← hp, h0]; rfl
      rw [this]; rfl
    simp [e, additiveMean]
  · rfl

/-- C206: with the noise that was drawn for the calibration, the sample has the prescribed variances. -/
theorem C206_replay_partial (hG : G.Valid) (hfit : DrawsFit G D)
    (h : randAdditive G o oa on op r2 D = some (.ok (some (C, names, s)))) (o' : SetOrder (Option α) α)
    (op' : SetOrder α α) (ho : ∀ v ∈ G.nodes, op'.ord v (C.parents v) = op.ord v (G.parents v)) :
    ∃ c b y, (additiveCam C names s.node D.noise).sample o' op' = some (.ok (y ∘ names.get)) ∧
      CalibratedOn (G.nodes : Set α) G op r2 D c b y := by
  obtain ⟨c, b, x, hc, y, y1, y2⟩ := C206_sample_partial hG hfit h D.noise o' op' ho
  have hxy : ∀ v ∈ G.nodes, x v = y v := by
    obtain ⟨t, -, hl⟩ := hG.sortable.sort o'
    have := equations_unique (pos := id) (F := fun v (x : α → Fin N → ℝ) j => additiveMean (c v) (drawnTerms G op D v) x j + b v * D.noise v j)
      hl (fun u v huv => hG.fst_mem u v huv) (fun _ => True) (fun _ _ _ _ => trivial)
      (fun v _ x y hxy => by
        funext j
        rw [additiveMean_congr fun t ht => hxy t.1 ((hG.parents_iff _ _).1 (drawnTerms_fst ht))])
      (x := x) (y := y) (fun v hv _ => funext (hc.equation v hv)) (fun v hv _ => funext (y2 v hv))
    exact fun v hv => this v hv trivial
  refine ⟨c, b, y, y1, y2, hc.nonneg, hc.root, fun v hv u hu => ?_⟩
  rw [← additiveMean_congr fun t ht => hxy t.1 (hG.fst_mem _ _ ((hG.parents_iff _ _).1 (drawnTerms_fst ht)))]
  exact hc.inner v hv u hu

/-- C207 (partial: the announced exception for a missing entry of `r2_dict` is in `C207_missing`). If `r2_dict` has an entry in (0, 1] for
every node with parents, `rand_additive_basis` raises nothing; and it returns if no noise and no weighted sum of bases is constant. -/
theorem C207_returns_partial (hG : G.Valid) (hfit : DrawsFit G D)
    (hr : ∀ u v, (u, v) ∈ G.arcs → ∃ r, r2.get v (G.parents v).card = some r ∧ 0 < r ∧ r ≤ 1) :
    (randAdditive G o oa on op r2 D = some (.ok none) ∨ ∃ C names s, randAdditive G o oa on op r2 D = some (.ok (some (C, names, s)))) ∧
    (NonConstant G op r2 D → ∃ C names s, randAdditive G o oa on op r2 D = some (.ok (some (C, names, s)))) := by
  have hne : ∀ v ∈ G.nodes, G.parents v ≠ ∅ → ∃ u, (u, v) ∈ G.arcs := fun v _ h0 => by
    obtain ⟨u, hu⟩ := Finset.nonempty_iff_ne_empty.2 h0
    exact ⟨u, (hG.parents_iff _ _).1 hu⟩
  constructor
  · have := randAdditive_cases (op := op) (r2 := r2) hG hfit o oa on (fun x => ∀ e, x ≠ .error e) (by simp) fun P s v hI hv hp e => by
      rw [additiveStep_eq (hfit.bases v hv) (hfit.weights v hv) (hI.parents_some hp)]
      dsimp only
      split
      · split <;> simp
      · rename_i h0
        obtain ⟨u, hu⟩ := hne v hv h0
        obtain ⟨r, r1, r2', r3⟩ := hr u v hu
        rw [r1]
        dsimp only
        split
        · rename_i e' he; exact absurd he (additiveScale_ok r2' (variance_nonneg _))
        · simp
        · simp
    rcases this with ⟨e, h1, -⟩ | ⟨-, h1⟩ | h1
    · exact absurd rfl (h1 e)
    · exact Or.inl h1
    · exact Or.inr h1
  · intro hN
    have := randAdditive_cases (op := op) (r2 := r2) hG hfit o oa on (fun x => ∃ s, x = .ok (some s)) (fun s => ⟨s, rfl⟩)
      fun P s v hI hv hp => by
        rw [additiveStep_eq (hfit.bases v hv) (hfit.weights v hv) (hI.parents_some hp)]
        dsimp only
        rw [if_neg (hN.noise v hv)]
        split
        · exact ⟨_, rfl⟩
        · rename_i h0
          obtain ⟨u, hu⟩ := hne v hv h0
          obtain ⟨r, r1, r2', r3⟩ := hr u v hu
          have hV := hN.parents v hv P _ _ _ (fun u hu => hp u ((hG.parents_iff _ _).2 hu)) (hI.calibrated hG.sortable) ⟨u, hu⟩
          rw [r1]
          dsimp only
          have h1 := variance_nonneg (additiveMean 1 (drawnTerms G op D v) s.val)
          have h2 := variance_nonneg (D.noise v)
          have e := additiveScale_finite (α := α) r2' r3 h1 h2 hV (hN.noise v hv)
          rw [e]
          exact ⟨_, rfl⟩
    rcases this with ⟨e, ⟨_, h1⟩, -⟩ | ⟨⟨_, h1⟩, -⟩ | h1
    · cases h1
    · cases h1
    · exact h1

/-- C207: with `r2_dict=None` or a single number in (0, 1] there is an entry for every node. -/
theorem C207_default (hG : G.Valid) {r : ℝ} (h0 : 0 < r) (h1 : r ≤ 1) {u v : α} (h : (u, v) ∈ G.arcs) :
    ∃ r', (R2Dict.const G r).get v (G.parents v).card = some r' ∧ 0 < r' ∧ r' ≤ 1 := by
  refine ⟨r, ?_, h0, h1⟩
  have : (G.parents v).card < G.nodes.card := by
    refine Finset.card_lt_card ⟨fun w hw => hG.fst_mem _ _ ((hG.parents_iff _ _).1 hw), fun hc => ?_⟩
    have hv := (hG.parents_iff _ _).1 (hc (hG.snd_mem _ _ h))
    exact hG.acyclic v (.single hv)
  simp [R2Dict.const, R2Dict.get, this]

/-- C207: for a missing entry a `KeyError` is raised, not the announced `Exception`. -/
theorem C207_missing (hG : G.Valid) (hfit : DrawsFit G D) (hN : NonConstant G op r2 D)
    (hr : ∀ u v, (u, v) ∈ G.arcs → ∀ r, r2.get v (G.parents v).card = some r → 0 < r ∧ r ≤ 1) {u v : α} (huv : (u, v) ∈ G.arcs)
    (hm : r2.get v (G.parents v).card = none) : randAdditive G o oa on op r2 D = some (.error .key) := by
  have := randAdditive_cases (op := op) (r2 := r2) hG hfit o oa on (fun x => (∃ s, x = .ok (some s)) ∨ x = .error .key)
    (fun s => Or.inl ⟨s, rfl⟩) fun P s v hI hv hp => by
      rw [additiveStep_eq (hfit.bases v hv) (hfit.weights v hv) (hI.parents_some hp)]
      dsimp only
      rw [if_neg (hN.noise v hv)]
      split
      · exact Or.inl ⟨_, rfl⟩
      · rename_i h0
        obtain ⟨u, hu⟩ := Finset.nonempty_iff_ne_empty.2 h0
        rw [hG.parents_iff] at hu
        have hV := hN.parents v hv P _ _ _ (fun u hu => hp u ((hG.parents_iff _ _).2 hu)) (hI.calibrated hG.sortable) ⟨u, hu⟩
        cases r1 : r2.get v (G.parents v).card with
        | none => exact Or.inr rfl
        | some r =>
          dsimp only
          obtain ⟨r2', r3⟩ := hr u v hu r r1
          rw [additiveScale_finite r2' r3 (variance_nonneg _) (variance_nonneg _) hV (hN.noise v hv)]
          exact Or.inl ⟨_, rfl⟩
  rcases this with ⟨e, ⟨_, h1⟩ | h1, h2⟩ | ⟨⟨_, h1⟩ | h1, -⟩ | ⟨C, names, s, h1⟩
  · cases h1
  · cases h1; exact h2
  · cases h1
  · cases h1
  · obtain ⟨-, -, -, -, -, c, b, x, hc, -⟩ := C205_calibrated hG hfit h1
    obtain ⟨r, hr, -⟩ := hc.inner v (hG.snd_mem _ _ huv) u huv
    rw [hm] at hr; cases hr

namespace AdditiveSample

/-- 0 → 2 ← 1 -/
def graph : DAG (Fin 3) := _root_.Sample.graph {(0, 2), (1, 2)}

theorem valid : graph.Valid := _root_.Sample.graph_valid (by decide)

/-- Parents in increasing order. -/
def up : SetOrder (Fin 3) (Fin 3) :=
  ⟨fun _ s => (List.finRange 3).filter (· ∈ s), fun _ _ => (List.nodup_finRange 3).filter _, fun _ s v => by simp⟩

/-- Parents in decreasing order. -/
def down : SetOrder (Fin 3) (Fin 3) :=
  ⟨fun _ s => ((List.finRange 3).filter (· ∈ s)).reverse, fun _ _ => List.nodup_reverse.2 ((List.nodup_finRange 3).filter _),
    fun _ s v => by simp⟩

/-- Bases `x` and `2 x`, weights 1 and 2, four noise values for each node. -/
noncomputable def draws : AdditiveDraws (Fin 3) 4 where
  bases v := if v = 2 then [fun x => x, fun x => 2 * x] else []
  weights v := if v = 2 then [1, 2] else []
  noise := ![![1, 1, -1, -1], ![1, -1, 1, -1], ![1, -1, -1, 1]]

theorem fit : DrawsFit graph draws := by
  have h : ∀ v, (graph.parents v).card = if v = 2 then 2 else 0 := by decide
  constructor <;> intro v _ <;> rw [h] <;> simp only [draws] <;> split <;> rfl

theorem p0 : graph.parents 0 = ∅ := by decide

theorem p1 : graph.parents 1 = ∅ := by decide

theorem p2 : graph.parents 2 = {0, 1} := by decide

theorem up2 (v : Fin 3) : up.ord v {0, 1} = [0, 1] := by decide +revert

theorem down2 (v : Fin 3) : down.ord v {0, 1} = [1, 0] := by decide +revert

theorem empty (op : SetOrder (Fin 3) (Fin 3)) (v : Fin 3) : op.ord v ∅ = [] := by
  rw [← List.length_eq_zero_iff, op.length_ord]; rfl

theorem var_noise (v : Fin 3) : variance (draws.noise v) = 1 := by
  unfold variance draws
  fin_cases v <;> simp [Fin.sum_univ_succ] <;> norm_num

/-- Calibrated columns of the roots. -/
theorem root {P : Set (Fin 3)} {r2 : R2Dict (Fin 3)} {c b : Fin 3 → ℝ} {x : Fin 3 → Fin 4 → ℝ}
    (h : CalibratedOn P graph up r2 draws c b x) {v : Fin 3} (hv : v ∈ P) (hp : graph.parents v = ∅) : x v = draws.noise v := by
  have h1 := h.root v hv ((parents_eq_empty valid.sortable).1 hp)
  rw [variance_smul, var_noise, mul_one, pow_eq_one_iff_of_nonneg (h.nonneg v hv).2 two_ne_zero] at h1
  funext j
  rw [h.equation v hv j, h1, drawnTerms, hp, empty]
  simp [additiveMean]

theorem terms : drawnTerms graph up draws 2 = [(0, 1, fun x => x), (1, 2, fun x => 2 * x)] := by
  rw [drawnTerms, p2, up2]; rfl

theorem nonConstant (r2 : R2Dict (Fin 3)) : NonConstant graph up r2 draws := by
  refine ⟨fun v _ => by rw [var_noise]; exact one_ne_zero, fun v _ P c b x hP hc ⟨u, hu⟩ => ?_⟩
  obtain rfl : v = 2 := (by decide : ∀ u v, (u, v) ∈ graph.arcs → v = 2) u v hu
  have e0 := root hc (hP 0 (by decide)) p0
  have e1 := root hc (hP 1 (by decide)) p1
  have : additiveMean 1 (drawnTerms graph up draws 2) x = ![5, -3, 3, -5] := by
    funext j
    rw [terms]
    simp only [additiveMean, List.map_cons, List.map_nil, List.sum_cons, List.sum_nil, e0, e1]
    fin_cases j <;> simp [draws] <;> norm_num
  rw [this]
  unfold variance
  simp [Fin.sum_univ_succ]
  norm_num

end AdditiveSample

open AdditiveSample in
example (o oa on) : ∃ C names s, randAdditive graph o oa on up (.const graph (1 / 2)) draws = some (.ok (some (C, names, s))) :=
  (C207_returns_partial valid fit fun _ _ h => C207_default valid (by norm_num) (by norm_num) h).2 (nonConstant _)

open AdditiveSample in
/-- C206 is violated: 0 → 2 ← 1 with the bases `x` and `2 x`, weights 1 and 2 and `r2 = 1/2`. If the returned graph iterates over the parents
of 2 in the other order, the weights are swapped, and with the noise drawn for the calibration the part of the sample that comes from
the parents has variance 4/17. -/
theorem C206_violated (o : SetOrder (Option (Fin 3)) (Fin 3)) (oa : SetOrder Bool (Fin 3 × Fin 3)) (on : SetOrder Unit (Fin 3)) :
    ∃ C names s, randAdditive graph o oa on up (.const graph (1 / 2)) draws = some (.ok (some (C, names, s))) ∧
      ∃ b y, (additiveCam C names s.node draws.noise).sample o down = some (.ok (y ∘ names.get)) ∧
        (additiveCam C names s.node draws.noise).noises 2 = some (fun j => b * draws.noise 2 j) ∧
        variance (fun j => y 2 j - b * draws.noise 2 j) = 4 / 17 := by
  obtain ⟨C, names, s, h⟩ := (C207_returns_partial (o := o) (oa := oa) (on := on) (op := up) (r2 := .const graph (1 / 2)) valid fit
    fun _ _ h => C207_default valid (by norm_num) (by norm_num) h).2 (nonConstant _)
  refine ⟨C, names, s, h, ?_⟩
  obtain ⟨h1, h2, h3, rfl, h5⟩ := randAdditive_some valid fit h
  have hc := h5.calibrated valid.sortable
  have hall : ∀ v, v ∈ (graph.nodes : Set (Fin 3)) := fun v => by simp [graph, _root_.Sample.graph]
  have hpar : ∀ v, C.parents v = graph.parents v := fun v => by
    ext u; rw [h1.parents_iff, valid.parents_iff, h3]
  choose a a1 a2 a3 using fun v => h5.some v (hall v)
  have e0 := root hc (hall 0) p0
  have e1 := root hc (hall 1) p1
  have hb : ∀ v, graph.parents v = ∅ → (a v).b = 1 := fun v hv => by
    have := (a2 v).root hv
    rwa [variance_smul, var_noise, mul_one, pow_eq_one_iff_of_nonneg (a2 v).nonneg.2 two_ne_zero] at this
  have hcc : (a 2).c ^ 2 * 17 = 1 / 2 := by
    obtain ⟨r, r1, r2, -⟩ := (a2 2).inner (by rw [p2]; decide)
    have hr : r = 1 / 2 := by
      rw [p2] at r1
      have : (2 : ℕ) < graph.nodes.card := by decide
      simp only [R2Dict.const, R2Dict.get, show ({0, 1} : Finset (Fin 3)).card = 2 from rfl, if_pos this, Option.some.injEq] at r1
      exact r1.symm
    have e : additiveMean 1 (drawnTerms graph up draws 2) s.val = ![5, -3, 3, -5] := by
      funext j
      rw [terms]
      simp only [additiveMean, List.map_cons, List.map_nil, List.sum_cons, List.sum_nil, e0, e1]
      fin_cases j <;> simp [draws] <;> norm_num
    rw [additiveMean_scale, variance_smul, e, hr] at r2
    rw [← r2]
    congr 1
    unfold variance
    simp [Fin.sum_univ_succ]
    norm_num
  obtain ⟨y, y1, y2⟩ := CamDAG.sample_spec (D := additiveCam C (on.ord () graph.nodes) s.node draws.noise) (o := o) (op := down)
    (f := fun v vals ps => camMean (a v).c (a v).weights (a v).base vals ps) (e := fun v j => (a v).b * draws.noise v j)
    ⟨h1.sortable, List.nodup_iff_injective_get.1 (on.nodup _ _), fun v => by
      rw [show (additiveCam C (on.ord () graph.nodes) s.node draws.noise).dag.nodes = graph.nodes from h2, ← on.mem_iff (), List.mem_iff_get]; rfl⟩
    (fun i _ => by simp [additiveCam, a1]) (fun i => by simp [additiveCam, a1])
  refine ⟨(a 2).b, y, y1, by simp [additiveCam, a1], ?_⟩
  have hd : (additiveCam C (on.ord () graph.nodes) s.node draws.noise).dag = C := rfl
  have hn : ∀ v, v ∈ (additiveCam C (on.ord () graph.nodes) s.node draws.noise).dag.nodes := fun v => by
    rw [hd, h2]; exact hall v
  have y0 : ∀ v, graph.parents v = ∅ → y v = draws.noise v := fun v hv => by
    rw [y2 v (hn v), CamDAG.eqn, hd, hpar, hv, if_pos rfl, hb v hv]
    funext j; simp
  have y22 : (fun j => y 2 j - (a 2).b * draws.noise 2 j) = fun j => (a 2).c * ![4, 0, 0, -4] j := by
    funext j
    rw [y2 2 (hn 2), CamDAG.eqn, hd, hpar, p2, if_neg (by decide), down2, Pi.add_apply, add_sub_cancel_right, (a2 2).base, (a2 2).weights.2
      (by rw [p2]; decide), p2, up2]
    have g0 : baseOf ([0, 1] : List (Fin 3)) (draws.bases 2) 0 = fun x => x := rfl
    have g1 : baseOf ([0, 1] : List (Fin 3)) (draws.bases 2) 1 = fun x => 2 * x := rfl
    have gw : draws.weights 2 = [1, 2] := rfl
    simp only [camMean, List.map_cons, List.map_nil, List.zipWith_cons_cons, List.zipWith_nil_left, List.sum_cons, List.sum_nil, g0, g1, gw,
      y0 0 p0, y0 1 p1]
    fin_cases j <;> simp [draws] <;> norm_num
  rw [y22, variance_smul]
  have : variance ![(4 : ℝ), 0, 0, -4] = 8 := by
    unfold variance
    simp [Fin.sum_univ_succ]
    norm_num
  rw [this]
  linarith

open AdditiveSample in
example (o oa on) : ∃ C names s c b y, randAdditive graph o oa on up (.const graph (1 / 2)) draws = some (.ok (some (C, names, s))) ∧
    (additiveCam C names s.node draws.noise).sample o up = some (.ok (y ∘ names.get)) ∧
      CalibratedOn (graph.nodes : Set (Fin 3)) graph up (.const graph (1 / 2)) draws c b y := by
  obtain ⟨C, names, s, h⟩ := (C207_returns_partial (o := o) (oa := oa) (on := on) (op := up) (r2 := .const graph (1 / 2)) valid fit
    fun _ _ h => C207_default valid (by norm_num) (by norm_num) h).2 (nonConstant _)
  obtain ⟨h1, h2, h3, -⟩ := C205_calibrated valid fit h
  obtain ⟨c, b, y, y1, y2⟩ := C206_replay_partial valid fit h o up fun v _ => by
    congr 1; ext u; rw [h1.parents_iff, valid.parents_iff, h3]
  exact ⟨C, names, s, c, b, y, h, y1, y2⟩

open AdditiveSample in
/-- C207 is violated: 0 → 2 ← 1 with `r2_dict={1: 1/2}`. -/
theorem C207_violated (o : SetOrder (Option (Fin 3)) (Fin 3)) (oa : SetOrder Bool (Fin 3 × Fin 3)) (on : SetOrder Unit (Fin 3)) :
    randAdditive graph o oa on up (.nparents fun k => if k = 1 then some (1 / 2) else none) draws = some (.error .key) := by
  have e : ∀ v, graph.parents v = ∅ ∨ (graph.parents v).card = 2 := by decide
  refine C207_missing valid fit (nonConstant _) (fun u v huv r hr => ?_) (u := 0) (v := 2) (by decide) (by
    rw [p2]; rfl)
  rcases e v with h | h
  · exact absurd huv ((parents_eq_empty valid.sortable).1 h u)
  · rw [h] at hr; cases hr

end Props
