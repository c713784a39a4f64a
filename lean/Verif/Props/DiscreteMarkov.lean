import Verif.Proof.DiscreteImap
import Verif.Props.Discrete
import Verif.Props.IMap

/-! # d-separation and I-maps in the tables of a `DiscreteDAG` (properties C220 and C221) -/

namespace Props

open Model Model.DAG Spec
open scoped NNReal ENNReal

variable {α : Type} [DecidableEq α] {D : DiscreteDAG α}

theorem dsep_lists {G : DAG α} (hG : G.Valid) (w : SepOracle α) {A B C : List α} (hAC : ∀ v ∈ A, v ∉ C)
    (h : dsep G w A.toFinset B.toFinset C.toFinset = some true) : DSep G.E {v | v ∈ A} {v | v ∈ B} {v | v ∈ C} := by
  obtain ⟨r, h1, h2⟩ := dsep_decides hG w A.toFinset B.toFinset C.toFinset (by
    rw [Finset.disjoint_left]
    intro v h1 h2
    exact hAC v (List.mem_toFinset.1 h1) (List.mem_toFinset.1 h2))
  rw [h] at h1
  have := h2.1 (Option.some.inj h1).symm
  simpa using this

/-- C220. If `dsep(A, B, C)` answers `True` then the tables returned by `get_marginals` satisfy P(A, B, C) P(C) = P(A, C) P(B, C). -/
theorem C220_marginals_partial (hD : D.Tabled) (hc : D.Cut) (o ot : SetOrder (Option α) α) (oa : SetOrder Bool (α × α))
    (os : SetOrder (α × Finset α) α) (on : SetOrder Unit α) (w : SepOracle α) {A B C : List α} (hnd : (A ++ B ++ C).Nodup) (h0 : C ≠ [])
    (hn : ∀ v ∈ A ++ B ++ C, v ∈ D.dag.nodes) (hs : dsep D.dag w A.toFinset B.toFinset C.toFinset = some true) :
    ∃ T TA TB TC, (D.getMarginals o ot oa os on EReal.exp (A ++ B ++ C)).run = some (.ok T) ∧
      (D.getMarginals o ot oa os on EReal.exp (A ++ C)).run = some (.ok TA) ∧
      (D.getMarginals o ot oa os on EReal.exp (B ++ C)).run = some (.ok TB) ∧
      (D.getMarginals o ot oa os on EReal.exp C).run = some (.ok TC) ∧
      ∀ x : α → ℕ, (∀ v ∈ A ++ B ++ C, x v < D.dims v) →
        T.val ((A ++ B ++ C).map x) * TC.val (C.map x) = TA.val ((A ++ C).map x) * TB.val ((B ++ C).map x) := by
  have hAC : ∀ v ∈ A, v ∉ C := fun v h1 h2 => List.disjoint_of_nodup_append hnd (List.mem_append_left _ h1) h2
  have sA : List.Sublist (A ++ C) (A ++ B ++ C) := List.Sublist.append_right (List.sublist_append_left A B) C
  have sB : List.Sublist (B ++ C) (A ++ B ++ C) := List.Sublist.append_right (List.sublist_append_right A B) C
  have sC : List.Sublist C (A ++ B ++ C) := List.sublist_append_right _ _
  obtain ⟨T, h1, -, h2⟩ := C127_marginals_partial hD hc o ot oa os on hnd (by simp [h0]) hn
  obtain ⟨TA, a1, -, a2⟩ := C127_marginals_partial hD hc o ot oa os on (sA.nodup hnd) (by simp [h0]) fun v hv => hn v (sA.subset hv)
  obtain ⟨TB, b1, -, b2⟩ := C127_marginals_partial hD hc o ot oa os on (sB.nodup hnd) (by simp [h0]) fun v hv => hn v (sB.subset hv)
  obtain ⟨TC, c1, -, c2⟩ := C127_marginals_partial hD hc o ot oa os on (sC.nodup hnd) h0 fun v hv => hn v (sC.subset hv)
  refine ⟨T, TA, TB, TC, h1, a1, b1, c1, fun x hx => ?_⟩
  rw [h2 x hx, a2 x fun v hv => hx v (sA.subset hv), b2 x fun v hv => hx v (sB.subset hv), c2 x fun v hv => hx v (sC.subset hv)]
  exact_mod_cast DiscreteDAG.pr_dsep hD hnd hn (dsep_lists hD.valid w hAC hs) hx

/-- C220. If `dsep(A, B, C)` answers `True` then `get_conditional(A, B + C, method="old")` does not depend on the values of `B` where
its condition has positive probability: it is `get_conditional(A, C, method="old")`. -/
theorem C220_conditional_partial (hD : D.Tabled) (hc : D.Cut) (o ot : SetOrder (Option α) α) (oa : SetOrder Bool (α × α))
    (os : SetOrder (α × Finset α) α) (on : SetOrder Unit α) (oc : SetOrder α α) (w : SepOracle α) {A B C : List α} (hnd : (A ++ B ++ C).Nodup)
    (h0 : A ≠ []) (hn : ∀ v ∈ A ++ B ++ C, v ∈ D.dag.nodes) (hs : dsep D.dag w A.toFinset B.toFinset C.toFinset = some true) :
    ∃ T T', (D.getConditional o ot oa os on oc false A (B ++ C)).run = some (.ok T) ∧
      (D.getConditional o ot oa os on oc false A C).run = some (.ok T') ∧
      ∀ x : α → ℕ, (∀ v ∈ A ++ B ++ C, x v < D.dims v) → D.pr (B ++ C) x ≠ 0 →
        T.val (A.map x ++ (B ++ C).map x) = T'.val (A.map x ++ C.map x) := by
  have hAC : ∀ v ∈ A, v ∉ C := fun v h1 h2 => List.disjoint_of_nodup_append hnd (List.mem_append_left _ h1) h2
  have hABC : ∀ v ∈ A, v ∉ B ++ C := fun v h1 h2 => by
    rw [List.append_assoc] at hnd
    exact List.disjoint_of_nodup_append hnd h1 h2
  have sA : List.Sublist A (A ++ B ++ C) := (List.sublist_append_left A B).trans (List.sublist_append_left _ _)
  have sB : List.Sublist (B ++ C) (A ++ B ++ C) := List.Sublist.append_right (List.sublist_append_right A B) C
  have sC : List.Sublist C (A ++ B ++ C) := List.sublist_append_right _ _
  have fe : ∀ {L : List α}, (∀ v ∈ A, v ∉ L) → A.filter (· ∈ L) = [] := fun hL => by
    simpa [List.filter_eq_nil_iff] using hL
  have fn : ∀ {L : List α}, (∀ v ∈ A, v ∉ L) → A.filter (· ∉ L) = A := fun hL => by
    simpa [List.filter_eq_self] using hL
  obtain ⟨T, h1, -, h2⟩ := C130_conditional hD hc o ot oa os on oc (sA.nodup hnd) (sB.nodup hnd) (.inl h0)
    (fun v hv => hn v (by rwa [List.append_assoc])) (by rw [fe hABC]; simp)
  obtain ⟨T', h1', -, h2'⟩ := C130_conditional hD hc o ot oa os on oc (sA.nodup hnd) (sC.nodup hnd) (.inl h0)
    (fun v hv => hn v (by simp at hv ⊢; tauto)) (by rw [fe hAC]; simp)
  refine ⟨T, T', h1, h1', fun x hx hp => ?_⟩
  have hA : ∀ v ∈ A, x v < D.dims v := fun v hv => hx v (sA.subset hv)
  have e1 := h2 x x (fun v hv => hx v (by rwa [List.append_assoc])) hA
  have e2 := h2' x x (fun v hv => hx v (by simp at hv ⊢; tauto)) hA
  simp only [ite_self, implies_true, if_true, fn hABC, fn hAC] at e1 e2
  rw [e1, e2, DiscreteDAG.condPr, DiscreteDAG.condPr, if_neg hp]
  have hp' : D.pr C x ≠ 0 := fun h => hp (le_antisymm ((DiscreteDAG.pr_mono (fun v hv => List.mem_append_right _ hv) x).trans h.le) zero_le)
  rw [if_neg hp']
  have key := DiscreteDAG.pr_dsep hD hnd hn (dsep_lists hD.valid w hAC hs) hx
  rw [← List.append_assoc]
  congr 1
  rw [div_eq_div_iff hp hp', key]


theorem Sample.chain_dsep (w : SepOracle (Fin 3)) : dsep Sample.chain w {0} {2} {1} = some true := by
  obtain ⟨r, hr, hr'⟩ := dsep_decides Sample.chain_valid w {0} {2} {1} (by decide)
  rw [hr, hr'.2 (by simpa using Sample.chain_sep)]

/-- Noisy parities along `0 → 1 → 2`. -/
noncomputable def Sample.walk : DiscreteDAG (Fin 3) := Sample.parity {(0, 1), (1, 2)}

theorem Sample.walk_proper : Sample.walk.Proper := Sample.parity_proper (by decide)

example : ∃ T TA TB TC, (Sample.walk.getMarginals Sample.order Sample.order Sample.order Sample.order Sample.order EReal.exp
      [0, 2, 1]).run = some (.ok T) ∧
    (Sample.walk.getMarginals Sample.order Sample.order Sample.order Sample.order Sample.order EReal.exp [0, 1]).run = some (.ok TA) ∧
    (Sample.walk.getMarginals Sample.order Sample.order Sample.order Sample.order Sample.order EReal.exp [2, 1]).run = some (.ok TB) ∧
    (Sample.walk.getMarginals Sample.order Sample.order Sample.order Sample.order Sample.order EReal.exp [1]).run = some (.ok TC) ∧
    T.val [1, 1, 0] * TC.val [0] = TA.val [1, 0] * TB.val [1, 0] := by
  obtain ⟨T, TA, TB, TC, h1, h2, h3, h4, h5⟩ := C220_marginals_partial Sample.walk_proper.tabled (Sample.parity_cut _) Sample.order Sample.order
    Sample.order Sample.order Sample.order Sample.sep (A := [0]) (B := [2]) (C := [1]) (by decide) (by decide)
    (fun v _ => Finset.mem_univ v) (Sample.chain_dsep _)
  exact ⟨T, TA, TB, TC, h1, h2, h3, h4, h5 (fun v => if v = 1 then 0 else 1) fun v _ => by
    simp only [Sample.walk, Sample.parity, DiscreteDAG.dims]; split <;> simp⟩

/-- Two nodes without arcs whose values have the probabilities `1 - 1e-11` and `1e-11`. -/
noncomputable def twoTiny : DiscreteDAG (Fin 2) :=
  { dag := Sample.graph ∅
    pars := fun _ => []
    alph := fun _ => [0, 1]
    cond := fun _ => ⟨[2], fun i => if i = [0] then 1 - 1 / 10 ^ 11 else 1 / 10 ^ 11⟩ }

theorem twoTiny_proper : twoTiny.Proper := by
  refine ⟨⟨Sample.graph_valid (by simp), fun v _ => by simp [twoTiny], fun v _ u => by simp [twoTiny, Sample.graph], fun v _ => rfl⟩,
    fun v _ x _ => ?_⟩
  change ∑ i ∈ Finset.range 2, (if [i] = [0] then (1 - 1 / 10 ^ 11 : ℝ≥0) else 1 / 10 ^ 11) = 1
  rw [Finset.sum_range_succ, Finset.sum_range_one, if_pos rfl, if_neg (by simp)]
  refine tsub_add_cancel_of_le ?_
  rw [div_le_one (by positivity)]; norm_num

/-- The same with the small entry of `a` replaced by zero. -/
noncomputable def twoCut (a : Fin 2) : DiscreteDAG (Fin 2) :=
  { twoTiny with cond := fun v => ⟨[2], fun i => if i = [0] then 1 - 1 / 10 ^ 11 else if v = a then 0 else 1 / 10 ^ 11⟩ }

theorem twoCut_log (a : Fin 2) : noWarnLog (twoTiny.cond a) = npLog ((twoCut a).cond a) := by
  refine congrArg (Tensor.mk [2]) (funext fun i => ?_)
  change (if (if i = [0] then (1 - 1 / 10 ^ 11 : ℝ≥0) else 1 / 10 ^ 11) ≤ 1 / 10 ^ 10 then (⊥ : EReal) else
    ENNReal.log ((if i = [0] then (1 - 1 / 10 ^ 11 : ℝ≥0) else 1 / 10 ^ 11 : ℝ≥0) : ℝ≥0∞)) =
    ENNReal.log ((if i = [0] then (1 - 1 / 10 ^ 11 : ℝ≥0) else if a = a then 0 else 1 / 10 ^ 11 : ℝ≥0) : ℝ≥0∞)
  by_cases h : i = [0]
  · simp only [h, if_true]
    rw [if_neg]
    rw [not_le, lt_tsub_iff_right]
    norm_num
  · simp only [h, if_false, if_true]
    rw [if_pos (by rw [div_le_div_iff₀ (by positivity) (by positivity)]; norm_num)]
    simp

theorem twoCut_shaped (a : Fin 2) : (twoCut a).Shaped :=
  ⟨twoTiny_proper.valid, twoTiny_proper.nodup, twoTiny_proper.pars_iff, fun _ _ => rfl⟩

theorem two_mem : ∀ {a b : Fin 2}, a ≠ b → ∀ v, v ∈ [a, b] := by decide

/-- The first node in the topological order keeps its small probability, the second one does not. -/
theorem twoTiny_joint {a b : Fin 2} (hab : a ≠ b) (o ot : SetOrder (Option (Fin 2)) (Fin 2)) (oa os on)
    {A : DAG (Fin 2)} (hA : (twoTiny.ancestral o oa os (on.ord () ([a, b] : List (Fin 2)).toFinset)).run = some (.ok A))
    (ht : (topologicalSort A ot).run = some (.ok [b, a])) :
    ∃ T, (twoTiny.getMarginals o ot oa os on id [a, b]).run = some (.ok T) ∧ T.shape = [2, 2] ∧
      ∀ x : Fin 2 → ℕ, (∀ v, x v < 2) → EReal.exp (T.val ([a, b].map x)) = ((twoCut a).pr [a, b] x : ℝ≥0∞) := by
  have e : (twoTiny.getMarginals o ot oa os on id [a, b]).run =
      ((twoCut a).getMarginalsBy npLog o ot oa os on (id : EReal → EReal) [a, b]).run := by
    have hA' : ((twoCut a).ancestral o oa os (on.ord () ([a, b] : List (Fin 2)).toFinset)).run = some (.ok A) := hA
    have hb : npLog (twoTiny.cond b) = npLog ((twoCut a).cond b) := by
      simp only [twoTiny, twoCut, if_neg hab.symm]
    rw [DiscreteDAG.getMarginals, DiscreteDAG.getMarginalsBy, DiscreteDAG.getMarginalsBy, DiscreteDAG.run_bind_ok hA,
      DiscreteDAG.run_bind_ok hA', DiscreteDAG.run_bind_ok ht, DiscreteDAG.run_bind_ok ht]
    simp only [List.foldlM, DiscreteDAG.elimStepBy, addVariableBy, twoCut_log, hb]
    rfl
  have hnd : [a, b].Nodup := by simp [hab]
  have hn : ∀ v ∈ [a, b], v ∈ (twoCut a).dag.nodes := fun v _ => Finset.mem_univ v
  obtain ⟨T, A', t, gone, h1, h2, h3, h4, h5, h6⟩ := DiscreteDAG.getMarginalsBy_sum (twoCut_shaped a) (DiscreteDAG.logs_npLog _) o ot oa os on
    (id : EReal → EReal) (M := [a, b]) hnd (by simp) hn
  have hperm : [a, b].Perm (twoCut a).dag.nodes.toList := by
    refine (List.perm_ext_iff_of_nodup hnd (Finset.nodup_toList _)).2 fun v => ?_
    rw [Finset.mem_toList]
    exact iff_of_true (two_mem hab v) (Finset.mem_univ v)
  have hgone : gone = [] := by
    refine List.eq_nil_iff_forall_not_mem.2 fun v hv => ?_
    have := h5.nodup_iff.2 h4.nodup
    exact List.disjoint_of_nodup_append this (two_mem hab v) hv
  refine ⟨T, e.trans h1, h2, fun x hx => ?_⟩
  obtain ⟨e, h7, h8⟩ := h6 x fun v _ => hx v
  rw [h7]
  refine h8.trans ?_
  subst hgone
  rw [DiscreteDAG.pr_all (twoCut_shaped a) hperm fun v _ => hx v]
  change (((t.map fun v => (twoCut a).kern v x).prod : ℝ≥0) : ℝ≥0∞) = ((∏ v ∈ (twoCut a).dag.nodes, (twoCut a).kern v x : ℝ≥0) : ℝ≥0∞)
  rw [← Finset.prod_map_toList, ((hperm.map _).prod_eq).symm, ((h5.map _).prod_eq).symm]
  simp

theorem two_pr (D : DiscreteDAG (Fin 2)) (hD : D.Shaped) (hd : D.dag.nodes = Finset.univ) {a b : Fin 2} (hab : a ≠ b) {x : Fin 2 → ℕ}
    (hx : ∀ v, x v < D.dims v) : D.pr [a, b] x = D.kern a x * D.kern b x := by
  have hnd : [a, b].Nodup := by simp [hab]
  have hperm : [a, b].Perm D.dag.nodes.toList := by
    refine (List.perm_ext_iff_of_nodup hnd (Finset.nodup_toList _)).2 fun v => ?_
    rw [Finset.mem_toList, hd]
    exact iff_of_true (two_mem hab v) (Finset.mem_univ v)
  rw [DiscreteDAG.pr_all hD hperm fun v _ => hx v]
  change ∏ v ∈ D.dag.nodes, D.kern v x = _
  rw [← Finset.prod_map_toList, ((hperm.map _).prod_eq).symm]
  simp

/-- C220, violated: whatever the orders of iteration, one of the two independent nodes loses its small probability as soon as the
other one is given. -/
theorem C220_violated : ∃ D : DiscreteDAG (Fin 2), D.Proper ∧ ∀ o ot oa os on oc w, ∃ (a b : Fin 2) (T T' : Tensor ℝ≥0∞),
    dsep D.dag w {a} {b} ∅ = some true ∧
    (D.getConditional o ot oa os on oc false [a] [b]).run = some (.ok T) ∧
    (D.getConditional o ot oa os on oc false [a] []).run = some (.ok T') ∧
    D.pr [b] (fun _ => 0) ≠ 0 ∧ T.val [1, 0] ≠ T'.val [1] := by
  refine ⟨twoTiny, twoTiny_proper, fun o ot oa os on oc w => ?_⟩
  obtain ⟨A, hA1, hA⟩ := DiscreteDAG.ancestral_spec twoTiny_proper.valid o oa os [0, 1] (on.ord () ([0, 1] : List (Fin 2)).toFinset)
    (fun v _ => Finset.mem_univ v) (by simp [on.mem_iff])
  obtain ⟨t, ht1, ht⟩ := topologicalSort_ok A ot hA.valid
  obtain ⟨a, b, hab, rfl⟩ : ∃ a b : Fin 2, a ≠ b ∧ t = [b, a] := by
    have : t.Perm [0, 1] := (List.perm_ext_iff_of_nodup ht.nodup (by decide)).2 fun v =>
      iff_of_true ((ht.mem_iff v).2 (hA.mem v (two_mem (by decide) v))) (two_mem (by decide) v)
    obtain ⟨b, a, rfl⟩ := List.length_eq_two.1 this.length_eq
    exact ⟨a, b, fun h => by simpa [h] using ht.nodup, rfl⟩
  have hset : ([a, b] : List (Fin 2)).toFinset = ([0, 1] : List (Fin 2)).toFinset := by
    ext v
    rw [List.mem_toFinset, List.mem_toFinset]
    exact iff_of_true (two_mem hab v) (two_mem (by decide) v)
  obtain ⟨full, hf1, hf2, hf3⟩ := twoTiny_joint hab o ot oa os on (by rw [hset]; exact hA1) ht1
  have hfil : [a].filter (· ∉ [b]) = [a] := by simp [hab]
  obtain ⟨T, hT1, -, hT2⟩ := DiscreteDAG.conditionalFrom_spec (D := twoCut a) (M := [a]) (C := [b]) (by simp) (by simp)
    (fun v _ => Finset.mem_univ v) (by simp [hab]) (full := full) (by rw [hfil]; exact hf2) (by
      rw [hfil]
      exact fun x hx => hf3 x fun v => hx v (two_mem hab v))
  obtain ⟨A', hA1', hA'⟩ := DiscreteDAG.ancestral_spec twoTiny_proper.valid o oa os [a] (on.ord () ([a] : List (Fin 2)).toFinset)
    (fun v _ => Finset.mem_univ v) (by simp [on.mem_iff])
  obtain ⟨t', ht1', ht'⟩ := topologicalSort_ok A' ot hA'.valid
  have hE : ∀ u v, ¬ twoTiny.dag.E u v := fun u v h => by simp [twoTiny, Sample.graph, DAG.E] at h
  have ht0 : t' = [a] := by
    have : t'.Perm [a] := (List.perm_ext_iff_of_nodup ht'.nodup (by simp)).2 fun v => by
      rw [ht'.mem_iff]
      change v ∈ A'.nodes ↔ _
      rw [hA'.nodes_iff]
      constructor
      · rintro ⟨s, hs, hp⟩
        rcases hp.cases_head with rfl | ⟨c, hc, -⟩
        · exact hs
        · exact absurd hc (hE _ _)
      · exact fun hv => ⟨v, hv, .refl⟩
    exact List.perm_singleton.1 this
  subst ht0
  have hrun : (twoTiny.getMarginals o ot oa os on (id : EReal → EReal) [a]).run =
      (twoTiny.getMarginalsBy npLog o ot oa os on (id : EReal → EReal) [a]).run := by
    rw [DiscreteDAG.getMarginals, DiscreteDAG.getMarginalsBy, DiscreteDAG.getMarginalsBy, DiscreteDAG.run_bind_ok hA1',
      DiscreteDAG.run_bind_ok hA1', DiscreteDAG.run_bind_ok ht1', DiscreteDAG.run_bind_ok ht1']
    rfl
  obtain ⟨full', g1, g2, g3⟩ := DiscreteDAG.getMarginalsBy_run twoTiny_proper.tabled (DiscreteDAG.logs_npLog _) o ot oa os on
    (id : EReal → EReal) (M := [a]) (by simp) (by simp) (fun v _ => Finset.mem_univ v)
  obtain ⟨T', hT1', -, hT2'⟩ := DiscreteDAG.conditionalFrom_spec (D := twoTiny) (M := [a]) (C := []) (by simp) (by simp)
    (fun v _ => Finset.mem_univ v) (by simp) (full := full') (by simpa using g2) (by
      intro x hx
      obtain ⟨e, k1, k2⟩ := g3 x fun v hv => hx v (by simpa using hv)
      have hl : ([a].filter (· ∉ ([] : List (Fin 2))) ++ []) = [a] := by simp
      rw [hl, k1]
      exact k2)
  set x : Fin 2 → ℕ := fun v => if v = a then 1 else 0 with hx
  have hxa : x a = 1 := if_pos rfl
  have hxb : x b = 0 := if_neg hab.symm
  have hlt : ∀ v, x v < 2 := fun v => by simp only [hx]; split <;> simp
  have e1 := hT2 x x (fun v _ => hlt v) (fun v _ => hlt v)
  have e2 := hT2' x x (fun v _ => hlt v) (fun v _ => hlt v)
  simp only [List.map_cons, List.map_nil, ite_self, hxa, hxb, List.cons_append, List.nil_append, implies_true, if_true, hfil] at e1
  simp only [List.map_cons, List.map_nil, ite_self, hxa, List.append_nil, implies_true, if_true, List.not_mem_nil, not_false_eq_true,
    decide_true, List.filter_cons_of_pos, List.filter_nil] at e2
  have hbig : (1 - 1 / 10 ^ 11 : ℝ≥0) ≠ 0 := by
    rw [ne_eq, tsub_eq_zero_iff_le, not_le]; norm_num
  have pos : ∀ {D : DiscreteDAG (Fin 2)}, D.Shaped → D.dag.nodes = Finset.univ → (∀ v, D.kern v (fun _ => 0) ≠ 0) → (∀ v, D.dims v = 2) →
      D.pr [b] (fun _ => 0) ≠ 0 := by
    intro D h1 h2 h3 h4 h0
    have hm := (DiscreteDAG.pr_mono (D := D) (S := [a, b]) (T := [b]) (by simp) fun _ => 0).trans h0.le
    rw [two_pr D h1 h2 hab (fun v => by rw [h4]; simp)] at hm
    exact mul_ne_zero (h3 a) (h3 b) (le_antisymm hm zero_le)
  have posT : twoTiny.pr [b] (fun _ => 0) ≠ 0 := pos twoTiny_proper.toShaped rfl
    (fun v => by simpa [DiscreteDAG.kern, twoTiny] using hbig) fun _ => rfl
  have posC : (twoCut a).pr [b] x ≠ 0 := by
    rw [DiscreteDAG.pr_base (x' := fun _ => 0) (by simpa using hxb)]
    exact pos (twoCut_shaped a) rfl (fun v => by simpa [DiscreteDAG.kern, twoCut, twoTiny] using hbig) fun _ => rfl
  refine ⟨a, b, T, T', ?_, ?_, ?_, posT, ?_⟩
  · obtain ⟨r, hr, hr'⟩ := dsep_decides twoTiny_proper.valid w {a} {b} ∅ (by simp)
    rw [hr]
    congr 1
    rw [hr']
    have hm := local_markov twoTiny_proper.valid.acyclic a
    have e0 : {p | twoTiny.dag.E p a} = ((∅ : Finset (Fin 2)) : Set (Fin 2)) := by
      ext p
      simp [hE]
    rw [e0] at hm
    refine dsep_mono (by simp) ?_ hm
    intro v hv
    have hv : v = b := by simpa using hv
    subst hv
    refine ⟨hab.symm, fun hp => ?_, hE _ _⟩
    obtain ⟨c, hc, -⟩ := Relation.TransGen.head'_iff.1 hp
    exact hE _ _ hc
  · rw [DiscreteDAG.getConditional]
    refine (DiscreteDAG.run_bind_ok (b := full) ?_ _).trans (congrArg some ?_)
    · rw [hfil]; exact hf1
    · exact hT1
  · rw [DiscreteDAG.getConditional]
    refine (DiscreteDAG.run_bind_ok (b := full') ?_ _).trans (congrArg some ?_)
    · simpa using hrun.trans g1
    · exact hT1'
  · rw [e1, e2, DiscreteDAG.condPr, if_neg posC, DiscreteDAG.condPr, DiscreteDAG.pr_nil twoTiny_proper, if_neg one_ne_zero, div_one]
    have h0 : (twoCut a).pr ([a] ++ [b]) x = 0 := by
      change (twoCut a).pr [a, b] x = 0
      rw [two_pr _ (twoCut_shaped a) rfl hab hlt]
      have : (twoCut a).kern a x = 0 := by simp [DiscreteDAG.kern, twoCut, twoTiny, hxa]
      rw [this, zero_mul]
    have h1 : twoTiny.pr ([a] ++ []) x ≠ 0 := by
      intro h0
      have hm := (DiscreteDAG.pr_mono (D := twoTiny) (S := [a, b]) (T := [a] ++ []) (by simp) x).trans h0.le
      rw [two_pr _ twoTiny_proper.toShaped rfl hab hlt] at hm
      refine mul_ne_zero ?_ ?_ (le_antisymm hm zero_le)
      · simp [DiscreteDAG.kern, twoTiny, hxa]
      · simpa [DiscreteDAG.kern, twoTiny, hxb] using hbig
    rw [h0, zero_div, ENNReal.coe_zero]
    exact fun h => h1 (by simpa using h.symm)

/-- C221. If `H.is_imap(G)` answers `True` then every distribution given by tables on `G` is given by tables on `H`: there is a network
on `H` with the same alphabets and the same probability for every event. -/
theorem C221_represents (hD : D.Proper) {H : DAG α} (hH : H.Valid) (hn : H.nodes = D.dag.nodes) (w : ImapOracle α)
    (hi : isImap w H D.dag = some true) :
    ∃ D' : DiscreteDAG α, D'.dag = H ∧ D'.alph = D.alph ∧ D'.Proper ∧ ∀ S x, D'.pr S x = D.pr S x := by
  obtain ⟨r, h1, h2⟩ := isImap_spec w hH hD.valid
  rw [hi] at h1
  have hsub := h2.1 (Option.some.inj h1).symm
  have hs : (D.refit H fun v => (H.parents v).toList).Shaped :=
    ⟨hH, fun v _ => Finset.nodup_toList _, fun v _ u => by
      change u ∈ (H.parents v).toList ↔ _
      rw [Finset.mem_toList]
      exact hH.parents_iff u v, fun v _ => rfl⟩
  exact ⟨D.refit H fun v => (H.parents v).toList, rfl, rfl, DiscreteDAG.same_of_imap hD hs hn rfl hsub fun v _ x _ => DiscreteDAG.refit_cond D H _ v x⟩

/-- C221. These tables are the ones returned by `get_conditional([node], parents, method="old")`, if no entry of a table of `G` is
positive but at most `1e-10`: every network on `H` with these tables has the same probability for every event. -/
theorem C221_refit {D' : DiscreteDAG α} (hD : D.Proper) (hc : D.Cut) (hs : D'.Shaped) (hn : D'.dag.nodes = D.dag.nodes)
    (ha : D'.alph = D.alph) (w : ImapOracle α) (hi : isImap w D'.dag D.dag = some true)
    (o ot : SetOrder (Option α) α) (oa : SetOrder Bool (α × α)) (os : SetOrder (α × Finset α) α) (on : SetOrder Unit α) (oc : SetOrder α α)
    (hT : ∀ v ∈ D'.dag.nodes, ∀ T, (D.getConditional o ot oa os on oc false [v] (D'.pars v)).run = some (.ok T) →
      ∀ x : α → ℕ, (∀ u ∈ v :: D'.pars v, x u < D.dims u) →
        ((D'.cond v).val ((D'.pars v).map x ++ [x v]) : ℝ≥0∞) = T.val (x v :: (D'.pars v).map x)) :
    D'.Proper ∧ ∀ S x, D'.pr S x = D.pr S x := by
  obtain ⟨r, h1, h2⟩ := isImap_spec w hs.valid hD.valid
  rw [hi] at h1
  refine DiscreteDAG.same_of_imap hD hs hn ha (h2.1 (Option.some.inj h1).symm) fun v hv x hx => ?_
  have hvp : v ∉ D'.pars v := fun h => hs.valid.acyclic.irrefl ((hs.pars_iff v hv v).1 h)
  obtain ⟨T, k1, -, k2⟩ := C130_conditional hD hc o ot oa os on oc (M := [v]) (C := D'.pars v) (by simp) (hs.nodup v hv) (by simp)
    (fun u hu => by
      rw [← hn]
      rcases List.mem_append.1 hu with h | h
      · rw [List.mem_singleton] at h; exact h ▸ hv
      · exact hs.valid.fst_mem _ _ ((hs.pars_iff v hv u).1 h)) (by simp [hvp])
  have e := k2 x x (fun u hu => hx u (by simpa using hu)) (fun u hu => hx u (by simp at hu; simp [hu]))
  have hf : [v].filter (· ∉ D'.pars v) = [v] := by simp [hvp]
  simp only [ite_self, implies_true, if_true, hf] at e
  have := hT v hv T k1 x hx
  rw [List.map_append, List.map_singleton]
  exact_mod_cast this.trans e

/-- The network fitted on `H` meets the assumptions of `C221_refit`. -/
theorem refit_tables (hD : D.Proper) (hc : D.Cut) {H : DAG α} (hH : H.Valid) (hn : H.nodes = D.dag.nodes) {pars : α → List α}
    (hp : ∀ v ∈ H.nodes, (pars v).Nodup ∧ ∀ u, u ∈ pars v ↔ (u, v) ∈ H.arcs)
    (o ot : SetOrder (Option α) α) (oa : SetOrder Bool (α × α)) (os : SetOrder (α × Finset α) α) (on : SetOrder Unit α) (oc : SetOrder α α) :
    (D.refit H pars).Shaped ∧
    ∀ v ∈ H.nodes, ∀ T, (D.getConditional o ot oa os on oc false [v] (pars v)).run = some (.ok T) →
      ∀ x : α → ℕ, (∀ u ∈ v :: pars v, x u < D.dims u) →
        (((D.refit H pars).cond v).val ((pars v).map x ++ [x v]) : ℝ≥0∞) = T.val (x v :: (pars v).map x) := by
  refine ⟨⟨hH, fun v hv => (hp v hv).1, fun v hv => (hp v hv).2, fun v _ => rfl⟩, fun v hv T hT x hx => ?_⟩
  have hvp : v ∉ pars v := fun h => hH.acyclic.irrefl (((hp v hv).2 v).1 h)
  obtain ⟨T', k1, -, k2⟩ := C130_conditional hD hc o ot oa os on oc (M := [v]) (C := pars v) (by simp) (hp v hv).1 (by simp)
    (fun u hu => by
      rw [← hn]
      rcases List.mem_append.1 hu with h | h
      · rw [List.mem_singleton] at h; exact h ▸ hv
      · exact hH.fst_mem _ _ (((hp v hv).2 u).1 h)) (by simp [hvp])
  rw [hT] at k1
  cases k1
  have e := k2 x x (fun u hu => hx u (by simpa using hu)) (fun u hu => hx u (by simp at hu; simp [hu]))
  have hf : [v].filter (· ∉ pars v) = [v] := by simp [hvp]
  simp only [ite_self, implies_true, if_true, hf] at e
  refine Eq.trans ?_ e.symm
  have := DiscreteDAG.refit_cond D H pars v x
  rw [List.map_append, List.map_singleton] at this
  rw [this]

example : ∃ D' : DiscreteDAG (Fin 3), D'.dag = Sample.complete ∧ D'.alph = Sample.walk.alph ∧ D'.Proper ∧
    ∀ S x, D'.pr S x = Sample.walk.pr S x :=
  C221_represents Sample.walk_proper Sample.complete_valid rfl Sample.imap Sample.complete_imap

example : (Sample.walk.refit Sample.complete fun v => (Sample.complete.parents v).toList).Proper ∧
    ∀ S x, (Sample.walk.refit Sample.complete fun v => (Sample.complete.parents v).toList).pr S x = Sample.walk.pr S x := by
  have h := refit_tables Sample.walk_proper (Sample.parity_cut _) Sample.complete_valid rfl (pars := fun v => (Sample.complete.parents v).toList)
    (fun v _ => ⟨Finset.nodup_toList _, fun u => by rw [Finset.mem_toList]; exact Sample.complete_valid.parents_iff u v⟩)
    Sample.order Sample.order Sample.order Sample.order Sample.order Sample.order
  exact C221_refit Sample.walk_proper (Sample.parity_cut _) h.1 rfl rfl Sample.imap Sample.complete_imap _ _ _ _ _ _ h.2

end Props
