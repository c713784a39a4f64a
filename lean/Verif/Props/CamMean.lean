import Verif.Proof.CamMean
import Verif.Props.Sampling
import Verif.Props.GaussPdf

/-! # `CamDAG.conditional_mean` (property C191) -/

namespace Props

set_option linter.unusedSectionVars false
open Model Spec MeasureTheory ProbabilityTheory

variable {n : ℕ} {α S : Type} [DecidableEq α]

/-- C191. The result holds the given values at the conditioning nodes, and each other node is its mean function at the result for its
parents. There is only one such assignment. -/
theorem C191_equations [AddMonoid S] {D : CamDAG n α S} (h : Listed D.dag D.names) {f : α → List S → List α → S} {A : List α}
    (hA : ∀ v ∈ A, v ∈ D.dag.nodes) {b : Bool} (hb : b = true → A ≠ [] ∧ ∀ v ∈ A, D.dag.parents v ⊆ A.toFinset)
    (hf : ∀ a, D.names a ∉ A → D.meanFunctions (D.names a) = some (f (D.names a))) (op : SetOrder α α) (val : α → S) :
    ∃ x : Fin n → S,
      (∀ x', Solves D.names (fun v => op.ord v (D.dag.parents v))
        (fun a s => if D.names a ∈ A then val (D.names a) else f (D.names a) s (op.ord (D.names a) (D.dag.parents (D.names a)))) x'
          ↔ x' = x) ∧
      ∀ o, D.conditionalMean o op (A.map val) A b = some (.ok x) := by
  let F : α → List S → S := fun v s => if v ∈ A then val v else f v s (op.ord v (D.dag.parents v))
  have key : ∀ o, ∃ x, Solves D.names (fun v => op.ord v (D.dag.parents v)) (fun a => F (D.names a)) x ∧
      D.conditionalMean o op (A.map val) A b = some (.ok x) := by
    intro o
    obtain ⟨y, h1, h2⟩ := CamDAG.conditionalMean_spec (op := op) (o := o) h hA hb hf val
    exact ⟨y ∘ D.names, (solves_iff h op F y).2 h2, h1⟩
  obtain ⟨x, hx, -⟩ := key ⟨fun _ s => s.toList, fun _ s => s.nodup_toList, by simp⟩
  refine ⟨x, fun x' => ⟨fun hx' => solves_unique h op F hx' hx, fun e => e ▸ hx⟩, fun o => ?_⟩
  obtain ⟨x', hx', h'⟩ := key o
  rw [h', solves_unique h op F hx' hx]

/-- C191 (partial: only if the mean function of each node outside the conditioning set is affine or all its parents are in the set, and
the mean functions of roots outside the set are set and return zero). For a conditioning set that contains the parents of its nodes and
noise with mean zero, `conditional_mean` returns the conditional expectation, given the conditioning nodes, of the values that
`sample` draws. -/
theorem C191_conditional_mean_partial {Ω : Type} [MeasurableSpace Ω] {μ : Measure Ω} [IsProbabilityMeasure μ] {D : CamDAG n α (Ω → ℝ)}
    (h : Listed D.dag D.names) {op : SetOrder α α} {o : SetOrder (Option α) α} {f : α → List ℝ → List α → ℝ} {e : α → Ω → ℝ}
    {x : Fin n → Ω → ℝ} {A : List (Fin n)} (hA : A ≠ []) (hAp : ∀ a ∈ A, ∀ b, (D.names b, D.names a) ∈ D.dag.arcs → b ∈ A)
    (hf : ∀ a, D.meanFunctions (D.names a) = some fun cols ps ω => f (D.names a) (cols.map fun c => c ω) ps)
    (he : ∀ a, D.noises (D.names a) = some (e (D.names a))) (hs : D.sample o op = some (.ok x))
    (hfm : ∀ v k ps, Measurable fun z : Fin k → ℝ => f v (List.ofFn z) ps)
    (hm : ∀ a, Measurable (e (D.names a))) (hi : ∀ a, Integrable (e (D.names a)) μ) (hmean : ∀ a, ∫ ω, e (D.names a) ω ∂μ = 0)
    (hind : iIndepFun (fun a => e (D.names a)) μ) (hxi : ∀ a, Integrable (x a) μ)
    (hroot : ∀ a, a ∉ A → (∀ b, (D.names b, D.names a) ∉ D.dag.arcs) → f (D.names a) [] [] = 0)
    (hlin : ∀ a, a ∉ A → (∀ b, (D.names b, D.names a) ∈ D.dag.arcs → b ∈ A) ∨ ∃ (w : α → ℝ) (c : ℝ), ∀ (ps : List α) (z : α → ℝ),
      f (D.names a) (ps.map z) ps = (ps.map fun p => w p * z p).sum + c) :
    ∃ y : Fin n → Ω → ℝ, D.conditionalMean o op (A.map x) (A.map D.names) true = some (.ok y) ∧
      ∀ a, μ[x a | MeasurableSpace.comap (fun ω (b : {b // b ∈ A}) => x b ω) inferInstance] =ᵐ[μ] y a := by
  have hroot' : ∀ a, D.dag.parents (D.names a) = ∅ → ∀ b, (D.names b, D.names a) ∉ D.dag.arcs := fun a h0 b hb => by
    have := (h.valid.parents_iff _ _).2 hb
    simp [h0] at this
  have hpar : ∀ a, (∀ b, (D.names b, D.names a) ∈ D.dag.arcs → b ∈ A) → D.dag.parents (D.names a) ⊆ (A.map D.names).toFinset := by
    intro a ha u hu
    obtain ⟨b, rfl⟩ := h.parent_mem hu
    simp only [List.mem_toFinset, List.mem_map]
    exact ⟨b, ha b ((h.valid.parents_iff _ _).1 hu), rfl⟩
  have hAm : ∀ a, D.names a ∈ A.map D.names ↔ a ∈ A := fun a => by
    simp [h.inj.eq_iff]
  have hA' : ∀ v ∈ A.map D.names, D.dag.parents v ⊆ (A.map D.names).toFinset := by
    intro v hv
    obtain ⟨a, ha, rfl⟩ := List.mem_map.1 hv
    exact hpar a (hAp a ha)
  have hA'' : ∀ v ∈ A.map D.names, v ∈ D.dag.nodes := by
    intro v hv
    obtain ⟨a, -, rfl⟩ := List.mem_map.1 hv
    exact (h.range _).2 ⟨a, rfl⟩
  obtain ⟨X, h1, h2⟩ := CamDAG.sample_spec (op := op) (o := o) h (f := fun v cols ps ω => f v (cols.map fun c => c ω) ps)
    (fun a _ => hf a) he
  rw [hs] at h1
  have hX : x = X ∘ D.names := by injection h1 with h1; injection h1
  obtain ⟨y, h3, h4⟩ := CamDAG.conditionalMean_spec (op := op) (o := o) (b := true) h hA'' (fun _ => ⟨by simpa using hA, hA'⟩)
    (f := fun v cols ps ω => f v (cols.map fun c => c ω) ps) (fun a _ => hf a) X
  have hval : A.map x = (A.map D.names).map X := by rw [List.map_map, hX]
  rw [← hval] at h3
  refine ⟨_, h3, fun a => ?_⟩
  have := CamDAG.condExp_mean h (f := f) (x := X) (y := y) (e := e) hA'' hA' (op := op) (fun v => hfm v _ _) ?_ ?_ hm hi hmean hind
    (fun a => by have := hxi a; rwa [hX] at this) ?_ ?_ a
  · refine Filter.EventuallyEq.trans (Filter.EventuallyEq.of_eq ?_) this
    rw [hX]
    have hc : MeasurableSpace.comap (fun ω (b : {b // b ∈ A}) => (X ∘ D.names) b ω) inferInstance =
        MeasurableSpace.comap (fun ω (v : {v // v ∈ A.map D.names}) => X v ω) inferInstance := by
      apply le_antisymm
      · refine Measurable.comap_le (@measurable_pi_lambda _ _ _ (MeasurableSpace.comap (fun ω (v : {v // v ∈ A.map D.names}) => X v ω) inferInstance) _ _ fun b => ?_)
        exact (measurable_pi_apply (⟨D.names b, (hAm b).2 b.2⟩ : {v // v ∈ A.map D.names})).comp
          (comap_measurable fun ω (v : {v // v ∈ A.map D.names}) => X v ω)
      · refine Measurable.comap_le (@measurable_pi_lambda _ _ _ (MeasurableSpace.comap (fun ω (b : {b // b ∈ A}) => (X ∘ D.names) b ω) inferInstance) _ _ fun v => ?_)
        obtain ⟨v, hv⟩ := v
        obtain ⟨b, hb, rfl⟩ := List.mem_map.1 hv
        exact (measurable_pi_apply (⟨b, hb⟩ : {b // b ∈ A})).comp (comap_measurable fun ω (b : {b // b ∈ A}) => (X ∘ D.names) b ω)
    rw [hc]
    rfl
  · intro v hv ω
    have := congrFun (h2 v hv) ω
    rw [this, CamDAG.eqn, Pi.add_apply]
    split
    · rfl
    · simp [List.map_map, Function.comp_def]
  · intro v hv ω
    have := congrFun (h4 v hv) ω
    rw [this, CamDAG.meanEqn]
    split
    · rfl
    · simp [List.map_map, Function.comp_def]
  · intro v hv hvA h0
    obtain ⟨b, rfl⟩ := (h.range v).1 hv
    exact hroot b (fun hb => hvA ((hAm b).2 hb)) (hroot' b h0)
  · intro v hv hvA
    obtain ⟨b, rfl⟩ := (h.range v).1 hv
    rcases hlin b (fun hb => hvA ((hAm b).2 hb)) with hl | ⟨w, c, hw⟩
    · exact .inl (hpar b hl)
    · exact .inr ⟨w, c, fun z => hw _ z⟩

/-- C191. A root outside the conditioning set needs no mean function for `sample`, but `conditional_mean` raises a `KeyError`. The same
for every other node without mean function. -/
theorem C191_missing [AddMonoid S] {D : CamDAG n α S} (h : Listed D.dag D.names) {A : List α} {b : Bool}
    (hb : b = true → A ≠ [] ∧ ∀ v ∈ A, D.dag.parents v ⊆ A.toFinset) {c : Fin n} (hc : D.names c ∉ A)
    (hf : D.meanFunctions (D.names c) = none) (o : SetOrder (Option α) α) (op : SetOrder α α) (vals : List S)
    (hv : vals.length = A.length) : D.conditionalMean o op vals A b = some (.error .key) := by
  obtain ⟨t, ht, hl⟩ := h.valid.sort o
  unfold CamDAG.conditionalMean
  rw [if_neg (by simp [hv]), if_neg (fun hc => (hb hc.1).1 hc.2), if_neg (fun hc => hc.2 (hb hc.1).2), ht]
  dsimp only
  have hm : D.names c ∈ t.filter (· ∉ A) := by
    rw [List.mem_filter]
    exact ⟨(hl.mem_iff _).2 ((h.range _).2 ⟨c, rfl⟩), by simpa using hc⟩
  cases A.mapM (lastIx D.names) with
  | none => rfl
  | some ixs =>
    dsimp only
    generalize (ixs.zip vals).foldl (fun x p => Function.update x p.1 p.2) (0 : Fin n → S) = x
    generalize t.filter (· ∉ A) = l at hm
    congr 1
    induction l generalizing x with
    | nil => simp at hm
    | cons v l ih =>
      rw [CamDAG.meanLoop]
      split
      · rename_i h1 h2 h3
        rcases List.mem_cons.1 hm with rfl | hm
        · rw [hf] at h2; cases h2
        · exact ih _ hm
      · rfl

/-- C191. With `check_valid=True` an empty list of conditioning nodes raises a `TypeError`, though no parent is missing. -/
theorem C191_empty [AddMonoid S] (D : CamDAG n α S) (o : SetOrder (Option α) α) (op : SetOrder α α) :
    D.conditionalMean o op [] [] true = some (.error .type) := by
  unfold CamDAG.conditionalMean
  rw [if_neg (by simp), if_pos ⟨rfl, rfl⟩]

/-- C191. With `check_valid=True` a conditioning set that lacks a parent of one of its nodes raises an `AssertionError`, and so does,
always, a number of columns different from the number of conditioning nodes. -/
theorem C191_invalid [AddMonoid S] (D : CamDAG n α S) (o : SetOrder (Option α) α) (op : SetOrder α α) (A : List α) (vals : List S) :
    (∀ u v, v ∈ A → u ∈ D.dag.parents v → u ∉ A → D.conditionalMean o op vals A true = some (.error .assertion)) ∧
      (vals.length ≠ A.length → ∀ b, D.conditionalMean o op vals A b = some (.error .assertion)) := by
  constructor
  · intro u v hv hu huA
    unfold CamDAG.conditionalMean
    split
    · rfl
    · rw [if_neg (by rintro ⟨-, rfl⟩; simp at hv), if_pos]
      exact ⟨rfl, fun hc => huA (by simpa using hc v hv hu)⟩
  · intro hl b
    unfold CamDAG.conditionalMean
    rw [if_pos (Ne.symm hl)]

namespace CamMean

/-- 0 → 1 → 2 -/
def names : Fin 3 → Fin 3 := id

def graph : DAG (Fin 3) := _root_.Sample.graph {(0, 1), (1, 2)}

theorem listed : Listed graph names :=
  ⟨(_root_.Sample.graph_valid (by decide)).sortable, by decide, by decide⟩

/-- Standard normal noise, mean functions `f`. -/
def model (f : Fin 3 → List ℝ → List (Fin 3) → ℝ) : CamDAG 3 (Fin 3) ((Fin 3 → ℝ) → ℝ) :=
  ⟨graph, names, fun v => some fun cols ps ω => f v (cols.map fun c => c ω) ps, fun v => some fun ω => ω v⟩

theorem sample_eq (f : Fin 3 → List ℝ → List (Fin 3) → ℝ) (o : SetOrder (Option (Fin 3)) (Fin 3)) (op : SetOrder (Fin 3) (Fin 3)) :
    (model f).sample o op = some (.ok ![fun ω => ω 0, fun ω => f 1 [ω 0] [0] + ω 1, fun ω => f 2 [f 1 [ω 0] [0] + ω 1] [1] + ω 2]) := by
  obtain ⟨y, h1, h2⟩ := CamDAG.sample_spec (D := model f) (op := op) (o := o) (e := fun v ω => ω v) listed
    (f := fun v cols ps ω => f v (cols.map fun c => c ω) ps) (fun _ _ => rfl) (fun _ => rfl)
  have p0 : (model f).dag.parents 0 = ∅ := show graph.parents 0 = ∅ by decide
  have p1 : (model f).dag.parents 1 = {0} := show graph.parents 1 = {0} by decide
  have p2 : (model f).dag.parents 2 = {1} := show graph.parents 2 = {1} by decide
  have o1 : ∀ v w : Fin 3, op.ord v {w} = [w] := fun v w => by
    have := (List.perm_ext_iff_of_nodup (op.nodup v {w}) (List.nodup_singleton w)).2 fun a => by simp [op.mem_iff]
    exact List.perm_singleton.1 this
  have e0 := h2 0 (show 0 ∈ graph.nodes by decide)
  have e1 := h2 1 (show 1 ∈ graph.nodes by decide)
  have e2 := h2 2 (show 2 ∈ graph.nodes by decide)
  simp only [CamDAG.eqn, p0, p1, p2, o1, if_true, Finset.singleton_ne_empty, if_false, List.map_cons, List.map_nil, zero_add] at e0 e1 e2
  rw [h1]
  congr 2
  funext a
  fin_cases a
  · exact e0
  · change y 1 = _; rw [e1, e0]; rfl
  · change y 2 = _; rw [e2, e1, e0]; rfl

theorem mean_eq (f : Fin 3 → List ℝ → List (Fin 3) → ℝ) (o : SetOrder (Option (Fin 3)) (Fin 3)) (op : SetOrder (Fin 3) (Fin 3))
    (x0 : (Fin 3 → ℝ) → ℝ) :
    (model f).conditionalMean o op [x0] [0] true = some (.ok ![x0, fun ω => f 1 [x0 ω] [0], fun ω => f 2 [f 1 [x0 ω] [0]] [1]]) := by
  have p0 : (model f).dag.parents 0 = ∅ := show graph.parents 0 = ∅ by decide
  have p1 : (model f).dag.parents 1 = {0} := show graph.parents 1 = {0} by decide
  have p2 : (model f).dag.parents 2 = {1} := show graph.parents 2 = {1} by decide
  obtain ⟨y, h1, h2⟩ := CamDAG.conditionalMean_spec (D := model f) (op := op) (o := o) (A := [0]) (b := true) listed
    (show ∀ v ∈ [0], v ∈ graph.nodes by decide) (fun _ => ⟨by simp, by simp [p0]⟩)
    (f := fun v cols ps ω => f v (cols.map fun c => c ω) ps) (fun _ _ => rfl) (fun _ => x0)
  have o1 : ∀ v w : Fin 3, op.ord v {w} = [w] := fun v w => by
    have := (List.perm_ext_iff_of_nodup (op.nodup v {w}) (List.nodup_singleton w)).2 fun a => by simp [op.mem_iff]
    exact List.perm_singleton.1 this
  have e0 := h2 0 (show 0 ∈ graph.nodes by decide)
  have e1 := h2 1 (show 1 ∈ graph.nodes by decide)
  have e2 := h2 2 (show 2 ∈ graph.nodes by decide)
  simp only [CamDAG.meanEqn, p1, p2, o1, List.mem_singleton, if_true, one_ne_zero, if_false, List.map_cons, List.map_nil,
    show (2 : Fin 3) ≠ 0 by decide] at e0 e1 e2
  rw [List.map_singleton] at h1
  rw [h1]
  congr 2
  funext a
  fin_cases a
  · exact e0
  · change y 1 = _; rw [e1, e0]; rfl
  · change y 2 = _; rw [e2, e1, e0]; rfl

/-- The noise. -/
noncomputable def law : Measure (Fin 3 → ℝ) := Measure.pi fun _ => gaussianReal 0 (1 : ℝ).toNNReal

instance : IsProbabilityMeasure law := by unfold law; infer_instance

theorem noise : NormalNoise law (0 : Fin 3 → ℝ) 1 fun i ω => ω i := normalNoise_exists 0 1

theorem noise_int (k : Fin 3) : Integrable (fun ω : Fin 3 → ℝ => ω k) law :=
  (noise.gaussian k).memLp_two.integrable (by norm_num)

/-- Affine mean functions. -/
def affine : Fin 3 → List ℝ → List (Fin 3) → ℝ := fun _ l _ => 2 * l.sum

theorem measurable_sum_ofFn (k : ℕ) : Measurable fun z : Fin k → ℝ => (List.ofFn z).sum := by
  simp only [List.sum_ofFn]
  exact Finset.measurable_sum _ fun i _ => measurable_pi_apply i

end CamMean

open CamMean in
/-- Affine mean functions on 0 → 1 → 2, given node 0. -/
example (o : SetOrder (Option (Fin 3)) (Fin 3)) (op : SetOrder (Fin 3) (Fin 3)) :
    ∃ x y : Fin 3 → (Fin 3 → ℝ) → ℝ, (model affine).sample o op = some (.ok x) ∧
      (model affine).conditionalMean o op [x 0] [0] true = some (.ok y) ∧
      law[x 2 | MeasurableSpace.comap (fun ω (b : {b : Fin 3 // b ∈ [0]}) => x b ω) inferInstance] =ᵐ[law] y 2 := by
  have hs := sample_eq affine o op
  obtain ⟨y, h1, h2⟩ := C191_conditional_mean_partial (μ := law) (D := model affine) listed (f := affine) (e := fun v ω => ω v) (A := [0])
    (by simp) (by decide) (fun _ => rfl) (fun _ => rfl) hs (fun v k ps => (measurable_sum_ofFn k).const_mul 2) noise.meas noise_int
    noise.mean noise.indep (by
      intro a
      fin_cases a
      · exact noise_int 0
      · exact (((noise_int 0).const_mul 2).add (noise_int 1)).congr (by simp [affine]; rfl)
      · exact (((((noise_int 0).const_mul 2).add (noise_int 1)).const_mul 2).add (noise_int 2)).congr (by simp [affine]; rfl))
    (fun _ _ _ => by simp [affine])
    (fun a _ => .inr ⟨fun _ => 2, 0, fun ps z => by simp [affine, List.sum_map_mul_left]⟩)
  exact ⟨_, y, hs, h1, h2 2⟩

open CamMean in
/-- C191 is violated: on 0 → 1 → 2 with mean functions x ↦ x and x ↦ x² and independent standard normal noise, `conditional_mean`
given node 0 is not the conditional expectation of node 2. -/
theorem C191_violated (o : SetOrder (Option (Fin 3)) (Fin 3)) (op : SetOrder (Fin 3) (Fin 3)) :
    ∃ (D : CamDAG 3 (Fin 3) ((Fin 3 → ℝ) → ℝ)) (μ : Measure (Fin 3 → ℝ)) (x y : Fin 3 → (Fin 3 → ℝ) → ℝ), Listed D.dag D.names ∧
      NormalNoise μ (0 : Fin 3 → ℝ) 1 (fun i ω => ω i) ∧ (∀ v, D.noises v = some fun ω => ω v) ∧
      D.sample o op = some (.ok x) ∧ (∀ a, Integrable (x a) μ) ∧ D.conditionalMean o op [x 0] [0] true = some (.ok y) ∧
      ¬ μ[x 2 | MeasurableSpace.comap (fun ω (b : {b : Fin 3 // b ∈ [0]}) => x b ω) inferInstance] =ᵐ[μ] y 2 := by
  let f : Fin 3 → List ℝ → List (Fin 3) → ℝ := fun v l _ => if v = 2 then l.sum ^ 2 else l.sum
  have i0 := noise_int 0
  have i1 := noise_int 1
  have i2 := noise_int 2
  have q : ∀ k, ∫ ω, ω k ^ 2 ∂law = 1 := fun k => by
    have := variance_of_integral_eq_zero (noise.meas k).aemeasurable (noise.mean k)
    rw [← this]
    have hv := variance_map (μ := law) (X := id) (Y := fun ω : Fin 3 → ℝ => ω k) aemeasurable_id (noise.meas k).aemeasurable
    rw [noise.law k] at hv
    simp only [Function.id_comp] at hv
    rw [← hv, variance_id_gaussianReal]
    simp
  have hq : ∀ k, Integrable (fun ω : Fin 3 → ℝ => ω k ^ 2) law := fun k => (noise.gaussian k).memLp_two.integrable_sq
  have hind : IndepFun (fun ω : Fin 3 → ℝ => ω 0) (fun ω => ω 1) law := noise.indep.indepFun (by decide)
  have hprod : ∫ ω, ω 0 * ω 1 ∂law = 0 := by
    have := hind.integral_mul_eq_mul_integral (noise.meas 0).aestronglyMeasurable (noise.meas 1).aestronglyMeasurable
    rw [noise.mean 0] at this
    simpa using this
  have hpi : Integrable (fun ω : Fin 3 → ℝ => ω 0 * ω 1) law := hind.integrable_mul i0 i1
  have hs := sample_eq f o op
  have hx2 : (fun ω : Fin 3 → ℝ => f 2 [f 1 [ω 0] [0] + ω 1] [1] + ω 2) =
      fun ω => (ω 0 ^ 2 + 2 * (ω 0 * ω 1) + ω 1 ^ 2) + ω 2 := by
    funext ω; simp [f]; ring
  have hsq' : Integrable (fun ω : Fin 3 → ℝ => ω 0 ^ 2 + 2 * (ω 0 * ω 1)) law := (hq 0).add (hpi.const_mul 2)
  have hsq : Integrable (fun ω : Fin 3 → ℝ => ω 0 ^ 2 + 2 * (ω 0 * ω 1) + ω 1 ^ 2) law := hsq'.add (hq 1)
  have hint : Integrable (fun ω : Fin 3 → ℝ => f 2 [f 1 [ω 0] [0] + ω 1] [1] + ω 2) law := by rw [hx2]; exact hsq.add i2
  refine ⟨model f, law, _, _, listed, noise, fun _ => rfl, hs, ?_, mean_eq f o op _, fun hc => ?_⟩
  · intro a
    fin_cases a
    · exact i0
    · exact (i0.add i1).congr (by simp [f]; rfl)
    · exact hint
  · have hle : MeasurableSpace.comap (fun ω (b : {b : Fin 3 // b ∈ [0]}) => (![fun ω => ω 0, fun ω => f 1 [ω 0] [0] + ω 1,
        fun ω => f 2 [f 1 [ω 0] [0] + ω 1] [1] + ω 2] : Fin 3 → (Fin 3 → ℝ) → ℝ) b ω) inferInstance ≤
        (inferInstance : MeasurableSpace (Fin 3 → ℝ)) := by
      refine Measurable.comap_le (measurable_pi_lambda _ fun b => ?_)
      obtain ⟨b, hb⟩ := b
      have : b = 0 := by simpa using hb
      subst this
      exact noise.meas 0
    have h1 := integral_congr_ae hc
    rw [integral_condExp hle] at h1
    have e1 : ∫ ω, (![fun ω => ω 0, fun ω => f 1 [ω 0] [0] + ω 1,
        fun ω => f 2 [f 1 [ω 0] [0] + ω 1] [1] + ω 2] : Fin 3 → (Fin 3 → ℝ) → ℝ) 2 ω ∂law = 2 := by
      change ∫ ω, (f 2 [f 1 [ω 0] [0] + ω 1] [1] + ω 2) ∂law = 2
      rw [show (fun ω : Fin 3 → ℝ => f 2 [f 1 [ω 0] [0] + ω 1] [1] + ω 2) = _ from hx2, integral_add hsq i2,
        integral_add hsq' (hq 1), integral_add (hq 0) (hpi.const_mul 2), integral_const_mul, hprod, q, q,
        noise.mean 2]
      norm_num
    rw [e1] at h1
    have e2 : ∫ ω, (![(fun ω => ω 0), fun ω => f 1 [ω 0] [0], fun ω => f 2 [f 1 [ω 0] [0]] [1]] : Fin 3 → (Fin 3 → ℝ) → ℝ) 2 ω ∂law = 1 := by
      rw [← q 0]
      refine integral_congr_ae (.of_forall fun ω => ?_)
      simp [f]
    have : (2 : ℝ) = 1 := h1.trans e2
    norm_num at this

open CamMean in
/-- C191 is violated: `sample` works without mean functions of roots, `conditional_mean` does not. -/
theorem C191_violated_root (o : SetOrder (Option (Fin 3)) (Fin 3)) (op : SetOrder (Fin 3) (Fin 3)) :
    ∃ D : CamDAG 3 (Fin 3) ℤ, Listed D.dag D.names ∧ D.dag.parents 0 = ∅ ∧ (∃ x, D.sample o op = some (.ok x)) ∧
      D.conditionalMean o op [] [] = some (.error .key) := by
  let D : CamDAG 3 (Fin 3) ℤ := ⟨graph, names, fun v => if v = 0 then none else some fun l _ => l.sum, fun _ => some 1⟩
  obtain ⟨x, -, hx⟩ := C57_cam (D := D) (f := fun _ l _ => l.sum) (e := fun _ => 1) listed
    (fun a ha => if_neg fun h0 : a = 0 => ha (by subst h0; decide)) (fun _ => rfl) op
  exact ⟨D, listed, by decide, ⟨x, hx o⟩, C191_missing (D := D) (c := 0) listed (by simp) (by simp) rfl o op [] rfl⟩

example := C191_equations (D := Sampling.cam) (f := fun _ s _ => s.sum) (A := [0, 1]) (b := true) Sampling.listed (by decide)
  (by decide) (fun _ _ => rfl)

example (o op) : Sampling.cam.conditionalMean o op [5] [2] true = some (.error .assertion) :=
  (C191_invalid Sampling.cam o op [2] [5]).1 0 2 (by simp) (by decide) (by decide)

end Props
