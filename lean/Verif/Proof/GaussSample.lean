import Verif.Proof.Gauss
import Mathlib.Probability.Moments.Covariance

/-! # `GaussDAG.sample`, `means` and counterfactuals on nodes `0, …, n-1` -/

namespace Model.Gauss

set_option linter.unusedSectionVars false
open Relation Spec

variable {n : ℕ} {K : Type} [Field K] {M : Type} [AddCommGroup M] [Module K M]

theorem ord_sum {κ β : Type} [DecidableEq β] {op : SetOrder κ β} {k : κ} {s : Finset β} {N : Type} [AddCommMonoid N] (f : β → N) :
    ((op.ord k s).map f).sum = ∑ b ∈ s, f b := by
  rw [← List.sum_toFinset f (op.nodup k s)]
  congr 1
  ext b; simp [op.mem_iff]

theorem at?_val (a : Fin n) : at? n a.val = some a := by simp [at?]

namespace Plain

variable {G : Gauss n K} (h : Plain G)
include h

theorem nodes (v : ℕ) : v ∈ G.dag.nodes ↔ v < n := by
  rw [h.listed.range]
  constructor
  · rintro ⟨a, rfl⟩
    rw [h.names]; exact a.2
  · exact fun hv => ⟨⟨v, hv⟩, h.names _⟩

theorem valid : G.dag.Sortable := h.listed.valid

theorem arcs (a b : Fin n) : (a.val, b.val) ∈ G.dag.arcs ↔ G.weight a b ≠ 0 := by
  have := h.arcs_iff a b
  rwa [h.names, h.names] at this

theorem acyclic : AcyclicWeights G.weight := by
  intro v hv
  refine h.valid.acyclic v.val ?_
  have : ∀ w, TransGen (fun i j => G.weight i j ≠ 0) v w → TransGen G.dag.E v.val w.val := by
    intro w hw
    induction hw with
    | single hab => exact .single ((h.arcs _ _).2 hab)
    | tail _ hab ih => exact ih.tail ((h.arcs _ _).2 hab)
  exact this v hv

theorem parents_mem (p j : Fin n) : p.val ∈ G.dag.parents j.val ↔ G.weight p j ≠ 0 :=
  (h.valid.parents_iff _ _).trans (h.arcs p j)

/-- Positions of the parents. -/
theorem parents_pos (op : SetOrder ℕ ℕ) (j : Fin n) :
    ∃ ps : List (Fin n), (op.ord j.val (G.dag.parents j.val)).mapM G.ix = some ps ∧ ps.Nodup ∧
      ∀ p, p ∈ ps ↔ G.weight p j ≠ 0 := by
  obtain ⟨ps, h1, h2⟩ := h.listed.parents_mapM op j.val
  refine ⟨ps, h1, ?_, fun p => ?_⟩
  · have := op.nodup j.val (G.dag.parents j.val)
    rw [← h2] at this
    exact List.Nodup.of_map _ this
  · rw [← h.parents_mem, ← op.mem_iff j.val, ← h2, List.mem_map]
    constructor
    · intro hp; exact ⟨p, hp, h.names p⟩
    · rintro ⟨q, hq, e⟩
      rw [h.names] at e
      rwa [Fin.ext e] at hq

theorem parents_sum {ps : List (Fin n)} (hn : ps.Nodup) {j : Fin n} (hp : ∀ p, p ∈ ps ↔ G.weight p j ≠ 0) (x : Fin n → M) :
    (ps.map fun p => G.weight p j • x p).sum = ∑ i, G.weight i j • x i := by
  rw [← List.sum_toFinset _ hn]
  refine Finset.sum_subset (Finset.subset_univ _) fun i _ hi => ?_
  have : G.weight i j = 0 := by
    by_contra hc
    exact hi (by rw [List.mem_toFinset]; exact (hp i).2 hc)
  rw [this, zero_smul]

theorem ix_val (a : Fin n) : G.ix a.val = some a := by
  have := lastIx_names h.listed.inj a
  rwa [h.names] at this

theorem sampleLoop_eq (op : SetOrder ℕ ℕ) (noise : Fin n → M) (t : List (Fin n)) (x : Fin n → M) :
    G.sampleLoop op noise (t.map Fin.val) x =
      .ok (steps id (fun j x => ∑ i, G.weight i j • x i + noise j) t x) := by
  induction t generalizing x with
  | nil => rfl
  | cons j t ih =>
    obtain ⟨ps, h1, h2, h3⟩ := h.parents_pos op j
    rw [List.map_cons, sampleLoop, steps, h.ix_val, at?_val, h1]
    simp only [id]
    by_cases hc : (G.dag.parents j.val).card ≠ 0
    · rw [if_pos hc, h.parents_sum h2 h3, ih]
    · rw [if_neg hc, ih]
      have : ∑ i, G.weight i j • x i = 0 := by
        refine Finset.sum_eq_zero fun i _ => ?_
        have : G.weight i j = 0 := by
          by_contra hw
          exact hc (Finset.card_ne_zero_of_mem ((h.parents_mem i j).2 hw))
        rw [this, zero_smul]
      rw [this, zero_add]

theorem counterLoop_eq (op : SetOrder ℕ ℕ) (ivn : ℕ → Option M) (noise : Fin n → M) (t : List (Fin n)) (x : Fin n → M) :
    G.counterLoop op ivn noise (t.map Fin.val) x =
      .ok (steps id (fun (j : Fin n) x => (ivn j.val).getD (∑ i, G.weight i j • x i + noise j)) t x) := by
  induction t generalizing x with
  | nil => rfl
  | cons j t ih =>
    obtain ⟨ps, h1, h2, h3⟩ := h.parents_pos op j
    rw [List.map_cons, counterLoop, steps, h.ix_val, at?_val, h1]
    simp only [id]
    cases hi : ivn j.val with
    | some m => simp only [Option.getD_some]; exact ih _
    | none => simp only [Option.getD_none]; rw [h.parents_sum h2 h3, ih]

/-- The topological order as a list of positions. -/
theorem sort (o : SetOrder (Option ℕ) ℕ) :
    ∃ t : List (Fin n), (DAG.topologicalSort G.dag o).run = some (.ok (t.map Fin.val)) ∧
      LinearExtension Set.univ (fun i j => G.weight i j ≠ 0) t := by
  obtain ⟨l, hl, hL⟩ := h.valid.sort o
  have hlt : ∀ v ∈ l, v < n := fun v hv => (h.nodes v).1 ((hL.mem_iff v).1 hv)
  have hm : (l.pmap (fun v hv => (⟨v, hv⟩ : Fin n)) hlt).map Fin.val = l := by
    rw [List.map_pmap]; simp
  refine ⟨l.pmap (fun v hv => ⟨v, hv⟩) hlt, by rw [hm, hl], ?_, ?_, ?_⟩
  · apply List.Nodup.of_map Fin.val
    rw [hm]; exact hL.nodup
  · intro v
    simp only [Set.mem_univ, iff_true, List.mem_pmap]
    exact ⟨v.val, (hL.mem_iff _).2 ((h.nodes _).2 v.2), rfl⟩
  · intro i j hij
    have := hL.before _ _ ((h.arcs i j).2 hij)
    rw [← hm, ← List.map_singleton, ← List.map_cons] at this
    have hinj : Function.Injective (Fin.val : Fin n → ℕ) := Fin.val_injective
    obtain ⟨l', hl', e⟩ := List.sublist_map_iff.1 this
    have e' : ([i, j] : List (Fin n)) = l' := List.map_injective_iff.2 hinj e
    rw [e']; exact hl'

/-- `steps` over the positions solves the equations. -/
theorem steps_solve {F : Fin n → (Fin n → M) → M} {t : List (Fin n)}
    (hl : LinearExtension Set.univ (fun i j => G.weight i j ≠ 0) t)
    (hloc : ∀ j, ∀ x y : Fin n → M, (∀ u, G.weight u j ≠ 0 → x u = y u) → F j x = F j y) (x : Fin n → M) (j : Fin n) :
    steps id F t x j = F j (steps id F t x) := by
  refine steps_eq (E := fun i j => G.weight i j ≠ 0) hl.nodup (fun _ _ _ _ e => e) (fun v _ => hloc v) ?_ x j
    ((hl.mem_iff j).2 trivial)
  intro p v r hp u hu w hw e
  change w = u at e
  subst e
  exact linearExtension_order hl hp hu hw

theorem sum_local (j : Fin n) (x y : Fin n → M) (hxy : ∀ u, G.weight u j ≠ 0 → x u = y u) :
    ∑ i, G.weight i j • x i = ∑ i, G.weight i j • y i := by
  refine Finset.sum_congr rfl fun i _ => ?_
  by_cases hw : G.weight i j = 0
  · rw [hw, zero_smul, zero_smul]
  · rw [hxy i hw]

theorem sample_spec (o : SetOrder (Option ℕ) ℕ) (op : SetOrder ℕ ℕ) (noise : Fin n → M) :
    ∃ x, G.sample o op noise = some (.ok x) ∧ LinearSEM G.weight noise x := by
  obtain ⟨t, ht, hl⟩ := h.sort o
  refine ⟨_, by unfold sample; rw [ht]; dsimp only; rw [h.sampleLoop_eq], fun j => ?_⟩
  exact h.steps_solve hl (fun j x y hxy => by rw [h.sum_local j x y hxy]) _ j

theorem counterfactuals_spec (o : SetOrder (Option ℕ) ℕ) (op : SetOrder ℕ ℕ) (samples : Fin n → M) (ivn : ℕ → Option M) :
    ∃ x, G.counterfactuals o op samples ivn = some (.ok x) ∧
      ∀ j : Fin n, x j = (ivn j.val).getD
        (∑ i, G.weight i j • x i + ∑ i, (1 - G.weight) i j • samples i) := by
  obtain ⟨t, ht, hl⟩ := h.sort o
  refine ⟨_, by unfold counterfactuals; rw [ht]; dsimp only; rw [h.counterLoop_eq], fun j => ?_⟩
  exact h.steps_solve hl (fun j x y hxy => by rw [h.sum_local j x y hxy]) _ j

theorem meansLoop_eq (op : SetOrder ℕ ℕ) (t : List (Fin n)) (x : Fin n → K) :
    G.meansLoop op t x = .ok (steps id (fun j x => ∑ i, G.weight i j • x i + G.biases j) t x) := by
  induction t generalizing x with
  | nil => rfl
  | cons j t ih =>
    obtain ⟨ps, h1, h2, h3⟩ := h.parents_pos op j
    rw [meansLoop, steps, h1]
    simp only [id]
    rw [← ih, ← h.parents_sum h2 h3]
    rfl

theorem means_spec (hlt : ∀ i j : Fin n, (i.val, j.val) ∈ G.dag.arcs → i < j) (op : SetOrder ℕ ℕ) :
    ∃ m, G.means op = .ok m ∧ LinearSEM G.weight G.biases m := by
  have hs : (List.finRange n).Pairwise (· < ·) := by
    rw [List.pairwise_iff_getElem]
    intro i j hi hj hij
    simpa using hij
  have hl : LinearExtension Set.univ (fun i j => G.weight i j ≠ 0) (List.finRange n) := by
    refine ⟨List.nodup_finRange n, by simp, fun i j hij => ?_⟩
    have hij := hlt i j ((h.arcs i j).2 hij)
    obtain ⟨p, r, hp⟩ := List.append_of_mem (List.mem_finRange i)
    have hj : j ∈ r := by
      have hj := List.mem_finRange j
      rw [hp, List.mem_append, List.mem_cons] at hj
      rcases hj with hj | hj | hj
      · rw [hp, List.pairwise_append] at hs
        exact absurd (hs.2.2 j hj i (by simp)) (not_lt.2 hij.le)
      · exact absurd hj.symm (ne_of_lt hij)
      · exact hj
    rw [hp]
    exact List.Sublist.trans (List.cons_sublist_cons.2 (List.singleton_sublist.2 hj)) (List.sublist_append_right _ _)
  refine ⟨_, by unfold means; rw [h.meansLoop_eq], fun j => ?_⟩
  exact h.steps_solve hl (fun j x y hxy => by rw [h.sum_local j x y hxy]) _ j

end Plain

section Moments

open MeasureTheory ProbabilityTheory

variable {Ω : Type} [MeasurableSpace Ω] {μ : Measure Ω} [IsProbabilityMeasure μ]

theorem sem_covariance {A : Matrix (Fin n) (Fin n) ℝ} (hA : AcyclicWeights A) {v : Fin n → ℝ} {e x : Fin n → Ω → ℝ}
    (he : ∀ k, MemLp (e k) 2 μ) (hv : ∀ k l, cov[e k, e l; μ] = if k = l then v k else 0) (hx : LinearSEM A e x)
    (i j : Fin n) :
    cov[x i, x j; μ] = ((1 - A)⁻¹.transpose * Matrix.diagonal v * (1 - A)⁻¹) i j := by
  rw [sem_solution hA hx i, sem_solution hA hx j,
    covariance_sum_sum (fun k => (he k).const_smul _) (fun k => (he k).const_smul _)]
  rw [Matrix.mul_apply]
  refine Finset.sum_congr rfl fun k _ => ?_
  rw [Matrix.mul_diagonal, Matrix.transpose_apply]
  simp only [covariance_smul_left, covariance_smul_right, hv]
  simp [mul_comm, mul_assoc]

theorem sem_mean {A : Matrix (Fin n) (Fin n) ℝ} {b : Fin n → ℝ} {e x : Fin n → Ω → ℝ} (hA : AcyclicWeights A)
    (he : ∀ k, Integrable (e k) μ) (hb : ∀ k, ∫ ω, e k ω ∂μ = b k) (hx : LinearSEM A e x) :
    LinearSEM A b fun j => ∫ ω, x j ω ∂μ := by
  have hi : ∀ j, Integrable (x j) μ := by
    intro j
    rw [sem_solution hA hx j]
    exact integrable_finsetSum' _ fun i _ => (he i).smul _
  intro j
  dsimp only
  rw [← hb j]
  calc ∫ ω, x j ω ∂μ = ∫ ω, (∑ i, A i j * x i ω) + e j ω ∂μ := by
        congr 1; funext ω
        have := congrFun (hx j) ω
        simpa using this
    _ = _ := by
        rw [integral_add (integrable_finsetSum _ fun i _ => (hi i).const_mul _) (he j),
          integral_finsetSum _ fun i _ => (hi i).const_mul _]
        simp only [integral_const_mul, smul_eq_mul]

end Moments

end Model.Gauss
