import Verif.Proof.GaussSet
import Mathlib.Algebra.Ring.GeomSum

/-! # Total effects and counterfactuals -/

namespace Model

set_option linter.unusedSectionVars false
open Relation Spec

namespace Gauss

variable {n : ℕ} {K : Type} [Field K]

theorem effects_loop (W : Matrix (Fin n) (Fin n) K) (m : ℕ) :
    (List.range m).foldl (fun (s : Matrix (Fin n) (Fin n) K × Matrix (Fin n) (Fin n) K) _ => (s.1 + s.2, s.2 * W)) (0, W) =
      (∑ k ∈ Finset.range m, W ^ (k + 1), W ^ (m + 1)) := by
  induction m with
  | zero => simp
  | succ m ih =>
    rw [List.range_succ, List.foldl_append, ih, Finset.sum_range_succ]
    simp [pow_succ]

theorem directEffects_eq (G : Gauss n K) : G.directEffects = ∑ k ∈ Finset.range n, G.weight ^ (k + 1) := by
  unfold directEffects
  rw [effects_loop]

theorem pow_rank {A : Matrix (Fin n) (Fin n) K} {r : Fin n → ℕ} (hr : ∀ i j, A i j ≠ 0 → r i < r j) (k : ℕ) :
    ∀ i j, (A ^ k) i j ≠ 0 → r i + k ≤ r j := by
  induction k with
  | zero =>
    intro i j h
    rw [pow_zero, Matrix.one_apply] at h
    have : i = j := by by_contra hc; exact h (if_neg hc)
    rw [this]; simp
  | succ k ih =>
    intro i j h
    rw [pow_succ, Matrix.mul_apply] at h
    obtain ⟨l, -, hl⟩ := Finset.exists_ne_zero_of_sum_ne_zero h
    have h1 := ih i l (left_ne_zero_of_mul hl)
    have h2 := hr l j (right_ne_zero_of_mul hl)
    omega

theorem nilpotent {G : Gauss n K} (h : G.Sound) : G.weight ^ n = 0 := by
  obtain ⟨l, -, hl⟩ := h.listed.valid.sort ⟨fun _ s => s.toList, fun _ s => s.nodup_toList, by simp⟩
  have hlen : l.length = n := by
    have h1 : l.toFinset = Finset.univ.image G.names := by
      ext v
      rw [List.mem_toFinset, hl.mem_iff, Finset.mem_coe, h.listed.range]
      simp
    rw [← List.toFinset_card_of_nodup hl.nodup, h1, Finset.card_image_of_injective _ h.listed.inj]
    simp
  ext i j
  by_contra hc
  have := pow_rank (r := fun a => l.idxOf (G.names a))
    (fun i j hij => DAG.linearExtension_idxOf hl (.single ((h.arcs_iff i j).2 hij))) n i j hc
  have hj : l.idxOf (G.names j) < l.length :=
    List.idxOf_lt_length_iff.2 ((hl.mem_iff _).2 ((h.listed.range _).2 ⟨j, rfl⟩))
  omega

theorem sound_acyclic {G : Gauss n K} (h : G.Sound) : AcyclicWeights G.weight := by
  intro v hv
  refine h.listed.valid.acyclic (G.names v) ?_
  have : ∀ w, TransGen (fun i j => G.weight i j ≠ 0) v w → TransGen G.dag.E (G.names v) (G.names w) := by
    intro w hw
    induction hw with
    | single hab => exact .single ((h.arcs_iff _ _).2 hab)
    | tail _ hab ih => exact ih.tail ((h.arcs_iff _ _).2 hab)
  exact this v hv

theorem inv_eq_effects {G : Gauss n K} (h : G.Sound) : (1 - G.weight)⁻¹ = 1 + G.directEffects := by
  have hm : (1 - G.weight) * (1 + G.directEffects) = 1 := by
    have : 1 + G.directEffects = ∑ k ∈ Finset.range (n + 1), G.weight ^ k := by
      rw [directEffects_eq, Finset.sum_range_succ', pow_zero, add_comm]
    rw [this, mul_neg_geom_sum, pow_succ, nilpotent h, Matrix.zero_mul, sub_zero]
  exact Matrix.inv_eq_right_inv hm

/-! ## Sampling for general node lists -/

section Sample

variable {M : Type} [AddCommGroup M] [Module K M] {G : Gauss n K}

theorem Sound.parents_pos (h : G.Sound) (op : SetOrder ℕ ℕ) (j : Fin n) :
    ∃ ps : List (Fin n), (op.ord (G.names j) (G.dag.parents (G.names j))).mapM G.ix = some ps ∧ ps.Nodup ∧
      ∀ p, p ∈ ps ↔ G.weight p j ≠ 0 := by
  obtain ⟨ps, h1, h2⟩ := h.listed.parents_mapM op (G.names j)
  refine ⟨ps, h1, ?_, fun p => ?_⟩
  · have := op.nodup (G.names j) (G.dag.parents (G.names j))
    rw [← h2] at this
    exact List.Nodup.of_map _ this
  · rw [← h.arcs_iff, ← h.listed.valid.parents_iff, ← op.mem_iff (G.names j), ← h2, List.mem_map]
    constructor
    · intro hp; exact ⟨p, hp, rfl⟩
    · rintro ⟨q, hq, e⟩
      rwa [h.listed.inj e] at hq

theorem parents_sum' {ps : List (Fin n)} (hn : ps.Nodup) {j : Fin n} (hp : ∀ p, p ∈ ps ↔ G.weight p j ≠ 0) (x : Fin n → M) :
    (ps.map fun p => G.weight p j • x p).sum = ∑ i, G.weight i j • x i := by
  rw [← List.sum_toFinset _ hn]
  refine Finset.sum_subset (Finset.subset_univ _) fun i _ hi => ?_
  have : G.weight i j = 0 := by
    by_contra hc
    exact hi (by rw [List.mem_toFinset]; exact (hp i).2 hc)
  rw [this, zero_smul]

theorem Sound.sampleLoop_eq (h : G.Sound) (hcol : ∀ i j, G.weight i j ≠ 0 → G.names j = j.val) (op : SetOrder ℕ ℕ)
    (noise : Fin n → M) (t : List (Fin n)) (x : Fin n → M) :
    G.sampleLoop op noise (t.map G.names) x =
      .ok (steps id (fun j x => ∑ i, G.weight i j • x i + noise j) t x) := by
  induction t generalizing x with
  | nil => rfl
  | cons j t ih =>
    obtain ⟨ps, h1, h2, h3⟩ := h.parents_pos op j
    have hix : G.ix (G.names j) = some j := lastIx_names h.listed.inj j
    rw [List.map_cons, sampleLoop, steps, hix, h1]
    simp only [id]
    by_cases hc : (G.dag.parents (G.names j)).card ≠ 0
    · rw [if_pos hc]
      obtain ⟨p, hp⟩ := Finset.card_ne_zero.1 hc
      have hpa := (h.listed.valid.parents_iff _ _).1 hp
      obtain ⟨i, rfl⟩ := (h.listed.range _).1 (h.listed.valid.fst_mem _ _ hpa)
      have := hcol i j ((h.arcs_iff i j).1 hpa)
      rw [this, at?_val]
      dsimp only
      rw [parents_sum' h2 h3, ih]
    · rw [if_neg hc, ih]
      have : ∑ i, G.weight i j • x i = 0 := by
        refine Finset.sum_eq_zero fun i _ => ?_
        have : G.weight i j = 0 := by
          by_contra hw
          exact hc (Finset.card_ne_zero_of_mem ((h.listed.valid.parents_iff _ _).2 ((h.arcs_iff i j).2 hw)))
        rw [this, zero_smul]
      rw [this, zero_add]

theorem Sound.sort (h : G.Sound) (o : SetOrder (Option ℕ) ℕ) :
    ∃ t : List (Fin n), (DAG.topologicalSort G.dag o).run = some (.ok (t.map G.names)) ∧
      LinearExtension Set.univ (fun i j => G.weight i j ≠ 0) t := by
  obtain ⟨l, hl, hL⟩ := h.listed.valid.sort o
  obtain ⟨t, -, ht⟩ := mapM_names h.listed.inj (l := l) fun v hv => (h.listed.range v).1 ((hL.mem_iff v).1 hv)
  refine ⟨t, by rw [ht, hl], ?_, ?_, ?_⟩
  · apply List.Nodup.of_map G.names
    rw [ht]; exact hL.nodup
  · intro v
    simp only [Set.mem_univ, iff_true]
    have : G.names v ∈ t.map G.names := by rw [ht]; exact (hL.mem_iff _).2 ((h.listed.range _).2 ⟨v, rfl⟩)
    obtain ⟨w, hw, e⟩ := List.mem_map.1 this
    rwa [h.listed.inj e] at hw
  · intro i j hij
    have := hL.before _ _ ((h.arcs_iff i j).2 hij)
    rw [← ht, ← List.map_singleton, ← List.map_cons] at this
    obtain ⟨l', hl', e⟩ := List.sublist_map_iff.1 this
    have e' : ([i, j] : List (Fin n)) = l' := List.map_injective_iff.2 h.listed.inj e
    rw [e']; exact hl'

theorem steps_solve' {F : Fin n → (Fin n → M) → M} {t : List (Fin n)}
    (hl : LinearExtension Set.univ (fun i j => G.weight i j ≠ 0) t)
    (hloc : ∀ j, ∀ x y : Fin n → M, (∀ u, G.weight u j ≠ 0 → x u = y u) → F j x = F j y) (x : Fin n → M) (j : Fin n) :
    steps id F t x j = F j (steps id F t x) := by
  refine steps_eq (E := fun i j => G.weight i j ≠ 0) hl.nodup (fun _ _ _ _ e => e) (fun v _ => hloc v) ?_ x j
    ((hl.mem_iff j).2 trivial)
  intro p v r hp u hu w hw e
  change w = u at e
  subst e
  exact linearExtension_order hl hp hu hw

theorem Sound.sample_spec (h : G.Sound) (hcol : ∀ i j, G.weight i j ≠ 0 → G.names j = j.val) (o : SetOrder (Option ℕ) ℕ)
    (op : SetOrder ℕ ℕ) (noise : Fin n → M) :
    ∃ x, G.sample o op noise = some (.ok x) ∧ LinearSEM G.weight noise x := by
  obtain ⟨t, ht, hl⟩ := h.sort o
  refine ⟨_, by unfold sample; rw [ht]; dsimp only; rw [h.sampleLoop_eq hcol], fun j => ?_⟩
  refine steps_solve' hl (fun j x y hxy => ?_) _ j
  congr 1
  refine Finset.sum_congr rfl fun i _ => ?_
  by_cases hw : G.weight i j = 0
  · rw [hw, zero_smul, zero_smul]
  · rw [hxy i hw]

end Sample

end Gauss

end Model
