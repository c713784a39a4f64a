import Verif.Spec.RandomGraph
import Verif.Proof.Rand
import Mathlib.Algebra.BigOperators.Ring.Finset
import Mathlib.Algebra.Order.BigOperators.Group.Finset
import Mathlib.Tactic.Ring
import Mathlib.Tactic.FieldSimp
import Mathlib.Tactic.Linarith

/-! # The distribution of the random graphs -/

namespace Spec.Random

open Model Model.DAG

theorem mem_coins {N : ℕ} {bs : List Bool} : bs ∈ coins N ↔ bs.length = N := by
  unfold coins
  rw [Finset.mem_image]
  constructor
  · rintro ⟨f, _, rfl⟩; exact List.length_ofFn
  · rintro rfl; exact ⟨fun i => bs[i], Finset.mem_univ _, List.ofFn_getElem⟩

theorem mem_permutations {n : ℕ} {t : List ℕ} : t ∈ permutations n ↔ t.Perm (List.range n) := by
  unfold permutations
  rw [List.mem_toFinset, List.mem_permutations]

theorem permutations_pos (n : ℕ) : 0 < (permutations n).card :=
  Finset.card_pos.2 ⟨List.range n, mem_permutations.2 (List.Perm.refl _)⟩

theorem coinProb_eq (p : ℝ) (bs : List Bool) :
    coinProb p bs = p ^ bs.count true * (1 - p) ^ (bs.length - bs.count true) := by
  induction bs with
  | nil => simp [coinProb]
  | cons b bs ih =>
    have hle : bs.count true ≤ bs.length := List.count_le_length
    unfold coinProb at ih ⊢
    rw [List.map_cons, List.prod_cons, ih]
    cases b
    · simp only [Bool.false_eq_true, if_false, List.length_cons]
      rw [List.count_cons_of_ne (by simp), Nat.succ_sub hle, pow_succ]
      ring
    · simp only [if_true, List.length_cons, List.count_cons_self, Nat.add_sub_add_right]
      rw [pow_succ]
      ring

/-- The probability of a set of heads. -/
def weight (p : ℝ) (N k : ℕ) : ℝ := p ^ k * (1 - p) ^ (N - k)

/-- Summing over the outcomes is summing over the sets of heads. -/
theorem coinMean_eq {β : Type} [DecidableEq β] (p : ℝ) {l : List β} (hl : l.Nodup) (F : Finset β → ℝ) :
    (coinMean p l.length fun b => F (chosen l b).toFinset) =
      ∑ A ∈ l.toFinset.powerset, weight p l.length A.card * F A := by
  unfold coinMean
  refine Finset.sum_nbij (fun b => (chosen l b).toFinset) ?_ ?_ ?_ ?_
  · intro b _
    rw [Finset.mem_powerset]
    intro x hx
    rw [List.mem_toFinset] at hx ⊢
    exact (chosen_sublist _ _).subset hx
  · intro b hb c hc h
    refine chosen_inj hl (mem_coins.1 hb) (mem_coins.1 hc) fun x => ?_
    rw [← List.mem_toFinset, ← List.mem_toFinset]
    exact iff_of_eq (congrArg (x ∈ ·) h)
  · intro A hA
    rw [Finset.mem_coe, Finset.mem_powerset] at hA
    refine ⟨l.map fun x => decide (x ∈ A), mem_coins.2 (List.length_map _), ?_⟩
    ext x
    rw [List.mem_toFinset, chosen_map, List.mem_filter, decide_eq_true_eq]
    exact ⟨fun h => h.2, fun h => ⟨List.mem_toFinset.1 (hA h), h⟩⟩
  · intro b hb
    have hb' := mem_coins.1 hb
    rw [coinProb_eq, weight, List.toFinset_card_of_nodup (hl.sublist (chosen_sublist _ _)), chosen_length hb', hb']

/-- A bijection of the coins does not matter. -/
theorem sum_image {β γ : Type} [DecidableEq β] [DecidableEq γ] (p : ℝ) {N : ℕ} {P : Finset β} {Q : Finset γ} (e : β → γ)
    (he : ∀ x ∈ P, e x ∈ Q) (hinj : ∀ x ∈ P, ∀ y ∈ P, e x = e y → x = y) (hsurj : ∀ y ∈ Q, ∃ x ∈ P, e x = y)
    (F : Finset γ → ℝ) :
    ∑ A ∈ P.powerset, weight p N A.card * F (A.image e) = ∑ U ∈ Q.powerset, weight p N U.card * F U := by
  refine Finset.sum_nbij (fun A => A.image e) ?_ ?_ ?_ ?_
  · intro A hA
    rw [Finset.mem_powerset] at hA ⊢
    intro y hy
    obtain ⟨x, hx, rfl⟩ := Finset.mem_image.1 hy
    exact he x (hA hx)
  · intro A hA B hB h
    rw [Finset.mem_coe, Finset.mem_powerset] at hA hB
    have key : ∀ {A B : Finset β}, A ⊆ P → B ⊆ P → A.image e = B.image e → A ⊆ B := by
      intro A B hA hB h x hx
      have : e x ∈ B.image e := h ▸ Finset.mem_image_of_mem e hx
      obtain ⟨y, hy, hxy⟩ := Finset.mem_image.1 this
      obtain rfl := hinj y (hB hy) x (hA hx) hxy
      exact hy
    exact Finset.Subset.antisymm (key hA hB h) (key hB hA h.symm)
  · intro U hU
    rw [Finset.mem_coe, Finset.mem_powerset] at hU
    refine ⟨P.filter fun x => e x ∈ U, ?_, ?_⟩
    · rw [Finset.mem_coe, Finset.mem_powerset]; exact Finset.filter_subset _ _
    · ext y
      rw [Finset.mem_image]
      constructor
      · rintro ⟨x, hx, rfl⟩; exact (Finset.mem_filter.1 hx).2
      · intro hy
        obtain ⟨x, hx, rfl⟩ := hsurj y (hU hy)
        exact ⟨x, Finset.mem_filter.2 ⟨hx, hy⟩, rfl⟩
  · intro A hA
    rw [Finset.mem_powerset] at hA
    rw [Finset.card_image_of_injOn fun x hx y hy h => hinj x (hA hx) y (hA hy) h]

/-- One coin shows heads with probability `p`. -/
theorem sum_mem {β : Type} [DecidableEq β] (p : ℝ) {P : Finset β} {e : β} (he : e ∈ P) :
    ∑ U ∈ P.powerset, weight p P.card U.card * (if e ∈ U then 1 else 0) = p := by
  have h1 : ∑ U ∈ P.powerset, weight p P.card U.card * (if e ∈ U then (1 : ℝ) else 0) =
      ∑ U ∈ (P.erase e).powerset, p * (p ^ U.card * (1 - p) ^ ((P.erase e).card - U.card)) := by
    rw [← Finset.insert_erase he, Finset.sum_powerset_insert (Finset.notMem_erase e P)]
    have h0 : ∑ t ∈ (P.erase e).powerset, weight p (insert e (P.erase e)).card t.card *
        (if e ∈ t then (1 : ℝ) else 0) = 0 := by
      refine Finset.sum_eq_zero fun t ht => ?_
      rw [if_neg fun h => Finset.notMem_erase e P (Finset.mem_powerset.1 ht h), mul_zero]
    rw [h0, zero_add, Finset.erase_insert (Finset.notMem_erase e P)]
    refine Finset.sum_congr rfl fun t ht => ?_
    have hn : e ∉ t := fun h => Finset.notMem_erase e P (Finset.mem_powerset.1 ht h)
    rw [if_pos (Finset.mem_insert_self _ _), Finset.card_insert_of_notMem hn,
      Finset.card_insert_of_notMem (Finset.notMem_erase e P), weight, Nat.add_sub_add_right, pow_succ]
    ring
  rw [h1, ← Finset.mul_sum, Finset.sum_pow_mul_eq_add_pow]
  simp

/-- The pairs of nodes. -/
def pairSet (n : ℕ) : Finset (ℕ × ℕ) := (pairs (List.range n)).toFinset

theorem mem_pairSet {n i j : ℕ} : (i, j) ∈ pairSet n ↔ i < j ∧ j < n := by
  unfold pairSet
  rw [List.mem_toFinset, mem_pairs_range]

theorem pairs_len (n : ℕ) : (pairs (List.range n)).length = n * (n - 1) / 2 := by
  rw [pairs_length, List.length_range, Nat.choose_two_right]

theorem pairSet_card (n : ℕ) : (pairSet n).card = n * (n - 1) / 2 := by
  unfold pairSet
  rw [List.toFinset_card_of_nodup (pairs_nodup List.pairwise_lt_range), pairs_len]

/-- The two nodes in the order of their labels. -/
def sorted (a : ℕ × ℕ) : ℕ × ℕ := if a.1 < a.2 then a else (a.2, a.1)

theorem coinMean_pairs (p : ℝ) (n : ℕ) (F : Finset (ℕ × ℕ) → ℝ) :
    (coinMean p (n * (n - 1) / 2) fun b => F (chosen (pairs (List.range n)) b).toFinset) =
      ∑ A ∈ (pairSet n).powerset, weight p (n * (n - 1) / 2) A.card * F A := by
  have := coinMean_eq p (pairs_nodup (List.pairwise_lt_range (n := n))) F
  rw [pairs_len] at this
  exact this

theorem getD_lt {n : ℕ} {t : List ℕ} (ht : t.Perm (List.range n)) {i : ℕ} (hi : i < n) : t.getD i 0 < n := by
  have hl : t.length = n := by rw [ht.length_eq, List.length_range]
  rw [List.getD_eq_getElem _ _ (hl ▸ hi)]
  exact List.mem_range.1 (ht.subset (List.getElem_mem _))

theorem exists_getD {n : ℕ} {t : List ℕ} (ht : t.Perm (List.range n)) {x : ℕ} (hx : x < n) : ∃ i, i < n ∧ t.getD i 0 = x := by
  have hl : t.length = n := by rw [ht.length_eq, List.length_range]
  obtain ⟨i, hi, h⟩ := List.getElem_of_mem (ht.symm.subset (List.mem_range.2 hx))
  exact ⟨i, hl ▸ hi, by rw [List.getD_eq_getElem _ _ hi, h]⟩

/-- For a given permutation, all sets of unordered pairs occur, with the probabilities of independent coins. -/
theorem mean_skeleton (p : ℝ) {n : ℕ} {t : List ℕ} (ht : t.Perm (List.range n)) (F : Finset (ℕ × ℕ) → ℝ) :
    (coinMean p (n * (n - 1) / 2) fun b =>
      F ((chosen (pairs (List.range n)) b).toFinset.image fun a => sorted (t.getD a.1 0, t.getD a.2 0))) =
      ∑ U ∈ (pairSet n).powerset, weight p (n * (n - 1) / 2) U.card * F U := by
  rw [coinMean_pairs p n fun A => F (A.image fun a => sorted (t.getD a.1 0, t.getD a.2 0))]
  have hne : ∀ i j, i < j → j < n → t.getD i 0 ≠ t.getD j 0 := fun i j hij hj h => by
    have := getD_inj ht (hij.trans hj) hj h; omega
  refine sum_image p _ ?_ ?_ ?_ F
  · rintro ⟨i, j⟩ hij
    rw [mem_pairSet] at hij
    have h1 := getD_lt ht (hij.1.trans hij.2)
    have h2 := getD_lt ht hij.2
    have h3 := hne i j hij.1 hij.2
    unfold sorted
    dsimp only
    split_ifs with h
    · exact mem_pairSet.2 ⟨h, h2⟩
    · exact mem_pairSet.2 ⟨by omega, h1⟩
  · rintro ⟨i, j⟩ hij ⟨k, l⟩ hkl h
    rw [mem_pairSet] at hij hkl
    have key : (t.getD i 0 = t.getD k 0 ∧ t.getD j 0 = t.getD l 0) ∨ (t.getD i 0 = t.getD l 0 ∧ t.getD j 0 = t.getD k 0) := by
      unfold sorted at h
      dsimp only at h
      split_ifs at h <;> simp only [Prod.mk.injEq] at h <;> tauto
    rcases key with ⟨h1, h2⟩ | ⟨h1, h2⟩
    · rw [getD_inj ht (hij.1.trans hij.2) (hkl.1.trans hkl.2) h1, getD_inj ht hij.2 hkl.2 h2]
    · have e1 := getD_inj ht (hij.1.trans hij.2) hkl.2 h1
      have e2 := getD_inj ht hij.2 (hkl.1.trans hkl.2) h2
      omega
  · rintro ⟨x, y⟩ hxy
    rw [mem_pairSet] at hxy
    obtain ⟨i, hi, rfl⟩ := exists_getD ht (hxy.1.trans hxy.2)
    obtain ⟨j, hj, rfl⟩ := exists_getD ht hxy.2
    rcases Nat.lt_trichotomy i j with h | h | h
    · refine ⟨(i, j), mem_pairSet.2 ⟨h, hj⟩, ?_⟩
      unfold sorted
      dsimp only
      rw [if_pos hxy.1]
    · subst h; exact absurd hxy.1 (lt_irrefl _)
    · refine ⟨(j, i), mem_pairSet.2 ⟨h, hi⟩, ?_⟩
      unfold sorted
      dsimp only
      rw [if_neg (by omega)]

/-- Half of the permutations list `i` before `j`. -/
theorem count_before {n i j : ℕ} (hi : i < n) (hj : j < n) (hij : i ≠ j) :
    2 * ((permutations n).filter fun t => List.Sublist [i, j] t).card = (permutations n).card := by
  have hdich : ∀ t ∈ permutations n, (¬ List.Sublist [i, j] t) ↔ List.Sublist [j, i] t := by
    intro t ht
    have ht' := mem_permutations.1 ht
    have hnd : t.Nodup := ht'.nodup_iff.2 List.nodup_range
    constructor
    · intro h
      have h1 := ht'.symm.subset (List.mem_range.2 hi)
      have h2 := ht'.symm.subset (List.mem_range.2 hj)
      rcases Nat.lt_trichotomy (t.idxOf i) (t.idxOf j) with h3 | h3 | h3
      · exact absurd (idxOf_lt_sublist h3 h2) h
      · exact absurd ((List.idxOf_inj h1).1 h3) hij
      · exact idxOf_lt_sublist h3 h1
    · intro h1 h2
      obtain ⟨a, b, a1, a2, a3, a4⟩ := sublist_getD h1
      obtain ⟨c, d, c1, c2, c3, c4⟩ := sublist_getD h2
      have hl : t.length = n := by rw [ht'.length_eq, List.length_range]
      have e1 := getD_inj ht' (hl ▸ a1.trans a2) (hl ▸ c2) (a3.trans c4.symm)
      have e2 := getD_inj ht' (hl ▸ a2) (hl ▸ c1.trans c2) (a4.trans c3.symm)
      omega
  have hsplit := Finset.card_filter_add_card_filter_not (s := permutations n) (fun t => List.Sublist [i, j] t)
  have heq : ((permutations n).filter fun t => ¬ List.Sublist [i, j] t).card =
      ((permutations n).filter fun t => List.Sublist [i, j] t).card := by
    have hinv : ∀ t : List ℕ, (t.map (Equiv.swap i j)).map (Equiv.swap i j) = t := by
      intro t; rw [List.map_map]; exact List.map_id'' (fun x => Equiv.swap_apply_self i j x) t
    have hmem : ∀ t ∈ permutations n, t.map (Equiv.swap i j) ∈ permutations n := by
      intro t ht
      rw [mem_permutations] at ht ⊢
      refine (ht.map _).trans ?_
      refine (List.perm_ext_iff_of_nodup (List.nodup_range.map (Equiv.swap i j).injective) List.nodup_range).2 fun x => ?_
      rw [List.mem_map]
      constructor
      · rintro ⟨y, hy, rfl⟩
        rw [List.mem_range] at hy ⊢
        rw [Equiv.swap_apply_def]
        split_ifs <;> omega
      · intro hx
        refine ⟨Equiv.swap i j x, ?_, Equiv.swap_apply_self _ _ _⟩
        rw [List.mem_range] at hx ⊢
        rw [Equiv.swap_apply_def]
        split_ifs <;> omega
    refine Finset.card_bij' (fun t _ => t.map (Equiv.swap i j)) (fun t _ => t.map (Equiv.swap i j)) ?_ ?_ ?_ ?_
    · intro t ht
      rw [Finset.mem_filter] at ht ⊢
      refine ⟨hmem t ht.1, ?_⟩
      have := ((hdich t ht.1).1 ht.2).map (Equiv.swap i j)
      simpa using this
    · intro t ht
      rw [Finset.mem_filter] at ht ⊢
      refine ⟨hmem t ht.1, (hdich _ (hmem t ht.1)).2 ?_⟩
      have := ht.2.map (Equiv.swap i j)
      simpa using this
    · intro t _; exact hinv t
    · intro t _; exact hinv t
  omega

end Spec.Random
