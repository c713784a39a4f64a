import Verif.Spec.CliqueTree
import Mathlib.Data.Finset.Max

/-! # Paths among the common neighbors of a set, in graphs without v-structures -/

namespace Proof

universe u
variable {α : Type u}

open Spec

/-- A walk of length `n` with nodes outside `S`. -/
structure WalkOff (A : α → α → Prop) (S : Set α) (n : ℕ) (x : ℕ → α) : Prop where
  adj : ∀ i < n, A (x i) (x (i + 1))
  off : ∀ i ≤ n, x i ∉ S

/-- If two nodes of the walk are equal or adjacent, there is a shorter walk with the same ends. -/
theorem WalkOff.shortcut {A : α → α → Prop} {S : Set α} {n : ℕ} {x : ℕ → α} (h : WalkOff A S n x) {i j : ℕ} (hij : i + 2 ≤ j) (hj : j ≤ n)
    (hA : x i = x j ∨ A (x i) (x j)) : ∃ m < n, ∃ y, WalkOff A S m y ∧ y 0 = x 0 ∧ y m = x n := by
  rcases hA with hA | hA
  · refine ⟨n - (j - i), by omega, fun k => if k ≤ i then x k else x (k + (j - i)), ⟨fun k hk => ?_, fun k hk => ?_⟩, by simp, ?_⟩
    · rcases lt_trichotomy k i with h1 | h1 | h1
      · simp only [if_pos h1.le, if_pos (show k + 1 ≤ i by omega)]
        exact h.adj k (by omega)
      · subst h1
        simp only [le_refl, if_true, if_neg (show ¬ k + 1 ≤ k by omega)]
        rw [hA]
        have := h.adj j (by omega)
        rwa [show k + 1 + (j - k) = j + 1 by omega]
      · simp only [if_neg (show ¬ k ≤ i by omega), if_neg (show ¬ k + 1 ≤ i by omega)]
        have := h.adj (k + (j - i)) (by omega)
        rwa [show k + 1 + (j - i) = k + (j - i) + 1 by omega]
    · split
      · exact h.off k (by omega)
      · exact h.off _ (by omega)
    · dsimp only
      split
      · rename_i h1
        have : n = j := by omega
        rw [show n - (j - i) = i by omega, hA, this]
      · rw [show n - (j - i) + (j - i) = n by omega]
  · refine ⟨n - (j - i - 1), by omega, fun k => if k ≤ i then x k else x (k + (j - i - 1)), ⟨fun k hk => ?_, fun k hk => ?_⟩, by simp, ?_⟩
    · rcases lt_trichotomy k i with h1 | h1 | h1
      · simp only [if_pos h1.le, if_pos (show k + 1 ≤ i by omega)]
        exact h.adj k (by omega)
      · subst h1
        simp only [le_refl, if_true, if_neg (show ¬ k + 1 ≤ k by omega)]
        rwa [show k + 1 + (j - k - 1) = j by omega]
      · simp only [if_neg (show ¬ k ≤ i by omega), if_neg (show ¬ k + 1 ≤ i by omega)]
        have := h.adj (k + (j - i - 1)) (by omega)
        rwa [show k + 1 + (j - i - 1) = k + (j - i - 1) + 1 by omega]
    · split
      · exact h.off k (by omega)
      · exact h.off _ (by omega)
    · dsimp only
      rw [if_neg (show ¬ n - (j - i - 1) ≤ i by omega), show n - (j - i - 1) + (j - i - 1) = n by omega]

/-- A relation that holds for adjacent common neighbors of `S` outside `S`. -/
def Common (A : α → α → Prop) (S : Set α) (a b : α) : Prop := A a b ∧ a ∉ S ∧ b ∉ S ∧ (∀ s ∈ S, A s a) ∧ ∀ s ∈ S, A s b

theorem WalkOff.common {D : α → α → Prop} {r : α → ℕ} (hr : ∀ a b, D a b → r a < r b)
    (hm : ∀ x y z, D x z → D y z → x = y ∨ Adj D x y) {S : Set α} : ∀ (n : ℕ) (x : ℕ → α), WalkOff (Adj D) S n x →
      (∀ s ∈ S, Adj D s (x 0)) → (∀ s ∈ S, Adj D s (x n)) → Relation.ReflTransGen (Common (Adj D) S) (x 0) (x n) := by
  have hsym : ∀ {a b}, Adj D a b → Adj D b a := fun h => h.symm
  have up : ∀ {a b}, Adj D a b → r a ≤ r b → D a b := fun h hle =>
    h.resolve_right fun h' => absurd (hr _ _ h') (by omega)
  intro n
  induction n using Nat.strong_induction_on with
  | _ n ih =>
    intro x hx h0 hn
    have short : ∀ {i j : ℕ}, i + 2 ≤ j → j ≤ n → (x i = x j ∨ Adj D (x i) (x j)) →
        Relation.ReflTransGen (Common (Adj D) S) (x 0) (x n) := by
      intro i j hij hj hA
      obtain ⟨m, hmn, y, hy, e0, en⟩ := hx.shortcut hij hj hA
      rw [← e0, ← en]
      exact ih m hmn y hy (by rwa [e0]) (by rwa [en])
    rcases Nat.lt_or_ge n 2 with h2 | h2
    · obtain rfl | rfl : n = 0 ∨ n = 1 := by omega
      · exact .refl
      · exact .single ⟨hx.adj 0 (by omega), hx.off 0 (by omega), hx.off 1 (by omega), h0, hn⟩
    · by_cases hc : ∀ s ∈ S, Adj D s (x 1)
      · refine Relation.ReflTransGen.head ⟨hx.adj 0 (by omega), hx.off 0 (by omega), hx.off 1 (by omega), h0, hc⟩ ?_
        have := ih (n - 1) (by omega) (fun i => x (i + 1)) ⟨fun i hi => hx.adj (i + 1) (by omega), fun i hi => hx.off (i + 1) (by omega)⟩
          hc (by simpa [show n - 1 + 1 = n by omega] using hn)
        simpa [show n - 1 + 1 = n by omega] using this
      · push Not at hc
        obtain ⟨s, hs, hs1⟩ := hc
        classical
        have hex : ∃ k, 0 < k ∧ k ≤ n ∧ Adj D s (x k) := ⟨n, by omega, le_refl n, hn s hs⟩
        obtain ⟨k, ⟨hk0, hkn, hks⟩, hmin⟩ : ∃ k, (0 < k ∧ k ≤ n ∧ Adj D s (x k)) ∧ ∀ j, 0 < j → j < k → ¬ Adj D s (x j) :=
          ⟨Nat.find hex, Nat.find_spec hex, fun j h1 h2 h3 =>
            Nat.find_min hex h2 ⟨h1, (h2.trans_le (Nat.find_spec hex).2.1).le, h3⟩⟩
        have hk2 : 2 ≤ k := by
          rcases Nat.lt_or_ge k 2 with h | h
          · have : k = 1 := by omega
            exact absurd (this ▸ hks) hs1
          · exact h
        obtain ⟨i, hi, hmax⟩ := Finset.exists_max_image (Finset.range (k + 1)) (fun i => r (x i)) ⟨0, by simp⟩
        simp only [Finset.mem_range] at hi hmax
        rcases Nat.eq_zero_or_pos i with rfl | hi0
        · have h1 : D (x 1) (x 0) := up (hsym (hx.adj 0 (by omega))) (hmax 1 (by omega))
          have hs0 : D (x 0) s := by
            rcases h0 s hs with h | h
            · rcases hm _ _ _ h h1 with e | e
              · exact absurd (e ▸ hs) (hx.off 1 (by omega))
              · exact absurd e hs1
            · exact h
          have hsk : D (x k) s := up (hsym hks) ((hmax k (by omega)).trans (hr _ _ hs0).le)
          exact short (i := 0) (j := k) (by omega) hkn (hm _ _ _ hs0 hsk)
        · rcases Nat.lt_or_ge i k with hik | hik
          · have h1 : D (x (i - 1)) (x i) := up (by have := hx.adj (i - 1) (by omega); rwa [show i - 1 + 1 = i by omega] at this)
              (hmax (i - 1) (by omega))
            have h3 : D (x (i + 1)) (x i) := up (hsym (hx.adj i (by omega))) (hmax (i + 1) (by omega))
            exact short (i := i - 1) (j := i + 1) (by omega) (by omega) (hm _ _ _ h1 h3)
          · have : i = k := by omega
            subst this
            have h1 : D (x (i - 1)) (x i) := up (by have := hx.adj (i - 1) (by omega); rwa [show i - 1 + 1 = i by omega] at this)
              (hmax (i - 1) (by omega))
            have hsk : D (x i) s := by
              rcases hks with h | h
              · rcases hm _ _ _ h h1 with e | e
                · exact absurd (e ▸ hs) (hx.off (i - 1) (by omega))
                · exact absurd e (hmin (i - 1) (by omega) (by omega))
              · exact h
            have hs0 : D (x 0) s := up (hsym (h0 s hs)) ((hmax 0 (by omega)).trans (hr _ _ hsk).le)
            exact short (i := 0) (j := i) (by omega) hkn (hm _ _ _ hs0 hsk)

/-- Two common neighbors of `S` that are joined by a path outside `S` are joined by a path of common neighbors. -/
theorem common_path {D : α → α → Prop} {r : α → ℕ} (hr : ∀ a b, D a b → r a < r b)
    (hm : ∀ x y z, D x z → D y z → x = y ∨ Adj D x y) {S : Set α} {a b : α}
    (h : Relation.ReflTransGen (fun a b => Adj D a b ∧ a ∉ S ∧ b ∉ S) a b) (ha : a ∉ S)
    (h0 : ∀ s ∈ S, Adj D s a) (hn : ∀ s ∈ S, Adj D s b) : Relation.ReflTransGen (Common (Adj D) S) a b := by
  have key : ∃ n x, WalkOff (Adj D) S n x ∧ x 0 = a ∧ x n = b := by
    clear hn
    induction h with
    | refl => exact ⟨0, fun _ => a, ⟨fun i hi => by omega, fun _ _ => ha⟩, rfl, rfl⟩
    | tail _ hbc ih =>
      rename_i b c _
      obtain ⟨n, x, hx, e0, en⟩ := ih
      refine ⟨n + 1, fun i => if i ≤ n then x i else c, ⟨fun i hi => ?_, fun i hi => ?_⟩, by simpa using e0, by simp⟩
      · rcases Nat.lt_or_ge i n with h | h
        · simp only [if_pos h.le, if_pos (show i + 1 ≤ n by omega)]
          exact hx.adj i h
        · have : i = n := by omega
          subst this
          simp only [le_refl, if_true, if_neg (show ¬ i + 1 ≤ i by omega)]
          rw [en]
          exact hbc.1
      · split
        · exact hx.off i (by omega)
        · exact hbc.2.2
  obtain ⟨n, x, hx, e0, en⟩ := key
  have := hx.common hr hm n x (by rwa [e0]) (by rwa [en])
  rwa [e0, en] at this

end Proof
