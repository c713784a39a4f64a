import Mathlib.Algebra.BigOperators.Group.Finset.Basic
import Mathlib.Algebra.Order.BigOperators.Group.Finset
import Mathlib.Order.Interval.Finset.Basic
import Mathlib.Data.Int.Interval
import Verif.Spec.Equivalence
import Verif.Proof.Inducing

/-! # Walks indexed by integers, shortest walks -/

namespace Spec.Mixed

universe u
variable {α : Type u} {M N : Mixed α} {Z : Set α}
open Relation

/-- An ancestral graph with symmetric edges and without loops. -/
structure Anc (M : Mixed α) : Prop where
  bi_symm : ∀ u v, M.bi u v → M.bi v u
  un_symm : ∀ u v, M.un u v → M.un v u
  loop : ∀ v, ¬ M.Adj v v
  anc : M.Ancestral

namespace Anc

theorem proper (h : M.Anc) : M.Proper where
  bi_symm := h.bi_symm
  un_symm := h.un_symm
  tails := h.anc.tails
  excl := by
    rintro u v huv (hvu | hvu)
    · exact h.anc.acyclic u (.tail (.single huv) hvu)
    · exact h.anc.almost u v (h.bi_symm _ _ hvu) (.single huv)

theorem symm (h : M.Anc) {u v : α} (k : M.Adj u v) : M.Adj v u := h.proper.ok.symm _ _ k

theorem irrefl (h : M.Anc) (v : α) : ¬ M.dir v v := fun k => h.anc.acyclic v (.single k)

/-- An arrowhead at `v`: an edge of `v` without arrowhead at `v` is an arc out of `v`. -/
theorem out (h : M.Anc) {u v w : α} (hu : M.Into u v) (ha : M.Adj v w) (hn : ¬ M.Into w v) : M.dir v w :=
  (h.proper.ok.head u v w hu ha).resolve_left hn

/-- `a *→ b → c` and an edge between `a` and `c` gives `a *→ c`. -/
theorem into_trans (h : M.Anc) {a b c : α} (hab : M.Into a b) (hbc : M.dir b c) (hac : M.Adj a c) : M.Into a c := by
  rcases hac with k | k | k | k
  · exact .inl k
  · rcases hab with hab | hab
    · exact absurd (.tail (.tail (.single k) hab) hbc) (h.anc.acyclic c)
    · exact absurd (.tail (.single hbc) k) (h.anc.almost _ _ (h.bi_symm _ _ hab))
  · exact .inr k
  · exact absurd (.inl hbc) (h.anc.tails _ _ b (h.un_symm _ _ k))

theorem dir_trans (h : M.Anc) {a b c : α} (hab : M.dir a b) (hbc : M.dir b c) (hac : M.Adj a c) : M.dir a c := by
  rcases h.into_trans (.inl hab) hbc hac with k | k
  · exact k
  · exact absurd (.tail (.single hab) hbc) (h.anc.almost _ _ k)

theorem bi_of (h : M.Anc) {a b : α} (hab : M.Into a b) (hba : M.Into b a) : M.bi a b := by
  rcases hab with k | k
  · exact absurd hba (h.proper.excl _ _ k)
  · exact k

end Anc

theorem an_of_dir {a b : α} (hab : M.dir a b) (hb : M.mg.An Z b) : M.mg.An Z a := by
  obtain ⟨c, hc, hbc⟩ := hb
  exact ⟨c, hc, .head hab hbc⟩

theorem open_symm {u v w : α} : M.mg.Open Z u v w ↔ M.mg.Open Z w v u := by
  unfold MG.Open; rw [and_comm (a := M.mg.into u v)]

/-! ## Walks -/

/-- `p lo, ..., p hi` is an m-connecting walk given `Z`. -/
structure FWalk (M : Mixed α) (Z : Set α) (lo hi : ℤ) (p : ℤ → α) : Prop where
  le : lo ≤ hi
  adj : ∀ i, lo ≤ i → i < hi → M.Adj (p i) (p (i + 1))
  opn : ∀ i, lo < i → i < hi → M.mg.Open Z (p (i - 1)) (p i) (p (i + 1))

/-- No shorter walk has the same end points. -/
def Shortest (M : Mixed α) (Z : Set α) (lo hi : ℤ) (p : ℤ → α) : Prop :=
  M.FWalk Z lo hi p ∧
    ∀ lo' hi' p', M.FWalk Z lo' hi' p' → p' lo' = p lo → p' hi' = p hi → hi - lo ≤ hi' - lo'

theorem FWalk.reverse (h : M.Anc) {lo hi : ℤ} {p : ℤ → α} (w : M.FWalk Z lo hi p) :
    M.FWalk Z (-hi) (-lo) (fun k => p (-k)) := by
  refine ⟨by have := w.le; omega, ?_, ?_⟩
  · intro i h1 h2
    have := w.adj (-(i + 1)) (by omega) (by omega)
    rw [show -(i + 1) + 1 = -i by ring] at this
    exact h.symm this
  · intro i h1 h2
    have := w.opn (-i) (by omega) (by omega)
    rw [open_symm]
    rw [show -(i + 1) = -i - 1 by ring, show -(i - 1) = -i + 1 by ring]
    exact this

theorem Shortest.reverse (h : M.Anc) {lo hi : ℤ} {p : ℤ → α} (w : M.Shortest Z lo hi p) :
    M.Shortest Z (-hi) (-lo) (fun k => p (-k)) := by
  refine ⟨w.1.reverse h, fun lo' hi' p' k1 k2 k3 => ?_⟩
  have := w.2 _ _ _ (k1.reverse h) (by simpa using k3) (by simpa using k2)
  omega

/-- Leave out the nodes strictly between `a` and `b`. -/
theorem FWalk.shortcut {lo hi a b : ℤ} {p : ℤ → α} (w : M.FWalk Z lo hi p) (ha : lo ≤ a) (hab : a < b) (hb : b ≤ hi)
    (hadj : M.Adj (p a) (p b)) (h1 : a = lo ∨ M.mg.Open Z (p (a - 1)) (p a) (p b))
    (h2 : b = hi ∨ M.mg.Open Z (p a) (p b) (p (b + 1))) :
    ∃ p', M.FWalk Z lo (hi - (b - a - 1)) p' ∧ p' lo = p lo ∧ p' (hi - (b - a - 1)) = p hi := by
  refine ⟨fun k => if k ≤ a then p k else p (k + (b - a - 1)), ⟨by omega, ?_, ?_⟩, ?_, ?_⟩
  · intro i k1 k2
    rcases lt_trichotomy i a with hi | rfl | hi
    · rw [if_pos (by omega), if_pos (by omega)]; exact w.adj i k1 (by omega)
    · rw [if_pos (by omega), if_neg (by omega), show i + 1 + (b - i - 1) = b by ring]; exact hadj
    · rw [if_neg (by omega), if_neg (by omega), show i + 1 + (b - a - 1) = i + (b - a - 1) + 1 by ring]
      exact w.adj _ (by omega) (by omega)
  · intro i k1 k2
    rcases lt_trichotomy i a with hi | rfl | hi
    · rw [if_pos (by omega), if_pos (by omega), if_pos (by omega)]; exact w.opn i k1 (by omega)
    · rw [if_pos (by omega), if_pos (by omega), if_neg (by omega), show i + 1 + (b - i - 1) = b by ring]
      exact h1.resolve_left (by omega)
    · by_cases hi' : i = a + 1
      · subst hi'
        rw [if_pos (by omega), if_neg (by omega), if_neg (by omega), show a + 1 - 1 = a by ring,
          show a + 1 + (b - a - 1) = b by ring, show a + 1 + 1 + (b - a - 1) = b + 1 by ring]
        exact h2.resolve_left (by omega)
      · rw [if_neg (by omega), if_neg (by omega), if_neg (by omega), show i - 1 + (b - a - 1) = i + (b - a - 1) - 1 by ring,
          show i + 1 + (b - a - 1) = i + (b - a - 1) + 1 by ring]
        exact w.opn _ (by omega) (by omega)
  · simp [ha]
  · dsimp only
    by_cases hba : hi - (b - a - 1) ≤ a
    · omega
    · rw [if_neg hba]; congr 1; ring

theorem Shortest.no_shortcut {lo hi a b : ℤ} {p : ℤ → α} (w : M.Shortest Z lo hi p) (ha : lo ≤ a) (hab : a + 1 < b)
    (hb : b ≤ hi) (hadj : M.Adj (p a) (p b)) (h1 : a = lo ∨ M.mg.Open Z (p (a - 1)) (p a) (p b))
    (h2 : b = hi ∨ M.mg.Open Z (p a) (p b) (p (b + 1))) : False := by
  obtain ⟨p', k1, k2, k3⟩ := w.1.shortcut ha (by omega) hb hadj h1 h2
  have := w.2 _ _ _ k1 k2 k3
  omega

/-- Replace the nodes strictly between `a` and `b` by the single node `t`. -/
theorem FWalk.replace {lo hi a b : ℤ} {p : ℤ → α} {t : α} (w : M.FWalk Z lo hi p) (ha : lo ≤ a) (hab : a + 1 < b) (hb : b ≤ hi)
    (hat : M.Adj (p a) t) (htb : M.Adj t (p b)) (h1 : a = lo ∨ M.mg.Open Z (p (a - 1)) (p a) t)
    (h3 : M.mg.Open Z (p a) t (p b)) (h2 : b = hi ∨ M.mg.Open Z t (p b) (p (b + 1))) :
    ∃ p', M.FWalk Z lo (hi - (b - a - 2)) p' ∧ p' lo = p lo ∧ p' (hi - (b - a - 2)) = p hi ∧
      (∀ k, k ≤ a → p' k = p k) ∧ p' (a + 1) = t ∧ (∀ k, a + 1 < k → p' k = p (k + (b - a - 2))) := by
  set c := b - a - 2 with hc
  obtain ⟨q, e1, e2, e3⟩ : ∃ q : ℤ → α, (∀ k, k ≤ a → q k = p k) ∧ q (a + 1) = t ∧ ∀ k, a + 1 < k → q k = p (k + c) := by
    refine ⟨fun k => if k ≤ a then p k else if k = a + 1 then t else p (k + c), ?_, by simp, ?_⟩
    · intro k hk; simp [hk]
    · intro k hk; dsimp only; rw [if_neg (by omega), if_neg (by omega)]
  refine ⟨q, ⟨by omega, ?_, ?_⟩, e1 _ ha, ?_, e1, e2, e3⟩
  · intro i k1 k2
    rcases lt_trichotomy i a with hi | rfl | hi
    · rw [e1 _ (by omega), e1 _ (by omega)]; exact w.adj i k1 (by omega)
    · rw [e1 _ (by omega), e2]; exact hat
    · rcases eq_or_lt_of_le (show a + 1 ≤ i by omega) with rfl | hi'
      · rw [e2, e3 _ (by omega), show a + 1 + 1 + c = b by omega]; exact htb
      · rw [e3 _ (by omega), e3 _ (by omega), show i + 1 + c = i + c + 1 by ring]
        exact w.adj _ (by omega) (by omega)
  · intro i k1 k2
    rcases lt_trichotomy i a with hi | rfl | hi
    · rw [e1 _ (by omega), e1 _ (by omega), e1 _ (by omega)]; exact w.opn i k1 (by omega)
    · rw [e1 _ (by omega), e1 _ (by omega), e2]
      exact h1.resolve_left (by omega)
    · rcases eq_or_lt_of_le (show a + 1 ≤ i by omega) with rfl | hi'
      · rw [e2, show a + 1 - 1 = a by ring, e1 _ le_rfl, e3 _ (by omega), show a + 1 + 1 + c = b by omega]; exact h3
      · rcases eq_or_lt_of_le (show a + 2 ≤ i by omega) with rfl | hi''
        · rw [show a + 2 - 1 = a + 1 by ring, e2, e3 _ (by omega), e3 _ (by omega), show a + 2 + c = b by omega,
            show a + 2 + 1 + c = b + 1 by omega]
          exact h2.resolve_left (by omega)
        · rw [e3 _ (by omega), e3 _ (by omega), e3 _ (by omega), show i - 1 + c = i + c - 1 by ring,
            show i + 1 + c = i + c + 1 by ring]
          exact w.opn _ (by omega) (by omega)
  · by_cases hbh : hi - c = a + 1
    · omega
    · rw [e3 _ (by omega)]; congr 1; ring

/-! ## Lists -/

theorem infix3_iff {u v w : α} {l : List α} :
    [u, v, w] <:+: l ↔ ∃ i : ℕ, l[i]? = some u ∧ l[i + 1]? = some v ∧ l[i + 2]? = some w := by
  constructor
  · rintro ⟨s, t, rfl⟩
    exact ⟨s.length, by simp, by simp, by simp⟩
  · rintro ⟨i, h1, h2, h3⟩
    obtain ⟨k1, e1⟩ := List.getElem?_eq_some_iff.1 h1
    obtain ⟨k2, e2⟩ := List.getElem?_eq_some_iff.1 h2
    obtain ⟨k3, e3⟩ := List.getElem?_eq_some_iff.1 h3
    refine ⟨l.take i, l.drop (i + 3), ?_⟩
    conv_rhs => rw [← List.take_append_drop i l]
    rw [List.drop_eq_getElem_cons k1, List.drop_eq_getElem_cons k2, List.drop_eq_getElem_cons k3, e1, e2, e3]
    simp

theorem infix2_iff {u v : α} {l : List α} :
    [u, v] <:+: l ↔ ∃ i : ℕ, l[i]? = some u ∧ l[i + 1]? = some v := by
  constructor
  · rintro ⟨s, t, rfl⟩
    exact ⟨s.length, by simp, by simp⟩
  · rintro ⟨i, h1, h2⟩
    obtain ⟨k1, e1⟩ := List.getElem?_eq_some_iff.1 h1
    obtain ⟨k2, e2⟩ := List.getElem?_eq_some_iff.1 h2
    refine ⟨l.take i, l.drop (i + 2), ?_⟩
    conv_rhs => rw [← List.take_append_drop i l]
    rw [List.drop_eq_getElem_cons k1, List.drop_eq_getElem_cons k2, e1, e2]
    simp

/-- The nodes `p lo, ..., p hi` as a list. -/
def listOf (p : ℤ → α) (lo hi : ℤ) : List α := (List.range (hi + 1 - lo).toNat).map fun k : ℕ => p (lo + (k : ℤ))

theorem listOf_get {p : ℤ → α} {lo hi : ℤ} {i : ℕ} {v : α} :
    (listOf p lo hi)[i]? = some v ↔ lo + (i : ℤ) ≤ hi ∧ v = p (lo + i) := by
  unfold listOf
  by_cases hi' : i < (hi + 1 - lo).toNat
  · rw [List.getElem?_map, List.getElem?_range hi']
    simp only [Option.map_some, Option.some.injEq]
    constructor
    · rintro rfl; exact ⟨by omega, rfl⟩
    · rintro ⟨-, rfl⟩; rfl
  · rw [List.getElem?_eq_none (by simpa using hi')]
    constructor
    · intro h; cases h
    · rintro ⟨h, -⟩; omega

theorem listOf_length {p : ℤ → α} {lo hi : ℤ} : (listOf p lo hi).length = (hi + 1 - lo).toNat := by
  simp [listOf]

theorem listOf_nodup {p : ℤ → α} {lo hi : ℤ} :
    (listOf p lo hi).Nodup ↔ ∀ i j, lo ≤ i → i ≤ hi → lo ≤ j → j ≤ hi → p i = p j → i = j := by
  rw [List.nodup_iff_getElem?_ne_getElem?]
  constructor
  · intro h
    have key : ∀ i j, lo ≤ i → i < j → j ≤ hi → p i ≠ p j := by
      intro i j h1 h2 h3 he
      refine h (i - lo).toNat (j - lo).toNat (by omega) (by rw [listOf_length]; omega) ?_
      rw [listOf_get.2 ⟨by omega, rfl⟩, listOf_get.2 ⟨by omega, rfl⟩]
      rw [show lo + ((i - lo).toNat : ℤ) = i by omega, show lo + ((j - lo).toNat : ℤ) = j by omega, he]
    intro i j h1 h2 h3 h4 he
    rcases lt_trichotomy i j with k | k | k
    · exact absurd he (key i j h1 k h4)
    · exact k
    · exact absurd he.symm (key j i h3 k h2)
  · intro h i j hij hj he
    rw [listOf_length] at hj
    rw [listOf_get.2 ⟨by omega, rfl⟩, listOf_get.2 ⟨by omega, rfl⟩] at he
    have := h (lo + i) (lo + j) (by omega) (by omega) (by omega) (by omega) (by simpa using he)
    omega

theorem listOf_mem {p : ℤ → α} {lo hi : ℤ} {v : α} : v ∈ listOf p lo hi ↔ ∃ k, lo ≤ k ∧ k ≤ hi ∧ v = p k := by
  rw [List.mem_iff_getElem?]
  constructor
  · rintro ⟨i, hi⟩
    obtain ⟨h1, h2⟩ := listOf_get.1 hi
    exact ⟨_, by omega, h1, h2⟩
  · rintro ⟨k, h1, h2, rfl⟩
    exact ⟨(k - lo).toNat, listOf_get.2 ⟨by omega, by congr 1; omega⟩⟩

theorem listOf_cons {p : ℤ → α} {lo hi : ℤ} (h : lo ≤ hi) : listOf p lo hi = p lo :: listOf p (lo + 1) hi := by
  unfold listOf
  rw [show (hi + 1 - lo).toNat = (hi + 1 - (lo + 1)).toNat + 1 by omega, List.range_succ_eq_map, List.map_cons,
    List.map_map]
  congr 1
  · simp
  · apply List.map_congr_left
    intro k _
    simp only [Function.comp_apply]
    congr 1; push_cast; ring

theorem listOf_snoc {p : ℤ → α} {lo hi : ℤ} (h : lo ≤ hi) : listOf p lo hi = listOf p lo (hi - 1) ++ [p hi] := by
  unfold listOf
  rw [show (hi + 1 - lo).toNat = (hi - 1 + 1 - lo).toNat + 1 by omega, List.range_succ, List.map_append]
  congr 1
  simp only [List.map_cons, List.map_nil]
  congr 2; omega

theorem FWalk.walk {lo hi : ℤ} {p : ℤ → α} (w : M.FWalk Z lo hi p) : M.mg.Walk Z (p lo) (p hi) (listOf p lo hi) := by
  have hle := w.le
  refine ⟨?_, ?_, ?_, ?_⟩
  · rw [List.head?_eq_getElem?, listOf_get]; simp [hle]
  · rw [List.getLast?_eq_getElem?, listOf_get, listOf_length]
    constructor
    · omega
    · congr 1; omega
  · intro u v huv
    obtain ⟨i, h1, h2⟩ := infix2_iff.1 huv
    rw [listOf_get] at h1 h2
    obtain ⟨-, rfl⟩ := h1
    obtain ⟨k, rfl⟩ := h2
    have := w.adj (lo + i) (by omega) (by push_cast at k; omega)
    rw [show lo + ((i + 1 : ℕ) : ℤ) = lo + i + 1 by push_cast; ring]
    exact this
  · intro u v x huv
    obtain ⟨i, h1, h2, h3⟩ := infix3_iff.1 huv
    rw [listOf_get] at h1 h2 h3
    obtain ⟨-, rfl⟩ := h1
    obtain ⟨-, rfl⟩ := h2
    obtain ⟨k, rfl⟩ := h3
    have := w.opn (lo + i + 1) (by omega) (by push_cast at k; omega)
    rw [show lo + ((i + 1 : ℕ) : ℤ) = lo + i + 1 by push_cast; ring,
      show lo + ((i + 2 : ℕ) : ℤ) = lo + i + 1 + 1 by push_cast; ring, show lo + (i : ℤ) = lo + i + 1 - 1 by ring]
    rw [show lo + (i : ℤ) + 1 - 1 + 1 = lo + i + 1 by ring]
    exact this

theorem fwalk_of_walk {a b : α} {l : List α} (w : M.mg.Walk Z a b l) :
    ∃ p, M.FWalk Z 0 ((l.length : ℤ) - 1) p ∧ p 0 = a ∧ p ((l.length : ℤ) - 1) = b := by
  have hne : l ≠ [] := by rintro rfl; simpa using w.head
  have hpos : 0 < l.length := List.length_pos_iff.2 hne
  obtain ⟨p, hp⟩ : ∃ p : ℤ → α, ∀ i : ℕ, i < l.length → l[i]? = some (p i) :=
    ⟨fun k => l.getD k.toNat a, fun i hi => by simp [hi]⟩
  refine ⟨p, ⟨by omega, ?_, ?_⟩, ?_, ?_⟩
  · intro i h1 h2
    obtain ⟨k, rfl⟩ := Int.eq_ofNat_of_zero_le h1
    refine w.adj _ _ (infix2_iff.2 ⟨k, hp k (by omega), ?_⟩)
    have := hp (k + 1) (by omega)
    simpa using this
  · intro i h1 h2
    obtain ⟨k, hk⟩ := Int.eq_ofNat_of_zero_le (show 0 ≤ i - 1 by omega)
    obtain rfl : i = k + 1 := by omega
    refine w.opn _ _ _ (infix3_iff.2 ⟨k, ?_, ?_, ?_⟩)
    · have := hp k (by omega); simpa using this
    · have := hp (k + 1) (by omega); simpa using this
    · have := hp (k + 2) (by omega)
      rw [this]; congr 2
  · have h := hp 0 hpos
    have := w.head
    rw [List.head?_eq_getElem?, h] at this
    simpa using this
  · have h := hp (l.length - 1) (by omega)
    have := w.last
    rw [List.getLast?_eq_getElem?, h] at this
    simp only [Option.some.injEq] at this
    rw [← this]; congr 1; omega

theorem Shortest.inj (h : M.Anc) {lo hi : ℤ} {p : ℤ → α} (w : M.Shortest Z lo hi p) :
    ∀ i j, lo ≤ i → i ≤ hi → lo ≤ j → j ≤ hi → p i = p j → i = j := by
  rw [← listOf_nodup]
  by_contra hn
  obtain ⟨a, v, b, c, e⟩ := MG.exists_dup hn
  have hw := w.1.walk
  have hlen := listOf_length (p := p) (lo := lo) (hi := hi)
  rw [e] at hw hlen
  obtain ⟨q, k1, k2, k3⟩ := fwalk_of_walk (hw.cut h.proper.ok)
  have h1 := w.2 _ _ _ k1 k2 k3
  have h2 := w.1.le
  simp only [List.length_append, List.length_cons] at hlen h1
  push_cast at h1
  omega

theorem exists_shortest {x y : α} {l : List α} (w : M.mg.Walk Z x y l) :
    ∃ lo hi p, M.Shortest Z lo hi p ∧ p lo = x ∧ p hi = y := by
  classical
  have hex : ∃ n : ℕ, ∃ lo hi p, M.FWalk Z lo hi p ∧ p lo = x ∧ p hi = y ∧ (hi - lo).toNat = n := by
    obtain ⟨p, k1, k2, k3⟩ := fwalk_of_walk w
    exact ⟨_, _, _, p, k1, k2, k3, rfl⟩
  obtain ⟨lo, hi, p, k1, k2, k3, k4⟩ := Nat.find_spec hex
  refine ⟨lo, hi, p, ⟨k1, fun lo' hi' p' m1 m2 m3 => ?_⟩, k2, k3⟩
  have := Nat.find_min' hex ⟨lo', hi', p', m1, m2.trans k2, m3.trans k3, rfl⟩
  have h1 := k1.le
  have h2 := m1.le
  omega

end Spec.Mixed
