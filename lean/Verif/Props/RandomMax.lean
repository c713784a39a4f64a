import Verif.Proof.RandomMax
import Verif.Spec.RandomMax
import Mathlib.Data.List.Nodup
import Mathlib.Order.Basic

/-! # `random_max` (property C260) -/

namespace Props

open Model Spec

variable {κ V : Type} [LinearOrder V]

/-- C260. For a nonempty dictionary the keys with the best value can be listed without repetition such that `random_max` returns the one
whose number is drawn: only such keys are returned, and each with the same probability. -/
theorem C260_random_max (d : List (κ × V)) (hd : (d.map Prod.fst).Nodup) (hne : d ≠ []) (minimize : Bool) :
    ∃ l : List κ, l ≠ [] ∧ l.Nodup ∧ (∀ k, k ∈ l ↔ Best minimize d k) ∧
      ∀ (i : Fin l.length) (draw : ℕ → ℕ), draw l.length = i → randomMax draw d minimize = .ok (l.get i) := by
  obtain ⟨⟨k0, v0⟩, d', rfl⟩ := List.exists_cons_of_ne_nil hne
  have hm := foldl_extreme minimize (d'.map Prod.snd) v0
  set m := (d'.map Prod.snd).foldl (fun m x => if (if minimize then x < m else m < x) then x else m) v0 with hmdef
  obtain ⟨hm1, hm2⟩ := hm
  set d := (k0, v0) :: d' with hdd
  have hmem : ∀ v, v ∈ v0 :: d'.map Prod.snd ↔ ∃ e ∈ d, e.2 = v := fun v => by
    rw [show v0 :: d'.map Prod.snd = d.map Prod.snd from rfl, List.mem_map]
  have hl : ∀ k, k ∈ (d.filter fun e => e.2 = m).map Prod.fst ↔ Best minimize d k := by
    intro k
    simp only [List.mem_map, List.mem_filter, decide_eq_true_eq]
    constructor
    · rintro ⟨⟨k, v⟩, ⟨h1, rfl⟩, rfl⟩
      exact ⟨_, h1, fun e he => hm2 _ ((hmem _).2 ⟨e, he, rfl⟩)⟩
    · rintro ⟨v, h1, h2⟩
      refine ⟨(k, v), ⟨h1, ?_⟩, rfl⟩
      obtain ⟨e, he, hem⟩ := (hmem m).1 hm1
      have h3 := h2 e he
      have h4 := hm2 v ((hmem v).2 ⟨_, h1, rfl⟩)
      rw [hem] at h3
      cases minimize <;> simp only [Bool.false_eq_true, if_true, if_false] at h3 h4
      · exact le_antisymm h4 h3
      · exact le_antisymm h3 h4
  refine ⟨(d.filter fun e => e.2 = m).map Prod.fst, ?_, ?_, hl, ?_⟩
  · obtain ⟨e, he, hem⟩ := (hmem m).1 hm1
    exact List.ne_nil_of_mem (List.mem_map.2 ⟨e, List.mem_filter.2 ⟨he, by simpa using hem⟩, rfl⟩)
  · exact hd.sublist (List.filter_sublist.map _)
  · intro i draw hi
    have he : extreme (κ := κ) minimize (d.map Prod.snd) = .ok m := rfl
    rw [randomMax, he]
    dsimp only
    split_ifs with h1
    · have h0 : (i : ℕ) = 0 := by have := i.2; omega
      have : ((d.filter fun e => e.2 = m).map Prod.fst)[0]? = some (((d.filter fun e => e.2 = m).map Prod.fst).get i) := by
        rw [List.get_eq_getElem, ← List.getElem?_eq_getElem, h0]
      rw [this]
    · have : ((d.filter fun e => e.2 = m).map Prod.fst)[draw ((d.filter fun e => e.2 = m).map Prod.fst).length]? =
          some (((d.filter fun e => e.2 = m).map Prod.fst).get i) := by
        rw [hi, List.get_eq_getElem, ← List.getElem?_eq_getElem]
      rw [this]

/-- C260. The empty dictionary: `ValueError`. -/
theorem C260_empty (draw : ℕ → ℕ) (minimize : Bool) : randomMax draw ([] : List (κ × V)) minimize = .error .value := rfl

/-- Two of three keys attain the maximum, one the minimum. -/
example : ∃ l : List ℕ, l.Nodup ∧ l.length = 2 ∧ ∀ (i : Fin l.length) (draw : ℕ → ℕ), draw l.length = i →
    randomMax draw [(5, (7 : ℤ)), (6, 2), (8, 7)] false = .ok (l.get i) := by
  obtain ⟨l, -, h2, h3, h4⟩ := C260_random_max [(5, (7 : ℤ)), (6, 2), (8, 7)] (by decide) (by simp) false
  refine ⟨l, h2, ?_, h4⟩
  have : l.Perm [5, 8] := (List.perm_ext_iff_of_nodup h2 (by decide)).2 fun k => by
    rw [h3]
    simp only [Best, List.mem_cons, Prod.mk.injEq, List.not_mem_nil, or_false]
    constructor
    · rintro ⟨v, (⟨rfl, rfl⟩ | ⟨rfl, rfl⟩ | ⟨rfl, rfl⟩), h⟩
      · exact Or.inl rfl
      · have := h (5, 7) (Or.inl rfl)
        simp at this
      · exact Or.inr rfl
    · rintro (rfl | rfl)
      · exact ⟨7, Or.inl ⟨rfl, rfl⟩, by rintro e (rfl | rfl | rfl) <;> simp⟩
      · exact ⟨7, Or.inr (Or.inr ⟨rfl, rfl⟩), by rintro e (rfl | rfl | rfl) <;> simp⟩
  exact this.length_eq

example (draw : ℕ → ℕ) : randomMax draw [(5, (7 : ℤ)), (6, 2), (8, 7)] true = .ok 6 := rfl

end Props
