import Verif.Model.RandomMax
import Mathlib.Order.Basic

/-! # The loop of `max` and `min` -/

namespace Model

variable {κ V : Type} [LinearOrder V]

theorem foldl_extreme (minimize : Bool) (l : List V) (v : V) :
    let m := l.foldl (fun m x => if (if minimize then x < m else m < x) then x else m) v
    m ∈ v :: l ∧ ∀ x ∈ v :: l, if minimize then m ≤ x else x ≤ m := by
  induction l generalizing v with
  | nil =>
    refine ⟨List.mem_singleton.2 rfl, fun x hx => ?_⟩
    rw [List.mem_singleton.1 hx]
    split_ifs <;> exact le_rfl
  | cons y l ih =>
    obtain ⟨h1, h2⟩ := ih (if (if minimize then y < v else v < y) then y else v)
    rw [List.foldl_cons]
    refine ⟨?_, fun x hx => ?_⟩
    · rcases List.mem_cons.1 h1 with h | h
      · rw [h]
        split_ifs <;> simp
      · exact List.mem_cons_of_mem _ (List.mem_cons_of_mem _ h)
    · have h3 := h2 _ List.mem_cons_self
      rcases List.mem_cons.1 hx with rfl | hx
      · cases minimize <;> simp only [Bool.false_eq_true, if_true, if_false] at h3 ⊢
        · split_ifs at h3 ⊢ with hc
          · exact hc.le.trans h3
          · exact h3
        · split_ifs at h3 ⊢ with hc
          · exact h3.trans hc.le
          · exact h3
      · rcases List.mem_cons.1 hx with rfl | hx
        · cases minimize <;> simp only [Bool.false_eq_true, if_true, if_false] at h3 ⊢
          · split_ifs at h3 ⊢ with hc
            · exact h3
            · exact (not_lt.1 hc).trans h3
          · split_ifs at h3 ⊢ with hc
            · exact h3
            · exact h3.trans (not_lt.1 hc)
        · exact h2 x (List.mem_cons_of_mem _ hx)

end Model
