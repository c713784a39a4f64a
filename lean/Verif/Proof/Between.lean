import Verif.Proof.Moral
import Verif.Proof.Queries
import Verif.Model.Between

/-! # `nodes_between`, `edges_between`, `resolved_sinks` -/

namespace Model

open Spec Relation
universe u
variable {α : Type u} [DecidableEq α]

omit [DecidableEq α] in
theorem pairs_iff_sublist {l : List α} {x y : α} : (x, y) ∈ DAG.pairs l ↔ List.Sublist [x, y] l := by
  induction l with
  | nil => simp [DAG.pairs]
  | cons z l ih =>
    simp only [DAG.pairs, List.mem_append, List.mem_map, Prod.mk.injEq, ih]
    constructor
    · rintro (⟨w, hw, rfl, rfl⟩ | h)
      · exact List.Sublist.cons_cons _ (List.singleton_sublist.2 hw)
      · exact h.cons _
    · intro h
      cases h with
      | cons _ h => exact Or.inr h
      | cons_cons _ h => exact Or.inl ⟨y, List.singleton_sublist.1 h, rfl, rfl⟩

namespace DAG

variable {G H : DAG α}

theorem nodesBetween_spec (hG : G.Consistent) (o : SetOrder (α × Finset α) α) (s t : α) :
    ∃ r, nodesBetween G o s t = some r ∧
      ∀ x, x ∈ r ↔ (∃ y, Path G.E s y ∧ Path G.E y t) ∧ (x = s ∨ x = t ∨ Path G.E s x ∧ Path G.E x t) := by
  obtain ⟨a, ha, ha'⟩ := ancestorsOf_spec hG o t
  obtain ⟨d, hd, hd'⟩ := descendantsOf_spec hG o s
  unfold nodesBetween
  simp only [ha, hd, Option.bind_some, Option.map_some]
  refine ⟨_, rfl, fun x => ?_⟩
  have hm : ∀ y, y ∈ a ∩ d ↔ Path G.E s y ∧ Path G.E y t := fun y => by
    rw [Finset.mem_inter, ha', hd', and_comm]
  by_cases hc : (a ∩ d).card ≠ 0
  · obtain ⟨y, hy⟩ := Finset.card_pos.1 (Nat.pos_of_ne_zero hc)
    rw [if_pos hc]
    simp only [Finset.mem_union, Finset.mem_insert, Finset.mem_singleton, hm]
    constructor
    · rintro (h | h | h)
      · exact ⟨⟨y, (hm y).1 hy⟩, Or.inr (Or.inr h)⟩
      · exact ⟨⟨y, (hm y).1 hy⟩, Or.inl h⟩
      · exact ⟨⟨y, (hm y).1 hy⟩, Or.inr (Or.inl h)⟩
    · rintro ⟨_, h | h | h⟩
      exacts [Or.inr (Or.inl h), Or.inr (Or.inr h), Or.inl h]
  · rw [if_neg hc]
    have h0 := Finset.card_eq_zero.1 (not_not.1 hc)
    constructor
    · intro h; rw [h0] at h; simp at h
    · rintro ⟨⟨y, hy⟩, _⟩
      have := (hm y).2 hy
      rw [h0] at this; simp at this

theorem edgesBetween_spec (hG : G.Consistent) (o : SetOrder (α × Finset α) α) (on : SetOrder Unit α) (s t : α) :
    ∃ nb r, nodesBetween G o s t = some nb ∧ edgesBetween G o on s t = some r ∧
      ∀ i j, (i, j) ∈ r ↔ G.E i j ∧ List.Sublist [i, j] (on.ord () nb) := by
  obtain ⟨nb, h1, _⟩ := nodesBetween_spec hG o s t
  refine ⟨nb, _, h1, by rw [edgesBetween, h1, Option.map_some], fun i j => ?_⟩
  simp only [List.mem_toFinset, List.mem_filter, decide_eq_true_eq, pairs_iff_sublist, E]
  exact and_comm

/-- Invariant of the loop of `resolved_sinks`. -/
structure Resolved (G H : DAG α) (R : Finset α) : Prop where
  sub : R ⊆ G.nodes
  parents : ∀ v ∈ R, G.parents v = H.parents v
  left : ∀ v ∈ R, G.children v ⊆ R
  right : ∀ v ∈ R, H.children v ⊆ R

theorem mem_newlyResolved {R : Finset α} {v : α} : v ∈ newlyResolved G H R ↔
    v ∈ G.nodes ∧ v ∉ R ∧ G.children v ⊆ R ∧ H.children v ⊆ R ∧ G.parents v = H.parents v := by
  simp only [newlyResolved, isResolvedSink, Finset.mem_filter, Finset.mem_sdiff, Bool.and_eq_true, decide_eq_true_eq,
    Finset.sdiff_eq_empty_iff_subset]
  tauto

theorem resolvedLoop_spec (n : ℕ) : ∀ R : Finset α, Resolved G H R → (G.nodes \ R).card ≤ n →
    ∃ S, resolvedLoop G H R = some S ∧ Resolved G H S ∧ newlyResolved G H S = ∅ := by
  induction n with
  | zero =>
    intro R hR hc
    rw [resolvedLoop]
    have : newlyResolved G H R = ∅ := by
      rw [Nat.le_zero, Finset.card_eq_zero] at hc
      rw [newlyResolved, hc]; rfl
    rw [if_pos this, this, Finset.union_empty]
    exact ⟨R, rfl, hR, this⟩
  | succ n ih =>
    intro R hR hc
    rw [resolvedLoop]
    by_cases h : newlyResolved G H R = ∅
    · rw [if_pos h, h, Finset.union_empty]
      exact ⟨R, rfl, hR, h⟩
    · rw [if_neg h]
      obtain ⟨v, hv⟩ := Finset.nonempty_iff_ne_empty.2 h
      have hv' := mem_newlyResolved.1 hv
      refine ih _ ⟨?_, ?_, ?_, ?_⟩ ?_
      · intro x hx
        rcases Finset.mem_union.1 hx with hx | hx
        exacts [hR.sub hx, (mem_newlyResolved.1 hx).1]
      · intro x hx
        rcases Finset.mem_union.1 hx with hx | hx
        exacts [hR.parents x hx, (mem_newlyResolved.1 hx).2.2.2.2]
      · intro x hx
        rcases Finset.mem_union.1 hx with hx | hx
        exacts [(hR.left x hx).trans Finset.subset_union_left,
          (mem_newlyResolved.1 hx).2.2.1.trans Finset.subset_union_left]
      · intro x hx
        rcases Finset.mem_union.1 hx with hx | hx
        exacts [(hR.right x hx).trans Finset.subset_union_left,
          (mem_newlyResolved.1 hx).2.2.2.1.trans Finset.subset_union_left]
      · have : (G.nodes \ (R ∪ newlyResolved G H R)).card < (G.nodes \ R).card := by
          refine Finset.card_lt_card ⟨Finset.sdiff_subset_sdiff (Finset.Subset.refl _) Finset.subset_union_left, fun hs => ?_⟩
          have := hs (Finset.mem_sdiff.2 ⟨hv'.1, hv'.2.1⟩)
          exact (Finset.mem_sdiff.1 this).2 (Finset.mem_union_right _ hv)
        omega

theorem resolvedSinks_spec (hG : G.Valid) (hH : H.Consistent) :
    ∃ R, resolvedSinks G H = some R ∧ Resolved G H R ∧ ∀ S, Resolved G H S → S ⊆ R := by
  obtain ⟨R, h1, h2, h3⟩ := resolvedLoop_spec (G := G) (H := H) _ ∅
    ⟨Finset.empty_subset _, by simp, by simp, by simp⟩ le_rfl
  refine ⟨R, h1, h2, fun S hS => ?_⟩
  by_contra hn
  obtain ⟨v, hv, hmin⟩ := exists_minimal (R := Function.swap G.E)
    (fun v hv => hG.acyclic v (by rw [Path, ← transGen_swap]; exact hv)) (S \ R)
    (Finset.sdiff_nonempty.2 hn)
  rw [Finset.mem_sdiff] at hv
  have hc : G.children v ⊆ R := by
    intro w hw
    by_contra hwR
    exact hmin w (Finset.mem_sdiff.2 ⟨hS.left v hv.1 hw, hwR⟩) (.single ((hG.children_iff _ _).1 hw))
  have hc' : H.children v ⊆ R := by
    intro w hw
    have hwS := hS.right v hv.1 hw
    have h4 : v ∈ H.parents w := (hH.parents_iff _ _).2 ((hH.children_iff _ _).1 hw)
    rw [← hS.parents w hwS] at h4
    exact hc ((hG.children_iff _ _).2 ((hG.parents_iff _ _).1 h4))
  have : v ∈ newlyResolved G H R := mem_newlyResolved.2 ⟨hS.sub hv.1, hv.2, hc, hc', hS.parents v hv.1⟩
  rw [h3] at this
  simp at this

end DAG

end Model
