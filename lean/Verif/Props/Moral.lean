import Verif.Props.Sample
import Verif.Proof.Moral

/-! # C34: separation in the moral graph -/

namespace Props

open Model Model.DAG Spec Relation
universe u
variable {α : Type u} [DecidableEq α]

/-- C34. `dsep(A, B, C)` is separation by `C` in `moral_graph()` of `ancestral_subgraph(A ∪ B ∪ C)`. -/
theorem C34_moral (G : DAG α) (hG : G.Valid) (ot : SetOrder (Option α) α)
    (oa : SetOrder Bool (α × α)) (os : SetOrder (α × Finset α) α) (o : SepOracle α)
    (oe : SetOrder Unit (Finset α)) (ou : SetOrder Unit α) (ov : SetOrder α α) (A B C : Finset α)
    (hAC : Disjoint A C) (hBC : Disjoint B C) (S : List α) (hS : S.toFinset = A ∪ B ∪ C) :
    ∃ H r, ancestralSubgraph ot oa os G S = some (H, none) ∧ dsep G o A B C = some r ∧
      (r = true ↔ USep (fun i j => (H.moralGraph oe ou ov).hasEdge i j = true)
        {a | a ∈ A} {b | b ∈ B} {c | c ∈ C}) := by
  obtain ⟨H, h1, h2, h3, h4⟩ := ancestralSubgraph_spec hG ot oa os S
  obtain ⟨r, hr, h⟩ := dsep_decides hG o A B C hAC
  refine ⟨H, r, h1, hr, h.trans ?_⟩
  have he : (fun i j => (H.moralGraph oe ou ov).hasEdge i j = true) = MAdj H.E := by
    funext i j; exact propext (moralGraph_hasEdge h2 oe ou ov i j)
  rw [he, h4]
  refine dsep_iff_moral hG.acyclic ?_ ?_ ?_
  · rw [Set.disjoint_left]; intro x hx hx'; exact Finset.disjoint_left.1 hAC hx hx'
  · rw [Set.disjoint_left]; intro x hx hx'; exact Finset.disjoint_left.1 hBC hx hx'
  · intro v
    have hm : ∀ s, s ∈ S ↔ s ∈ ({a | a ∈ A} ∪ {b | b ∈ B} ∪ {c | c ∈ C} : Set α) := by
      intro s
      rw [← List.mem_toFinset, hS]
      simp [or_assoc]
    exact exists_congr fun s => and_congr_left' (hm s)

/-- In the diamond 1 and 2 get married by their common child 3 when 4 is given. -/
example : (moralGraph Sample.order Sample.order Sample.order Sample.diamond).hasEdge 1 2 = true ∧
    (moralGraph Sample.order Sample.order Sample.order Sample.diamond).hasEdge 0 3 = false := by
  constructor
  · exact (moralGraph_hasEdge Sample.diamond_valid _ _ _ _ _).2 (Or.inr ⟨by decide, 3, by decide, by decide⟩)
  · rw [← Bool.not_eq_true, moralGraph_hasEdge Sample.diamond_valid]
    rintro (h | ⟨-, c, h1, h2⟩)
    · unfold Adj at h; revert h; decide
    · revert c; decide

example : ∃ H r, ancestralSubgraph Sample.order Sample.order Sample.order Sample.diamond [1, 2, 4] = some (H, none) ∧
    dsep Sample.diamond Sample.sep {1} {2} {4} = some r ∧
      (r = true ↔ USep (fun i j => (H.moralGraph Sample.order Sample.order Sample.order).hasEdge i j = true)
        {a | a ∈ ({1} : Finset (Fin 5))} {b | b ∈ ({2} : Finset (Fin 5))} {c | c ∈ ({4} : Finset (Fin 5))}) :=
  C34_moral Sample.diamond Sample.diamond_valid _ _ _ _ _ _ _ {1} {2} {4} (by decide) (by decide) [1, 2, 4] (by decide)

end Props
