import Verif.Spec.Essential
import Mathlib.Data.Finset.Card
import Mathlib.Data.Finset.Dedup

/-! # Intervention design: sets of single-node interventions that determine all orientations -/

namespace Spec

universe u
variable {α : Type u}

/-- The single-node targets of the nodes in `S`. -/
def singles (S : Finset α) : Set (Set α) := {I | ∃ v ∈ S, I = {v}}

/-- Once the targets `T` are known, intervening on the nodes of `S` leaves `E` as the only candidate. -/
def Verifies (E : α → α → Prop) (T : Set (Set α)) (S : Finset α) : Prop :=
  ∀ F, EquivalentCut (T ∪ singles S) E F → ∀ i j, F i j ↔ E i j

/-- Every graph compatible with the targets contains `i → j`. -/
def Forced (E : α → α → Prop) (T : Set (Set α)) (i j : α) : Prop := ∀ F, EquivalentCut T E F → F i j

/-- The partially directed graph that shows what the targets `T` teach about the graph `E` on `V`. -/
structure EssentialGraph [DecidableEq α] (V : Finset α) (E : α → α → Prop) (T : Set (Set α)) (nodes : Finset α)
    (arcs : Finset (α × α)) (edges : Finset (Finset α)) : Prop where
  nodes_eq : nodes = V
  arcs_iff : ∀ i j, (i, j) ∈ arcs ↔ Forced E T i j
  edges_iff : ∀ e, e ∈ edges ↔ ∃ i j, e = {i, j} ∧ E i j ∧ ¬ Forced E T i j

/-- Every edge has an end in `S`. -/
def VertexCover (H : Finset (α × α)) (S : Finset α) : Prop := ∀ e ∈ H, e.1 ∈ S ∨ e.2 ∈ S

/-- A vertex cover with as few nodes as possible. -/
def MinVertexCover (H : Finset (α × α)) (S : Finset α) : Prop :=
  VertexCover H S ∧ ∀ S', VertexCover H S' → S.card ≤ S'.card

/-- The nodes listed; `none` stands for Python's `None`. -/
def chosen [DecidableEq α] (ivs : List (Option α)) : Finset α := (ivs.filterMap id).toFinset

end Spec
