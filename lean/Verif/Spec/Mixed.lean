import Verif.Spec.Digraph

/-!
# Textbook notions about mixed graphs (Richardson and Spirtes 2002)

A mixed graph has directed, bidirected and undirected edges. `bi` and `un` are meant to be symmetric. Nothing in this file
refers to the Python code or to the model of it.
-/

namespace Spec

universe u

/-- `dir u v`: `u → v`; `bi u v`: `u ↔ v`; `un u v`: `u − v`. -/
structure Mixed (α : Type u) where
  dir : α → α → Prop
  bi : α → α → Prop
  un : α → α → Prop

namespace Mixed

variable {α : Type u}

/-- Some edge joins `u` and `v`. -/
def Adj (M : Mixed α) (u v : α) : Prop := M.dir u v ∨ M.dir v u ∨ M.bi u v ∨ M.un u v

/-- Some edge between `u` and `v` has an arrowhead at `v`. -/
def Into (M : Mixed α) (u v : α) : Prop := M.dir u v ∨ M.bi u v

/-- Three consecutive nodes of a path let information through given `C`: a collider `v` needs a member of `C` among
`v` and its descendants, any other middle node must not be in `C`. -/
def TripleOpen (M : Mixed α) (C : Set α) (u v w : α) : Prop :=
  (M.Into u v ∧ M.Into w v → ∃ c ∈ C, Path0 M.dir v c) ∧ (¬ (M.Into u v ∧ M.Into w v) → v ∉ C)

/-- `l` is a path from `a` to `b` without repeated nodes that is m-connecting given `C`. -/
structure MPath (M : Mixed α) (C : Set α) (a b : α) (l : List α) : Prop where
  head : l.head? = some a
  last : l.getLast? = some b
  nodup : l.Nodup
  adj : ∀ u v, [u, v] <:+: l → M.Adj u v
  opn : ∀ u v w, [u, v, w] <:+: l → M.TripleOpen C u v w

/-- No m-connecting path joins `A` and `B` given `C`. -/
def MSep (M : Mixed α) (A B C : Set α) : Prop := ∀ a ∈ A, ∀ b ∈ B, ∀ l, ¬ M.MPath C a b l

/-- Ancestral graphs: no directed cycle, no bidirected edge between a node and its ancestor, no arrowhead at a node with
an undirected edge. -/
structure Ancestral (M : Mixed α) : Prop where
  acyclic : Acyclic M.dir
  almost : ∀ u v, M.bi u v → ¬ Path M.dir u v
  tails : ∀ u v w, M.un u v → ¬ M.Into w u

/-- Maximal: any two nodes of `V` without an edge are separated by some set of other nodes. -/
def Maximal (M : Mixed α) (V : Set α) : Prop :=
  ∀ i ∈ V, ∀ j ∈ V, i ≠ j → ¬ M.Adj i j → ∃ Z ⊆ V \ {i, j}, M.MSep {i} {j} Z

end Mixed

end Spec
