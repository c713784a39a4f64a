import Mathlib.Logic.Relation
import Mathlib.Data.Finset.Basic
import Mathlib.Data.List.Chain

/-!
# Textbook notions about directed graphs

A directed graph is given by its arc relation `E : α → α → Prop` (`E i j` : there is an arc `i → j`).
Nothing in this file refers to the Python code or to the model of it.
-/

namespace Spec

universe u
variable {α : Type u}

/-- `v` can be reached from `u` along a nonempty directed path. -/
abbrev Path (E : α → α → Prop) : α → α → Prop := Relation.TransGen E

/-- `v` can be reached from `u` along a possibly empty directed path. -/
abbrev Path0 (E : α → α → Prop) : α → α → Prop := Relation.ReflTransGen E

/-- No directed cycle. -/
def Acyclic (E : α → α → Prop) : Prop := ∀ v, ¬ Path E v v

/-- `u` and `v` are adjacent. -/
def Adj (E : α → α → Prop) (u v : α) : Prop := E u v ∨ E v u

/-- `l` lists every element of `V` exactly once, and the source of every arc stands before its target. -/
structure LinearExtension (V : Set α) (E : α → α → Prop) (l : List α) : Prop where
  nodup : l.Nodup
  mem_iff : ∀ v, v ∈ l ↔ v ∈ V
  before : ∀ i j, E i j → List.Sublist [i, j] l

/-- `l` is a directed walk along arcs: consecutive elements are joined by arcs. -/
def IsWalk (E : α → α → Prop) (l : List α) : Prop := List.IsChain E l

/-- `l` is a directed walk whose last node already occurs earlier on it. -/
def IsClosingWalk (E : α → α → Prop) (l : List α) : Prop :=
  IsWalk E l ∧ ∃ p v, l = p ++ [v] ∧ v ∈ p

/-! ## d-separation -/

/-- Three consecutive nodes `u, v, w` of a path let information through given `C`: a collider
`u → v ← w` needs a member of `C` among `v` and its descendants, any other triple needs `v ∉ C`. -/
def TripleOpen (E : α → α → Prop) (C : Set α) (u v w : α) : Prop :=
  (E u v ∧ E w v → ∃ c ∈ C, Path0 E v c) ∧ (¬ (E u v ∧ E w v) → v ∉ C)

/-- `l` is a path from `a` to `b` without repeated nodes (in the skeleton) that is active given `C`. -/
structure ActivePath (E : α → α → Prop) (C : Set α) (a b : α) (l : List α) : Prop where
  head : l.head? = some a
  last : l.getLast? = some b
  nodup : l.Nodup
  adj : ∀ u v, [u, v] <:+: l → Adj E u v
  opn : ∀ u v w, [u, v, w] <:+: l → TripleOpen E C u v w

/-- No active path joins `A` and `B` given `C`. -/
def DSep (E : α → α → Prop) (A B C : Set α) : Prop :=
  ∀ a ∈ A, ∀ b ∈ B, ∀ l, ¬ ActivePath E C a b l

/-! ## Markov equivalence, graphically -/

/-- `a → c ← b` with `a, b` distinct and not adjacent. -/
def VStruct (E : α → α → Prop) (a c b : α) : Prop :=
  a ≠ b ∧ E a c ∧ E b c ∧ ¬ Adj E a b

/-- Same skeleton and same v-structures. -/
structure SameSkelV (E F : α → α → Prop) : Prop where
  skel : ∀ a b, Adj E a b ↔ Adj F a b
  vstr : ∀ a c b, VStruct E a c b ↔ VStruct F a c b

end Spec
