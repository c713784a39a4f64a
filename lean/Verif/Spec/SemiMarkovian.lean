import Mathlib.Algebra.BigOperators.Group.Finset.Basic
import Mathlib.Data.Fintype.Pi
import Mathlib.Data.Real.Basic
import Verif.Model.SemiMarkovian
import Verif.Spec.Views

/-! # What `SemiMarkovian` objects and formulas mean -/

namespace Model

universe u
variable {α : Type u} [DecidableEq α]

namespace SemiMarkovian

/-- All views of the graph agree, and both ends of each edge are nodes. -/
structure Consistent (A : SemiMarkovian α) : Prop where
  parents_iff : ∀ i j, i ∈ A.parents j ↔ (i, j) ∈ A.directed
  children_iff : ∀ i j, j ∈ A.children i ↔ (i, j) ∈ A.directed
  spouses_iff : ∀ i j, i ∈ A.spouses j ↔ {i, j} ∈ A.bidirected
  adjacent_iff : ∀ i j, i ∈ A.adjacent j ↔ (i, j) ∈ A.directed ∨ (j, i) ∈ A.directed ∨ {i, j} ∈ A.bidirected
  dir_mem : ∀ i j, (i, j) ∈ A.directed → i ∈ A.nodes ∧ j ∈ A.nodes
  bi_pair : ∀ e ∈ A.bidirected, ∃ i j, e = {i, j}
  bi_mem : ∀ e ∈ A.bidirected, e ⊆ A.nodes

/-- No bidirected edge is a loop. -/
def Loopless (A : SemiMarkovian α) : Prop := ∀ i, {i} ∉ A.bidirected

end SemiMarkovian

end Model

namespace Spec

universe u v
variable {α : Type u} [DecidableEq α] [Fintype α] {β : Type v} [DecidableEq β] [Fintype β]

/-- `F` with the variables in `D` summed out, at the assignment `x`. -/
def sumOut (D : Finset α) (F : (α → β) → ℝ) (x : α → β) : ℝ := ∑ w with ∀ v, v ∉ D → w v = x v, F w

/-- The probability that the variables in `S` take their values in `x`. -/
def marginalPr (law : (α → β) → ℝ) (S : Finset α) (x : α → β) : ℝ := ∑ w with ∀ v ∈ S, w v = x v, law w

mutual

/-- What a formula denotes if `P I` is the joint distribution of all variables under the intervention on `I`. -/
noncomputable def meaning (P : Finset α → (α → β) → ℝ) : Model.Formula α → (α → β) → ℝ
  | .term a c i, x => marginalPr (P i) (a ∪ c) x / marginalPr (P i) c x
  | .prod _ ts, x => meanings P ts x
  | .marginal _ s f, x => sumOut s (meaning P f) x

/-- The product of the meanings of a list of formulas. -/
noncomputable def meanings (P : Finset α → (α → β) → ℝ) : List (Model.Formula α) → (α → β) → ℝ
  | [], _ => 1
  | t :: ts, x => meaning P t x * meanings P ts x

end

/-- `g` denotes the conditional distribution of the variables in `m` given those in `d`, in the distribution `F` of the variables
in `a`. -/
def IsConditional (F : (α → β) → ℝ) (a m d : Finset α) (g : (α → β) → ℝ) : Prop :=
  ∀ x, sumOut (a \ d) F x ≠ 0 → g x = sumOut (a \ (m ∪ d)) F x / sumOut (a \ d) F x

/-- Formulas made of one conditional probability, with variables summed out any number of times. -/
inductive Single : Model.Formula α → Prop
  | term {a c i : Finset α} : Disjoint a c → Single (.term a c i)
  | marginal {m : Finset α} {f : Model.Formula α} : Single f → m ⊆ f.active → Single (.marginal m (f.active \ m) f)

end Spec
