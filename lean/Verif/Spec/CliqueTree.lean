import Verif.Spec.Digraph
import Mathlib.Data.Finset.Card

/-! # Cliques of a directed graph and trees of cliques -/

namespace Spec

universe u
variable {α : Type u} [DecidableEq α]

/-- The members of `c` are pairwise adjacent. -/
def Clique (E : α → α → Prop) (c : Finset α) : Prop := ∀ x ∈ c, ∀ y ∈ c, x ≠ y → Adj E x y

/-- `c` is a largest nonempty set of pairwise adjacent members of `V`. -/
structure MaxClique (V : Finset α) (E : α → α → Prop) (c : Finset α) : Prop where
  nonempty : c.Nonempty
  sub : c ⊆ V
  clique : Clique E c
  max : ∀ d, d ⊆ V → Clique E d → c ⊆ d → d = c

/-- There are arcs from all members of `s` to all other members of `c`. -/
def Into (E : α → α → Prop) (s c : Finset α) : Prop := ∀ x ∈ s, ∀ y ∈ c, y ∉ s → E x y

/-- There is an arc between `a` and `b`, in whatever direction. -/
def Link {β : Type u} (T : Finset (β × β)) (a b : β) : Prop := (a, b) ∈ T ∨ (b, a) ∈ T

/-- There is an arc between `x` and `y` other than those between `a` and `b`. -/
def LinkExcept {β : Type u} (T : Finset (β × β)) (a b x y : β) : Prop :=
  Link T x y ∧ ¬ (x = a ∧ y = b) ∧ ¬ (x = b ∧ y = a)

/-- The arcs `T` make the sets `cl` a forest in which any two sets `c`, `d` with a common element are joined by a path of sets that
contain `c ∩ d`. -/
structure CliqueForest (cl : List (Finset α)) (T : Finset (Finset α × Finset α)) : Prop where
  ends : ∀ a b, (a, b) ∈ T → a ∈ cl ∧ b ∈ cl ∧ (a ∩ b).Nonempty
  forest : ∀ a b, (a, b) ∈ T → ¬ Relation.ReflTransGen (LinkExcept T a b) a b
  joined : ∀ c ∈ cl, ∀ d ∈ cl, (c ∩ d).Nonempty →
    Relation.ReflTransGen (fun x y => Link T x y ∧ c ∩ d ⊆ x ∧ c ∩ d ⊆ y) c d

end Spec
