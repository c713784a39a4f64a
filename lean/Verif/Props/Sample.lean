import Verif.Spec.Views
import Verif.Proof.DSep
import Verif.Proof.Queries
import Verif.Model.DSep

/-!
# Sample objects

Concrete graphs and iteration orders used by the `example`s that show that hypotheses can be met.
-/

namespace Sample

open Model Spec

/-- Some iteration order. -/
noncomputable def order {κ : Type*} {α : Type*} : SetOrder κ α :=
  ⟨fun _ s => s.toList, fun _ s => s.nodup_toList, fun _ _ _ => Finset.mem_toList⟩

/-- Some choice of `pop`. -/
noncomputable def pick {σ : Type*} : Pick σ :=
  ⟨fun _ _ h => h.choose, fun _ _ h => h.choose_spec⟩

noncomputable def sep {α : Type*} : SepOracle α := ⟨order, order, pick⟩

/-- The graph with the given arcs and the views that belong to them. -/
def graph {n : ℕ} (arcs : Finset (Fin n × Fin n)) : DAG (Fin n) :=
  { nodes := Finset.univ
    arcs := arcs
    neighbors := fun v => Finset.univ.filter fun u => (u, v) ∈ arcs ∨ (v, u) ∈ arcs
    parents := fun v => Finset.univ.filter fun u => (u, v) ∈ arcs
    children := fun v => Finset.univ.filter fun w => (v, w) ∈ arcs }

theorem graph_consistent {n : ℕ} (arcs : Finset (Fin n × Fin n)) : (graph arcs).Consistent := by
  constructor <;> simp [graph]

theorem acyclic_of_lt {n : ℕ} {E : Fin n → Fin n → Prop} (h : ∀ a b, E a b → a < b) : Acyclic E := by
  intro v hv
  have : ∀ a b, Path E a b → a < b := by
    intro a b hab
    induction hab with
    | single h1 => exact h _ _ h1
    | tail _ h1 ih => exact lt_trans ih (h _ _ h1)
  exact lt_irrefl _ (this v v hv)

theorem graph_valid {n : ℕ} {arcs : Finset (Fin n × Fin n)} (h : ∀ a ∈ arcs, a.1 < a.2) :
    (graph arcs).Valid :=
  ⟨graph_consistent arcs, acyclic_of_lt fun _ _ hab => h _ hab⟩

/-- `0 → 1 → 3 ← 2 ← 0`, `3 → 4`: a chain, a fork and a collider. -/
def diamond : DAG (Fin 5) := graph {(0, 1), (0, 2), (1, 3), (2, 3), (3, 4)}

theorem diamond_valid : diamond.Valid := graph_valid (by decide)

/-- `0 → 1 → 2 → 0` -/
def triangle : DAG (Fin 3) := graph {(0, 1), (1, 2), (2, 0)}

theorem triangle_cyclic : ¬ Acyclic triangle.E := by
  intro h
  have h1 : triangle.E 0 1 := by decide
  have h2 : triangle.E 1 2 := by decide
  have h3 : triangle.E 2 0 := by decide
  exact h 0 (((Relation.TransGen.single h1).tail h2).tail h3)

theorem triangle_consistent : triangle.Consistent := graph_consistent _

end Sample
