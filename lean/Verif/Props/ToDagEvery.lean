import Verif.Props.ToDag
import Verif.Proof.ToDagEvery

/-! # C239: the results of `to_dag` -/

namespace Props

open Model Spec
universe u
variable {α : Type u} [DecidableEq α]

/-- C239. If the set of nodes is iterated from the last to the first node of a consistent extension, `to_dag()` returns
this extension. -/
theorem C239_to_dag_reverse_order (P : PDAG α) (hP : P.Consistent) (hS : P.Simple) (o : PDAG.DagOracle α)
    (F : α → α → Prop) (hF : Extends (fun i j => (i, j) ∈ P.arcs) (fun i j => {i, j} ∈ P.edges) F) (f : α → ℕ)
    (hf : ∀ a ∈ P.nodes, ∀ b ∈ P.nodes, F a b → f a < f b)
    (hord : ∀ n, ∀ s ⊆ P.nodes, (o.nodes.ord n s).Pairwise fun a b => f b ≤ f a) :
    ∃ G, (P.toDag o).run = some (.ok G) ∧ G.Valid ∧ ∀ i j, (i, j) ∈ G.arcs ↔ F i j :=
  PDAG.toDag_every o hP hS hF f hord hf

/-- C239. A graph is a consistent extension iff `to_dag()` returns it for some iteration order of the set of nodes. -/
theorem C239_to_dag_every (P : PDAG α) (hP : P.Consistent) (hS : P.Simple) (F : α → α → Prop) (o : PDAG.DagOracle α)
    (hex : ∃ H, Extends (fun i j => (i, j) ∈ P.arcs) (fun i j => {i, j} ∈ P.edges) H) :
    Extends (fun i j => (i, j) ∈ P.arcs) (fun i j => {i, j} ∈ P.edges) F ↔
      ∃ (nodes : SetOrder ℕ α) (G : DAG α), (P.toDag { o with nodes := nodes }).run = some (.ok G) ∧
        ∀ i j, (i, j) ∈ G.arcs ↔ F i j := by
  constructor
  · intro hF
    obtain ⟨f, _, hf, _⟩ := exists_rank hF.acyclic _ P.nodes rfl
    let nodes : SetOrder ℕ α := ⟨fun _ s => s.toList.mergeSort fun a b => decide (f b ≤ f a),
      fun _ s => (List.mergeSort_perm _ _).nodup_iff.2 s.nodup_toList, fun _ s a => by simp⟩
    obtain ⟨G, h1, _, h2⟩ := C239_to_dag_reverse_order P hP hS { o with nodes := nodes } F hF f hf (by
      intro n s _
      have := List.pairwise_mergeSort (le := fun a b => decide (f b ≤ f a)) (by
        intro a b c; simp only [decide_eq_true_eq]; omega) (by
        intro a b; simp only [Bool.or_eq_true, decide_eq_true_eq]; omega) s.toList
      exact this.imp fun h => by simpa using h)
    exact ⟨nodes, G, h1, h2⟩
  · rintro ⟨nodes, G, h1, h2⟩
    obtain ⟨G', g1, _, g2, _⟩ := C23_to_dag P hP hS { o with nodes := nodes } hex
    obtain rfl : G = G' := by rw [h1] at g1; injection g1 with g1; injection g1
    have : G.E = F := by funext i j; exact propext (h2 i j)
    rw [← this]; exact g2

/-- The partly directed chain `0 → 1 - 2` has the extension `0 → 1 → 2`, so `to_dag()` can return it. -/
example : ∃ (nodes : SetOrder ℕ (Fin 3)) (G : DAG (Fin 3)),
    (Sample.partly.toDag { Sample.dagOracle 3 Sample.unpack with nodes := nodes }).run = some (.ok G) ∧
      ∀ i j, (i, j) ∈ G.arcs ↔ Sample.right.E i j := by
  obtain ⟨hc, _, _⟩ := Sample.partly_spec
  exact (C239_to_dag_every Sample.partly hc Sample.partly_simple _ _ ⟨_, Sample.partly_extends⟩).1 Sample.partly_extends

end Props
