import Verif.Proof.SortTotal
import Verif.Proof.DAGHeap
import Verif.Proof.GaussCache
import Verif.Spec.Calls
import Verif.Props.Sample

/-! # The mutators always end (C256); the results of C252 and C255 without the case that a call does not end -/

namespace Props

open Model Spec

universe u
variable {α : Type u} [DecidableEq α]

private theorem calls_total {σ : Type*} {κ : Type*} {ε : Type*} {f : κ → σ → Option (σ × Option ε)}
    (h : ∀ c s, ∃ r, f c s = some r) : ∀ (l : List κ) (s : σ), ∃ r, calls f l s r
  | [], s => ⟨s, rfl⟩
  | c :: l, s => by
      obtain ⟨⟨s', e⟩, h'⟩ := h c s
      obtain ⟨r, hr⟩ := calls_total h l s'
      exact ⟨r, s', e, h', hr⟩

/-- C256: `topological_sort` of `DAG` and `AncestralGraph` ends in every state of the object, with cycles or not, whether or not the views of
the object agree, and in whatever order sets are iterated. -/
theorem C256_topological_sort (G : DAG α) (A : AG α) (o os : SetOrder (Option α) α) :
    (∃ r, (DAG.topologicalSort G o).run = some r) ∧ ∃ r, (AG.topologicalSort A o os).run = some r :=
  ⟨DAG.topologicalSort_total G o, AG.topologicalSort_total A o os⟩

/-- C256: the constructor of `DAG`, and any sequence of calls of mutators of `DAG`, `AncestralGraph` and the `cyclic_graph` class, with and
without the check, from any state, ends. -/
theorem C256_mutators (w : DAG.Orders α) (nodes : Finset α) (arcs : Finset (α × α)) (G : DAG α) (A : AG α) (C : CyclicG α)
    (lG : List (DAG.Orders α × DAG.Op α)) (lA : List (AG.Orders α × AG.Op α)) (lC : List (AG.Orders α × CyclicG.Op α)) :
    (∃ r, DAG.new w.top w.arcs nodes arcs = some r) ∧
      (∃ G', calls (fun c (G : DAG α) => c.2.exec c.1 G) lG G G') ∧
      (∃ A', calls (fun c (A : AG α) => c.2.exec c.1 A) lA A A') ∧
      ∃ C', calls (fun c (C : CyclicG α) => c.2.exec c.1 C) lC C C' :=
  ⟨DAG.addArcsFrom_total _ _ _ _ _, calls_total (fun c s => DAG.exec_total c.1 s c.2) lG G,
    calls_total (fun c s => AG.exec_total c.1 s c.2) lA A, calls_total (fun c s => CyclicG.exec_total c.1 s c.2) lC C⟩

/-- C256: `set_arc_weight` (and so `add_arc`) of `GaussDAG` ends. -/
theorem C256_gauss {n : ℕ} (o : SetOrder (Option ℕ) ℕ) (oa : SetOrder Bool (ℕ × ℕ)) (oc : SetOrder Unit ℕ) (G : Gauss n ℝ) (i j : ℕ) (v : ℝ) :
    ∃ r, G.setArcWeight o i j v = some r :=
  GaussCache.change_total ⟨o, oa, oc⟩ G (.setArcWeight i j v)

/-- C252: the steps of the caller always end, so that `C252_values` always compares two results. -/
theorem C252_total (l : List (DAG.Orders α × DHeap.Act α)) :
    ∃ h x, DHeap.run l (DHeap.start α) = some (h, x) ∧ DHeap.runV l [] = some (h.views, x) := by
  have h := DHeap.run_spec l (DHeap.start_apart (α := α))
  have h0 : (DHeap.start α).views = [] := rfl
  rw [h0] at h
  obtain ⟨⟨P, x⟩, hr⟩ := DHeap.runV_total l []
  rw [hr] at h
  rcases e : DHeap.run l (DHeap.start α) with _ | ⟨H, y⟩
  · rw [e] at h; simp at h
  · rw [e] at h
    simp only [Option.map_some, Option.some.injEq, Prod.mk.injEq] at h
    exact ⟨H, y, rfl, by rw [hr, h.1, h.2]⟩

end Props
