import Verif.Proof.UGHeap
import Verif.Props.Sample

/-! # C249: `UndirectedGraph` objects do not share state with the caller or with each other -/

namespace Props

open Model Model.Heap

universe u

/-- C249 as far as it holds. Whatever graphs are made and copied, whichever mutators and accessors are called on them, and whatever the
caller does with its own sets and with the sets returned by `nodes`, `edges`, `neighbors_of` and `copy`: every graph is in the state it would
be in as a value of its own, and every call returns or raises the same. Missing from C249: changes of the sets in the dictionary returned
by `neighbors`, for which the statement is false (`C249_violated`). -/
theorem C249_partial {α : Type u} [DecidableEq α] (l : List (UOrders α × Act α)) (hl : ∀ p ∈ l, p.2.Discreet) :
    (run l (start α)).1.views = (runV l []).1 ∧ (run l (start α)).2 = (runV l []).2 :=
  run_spec l start_sep hl

/-- A caller that empties the set returned by `neighbors_of`, after copying the graph. -/
example (w : UOrders ℕ) :
    (run [(w, .new {1} ∅), (w, .copy 0), (w, .addEdge 0 1 2), (w, .neighborsOf 0 1), (w, .change 8 ∅), (w, .neighborsOf 0 1),
      (w, .neighborsOf 1 1)] (start ℕ)).2 =
    [.done, .done, .done, .nodeSet {2}, .done, .nodeSet {2}, .nodeSet ∅] := by
  have h := (C249_partial [(w, .new {1} ∅), (w, .copy 0), (w, .addEdge 0 1 2), (w, .neighborsOf 0 1), (w, .change 8 ∅),
    (w, .neighborsOf 0 1), (w, .neighborsOf 1 1)] (by
      intro p hp
      simp only [List.mem_cons, List.not_mem_nil, or_false] at hp
      rcases hp with rfl | rfl | rfl | rfl | rfl | rfl | rfl <;> trivial)).2
  rw [h]
  have e0 : w.oe.ord () ∅ = [] := List.eq_nil_iff_forall_not_mem.2 fun x hx => by simpa using (w.oe.mem_iff () ∅ x).1 hx
  simp [runV, execV, onVal, UG.new, UG.copy, e0, UG.addEdge, UG.link, Pure.pure, Except.pure, Except.map]

/-- C249 fails for `neighbors`: the sets in the dictionary are those of the object. A graph with the single node 1 and no edges lists the
neighbor 2 of 1 after the caller has added 2 to the set in the dictionary; as a value it would not. -/
theorem C249_violated (w : UOrders ℕ) :
    (run [(w, .new {1} ∅), (w, .neighbors 0), (w, .changeLent 3 {2}), (w, .neighborsOf 0 1), (w, .edges 0)] (start ℕ)).2 =
      [.done, .dict [(1, ∅)], .done, .nodeSet {2}, .edgeSet ∅] ∧
    (runV [(w, .new {1} ∅), (w, .neighbors 0), (w, .changeLent 3 {2}), (w, .neighborsOf 0 1), (w, .edges 0)] ([] : List (UG ℕ))).2 =
      [.done, .dict [(1, ∅)], .done, .nodeSet ∅, .edgeSet ∅] := by
  have e0 : w.oe.ord () ∅ = [] := List.eq_nil_iff_forall_not_mem.2 fun x hx => by simpa using (w.oe.mem_iff () ∅ x).1 hx
  have e1 : w.on.ord () {1} = [1] :=
    List.perm_singleton.1 ((List.perm_ext_iff_of_nodup (w.on.nodup () _) (List.nodup_singleton 1)).2 fun x => by
      simp [w.on.mem_iff () {1} x])
  constructor
  · simp [run, exec, onObj, Heap.new, start, e0, e1, lend, touch, val, give, evalE, Function.update]
  · simp [runV, execV, onVal, UG.new, e0, e1]

end Props
