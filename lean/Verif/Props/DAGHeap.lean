import Verif.Proof.DAGHeap
import Verif.Props.Sample

/-! # C252: `DAG` objects do not share state with the caller or with each other -/

namespace Props

open Model Model.DHeap

universe u

/-- C252. Whatever graphs are made and copied, whichever mutators and accessors are called on them, and whatever the caller does with the
sets it has passed to the constructor and with all sets it has got from the accessors: every graph is in the state it would be in as a value
of its own, and every call returns or raises the same. -/
theorem C252_values {α : Type u} [DecidableEq α] (l : List (DAG.Orders α × Act α)) :
    (run l (start α)).map (fun r => (r.1.views, r.2)) = runV l [] :=
  run_spec l start_apart

/-- C252: in every state the caller can bring about, no two attributes share a set and none shares one with the caller, and a set changed by
the caller changes no graph. -/
theorem C252_caller {α : Type u} [DecidableEq α] (l : List (DAG.Orders α × Act α)) {h : DHeap α} {x : List (Out α)}
    (hl : run l (start α) = some (h, x)) (w : DAG.Orders α) (a : ℕ × DSlot α) (s : Finset α) (b : ℕ) (t : Finset (α × α)) :
    (∀ k i k' i' c, h.slot k i = some c → h.slot k' i' = some c → k = k' ∧ i = i') ∧
      (∀ k i c, h.slot k i = some c → c.1 ∉ h.held) ∧
      (h.step w (.change a s)).map (fun r => r.1.views) = some h.views ∧
      (h.step w (.changeArcs b t)).map (fun r => r.1.views) = some h.views := by
  have H := run_apart l start_apart hl
  have h1 := step_spec H w (.change a s)
  have h2 := step_spec H w (.changeArcs b t)
  refine ⟨H.inj, H.free, ?_, ?_⟩
  · rcases e : h.step w (.change a s) with _ | r <;> rw [e] at h1
    · simp [step] at e
    · have := congrArg (Option.map Prod.fst) h1.2
      simpa [stepV] using this.symm
  · rcases e : h.step w (.changeArcs b t) with _ | r <;> rw [e] at h2
    · simp [step] at e
    · have := congrArg (Option.map Prod.fst) h2.2
      simpa [stepV] using this.symm

/-- A caller that copies a graph, adds an arc to the original and empties the set returned by `children_of` and the set passed to the
constructor. -/
example (w : DAG.Orders ℕ) :
    (run [(w, .new {1} ∅), (w, .copy 0), (w, .call 0 (.addArc false 1 2)), (w, .childrenOf 0 1), (w, .change (7, .chi 1) ∅),
      (w, .change (0, .nodes) ∅), (w, .childrenOf 0 1), (w, .childrenOf 1 1), (w, .nodes 1)] (start ℕ)).map Prod.snd =
    some [.done, .done, .done, .nodeSet {2}, .done, .done, .nodeSet {2}, .nodeSet ∅, .nodeSet {1}] := by
  have h := congrArg (Option.map Prod.snd) (C252_values [(w, .new {1} ∅), (w, .copy 0), (w, .call 0 (.addArc false 1 2)),
    (w, .childrenOf 0 1), (w, .change (7, .chi 1) ∅), (w, .change (0, .nodes) ∅), (w, .childrenOf 0 1), (w, .childrenOf 1 1),
    (w, .nodes 1)])
  rw [Option.map_map] at h
  refine Eq.trans h ?_
  simp [runV, stepV, onVal, DAG.new, DAG.addArcsFrom, DAG.Op.exec, DAG.addArc, DAG.addArcUnchecked, DAG.link, DAG.empty, Out.of]

/-- The address `(7, _children[1])` above is the set returned by `children_of`, and `(0, _nodes)` the one passed to the constructor. -/
example (w : DAG.Orders ℕ) :
    (run [(w, .new {1} ∅), (w, .copy 0), (w, .call 0 (.addArc false 1 2)), (w, .childrenOf 0 1)] (start ℕ)).map
      (fun r => (r.1.held, r.1.ns (7, .chi 1), r.1.ns (0, .nodes))) = some ({7, 0}, {2}, {1}) := by
  simp [run, step, passed, give, Prog.addArcsFrom, exec, Prog.ofOp, Prog.addArc, Prog.seq, Prog.bind, Prog.link, start, alloc, onObj,
    single, val, arcsOf, change, changeArcs, Function.update]

end Props
