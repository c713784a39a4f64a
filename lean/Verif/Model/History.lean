import Verif.Model.DAG

/-!
# Histories of mutator calls on a `DAG` object

A caller may catch every exception and go on with the object, so a history continues after a raising call.
-/

namespace Model

universe u
variable {α : Type u} [DecidableEq α]

/-- A mutator call with its arguments. -/
inductive DAG.Op (α : Type u)
  | addNode (v : α)
  | addArc (check : Bool) (i j : α)
  | addArcsFrom (check : Bool) (arcs : Finset (α × α))
  | removeArc (ignoreError : Bool) (i j : α)
  | removeArcsFrom (ignoreError : Bool) (arcs : List (α × α))
  | reverseArc (ignoreError check : Bool) (i j : α)
  | removeNode (ignoreError : Bool) (v : α)

/-- Iteration orders used during one call. -/
structure DAG.Orders (α : Type u) where
  top : SetOrder (Option α) α
  arcs : SetOrder Bool (α × α)
  nbrs : SetOrder Bool α

/-- Execution of one call (dag.py:692-946). -/
def DAG.Op.exec (w : DAG.Orders α) (G : DAG α) : DAG.Op α → Option (Step α)
  | .addNode v => some (G.addNode v, none)
  | .addArc check i j => G.addArc check w.top i j
  | .addArcsFrom check arcs => G.addArcsFrom check w.top w.arcs arcs
  | .removeArc ig i j => some (G.removeArc ig i j)
  | .removeArcsFrom ig arcs => some (G.removeArcsFrom ig arcs)
  | .reverseArc ig check i j => G.reverseArc ig check w.top i j
  | .removeNode ig v => some (G.removeNode ig w.nbrs v)

/-- The states a `DAG` object can be in: built by the constructor, then any calls, each of them allowed by
`ok`, with any outcome. -/
inductive DAG.Reachable (ok : DAG α → DAG.Op α → Prop) : DAG α → Prop
  | new (w : DAG.Orders α) (nodes arcs G) :
      DAG.new w.top w.arcs nodes arcs = some (G, none) → DAG.Reachable ok G
  | call (G : DAG α) (w : DAG.Orders α) (op : DAG.Op α) (G' : DAG α) (e) :
      DAG.Reachable ok G → ok G op → op.exec w G = some (G', e) → DAG.Reachable ok G'

end Model
