import Verif.Model.GaussMisc

/-!
# `GaussDAG` objects and their node lists in memory

The constructor stores the list it is given (gaussdag.py:45: `self._node_list = nodes`), `add_node` and `remove_node` change it in place.
The arrays are copied by `np.array` (lines 48-49) and are not shared.
-/

namespace Model.Gauss

variable {K : Type} [Field K] [DecidableEq K]

/-- `to_dag` (gaussdag.py:69). -/
def Raw.toDag (o : SetOrder (Option ℕ) ℕ) (oa : SetOrder Bool (ℕ × ℕ)) (G : Raw K) : Option (Model.Step ℕ) :=
  DAG.new o oa G.names.toFinset G.dag.arcs

/-- The constructor for a list of nodes (gaussdag.py:37-60). -/
def Raw.new (oa : SetOrder Bool (ℕ × ℕ)) (nodes : List ℕ) (arcs : List ((ℕ × ℕ) × K)) (biases variances : ℕ → K) :
    Raw K × Option (Exn ℕ) :=
  ((Gauss.new oa nodes.get arcs (fun i => biases i) fun i => variances i).1.toRaw,
    (Gauss.new oa nodes.get arcs (fun i => biases i) fun i => variances i).2)

/-- Memory: the lists, how many there are, and the objects with the numbers of their node lists; the component `names` of an object is not
used. -/
structure Mem (K : Type) where
  lists : ℕ → List ℕ
  next : ℕ
  objs : List (Raw K × ℕ)

/-- The object with the current content of its node list. -/
def Mem.view (h : Mem K) (p : Raw K × ℕ) : Raw K := { p.1 with names := h.lists p.2 }

/-- What the caller does next: makes a list, makes a graph from list number `l`, changes the nodes of graph `k`, calls `to_dag`, gives
list `l` another content, or looks at it. -/
inductive GAct (K : Type)
  | list (xs : List ℕ)
  | new (l : ℕ) (arcs : List ((ℕ × ℕ) × K)) (biases variances : ℕ → K)
  | addNode (k v : ℕ)
  | removeNode (k v : ℕ)
  | toDag (k : ℕ)
  | change (l : ℕ) (xs : List ℕ)
  | look (l : ℕ)

/-- What the caller sees. -/
inductive GOut
  | done
  | raised (e : Exn ℕ)
  | dag (r : Option (Model.Step ℕ))
  | list (xs : List ℕ)

/-- The outcome of a mutator. -/
def GOut.of (e : Option (Exn ℕ)) : GOut :=
  match e with
  | some e => .raised e
  | none => .done

/-- Iteration orders. -/
structure GOrders where
  top : SetOrder (Option ℕ) ℕ
  arcs : SetOrder Bool (ℕ × ℕ)
  nbrs : SetOrder Bool ℕ

/-- Puts back an object after a method has changed it, with the content of its list. -/
def Mem.store (h : Mem K) (k l : ℕ) (G : Raw K) : Mem K :=
  { h with lists := Function.update h.lists l G.names, objs := h.objs.set k (G, l) }

/-- One step of the caller (gaussdag.py:37-69, 447-478). An object whose constructor raises is lost. -/
def Mem.exec (w : GOrders) (h : Mem K) : GAct K → Mem K × GOut
  | .list xs => ({ h with lists := Function.update h.lists h.next xs, next := h.next + 1 }, .list xs)
  | .new l arcs b v =>
      match Raw.new w.arcs (h.lists l) arcs b v with
      | (G, none) => ({ h with objs := h.objs ++ [(G, l)] }, .done)
      | (_, some e) => (h, .raised e)
  | .addNode k v =>
      match h.objs[k]? with
      | some p => (h.store k p.2 ((h.view p).addNode v), .done)
      | none => (h, .done)
  | .removeNode k v =>
      match h.objs[k]? with
      | some p => (h.store k p.2 ((h.view p).removeNode w.nbrs v).1, .of ((h.view p).removeNode w.nbrs v).2)
      | none => (h, .done)
  | .toDag k =>
      match h.objs[k]? with
      | some p => (h, .dag ((h.view p).toDag w.top w.arcs))
      | none => (h, .done)
  | .change l xs => if l < h.next then ({ h with lists := Function.update h.lists l xs }, .done) else (h, .done)
  | .look l => (h, .list (h.lists l))

/-- All steps. -/
def Mem.run : List (GOrders × GAct K) → Mem K → Mem K × List GOut
  | [], h => (h, [])
  | (w, a) :: l, h => ((run l (h.exec w a).1).1, (h.exec w a).2 :: (run l (h.exec w a).1).2)

end Model.Gauss
