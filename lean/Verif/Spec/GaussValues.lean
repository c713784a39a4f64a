import Verif.Model.GaussHeap

/-! # The same steps when every `GaussDAG` is a value of its own and the caller's lists are the caller's -/

namespace Model.Gauss

variable {K : Type} [Field K] [DecidableEq K]

/-- The caller's lists and the graphs. -/
structure Vals (K : Type) where
  lists : ℕ → List ℕ
  next : ℕ
  objs : List (Raw K)

/-- One step of the caller. -/
def Vals.exec (w : GOrders) (s : Vals K) : GAct K → Vals K × GOut
  | .list xs => ({ s with lists := Function.update s.lists s.next xs, next := s.next + 1 }, .list xs)
  | .new l arcs b v =>
      match Raw.new w.arcs (s.lists l) arcs b v with
      | (G, none) => ({ s with objs := s.objs ++ [G] }, .done)
      | (_, some e) => (s, .raised e)
  | .addNode k v =>
      match s.objs[k]? with
      | some G => ({ s with objs := s.objs.set k (G.addNode v) }, .done)
      | none => (s, .done)
  | .removeNode k v =>
      match s.objs[k]? with
      | some G => ({ s with objs := s.objs.set k (G.removeNode w.nbrs v).1 }, .of (G.removeNode w.nbrs v).2)
      | none => (s, .done)
  | .toDag k =>
      match s.objs[k]? with
      | some G => (s, .dag (G.toDag w.top w.arcs))
      | none => (s, .done)
  | .change l xs => if l < s.next then ({ s with lists := Function.update s.lists l xs }, .done) else (s, .done)
  | .look l => (s, .list (s.lists l))

/-- All steps. -/
def Vals.run : List (GOrders × GAct K) → Vals K → Vals K × List GOut
  | [], s => (s, [])
  | (w, a) :: l, s => ((run l (s.exec w a).1).1, (s.exec w a).2 :: (run l (s.exec w a).1).2)

/-- The caller makes every list it uses, gives it to at most one constructor, and then leaves it alone. `n` lists have been made so far,
those in `used` have been given away. -/
def HandsOff : ℕ → Finset ℕ → List (GOrders × GAct K) → Prop
  | _, _, [] => True
  | n, used, (_, .list _) :: l => HandsOff (n + 1) used l
  | n, used, (_, .new k _ _ _) :: l => k < n ∧ k ∉ used ∧ HandsOff n (insert k used) l
  | n, used, (_, .change k _) :: l => k ∉ used ∧ HandsOff n used l
  | n, used, (_, .look k) :: l => k ∉ used ∧ HandsOff n used l
  | n, used, (_, .addNode _ _) :: l => HandsOff n used l
  | n, used, (_, .removeNode _ _) :: l => HandsOff n used l
  | n, used, (_, .toDag _) :: l => HandsOff n used l

end Model.Gauss
