import Verif.Model.ToDag
import Mathlib.Data.Finset.Sort

/-!
# Adjacency matrices (dag.py, pdag.py)

A square `np.ndarray` of integers is its size with a function giving the entries. numpy raises `IndexError` beyond the
shape; negative indices do not occur, since all indices come from `enumerate` or `range`.
-/

namespace Model

universe u
variable {α : Type u}

/-- A square matrix; only the entries below `n` are meaningful. -/
structure Amat where
  n : ℕ
  entry : ℕ → ℕ → ℤ

/-- `np.zeros((n, n), dtype=int)` -/
def Amat.zeros (n : ℕ) : Amat := ⟨n, fun _ _ => 0⟩

/-- `amat[i, j] = x` -/
def Amat.set (i j : ℕ) (x : ℤ) (A : Amat) : Except (Exn α) Amat :=
  if i < A.n ∧ j < A.n then .ok { A with entry := fun a b => if a = i ∧ b = j then x else A.entry a b }
  else .error .index

variable [DecidableEq α]

/-- `{node: i for i, node in enumerate(node_list)}` (dag.py:1716, pdag.py:167): a later index overwrites an earlier one. -/
def node2ix (l : List α) : α → Option ℕ :=
  l.zipIdx.foldl (fun d p => Function.update d p.1 (some p.2)) fun _ => none

/-- `node2ix[v]` -/
def ixOf (l : List α) (v : α) : Except (Exn α) ℕ :=
  match node2ix l v with
  | some i => .ok i
  | none => .error .key

/-- `for i, j in pairs: amat[node2ix[i], node2ix[j]] = 1` -/
def setOnes (l : List α) : List (α × α) → Amat → Except (Exn α) Amat
  | [], A => .ok A
  | p :: ps, A => (ixOf l p.1).bind fun i => (ixOf l p.2).bind fun j => (A.set i j 1).bind (setOnes l ps)

namespace DAG

/-- `if not node_list: node_list = sorted(self._nodes)` (dag.py:1714-1715); `sorted` needs an order on the labels. -/
def orSorted [LinearOrder α] (nodes : Finset α) : Option (List α) → List α
  | none => nodes.sort (· ≤ ·)
  | some [] => nodes.sort (· ≤ ·)
  | some (x :: l) => x :: l

/-- `to_amat` (dag.py:1714-1724): the matrix and the node list. -/
def toAmat [LinearOrder α] (o : SetOrder Unit (α × α)) (G : DAG α) (nodeList : Option (List α)) :
    Except (Exn α) (Amat × List α) :=
  let l := orSorted G.nodes nodeList
  (setOnes l (o.ord () G.arcs) (.zeros G.nodes.card)).map fun A => (A, l)

/-- `from_amat` (dag.py:1682-1684). -/
def fromAmat (o : SetOrder (Option ℕ) ℕ) (oa : SetOrder Bool (ℕ × ℕ)) (A : Amat) : Option (Step ℕ) :=
  new o oa (Finset.range A.n) ((Finset.range A.n).offDiag.filter fun a => A.entry a.1 a.2 ≠ 0)

end DAG

namespace PDAG

/-- `for i, j in self._edges: ...` (pdag.py:177-179), both assignments. -/
def setBoth (l : List α) : List (α × α) → Amat → Except (Exn α) Amat
  | [], A => .ok A
  | p :: ps, A => (setOnes l [(p.1, p.2), (p.2, p.1)] A).bind (setBoth l ps)

/-- `to_amat` (pdag.py:165-181) and `to_df` (pdag.py:122-139), whose bodies agree; a `DataFrame` is a matrix with the list of
labels. `axis0` is `source_axis == 0`. -/
def toAmat [LinearOrder α] (oa : SetOrder Unit (α × α)) (oe : SetOrder Unit (Finset α)) (up : Unpack α) (P : PDAG α)
    (nodeList : Option (List α)) (axis0 : Bool) : Except (Exn α) (Amat × List α) :=
  let l := nodeList.getD (P.nodes.sort (· ≤ ·))
  let pairs := (oa.ord () P.arcs).map fun a => if axis0 then (a.1, a.2) else (a.2, a.1)
  (setOnes l pairs (.zeros P.nodes.card)).bind fun A =>
    (setBoth l ((oe.ord () P.edges).map up.fn) A).map fun A => (A, l)

/-- `zip(*np.triu_indices_from(amat, k=1))` -/
def triu (n : ℕ) : Finset (ℕ × ℕ) := (Finset.range n ×ˢ Finset.range n).filter fun a => a.1 < a.2

/-- `from_amat` (pdag.py:86-98). In the third case both branches of the conditional in line 96 are `(j, i)`. -/
def fromAmat (oa oe : SetOrder Unit (ℕ × ℕ)) (A : Amat) (axis0 : Bool) : PDAG ℕ :=
  let both := (triu A.n).filter fun a => A.entry a.1 a.2 ≠ 0 ∧ A.entry a.2 a.1 ≠ 0
  let upper := (triu A.n).filter fun a => A.entry a.1 a.2 ≠ 0 ∧ A.entry a.2 a.1 = 0
  let lower := (triu A.n).filter fun a => A.entry a.1 a.2 = 0 ∧ A.entry a.2 a.1 ≠ 0
  new oa oe (Finset.range A.n)
    (upper.image (fun a => if axis0 then (a.1, a.2) else (a.2, a.1)) ∪
      lower.image fun a => if axis0 then (a.2, a.1) else (a.2, a.1))
    both ∅

/-- `from_df` (pdag.py:54-72): the matrix `df.values` with row labels `df.index`; here line 67 treats both axes. Labels
beyond the matrix do not occur, `name_map[i]` is total on the indices used. -/
def fromDf [Inhabited α] (oa oe : SetOrder Unit (α × α)) (A : Amat) (index : List α) (axis0 : Bool) : PDAG α :=
  let name : ℕ → α := fun i => (index[i]?).getD default
  let both := (triu A.n).filter fun a => A.entry a.1 a.2 ≠ 0 ∧ A.entry a.2 a.1 ≠ 0
  let upper := (triu A.n).filter fun a => A.entry a.1 a.2 ≠ 0 ∧ A.entry a.2 a.1 = 0
  let lower := (triu A.n).filter fun a => A.entry a.1 a.2 = 0 ∧ A.entry a.2 a.1 ≠ 0
  let arcs := upper.image (fun a => if axis0 then (a.1, a.2) else (a.2, a.1)) ∪
      lower.image fun a => if axis0 then (a.2, a.1) else (a.1, a.2)
  new oa oe index.toFinset (arcs.image fun a => (name a.1, name a.2)) (both.image fun a => (name a.1, name a.2)) ∅

end PDAG

end Model
