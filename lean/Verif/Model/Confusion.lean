import Verif.Model.Queries
import Verif.Model.Complete
import Mathlib.Data.Rat.Defs
import Mathlib.Data.Nat.Choose.Basic
import Mathlib.Algebra.Order.Field.Rat

/-!
# `dag.py`: confusion matrices

Floating point division is exact division of rationals; `comb(n, 2)` is the binomial coefficient. Differences of counts can
be negative and are integers.
-/

namespace Model

universe u
variable {α : Type u} [DecidableEq α]

/-- The dictionary returned by `confusion_matrix_skeleton` (dag.py:1586-1596). -/
structure SkelMatrix (α : Type u) where
  tp : Finset (Finset α)
  fp : Finset (Finset α)
  fn : Finset (Finset α)
  numTp : ℕ
  numFp : ℕ
  numFn : ℕ
  numTn : ℤ
  tpr : ℚ
  fpr : ℚ

/-- `a / b if b != 0 else d` -/
def ratio (a b : ℤ) (d : ℚ) : ℚ := if b ≠ 0 then (a : ℚ) / (b : ℚ) else d

/-- `confusion_matrix_skeleton` (dag.py:1568-1598). -/
def DAG.confusionMatrixSkeleton (G H : DAG α) : SkelMatrix α :=
  let tp := G.skeleton ∩ H.skeleton
  let fp := H.skeleton \ G.skeleton
  let fn := G.skeleton \ H.skeleton
  let total : ℤ := (G.nodes.card.choose 2 : ℕ)
  let numPos : ℤ := G.skeleton.card
  { tp := tp, fp := fp, fn := fn, numTp := tp.card, numFp := fp.card, numFn := fn.card
    numTn := total - tp.card - fp.card - fn.card
    tpr := ratio tp.card numPos 1
    fpr := ratio fp.card (total - numPos) 0 }

/-- The dictionary returned by `confusion_matrix` (dag.py:1491-1508). -/
structure Confusion (α : Type u) where
  fpArcs : Finset (α × α)
  fpEdges : Finset (Finset α)
  fnArcs : Finset (α × α)
  tpArcs : Finset (α × α)
  reversed : Finset (α × α)
  arcsForEdges : Finset (α × α)
  fnEdges : Finset (Finset α)
  tpEdges : Finset (Finset α)
  edgesForArcs : Finset (Finset α)
  numFp : ℕ
  numFn : ℕ
  numTp : ℕ
  numTn : ℤ
  fpr : ℚ
  tpr : ℚ
  precision : ℚ

/-- `confusion_matrix` after the two CPDAGs have been computed (dag.py:1443-1510); `n` and `m` are the numbers of nodes and
arcs of `self`. Line 1470 adds the sizes of `false_positive_edges` and `false_negative_arcs`. -/
def confusionOf (up : Unpack α) (n m : ℕ) (P Q : PDAG α) : Confusion α :=
  let selfArcsAsEdges := P.arcs.image fun a => ({a.1, a.2} : Finset α)
  let selfEdgesAsArcs1 := P.edges.image up.fn
  let selfEdgesAsArcs2 := selfEdgesAsArcs1.image Prod.swap
  let otherArcsReversed := Q.arcs.image Prod.swap
  let otherArcsAsEdges := Q.arcs.image fun a => ({a.1, a.2} : Finset α)
  let otherEdgesAsArcs1 := Q.edges.image up.fn
  let otherEdgesAsArcs2 := otherEdgesAsArcs1.image Prod.swap
  let fpArcs := ((Q.arcs \ P.arcs) \ selfEdgesAsArcs1) \ selfEdgesAsArcs2
  let fpEdges := (Q.edges \ P.edges) \ selfArcsAsEdges
  let fnArcs := ((P.arcs \ Q.arcs) \ otherEdgesAsArcs1) \ otherEdgesAsArcs2
  let tpArcs := P.arcs ∩ Q.arcs
  let reversed := P.arcs ∩ otherArcsReversed
  let arcsForEdges := P.arcs ∩ (otherEdgesAsArcs1 ∪ otherEdgesAsArcs2)
  let fnEdges := (P.edges \ Q.edges) \ otherArcsAsEdges
  let tpEdges := P.edges ∩ Q.edges
  let edgesForArcs := P.edges ∩ otherArcsAsEdges
  let numFp := fpEdges.card + fnArcs.card
  let numFn := fnArcs.card + fnEdges.card + arcsForEdges.card + reversed.card
  let numTp := tpEdges.card + tpArcs.card + edgesForArcs.card
  let total : ℤ := (n.choose 2 : ℕ)
  { fpArcs := fpArcs, fpEdges := fpEdges, fnArcs := fnArcs, tpArcs := tpArcs, reversed := reversed
    arcsForEdges := arcsForEdges, fnEdges := fnEdges, tpEdges := tpEdges, edgesForArcs := edgesForArcs
    numFp := numFp, numFn := numFn, numTp := numTp
    numTn := total - numFp - numFn - numTp
    fpr := ratio numFp (total - m) 0
    tpr := ratio numTp m 1
    precision := ratio numTp (numTp + numFp : ℕ) 1 }

/-- `confusion_matrix(other)` for a `DAG` (dag.py:1435-1510). -/
def DAG.confusionMatrix (up : Unpack α) (oa oa' : SetOrder Unit (α × α)) (o o' : PDAG.OrientOracle α) (G H : DAG α) :
    Run α (Confusion α) := do
  let P ← G.cpdag oa o
  let Q ← H.cpdag oa' o'
  return confusionOf up G.nodes.card G.arcs.card P Q

end Model
