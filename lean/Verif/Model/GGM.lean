import Verif.Model.GaussMoments
import Verif.Model.Undirected

/-!
# `graphical_models/classes/undirected/ggm.py`

Floating point numbers are real numbers. `sample` calls numpy only and is not modelled; `to_gauss_dag` is in `Model/GGMToDag.lean`.
-/

namespace Model

variable {n : ℕ}

/-- ggm.py:18-28: the inherited graph, `precision_matrix`, `means`, `_covariance`, `_correlation`. -/
structure GGM (n : ℕ) where
  graph : UG ℕ
  precision : Matrix (Fin n) (Fin n) ℝ
  means : Fin n → ℝ
  covariance : Option (Matrix (Fin n) (Fin n) ℝ)
  correlation : Option (Matrix (Fin n) (Fin n) ℝ)

namespace GGM

/-- `matrix[i, j]` for labels of nodes, which are in range. -/
def entry (m : Matrix (Fin n) (Fin n) ℝ) (i j : ℕ) : ℝ :=
  match Gauss.at? n i, Gauss.at? n j with
  | some a, some b => m a b
  | _, _ => 0

/-- The constructor (ggm.py:18-28) for an `n × n` matrix. `on` orders the set of nodes, `oe` and `ou` are those of `UG.new`. -/
noncomputable def new (on : SetOrder Unit ℕ) (oe : SetOrder Unit (Finset ℕ)) (ou : SetOrder Unit ℕ) (precision : Matrix (Fin n) (Fin n) ℝ)
    (means : Option (Fin n → ℝ)) : GGM n :=
  let nodes := Finset.range n
  let edges := ((DAG.pairs (on.ord () nodes)).filter fun e => entry precision e.1 e.2 ≠ 0).toFinset
  ⟨UG.new oe ou nodes edges, precision, means.getD fun _ => 1, none, none⟩

/-- `from_covariance` (ggm.py:30-34). -/
noncomputable def fromCovariance (on : SetOrder Unit ℕ) (oe : SetOrder Unit (Finset ℕ)) (ou : SetOrder Unit ℕ)
    (covariance : Matrix (Fin n) (Fin n) ℝ) (means : Option (Fin n → ℝ)) : Except (Exn ℕ) (GGM n) :=
  match Gauss.invOrRaise covariance with
  | .error e => .error e
  | .ok p => .ok { new on oe ou p means with covariance := some covariance }

/-- `from_adjacency` (ggm.py:36-48). Where a variance is zero the code divides by zero. -/
noncomputable def fromAdjacency (on : SetOrder Unit ℕ) (oe : SetOrder Unit (Finset ℕ)) (ou : SetOrder Unit ℕ)
    (a : Matrix (Fin n) (Fin n) ℝ) (variances means : Option (Fin n → ℝ)) : GGM n :=
  let variances := variances.getD fun _ => 1
  let precision :=
    if ∀ i, variances i = 1 then (1 - a) * (1 - a).transpose
    else (1 - a) * Matrix.diagonal (fun i => (variances i)⁻¹) * (1 - a).transpose
  new on oe ou precision (some (means.getD fun _ => 0))

/-- `_ensure_covariance` and `covariance` (ggm.py:50-52, 59-62). -/
noncomputable def readCovariance (G : GGM n) : Except (Exn ℕ) (Matrix (Fin n) (Fin n) ℝ × GGM n) :=
  match G.covariance with
  | some S => .ok (S, G)
  | none =>
      match Gauss.invOrRaise G.precision with
      | .error e => .error e
      | .ok S => .ok (S, { G with covariance := some S })

/-- `_ensure_correlation` and `correlation` (ggm.py:54-57, 64-67). -/
noncomputable def readCorrelation (G : GGM n) : Except (Exn ℕ) (Matrix (Fin n) (Fin n) ℝ × GGM n) :=
  match G.correlation with
  | some R => .ok (R, G)
  | none =>
      match G.readCovariance with
      | .error e => .error e
      | .ok (S, G1) =>
          let R : Matrix (Fin n) (Fin n) ℝ := Matrix.of fun a b => S a b / √(S b b) / √(S a a)
          .ok (R, { G1 with correlation := some R })

/-- `partial_correlation` (ggm.py:69-88) for a set; `oc` orders it. -/
noncomputable def partialCorrelation (oc : SetOrder Unit ℕ) (G : GGM n) (i j : ℕ) (cond : Finset ℕ) : Except (Exn ℕ) (ℝ × GGM n) :=
  match G.readCorrelation with
  | .error e => .error e
  | .ok (R, G1) =>
      if cond.card = 0 then
        match Gauss.at? n i, Gauss.at? n j with
        | some a, some b => .ok (R a b, G1)
        | _, _ => .error .index
      else
        match Gauss.positions n (Matrix.vecCons i (Matrix.vecCons j (oc.ord () cond).get)) with
        | none => .error .index
        | some l =>
            match Gauss.invOrRaise (R.submatrix l l) with
            | .error e => .error e
            | .ok θ => .ok (-θ 0 1 / √(θ 0 0 * θ 1 1), G1)

end GGM

end Model
