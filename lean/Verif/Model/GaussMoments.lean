import Verif.Model.Gauss
import Mathlib.Analysis.SpecialFunctions.Sqrt
import Mathlib.Data.Fin.VecNotation

/-!
# `gaussdag.py`: marginal precision, correlation, partial correlation, regression

Floating point numbers are real numbers (exact arithmetic) where square roots occur. A Python list of length `k` is a function
on `Fin k`. `np.linalg.inv` raises `LinAlgError` (a `ValueError`) on singular matrices.
-/

namespace Model.Gauss

variable {n k t : ℕ}

/-- A list of labels used as indices of an array of length `n`; out of range is an `IndexError`. -/
def positions (n : ℕ) (l : Fin k → ℕ) : Option (Fin k → Fin n) :=
  if h : ∀ a, l a < n then some fun a => ⟨l a, h a⟩ else none

section

variable {K : Type} [Field K] [DecidableEq K]

/-- `inv(m)` -/
noncomputable def invOrRaise (m : Matrix (Fin k) (Fin k) K) : Except (Exn ℕ) (Matrix (Fin k) (Fin k) K) :=
  if m.det = 0 then .error .value else .ok m⁻¹

/-- `marginal_precision` (gaussdag.py:371-377, which replaces the same code at 353-359). The labels are used as indices;
`on` orders the set of nodes (`self.nodes`, 327-328). -/
noncomputable def marginalPrecision (on : SetOrder Unit ℕ) (G : Gauss n K) (nodes : Fin k → ℕ) :
    Except (Exn ℕ) (Matrix (Fin k) (Fin k) K) :=
  let p := G.readPrecision.1
  let comp := (on.ord () G.dag.nodes).filter fun v => ∀ a, nodes a ≠ v
  match positions n nodes, positions n comp.get with
  | some l, some c =>
      match invOrRaise (p.submatrix c c) with
      | .error e => .error e
      | .ok m => .ok (p.submatrix l l - p.submatrix l c * m * (p.submatrix l c).transpose)
  | _, _ => .error .index

/-- `regression_coefficients` (gaussdag.py:400-413) with `bias=False`; `targets` and `preds` are the lists of indices. The
result has one row for each predictor and one column for each target. -/
noncomputable def regressionCoefs (G : Gauss n K) (targets : Fin t → ℕ) (preds : Fin k → ℕ) :
    Except (Exn ℕ) (Matrix (Fin k) (Fin t) K) :=
  match G.readCovariance with
  | .error e => .error e
  | .ok (cov, _) =>
      match positions n targets, positions n preds with
      | some t, some p =>
          match invOrRaise (cov.submatrix p p) with
          | .error e => .error e
          | .ok m => .ok (m * cov.submatrix p t)
      | _, _ => .error .index

/-- `regression_coefficients` with `bias=True` (gaussdag.py:408-411). -/
noncomputable def regressionBias (op : SetOrder ℕ ℕ) (G : Gauss n K) (targets : Fin t → ℕ) (preds : Fin k → ℕ) :
    Except (Exn ℕ) (Matrix (Fin k) (Fin t) K × (Fin t → K)) :=
  match G.regressionCoefs targets preds with
  | .error e => .error e
  | .ok coefs =>
      match G.means op with
      | .error e => .error e
      | .ok means =>
          match positions n targets, positions n preds with
          | some t, some p => .ok (coefs, fun b => means (t b) - ∑ a, means (p a) * coefs a b)
          | _, _ => .error .index

end

/-- `_ensure_correlation` (gaussdag.py:361-364) and `correlation` (367-369): divides the columns and then the rows by the
standard deviations; the result is cached. -/
noncomputable def readCorrelation (G : Gauss n ℝ) : Except (Exn ℕ) (Matrix (Fin n) (Fin n) ℝ × Gauss n ℝ) :=
  match G.correlation with
  | some R => .ok (R, G)
  | none =>
      match G.readCovariance with
      | .error e => .error e
      | .ok (S, G1) =>
          let R : Matrix (Fin n) (Fin n) ℝ := Matrix.of fun a b => S a b / √(S b b) / √(S a a)
          .ok (R, { G1 with correlation := some R })

/-- `partial_correlation` (gaussdag.py:379-398); `oc` orders the conditioning set. -/
noncomputable def partialCorrelation (oc : SetOrder Unit ℕ) (G : Gauss n ℝ) (i j : ℕ) (cond : Finset ℕ) :
    Except (Exn ℕ) (ℝ × Gauss n ℝ) :=
  match G.readCorrelation with
  | .error e => .error e
  | .ok (R, G1) =>
      if cond.card = 0 then
        match at? n i, at? n j with
        | some a, some b => .ok (R a b, G1)
        | _, _ => .error .index
      else
        match positions n (Matrix.vecCons i (Matrix.vecCons j (oc.ord () cond).get)) with
        | none => .error .index
        | some l =>
            match invOrRaise (R.submatrix l l) with
            | .error e => .error e
            | .ok θ => .ok (-θ 0 1 / √(θ 0 0 * θ 1 1), G1)

end Model.Gauss
