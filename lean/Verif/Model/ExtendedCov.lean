import Verif.Model.GaussFit

/-! # `graphical_models/utils/core_utils.py`: the extended covariance matrix from the moments -/

namespace Model.Gauss

variable {n : ℕ}

/-- `get_extended_cov2(cov, mean, n)` (core_utils.py:22-34); the last row and column have the index `none`. -/
def extendedCov2 (cov : Matrix (Fin n) (Fin n) ℝ) (mean : Fin n → ℝ) (r : ℕ) : Matrix (Option (Fin n)) (Option (Fin n)) ℝ :=
  Matrix.of fun a b => match a, b with
    | none, none => r
    | none, some j => mean j * r
    | some i, none => mean i * r
    | some i, some j => cov i j * ((r : ℝ) - 1) + mean i * mean j * r

end Model.Gauss
