import Verif.Model.GaussMoments

/-!
# `gaussdag.py`: construction from a covariance or precision matrix

Floating point numbers are real numbers (exact arithmetic); the tolerances of the code are kept.
-/

namespace Model.Gauss

variable {n : ℕ}

/-- What `scipy.linalg.cholesky(m, lower=True)` returns: the lower triangular matrix with positive diagonal whose product with
its transpose is `m`; only the lower triangle of `m` is read. -/
structure IsCholesky (m l : Matrix (Fin n) (Fin n) ℝ) : Prop where
  lower : ∀ a b, a < b → l a b = 0
  pos : ∀ a, 0 < l a a
  mul : ∀ a b, b ≤ a → (l * l.transpose) a b = m a b

open Classical in
/-- `cholesky(m, lower=True)` raises `LinAlgError` if there is no such matrix. -/
noncomputable def cholesky (m : Matrix (Fin n) (Fin n) ℝ) : Except (Exn ℕ) (Matrix (Fin n) (Fin n) ℝ) :=
  if h : ∃ l, IsCholesky m l then .ok h.choose else .error .value

/-- The tolerance 1e-8 of `is_symmetric` (core_utils.py:102-103) and `np.isclose(·, 0)`. -/
noncomputable def tol : ℝ := 1 / 10 ^ 8

/-- `core_utils.is_symmetric` (core_utils.py:102-103). -/
def IsSymmetric (m : Matrix (Fin n) (Fin n) ℝ) : Prop := ∀ a b, |m a b - m b a| ≤ tol

/-- `np.isclose(a, b)` with the default tolerances. -/
def IsClose (a b : ℝ) : Prop := |a - b| ≤ tol + 1 / 10 ^ 5 * |b|

/-- `from_amat` (gaussdag.py:75-95). The arcs are named by positions, whatever the node list is. -/
def fromAmat {K : Type} [Field K] [DecidableEq K] (oa : SetOrder Bool (ℕ × ℕ)) (names : Fin n → ℕ)
    (w : Matrix (Fin n) (Fin n) K) (biases variances : Fin n → K) : Step n K :=
  new oa names
    (((List.finRange n).flatMap fun i => (List.finRange n).map fun j => ((i.val, j.val), w i j)).filter fun e => e.2 ≠ 0)
    biases variances

open Classical in
/-- `u_chol[np.isclose(u_chol, 0)] = 0` (gaussdag.py:182). -/
noncomputable def clean (l : Matrix (Fin n) (Fin n) ℝ) : Matrix (Fin n) (Fin n) ℝ :=
  Matrix.of fun a b => if IsClose (l a b) 0 then 0 else l a b

open Classical in
/-- The end of `from_precision` (gaussdag.py:193-201). -/
noncomputable def finish (oa : SetOrder Bool (ℕ × ℕ)) (precision : Matrix (Fin n) (Fin n) ℝ) (check : Bool)
    (uPerm : Matrix (Fin n) (Fin n) ℝ) (dPerm : Fin n → ℝ) : Except (Exn ℕ) (Gauss n ℝ) :=
  let amat := 1 - uPerm
  if check ∧ ¬ (∀ a, amat a a = 0) then .error .assertion
  else if check ∧ ¬ ∀ a b, IsClose ((uPerm * Matrix.diagonal dPerm * uPerm.transpose) a b) (precision a b) then
    .error .assertion
  else
    match fromAmat oa Fin.val amat 0 (fun a => (dPerm a)⁻¹) with
    | (G, none) => .ok G
    | (_, some e) => .error e

open Classical in
/-- `from_precision` (gaussdag.py:150-201) for a list `node_order` which is a permutation of `0, …, n-1`. `none`: a diagonal
entry of the Cholesky factor has been set to zero and the result contains NaN. -/
noncomputable def fromPrecision (oa : SetOrder Bool (ℕ × ℕ)) (precision : Matrix (Fin n) (Fin n) ℝ) (order : Fin n ≃ Fin n)
    (check : Bool) : Option (Except (Exn ℕ) (Gauss n ℝ)) :=
  if ¬ IsSymmetric precision then some (.error .value)
  else
    let rev : Fin n ≃ Fin n := Fin.revPerm.trans order
    match cholesky (precision.submatrix rev rev) with
    | .error e => some (.error e)
    | .ok l =>
        let uChol := clean l
        if ∃ a, uChol a a = 0 then none
        else
          let d : Fin n → ℝ := fun a => uChol a a ^ 2
          let u : Matrix (Fin n) (Fin n) ℝ := Matrix.of fun a b => uChol a b / uChol b b
          some (finish oa precision check (u.submatrix rev.symm rev.symm) fun a => d (rev.symm a))

open Classical in
/-- `from_covariance` (gaussdag.py:98-115). -/
noncomputable def fromCovariance (oa : SetOrder Bool (ℕ × ℕ)) (covariance : Matrix (Fin n) (Fin n) ℝ) (order : Fin n ≃ Fin n)
    (check : Bool) : Option (Except (Exn ℕ) (Gauss n ℝ)) :=
  if ¬ IsSymmetric covariance then some (.error .value)
  else
    match invOrRaise covariance with
    | .error e => some (.error e)
    | .ok precision => fromPrecision oa precision order check

end Model.Gauss
