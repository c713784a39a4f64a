import Verif.Model.GaussFactor

/-!
# `gaussdag.py`, `core_utils.py`: fitting to samples

Floating point numbers are real numbers (exact arithmetic). The samples are a matrix with one row for each observation.
-/

namespace Model.Gauss

variable {n k r : ℕ}

/-- `np.linalg.lstsq`: the coefficients solve the normal equations. -/
structure Lstsq where
  solve : ∀ {k : ℕ}, Matrix (Fin k) (Fin k) ℝ → (Fin k → ℝ) → Fin k → ℝ
  normal : ∀ {k : ℕ} (m : Matrix (Fin k) (Fin k) ℝ) (c : Fin k → ℝ),
    m.transpose.mulVec (m.mulVec (solve m c) - c) = 0

/-- `extended_samples` (core_utils.py:18); the additional column, with index `n` in the code, has index `none`. -/
def extendedSamples (x : Matrix (Fin r) (Fin n) ℝ) : Matrix (Fin r) (Option (Fin n)) ℝ :=
  Matrix.of fun a i => match i with
    | some j => x a j
    | none => 1

/-- `get_extended_cov(samples)` (core_utils.py:14-19). -/
def extendedCov (x : Matrix (Fin r) (Fin n) ℝ) : Matrix (Option (Fin n)) (Option (Fin n)) ℝ :=
  (extendedSamples x).transpose * extendedSamples x

/-- `linear_regression_mle(extended_cov, input_ixs, output_ixs)` (core_utils.py:36-48): coefficients, bias, variance. -/
def linearRegressionMle (lstsq : Lstsq) (C : Matrix (Option (Fin n)) (Option (Fin n)) ℝ) (inputs : List (Fin n)) (output : Fin n) :
    (Fin inputs.length → ℝ) × ℝ × ℝ :=
  let ii : Fin (inputs.length + 1) → Option (Fin n) := Fin.snoc (fun a => some (inputs.get a)) none
  let m := C.submatrix ii ii
  let coefs := lstsq.solve m fun a => C (ii a) (some output)
  (fun a => coefs a.castSucc, coefs (Fin.last _), C (some output) (some output) - coefs ⬝ᵥ m.mulVec coefs)

/-- `amat[parents, node] = coefs` (gaussdag.py:130). -/
def putColumn (A : Matrix (Fin n) (Fin n) ℝ) (ps : List (Fin n)) (c : Fin n) (coefs : Fin ps.length → ℝ) :
    Matrix (Fin n) (Fin n) ℝ :=
  (List.finRange ps.length).foldl (fun A a => setEntry A (ps.get a) c (coefs a)) A

/-- The loop of `fit_mle` (gaussdag.py:127-132); `op` orders the sets of parents. The labels are used as indices. -/
def fitLoop (lstsq : Lstsq) (op : SetOrder ℕ ℕ) (D : DAG ℕ) (x : Matrix (Fin r) (Fin n) ℝ) :
    List ℕ → Matrix (Fin n) (Fin n) ℝ × (Fin n → ℝ) × (Fin n → ℝ) →
      Except (Exn ℕ) (Matrix (Fin n) (Fin n) ℝ × (Fin n → ℝ) × (Fin n → ℝ))
  | [], s => .ok s
  | v :: t, s =>
      match (op.ord v (D.parents v)).mapM (at? n), at? n v with
      | some ps, some c =>
          let q := linearRegressionMle lstsq (extendedCov x) ps c
          fitLoop lstsq op D x t (putColumn s.1 ps c q.1, Function.update s.2.1 c q.2.1, Function.update s.2.2 c q.2.2)
      | _, _ => .error .index

/-- `fit_mle(dag, samples)` (gaussdag.py:118-138). `od` orders the set of nodes. -/
noncomputable def fitMle (lstsq : Lstsq) (od : SetOrder Unit ℕ) (op : SetOrder ℕ ℕ) (oa : SetOrder Bool (ℕ × ℕ)) (D : DAG ℕ)
    (x : Matrix (Fin r) (Fin n) ℝ) : Except (Exn ℕ) (Gauss n ℝ) :=
  match fitLoop lstsq op D x (od.ord () D.nodes) (0, 0, 0) with
  | .error e => .error e
  | .ok (A, b, v) =>
      match fromAmat oa Fin.val A b v with
      | (G, none) => .ok G
      | (_, some e) => .error e

end Model.Gauss
