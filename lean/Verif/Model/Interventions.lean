import Verif.Model.GaussPdf

/-!
# `graphical_models/classes/interventions/interventions.py`

The numbers returned by `numpy.random` are arguments. Floating point numbers are real numbers (exact arithmetic).
-/

namespace Model

variable {S : Type} {m : ℕ}

/-- `np.where(choices == k)[0]` -/
def whereEq (choices : Fin m → ℕ) (k : ℕ) : List (Fin m) := (List.finRange m).filter fun i => choices i = k

/-- `samples[ixs] = vals` for lists of the same length without repeated indices. -/
def assignAt (samples : Fin m → S) (ixs : List (Fin m)) (vals : List S) : Fin m → S :=
  (ixs.zip vals).foldl (fun s p => Function.update s p.1 p.2) samples

/-- `BinaryIntervention.sample` (interventions.py:104-111). `choices` is what `np.random.binomial(1, p, size)` returned; `s1 k` and
`s2 k` are what the two components return when asked for `k` samples. -/
def binarySample [Zero S] (s1 s2 : ℕ → List S) (choices : Fin m → ℕ) : Fin m → S :=
  let ixs1 := whereEq choices 1
  let ixs2 := whereEq choices 0
  let samples : Fin m → S := 0
  let samples := assignAt samples ixs1 (s1 ixs1.length)
  assignAt samples ixs2 (s2 ixs2.length)

/-- `MultinomialIntervention.sample` (interventions.py:122-128). `choices` is what `np.random.choice(range(k), size, p=pvals)` returned. -/
def multinomialSample [Zero S] (ivs : List (ℕ → List S)) (choices : Fin m → ℕ) : Fin m → S :=
  ivs.zipIdx.foldl (fun samples iv =>
    let ixs := whereEq choices iv.2
    assignAt samples ixs (iv.1 ixs.length)) 0

/-- The classes of perfect interventions with their attributes (interventions.py:81-142). -/
inductive PerfectIv where
  | gauss (mean variance : ℝ)
  | binary (intervention1 intervention2 : PerfectIv) (p : ℝ)
  | multinomial (k : ℕ) (pvals : Fin k → ℝ) (interventions : Fin k → PerfectIv)
  | constant (val : ℝ)

namespace PerfectIv

open Classical in
/-- `pdf` of the classes (interventions.py:91-92, 113-114, 130-131, 141-142), on an array of values. `scipy.stats.norm.pdf` is the normal
density. The class `ConstantIntervention` returns one number for the whole array; here it is repeated, as numpy does when the number is
added to an array. `Exn.plain` is `NotImplementedError`. -/
noncomputable def pdf : PerfectIv → List ℝ → Except (Exn ℕ) (List ℝ)
  | .gauss mean variance, vals =>
      let scale := √variance
      .ok (vals.map fun x => Real.exp (-(((x - mean) / scale) ^ 2 / 2)) / √(2 * Real.pi) / scale)
  | .binary a b p, vals =>
      match a.pdf vals, b.pdf vals with
      | .ok x, .ok y => .ok (List.zipWith (fun s t => p * s + (1 - p) * t) x y)
      | .error e, _ => .error e
      | _, .error e => .error e
  | .multinomial _ _ _, _ => .error .plain
  | .constant val, vals => .ok (vals.map fun _ => if ∀ x ∈ vals, x = val then 1 else 0)

end PerfectIv

namespace Gauss

variable {n : ℕ}

/-- `ScalingIntervention.sample` (interventions.py:40-50) on a `GaussDAG`, for one row `vals` of `parent_values`. `z` is a draw from the standard
normal distribution: `np.random.normal(loc, scale)` is `loc + scale * z`, and raises a `ValueError` for a negative scale. A `GaussDAG` has
no attribute `_means`: without `mean` an `AttributeError` (`Exn.plain`) is raised. The weights are taken from the column whose index is
the label of the node. -/
noncomputable def scalingSample (G : Gauss n ℝ) (op : SetOrder ℕ ℕ) (factor noiseFactor : ℝ) (mean : Option ℝ) (v : ℕ) (z : ℝ)
    (vals : List ℝ) : Except (Exn ℕ) ℝ :=
  match G.ix v with
  | none => .error .key
  | some a =>
      match mean with
      | none => .error .plain
      | some mean =>
          let std := √(G.variances a) * noiseFactor
          open Classical in
          if std < 0 then .error .value
          else
            let noise := mean + std * z
            match (op.ord v (G.dag.parents v)).mapM G.ix with
            | none => .error .key
            | some ps =>
                if vals.length ≠ 0 then
                  match at? n v with
                  | none => .error .index
                  | some c =>
                      if vals.length = ps.length then
                        .ok ((List.zipWith (fun x p => x * G.weight p c * factor) vals ps).sum + noise)
                      else .error .value
                else .ok noise

end Gauss

/-- A numpy array of one or two dimensions. -/
inductive NdArray where
  | vec (l : List ℝ)
  | mat (rows : List (List ℝ))

/-- `ShiftIntervention.sample` (interventions.py:71-76) on a `SampleDAG`: the conditional of the node is called with the one-dimensional array of the
parents' values of each sample, and the result must be a number. -/
def shiftRows (conditional : NdArray → Except (Exn ℕ) (List ℝ)) (shift : ℝ) : List (List ℝ) → Except (Exn ℕ) (List ℝ)
  | [] => .ok []
  | row :: rows =>
      match conditional (.vec row) with
      | .error e => .error e
      | .ok [y] =>
          match shiftRows conditional shift rows with
          | .error e => .error e
          | .ok ys => .ok ((y + shift) :: ys)
      | .ok _ => .error .value

end Model
