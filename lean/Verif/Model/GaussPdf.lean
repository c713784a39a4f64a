import Verif.Model.GaussMoments
import Mathlib.Analysis.SpecialFunctions.Log.Basic
import Mathlib.Analysis.SpecialFunctions.Trigonometric.Basic

/-!
# `gaussdag.py`: log densities and sampling under interventions

One row of the array `samples` is a function on the positions. Floating point numbers are real numbers (exact arithmetic).
-/

namespace Model.Gauss

variable {n k : ℕ}

/-- `scipy.stats.norm.logpdf(x, scale=s)` -/
noncomputable def normLogpdf (x s : ℝ) : ℝ := -((x / s) ^ 2 / 2) - Real.log (2 * Real.pi) / 2 - Real.log s

/-- The loop of `logpdf` without interventions (gaussdag.py:790-798); `op` orders the sets of parents. -/
noncomputable def logpdfLoop (G : Gauss n ℝ) (op : SetOrder ℕ ℕ) (x : Fin n → ℝ) : List ℕ → ℝ → Except (Exn ℕ) ℝ
  | [], acc => .ok acc
  | v :: t, acc =>
      match G.ix v with
      | none => .error .key
      | some a =>
          match (op.ord v (G.dag.parents v)).mapM G.ix with
          | none => .error .key
          | some ps =>
              if ps.length ≠ 0 then
                match at? n v with
                | none => .error .index
                | some c => logpdfLoop G op x t
                    (acc + normLogpdf (x a - (ps.map fun p => x p * G.weight p c).sum) (√(G.variances a)))
              else logpdfLoop G op x t (acc + normLogpdf (x a - 0) (√(G.variances a)))

/-- `logpdf(samples)` (gaussdag.py:780-815) with `interventions=None`. -/
noncomputable def logpdf (G : Gauss n ℝ) (o : SetOrder (Option ℕ) ℕ) (op : SetOrder ℕ ℕ) (x : Fin n → ℝ) :
    Option (Except (Exn ℕ) ℝ) :=
  match (DAG.topologicalSort G.dag o).run with
  | none => none
  | some (.error e) => some (.error e)
  | some (.ok t) => some (G.logpdfLoop op x t 0)

/-- The loop of `logpdf` with interventions (gaussdag.py:800-813). `interventions` maps the intervened nodes to their log
densities. -/
noncomputable def logpdfIvLoop (G : Gauss n ℝ) (op : SetOrder ℕ ℕ) (interventions : ℕ → Option (ℝ → ℝ)) (exclude : Bool)
    (x : Fin n → ℝ) : List ℕ → ℝ → Except (Exn ℕ) ℝ
  | [], acc => .ok acc
  | v :: t, acc =>
      match G.ix v with
      | none => .error .key
      | some a =>
          match interventions v with
          | some iv => logpdfIvLoop G op interventions exclude x t (if !exclude then acc + iv (x a) else acc)
          | none =>
              match (op.ord v (G.dag.parents v)).mapM G.ix with
              | none => .error .key
              | some ps =>
                  match at? n v with
                  | none => .error .index
                  | some c => logpdfIvLoop G op interventions exclude x t
                      (acc + normLogpdf (x a - (ps.map fun p => x p * G.weight p c).sum) (√(G.variances a)))

/-- `logpdf(samples, interventions, exclude_intervention_prob)` (gaussdag.py:780-815). -/
noncomputable def logpdfIv (G : Gauss n ℝ) (o : SetOrder (Option ℕ) ℕ) (op : SetOrder ℕ ℕ) (interventions : ℕ → Option (ℝ → ℝ))
    (exclude : Bool) (x : Fin n → ℝ) : Option (Except (Exn ℕ) ℝ) :=
  match (DAG.topologicalSort G.dag o).run with
  | none => none
  | some (.error e) => some (.error e)
  | some (.ok t) => some (G.logpdfIvLoop op interventions exclude x t 0)

/-- `np.linalg.eigh`: eigenvalues and an orthogonal matrix of eigenvectors of a symmetric matrix. -/
structure Eigh where
  vals : ∀ {k : ℕ}, Matrix (Fin k) (Fin k) ℝ → Fin k → ℝ
  vecs : ∀ {k : ℕ}, Matrix (Fin k) (Fin k) ℝ → Matrix (Fin k) (Fin k) ℝ
  orthogonal : ∀ {k : ℕ} (m : Matrix (Fin k) (Fin k) ℝ), m.transpose = m → (vecs m).transpose * vecs m = 1
  decompose : ∀ {k : ℕ} (m : Matrix (Fin k) (Fin k) ℝ), m.transpose = m →
    vecs m * Matrix.diagonal (vals m) * (vecs m).transpose = m

/-- `fast_logpdf(samples, nodes)` (gaussdag.py:755-768); the labels are used as indices. -/
noncomputable def fastLogpdf (eigh : Eigh) (G : Gauss n ℝ) (op : SetOrder ℕ ℕ) (x : Fin n → ℝ) (nodes : Fin k → ℕ) :
    Except (Exn ℕ) ℝ :=
  if k = 0 then .ok 0
  else
    match G.readCovariance with
    | .error e => .error e
    | .ok (S, _) =>
        match positions n nodes with
        | none => .error .index
        | some l =>
            match G.means op with
            | .error e => .error e
            | .ok m =>
                let cov := S.submatrix l l
                let vals := eigh.vals cov
                let logdet := ∑ a, Real.log (vals a)
                let u : Matrix (Fin k) (Fin k) ℝ := Matrix.of fun a b => eigh.vecs cov a b * √(1 / vals b)
                let dev : Fin k → ℝ := fun a => x (l a) - m (l a)
                let maha := ∑ b, (∑ a, dev a * u a b) ^ 2
                .ok (-(1 / 2) * (k * Real.log (2 * Real.pi) + maha + logdet))

/-- `log_probability(samples)` (gaussdag.py:770-771). -/
noncomputable def logProbability (eigh : Eigh) (G : Gauss n ℝ) (op : SetOrder ℕ ℕ) (x : Fin n → ℝ) : Except (Exn ℕ) ℝ :=
  G.fastLogpdf eigh op x (fun a : Fin n => a.val)

section

variable {K : Type} [Field K] {M : Type} [AddCommGroup M] [Module K M]

/-- The loop of `sample_interventional_perfect` (gaussdag.py:643-651) for given noise; `intervened v` is `v in interventions`. -/
def samplePerfectLoop (G : Gauss n K) (op : SetOrder ℕ ℕ) (intervened : ℕ → Bool) (noise : Fin n → M) :
    List ℕ → (Fin n → M) → Except (Exn ℕ) (Fin n → M)
  | [], x => .ok x
  | v :: t, x =>
      match G.ix v with
      | none => .error .key
      | some a =>
          if ¬ intervened v ∧ (G.dag.parents v).card ≠ 0 then
            match (op.ord v (G.dag.parents v)).mapM G.ix with
            | none => .error .key
            | some ps =>
                match at? n v with
                | none => .error .index
                | some c => samplePerfectLoop G op intervened noise t
                    (Function.update x a ((ps.map fun p => G.weight p c • x p).sum + noise a))
          else samplePerfectLoop G op intervened noise t (Function.update x a (noise a))

/-- `sample_interventional_perfect` (gaussdag.py:619-653). `noise` holds the draws from `np.random.normal`, and at intervened
nodes the draws from the interventional distributions. -/
def samplePerfect (G : Gauss n K) (o : SetOrder (Option ℕ) ℕ) (op : SetOrder ℕ ℕ) (intervened : ℕ → Bool) (noise : Fin n → M) :
    Option (Except (Exn ℕ) (Fin n → M)) :=
  match (DAG.topologicalSort G.dag o).run with
  | none => none
  | some (.error e) => some (.error e)
  | some (.ok t) => some (G.samplePerfectLoop op intervened noise t 0)

/-- What an interventional distribution is in `sample_interventional` (gaussdag.py:702-707): a soft one computes its values from
the list of the values of the parents, in the order of iteration; a perfect one does not. -/
inductive IvDist (M : Type)
  | soft (f : List M → M)
  | perfect (m : M)

/-- The loop of `sample_interventional` (gaussdag.py:697-711) for given draws. -/
def sampleIvLoop (G : Gauss n K) (op : SetOrder ℕ ℕ) (intervention : ℕ → Option (IvDist M)) (noise : Fin n → M) :
    List ℕ → (Fin n → M) → Except (Exn ℕ) (Fin n → M)
  | [], x => .ok x
  | v :: t, x =>
      match G.ix v with
      | none => .error .key
      | some a =>
          match (op.ord v (G.dag.parents v)).mapM G.ix with
          | none => .error .key
          | some ps =>
              match intervention v with
              | some (.soft f) => sampleIvLoop G op intervention noise t (Function.update x a (f (ps.map x)))
              | some (.perfect m) => sampleIvLoop G op intervention noise t (Function.update x a m)
              | none =>
                  if ps.length ≠ 0 then
                    match at? n v with
                    | none => .error .index
                    | some c => sampleIvLoop G op intervention noise t
                        (Function.update x a ((ps.map fun p => G.weight p c • x p).sum + noise a))
                  else sampleIvLoop G op intervention noise t (Function.update x a (noise a))

/-- `sample_interventional` (gaussdag.py:680-713) and, for soft interventions, `sample_interventional_soft` (655-678), which
differs in the distribution of the noise: without the biases. -/
def sampleIv (G : Gauss n K) (o : SetOrder (Option ℕ) ℕ) (op : SetOrder ℕ ℕ) (intervention : ℕ → Option (IvDist M))
    (noise : Fin n → M) : Option (Except (Exn ℕ) (Fin n → M)) :=
  match (DAG.topologicalSort G.dag o).run with
  | none => none
  | some (.error e) => some (.error e)
  | some (.ok t) => some (G.sampleIvLoop op intervention noise t 0)

/-- `ShiftIntervention.sample` (classes/interventions/interventions.py:60-70) on a `GaussDAG`: `draw` is what `np.random.normal` returns. The indices of
the parents have been looked up before by the caller, so the lookups do not fail. -/
def shiftSample (G : Gauss n K) (op : SetOrder ℕ ℕ) (v : ℕ) (draw : M) (vals : List M) : M :=
  match (op.ord v (G.dag.parents v)).mapM G.ix, at? n v with
  | some ps, some c =>
      if vals.length ≠ 0 then (List.zipWith (fun val p => G.weight p c • val) vals ps).sum + draw else draw
  | _, _ => 0

/-- `sample_interventional` and `sample_interventional_soft` with a `ShiftIntervention` at each node of a set; `draw` are the
draws that are used, at the other nodes those for the noise. -/
def sampleShift (G : Gauss n K) (o : SetOrder (Option ℕ) ℕ) (op : SetOrder ℕ ℕ) (shift : ℕ → Option K) (draw : Fin n → M) :
    Option (Except (Exn ℕ) (Fin n → M)) :=
  G.sampleIv o op (fun v => match shift v, at? n v with
    | some _, some a => some (.soft (G.shiftSample op v (draw a)))
    | _, _ => none) draw

end

/-- The location of the draws from the normal distribution that are used by `sample_interventional`: interventions.py:65 at shifted
nodes, gaussdag.py:693-694 at the others. The variances are those of the nodes. -/
def shiftLoc (G : Gauss n ℝ) (shift : ℕ → Option ℝ) (a : Fin n) : ℝ :=
  match shift (G.names a) with
  | some s => G.biases a + s
  | none => G.biases a

/-- The same for `sample_interventional_soft`; the others are drawn in gaussdag.py:661-662. -/
def softShiftLoc (G : Gauss n ℝ) (shift : ℕ → Option ℝ) (a : Fin n) : ℝ :=
  match shift (G.names a) with
  | some s => G.biases a + s
  | none => 0

end Model.Gauss
