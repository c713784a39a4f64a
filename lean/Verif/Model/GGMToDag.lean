import Verif.Model.GGM
import Verif.Model.GaussFactor
import Verif.Model.Queries

/-!
# `GGM.to_gauss_dag` (ggm.py:93-141)

The method imports `DAG` and `GaussDAG` from the package `causaldag`, which is not part of the repository; the classes of the same names
of this package stand for them. Whether the constructor of `GaussDAG` has a parameter `means` is an argument of the model: that of this
package (gaussdag.py:37-43) has none. The permutation is a list of as many labels as there are nodes. What is printed (ggm.py:135) is left
out.
-/

namespace Model.GGM

variable {n : ℕ}

/-- The pairs of positions in the order of ggm.py:113. -/
def positionPairs (n : ℕ) : List (Fin n × Fin n) :=
  (List.finRange n).flatMap fun s => ((List.finRange n).filter fun f => f < s).map fun f => (f, s)

/-- The loop of ggm.py:114-117. The cached matrices of the `GGM` are filled on the way. -/
noncomputable def arcLoop (o : SetOrder (Option ℕ) ℕ) (oc : SetOrder Unit ℕ) (perm : Fin n → ℕ) :
    List (Fin n × Fin n) → GGM n → DAG ℕ → Option (Except (Exn ℕ) (GGM n × DAG ℕ))
  | [], G, d => some (.ok (G, d))
  | (i, j) :: l, G, d =>
      match G.partialCorrelation oc (perm i) (perm j) (DAG.markovBlanketOf d (perm i)) with
      | .error e => some (.error e)
      | .ok (ρ, G1) =>
          open Classical in
          if ¬ Gauss.IsClose ρ 0 then
            match DAG.addArc true o d (perm i) (perm j) with
            | none => none
            | some (_, some e) => some (.error e)
            | some (d1, none) => arcLoop o oc perm l G1 d1
          else arcLoop o oc perm l G1 d

/-- The regression of the node `i` on the list `ps` (ggm.py:126-132): coefficients, mean and variance. -/
noncomputable def regress (S : Matrix (Fin n) (Fin n) ℝ) (means : Fin n → ℝ) (ps : List ℕ) (i : ℕ) :
    Except (Exn ℕ) ((Fin ps.length → ℝ) × ℝ × ℝ) :=
  match Gauss.positions n ps.get, Gauss.at? n i with
  | some p, some t =>
      match Gauss.invOrRaise (S.submatrix p p) with
      | .error e => .error e
      | .ok m =>
          let coeffs := Matrix.mulVec m fun a => S (p a) t
          .ok (coeffs, means t - ∑ a, means (p a) * coeffs a, S t t - ∑ a, S t (p a) * coeffs a)
  | _, _ => .error .index

/-- The loop of ggm.py:123-138: the items of `arcs`, and the lists `means` and `variances`. `op` orders the set of parents of each node. -/
noncomputable def regressLoop (op : SetOrder ℕ ℕ) (S : Matrix (Fin n) (Fin n) ℝ) (means : Fin n → ℝ) (d : DAG ℕ) :
    List ℕ → Except (Exn ℕ) (List ((ℕ × ℕ) × ℝ) × List ℝ × List ℝ)
  | [] => .ok ([], [], [])
  | i :: l =>
      match regress S means (op.ord i (d.parents i)) i with
      | .error e => .error e
      | .ok (coeffs, mean, variance) =>
          match regressLoop op S means d l with
          | .error e => .error e
          | .ok (arcs, ms, vs) =>
              .ok ((List.finRange _).map (fun a => (((op.ord i (d.parents i)).get a, i), coeffs a)) ++ arcs, mean :: ms, variance :: vs)

/-- `to_gauss_dag` (ggm.py:93-141). `accepts`: the constructor of `GaussDAG` has a parameter `means` (for its biases). -/
noncomputable def toGaussDag (accepts : Bool) (o : SetOrder (Option ℕ) ℕ) (oc : SetOrder Unit ℕ) (op : SetOrder ℕ ℕ)
    (oa : SetOrder Bool (ℕ × ℕ)) (G : GGM n) (perm : Fin n → ℕ) : Option (Except (Exn ℕ) (Gauss n ℝ)) :=
  match arcLoop o oc perm (positionPairs n) G (DAG.empty G.graph.nodes) with
  | none => none
  | some (.error e) => some (.error e)
  | some (.ok (G1, d)) =>
      match G1.readCovariance with
      | .error e => some (.error e)
      | .ok (S, G2) =>
          match regressLoop op S G2.means d (List.ofFn perm) with
          | .error e => some (.error e)
          | .ok (arcs, means, variances) =>
              if accepts then
                match Gauss.new oa Fin.val arcs (fun k => means.getD k 0) (fun k => variances.getD k 0) with
                | (_, some e) => some (.error e)
                | (H, none) => some (.ok H)
              else some (.error .type)

end Model.GGM
