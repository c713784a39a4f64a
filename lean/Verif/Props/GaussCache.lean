import Verif.Proof.GaussCache
import Verif.Proof.SortTotal
import Verif.Props.GGMHeap

/-! # `GaussDAG` objects and the arrays they return (C255) -/

namespace Props

open Model Model.GaussCache
open Model.GGMHeap (Out partialOf)

variable {n : ℕ}

/-- C255, what holds: whatever Gaussian DAGs are built, changed and queried, in any interleaving, as long as the caller changes no array returned
by `correlation` (those returned by `weight_mat`, `precision` and `covariance` may be changed), every statement ends and gives what it would give if
arrays were returned by value, every array of the caller has the entries the caller gave it, and every object is in the state its own calls
give it. -/
theorem C255_values_partial (w : Orders) (l : List (Op n)) (hp : Val.Polite w Val.init l) :
    ∃ H V os, Mem.init.run w l = some (H, os) ∧ Val.init.run w l = some (V, os) ∧
      V.vars = H.vars.map H.cell ∧ V.objs = H.objs.map H.value := by
  rcases run_rel w l rel_init hp with h | ⟨H, V, os, h1, h2, h3⟩
  · obtain ⟨r, hr⟩ := Val.run_total w l Val.init
    rw [h.2] at hr
    cases hr
  · exact ⟨H, V, os, h1, h2, h3.vars, h3.objs⟩

/-- The caller changes the weight matrix it was given, sets a weight, and asks for the correlation. -/
example (w : Orders) (m : Matrix (Fin 2) (Fin 2) ℝ) : Val.Polite w Val.init
    [.new ![0, 1] [((0, 1), 2)] 0 1, .read 0 .weightMat, .write 0 m, .change 0 (.setArcWeight 0 1 3), .correlation 0,
      .partialCorrelation 0 0 1 ∅] := by
  refine ⟨by simp, fun r hr => ⟨by simp, fun r' hr' => ⟨?_, fun r'' _ => ⟨by simp, fun _ _ => ⟨by simp, fun _ _ => ⟨by simp, fun _ _ => trivial⟩⟩⟩⟩⟩⟩
  rintro x m ⟨⟩ hx
  have h1 : r.1.lent = ∅ := by
    simp only [Val.exec] at hr
    split at hr <;> cases hr <;> rfl
  have h2 : r'.1.lent = r.1.lent := by
    simp only [Val.exec] at hr'
    split at hr'
    · cases hr'; rfl
    · split at hr' <;> cases hr' <;> rfl
  rw [h2, h1] at hx
  simp at hx

private theorem new_edgeless (oa : SetOrder Bool (ℕ × ℕ)) : Gauss.new oa ![0, 1] [] (0 : Fin 2 → ℝ) 1 =
    (⟨DAG.empty (Finset.univ.image ![0, 1]), ![0, 1], 0, 1, 0, none, none, none⟩, none) := by
  simp [Gauss.new, Gauss.setArcWeights, Gauss.putWeights]

/-- C255 violated: `g = GaussDAG([0, 1], arcs={}); R = g.correlation; R[:] = [[1, 1/2], [1/2, 1]]` changes `g.partial_correlation(0, 1, set())`
from 0 to 1/2. -/
theorem C255_violated (w : Orders) :
    (∃ H, Mem.init.run w [.new ![0, 1] [] (0 : Fin 2 → ℝ) 1, .correlation 0, .write 0 !![1, 1/2; 1/2, 1], .partialCorrelation 0 0 1 ∅] =
      some (H, [.nothing, .matrix 1, .nothing, .number (1/2)])) ∧
    ∃ V, Val.init.run w [.new ![0, 1] [] (0 : Fin 2 → ℝ) 1, .correlation 0, .write 0 !![1, 1/2; 1/2, 1], .partialCorrelation 0 0 1 ∅] =
      some (V, [.nothing, .matrix 1, .nothing, .number 0]) := by
  constructor
  · simp [Mem.run, Mem.exec, Mem.init, Mem.alloc, new_edgeless, Mem.readCorrelation, Gauss.readCovariance, partialOf, Out.ofExcept,
      Gauss.at?]
    rfl
  · simp [Val.run, Val.exec, Val.init, new_edgeless, Gauss.readCorrelation, Gauss.readCovariance, Gauss.partialCorrelation,
      Gauss.at?]
    rfl

end Props
