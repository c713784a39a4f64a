import Verif.Proof.GGMHeap
import Verif.Props.Sample
import Mathlib.LinearAlgebra.Matrix.Notation

/-! # `GGM` objects and the arrays of the caller (C254) -/

namespace Props

open Model Model.GGMHeap

variable {n : ℕ}

/-- C254, what holds: whatever GGMs are built and queried, in any interleaving, as long as the caller changes only arrays that were neither
passed to nor returned by a GGM, every statement gives what it would give if arrays were passed and returned by value, every array of the
caller has the entries the caller gave it, and every object is in the state its own calls give it. -/
theorem C254_values_partial (w : Orders) (l : List (Op n)) (hp : Val.Polite w Val.init l) :
    (Mem.init.run w l).2 = (Val.init.run w l).2 ∧
    (Val.init.run w l).1.vars = (Mem.init.run w l).1.vars.map (Mem.init.run w l).1.cell ∧
    (Val.init.run w l).1.objs = (Mem.init.run w l).1.objs.map (Mem.init.run w l).1.value := by
  obtain ⟨h1, h2⟩ := run_rel w l rel_init hp
  exact ⟨h2, h1.vars, h1.objs⟩

/-- Two GGMs on one array, one query each, and a change of an array of the caller's own. -/
example (w : Orders) (m m' : Matrix (Fin 2) (Fin 2) ℝ) : Val.Polite w Val.init
    [.array m, .array m', .new 0 none, .new 0 none, .write 1 m, .covariance 0, .partialCorrelation 1 0 1 ∅, .write 1 m'] := by
  have h0 : ∀ (V : Val 2), V.vars.length = 2 → V.lent = {0} → ∀ k,
      (V.exec w (.covariance k)).1.lent ⊆ {0, 2} := by
    intro V hl hV k
    simp only [Val.exec]
    split
    · simp [hV]
    · split
      · simp [hV]
      · simp [hV, hl, Finset.pair_comm]
  refine ⟨by simp, by simp, by simp, by simp, ?_, by simp, by simp, ?_, trivial⟩
  · rintro x m ⟨⟩
    simp [Val.exec, Val.init]
  · rintro x m ⟨⟩ hx
    have hsub : ∀ (V : Val 2) k i j c, (V.exec w (.partialCorrelation k i j c)).1.lent = V.lent := by
      intro V k i j c
      simp only [Val.exec]
      split <;> rfl
    rw [hsub] at hx
    have := h0 _ (by simp [Val.exec, Val.init]) (by simp [Val.exec, Val.init]) 0 hx
    simp at this

private theorem inv_one' : Gauss.invOrRaise (1 : Matrix (Fin 2) (Fin 2) ℝ) = .ok 1 := by
  simp [Gauss.invOrRaise]

/-- C254 violated: `G = GGM(np.eye(2)); R = G.correlation; R[:] = [[1, 1/2], [1/2, 1]]` changes `G.partial_correlation(0, 1, set())` from 0 to
1/2; and `P = np.eye(2); G = GGM(P); P[:] = [[2, 0], [0, 1]]` changes `G.covariance`. -/
theorem C254_violated (w : Orders) :
    ((Mem.init.run w [.array (1 : Matrix (Fin 2) (Fin 2) ℝ), .new 0 none, .correlation 0, .write 1 !![1, 1/2; 1/2, 1],
      .partialCorrelation 0 0 1 ∅]).2 = [.nothing, .nothing, .matrix 1, .nothing, .number (1/2)] ∧
    (Val.init.run w [.array (1 : Matrix (Fin 2) (Fin 2) ℝ), .new 0 none, .correlation 0, .write 1 !![1, 1/2; 1/2, 1],
      .partialCorrelation 0 0 1 ∅]).2 = [.nothing, .nothing, .matrix 1, .nothing, .number 0]) ∧
    (Mem.init.run w [.array (1 : Matrix (Fin 2) (Fin 2) ℝ), .new 0 none, .write 0 !![2, 0; 0, 1], .covariance 0]).2 ≠
    (Val.init.run w [.array (1 : Matrix (Fin 2) (Fin 2) ℝ), .new 0 none, .write 0 !![2, 0; 0, 1], .covariance 0]).2 := by
  refine ⟨⟨?_, ?_⟩, ?_⟩
  · simp [Mem.run, Mem.exec, Mem.init, Mem.alloc, Mem.construct, Mem.readCorrelation, Mem.readCovariance, inv_one', partialOf,
      Out.ofExcept, Gauss.at?]
    rfl
  · simp [Val.run, Val.exec, Val.init, GGM.new, GGM.readCorrelation, GGM.readCovariance, GGM.partialCorrelation, inv_one', Gauss.at?]
    rfl
  · have hd : Gauss.invOrRaise (!![2, 0; 0, 1] : Matrix (Fin 2) (Fin 2) ℝ) = .ok !![2, 0; 0, 1]⁻¹ := by
      simp [Gauss.invOrRaise, Matrix.det_fin_two]
    simp [Mem.run, Mem.exec, Mem.init, Mem.alloc, Mem.construct, Mem.readCovariance, inv_one', hd,
      Val.run, Val.exec, Val.init, GGM.new, GGM.readCovariance]
    intro h
    have h1 : (!![2, 0; 0, 1] : Matrix (Fin 2) (Fin 2) ℝ) = 1 := by
      have h2 := Matrix.mul_nonsing_inv (!![2, 0; 0, 1] : Matrix (Fin 2) (Fin 2) ℝ) (by simp [Matrix.det_fin_two])
      rwa [h, mul_one] at h2
    have h3 := congrFun (congrFun h1 0) 0
    norm_num at h3

end Props
