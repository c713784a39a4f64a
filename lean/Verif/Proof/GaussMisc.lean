import Verif.Model.GaussMisc
import Verif.Spec.Given
import Verif.Proof.GaussFactor
import Verif.Proof.GaussEffects
import Mathlib.Probability.ConditionalExpectation

/-! # Prediction, rounding, Cholesky factors, removal of nodes -/

namespace Model.Gauss

set_option linter.unusedSectionVars false
open Spec MeasureTheory ProbabilityTheory

variable {n : ℕ} {K : Type} [Field K] [DecidableEq K]

theorem zipWith_mul_map {β : Type} (f g : β → K) (l : List β) :
    List.zipWith (· * ·) (l.map f) (l.map g) = l.map fun p => f p * g p := by
  induction l with
  | nil => rfl
  | cons a l ih => simp

theorem predict_spec {G : Gauss n K} (h : G.Sound) (op : SetOrder ℕ ℕ) (a : Fin n) :
    ∃ ps : List (Fin n), ps.map G.names = op.ord (G.names a) (G.dag.parents (G.names a)) ∧ ps.Nodup ∧
      (∀ p, p ∈ ps ↔ G.weight p a ≠ 0) ∧
      (∀ x : Fin n → K, G.predictFromParents op (G.names a) (ps.map x) = .ok (∑ p, G.weight p a * x p + G.biases a)) ∧
      (∀ vals : List K, vals.length ≠ ps.length → G.predictFromParents op (G.names a) vals = .error .value) := by
  obtain ⟨ps, h1, h2, h3⟩ := h.parents_pos op a
  have hix : G.ix (G.names a) = some a := lastIx_names h.listed.inj a
  obtain ⟨ps', h1', h2'⟩ := h.listed.parents_mapM op (G.names a)
  have : ps' = ps := Option.some.inj (h1'.symm.trans h1)
  subst this
  refine ⟨ps', h2', h2, h3, fun x => ?_, fun vals hv => ?_⟩
  · unfold predictFromParents
    rw [hix, h1]
    dsimp only
    rw [if_pos (by simp), zipWith_mul_map]
    have := parents_sum' h2 h3 x
    simp only [smul_eq_mul] at this
    rw [← this]
    simp only [mul_comm]
  · unfold predictFromParents
    rw [hix, h1]
    dsimp only
    rw [if_neg (by simpa using hv)]

theorem predict_unknown {G : Gauss n K} (op : SetOrder ℕ ℕ) {v : ℕ} (hv : ∀ a, G.names a ≠ v) (vals : List K) :
    G.predictFromParents op v vals = .error .key := by
  unfold predictFromParents
  rw [ix_none hv]

/-! ## The conditional expectation given the parents -/

section Cond

variable {Ω : Type} {mΩ : MeasurableSpace Ω} {μ : Measure Ω} [IsProbabilityMeasure μ]

/-- The total effect of a node on its parents vanishes. -/
theorem inv_parent {A : Matrix (Fin n) (Fin n) ℝ} (hA : AcyclicWeights A) {p a : Fin n} (hp : A p a ≠ 0) :
    (1 - A)⁻¹ a p = 0 := by
  by_contra hne
  have hm : (1 - A)⁻¹ * (1 - A) = 1 := Matrix.nonsing_inv_mul _ (isUnit_iff_ne_zero.2 (det_ne_zero hA))
  have key : ∀ j, (1 - A)⁻¹ a j ≠ 0 → Path0 (fun i j => A i j ≠ 0) a j := by
    intro j
    induction j using (acyclic_wf hA).induction with
    | _ j ih =>
      intro hj
      by_cases haj : a = j
      · rw [haj]
      have h1 := congrFun (congrFun hm a) j
      rw [Matrix.mul_sub, Matrix.mul_one, Matrix.sub_apply, Matrix.mul_apply, Matrix.one_apply, if_neg haj, sub_eq_zero] at h1
      rw [h1] at hj
      obtain ⟨k, -, hk⟩ := Finset.exists_ne_zero_of_sum_ne_zero hj
      exact (ih k (right_ne_zero_of_mul hk) (left_ne_zero_of_mul hk)).tail (right_ne_zero_of_mul hk)
  exact hA a (Relation.TransGen.tail' (key p hne) hp)

theorem condExp_parents {A : Matrix (Fin n) (Fin n) ℝ} (hA : AcyclicWeights A) {e x : Fin n → Ω → ℝ} (hm : ∀ k, Measurable (e k))
    (hi : ∀ k, Integrable (e k) μ) (hind : iIndepFun e μ) (hx : LinearSEM A e x) (a : Fin n) :
    μ[x a | MeasurableSpace.comap (parentValues A x a) inferInstance] =ᵐ[μ] fun ω => ∑ p, A p a * x p ω + ∫ ω, e a ω ∂μ := by
  have hsol := sem_solution hA hx
  have hsol' : ∀ p ω, x p ω = ∑ i, (1 - A)⁻¹ i p * e i ω := fun p ω => by
    have := congrFun (hsol p) ω
    rw [Finset.sum_apply] at this
    simpa using this
  have hxm : ∀ p, Measurable (x p) := fun p => by
    have : x p = fun ω => ∑ i, (1 - A)⁻¹ i p * e i ω := funext (hsol' p)
    rw [this]
    exact Finset.measurable_sum _ fun i _ => (hm i).const_mul _
  have hxi : ∀ p, Integrable (x p) μ := fun p => by
    have : x p = fun ω => ∑ i, (1 - A)⁻¹ i p * e i ω := funext (hsol' p)
    rw [this]
    exact integrable_finsetSum _ fun i _ => (hi i).const_mul _
  have hpv : Measurable (parentValues A x a) := measurable_pi_lambda _ fun p => hxm p
  set F := MeasurableSpace.comap (parentValues A x a) inferInstance with hF
  have hle : F ≤ mΩ := hpv.comap_le
  have hpm : ∀ p, A p a ≠ 0 → StronglyMeasurable[F] (x p) := fun p hp => by
    have : Measurable[F] (parentValues A x a) := comap_measurable _
    exact ((measurable_pi_apply (⟨p, hp⟩ : {p : Fin n // A p a ≠ 0})).comp this).stronglyMeasurable
  have hS : StronglyMeasurable[F] fun ω => ∑ p, A p a * x p ω := by
    refine Finset.stronglyMeasurable_fun_sum _ fun p _ => ?_
    by_cases hp : A p a = 0
    · simp only [hp, zero_mul]; exact stronglyMeasurable_const
    · exact (hpm p hp).const_mul _
  have hSi : Integrable (fun ω => ∑ p, A p a * x p ω) μ := integrable_finsetSum _ fun p _ => (hxi p).const_mul _
  have hindep : Indep (MeasurableSpace.comap (e a) inferInstance) F μ := by
    let T : Finset (Fin n) := Finset.univ.erase a
    have h1 := hind.indepFun_finset {a} T (by simp [T]) hm
    let φ : (({a} : Finset (Fin n)) → ℝ) → ℝ := fun y => y ⟨a, by simp⟩
    let ψ : (T → ℝ) → ({p : Fin n // A p a ≠ 0} → ℝ) := fun y p => ∑ i : T, (1 - A)⁻¹ i p * y i
    have hφ : Measurable φ := measurable_pi_apply (⟨a, by simp⟩ : ({a} : Finset (Fin n)))
    have h2 := h1.comp (φ := φ) (ψ := ψ) hφ
      (measurable_pi_lambda _ fun p => Finset.measurable_sum _ fun i _ => (measurable_pi_apply i).const_mul _)
    have e2 : ψ ∘ (fun ω (i : T) => e i ω) = parentValues A x a := by
      funext ω p
      simp only [ψ, Function.comp, parentValues, hsol']
      rw [← Finset.add_sum_erase _ _ (Finset.mem_univ a), inv_parent hA p.2, zero_mul, zero_add]
      exact Finset.sum_coe_sort T fun i => (1 - A)⁻¹ i p * e i ω
    rw [e2] at h2
    exact h2
  have hx' : x a = (fun ω => ∑ p, A p a * x p ω) + e a := by
    funext ω
    have := congrFun (hx a) ω
    rw [Pi.add_apply, Finset.sum_apply] at this
    simpa using this
  have hcs : μ[e a | F] =ᵐ[μ] fun _ => μ[e a] :=
    condExp_indep_eq (hm a).comap_le hle (comap_measurable (e a)).stronglyMeasurable hindep
  have hadd := condExp_add hSi (hi a) F
  rw [← hx', condExp_of_stronglyMeasurable hle hS hSi] at hadd
  filter_upwards [hadd, hcs] with ω h1 h2
  rw [h1, Pi.add_apply, h2]

end Cond

/-! ## Cholesky -/

theorem clean_eq {l : Matrix (Fin n) (Fin n) ℝ} (hl : ∀ a b, l a b = 0 ∨ tol < |l a b|) : clean l = l := by
  ext a b
  unfold clean
  rw [Matrix.of_apply]
  split
  · rename_i hc
    unfold IsClose at hc
    rw [sub_zero, abs_zero, mul_zero, add_zero] at hc
    rcases hl a b with h | h
    · exact h.symm
    · exact absurd hc (not_le.2 h)
  · rfl

theorem choleskyNoPermutation_spec {M l : Matrix (Fin n) (Fin n) ℝ} (hM : M.transpose = M) (hch : IsCholesky M l)
    (hl : ∀ a b, l a b = 0 ∨ tol < |l a b|) :
    ∃ A d, choleskyNoPermutation M = some (.ok (A, d)) ∧ (∀ a b, a ≤ b → A a b = 0) ∧ (∀ a, 0 < d a) ∧
      (1 - A) * Matrix.diagonal d * (1 - A).transpose = M := by
  have hne : ∀ a, l a a ≠ 0 := fun a => (hch.pos a).ne'
  refine ⟨1 - Matrix.of fun a b => l a b / l b b, fun a => l a a ^ 2, ?_, fun a b hab => ?_, fun a => pow_pos (hch.pos a) 2, ?_⟩
  · unfold choleskyNoPermutation
    rw [cholesky_eq hch]
    dsimp only
    rw [clean_eq hl, if_neg (by push Not; exact hne)]
  · rw [Matrix.sub_apply, Matrix.of_apply, Matrix.one_apply]
    rcases hab.eq_or_lt with rfl | h
    · rw [if_pos rfl, div_self (hne a), sub_self]
    · rw [if_neg h.ne, hch.lower a b h, zero_div, sub_self]
  · rw [sub_sub_cancel, ← hch.mul_eq hM]
    ext a b
    rw [Matrix.mul_apply, Matrix.mul_apply]
    refine Finset.sum_congr rfl fun c _ => ?_
    have := hne c
    simp only [Matrix.mul_diagonal, Matrix.of_apply, Matrix.transpose_apply]
    field_simp

/-! ## Rounding -/

theorem rint_close (x : ℝ) : |(rint x : ℝ) - x| ≤ 1 / 2 := by
  have h1 := Int.floor_add_fract x
  have h2 := Int.fract_nonneg x
  have h3 := (Int.fract_lt_one x).le
  unfold rint
  rw [abs_le]
  split_ifs <;> push_cast <;> constructor <;> linarith

theorem rint_tie {x : ℝ} (h : |(rint x : ℝ) - x| = 1 / 2) : Even (rint x) := by
  have h1 := Int.floor_add_fract x
  have h2 := Int.fract_nonneg x
  have h3 := Int.fract_lt_one x
  unfold rint at h ⊢
  split_ifs at h ⊢ with c1 c2 c3
  · rcases abs_eq (by norm_num : (0 : ℝ) ≤ 1 / 2) |>.1 h with h | h <;> linarith
  · push_cast at h
    rcases abs_eq (by norm_num : (0 : ℝ) ≤ 1 / 2) |>.1 h with h | h <;> linarith
  · exact c3
  · exact Int.even_add_one.2 c3

theorem rint_int (k : ℤ) : rint k = k := by
  unfold rint
  rw [if_pos (by simp)]
  simp

theorem around_close (d : ℕ) (x : ℝ) : |around d x - x| ≤ 1 / 2 / 10 ^ d := by
  have hp : (0 : ℝ) < 10 ^ d := by positivity
  have : around d x - x = (rint (x * 10 ^ d) - x * 10 ^ d) / 10 ^ d := by
    unfold around; field_simp
  rw [this, abs_div, abs_of_pos hp]
  exact div_le_div_of_nonneg_right (rint_close _) hp.le

theorem around_tie {d : ℕ} {x : ℝ} (h : |around d x - x| = 1 / 2 / 10 ^ d) : Even (rint (x * 10 ^ d)) := by
  have hp : (0 : ℝ) < 10 ^ d := by positivity
  have : around d x - x = (rint (x * 10 ^ d) - x * 10 ^ d) / 10 ^ d := by
    unfold around; field_simp
  rw [this, abs_div, abs_of_pos hp] at h
  exact rint_tie ((div_left_inj' hp.ne').1 h)

theorem around_zero (d : ℕ) : around d 0 = 0 := by
  have := rint_int 0
  simp only [Int.cast_zero] at this
  unfold around
  rw [zero_mul, this]; simp

/-! ## `remove_node` -/

theorem removeNode_raw {G : Gauss n K} (h : G.Plain) (hd : G.dag.Valid) (o : SetOrder Bool ℕ) (v : Fin n) :
    ∃ d, DAG.removeNode false o G.dag v.val = (d, none) ∧ d.nodes = G.dag.nodes.erase v.val ∧
      (∀ i j, (i, j) ∈ d.arcs ↔ (i, j) ∈ G.dag.arcs ∧ i ≠ v.val ∧ j ≠ v.val) ∧ d.Valid ∧
      G.toRaw.removeNode o v.val = ({ G.toRaw with
        dag := d
        names := (List.range n).eraseIdx v.val
        size := n - 1
        weight := fun i j => G.toRaw.weight (((List.range n).eraseIdx v.val).getD i 0) (((List.range n).eraseIdx v.val).getD j 0) },
        none) := by
  have hv : v.val ∈ G.dag.nodes := (h.nodes _).2 v.2
  obtain ⟨d, h1, h2, h3, h4⟩ := DAG.removeNode_spec hd.toConsistent hd.asym false o hv
  have hn : G.toRaw.names = List.range n := by
    have : G.names = Fin.val := funext h.names
    change List.ofFn G.names = _
    rw [this, List.ofFn_eq_map, List.map_coe_finRange_eq_range]
  refine ⟨d, h1, by rw [h3], fun i j => by rw [h4]; simp, ⟨h2, ?_⟩, ?_⟩
  · refine acyclic_mono (fun a b hab => ?_) hd.acyclic
    rw [DAG.E, h4] at hab; exact (Finset.mem_filter.1 hab).1
  · unfold Raw.removeNode
    have hix : G.toRaw.node2ix v.val = some v.val := by
      change (G.ix v.val).map Fin.val = _
      rw [h.ix_val]; rfl
    rw [hix]
    dsimp only
    rw [if_pos (by rw [hn, List.length_range]; exact v.2), hn, if_pos]
    · have h1' : DAG.removeNode false o G.toRaw.dag v.val = (d, none) := h1
      simp [List.length_eraseIdx, v.2, h1']
    · intro l hl
      exact List.mem_range.1 (List.mem_of_mem_eraseIdx hl)

end Model.Gauss
