import Verif.Proof.GaussPdf

/-! # The density from the eigenvalues of the covariance -/

namespace Model.Gauss

set_option linter.unusedSectionVars false

open Relation Spec MeasureTheory ProbabilityTheory

variable {n k : ℕ} {Ω : Type} [MeasurableSpace Ω] {μ : Measure Ω} [IsProbabilityMeasure μ]

theorem _root_.Spec.NormalNoise.gaussian {b v : Fin n → ℝ} {e : Fin n → Ω → ℝ} (h : NormalNoise μ b v e) (j : Fin n) :
    HasGaussianLaw (e j) μ := ⟨by rw [h.law]; infer_instance⟩

theorem _root_.Spec.NormalNoise.mean {b v : Fin n → ℝ} {e : Fin n → Ω → ℝ} (h : NormalNoise μ b v e) (j : Fin n) :
    ∫ ω, e j ω ∂μ = b j := by
  have : ∫ ω, e j ω ∂μ = ∫ y, y ∂(μ.map (e j)) := by
    rw [integral_map (h.meas j).aemeasurable (by fun_prop)]
  rw [this, h.law, integral_id_gaussianReal]

theorem _root_.Spec.NormalNoise.cov {b v : Fin n → ℝ} {e : Fin n → Ω → ℝ} (h : NormalNoise μ b v e) (hv : ∀ j, 0 ≤ v j)
    (i j : Fin n) : cov[e i, e j; μ] = if i = j then v i else 0 := by
  by_cases hij : i = j
  · subst hij
    rw [if_pos rfl, covariance_self (h.meas i).aemeasurable]
    have : Var[e i; μ] = Var[id; μ.map (e i)] := by
      rw [variance_map (by fun_prop) (h.meas i).aemeasurable]; rfl
    rw [this, h.law, variance_id_gaussianReal, Real.coe_toNNReal _ (hv i)]
  · rw [if_neg hij]
    exact (h.indep.indepFun hij).covariance_eq_zero (h.gaussian i).memLp_two (h.gaussian j).memLp_two

theorem gaussian_linear {e : Fin n → Ω → ℝ} (h : HasGaussianLaw (fun ω => (e · ω)) μ) (B : Matrix (Fin k) (Fin n) ℝ) :
    HasGaussianLaw (fun ω => ((fun a => fun ω => ∑ i, B a i * e i ω) · ω)) μ := by
  have := h.map_fun (LinearMap.toContinuousLinearMap (Matrix.toLin' B))
  exact this

/-- Jointly normal variables with covariance matrix `S = V diag(d) Vᵀ`, `V` orthogonal, `d` positive. -/
theorem eigh_density {X : Fin k → Ω → ℝ} (hX : HasGaussianLaw (fun ω => (X · ω)) μ) (hm : ∀ a, Measurable (X a))
    {m : Fin k → ℝ} (hmean : ∀ a, ∫ ω, X a ω ∂μ = m a) {S V : Matrix (Fin k) (Fin k) ℝ} (hcov : ∀ a b, cov[X a, X b; μ] = S a b)
    {d : Fin k → ℝ} (hd : ∀ b, 0 < d b) (hV : V.transpose * V = 1) (hS : V * Matrix.diagonal d * V.transpose = S) :
    HasLogDensity μ X fun y => ∑ b, normLogpdf (∑ a, V a b * y a - ∑ a, V a b * m a) √(d b) := by
  let W : Fin k → Ω → ℝ := fun b ω => ∑ a, V.transpose b a * X a ω
  have hWg : HasGaussianLaw (fun ω => (W · ω)) μ := gaussian_linear hX V.transpose
  have hWm : ∀ b, Measurable (W b) := fun b => by
    refine Finset.measurable_sum _ fun a _ => ?_
    exact (hm a).const_mul _
  have hXm : ∀ a, MemLp (X a) 2 μ := fun a => (hX.eval a).memLp_two
  have hWcov : ∀ b c, cov[W b, W c; μ] = Matrix.diagonal d b c := by
    intro b c
    have e1 : ∀ b, W b = ∑ a, V.transpose b a • X a := fun b => by
      funext ω; simp [W]
    rw [e1 b, e1 c, covariance_sum_sum (fun a => (hXm a).const_smul _) (fun a => (hXm a).const_smul _)]
    simp only [covariance_smul_left, covariance_smul_right, hcov]
    have e2 : Matrix.diagonal d = V.transpose * S * V := by
      rw [← hS]
      simp only [← Matrix.mul_assoc]
      rw [hV, Matrix.one_mul, Matrix.mul_assoc, hV, Matrix.mul_one]
    rw [e2, Matrix.mul_apply]
    simp only [Matrix.mul_apply, Finset.sum_mul]
    rw [Finset.sum_comm]
    refine Finset.sum_congr rfl fun i _ => Finset.sum_congr rfl fun j _ => ?_
    rw [Matrix.transpose_apply, Matrix.transpose_apply]; ring
  have hWi : iIndepFun W μ := hWg.iIndepFun_of_covariance_eq_zero fun i j hij => by
    rw [hWcov, Matrix.diagonal_apply_ne _ hij]
  have hWl : ∀ b, μ.map (W b) = (volume : Measure ℝ).withDensity fun y =>
      ENNReal.ofReal (Real.exp (normLogpdf (y - ∑ a, V a b * m a) √(d b))) := by
    intro b
    rw [← gaussian_logDensity (hd b), (hWg.eval b).map_eq_gaussianReal]
    congr 1
    · change ∫ ω, ∑ a, V.transpose b a * X a ω ∂μ = _
      rw [integral_finsetSum _ fun a _ => ((hXm a).integrable (by norm_num)).const_mul _]
      simp only [integral_const_mul, hmean, Matrix.transpose_apply]
    · rw [← covariance_self (hWm b).aemeasurable, hWcov, Matrix.diagonal_apply_eq]
  have hdet : |V.transpose.det| = 1 := by
    have := congrArg Matrix.det hV
    rw [Matrix.det_mul, Matrix.det_transpose, Matrix.det_one] at this
    rw [Matrix.det_transpose]
    rcases mul_self_eq_one_iff.1 this with e | e <;> rw [e] <;> simp
  unfold HasLogDensity
  rw [linear_density hdet hWm hWi
    (f := fun b y => ENNReal.ofReal (Real.exp (normLogpdf (y - ∑ a, V a b * m a) √(d b))))
    (fun b => ((measurable_normLogpdf _).comp (measurable_id.sub_const _)).exp.ennreal_ofReal) hWl fun ω j => rfl]
  congr 1
  funext y
  rw [ofReal_exp_sum]
  rfl

theorem eigh_pos {S V : Matrix (Fin k) (Fin k) ℝ} (hS : S.PosDef) {d : Fin k → ℝ} (hV : V.transpose * V = 1)
    (h : V * Matrix.diagonal d * V.transpose = S) (b : Fin k) : 0 < d b := by
  have e2 : Matrix.diagonal d = V.transpose * S * V := by
    rw [← h]
    simp only [← Matrix.mul_assoc]
    rw [hV, Matrix.one_mul, Matrix.mul_assoc, hV, Matrix.mul_one]
  have hinj : Function.Injective V.mulVec := by
    intro u w e
    have := congrArg V.transpose.mulVec e
    simpa [Matrix.mulVec_mulVec, hV] using this
  have hp : (V.conjTranspose * S * V).PosDef := hS.conjTranspose_mul_mul_same hinj
  have e3 : V.conjTranspose = V.transpose := Matrix.conjTranspose_eq_transpose_of_trivial V
  rw [e3, ← e2] at hp
  have := hp.diag_pos (i := b)
  simpa using this

/-- The formula of `fast_logpdf`. -/
theorem eigh_formula {V : Matrix (Fin k) (Fin k) ℝ} {d : Fin k → ℝ} (hd : ∀ b, 0 < d b) (m y : Fin k → ℝ) :
    -(1 / 2) * (k * Real.log (2 * Real.pi) + ∑ b, (∑ a, (y a - m a) * (V a b * √(1 / d b))) ^ 2 + ∑ b, Real.log (d b)) =
      ∑ b, normLogpdf (∑ a, V a b * y a - ∑ a, V a b * m a) √(d b) := by
  have e1 : (k : ℝ) * Real.log (2 * Real.pi) = ∑ _b : Fin k, Real.log (2 * Real.pi) := by simp
  rw [e1, ← Finset.sum_add_distrib, ← Finset.sum_add_distrib, Finset.mul_sum]
  refine Finset.sum_congr rfl fun b _ => ?_
  have e2 : ∑ a, (y a - m a) * (V a b * √(1 / d b)) = (∑ a, V a b * y a - ∑ a, V a b * m a) / √(d b) := by
    rw [← Finset.sum_sub_distrib, Finset.sum_div]
    refine Finset.sum_congr rfl fun a _ => ?_
    rw [Real.sqrt_div zero_le_one, Real.sqrt_one]
    ring
  rw [e2]
  unfold normLogpdf
  rw [Real.log_sqrt (hd b).le]
  ring

/-! ## The methods -/

theorem Plain.means_zero {G : Gauss n ℝ} (h : G.Plain) (hb : G.biases = 0) (op : SetOrder ℕ ℕ) : G.means op = .ok 0 := by
  unfold means
  rw [h.meansLoop_eq]
  congr 1
  have : ∀ t : List (Fin n), steps id (fun j (x : Fin n → ℝ) => ∑ i, G.weight i j • x i + G.biases j) t 0 = 0 := by
    intro t
    induction t with
    | nil => rfl
    | cons j t ih =>
      rw [steps]
      have : Function.update (0 : Fin n → ℝ) (id j) (∑ i, G.weight i j • (0 : Fin n → ℝ) i + G.biases j) = 0 := by
        rw [hb]
        funext i
        simp
      rw [this, ih]
  exact this _

theorem Plain.means_run {G : Gauss n ℝ} (h : G.Plain) (op : SetOrder ℕ ℕ) : ∃ m, G.means op = .ok m := by
  unfold means
  exact ⟨_, h.meansLoop_eq _ _ _⟩

/-- The log density of the normal distribution with mean `m` and covariance `S`, in the form computed. -/
noncomputable def eighLog (eigh : Eigh) (S : Matrix (Fin k) (Fin k) ℝ) (m y : Fin k → ℝ) : ℝ :=
  ∑ b, normLogpdf (∑ a, eigh.vecs S a b * y a - ∑ a, eigh.vecs S a b * m a) √(eigh.vals S b)

theorem semBlock_posDef {A : Matrix (Fin n) (Fin n) ℝ} (hA : AcyclicWeights A) {v : Fin n → ℝ} (hv : ∀ i, 0 < v i)
    {l : Fin k → Fin n} (hl : Function.Injective l) : ((semCov A v).submatrix l l).PosDef :=
  (semCov_posDef hA hv).submatrix hl

theorem Eigh.pos (eigh : Eigh) {S : Matrix (Fin k) (Fin k) ℝ} (hS : S.PosDef) (b : Fin k) : 0 < eigh.vals S b := by
  have hs : S.transpose = S := by
    have := hS.isHermitian
    rwa [Matrix.IsHermitian, Matrix.conjTranspose_eq_transpose_of_trivial] at this
  exact eigh_pos hS (eigh.orthogonal S hs) (eigh.decompose S hs) b

theorem Plain.fastLogpdf_run {G : Gauss n ℝ} (h : G.Plain) (hv : ∀ i, 0 < G.variances i) (hc : G.Current) (eigh : Eigh)
    (op : SetOrder ℕ ℕ) {m : Fin n → ℝ} (hm : G.means op = .ok m) {l : Fin k → Fin n} (hl : Function.Injective l) (x : Fin n → ℝ) :
    G.fastLogpdf eigh op x (fun a => (l a).val) =
      .ok (eighLog eigh ((semCov G.weight G.variances).submatrix l l) (fun a => m (l a)) fun a => x (l a)) := by
  obtain ⟨G1, h1, -⟩ := hc.readCovariance h.acyclic
  unfold fastLogpdf
  by_cases hk : k = 0
  · subst hk
    rw [if_pos rfl]
    simp [eighLog]
  · rw [if_neg hk, h1]
    dsimp only
    rw [positions_val]
    dsimp only
    rw [hm]
    dsimp only
    congr 1
    have := eigh_formula (V := eigh.vecs ((semCov G.weight G.variances).submatrix l l)) (k := k)
      (eigh.pos (semBlock_posDef h.acyclic hv hl)) (fun a => m (l a)) (fun a => x (l a))
    unfold eighLog
    rw [← this]
    rfl

/-- A joint density from the equations for the means and the noise. -/
theorem eighLog_density {A : Matrix (Fin n) (Fin n) ℝ} (hA : AcyclicWeights A) {b v : Fin n → ℝ} (hv : ∀ i, 0 < v i)
    {e x : Fin n → Ω → ℝ} (he : NormalNoise μ b v e) (hx : LinearSEM A e x) {m : Fin n → ℝ} (hm : LinearSEM A b m) (eigh : Eigh)
    {l : Fin k → Fin n} (hl : Function.Injective l) :
    HasLogDensity μ (fun a => x (l a)) (eighLog eigh ((semCov A v).submatrix l l) fun a => m (l a)) := by
  have hS := semBlock_posDef hA hv hl
  have hs : ((semCov A v).submatrix l l).transpose = (semCov A v).submatrix l l := by
    rw [Matrix.transpose_submatrix, semCov_symm]
  have hsol := sem_solution hA hx
  have hL : ∀ j ω, x j ω = ∑ i, (1 - A)⁻¹.transpose j i * e i ω := fun j ω => by
    rw [hsol j]; simp
  have hxm : ∀ j, Measurable (x j) := fun j => by
    have : x j = fun ω => ∑ i, (1 - A)⁻¹.transpose j i * e i ω := funext (hL j)
    rw [this]
    exact Finset.measurable_sum _ fun i _ => (he.meas i).const_mul _
  have heg : HasGaussianLaw (fun ω => (e · ω)) μ := iIndepFun.hasGaussianLaw he.gaussian he.indep
  have hxg : HasGaussianLaw (fun ω => ((fun a => x (l a)) · ω)) μ := by
    have := gaussian_linear heg ((1 - A)⁻¹.transpose.submatrix l id)
    have e1 : (fun ω => ((fun a => x (l a)) · ω)) =
        fun ω => ((fun a => fun ω => ∑ i, (1 - A)⁻¹.transpose.submatrix l id a i * e i ω) · ω) := by
      funext ω a
      exact hL (l a) ω
    rw [e1]; exact this
  refine eigh_density hxg (fun a => hxm _) (fun a => ?_) (S := (semCov A v).submatrix l l) (fun a b => ?_) (eigh.pos hS)
    (eigh.orthogonal _ hs) (eigh.decompose _ hs)
  · have h1 : LinearSEM A b fun j => ∫ ω, x j ω ∂μ :=
      sem_mean hA (fun k => (he.gaussian k).memLp_two.integrable (by norm_num)) he.mean hx
    exact congrFun (sem_unique hA h1 hm) (l a)
  · exact sem_covariance hA (fun k => (he.gaussian k).memLp_two) (he.cov fun i => (hv i).le) hx (l a) (l b)

theorem sem_logDensity {A : Matrix (Fin n) (Fin n) ℝ} (hA : AcyclicWeights A) {e x : Fin n → Ω → ℝ} (he : ∀ k, Measurable (e k))
    (hi : iIndepFun e μ) {f : Fin n → ℝ → ℝ} (hf : ∀ k, Measurable (f k))
    (hl : ∀ k, μ.map (e k) = (volume : Measure ℝ).withDensity fun y => ENNReal.ofReal (Real.exp (f k y))) (hx : LinearSEM A e x) :
    HasLogDensity μ x fun y => ∑ j, f j (y j - ∑ i, A i j * y i) := by
  unfold HasLogDensity
  rw [sem_density hA he hi (f := fun k y => ENNReal.ofReal (Real.exp (f k y))) (fun k => (hf k).exp.ennreal_ofReal) hl hx]
  congr 1
  funext y
  rw [ofReal_exp_sum]

/-- A density determines the means. -/
theorem mean_of_density {Ω' : Type} [MeasurableSpace Ω'] {μ' : Measure Ω'} {x : Fin n → Ω → ℝ} {x' : Fin n → Ω' → ℝ}
    {f : (Fin n → ℝ) → ℝ} (hx : ∀ j, Measurable (x j)) (hx' : ∀ j, Measurable (x' j)) (h : HasLogDensity μ x f)
    (h' : HasLogDensity μ' x' f) (j : Fin n) : ∫ ω, x j ω ∂μ = ∫ ω, x' j ω ∂μ' := by
  have e1 : ∫ ω, x j ω ∂μ = ∫ y, y j ∂(μ.map fun ω j => x j ω) := by
    rw [integral_map (measurable_pi_lambda _ hx).aemeasurable (measurable_pi_apply j).aestronglyMeasurable]
  have e2 : ∫ ω, x' j ω ∂μ' = ∫ y, y j ∂(μ'.map fun ω j => x' j ω) := by
    rw [integral_map (measurable_pi_lambda _ hx').aemeasurable (measurable_pi_apply j).aestronglyMeasurable]
  rw [e1, e2]
  unfold HasLogDensity at h h'
  rw [h, h']

theorem sem_measurable {A : Matrix (Fin n) (Fin n) ℝ} (hA : AcyclicWeights A) {e x : Fin n → Ω → ℝ} (he : ∀ k, Measurable (e k))
    (hx : LinearSEM A e x) (j : Fin n) : Measurable (x j) := by
  have : x j = fun ω => ∑ i, (1 - A)⁻¹ i j * e i ω := by
    rw [sem_solution hA hx j]; funext ω; simp
  rw [this]
  exact Finset.measurable_sum _ fun i _ => (he i).const_mul _

/-- The law of the solution depends on the law of the noise only. -/
theorem sem_law {Ω' : Type} [MeasurableSpace Ω'] {μ' : Measure Ω'} [IsProbabilityMeasure μ'] {A : Matrix (Fin n) (Fin n) ℝ}
    (hA : AcyclicWeights A) {b v : Fin n → ℝ} {e x : Fin n → Ω → ℝ} {e' x' : Fin n → Ω' → ℝ} (he : NormalNoise μ b v e)
    (he' : NormalNoise μ' b v e') (hx : LinearSEM A e x) (hx' : LinearSEM A e' x') :
    μ.map (fun ω j => x j ω) = μ'.map fun ω j => x' j ω := by
  have hlaw : μ.map (fun ω i => e i ω) = μ'.map fun ω i => e' i ω := by
    rw [(iIndepFun_iff_map_fun_eq_pi_map fun i => (he.meas i).aemeasurable).1 he.indep,
      (iIndepFun_iff_map_fun_eq_pi_map fun i => (he'.meas i).aemeasurable).1 he'.indep]
    simp only [he.law, he'.law]
  let L : (Fin n → ℝ) → Fin n → ℝ := fun y j => ∑ i, (1 - A)⁻¹ i j * y i
  have hLm : Measurable L := measurable_pi_lambda _ fun j =>
    Finset.measurable_sum _ fun i _ => (measurable_pi_apply i).const_mul _
  have e1 : (fun ω j => x j ω) = L ∘ fun ω i => e i ω := by
    funext ω j; rw [sem_solution hA hx j]; simp [L]
  have e2 : (fun ω j => x' j ω) = L ∘ fun ω i => e' i ω := by
    funext ω j; rw [sem_solution hA hx' j]; simp [L]
  rw [e1, e2, ← Measure.map_map hLm (measurable_pi_lambda _ he.meas), ← Measure.map_map hLm (measurable_pi_lambda _ he'.meas), hlaw]

/-! ## Shifts -/

theorem Plain.sampleShift_spec {K : Type} [Field K] {M : Type} [AddCommGroup M] [Module K M] {G : Gauss n K} (h : G.Plain)
    (o : SetOrder (Option ℕ) ℕ) (op : SetOrder ℕ ℕ) (shift : ℕ → Option K) (draw : Fin n → M) :
    ∃ x, G.sampleShift o op shift draw = some (.ok x) ∧ LinearSEM G.weight draw x := by
  obtain ⟨x, ps, h1, h2, h3⟩ := h.sampleIv_spec o op (fun v => match shift v, at? n v with
    | some _, some a => some (.soft (G.shiftSample op v (draw a)))
    | _, _ => none) draw
  refine ⟨x, h1, fun j => ?_⟩
  rw [h3 j]
  cases hs : shift j.val with
  | none => rfl
  | some s =>
    obtain ⟨qs, g1, g2, g3⟩ := h.parents_pos op j
    have hpq : ps j = qs := by
      have e : (ps j).map Fin.val = qs.map Fin.val := by
        rw [h2]
        obtain ⟨qs', g4, g5⟩ := h.listed.parents_mapM op j.val
        have g4 : (op.ord j.val (G.dag.parents j.val)).mapM G.ix = some qs' := g4
        rw [g1] at g4
        cases g4
        rw [← g5]
        exact List.map_congr_left fun a _ => h.names a
      exact List.map_injective_iff.2 Fin.val_injective e
    simp only [at?_val]
    unfold shiftSample
    rw [g1, at?_val, hpq]
    dsimp only
    have hz : (List.zipWith (fun val p => G.weight p j • val) (qs.map x) qs).sum = ∑ i, G.weight i j • x i := by
      rw [← h.parents_sum g2 g3, List.zipWith_map_left, List.zipWith_self]
    rw [List.length_map, hz]
    by_cases hq : qs.length ≠ 0
    · rw [if_pos hq]
    · rw [if_neg hq, ← hz]
      rw [not_not, List.length_eq_zero_iff] at hq
      rw [hq]; simp

/-! ## The two ways to compute the log density -/

theorem eighLog_formula {A : Matrix (Fin n) (Fin n) ℝ} (hA : AcyclicWeights A) {v : Fin n → ℝ} (hv : ∀ i, 0 < v i) (eigh : Eigh)
    (m y : Fin n → ℝ) :
    eighLog eigh (semCov A v) m y = ∑ j, normLogpdf ((y j - m j) - ∑ i, A i j * (y i - m i)) √(v j) := by
  have hS := semCov_posDef hA hv
  have hs := semCov_symm A v
  set S := semCov A v with hSdef
  have hd := eigh.pos hS
  have hO := eigh.orthogonal S hs
  have hD := eigh.decompose S hs
  set V := eigh.vecs S
  set d := eigh.vals S
  have hlog : ∑ b, Real.log (d b) = ∑ j, Real.log (v j) := by
    rw [← Real.log_prod fun b _ => (hd b).ne', ← Real.log_prod fun b _ => (hv b).ne']
    congr 1
    have h1 : S.det = ∏ b, d b := by
      rw [← hD, Matrix.det_mul, Matrix.det_mul, Matrix.det_diagonal, Matrix.det_transpose]
      have := congrArg Matrix.det hO
      rw [Matrix.det_mul, Matrix.det_transpose, Matrix.det_one] at this
      rw [mul_right_comm, this, one_mul]
    have h2 : S.det = ∏ j, v j := by
      rw [hSdef, semCov, Matrix.det_mul, Matrix.det_mul, Matrix.det_diagonal, Matrix.det_transpose, Matrix.det_nonsing_inv,
        det_one_sub hA]
      simp
    rw [← h1, h2]
  have hquad : ∀ z : Fin n → ℝ, ∑ b, (∑ a, V a b * z a) ^ 2 / d b = ∑ j, (z j - ∑ i, A i j * z i) ^ 2 / v j := by
    intro z
    have h1 : S⁻¹ = V * Matrix.diagonal (fun b => (d b)⁻¹) * V.transpose := by
      refine Matrix.inv_eq_right_inv ?_
      rw [← hD]
      have e1 : Matrix.diagonal d * Matrix.diagonal (fun b => (d b)⁻¹) = 1 := by
        rw [Matrix.diagonal_mul_diagonal]
        rw [← Matrix.diagonal_one]
        congr 1
        funext b
        exact mul_inv_cancel₀ (hd b).ne'
      have e2 : V * V.transpose = 1 := mul_eq_one_comm.1 hO
      calc V * Matrix.diagonal d * V.transpose * (V * Matrix.diagonal (fun b => (d b)⁻¹) * V.transpose)
          = V * Matrix.diagonal d * (V.transpose * V) * Matrix.diagonal (fun b => (d b)⁻¹) * V.transpose := by
            simp only [Matrix.mul_assoc]
        _ = V * (Matrix.diagonal d * Matrix.diagonal (fun b => (d b)⁻¹)) * V.transpose := by
            rw [hO, Matrix.mul_one, Matrix.mul_assoc V]
        _ = 1 := by rw [e1, Matrix.mul_one, e2]
    have h2 : S⁻¹ = (1 - A) * Matrix.diagonal (fun j => (v j)⁻¹) * (1 - A).transpose := semCov_inv hA fun i => (hv i).ne'
    have quad : ∀ (B : Matrix (Fin n) (Fin n) ℝ) (c : Fin n → ℝ),
        z ⬝ᵥ Matrix.mulVec (B * Matrix.diagonal (fun b => (c b)⁻¹) * B.transpose) z = ∑ b, (∑ a, B a b * z a) ^ 2 / c b := by
      intro B c
      rw [← Matrix.mulVec_mulVec, ← Matrix.mulVec_mulVec, Matrix.dotProduct_mulVec]
      rw [show Matrix.vecMul z B = fun b => ∑ a, B a b * z a from by
        funext b; simp only [Matrix.vecMul, dotProduct]; exact Finset.sum_congr rfl fun a _ => mul_comm _ _]
      rw [show Matrix.mulVec B.transpose z = fun b => ∑ a, B a b * z a from rfl]
      simp only [dotProduct, Matrix.mulVec_diagonal]
      exact Finset.sum_congr rfl fun b _ => by rw [div_eq_mul_inv]; ring
    have h3 := quad V d
    have h4 := quad (1 - A) v
    rw [← h1] at h3
    rw [← h2] at h4
    rw [← h3, h4]
    refine Finset.sum_congr rfl fun j _ => ?_
    congr 2
    simp only [Matrix.sub_apply, sub_mul, Finset.sum_sub_distrib, Matrix.one_apply, ite_mul, one_mul, zero_mul]
    simp
  have key := hquad (fun a => y a - m a)
  have lhs : eighLog eigh S m y = -(1 / 2) * (∑ b, (∑ a, V a b * (y a - m a)) ^ 2 / d b) - n * (Real.log (2 * Real.pi) / 2)
      - (1 / 2) * ∑ b, Real.log (d b) := by
    unfold eighLog normLogpdf
    simp only [Finset.sum_sub_distrib, Finset.sum_neg_distrib, Finset.mul_sum]
    rw [Finset.sum_const, Finset.card_univ, Fintype.card_fin, nsmul_eq_mul]
    congr 1
    · congr 1
      rw [← Finset.sum_neg_distrib]
      refine Finset.sum_congr rfl fun b _ => ?_
      rw [div_pow, Real.sq_sqrt (hd b).le, ← Finset.sum_sub_distrib]
      simp only [mul_sub]
      ring
    · refine Finset.sum_congr rfl fun b _ => ?_
      rw [Real.log_sqrt (hd b).le]; ring
  rw [lhs, key, hlog]
  unfold normLogpdf
  simp only [Finset.sum_sub_distrib, Finset.sum_neg_distrib, Finset.mul_sum]
  rw [Finset.sum_const, Finset.card_univ, Fintype.card_fin, nsmul_eq_mul]
  congr 1
  · congr 1
    rw [← Finset.sum_neg_distrib]
    refine Finset.sum_congr rfl fun b _ => ?_
    rw [div_pow, Real.sq_sqrt (hv b).le]
    ring
  · refine Finset.sum_congr rfl fun b _ => ?_
    rw [Real.log_sqrt (hv b).le]; ring

end Model.Gauss
