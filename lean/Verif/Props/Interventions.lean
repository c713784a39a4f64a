import Verif.Proof.Mixture
import Verif.Proof.GaussPdf
import Verif.Spec.InterventionLaw
import Verif.Props.GaussMore
import Verif.Props.GaussMoments
import Mathlib.Probability.ProductMeasure

/-! # Interventions (properties C192–C195) -/

namespace Props

set_option linter.unusedSectionVars false
open Model Spec MeasureTheory ProbabilityTheory

/-! ## C192 -/

section Mixture

variable {Ω S : Type} [MeasurableSpace Ω] [MeasurableSpace S] [Zero S] {K m : ℕ} {μ : Measure Ω} [IsProbabilityMeasure μ]

/-- C192. `MultinomialIntervention.sample(size)` returns independent draws from the mixture of the component distributions with the given
weights, if the components return independent draws. -/
theorem C192_multinomial {q : Measure (Fin K)} [IsProbabilityMeasure q] {P : Fin K → Measure S} [∀ k, IsProbabilityMeasure (P k)]
    {choices : Ω → Fin m → Fin K} {draws : Fin K → (s : ℕ) → Ω → Fin s → S} (h : MixtureDraws μ q P choices draws) :
    Measurable (fun ω => multinomialSample (List.ofFn fun k s => List.ofFn (draws k s ω)) fun i => (choices ω i).val) ∧
      μ.map (fun ω => multinomialSample (List.ofFn fun k s => List.ofFn (draws k s ω)) fun i => (choices ω i).val) =
        Measure.pi fun _ => ∑ k, q {k} • P k := by
  have e : (fun ω => multinomialSample (List.ofFn fun k s => List.ofFn (draws k s ω)) fun i => (choices ω i).val) =
      fun ω => pickDraw (fun k s => draws k s ω) (choices ω) := by
    funext ω i
    exact multinomialSample_eq (fun k s => draws k s ω) (fun i => (choices ω i).isLt) i
  rw [e]
  exact ⟨measurable_pickDraw h, pickDraw_law h⟩

/-- C192. `BinaryIntervention(iv1, iv2, p).sample(size)` returns independent draws from the mixture with weight `p` for the
first component and `1 - p` for the second. Here source 1 is the first component and source 0 the second. -/
theorem C192_binary {q : Measure (Fin 2)} [IsProbabilityMeasure q] {P : Fin 2 → Measure S} [∀ k, IsProbabilityMeasure (P k)]
    {choices : Ω → Fin m → Fin 2} {draws : Fin 2 → (s : ℕ) → Ω → Fin s → S} (h : MixtureDraws μ q P choices draws) {p : ℝ}
    (hp0 : 0 ≤ p) (hq : q {1} = ENNReal.ofReal p) :
    μ.map (fun ω => binarySample (fun s => List.ofFn (draws 1 s ω)) (fun s => List.ofFn (draws 0 s ω)) fun i => (choices ω i).val) =
      Measure.pi fun _ => ENNReal.ofReal p • P 1 + ENNReal.ofReal (1 - p) • P 0 := by
  have e : (fun ω => binarySample (fun s => List.ofFn (draws 1 s ω)) (fun s => List.ofFn (draws 0 s ω)) fun i => (choices ω i).val) =
      fun ω => pickDraw (fun k s => draws k s ω) (choices ω) := by
    funext ω i
    exact binarySample_eq (fun k s => draws k s ω) (fun i => (choices ω i).isLt) i
  have h0 : q {0} = ENNReal.ofReal (1 - p) := by
    have : ({0} : Set (Fin 2)) = {1}ᶜ := by ext i; fin_cases i <;> simp
    rw [this, prob_compl_eq_one_sub (measurableSet_singleton _), hq, ENNReal.ofReal_sub _ hp0, ENNReal.ofReal_one]
  rw [e, pickDraw_law h]
  congr 1
  funext _
  rw [Fin.sum_univ_two, h0, hq, add_comm]

omit [Zero S] in
/-- Such draws exist, for all distributions. -/
theorem mixtureDraws_exist (q : Measure (Fin K)) [IsProbabilityMeasure q] (P : Fin K → Measure S) [∀ k, IsProbabilityMeasure (P k)] :
    MixtureDraws ((Measure.pi fun _ : Fin m => q).prod (Measure.pi fun k => Measure.infinitePi fun s : ℕ => Measure.pi fun _ : Fin s => P k))
      q P (fun ω => ω.1) (fun k s ω => ω.2 k s) where
  meas_choices := measurable_fst
  law_choices := measurePreserving_fst.map_eq
  meas k s := (measurable_pi_apply s).comp ((measurable_pi_apply k).comp measurable_snd)
  law k s := by
    have h1 := (measurePreserving_snd (μ := Measure.pi fun _ : Fin m => q)
      (ν := Measure.pi fun k => Measure.infinitePi fun s : ℕ => Measure.pi fun _ : Fin s => P k)).map_eq
    have h2 := (measurePreserving_eval (fun k => Measure.infinitePi fun s : ℕ => Measure.pi fun _ : Fin s => P k) k).map_eq
    have h3 := Measure.infinitePi_map_eval (fun s : ℕ => Measure.pi fun _ : Fin s => P k) s
    refine Eq.trans ?_ h3
    rw [← h2, Measure.map_map (measurable_pi_apply s) (measurable_pi_apply k)]
    refine Eq.trans ?_ (congrArg (Measure.map _) h1)
    rw [Measure.map_map ((measurable_pi_apply s).comp (measurable_pi_apply k)) measurable_snd]
    rfl
  indep s := by
    have h1 : iIndepFun (fun k (ω : Fin K → (s : ℕ) → Fin s → S) => ω k (s k))
        (Measure.pi fun k => Measure.infinitePi fun s : ℕ => Measure.pi fun _ : Fin s => P k) :=
      iIndepFun_pi (X := fun k (x : (s : ℕ) → Fin s → S) => x (s k)) fun k => (measurable_pi_apply (s k)).aemeasurable
    rw [iIndepFun_iff_measure_inter_preimage_eq_mul] at h1 ⊢
    intro T B hB
    have h2 := h1 T hB
    have hm : ∀ k ∈ T, MeasurableSet ((fun ω : Fin K → (s : ℕ) → Fin s → S => ω k (s k)) ⁻¹' B k) := fun k hk =>
      ((measurable_pi_apply (s k)).comp (measurable_pi_apply k)) (hB k hk)
    have e : ∀ A : Set (Fin K → (s : ℕ) → Fin s → S), MeasurableSet A →
        ((Measure.pi fun _ : Fin m => q).prod (Measure.pi fun k => Measure.infinitePi fun s : ℕ => Measure.pi fun _ : Fin s => P k))
          (Prod.snd ⁻¹' A) = (Measure.pi fun k => Measure.infinitePi fun s : ℕ => Measure.pi fun _ : Fin s => P k) A :=
      fun A hA => measurePreserving_snd.measure_preimage hA.nullMeasurableSet
    have e1 := e _ (Finset.measurableSet_biInter T hm)
    have e2 : ∏ k ∈ T, ((Measure.pi fun _ : Fin m => q).prod (Measure.pi fun k => Measure.infinitePi fun s : ℕ => Measure.pi fun _ : Fin s => P k))
        (Prod.snd ⁻¹' ((fun ω : Fin K → (s : ℕ) → Fin s → S => ω k (s k)) ⁻¹' B k)) = _ :=
      Finset.prod_congr rfl fun k hk => e _ (hm k hk)
    rw [h2, ← e2] at e1
    refine Eq.trans ?_ e1
    congr 1
    ext ω
    simp
  indep_choices s := indepFun_prod (X := fun c : Fin m → Fin K => c) (Y := fun (ω : Fin K → (s : ℕ) → Fin s → S) k => ω k (s k))
    measurable_id (measurable_pi_lambda _ fun k => (measurable_pi_apply (s k)).comp (measurable_pi_apply k))

/-- A fair coin between two normal distributions, and three sources. -/
example : ∃ (Ω : Type) (_ : MeasurableSpace Ω) (μ : Measure Ω) (f : Ω → Fin 10 → ℝ), μ.map f =
    Measure.pi fun _ => ENNReal.ofReal (1 / 2) • gaussianReal 0 1 + ENNReal.ofReal (1 - 1 / 2) • gaussianReal 5 2 := by
  let q : Measure (Fin 2) := ENNReal.ofReal (1 / 2) • Measure.dirac 0 + ENNReal.ofReal (1 / 2) • Measure.dirac 1
  have : IsProbabilityMeasure q := ⟨by
    simp only [q, Measure.add_apply, Measure.smul_apply, measure_univ, smul_eq_mul, mul_one]
    rw [← ENNReal.ofReal_add (by norm_num) (by norm_num)]; norm_num⟩
  have hP : ∀ k, IsProbabilityMeasure ((![gaussianReal 5 2, gaussianReal 0 1] : Fin 2 → Measure ℝ) k) := fun k => by
    fin_cases k <;> exact inferInstanceAs (IsProbabilityMeasure (gaussianReal _ _))
  have := C192_binary (mixtureDraws_exist (m := 10) q ![gaussianReal 5 2, gaussianReal 0 1]) (p := 1 / 2) (by norm_num) (by simp [q])
  exact ⟨_, _, _, _, this⟩

example (q : Measure (Fin 3)) [IsProbabilityMeasure q] :=
  C192_multinomial (mixtureDraws_exist (m := 7) q fun k => gaussianReal (k : ℝ) 1)

end Mixture

/-! ## C193 -/

/-- C193 (partial: only for normal distributions with positive variance and mixtures of two of them, nested to any depth). `pdf(vals)`
returns the density of the distribution of the samples at each of the values. -/
theorem C193_pdf_partial {iv : PerfectIv} (h : iv.Smooth) :
    ∃ g : ℝ → ℝ, (∀ x, 0 ≤ g x) ∧ Measurable g ∧ (∀ vals, iv.pdf vals = .ok (vals.map g)) ∧
      iv.law = (volume : Measure ℝ).withDensity fun x => ENNReal.ofReal (g x) := by
  induction h with
  | @gauss m v hv =>
    refine ⟨fun x => Real.exp (-(((x - m) / √v) ^ 2 / 2)) / √(2 * Real.pi) / √v, fun x => by positivity, by fun_prop, fun vals => rfl, ?_⟩
    rw [PerfectIv.law, gaussianReal_of_var_ne_zero _ (by simpa using hv)]
    congr 1
    funext x
    rw [gaussianPDF, gaussianPDFReal, Real.coe_toNNReal _ hv.le]
    congr 1
    dsimp only
    rw [Real.sqrt_mul (by positivity), div_pow, Real.sq_sqrt hv.le, div_div, div_eq_mul_inv, mul_comm]
    congr 2
    field_simp
  | @binary a b p ha hb h0 h1 iha ihb =>
    obtain ⟨f, f0, fm, f1, f2⟩ := iha
    obtain ⟨g, g0, gm, g1, g2⟩ := ihb
    refine ⟨fun x => p * f x + (1 - p) * g x, fun x => add_nonneg (mul_nonneg h0 (f0 x)) (mul_nonneg (by linarith) (g0 x)),
      (fm.const_mul p).add (gm.const_mul _), fun vals => ?_, ?_⟩
    · rw [PerfectIv.pdf, f1, g1]
      dsimp only
      congr 1
      induction vals with
      | nil => rfl
      | cons x vals ih => simp [ih]
    · rw [PerfectIv.law, f2, g2, ← withDensity_smul _ (by fun_prop), ← withDensity_smul _ (by fun_prop), ← withDensity_add_left (by fun_prop)]
      congr 1
      funext x
      simp only [Pi.add_apply, Pi.smul_apply, smul_eq_mul]
      rw [← ENNReal.ofReal_mul h0, ← ENNReal.ofReal_mul (by linarith : (0 : ℝ) ≤ 1 - p),
        ← ENNReal.ofReal_add (mul_nonneg h0 (f0 x)) (mul_nonneg (by linarith) (g0 x))]

example := C193_pdf_partial (iv := .binary (.gauss 0 1) (.binary (.gauss 5 2) (.gauss (-5) 2) (1 / 2)) (1 / 3))
  (.binary (.gauss (by norm_num)) (.binary (.gauss (by norm_num)) (.gauss (by norm_num)) (by norm_num) (by norm_num))
    (by norm_num) (by norm_num))

/-- C193 is violated: the mixture of a constant and a normal distribution. The number returned for a value depends on the other
values in the array, so that no function of the value is returned. -/
theorem C193_violated : ∃ iv : PerfectIv, iv = .binary (.constant 0) (.gauss 0 1) (1 / 2) ∧
    ¬ ∃ g : ℝ → ℝ, ∀ vals, iv.pdf vals = .ok (vals.map g) := by
  refine ⟨_, rfl, ?_⟩
  rintro ⟨g, hg⟩
  have h1 := hg [0]
  have h2 := hg [0, 1]
  simp only [PerfectIv.pdf, Except.ok.injEq, List.map_cons, List.map_nil, List.zipWith_cons_cons, List.zipWith_nil_left, List.cons.injEq,
    and_true] at h1 h2
  rw [if_pos (by simp)] at h1
  rw [if_neg (by simp)] at h2
  have := h1.trans h2.1.symm
  linarith

/-- C193 is violated: `MultinomialIntervention.pdf` raises `NotImplementedError`. -/
theorem C193_violated_multinomial (k : ℕ) (pvals : Fin k → ℝ) (ivs : Fin k → PerfectIv) (vals : List ℝ) :
    (PerfectIv.multinomial k pvals ivs).pdf vals = .error .plain := by rw [PerfectIv.pdf]

/-! ## C194 -/

section Scaling

variable {n : ℕ}

/-- C194 (partial: only for the node list `0, …, n-1` and with `mean` given). `ScalingIntervention.sample` multiplies the weights of the
parents by `factor` and draws the noise with mean `mean` and the standard deviation multiplied by `noise_factor`. -/
theorem C194_scaling_partial {G : Gauss n ℝ} (h : G.Plain) (op : SetOrder ℕ ℕ) (a : Fin n) {factor noiseFactor mean : ℝ}
    (hn : 0 ≤ noiseFactor) (z : ℝ) :
    ∃ ps : List (Fin n), ps.map Fin.val = op.ord a.val (G.dag.parents a.val) ∧ ∀ x : Fin n → ℝ,
      G.scalingSample op factor noiseFactor (some mean) a.val z (ps.map x) =
        .ok (∑ p, factor * G.weight p a * x p + (mean + noiseFactor * √(G.variances a) * z)) := by
  obtain ⟨ps, h1, h2, h3⟩ := h.toSound.parents_pos op a
  have hix : G.ix a.val = some a := by rw [← h.names a]; exact lastIx_names h.listed.inj a
  obtain ⟨ps', h1', h2'⟩ := h.listed.parents_mapM op (G.names a)
  have : ps' = ps := Option.some.inj (h1'.symm.trans h1)
  subst this
  rw [h.names a] at h1 h2'
  refine ⟨ps', by rw [← h2', show G.names = Fin.val from funext h.names], fun x => ?_⟩
  unfold Gauss.scalingSample
  rw [hix]
  dsimp only
  rw [if_neg (not_lt.2 (mul_nonneg (Real.sqrt_nonneg _) hn)), h1]
  dsimp only
  have hsum : (List.zipWith (fun x p => x * G.weight p a * factor) (ps'.map x) ps').sum = ∑ p, factor * G.weight p a * x p := by
    have e : List.zipWith (fun x p => x * G.weight p a * factor) (ps'.map x) ps' = ps'.map fun p => G.weight p a • (factor * x p) := by
      clear h1 h2 h3 h1' h2'
      induction ps' with
      | nil => rfl
      | cons p l ih => simp [ih]; ring
    rw [e, Gauss.parents_sum' h2 h3 fun p => factor * x p]
    refine Finset.sum_congr rfl fun p _ => ?_
    rw [smul_eq_mul]; ring
  by_cases h0 : ps' = []
  · subst h0
    simp only [List.map_nil, List.length_nil, ne_eq, not_true_eq_false, if_false]
    have : ∑ p, factor * G.weight p a * x p = 0 := Finset.sum_eq_zero fun p _ => by
      have : G.weight p a = 0 := by
        have := h3 p
        simpa using this
      rw [this]; ring
    rw [this, zero_add, mul_comm noiseFactor]
  · rw [if_pos (by simpa using h0), Gauss.at?_val]
    dsimp only
    rw [if_pos (by simp), hsum, mul_comm noiseFactor]

/-- C194 is violated: without `mean`, the default, an `AttributeError` is raised. -/
theorem C194_violated {G : Gauss n ℝ} (h : G.Sound) (op : SetOrder ℕ ℕ) (a : Fin n) (factor noiseFactor z : ℝ) (vals : List ℝ) :
    G.scalingSample op factor noiseFactor none (G.names a) z vals = .error .plain := by
  unfold Gauss.scalingSample
  rw [show G.ix (G.names a) = some a from lastIx_names h.listed.inj a]

/-- C194 is violated: on the node list `[1, 0]` with the arc 1 → 0 of weight 1, the value of the parent is ignored. -/
theorem C194_violated_order (oa : SetOrder Bool (ℕ × ℕ)) (op : SetOrder ℕ ℕ) (x z : ℝ) :
    ∃ G : Gauss 2 ℝ, Gauss.new oa ![1, 0] [((1, 0), 1)] 0 1 = (G, none) ∧ G.Sound ∧ G.names 1 = 0 ∧ G.weight 0 1 = 1 ∧
      G.scalingSample op 1 1 (some 0) 0 z [x] = .ok (√(G.variances 1) * z) := by
  obtain ⟨G, h1, h2, h3, h4⟩ := GaussCase.swappedK ℝ oa
  refine ⟨G, h1, h2, by rw [h3]; rfl, by rw [h4]; simp, ?_⟩
  obtain ⟨ps, p1, p2, p3⟩ := h2.parents_pos op 1
  have hps : ps = [0] := by
    have := (List.perm_ext_iff_of_nodup p2 (List.nodup_singleton (0 : Fin 2))).2 fun p => by
      rw [p3, h4]; fin_cases p <;> simp
    exact List.perm_singleton.1 this
  have hn : G.names 1 = 0 := by rw [h3]; rfl
  rw [hn, hps] at p1
  have hix : G.ix 0 = some 1 := by rw [← hn]; exact lastIx_names h2.listed.inj 1
  unfold Gauss.scalingSample
  rw [hix]
  dsimp only
  rw [if_neg (not_lt.2 (by positivity)), p1]
  have : Gauss.at? 2 0 = some 0 := rfl
  simp [this, h4]

/-- The chain 0 → 1 → 2. -/
example (oa : SetOrder Bool (ℕ × ℕ)) (op : SetOrder ℕ ℕ) (x z : ℝ) :
    ∃ (G : Gauss 3 ℝ) (l : List ℝ), G.scalingSample op 5 2 (some 1) 2 z l = .ok (15 * x + (1 + 2 * √(G.variances 2) * z)) := by
  obtain ⟨G, h2, h3, -⟩ := GaussCase.chain oa
  obtain ⟨ps, -, p⟩ := C194_scaling_partial h2 op 2 (factor := 5) (noiseFactor := 2) (mean := 1) (by norm_num) z
  refine ⟨G, _, (p fun _ => x).trans ?_⟩
  rw [h3, Fin.sum_univ_three]
  simp
  norm_num

end Scaling

/-! ## C195 -/

/-- C195 (partial: only if the conditional, given the one-dimensional array of one row, returns what it returns for that row in a
two-dimensional array). On a `SampleDAG`, `ShiftIntervention.sample` adds the shift to what the conditional, called as in
`SampleDAG.sample`, returns. -/
theorem C195_shift_partial {c : NdArray → Except (Exn ℕ) (List ℝ)}
    (hrow : ∀ rows ys, c (.mat rows) = .ok ys → List.Forall₂ (fun r y => c (.vec r) = .ok [y]) rows ys) {rows : List (List ℝ)}
    {ys : List ℝ} (hc : c (.mat rows) = .ok ys) (shift : ℝ) : shiftRows c shift rows = .ok (ys.map (· + shift)) := by
  have h := hrow rows ys hc
  clear hc
  induction h with
  | nil => rfl
  | cons h0 _ ih => rw [shiftRows, h0, ih]; rfl

/-- `lambda vals: 2 * vals[..., 0]` -/
def lastAxis : NdArray → Except (Exn ℕ) (List ℝ)
  | .vec (x :: _) => .ok [2 * x]
  | .vec [] => .error .index
  | .mat rows => if ∀ r ∈ rows, r ≠ [] then .ok (rows.map fun r => 2 * r.headD 0) else .error .index

example : shiftRows lastAxis 3 [[1, 5], [2, 6]] = .ok ([2, 4].map (· + 3)) := by
  refine C195_shift_partial (c := lastAxis) (fun rows ys h => ?_) (ys := [2, 4]) (by simp [lastAxis]; norm_num) 3
  rw [lastAxis] at h
  split at h
  · rename_i hr
    injection h with h
    subst h
    induction rows with
    | nil => exact .nil
    | cons r rows ih =>
      cases r with
      | nil => exact absurd rfl (hr [] (by simp))
      | cons x r => exact .cons rfl (ih fun r' hr' => hr r' (by simp [hr']))
  · cases h

/-- `lambda vals: vals[:, 0]` -/
def firstColumn : NdArray → Except (Exn ℕ) (List ℝ)
  | .vec _ => .error .index
  | .mat rows => if ∀ r ∈ rows, r ≠ [] then .ok (rows.map fun r => r.headD 0) else .error .index

/-- C195 is violated: with the conditional `lambda vals: vals[:, 0]`, which works in `sample`, an `IndexError` is raised. -/
theorem C195_violated : ∃ (c : NdArray → Except (Exn ℕ) (List ℝ)),
    (∀ rows, (∀ r ∈ rows, r ≠ []) → c (.mat rows) = .ok (rows.map fun r => r.headD 0)) ∧
      ∀ shift rows, rows ≠ [] → shiftRows c shift rows = .error .index := by
  refine ⟨firstColumn, fun rows h => ?_, fun shift rows h => ?_⟩
  · rw [firstColumn, if_pos h]
  · cases rows with
    | nil => exact absurd rfl h
    | cons r rows => simp [shiftRows, firstColumn]

end Props
