import Verif.Model.GaussPdf
import Verif.Proof.GaussDensity
import Mathlib.Probability.Distributions.Gaussian.HasGaussianLaw.Independence

/-! # Log densities and samples under interventions -/

namespace Model.Gauss

set_option linter.unusedSectionVars false

open Relation Spec MeasureTheory ProbabilityTheory

variable {n k : ℕ}

/-! ## The loops -/

section

variable {G : Gauss n ℝ} (h : G.Plain)
include h

theorem Plain.correction {ps : List (Fin n)} (hn : ps.Nodup) {j : Fin n} (hp : ∀ p, p ∈ ps ↔ G.weight p j ≠ 0) (x : Fin n → ℝ) :
    (ps.map fun p => x p * G.weight p j).sum = ∑ i, G.weight i j * x i := by
  have := h.parents_sum (M := ℝ) hn hp x
  simp only [smul_eq_mul] at this
  rw [← this]
  congr 1
  exact List.map_congr_left fun p _ => mul_comm _ _

theorem Plain.logpdfLoop_eq (op : SetOrder ℕ ℕ) (x : Fin n → ℝ) (t : List (Fin n)) (acc : ℝ) :
    G.logpdfLoop op x (t.map Fin.val) acc =
      .ok (acc + (t.map fun j => normLogpdf (x j - ∑ i, G.weight i j * x i) (√(G.variances j))).sum) := by
  induction t generalizing acc with
  | nil => simp [logpdfLoop]
  | cons j t ih =>
    obtain ⟨ps, h1, h2, h3⟩ := h.parents_pos op j
    rw [List.map_cons, logpdfLoop, h.ix_val, at?_val, h1, List.map_cons, List.sum_cons, ← add_assoc]
    simp only
    by_cases hc : ps.length ≠ 0
    · rw [if_pos hc, h.correction h2 h3, ih]
    · rw [if_neg hc, ih]
      have : ∑ i, G.weight i j * x i = 0 := by
        rw [← h.correction h2 h3]
        rw [not_not, List.length_eq_zero_iff] at hc
        rw [hc]; rfl
      rw [this]

theorem sum_extension {E : Fin n → Fin n → Prop} {t : List (Fin n)} (hl : LinearExtension Set.univ E t) (f : Fin n → ℝ) :
    (t.map f).sum = ∑ j, f j := by
  rw [← List.sum_toFinset f hl.nodup]
  congr 1
  ext j
  simpa using (hl.mem_iff j).2 trivial

theorem Plain.logpdf_spec (o : SetOrder (Option ℕ) ℕ) (op : SetOrder ℕ ℕ) (x : Fin n → ℝ) :
    G.logpdf o op x = some (.ok (∑ j, normLogpdf (x j - ∑ i, G.weight i j * x i) (√(G.variances j)))) := by
  obtain ⟨t, ht, hl⟩ := h.sort o
  unfold logpdf
  rw [ht]; dsimp only
  rw [h.logpdfLoop_eq, zero_add, sum_extension h hl]

theorem Plain.logpdfIvLoop_eq (op : SetOrder ℕ ℕ) (iv : ℕ → Option (ℝ → ℝ)) (exclude : Bool) (x : Fin n → ℝ) (t : List (Fin n))
    (acc : ℝ) :
    G.logpdfIvLoop op iv exclude x (t.map Fin.val) acc =
      .ok (acc + (t.map fun j : Fin n => match iv j.val with
        | some f => if exclude then 0 else f (x j)
        | none => normLogpdf (x j - ∑ i, G.weight i j * x i) (√(G.variances j))).sum) := by
  induction t generalizing acc with
  | nil => simp [logpdfIvLoop]
  | cons j t ih =>
    obtain ⟨ps, h1, h2, h3⟩ := h.parents_pos op j
    rw [List.map_cons, logpdfIvLoop, h.ix_val, at?_val, h1, List.map_cons, List.sum_cons, ← add_assoc]
    simp only
    cases hi : iv j.val with
    | some f =>
      simp only
      rw [ih]
      cases exclude <;> simp
    | none => simp only; rw [h.correction h2 h3, ih]

theorem Plain.logpdfIv_spec (o : SetOrder (Option ℕ) ℕ) (op : SetOrder ℕ ℕ) (iv : ℕ → Option (ℝ → ℝ)) (exclude : Bool)
    (x : Fin n → ℝ) :
    G.logpdfIv o op iv exclude x = some (.ok (∑ j : Fin n, match iv j.val with
        | some f => if exclude then 0 else f (x j)
        | none => normLogpdf (x j - ∑ i, G.weight i j * x i) (√(G.variances j)))) := by
  obtain ⟨t, ht, hl⟩ := h.sort o
  unfold logpdfIv
  rw [ht]; dsimp only
  rw [h.logpdfIvLoop_eq, zero_add, sum_extension h hl]

end

section

variable {K : Type} [Field K] {M : Type} [AddCommGroup M] [Module K M] {G : Gauss n K} (h : G.Plain)
include h

theorem Plain.samplePerfectLoop_eq (op : SetOrder ℕ ℕ) (intervened : ℕ → Bool) (noise : Fin n → M) (t : List (Fin n))
    (x : Fin n → M) :
    G.samplePerfectLoop op intervened noise (t.map Fin.val) x =
      .ok (steps id (fun j x => ∑ i, (if intervened j.val then 0 else G.weight i j) • x i + noise j) t x) := by
  induction t generalizing x with
  | nil => rfl
  | cons j t ih =>
    obtain ⟨ps, h1, h2, h3⟩ := h.parents_pos op j
    rw [List.map_cons, samplePerfectLoop, steps, h.ix_val, at?_val, h1]
    simp only [id]
    by_cases hi : intervened j.val
    · simp only [hi, not_true, false_and, if_false, if_true, zero_smul, Finset.sum_const_zero, zero_add]
      exact ih _
    · by_cases hc : (G.dag.parents j.val).card ≠ 0
      · rw [if_pos ⟨hi, hc⟩, h.parents_sum h2 h3, ih]
        simp only [hi]
        rfl
      · rw [if_neg fun hh => hc hh.2, ih]
        have : ∑ i, G.weight i j • x i = 0 := by
          refine Finset.sum_eq_zero fun i _ => ?_
          have : G.weight i j = 0 := by
            by_contra hw
            exact hc (Finset.card_ne_zero_of_mem ((h.parents_mem i j).2 hw))
          rw [this, zero_smul]
        simp only [hi]
        simp only [Bool.false_eq_true, if_false, this, zero_add]

theorem Plain.samplePerfect_spec (o : SetOrder (Option ℕ) ℕ) (op : SetOrder ℕ ℕ) (intervened : ℕ → Bool) (noise : Fin n → M) :
    ∃ x, G.samplePerfect o op intervened noise = some (.ok x) ∧
      LinearSEM (Matrix.of fun i j : Fin n => if intervened j.val then 0 else G.weight i j) noise x := by
  obtain ⟨t, ht, hl⟩ := h.sort o
  refine ⟨_, by unfold samplePerfect; rw [ht]; dsimp only; rw [h.samplePerfectLoop_eq], fun j => ?_⟩
  refine h.steps_solve hl (fun j x y hxy => ?_) _ j
  by_cases hi : intervened j.val
  · simp [hi]
  · simp only [hi]
    simp only [Bool.false_eq_true, if_false]
    rw [h.sum_local j x y hxy]

theorem Plain.sampleIvLoop_eq (op : SetOrder ℕ ℕ) (iv : ℕ → Option (IvDist M)) (noise : Fin n → M) (ps : Fin n → List (Fin n))
    (hps : ∀ j : Fin n, (op.ord j.val (G.dag.parents j.val)).mapM G.ix = some (ps j)) (hn : ∀ j, (ps j).Nodup)
    (hm : ∀ j p, p ∈ ps j ↔ G.weight p j ≠ 0) (t : List (Fin n)) (x : Fin n → M) :
    G.sampleIvLoop op iv noise (t.map Fin.val) x =
      .ok (steps id (fun j x => match iv j.val with
        | some (.soft f) => f ((ps j).map x)
        | some (.perfect m) => m
        | none => ∑ i, G.weight i j • x i + noise j) t x) := by
  induction t generalizing x with
  | nil => rfl
  | cons j t ih =>
    rw [List.map_cons, sampleIvLoop, steps, h.ix_val, at?_val, hps]
    simp only [id]
    cases hi : iv j.val with
    | some d => cases d <;> exact ih _
    | none =>
      simp only
      by_cases hc : (ps j).length ≠ 0
      · rw [if_pos hc, h.parents_sum (hn j) (hm j), ih]
      · rw [if_neg hc, ih]
        have : ∑ i, G.weight i j • x i = 0 := by
          rw [← h.parents_sum (hn j) (hm j)]
          rw [not_not, List.length_eq_zero_iff] at hc
          rw [hc]; rfl
        rw [this, zero_add]

theorem Plain.sampleIv_spec (o : SetOrder (Option ℕ) ℕ) (op : SetOrder ℕ ℕ) (iv : ℕ → Option (IvDist M)) (noise : Fin n → M) :
    ∃ (x : Fin n → M) (ps : Fin n → List (Fin n)), G.sampleIv o op iv noise = some (.ok x) ∧
      (∀ j : Fin n, (ps j).map Fin.val = op.ord j.val (G.dag.parents j.val)) ∧
      ∀ j : Fin n, x j = match iv j.val with
        | some (.soft f) => f ((ps j).map x)
        | some (.perfect m) => m
        | none => ∑ i, G.weight i j • x i + noise j := by
  obtain ⟨t, ht, hl⟩ := h.sort o
  choose ps h1 h2 using fun j : Fin n => h.listed.parents_mapM op j.val
  have h4 : ∀ j, (ps j).map Fin.val = op.ord j.val (G.dag.parents j.val) := by
    intro j
    rw [← h2 j]
    exact List.map_congr_left fun a _ => (h.names a).symm
  have hn : ∀ j, (ps j).Nodup := fun j => by
    have := op.nodup j.val (G.dag.parents j.val)
    rw [← h4] at this
    exact List.Nodup.of_map _ this
  have hm : ∀ j p, p ∈ ps j ↔ G.weight p j ≠ 0 := by
    intro j p
    rw [← h.parents_mem, ← op.mem_iff j.val, ← h4, List.mem_map]
    exact ⟨fun hp => ⟨p, hp, rfl⟩, fun ⟨q, hq, e⟩ => Fin.ext e ▸ hq⟩
  refine ⟨_, ps, by unfold sampleIv; rw [ht]; dsimp only; rw [h.sampleIvLoop_eq op iv noise ps h1 hn hm], h4, fun j => ?_⟩
  refine h.steps_solve hl (fun j x y hxy => ?_) _ j
  cases hi : iv j.val with
  | none => simp only; rw [h.sum_local j x y hxy]
  | some d =>
    cases d with
    | perfect m => rfl
    | soft f =>
      simp only
      congr 1
      exact List.map_congr_left fun p hp => hxy p ((hm j p).1 hp)

end

/-! ## Normal densities -/

theorem exp_normLogpdf {v : ℝ} (hv : 0 < v) (m y : ℝ) :
    Real.exp (normLogpdf (y - m) √v) = gaussianPDFReal m v.toNNReal y := by
  unfold normLogpdf gaussianPDFReal
  have h2 : (0:ℝ) < 2 * Real.pi := by positivity
  have hs : 0 < √v := Real.sqrt_pos.2 hv
  rw [Real.coe_toNNReal _ hv.le, Real.exp_sub, Real.exp_sub, Real.exp_log hs, ← Real.log_sqrt h2.le,
    Real.exp_log (Real.sqrt_pos.2 h2), Real.sqrt_mul h2.le, div_pow, Real.sq_sqrt hv.le]
  rw [div_div, div_eq_inv_mul]
  congr 2
  rw [neg_div, div_div, mul_comm v 2]

theorem gaussian_logDensity {v : ℝ} (hv : 0 < v) (m : ℝ) :
    gaussianReal m v.toNNReal = (volume : Measure ℝ).withDensity fun y => ENNReal.ofReal (Real.exp (normLogpdf (y - m) √v)) := by
  have : v.toNNReal ≠ 0 := by simpa using hv
  rw [gaussianReal_of_var_ne_zero _ this]
  congr 1
  funext y
  rw [exp_normLogpdf hv, gaussianPDF]

theorem measurable_normLogpdf (s : ℝ) : Measurable fun x => normLogpdf x s := by
  unfold normLogpdf
  fun_prop

theorem ofReal_exp_sum {ι : Type} (s : Finset ι) (f : ι → ℝ) :
    ENNReal.ofReal (Real.exp (∑ j ∈ s, f j)) = ∏ j ∈ s, ENNReal.ofReal (Real.exp (f j)) := by
  rw [Real.exp_sum, ENNReal.ofReal_prod_of_nonneg fun _ _ => (Real.exp_pos _).le]

end Model.Gauss
