import Verif.Model.GaussFit
import Verif.Spec.Likelihood
import Verif.Spec.Numbered
import Verif.Proof.GaussFactor

/-! # `fit_mle` -/

namespace Model.Gauss

set_option linter.unusedSectionVars false

open Spec Matrix

variable {n k r : ℕ}

/-! ## Least squares -/

theorem transpose_mul_self_zero {ι κ : Type} [Fintype ι] [Fintype κ] (Z : Matrix ι κ ℝ) {w : κ → ℝ}
    (h : (Z.transpose * Z) *ᵥ w = 0) : Z *ᵥ w = 0 := by
  have h1 : (Z *ᵥ w) ⬝ᵥ (Z *ᵥ w) = 0 := by
    rw [← Matrix.mulVec_mulVec] at h
    rw [Matrix.dotProduct_mulVec, ← Matrix.mulVec_transpose, h, zero_dotProduct]
  exact dotProduct_self_eq_zero.1 h1

theorem normal_solution {ι κ : Type} [Fintype ι] [Fintype κ] (Z : Matrix ι κ ℝ) (y : ι → ℝ) {β : κ → ℝ}
    (h : (Z.transpose * Z).transpose *ᵥ ((Z.transpose * Z) *ᵥ β - Z.transpose *ᵥ y) = 0) :
    Z.transpose *ᵥ (Z *ᵥ β - y) = 0 := by
  have e : (Z.transpose * Z) *ᵥ β - Z.transpose *ᵥ y = Z.transpose *ᵥ (Z *ᵥ β - y) := by
    rw [Matrix.mulVec_sub, Matrix.mulVec_mulVec]
  rw [e, Matrix.transpose_mul, Matrix.transpose_transpose] at h
  have h1 := transpose_mul_self_zero Z h
  set u := Z *ᵥ β - y
  have h2 : (Z.transpose *ᵥ u) ⬝ᵥ (Z.transpose *ᵥ u) = 0 := by
    rw [Matrix.dotProduct_mulVec, ← Matrix.mulVec_transpose, Matrix.transpose_transpose, h1, zero_dotProduct]
  exact dotProduct_self_eq_zero.1 h2

theorem least_squares {ι κ : Type} [Fintype ι] [Fintype κ] (Z : Matrix ι κ ℝ) (y : ι → ℝ) {β : κ → ℝ}
    (h : Z.transpose *ᵥ (Z *ᵥ β - y) = 0) (γ : κ → ℝ) :
    ∑ a, (y a - (Z *ᵥ β) a) ^ 2 ≤ ∑ a, (y a - (Z *ᵥ γ) a) ^ 2 := by
  have h0 : (Z *ᵥ β - y) ⬝ᵥ (Z *ᵥ (β - γ)) = 0 := by
    rw [Matrix.dotProduct_mulVec, ← Matrix.mulVec_transpose, h, zero_dotProduct]
  have h1 : ∑ a, (y a - (Z *ᵥ γ) a) ^ 2 = ∑ a, (y a - (Z *ᵥ β) a) ^ 2 + ∑ a, ((Z *ᵥ (β - γ)) a) ^ 2
      - 2 * ((Z *ᵥ β - y) ⬝ᵥ (Z *ᵥ (β - γ))) := by
    simp only [dotProduct, Finset.mul_sum]
    rw [← Finset.sum_add_distrib, ← Finset.sum_sub_distrib]
    refine Finset.sum_congr rfl fun a _ => ?_
    rw [Matrix.mulVec_sub, Pi.sub_apply, Pi.sub_apply]
    ring
  rw [h1, h0, mul_zero, sub_zero]
  exact le_add_of_nonneg_right (Finset.sum_nonneg fun a _ => sq_nonneg _)

theorem residual_variance {ι κ : Type} [Fintype ι] [Fintype κ] (Z : Matrix ι κ ℝ) (y : ι → ℝ) {β : κ → ℝ}
    (h : Z.transpose *ᵥ (Z *ᵥ β - y) = 0) :
    y ⬝ᵥ y - β ⬝ᵥ (Z.transpose * Z) *ᵥ β = ∑ a, (y a - (Z *ᵥ β) a) ^ 2 := by
  have h0 : (Z *ᵥ β - y) ⬝ᵥ (Z *ᵥ β) = 0 := by
    rw [Matrix.dotProduct_mulVec, ← Matrix.mulVec_transpose, h, zero_dotProduct]
  have h1 : β ⬝ᵥ (Z.transpose * Z) *ᵥ β = (Z *ᵥ β) ⬝ᵥ (Z *ᵥ β) := by
    rw [← Matrix.mulVec_mulVec, Matrix.dotProduct_mulVec, ← Matrix.mulVec_transpose, Matrix.transpose_transpose]
  have h2 : ∑ a, (y a - (Z *ᵥ β) a) ^ 2 = y ⬝ᵥ y - (Z *ᵥ β) ⬝ᵥ (Z *ᵥ β) + 2 * ((Z *ᵥ β - y) ⬝ᵥ (Z *ᵥ β)) := by
    simp only [dotProduct, Finset.mul_sum]
    rw [← Finset.sum_sub_distrib, ← Finset.sum_add_distrib]
    refine Finset.sum_congr rfl fun a _ => ?_
    rw [Pi.sub_apply]
    ring
  rw [h1, h2, h0]; ring

/-! ## One node -/

/-- Residual sum of squares of variable `j` for coefficients `w` and intercept `b0`. -/
def rss (x : Matrix (Fin r) (Fin n) ℝ) (j : Fin n) (w : Fin n → ℝ) (b0 : ℝ) : ℝ := ∑ a, (x a j - (∑ i, w i * x a i + b0)) ^ 2

/-- The design matrix. -/
def design (x : Matrix (Fin r) (Fin n) ℝ) (ps : List (Fin n)) : Matrix (Fin r) (Fin (ps.length + 1)) ℝ :=
  (extendedSamples x).submatrix id (Fin.snoc (fun a => some (ps.get a)) none)

theorem design_mulVec (x : Matrix (Fin r) (Fin n) ℝ) {ps : List (Fin n)} (hps : ps.Nodup) {w : Fin n → ℝ} (hw : ∀ i, w i ≠ 0 → i ∈ ps)
    {b0 : ℝ} {γ : Fin (ps.length + 1) → ℝ} (hγ : ∀ a : Fin ps.length, γ a.castSucc = w (ps.get a)) (hb : γ (Fin.last _) = b0) (a : Fin r) :
    (design x ps *ᵥ γ) a = ∑ i, w i * x a i + b0 := by
  simp only [Matrix.mulVec, dotProduct]
  rw [Fin.sum_univ_castSucc]
  congr 1
  · have e1 : ∀ c : Fin ps.length, design x ps a c.castSucc * γ c.castSucc = w (ps.get c) * x a (ps.get c) := by
      intro c
      rw [hγ, mul_comm]
      congr 1
      simp [design, extendedSamples]
    simp only [e1]
    have e2 : ∑ c : Fin ps.length, w (ps.get c) * x a (ps.get c) = (ps.map fun i => w i * x a i).sum := by
      exact Fin.sum_univ_fun_getElem ps fun i => w i * x a i
    rw [e2, ← List.sum_toFinset _ hps]
    refine Finset.sum_subset (Finset.subset_univ _) fun i _ hi => ?_
    have : w i = 0 := by
      by_contra hc
      exact hi (by rw [List.mem_toFinset]; exact hw i hc)
    rw [this, zero_mul]
  · rw [hb]
    simp [design, extendedSamples]

theorem linearRegressionMle_spec (lstsq : Lstsq) (x : Matrix (Fin r) (Fin n) ℝ) {ps : List (Fin n)} (hps : ps.Nodup) (j : Fin n)
    {w : Fin n → ℝ} (hw : ∀ i, w i ≠ 0 → i ∈ ps)
    (hc : ∀ a, w (ps.get a) = (linearRegressionMle lstsq (extendedCov x) ps j).1 a) :
    (∀ w' b', (∀ i, w' i ≠ 0 → i ∈ ps) → rss x j w (linearRegressionMle lstsq (extendedCov x) ps j).2.1 ≤ rss x j w' b') ∧
      (linearRegressionMle lstsq (extendedCov x) ps j).2.2 = rss x j w (linearRegressionMle lstsq (extendedCov x) ps j).2.1 := by
  set Z := design x ps with hZ
  set y : Fin r → ℝ := fun a => x a j with hy
  let ii : Fin (ps.length + 1) → Option (Fin n) := Fin.snoc (fun a => some (ps.get a)) none
  have hm : (extendedCov x).submatrix ii ii = Z.transpose * Z := by
    ext a b; rfl
  have hcol : (fun a => extendedCov x (ii a) (some j)) = Z.transpose *ᵥ y := by
    funext a; rfl
  have hvar : extendedCov x (some j) (some j) = y ⬝ᵥ y := rfl
  set β := lstsq.solve ((extendedCov x).submatrix ii ii) fun a => extendedCov x (ii a) (some j) with hβ
  have hn := lstsq.normal ((extendedCov x).submatrix ii ii) fun a => extendedCov x (ii a) (some j)
  rw [← hβ, hm, hcol] at hn
  have hz := normal_solution Z y hn
  have e1 : (linearRegressionMle lstsq (extendedCov x) ps j).2.1 = β (Fin.last _) := rfl
  have e2 : (linearRegressionMle lstsq (extendedCov x) ps j).2.2 = y ⬝ᵥ y - β ⬝ᵥ (Z.transpose * Z) *ᵥ β := by
    rw [← hm]; rfl
  have e3 : ∀ a, (linearRegressionMle lstsq (extendedCov x) ps j).1 a = β a.castSucc := fun a => rfl
  have h1 : rss x j w (β (Fin.last _)) = ∑ a, (y a - (Z *ᵥ β) a) ^ 2 := by
    unfold rss
    refine Finset.sum_congr rfl fun a _ => ?_
    rw [hZ, design_mulVec x hps hw (fun c => by rw [hc c, e3]) rfl]
  refine ⟨fun w' b' hw' => ?_, ?_⟩
  · rw [e1, h1]
    have := least_squares Z y hz (Fin.snoc (fun a => w' (ps.get a)) b')
    refine this.trans (le_of_eq ?_)
    unfold rss
    refine Finset.sum_congr rfl fun a _ => ?_
    rw [hZ, design_mulVec x hps hw' (b0 := b') (fun c => by simp) (by simp)]
  · rw [e1, e2, h1, residual_variance Z y hz]

/-! ## The loop -/

theorem putColumn_spec (A : Matrix (Fin n) (Fin n) ℝ) {ps : List (Fin n)} (hps : ps.Nodup) (c : Fin n) (q : Fin ps.length → ℝ) :
    (∀ a, putColumn A ps c q (ps.get a) c = q a) ∧ ∀ i j, j ≠ c ∨ i ∉ ps → putColumn A ps c q i j = A i j := by
  have key : ∀ (l : List (Fin ps.length)) (A : Matrix (Fin n) (Fin n) ℝ), l.Nodup →
      (∀ a ∈ l, l.foldl (fun A a => setEntry A (ps.get a) c (q a)) A (ps.get a) c = q a) ∧
      ∀ i j, (j ≠ c ∨ ∀ a ∈ l, ps.get a ≠ i) → l.foldl (fun A a => setEntry A (ps.get a) c (q a)) A i j = A i j := by
    intro l
    induction l with
    | nil => exact fun A _ => ⟨by simp, by simp⟩
    | cons a l ih =>
      intro A hl
      rw [List.nodup_cons] at hl
      obtain ⟨h1, h2⟩ := ih (setEntry A (ps.get a) c (q a)) hl.2
      simp only [List.foldl_cons]
      refine ⟨fun b hb => ?_, fun i j hij => ?_⟩
      · rcases List.mem_cons.1 hb with rfl | hb
        · rw [h2]
          · simp [setEntry]
          · refine Or.inr fun a' ha' e => ?_
            have := (List.nodup_iff_injective_get.1 hps) e
            subst this
            exact hl.1 ha'
        · exact h1 b hb
      · rw [h2 i j (hij.imp_right fun h a' ha' => h a' (List.mem_cons_of_mem _ ha'))]
        have : ¬ (i = ps.get a ∧ j = c) := by
          rintro ⟨rfl, rfl⟩
          rcases hij with h | h
          · exact h rfl
          · exact h a List.mem_cons_self rfl
        unfold setEntry
        rw [Matrix.of_apply, if_neg this]
  obtain ⟨h1, h2⟩ := key (List.finRange ps.length) A (List.nodup_finRange _)
  refine ⟨fun a => h1 a (List.mem_finRange _), fun i j hij => h2 i j (hij.imp_right fun h a _ e => ?_)⟩
  exact h (e ▸ List.get_mem _ _)

/-- What the loop leaves in the column of a node. -/
structure NodeFit (D : DAG ℕ) (x : Matrix (Fin r) (Fin n) ℝ) (w : Fin n → ℝ) (b v : ℝ) (j : Fin n) : Prop where
  support : ∀ i, w i ≠ 0 → (i.val, j.val) ∈ D.arcs
  min : ∀ w' b', (∀ i : Fin n, w' i ≠ 0 → (i.val, j.val) ∈ D.arcs) → rss x j w b ≤ rss x j w' b'
  var : v = rss x j w b

theorem fitLoop_spec {lstsq : Lstsq} {op : SetOrder ℕ ℕ} {D : DAG ℕ} (hD : D.Sortable) (hn : ∀ v, v ∈ D.nodes → v < n)
    (x : Matrix (Fin r) (Fin n) ℝ) (t : List (Fin n)) (ht : t.Nodup)
    (s : Matrix (Fin n) (Fin n) ℝ × (Fin n → ℝ) × (Fin n → ℝ)) (hs : ∀ j ∈ t, ∀ i, s.1 i j = 0) :
    ∃ s', fitLoop lstsq op D x (t.map Fin.val) s = .ok s' ∧
      (∀ j ∈ t, NodeFit D x (fun i => s'.1 i j) (s'.2.1 j) (s'.2.2 j) j) ∧
      ∀ j, j ∉ t → (∀ i, s'.1 i j = s.1 i j) ∧ s'.2.1 j = s.2.1 j ∧ s'.2.2 j = s.2.2 j := by
  induction t generalizing s with
  | nil => exact ⟨s, rfl, by simp, by simp⟩
  | cons c t ih =>
    rw [List.nodup_cons] at ht
    have hpos : ∃ ps : List (Fin n), (op.ord c.val (D.parents c.val)).mapM (at? n) = some ps ∧
        ps.map Fin.val = op.ord c.val (D.parents c.val) := by
      have hlt : ∀ v ∈ op.ord c.val (D.parents c.val), v < n := fun v hv =>
        hn v (hD.fst_mem _ _ ((hD.parents_iff _ _).1 ((op.mem_iff _ _ _).1 hv)))
      generalize op.ord c.val (D.parents c.val) = l at hlt
      induction l with
      | nil => exact ⟨[], rfl, rfl⟩
      | cons v l ih =>
        obtain ⟨ps, g1, g2⟩ := ih fun w hw => hlt w (List.mem_cons_of_mem _ hw)
        have hv := hlt v List.mem_cons_self
        refine ⟨⟨v, hv⟩ :: ps, ?_, by simp [g2]⟩
        rw [List.mapM_cons, g1]
        simp [at?, hv]
    obtain ⟨ps, g1, g2⟩ := hpos
    have hpn : ps.Nodup := by
      have := op.nodup c.val (D.parents c.val)
      rw [← g2] at this
      exact List.Nodup.of_map _ this
    have hpm : ∀ i : Fin n, i ∈ ps ↔ (i.val, c.val) ∈ D.arcs := by
      intro i
      rw [← hD.parents_iff, ← op.mem_iff c.val, ← g2, List.mem_map]
      exact ⟨fun h => ⟨i, h, rfl⟩, fun ⟨q, hq, e⟩ => Fin.ext e ▸ hq⟩
    rw [List.map_cons, fitLoop, g1, at?_val]
    dsimp only
    set q := linearRegressionMle lstsq (extendedCov x) ps c with hq
    obtain ⟨k1, k2⟩ := putColumn_spec s.1 hpn c q.1
    obtain ⟨s', h1, h2, h3⟩ := ih ht.2 (putColumn s.1 ps c q.1, Function.update s.2.1 c q.2.1, Function.update s.2.2 c q.2.2) (by
      intro j hj i
      have hjc : j ≠ c := fun e => ht.1 (e ▸ hj)
      change putColumn s.1 ps c q.1 i j = 0
      rw [k2 i j (Or.inl hjc), hs j (List.mem_cons_of_mem _ hj)])
    refine ⟨s', h1, fun j hj => ?_, fun j hj => ?_⟩
    · rcases List.mem_cons.1 hj with rfl | hj
      · obtain ⟨h4, h5, h6⟩ := h3 j ht.1
        dsimp only at h4 h5 h6
        rw [Function.update_self] at h5 h6
        have hw : ∀ i, s'.1 i j ≠ 0 → i ∈ ps := by
          intro i hi
          by_contra hip
          rw [h4, k2 i j (Or.inr hip), hs j List.mem_cons_self] at hi
          exact hi rfl
        obtain ⟨m1, m2⟩ := linearRegressionMle_spec lstsq x hpn j (w := fun i => s'.1 i j) hw fun a => by
          rw [h4, k1]
        rw [← hq, ← h5] at m1 m2
        exact ⟨fun i hi => (hpm i).1 (hw i hi), fun w' b' hw' => m1 w' b' fun i hi => (hpm i).2 (hw' i hi), by rw [h6, m2]⟩
      · exact h2 j hj
    · rw [List.mem_cons, not_or] at hj
      obtain ⟨h4, h5, h6⟩ := h3 j hj.2
      dsimp only at h4 h5 h6
      rw [Function.update_of_ne hj.1] at h5 h6
      exact ⟨fun i => by rw [h4, k2 i j (Or.inl hj.1)], h5, h6⟩

theorem fitMle_spec (lstsq : Lstsq) (od : SetOrder Unit ℕ) (op : SetOrder ℕ ℕ) (oa : SetOrder Bool (ℕ × ℕ)) {D : DAG ℕ}
    (hD : D.Sortable) (hn : ∀ v, v ∈ D.nodes ↔ v < n) (x : Matrix (Fin r) (Fin n) ℝ) :
    ∃ G : Gauss n ℝ, fitMle lstsq od op oa D x = .ok G ∧ G.Linked ∧ G.names = Fin.val ∧
      ∀ j, NodeFit D x (fun i => G.weight i j) (G.biases j) (G.variances j) j := by
  have hlt : ∀ v ∈ od.ord () D.nodes, v < n := fun v hv => (hn v).1 ((od.mem_iff _ _ _).1 hv)
  have hm : ((od.ord () D.nodes).pmap (fun v hv => (⟨v, hv⟩ : Fin n)) hlt).map Fin.val = od.ord () D.nodes := by
    rw [List.map_pmap]; simp
  have hnd : ((od.ord () D.nodes).pmap (fun v hv => (⟨v, hv⟩ : Fin n)) hlt).Nodup := by
    apply List.Nodup.of_map Fin.val
    rw [hm]; exact od.nodup _ _
  obtain ⟨⟨A, b, v⟩, h1, h2, -⟩ := fitLoop_spec (lstsq := lstsq) (op := op) hD (fun v hv => (hn v).1 hv) x _ hnd (0, 0, 0)
    (by intro j _ i; rfl)
  rw [hm] at h1
  obtain ⟨G, g1, g2, g3, g4, g5, g6, -⟩ := fromAmat_spec oa A b v
  refine ⟨G, ?_, g2, g3, fun j => ?_⟩
  · unfold fitMle
    rw [h1]; dsimp only
    rw [g1]
  · rw [g4, g5, g6]
    refine h2 j ?_
    rw [List.mem_pmap]
    exact ⟨j.val, (od.mem_iff _ _ _).2 ((hn _).2 j.2), rfl⟩

/-! ## The likelihood -/

open ProbabilityTheory

theorem log_gaussian {v : ℝ} (hv : 0 < v) (m y : ℝ) :
    Real.log (gaussianPDFReal m v.toNNReal y) = -(Real.log (2 * Real.pi * v) / 2) - (y - m) ^ 2 / (2 * v) := by
  unfold gaussianPDFReal
  have h2 : 0 < 2 * Real.pi * v := by positivity
  rw [Real.coe_toNNReal _ hv.le, Real.log_mul (by positivity) (Real.exp_pos _).ne', Real.log_exp, Real.log_inv, Real.log_sqrt h2.le]
  ring

theorem logLik_eq (A : Matrix (Fin n) (Fin n) ℝ) (b : Fin n → ℝ) {v : Fin n → ℝ} (hv : ∀ j, 0 < v j) (x : Matrix (Fin r) (Fin n) ℝ) :
    logLik A b v x = ∑ j, (-(r * (Real.log (2 * Real.pi * v j) / 2)) - rss x j (fun i => A i j) (b j) / (2 * v j)) := by
  unfold logLik
  rw [Finset.sum_comm]
  refine Finset.sum_congr rfl fun j _ => ?_
  simp only [log_gaussian (hv j), Finset.sum_sub_distrib, Finset.sum_const, Finset.card_univ, Fintype.card_fin, nsmul_eq_mul, rss,
    Finset.sum_div]
  ring

/-- One variance: `-(r/2) log v - s/(2v)` is largest at `v = s/r`. -/
theorem variance_max {s v N : ℝ} (hs : 0 < s) (hv : 0 < v) (hN : 0 < N) :
    -(N * (Real.log (2 * Real.pi * v) / 2)) - s / (2 * v) ≤ -(N * (Real.log (2 * Real.pi * (s / N)) / 2)) - s / (2 * (s / N)) := by
  have hp : (0:ℝ) < 2 * Real.pi := by positivity
  have hsN : 0 < s / N := by positivity
  rw [Real.log_mul hp.ne' hv.ne', Real.log_mul hp.ne' hsN.ne']
  have h1 := Real.log_le_sub_one_of_pos (x := s / N / v) (by positivity)
  rw [Real.log_div hsN.ne' hv.ne'] at h1
  have h2 : s / (2 * v) = N / 2 * (s / N / v) := by field_simp
  have h3 : s / (2 * (s / N)) = N / 2 := by field_simp
  rw [h2, h3]
  nlinarith

theorem logLik_mono {A A' : Matrix (Fin n) (Fin n) ℝ} {b b' v : Fin n → ℝ} (hv : ∀ j, 0 < v j) {x : Matrix (Fin r) (Fin n) ℝ}
    (h : ∀ j, rss x j (fun i => A i j) (b j) ≤ rss x j (fun i => A' i j) (b' j)) : logLik A' b' v x ≤ logLik A b v x := by
  rw [logLik_eq A' b' hv, logLik_eq A b hv]
  refine Finset.sum_le_sum fun j _ => ?_
  have := div_le_div_of_nonneg_right (h j) (mul_pos two_pos (hv j)).le
  linarith

end Model.Gauss
