import Verif.Spec.GGM
import Verif.Proof.GaussMoments
import Verif.Proof.UG

/-! # `GGM` -/

namespace Spec

open Matrix Relation

variable {ι : Type} [Fintype ι] [DecidableEq ι]

theorem residual_dot {S : Matrix ι ι ℝ} {i : ι} {C : Set ι} {u y : ι → ℝ} (hu : Residual S i C u) (hy : ∀ c ∈ C, y c = 0) :
    u ⬝ᵥ y = y i := by
  rw [dotProduct, Finset.sum_eq_single i, hu.self, one_mul]
  · intro a _ ha
    by_cases haC : a ∈ C
    · rw [hy a haC, mul_zero]
    · rw [hu.support a ha haC, zero_mul]
  · simp

/-- Variables that are separated in the graph of the precision matrix have partial correlation zero. -/
theorem partialCorr_usep {P : Matrix ι ι ℝ} (hP : P.PosDef) {i j : ι} {C : Set ι} (hij : i ≠ j) (hiC : i ∉ C)
    (hd : USep (fun a b => a ≠ b ∧ P a b ≠ 0) {i} {j} C) {ρ : ℝ} (hρ : PartialCorr P⁻¹ i j C ρ) : ρ = 0 := by
  classical
  obtain ⟨u, w, hu, hw, -, -, rfl⟩ := hρ
  set S := P⁻¹ with hS
  suffices h : lcov S u w = 0 by rw [h, zero_div]
  have hdet : IsUnit P.det := (Matrix.isUnit_iff_isUnit_det _).1 hP.isUnit
  let x : ι → ℝ := lcov S u u • w - lcov S u w • u
  let y : ι → ℝ := S *ᵥ x
  have hx : P *ᵥ y = x := by simp only [y, hS, mulVec_mulVec, mul_nonsing_inv _ hdet, one_mulVec]
  have hyC : ∀ c ∈ C, y c = 0 := by
    intro c hc
    have h1 := hu.uncorrelated c hc
    have h2 := hw.uncorrelated c hc
    rw [lcov_single] at h1 h2
    simp [y, x, mulVec_sub, mulVec_smul, h1, h2]
  have hyi : y i = 0 := by
    have : u ⬝ᵥ y = lcov S u u * lcov S u w - lcov S u w * lcov S u u := by
      simp only [y, x, mulVec_sub, mulVec_smul, dotProduct_sub, dotProduct_smul, smul_eq_mul]
      rfl
    rw [← residual_dot hu hyC, this]; ring
  rw [usep_iff (by simpa using hiC)] at hd
  have hsep := hd i rfl j rfl
  let R : ι → ι → Prop := fun a b => (a ≠ b ∧ P a b ≠ 0) ∧ b ∉ C
  let yM : ι → ℝ := fun a => if ReflTransGen R i a then y a else 0
  have hyM : ∀ a, ReflTransGen R i a → (P *ᵥ yM) a = x a := fun a ha => by
    rw [← hx]
    refine Finset.sum_congr rfl fun b _ => ?_
    by_cases hb : ReflTransGen R i b
    · simp [yM, hb]
    · simp only [yM, if_neg hb, mul_zero]
      by_cases hab : a = b
      · exact absurd (hab ▸ ha) hb
      by_cases hbC : b ∈ C
      · rw [hyC b hbC, mul_zero]
      · by_cases hp : P a b = 0
        · rw [hp, zero_mul]
        · exact absurd (ha.tail ⟨⟨hab, hp⟩, hbC⟩) hb
  have hq : yM ⬝ᵥ (P *ᵥ yM) = 0 := by
    refine Finset.sum_eq_zero fun a _ => ?_
    by_cases ha : ReflTransGen R i a
    · rw [hyM a ha]
      simp only [yM, if_pos ha]
      by_cases hai : a = i
      · rw [hai, hyi, zero_mul]
      by_cases haC : a ∈ C
      · rw [hyC a haC, zero_mul]
      by_cases haj : a = j
      · exact absurd (haj ▸ ha) hsep
      · simp [x, hu.support a hai haC, hw.support a haj haC]
    · simp [yM, if_neg ha]
  have hy0 : yM = 0 := by
    by_contra hne
    exact (hP.dotProduct_mulVec_pos hne).ne' (by simpa using hq)
  have hxi : x i = 0 := by
    rw [← hyM i .refl, hy0, mulVec_zero]
    rfl
  have : x i = - lcov S u w := by
    simp [x, hu.self, hw.support i hij hiC]
  linarith

/-- If the partial correlation given all other variables is zero, so is the entry of the precision matrix. -/
theorem partialCorr_rest {P : Matrix ι ι ℝ} (hP : P.PosDef) {i j : ι} (hij : i ≠ j)
    (hρ : PartialCorr P⁻¹ i j {a | a ≠ i ∧ a ≠ j} 0) : P i j = 0 := by
  obtain ⟨u, w, hu, hw, h1, h2, h3⟩ := hρ
  set S := P⁻¹ with hS
  have hdet : IsUnit P.det := (Matrix.isUnit_iff_isUnit_det _).1 hP.isUnit
  have h0 : lcov S u w = 0 := by
    have := mul_pos (Real.sqrt_pos.2 h1) (Real.sqrt_pos.2 h2)
    rcases div_eq_zero_iff.1 h3.symm with h | h
    · exact h
    · exact absurd h this.ne'
  let y : ι → ℝ := S *ᵥ w
  have hw' : P *ᵥ y = w := by simp only [y, hS, mulVec_mulVec, mul_nonsing_inv _ hdet, one_mulVec]
  have hyC : ∀ c, c ≠ i → c ≠ j → y c = 0 := fun c h h' => by
    have := hw.uncorrelated c ⟨h, h'⟩
    rwa [lcov_single] at this
  have hyi : y i = 0 := by
    rw [← residual_dot hu fun c hc => hyC c hc.1 hc.2]
    exact h0
  have hy : y = Pi.single j (y j) := by
    funext a
    by_cases haj : a = j
    · subst haj; simp
    · rw [Pi.single_eq_of_ne haj]
      by_cases hai : a = i
      · rw [hai, hyi]
      · exact hyC a hai haj
  have key : ∀ a, P a j * y j = w a := fun a => by
    rw [← hw', hy]
    simp
  have hj := key j
  rw [hw.self] at hj
  have hi := key i
  rw [hw.support i hij (by simp)] at hi
  rcases mul_eq_zero.1 hi with h | h
  · exact h
  · rw [h, mul_zero] at hj
    exact absurd hj zero_ne_one

end Spec

namespace Model.GGM

open Matrix Spec

variable {n : ℕ}

theorem new_drawn (on : SetOrder Unit ℕ) (oe : SetOrder Unit (Finset ℕ)) (ou : SetOrder Unit ℕ) {P : Matrix (Fin n) (Fin n) ℝ}
    (hP : P.transpose = P) (m : Option (Fin n → ℝ)) : (new on oe ou P m).Drawn ∧ (new on oe ou P m).Current := by
  have hsym : ∀ a b, P a b = P b a := fun a b => congrFun (congrFun hP b) a
  have he : ∀ a b : Fin n, entry P a b = P a b := fun a b => by simp [entry, Gauss.at?]
  have hpairs : ∀ i j, ((i, j) ∈ DAG.pairs (on.ord () (Finset.range n)) ∨ (j, i) ∈ DAG.pairs (on.ord () (Finset.range n))) ↔
      i < n ∧ j < n ∧ i ≠ j := fun i j => by
    rw [mem_pairs (on.nodup _ _), on.mem_iff, on.mem_iff, Finset.mem_range, Finset.mem_range]
  have hedge : ∀ a b : Fin n, (new on oe ou P m).graph.hasEdge a b = true ↔ a ≠ b ∧ P a b ≠ 0 := fun a b => by
    simp only [new, UG.new_hasEdge, List.mem_toFinset, List.mem_filter, decide_eq_true_eq, he]
    constructor
    · rintro ⟨h0, h | h⟩
      · exact ⟨fun e => h0 (congrArg _ e), h.2⟩
      · exact ⟨fun e => h0 (congrArg _ e), by rw [hsym]; exact h.2⟩
    · rintro ⟨h0, h⟩
      have h0' : a.val ≠ b.val := fun e => h0 (Fin.ext e)
      refine ⟨h0', ?_⟩
      rcases (hpairs a b).2 ⟨a.2, b.2, h0'⟩ with h' | h'
      · exact Or.inl ⟨h', h⟩
      · exact Or.inr ⟨h', by rw [hsym]; exact h⟩
  refine ⟨⟨fun v => ?_, hedge⟩, ⟨by simp [new], by simp [new]⟩⟩
  obtain ⟨h1, -, h3⟩ := UG.new_spec oe ou (Finset.range n)
    (((DAG.pairs (on.ord () (Finset.range n))).filter fun e => entry P e.1 e.2 ≠ 0).toFinset)
  refine (h3 v).trans ?_
  rw [Finset.mem_range, or_iff_left_iff_imp]
  rintro ⟨e, he', hv⟩
  rw [UG.new_edges] at he'
  simp only [Finset.mem_image, Finset.mem_filter, List.mem_toFinset, List.mem_filter] at he'
  obtain ⟨⟨p, q⟩, ⟨⟨h, -⟩, -⟩, rfl⟩ := he'
  have := (hpairs p q).1 (Or.inl h)
  simp only [Finset.mem_insert, Finset.mem_singleton] at hv
  rcases hv with rfl | rfl
  · exact this.1
  · exact this.2.1

theorem Current.readCovariance {G : GGM n} (h : G.Current) (hP : G.precision.PosDef) :
    ∃ G1, G.readCovariance = .ok (G.precision⁻¹, G1) ∧ G1 = { G with covariance := some G.precision⁻¹ } := by
  cases hc : G.covariance with
  | some S =>
      have := h.covariance S hc
      subst this
      refine ⟨G, by simp only [GGM.readCovariance, hc], ?_⟩
      rw [← hc]
  | none => exact ⟨_, by simp only [GGM.readCovariance, hc, Gauss.invOrRaise_posDef hP], rfl⟩

theorem Current.readCorrelation {G : GGM n} (h : G.Current) (hP : G.precision.PosDef) :
    ∃ R G1, G.readCorrelation = .ok (R, G1) ∧
      (∀ a b, R a b = G.precision⁻¹ a b / (√(G.precision⁻¹ a a) * √(G.precision⁻¹ b b))) ∧ G1.Current ∧ G1.graph = G.graph ∧
      G1.precision = G.precision ∧ G1.means = G.means := by
  cases hc : G.correlation with
  | some R => exact ⟨R, G, by simp only [GGM.readCorrelation, hc], h.correlation R hc, h, rfl, rfl, rfl⟩
  | none =>
      obtain ⟨G1, h1, rfl⟩ := h.readCovariance hP
      have hR : ∀ a b, G.precision⁻¹ a b / √(G.precision⁻¹ b b) / √(G.precision⁻¹ a a) =
          G.precision⁻¹ a b / (√(G.precision⁻¹ a a) * √(G.precision⁻¹ b b)) := fun a b => by rw [div_div, mul_comm]
      refine ⟨Matrix.of fun a b => G.precision⁻¹ a b / √(G.precision⁻¹ b b) / √(G.precision⁻¹ a a),
        { G with
          covariance := some G.precision⁻¹
          correlation := some (Matrix.of fun a b => G.precision⁻¹ a b / √(G.precision⁻¹ b b) / √(G.precision⁻¹ a a)) },
        by simp only [GGM.readCorrelation, hc, h1], hR, ⟨fun S hS => ?_, fun R hR' a b => ?_⟩, rfl, rfl, rfl⟩
      · simp only [Option.some.injEq] at hS
        exact hS.symm
      · simp only [Option.some.injEq] at hR'
        rw [← hR']
        exact hR a b

/-- `partial_correlation` returns the partial correlation. -/
theorem partialCorrelation_spec {G : GGM n} (hP : G.precision.PosDef) (hc : G.Current) (oc : SetOrder Unit ℕ) {i j : Fin n}
    {C : Finset (Fin n)} (hij : i ≠ j) (hi : i ∉ C) (hj : j ∉ C) :
    ∃ ρ G1, G.partialCorrelation oc i j (C.image Fin.val) = .ok (ρ, G1) ∧ PartialCorr G.precision⁻¹ i j C ρ ∧
      G1.Current ∧ G1.graph = G.graph ∧ G1.precision = G.precision ∧ G1.means = G.means := by
  obtain ⟨R, G1, h1, h2, h3⟩ := hc.readCorrelation hP
  have hS : G.precision⁻¹.PosDef := hP.inv
  have hcard : (C.image Fin.val).card = C.card := Finset.card_image_of_injective _ Fin.val_injective
  by_cases h0 : C.card = 0
  · have hC : C = ∅ := Finset.card_eq_zero.1 h0
    subst hC
    refine ⟨R i j, G1, ?_, ?_, h3⟩
    · simp only [GGM.partialCorrelation, h1, hcard, if_pos h0, Gauss.at?_val]
    · rw [h2]
      simpa using partialCorr_empty hS i j
  · set L := oc.ord () (C.image Fin.val) with hL
    have hmem : ∀ v, v ∈ L ↔ ∃ c ∈ C, c.val = v := fun v => by rw [hL, oc.mem_iff]; simp
    have hlt : ∀ a, Matrix.vecCons i.val (Matrix.vecCons j.val L.get) a < n := by
      intro a
      refine Fin.cases ?_ (fun a => ?_) a
      · exact i.isLt
      · refine Fin.cases ?_ (fun a => ?_) a
        · exact j.isLt
        · obtain ⟨c, -, hcv⟩ := (hmem (L.get a)).1 (L.get_mem a)
          simp only [Matrix.cons_val_succ]
          rw [← hcv]; exact c.isLt
    let l : Fin (L.length + 1 + 1) → Fin n := fun a => ⟨_, hlt a⟩
    have hl : Gauss.positions n (Matrix.vecCons i.val (Matrix.vecCons j.val L.get)) = some l := by
      unfold Gauss.positions
      rw [dif_pos hlt]
    have hl0 : l 0 = i := rfl
    have hl1 : l 1 = j := rfl
    have hl2 : ∀ a, (l (Fin.succ (Fin.succ a))).val = L.get a := fun a => rfl
    have hlC : ∀ a : Fin L.length, l (Fin.succ (Fin.succ a)) ∈ C := by
      intro a
      obtain ⟨c, h, hcv⟩ := (hmem (L.get a)).1 (L.get_mem a)
      have : l (Fin.succ (Fin.succ a)) = c := Fin.ext (by rw [hl2, hcv])
      rw [this]; exact h
    have hinj : Function.Injective l := by
      have hn : L.Nodup := oc.nodup _ _
      have key : ∀ a : Fin (L.length + 1 + 1), a = 0 ∨ a = 1 ∨ ∃ b : Fin L.length, a = b.succ.succ := by
        intro a
        refine Fin.cases (Or.inl rfl) (fun a => ?_) a
        refine Fin.cases (Or.inr (Or.inl rfl)) (fun a => Or.inr (Or.inr ⟨a, rfl⟩)) a
      intro a b hab
      rcases key a with rfl | rfl | ⟨a, rfl⟩ <;> rcases key b with rfl | rfl | ⟨b, rfl⟩
      · rfl
      · exact absurd hab hij
      · exact absurd (hlC b) (by rw [← hab]; exact hi)
      · exact absurd hab.symm hij
      · rfl
      · exact absurd (hlC b) (by rw [← hab]; exact hj)
      · exact absurd (hlC a) (by rw [hab]; exact hi)
      · exact absurd (hlC a) (by rw [hab]; exact hj)
      · have := congrArg Fin.val hab
        rw [hl2, hl2] at this
        rw [List.nodup_iff_injective_get.1 hn this]
    obtain ⟨g1, g2⟩ := partialCorr_inverse hS hinj (p := 0) (q := 1) (by simp) (R := R.submatrix l l) (fun a b => h2 _ _)
    refine ⟨-(R.submatrix l l)⁻¹ 0 1 / √((R.submatrix l l)⁻¹ 0 0 * (R.submatrix l l)⁻¹ 1 1), G1, ?_, ?_, h3⟩
    · simp only [GGM.partialCorrelation, h1, hcard, if_neg h0]
      have hl' : Gauss.positions n (Matrix.vecCons i.val (Matrix.vecCons j.val (oc.ord () (C.image Fin.val)).get)) = some l := hl
      rw [hl']
      simp only
      rw [Gauss.invOrRaise_posDef g1]
    · rw [hl0, hl1] at g2
      convert g2 using 1
      ext c
      simp only [Finset.mem_coe, Set.mem_ofPred_eq]
      constructor
      · intro h
        obtain ⟨a, ha⟩ := List.get_of_mem ((hmem c.val).2 ⟨c, h, rfl⟩)
        refine ⟨a.succ.succ, Fin.succ_ne_zero _, ?_, Fin.ext (by rw [hl2, ha])⟩
        intro h1
        have : a.succ = 0 := Fin.succ_injective _ h1
        exact Fin.succ_ne_zero _ this
      · rintro ⟨a, ha0, ha1, rfl⟩
        revert ha0 ha1
        refine Fin.cases (fun h => absurd rfl h) (fun a => ?_) a
        refine Fin.cases (fun _ h => absurd rfl h) (fun a _ _ => hlC a) a

/-- The precision matrix of structural equations. -/
theorem fromAdjacency_precision (on : SetOrder Unit ℕ) (oe : SetOrder Unit (Finset ℕ)) (ou : SetOrder Unit ℕ)
    (A : Matrix (Fin n) (Fin n) ℝ) (v m : Option (Fin n → ℝ)) :
    (fromAdjacency on oe ou A v m).precision =
      (1 - A) * Matrix.diagonal (fun i => (v.getD (fun _ => 1) i)⁻¹) * (1 - A).transpose := by
  rw [fromAdjacency, new]
  dsimp only
  split_ifs with h
  · simp only [h, inv_one, Matrix.diagonal_one, Matrix.mul_one]
  · rfl

theorem fromAdjacency_entry (A : Matrix (Fin n) (Fin n) ℝ) (v : Fin n → ℝ) (i j : Fin n) :
    ((1 - A) * Matrix.diagonal (fun i => (v i)⁻¹) * (1 - A).transpose) i j = ∑ k, (1 - A) i k * (v k)⁻¹ * (1 - A) j k := by
  rw [Matrix.mul_apply]
  simp [Matrix.mul_diagonal]

end Model.GGM
