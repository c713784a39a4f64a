import Verif.Proof.Adjust
import Verif.Props.GaussImap
import Verif.Props.GaussMore
import Verif.Props.GaussIv

/-! # C242: total effects from regressions -/

namespace Props

open Model Model.DAG Spec Relation

variable {n k : ℕ}

/-- C242, what an entry of `direct_effects()` says about interventions: if `sample_interventional_perfect` sets node `i` to two different
values, with the same noise elsewhere, the values of node `j` differ by the entry `i, j` times the difference (`i ≠ j`). -/
theorem C242_effect {K M : Type} [Field K] [DecidableEq K] [AddCommGroup M] [Module K M] {G : Gauss n K} (h : G.Plain)
    (o : SetOrder (Option ℕ) ℕ) (op : SetOrder ℕ ℕ) {i j : Fin n} (hij : i ≠ j) {e e' : Fin n → M} (he : ∀ a, a ≠ i → e' a = e a) :
    ∃ x x', G.samplePerfect o op (fun v => decide (v = i.val)) e = some (.ok x) ∧
      G.samplePerfect o op (fun v => decide (v = i.val)) e' = some (.ok x') ∧ x' i = e' i ∧ x i = e i ∧
      x' j - x j = G.directEffects i j • (x' i - x i) := by
  obtain ⟨x, h1, h2⟩ := h.samplePerfect_spec o op (fun v => decide (v = i.val)) e
  obtain ⟨x', h3, h4⟩ := h.samplePerfect_spec o op (fun v => decide (v = i.val)) e'
  set A : Matrix (Fin n) (Fin n) K := Matrix.of fun a b : Fin n => if decide (b.val = i.val) = true then 0 else G.weight a b with hAdef
  have hAi : ∀ a, A a i = 0 := fun a => by simp [hAdef]
  have hAn : ∀ a b, b ≠ i → A a b = G.weight a b := fun a b hb => by
    simp [hAdef, Fin.val_ne_iff.2 hb]
  have hxi : ∀ {e x : Fin n → M}, LinearSEM A e x → x i = e i := by
    intro e x hx
    have := hx i
    simpa [hAi] using this
  refine ⟨x, x', h1, h3, hxi h4, hxi h2, ?_⟩
  have hA : AcyclicWeights A := acyclicWeights_mono h.acyclic fun a b hab hw => by
    apply hab
    by_cases hb : b = i
    · rw [hb, hAi]
    · rw [hAn a b hb, hw]
  have hu : IsUnit (1 - G.weight).det := isUnit_iff_ne_zero.2 (det_ne_zero h.acyclic)
  have hT : ∀ b, (1 - G.weight)⁻¹ i b = (1 : Matrix (Fin n) (Fin n) K) i b + ∑ a, (1 - G.weight)⁻¹ i a * G.weight a b := by
    intro b
    have := congrFun (congrFun (Matrix.nonsing_inv_mul _ hu) i) b
    rw [Matrix.mul_sub, Matrix.mul_one, Matrix.sub_apply, Matrix.mul_apply] at this
    rw [← this]; ring
  have hinv := Gauss.inv_eq_effects h.toSound
  have hself : (1 - G.weight)⁻¹ i i = 1 := by
    rw [hinv, Matrix.add_apply, Matrix.one_apply_eq, C80_zero h.toSound (h.listed.valid.acyclic _), add_zero]
  have hd : LinearSEM A (fun a => e' a - e a) (fun a => x' a - x a) := by
    intro b
    beta_reduce
    rw [h4 b, h2 b]
    simp only [smul_sub, Finset.sum_sub_distrib]
    abel
  have hT' : LinearSEM A (fun a => e' a - e a) (fun a => (1 - G.weight)⁻¹ i a • (e' i - e i)) := by
    intro b
    beta_reduce
    by_cases hb : b = i
    · subst hb
      simp [hAi, hself]
    · rw [hT b, Matrix.one_apply_ne (Ne.symm hb), zero_add, he b hb, sub_self, add_zero, Finset.sum_smul]
      refine Finset.sum_congr rfl fun a _ => ?_
      rw [hAn a b hb, smul_smul, mul_comm]
  have := congrFun (sem_unique hA hd hT') j
  rw [this, hxi h4, hxi h2, hinv, Matrix.add_apply, Matrix.one_apply_ne hij, zero_add]

theorem effects_row {G : Gauss n ℝ} (h : G.Plain) (i : Fin n) :
    (1 - G.weight)⁻¹ i i = 1 ∧ (∀ j, j ≠ i → (1 - G.weight)⁻¹ i j = G.directEffects i j) := by
  have hinv := Gauss.inv_eq_effects h.toSound
  refine ⟨?_, fun j hj => ?_⟩
  · rw [hinv, Matrix.add_apply, Matrix.one_apply_eq, C80_zero h.toSound (h.listed.valid.acyclic _), add_zero]
  · rw [hinv, Matrix.add_apply, Matrix.one_apply_ne (Ne.symm hj), zero_add]

private theorem option_iso {D : DAG ℕ} (hD : D.Valid) (hn : D.nodes = Finset.range n) (i : Fin n) :
    Iso (Set.univ : Set (Option (Fin n))) (Augment (fun a b : Fin n => D.E a.val b.val) {i}) (Augment D.E {i.val}) (Option.map Fin.val) where
  inj := (Option.map_injective Fin.val_injective).injOn
  nodes _ _ _ := ⟨trivial, trivial⟩
  arcs x y := by
    constructor
    · rintro (h | h)
      · have h1 := hD.fst_mem _ _ h
        have h2 := hD.snd_mem _ _ h
        rw [hn, Finset.mem_range] at h1 h2
        exact ⟨some ⟨_, h1⟩, some ⟨_, h2⟩, .old h, rfl, rfl⟩
      · rw [Set.mem_singleton_iff] at h
        exact ⟨none, some i, .target rfl, rfl, by rw [h]; rfl⟩
    · rintro ⟨_, _, h | h, rfl, rfl⟩
      · exact .old h
      · rw [Set.mem_singleton_iff] at h
        exact .target (by rw [h]; rfl)

private theorem invariant_fin {D : DAG ℕ} (hD : D.Valid) (hn : D.nodes = Finset.range n) (w : SepOracle ℕ) {i j : Fin n}
    {p : Fin k → Fin n} (hj : ∀ a, p a ≠ j) :
    ∃ r, isInvariant D w {j.val} {i.val} (Finset.univ.image fun a => (p a).val) = some r ∧
      (r = true ↔ DSep (Augment (fun a b : Fin n => D.E a.val b.val) {i}) {some j} {none} (some '' Set.range p)) := by
  obtain ⟨r, h1, h2⟩ := C17_is_invariant D hD w {j.val} {i.val} (Finset.univ.image fun a => (p a).val) (by
    rw [Finset.disjoint_singleton_left]
    intro h
    obtain ⟨a, -, ha⟩ := Finset.mem_image.1 h
    exact hj a (Fin.ext ha))
  refine ⟨r, h1, h2.trans ?_⟩
  rw [← (option_iso hD hn i).dsep (Set.subset_univ _) (Set.subset_univ _) (Set.subset_univ _)]
  have e1 : (some '' {a | a ∈ ({j.val} : Finset ℕ)} : Set (Option ℕ)) = Option.map Fin.val '' {some j} := by simp
  have e2 : ({none} : Set (Option ℕ)) = Option.map Fin.val '' ({none} : Set (Option (Fin n))) := by simp
  have e3 : (some '' {c | c ∈ Finset.univ.image fun a => (p a).val} : Set (Option ℕ)) =
      Option.map Fin.val '' (some '' Set.range p) := by
    ext x
    simp only [Set.mem_image, Set.mem_ofPred_eq, Finset.mem_image, Finset.mem_univ, true_and, Set.mem_range, exists_exists_eq_and,
      Option.map_some]
  have e4 : {a | a ∈ ({i.val} : Finset ℕ)} = {i.val} := by ext; simp
  rw [← e1, ← e2, ← e3, e4]

/-- C242. `D.is_invariant(j, {i}, {i, *Z})` decides whether adjusting for `Z` is valid, where `Z` contains neither `j` nor `i` nor a descendant
of `i`: it answers `True` exactly if for all weights, biases and variances on the arcs of `D` the first coefficient of
`regression_coefficients([j], [i, *Z])` is the total effect of `i` on `j`. -/
theorem C242_adjustment {D : DAG ℕ} (hD : D.Valid) (hn : D.nodes = Finset.range n) (w : SepOracle ℕ) {i j : Fin n} (hij : i ≠ j)
    {z : Fin k → Fin n} (hz : Function.Injective z) (hiz : ∀ a, z a ≠ i) (hjz : ∀ a, z a ≠ j) (hdesc : ∀ a, ¬ Path D.E i.val (z a).val) :
    ∃ r, isInvariant D w {j.val} {i.val} (Finset.univ.image fun a => (Matrix.vecCons i z a).val) = some r ∧
      (r = true ↔ ∀ (A : Matrix (Fin n) (Fin n) ℝ) (b v : Fin n → ℝ) (oa : SetOrder Bool (ℕ × ℕ)), (∀ x y, A x y ≠ 0 → D.E x.val y.val) →
        (∀ x, 0 < v x) → ∃ (G : Gauss n ℝ) (M : Matrix (Fin (k + 1)) (Fin 1) ℝ), Gauss.fromAmat oa Fin.val A b v = (G, none) ∧
          G.regressionCoefs (fun _ : Fin 1 => j.val) (fun a => (Matrix.vecCons i z a).val) = .ok M ∧ M 0 0 = G.directEffects i j) := by
  set p : Fin (k + 1) → Fin n := Matrix.vecCons i z with hpdef
  have hp : Function.Injective p := by
    intro a b hab
    induction a using Fin.cases with
    | zero =>
      induction b using Fin.cases with
      | zero => rfl
      | succ b => exact absurd hab.symm (hiz b)
    | succ a =>
      induction b using Fin.cases with
      | zero => exact absurd hab (hiz a)
      | succ b => exact congrArg Fin.succ (hz hab)
  have hpj : ∀ a, p a ≠ j := by
    intro a
    induction a using Fin.cases with
    | zero => exact hij
    | succ a => exact hjz a
  have hp0 : p 0 = i := rfl
  obtain ⟨r, h1, h2⟩ := invariant_fin hD hn w (i := i) hpj
  have hrun : ∀ (A : Matrix (Fin n) (Fin n) ℝ) (b v : Fin n → ℝ) (oa : SetOrder Bool (ℕ × ℕ)), (∀ x y, A x y ≠ 0 → D.E x.val y.val) →
      (∀ x, 0 < v x) → ∃ (G : Gauss n ℝ) (M : Matrix (Fin (k + 1)) (Fin 1) ℝ), Gauss.fromAmat oa Fin.val A b v = (G, none) ∧
        G.regressionCoefs (fun _ : Fin 1 => j.val) (fun a => (p a).val) = .ok M ∧ AcyclicWeights A ∧
        (1 - A)⁻¹ i i = 1 ∧ (∀ a, a ≠ 0 → (1 - A)⁻¹ i (p a) = 0) ∧ (1 - A)⁻¹ i j = G.directEffects i j ∧
        ∀ a, ((semCov A v).submatrix p p).mulVec (fun a => M a 0) a = semCov A v (p a) j := by
    intro A b v oa hA hv
    obtain ⟨G, G1, g1, g2, g3, rfl, rfl, g6, -, -⟩ := read_amat hD hA b v oa
    obtain ⟨M, m1, m2⟩ := Gauss.regressionCoefs_run g2.acyclic hv g3.toCurrent (tg := fun _ : Fin 1 => j) hp
    obtain ⟨t1, t2⟩ := effects_row g2 i
    refine ⟨G, M, g1, m1, g2.acyclic, t1, fun a ha => ?_, t2 j (Ne.symm hij), fun a => congrFun (congrFun m2 a) 0⟩
    obtain ⟨a, rfl⟩ := Fin.exists_succ_eq.2 ha
    rw [show p a.succ = z a from rfl, t2 _ (hiz a)]
    refine C80_zero g2.toSound fun hpath => hdesc a ?_
    rw [g2.names, g2.names] at hpath
    exact TransGen.mono (fun x y hxy => g6 x y hxy) _ _ hpath
  refine ⟨r, h1, h2.trans ⟨fun hd A b v oa hA hv => ?_, fun hall => ?_⟩⟩
  · obtain ⟨G, M, g1, g2, g3, g4, g5, g6, g7⟩ := hrun A b v oa hA hv
    refine ⟨G, M, g1, g2, g6 ▸ adjust_of_dsep g3 hv hpj hp0 g4 g5 g7 ?_⟩
    refine dsep_sub (augment_acyclic (fin_acyclic hD)) (fun x y hxy => ?_) hd
    cases hxy with
    | old h => exact .old (hA _ _ h)
    | target h => exact .target h
  · by_contra hd
    obtain ⟨order, ho⟩ := fin_order hD hn
    obtain ⟨A, v, hA, hv, hne⟩ := adjust_faithful (fin_acyclic hD) (r := fun k => (order.symm k).val)
      (fun a b h => order.symm.injective (Fin.ext h)) (fun a b h => ho a b h) hpj hp0 hd
    obtain ⟨G, M, g1, g2, g3, g4, g5, g6, g7⟩ := hrun A 0 v (SetOrder.any _ _) hA hv
    obtain ⟨G', M', k1, k2, k3⟩ := hall A 0 v (SetOrder.any _ _) hA hv
    rw [g1] at k1
    obtain rfl : G = G' := congrArg Prod.fst k1
    rw [g2] at k2
    obtain rfl : M = M' := Except.ok.inj k2
    exact hne g4 g5 _ g7 (k3.trans g6.symm)

/-- C242. Adjusting for the parents is valid: if `Z` lists the parents of `i` and `j` is none of them, the first coefficient of
`regression_coefficients([j], [i, *Z])` is the total effect of `i` on `j`. -/
theorem C242_parents {G : Gauss n ℝ} (h : G.Plain) (hv : ∀ x, 0 < G.variances x) (hc : G.Current) {i j : Fin n} (hij : i ≠ j)
    {z : Fin k → Fin n} (hz : Function.Injective z) (hpar : ∀ x : Fin n, (x.val, i.val) ∈ G.dag.arcs ↔ ∃ a, z a = x)
    (hj : (j.val, i.val) ∉ G.dag.arcs) :
    ∃ M : Matrix (Fin (k + 1)) (Fin 1) ℝ,
      G.regressionCoefs (fun _ : Fin 1 => j.val) (fun a => (Matrix.vecCons i z a).val) = .ok M ∧ M 0 0 = G.directEffects i j := by
  have harc : ∀ x y : Fin n, G.weight x y ≠ 0 ↔ (x.val, y.val) ∈ G.dag.arcs := fun x y => by
    rw [← h.arcs_iff x y, h.names, h.names]
  set p : Fin (k + 1) → Fin n := Matrix.vecCons i z with hpdef
  have hiz : ∀ a, z a ≠ i := by
    intro a ha
    exact h.listed.valid.acyclic _ (.single ((hpar i).2 ⟨a, ha⟩))
  have hp : Function.Injective p := by
    intro a b hab
    induction a using Fin.cases with
    | zero =>
      induction b using Fin.cases with
      | zero => rfl
      | succ b => exact absurd hab.symm (hiz b)
    | succ a =>
      induction b using Fin.cases with
      | zero => exact absurd hab (hiz a)
      | succ b => exact congrArg Fin.succ (hz hab)
  have hpj : ∀ a, p a ≠ j := by
    intro a
    induction a using Fin.cases with
    | zero => exact hij
    | succ a => exact fun ha => hj ((hpar j).2 ⟨a, ha⟩)
  obtain ⟨t1, t2⟩ := effects_row h i
  obtain ⟨M, m1, m2⟩ := Gauss.regressionCoefs_run h.acyclic hv hc (tg := fun _ : Fin 1 => j) hp
  refine ⟨M, m1, (adjust_of_dsep h.acyclic hv hpj (i := i) (a0 := 0) rfl t1 (fun a ha => ?_) (fun a => congrFun (congrFun m2 a) 0) ?_).trans
    (t2 j (Ne.symm hij))⟩
  · obtain ⟨a, rfl⟩ := Fin.exists_succ_eq.2 ha
    rw [show p a.succ = z a from rfl, t2 _ (hiz a)]
    refine C80_zero h.toSound fun hpath => ?_
    rw [h.names, h.names] at hpath
    exact h.listed.valid.acyclic _ (hpath.tail ((hpar _).2 ⟨a, rfl⟩))
  · have hb : Blanket (Augment (fun a b => G.weight a b ≠ 0) {i}) none = some '' Set.range p := by
      ext x
      constructor
      · rintro ⟨hx, h1 | h1 | ⟨c, h1, h2⟩⟩
        · cases h1
        · cases h1 with
          | target h1 => exact ⟨_, ⟨0, rfl⟩, by rw [show p 0 = i from rfl, Set.mem_singleton_iff.1 h1]⟩
        · cases h1 with
          | target h1 =>
            rw [Set.mem_singleton_iff] at h1
            subst h1
            cases h2 with
            | old h2 =>
              obtain ⟨a, rfl⟩ := (hpar _).1 ((harc _ _).1 h2)
              exact ⟨_, ⟨a.succ, rfl⟩, rfl⟩
            | target h2 => exact absurd rfl hx
      · rintro ⟨_, ⟨a, rfl⟩, rfl⟩
        refine ⟨by simp, ?_⟩
        induction a using Fin.cases with
        | zero => exact .inr (.inl (.target rfl))
        | succ a => exact .inr (.inr ⟨some i, .target rfl, .old ((harc _ _).2 ((hpar _).2 ⟨a, rfl⟩))⟩)
    have := blanket_separates (augment_acyclic (I := {i}) h.acyclic) none
    rw [hb] at this
    refine dsep_symm (dsep_mono (Set.Subset.refl _) ?_ this)
    rintro _ rfl
    exact ⟨by simp, range_not_mem hpj⟩

private theorem triangle_ok : ∀ a ∈ ({(0, 1), (0, 2), (1, 2)} : Finset (ℕ × ℕ)),
    a.1 < a.2 ∧ a.1 ∈ Finset.range 3 ∧ a.2 ∈ Finset.range 3 := by decide

/-- The effect of `1` on `2` in the triangle with the arcs `0 → 1`, `0 → 2` and `1 → 2`: adjust for `0`, or for nothing. -/
example (w : SepOracle ℕ) := C242_adjustment (n := 3) (k := 1) (D := Sample.natGraph (Finset.range 3) {(0, 1), (0, 2), (1, 2)})
  (Sample.natGraph_valid triangle_ok) rfl w (i := 1) (j := 2) (by decide) (z := ![0]) (by decide) (by decide) (by decide) (by
    intro a h
    have : ∀ x y, Path (Sample.natGraph (Finset.range 3) {(0, 1), (0, 2), (1, 2)}).E x y → x < y := fun x y hxy => by
      induction hxy with
      | single e => exact (triangle_ok _ e).1
      | tail _ e ih => exact lt_trans ih (triangle_ok _ e).1
    have := this _ _ h
    fin_cases a
    simp at this)

example (w : SepOracle ℕ) := C242_adjustment (n := 3) (k := 0) (D := Sample.natGraph (Finset.range 3) {(0, 1), (0, 2), (1, 2)})
  (Sample.natGraph_valid triangle_ok) rfl w (i := 1) (j := 2) (by decide) (z := ![]) (by decide) (by decide) (by decide) (by
    intro a; exact a.elim0)

/-- All weights 1 on that triangle: adjusting for the parent `0` of `1` gives the effect on `2`, and raising `1` by one raises `2` by it. -/
example (oa : SetOrder Bool (ℕ × ℕ)) (o : SetOrder (Option ℕ) ℕ) (op : SetOrder ℕ ℕ) :
    ∃ (G : Gauss 3 ℝ) (M : Matrix (Fin 2) (Fin 1) ℝ) (x x' : Fin 3 → ℝ), G.weight = !![0, 1, 1; 0, 0, 1; 0, 0, 0] ∧
      G.regressionCoefs (fun _ : Fin 1 => 2) (fun a => ((![1, 0] : Fin 2 → Fin 3) a).val) = .ok M ∧
      G.samplePerfect o op (fun v => decide (v = 1)) ![4, 5, 6] = some (.ok x) ∧
      G.samplePerfect o op (fun v => decide (v = 1)) ![4, 6, 6] = some (.ok x') ∧ x' 2 - x 2 = M 0 0 := by
  obtain ⟨G, G1, g1, g2, g3, g4, g5, g6, g7, -⟩ := read_amat (n := 3) (Sample.natGraph_valid triangle_ok)
    (A := !![0, 1, 1; 0, 0, 1; 0, 0, 0]) (by
      intro i j
      fin_cases i <;> fin_cases j <;> simp [DAG.E, Sample.natGraph]) 0 1 oa
  obtain ⟨M, m1, m2⟩ := C242_parents g2 (by rw [g5]; simp) g3.toCurrent (i := 1) (j := 2) (by decide) (z := ![0])
    (by decide) (by
      intro x
      constructor
      · intro hx
        have := g6 _ _ hx
        fin_cases x
        · exact ⟨0, rfl⟩
        · simp [Sample.natGraph] at this
        · simp [Sample.natGraph] at this
      · rintro ⟨a, rfl⟩
        fin_cases a
        exact g7 0 1 (by simp)) (by
      intro hx
      have := g6 _ _ hx
      simp [Sample.natGraph] at this)
  obtain ⟨x, x', h1, h2, h3, h4, h5⟩ := C242_effect (M := ℝ) g2 o op (i := 1) (j := 2) (by decide) (e := ![4, 5, 6]) (e' := ![4, 6, 6])
    (by intro a ha; fin_cases a <;> simp at ha ⊢)
  refine ⟨G, M, x, x', g4, m1, h1, h2, ?_⟩
  rw [h5, h3, h4, m2]
  norm_num

end Props
