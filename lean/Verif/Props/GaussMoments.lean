import Verif.Proof.GaussFactor
import Verif.Props.GaussMore
import Verif.Props.DSep

/-! # `GaussDAG`: marginal precision, partial correlation, regression (properties C107–C111)

`G.CurrentR` says that the cached matrices, if there are any, belong to the current weights and variances; C51 is about when this
fails. A newly constructed object satisfies it (`currentR_of_fresh`), and reading keeps it. -/

namespace Props

set_option linter.unusedSectionVars false

open Model Spec

variable {n k t : ℕ}

theorem currentR_of_fresh {G : Gauss n ℝ} (h1 : G.covariance = none) (h2 : G.precision = none) (h3 : G.correlation = none) :
    G.CurrentR where
  covariance S hS := by simp [h1] at hS
  precision S hS := by simp [h2] at hS
  correlation S hS := by simp [h3] at hS

/-! ## C107 -/

/-- C107. `marginal_precision(nodes)` raises nothing and is the inverse of the block of `covariance` of these nodes. -/
theorem C107_marginal_precision {G : Gauss n ℝ} (h : G.Plain) (hv : ∀ i, 0 < G.variances i) (hc : G.Current)
    (on : SetOrder Unit ℕ) {l : Fin k → Fin n} (hl : Function.Injective l) :
    ∃ M S G1, G.marginalPrecision on (fun a => (l a).val) = .ok M ∧ G.readCovariance = .ok (S, G1) ∧
      M * S.submatrix l l = 1 ∧ S.submatrix l l * M = 1 := by
  obtain ⟨M, h1, h2⟩ := Gauss.marginalPrecision_spec h hv hc on hl
  obtain ⟨G1, h3, -⟩ := hc.readCovariance h.acyclic
  exact ⟨M, _, G1, h1, h3, h2, mul_eq_one_comm.1 h2⟩

/-! ## C108 -/

/-- C108. `partial_correlation(i, j, C)` raises nothing and is the correlation of the residuals of `i` and `j` after regression on
`C`, with respect to `covariance`. -/
theorem C108_partial_correlation {G : Gauss n ℝ} (h : G.Plain) (hv : ∀ i, 0 < G.variances i) (hc : G.CurrentR)
    (oc : SetOrder Unit ℕ) {i j : Fin n} {C : Finset (Fin n)} (hij : i ≠ j) (hi : i ∉ C) (hj : j ∉ C) :
    ∃ ρ G1 S G2, G.partialCorrelation oc i j (C.image Fin.val) = .ok (ρ, G1) ∧ G.readCovariance = .ok (S, G2) ∧
      (∀ ρ', PartialCorr S i j C ρ' ↔ ρ' = ρ) ∧ G1.CurrentR := by
  obtain ⟨ρ, G1, h1, h2, h3, -⟩ := Gauss.partialCorrelation_spec h.acyclic hv hc oc hij hi hj
  obtain ⟨G2, h4, -⟩ := hc.toCurrent.readCovariance h.acyclic
  refine ⟨ρ, G1, _, G2, h1, h4, fun ρ' => ⟨fun h' => ?_, fun e => e ▸ h2⟩, h3⟩
  exact partialCorr_unique (semCov_posDef h.acyclic hv) (by simpa using hi) (by simpa using hj) h' h2

/-! ## C109 -/

theorem path0_val {G : Gauss n ℝ} (h : G.Plain) {a b : Fin n} (hab : Path0 (fun x y => G.weight x y ≠ 0) a b) :
    Path0 G.dag.E a.val b.val := by
  induction hab with
  | refl => exact .refl
  | @tail x y _ hxy ih =>
    refine ih.tail ?_
    have := (h.arcs_iff x y).2 hxy
    rwa [h.names, h.names] at this

theorem infix_of_map {α β : Type} {f : α → β} {s : List β} {l : List α} (h : s <:+: l.map f) : ∃ s', s' <:+: l ∧ s = s'.map f := by
  obtain ⟨p, q, hpq⟩ := h
  obtain ⟨l1, l2, rfl, h1, rfl⟩ := List.map_eq_append_iff.1 hpq.symm
  obtain ⟨l3, l4, rfl, rfl, rfl⟩ := List.map_eq_append_iff.1 h1
  exact ⟨l4, ⟨l3, l2, rfl⟩, rfl⟩

theorem dsep_val {G : Gauss n ℝ} (h : G.Plain) {i j : Fin n} {C : Finset (Fin n)}
    (hd : DSep G.dag.E {i.val} {j.val} {c | c ∈ C.image Fin.val}) :
    DSep (fun x y => G.weight x y ≠ 0) {i} {j} {c | c ∈ C} := by
  have hE : ∀ x y : Fin n, G.weight x y ≠ 0 ↔ G.dag.E x.val y.val := fun x y => by
    rw [← h.arcs_iff x y, h.names, h.names]; rfl
  intro a ha b hb l hl
  cases ha; cases hb
  refine hd i.val rfl j.val rfl (l.map Fin.val) ⟨?_, ?_, ?_, ?_, ?_⟩
  · simp [hl.head]
  · simp [List.getLast?_map, hl.last]
  · exact hl.nodup.map Fin.val_injective
  · intro u v huv
    obtain ⟨s, hs, he⟩ := infix_of_map huv
    rcases s with _ | ⟨u', _ | ⟨v', _ | ⟨w', s⟩⟩⟩ <;> simp at he
    obtain ⟨rfl, rfl⟩ := he
    rcases hl.adj _ _ hs with h' | h'
    · exact Or.inl ((hE _ _).1 h')
    · exact Or.inr ((hE _ _).1 h')
  · intro u v w huv
    obtain ⟨s, hs, he⟩ := infix_of_map huv
    rcases s with _ | ⟨u', _ | ⟨v', _ | ⟨w', _ | ⟨_, s⟩⟩⟩⟩ <;> simp at he
    obtain ⟨rfl, rfl, rfl⟩ := he
    obtain ⟨h1, h2⟩ := hl.opn _ _ _ hs
    constructor
    · rintro ⟨g1, g2⟩
      obtain ⟨c, hc, hp⟩ := h1 ⟨(hE _ _).2 g1, (hE _ _).2 g2⟩
      exact ⟨c.val, Finset.mem_image_of_mem _ hc, path0_val h hp⟩
    · intro hn
      have := h2 fun g => hn ⟨(hE _ _).1 g.1, (hE _ _).1 g.2⟩
      intro hm
      obtain ⟨x, hx, he⟩ := Finset.mem_image.1 hm
      rw [Fin.val_injective he] at hx
      exact this hx

/-- C109. d-separated nodes have partial correlation zero (global Markov property of the linear model). -/
theorem C109_markov {G : Gauss n ℝ} (h : G.Plain) (hv : ∀ i, 0 < G.variances i) (hc : G.CurrentR)
    (oc : SetOrder Unit ℕ) {i j : Fin n} {C : Finset (Fin n)} (hij : i ≠ j) (hi : i ∉ C) (hj : j ∉ C)
    (hd : DSep G.dag.E {i.val} {j.val} {c | c ∈ C.image Fin.val}) :
    ∃ G1, G.partialCorrelation oc i j (C.image Fin.val) = .ok (0, G1) := by
  obtain ⟨ρ, G1, h1, h2, -⟩ := Gauss.partialCorrelation_spec h.acyclic hv hc oc hij hi hj
  rw [partialCorr_dsep h.acyclic hv hij (by simpa using hi) (by simpa using hj) (dsep_val h hd) h2] at h1
  exact ⟨G1, h1⟩

/-- C109 in terms of `dsep`: whenever `dsep(i, j, C)` is `True`, `partial_correlation(i, j, C)` is 0. -/
theorem C109_dsep {G : Gauss n ℝ} (h : G.Plain) (hv : ∀ i, 0 < G.variances i) (hc : G.CurrentR)
    (oc : SetOrder Unit ℕ) (o : SepOracle ℕ) {i j : Fin n} {C : Finset (Fin n)} (hij : i ≠ j) (hi : i ∉ C) (hj : j ∉ C)
    (hd : DAG.dsep G.dag o {i.val} {j.val} (C.image Fin.val) = some true) :
    ∃ G1, G.partialCorrelation oc i j (C.image Fin.val) = .ok (0, G1) := by
  let D : DAG ℕ := { G.dag with neighbors := fun v => G.dag.parents v ∪ G.dag.children v }
  have hs := h.listed.valid
  have hV : D.Valid := ⟨⟨hs.parents_iff, hs.children_iff, fun i j => by
    simp only [D, Finset.mem_union, hs.parents_iff, hs.children_iff], hs.fst_mem, hs.snd_mem⟩, hs.acyclic⟩
  obtain ⟨r, hr, h'⟩ := C11_dsep D hV o {i.val} {j.val} (C.image Fin.val) (by
    rw [Finset.disjoint_singleton_left]
    intro hm
    obtain ⟨x, hx, he⟩ := Finset.mem_image.1 hm
    rw [Fin.val_injective he] at hx
    exact hi hx)
  have : DAG.dsep D o {i.val} {j.val} (C.image Fin.val) = some true := by
    rw [← hd]
    have : DAG.addAncestors D = DAG.addAncestors G.dag := by with_unfolding_all exact rfl
    simp only [DAG.dsep, DAG.shade, this]
    rfl
  rw [this] at hr
  cases hr
  refine C109_markov h hv hc oc hij hi hj ?_
  have := h'.1 rfl
  have hE : D.E = G.dag.E := rfl
  rw [hE] at this
  simpa using this

/-! ## C110 -/

/-- C110. `regression_coefficients(targets, predictors, bias=False)` raises nothing, and each column is the unique best linear
prediction of its target from the predictors, with respect to `covariance`. -/
theorem C110_best {G : Gauss n ℝ} (h : G.Plain) (hv : ∀ i, 0 < G.variances i) (hc : G.Current)
    {tg : Fin t → Fin n} {p : Fin k → Fin n} (hp : Function.Injective p) :
    ∃ M S G1, G.regressionCoefs (fun a => (tg a).val) (fun a => (p a).val) = .ok M ∧ G.readCovariance = .ok (S, G1) ∧
      ∀ b, BestPredictor S (tg b) p fun a => M a b := by
  obtain ⟨M, h1, h2⟩ := Gauss.regressionCoefs_run h.acyclic hv hc (tg := tg) hp
  obtain ⟨G1, h3, -⟩ := hc.readCovariance h.acyclic
  refine ⟨M, _, G1, h1, h3, fun b => Gauss.bestPredictor (semCov_posDef h.acyclic hv) hp fun a => ?_⟩
  exact congrFun (congrFun h2 a) b

/-- C110. If the predictors contain all parents of a target and none of its descendants, then its coefficients are the weights of
the arcs into it (0 for predictors that are not parents). -/
theorem C110_structural {G : Gauss n ℝ} (h : G.Plain) (hv : ∀ i, 0 < G.variances i) (hc : G.Current)
    {tg : Fin t → Fin n} {p : Fin k → Fin n} (hp : Function.Injective p) :
    ∃ M, G.regressionCoefs (fun a => (tg a).val) (fun a => (p a).val) = .ok M ∧
      ∀ b, (∀ x : Fin n, (x.val, (tg b).val) ∈ G.dag.arcs → ∃ a, p a = x) →
        (∀ a, ¬ Path0 G.dag.E (tg b).val (p a).val) → ∀ a, M a b = G.weight (p a) (tg b) := by
  obtain ⟨M, h1, h2⟩ := Gauss.regressionCoefs_run h.acyclic hv hc (tg := tg) hp
  refine ⟨M, h1, fun b g1 g2 a => Gauss.regressionCoefs_structural h.acyclic hv hp h2 (fun x hx => g1 x ?_)
    (fun a ha => g2 a (path0_val h ha)) a⟩
  have := (h.arcs_iff x (tg b)).2 hx
  rwa [h.names, h.names] at this

/-! ## C111 -/

/-- C111 (partial: only when every arc points to a larger label, as in C52). The bias of `regression_coefficients` makes the
prediction errors have mean zero, where `m` are the means of the variables; under the conditions of C110 it is the bias of the
target. -/
theorem C111_bias_partial {G : Gauss n ℝ} (h : G.Plain) (hv : ∀ i, 0 < G.variances i) (hc : G.Current)
    (hlt : ∀ i j : Fin n, (i.val, j.val) ∈ G.dag.arcs → i < j) (op : SetOrder ℕ ℕ)
    {tg : Fin t → Fin n} {p : Fin k → Fin n} (hp : Function.Injective p) :
    ∃ M β m, G.regressionBias op (fun a => (tg a).val) (fun a => (p a).val) = .ok (M, β) ∧
      G.regressionCoefs (fun a => (tg a).val) (fun a => (p a).val) = .ok M ∧ LinearSEM G.weight G.biases m ∧
      (∀ b, m (tg b) = ∑ a, M a b * m (p a) + β b) ∧
      ∀ b, (∀ x : Fin n, (x.val, (tg b).val) ∈ G.dag.arcs → ∃ a, p a = x) →
        (∀ a, ¬ Path0 G.dag.E (tg b).val (p a).val) → β b = G.biases (tg b) := by
  obtain ⟨M, m, h1, h2, h3⟩ := Gauss.regressionBias_run h hv hc hlt op (tg := tg) hp
  refine ⟨M, _, m, h1, h3, h2, fun b => ?_, fun b g1 g2 => ?_⟩
  · rw [Finset.sum_congr rfl fun a _ => mul_comm (M a b) (m (p a))]; ring
  · obtain ⟨M', h4, h5⟩ := C110_structural h hv hc (tg := tg) hp
    rw [h3] at h4
    cases h4
    show m (tg b) - ∑ a, m (p a) * M a b = _
    have e1 : ∑ a, m (p a) * M a b = ∑ a, m (p a) * G.weight (p a) (tg b) :=
      Finset.sum_congr rfl fun a _ => by rw [h5 b g1 g2 a]
    rw [h2 (tg b), e1]
    have : ∑ i, G.weight i (tg b) • m i = ∑ a, m (p a) * G.weight (p a) (tg b) := by
      classical
      rw [← Finset.sum_image (s := Finset.univ) (g := p) (f := fun x => m x * G.weight x (tg b)) (fun _ _ _ _ e => hp e)]
      symm
      rw [Finset.sum_subset (Finset.subset_univ _)]
      · exact Finset.sum_congr rfl fun x _ => by rw [smul_eq_mul, mul_comm]
      · intro x _ hx
        have : G.weight x (tg b) = 0 := by
          by_contra hw
          have hw' := (h.arcs_iff x (tg b)).2 hw
          rw [h.names, h.names] at hw'
          obtain ⟨a, rfl⟩ := g1 x hw'
          exact hx (Finset.mem_image_of_mem _ (Finset.mem_univ _))
        rw [this, mul_zero]
    rw [this]; ring

/-! ## `from_amat`, violation of C111, concrete cases -/

theorem Linked.plain {G : Gauss n ℝ} (h2 : G.Linked) (h3 : G.names = Fin.val) (hA : AcyclicWeights G.weight) : G.Plain := by
  refine ⟨h2.sound ?_, fun a => by rw [h3]⟩
  have key : ∀ x y, Path G.dag.E x y → ∃ a b : Fin n, a.val = x ∧ b.val = y ∧ Path (fun i j => G.weight i j ≠ 0) a b := by
    have step : ∀ x y, G.dag.E x y → ∃ a b : Fin n, a.val = x ∧ b.val = y ∧ G.weight a b ≠ 0 := by
      intro x y hxy
      obtain ⟨a, rfl⟩ := (h2.range _).1 (h2.views.fst_mem _ _ hxy)
      obtain ⟨b, rfl⟩ := (h2.range _).1 (h2.views.snd_mem _ _ hxy)
      exact ⟨a, b, by rw [h3], by rw [h3], (h2.arcs_iff a b).1 hxy⟩
    intro x y hxy
    induction hxy with
    | single h' =>
      obtain ⟨a, b, ha, hb, hab⟩ := step _ _ h'
      exact ⟨a, b, ha, hb, .single hab⟩
    | tail _ h' ih =>
      obtain ⟨a, b, ha, hb, hab⟩ := ih
      obtain ⟨c, d, hc, hd, hcd⟩ := step _ _ h'
      have : b = c := Fin.ext (by rw [hb, hc])
      subst this
      exact ⟨a, d, ha, hd, .tail hab hcd⟩
  intro v hv
  obtain ⟨a, b, ha, hb, hab⟩ := key v v hv
  have : a = b := Fin.ext (by rw [ha, hb])
  subst this
  exact hA a hab

theorem arcs_of_weight {G G' : Gauss n ℝ} (h : G.Plain) (h' : G'.Plain) (hw : G.weight = G'.weight) : G.dag.arcs = G'.dag.arcs := by
  have key : ∀ G G' : Gauss n ℝ, G.Plain → G'.Plain → G.weight = G'.weight → G.dag.arcs ⊆ G'.dag.arcs := by
    rintro G G' h h' hw ⟨x, y⟩ hxy
    obtain ⟨a, rfl⟩ := (h.listed.range _).1 (h.listed.valid.fst_mem _ _ hxy)
    obtain ⟨b, rfl⟩ := (h.listed.range _).1 (h.listed.valid.snd_mem _ _ hxy)
    have h1 := (h.arcs_iff a b).1 hxy
    rw [hw] at h1
    have h2 := (h'.arcs_iff a b).2 h1
    rwa [h'.names, h'.names, ← h.names, ← h.names] at h2
  exact (key _ _ h h' hw).antisymm (key _ _ h' h hw.symm)

/-- `from_amat` with acyclic weights. -/
theorem plain_of_amat (oa : SetOrder Bool (ℕ × ℕ)) {A : Matrix (Fin n) (Fin n) ℝ} (hA : AcyclicWeights A) (b v : Fin n → ℝ) :
    ∃ G : Gauss n ℝ, Gauss.fromAmat oa Fin.val A b v = (G, none) ∧ G.Plain ∧ G.weight = A ∧ G.biases = b ∧ G.variances = v ∧
      G.CurrentR := by
  obtain ⟨G, h1, h2, h3, h4, h5, h6, h7, h8, h9⟩ := Gauss.fromAmat_spec oa A b v
  exact ⟨G, h1, Linked.plain h2 h3 (h4 ▸ hA), h4, h5, h6, currentR_of_fresh h8 h7 h9⟩

theorem acyclicWeights_of_rank {A : Matrix (Fin n) (Fin n) ℝ} (r : Fin n → ℕ) (h : ∀ i j, A i j ≠ 0 → r i < r j) : AcyclicWeights A := by
  have : ∀ i j, Path (fun i j => A i j ≠ 0) i j → r i < r j := fun i j hij => by
    induction hij with
    | single h' => exact h _ _ h'
    | tail _ h' ih => exact ih.trans (h _ _ h')
  exact fun v hv => lt_irrefl _ (this v v hv)

/-- C111 is violated: for the arc 1 → 0 of weight 1 and biases 0, 1 the regression of node 0 on its parent gives the bias -1; the
bias of node 0 is 0. -/
theorem C111_violated (oa : SetOrder Bool (ℕ × ℕ)) (op : SetOrder ℕ ℕ) :
    ∃ (G : Gauss 2 ℝ) (M : Matrix (Fin 1) (Fin 1) ℝ), Gauss.fromAmat oa Fin.val !![0, 0; 1, 0] ![0, 1] 1 = (G, none) ∧
      (∀ x : Fin 2, (x.val, 0) ∈ G.dag.arcs → x = 1) ∧ ¬ Path0 G.dag.E 0 1 ∧
      G.regressionBias op ![0] ![1] = .ok (M, ![-1]) ∧ M 0 0 = 1 ∧ G.biases 0 = 0 := by
  have hA : AcyclicWeights (!![0, 0; 1, 0] : Matrix (Fin 2) (Fin 2) ℝ) := acyclicWeights_of_rank ![1, 0] fun i j => by
    fin_cases i <;> fin_cases j <;> simp
  obtain ⟨G, h1, h2, h3, h4, h5, h6⟩ := plain_of_amat oa hA ![0, 1] 1
  have hv : ∀ i, 0 < G.variances i := fun i => by rw [h5]; simp
  have hE : ∀ a b : Fin 2, G.dag.E a.val b.val ↔ (a = 1 ∧ b = 0) := fun a b => by
    have := h2.arcs_iff a b
    rw [h2.names, h2.names] at this
    refine this.trans ?_
    rw [h3]
    fin_cases a <;> fin_cases b <;> simp
  have hpar : ∀ x : Fin 2, (x.val, 0) ∈ G.dag.arcs → x = 1 := fun x hx => ((hE x 0).1 hx).1
  have hdesc : ¬ Path0 G.dag.E 0 1 := by
    intro h
    rcases Relation.ReflTransGen.cases_head h with h | ⟨c, hc, -⟩
    · exact absurd h (by decide)
    · obtain ⟨b, hb⟩ := (h2.listed.range c).1 (h2.listed.valid.snd_mem _ _ hc)
      rw [h2.names] at hb
      subst hb
      exact absurd ((hE 0 b).1 hc).1 (by decide)
  obtain ⟨M, g1, g2⟩ := C110_structural h2 hv h6.toCurrent (tg := ![0]) (p := ![1])
    (Function.injective_of_subsingleton _)
  have gM : M 0 0 = 1 := by
    rw [g2 0 (fun x hx => ⟨0, (hpar x hx).symm⟩) (fun a => by fin_cases a; exact hdesc) 0, h3]
    simp
  have e1 : (fun a : Fin 1 => ((![0] : Fin 1 → Fin 2) a).val) = ![0] := by funext a; fin_cases a; rfl
  have e2 : (fun a : Fin 1 => ((![1] : Fin 1 → Fin 2) a).val) = ![1] := by funext a; fin_cases a; rfl
  rw [e1, e2] at g1
  have hm : G.means op = .ok ![0, 1] := by
    unfold Gauss.means
    rw [h2.meansLoop_eq, show List.finRange 2 = [0, 1] from rfl]
    congr 1
    simp only [steps, id, h3, h4, Fin.sum_univ_two]
    funext i
    fin_cases i <;> simp
  have p1 : Gauss.positions 2 (![0] : Fin 1 → ℕ) = some ![0] := by rw [← e1]; exact Gauss.positions_val _
  have p2 : Gauss.positions 2 (![1] : Fin 1 → ℕ) = some ![1] := by rw [← e2]; exact Gauss.positions_val _
  refine ⟨G, M, h1, hpar, hdesc, ?_, gM, by rw [h4]; rfl⟩
  simp only [Gauss.regressionBias, g1, hm, p1, p2]
  congr 2
  funext b
  fin_cases b
  simp [gM]

namespace GaussCase

/-- The chain 0 → 1 → 2 with weights 2, 3 and variances 1, 2, 3. -/
theorem chain (oa : SetOrder Bool (ℕ × ℕ)) : ∃ G : Gauss 3 ℝ, G.Plain ∧ G.weight = !![0, 2, 0; 0, 0, 3; 0, 0, 0] ∧
    (∀ i, 0 < G.variances i) ∧ G.CurrentR ∧ ∀ a b : Fin 3, G.dag.E a.val b.val ↔ (a = 0 ∧ b = 1) ∨ (a = 1 ∧ b = 2) := by
  have hA : AcyclicWeights (!![0, 2, 0; 0, 0, 3; 0, 0, 0] : Matrix (Fin 3) (Fin 3) ℝ) :=
    acyclicWeights_of_rank ![0, 1, 2] fun i j => by fin_cases i <;> fin_cases j <;> simp
  obtain ⟨G, h1, h2, h3, h4, h5, h6⟩ := plain_of_amat oa hA 0 ![1, 2, 3]
  refine ⟨G, h2, h3, fun i => ?_, h6, fun a b => ?_⟩
  · rw [h5]; fin_cases i <;> simp
  · have := h2.arcs_iff a b
    rw [h2.names, h2.names] at this
    refine this.trans ?_
    rw [h3]
    fin_cases a <;> fin_cases b <;> simp

example (oa : SetOrder Bool (ℕ × ℕ)) (on : SetOrder Unit ℕ) : ∃ (G : Gauss 3 ℝ) (M : Matrix (Fin 2) (Fin 2) ℝ),
    G.marginalPrecision on (fun a => ((![2, 0] : Fin 2 → Fin 3) a).val) = .ok M := by
  obtain ⟨G, h2, -, h4, h5, -⟩ := chain oa
  obtain ⟨M, _, _, h, -⟩ := C107_marginal_precision h2 h4 h5.toCurrent on (l := ![2, 0]) (by decide)
  exact ⟨G, M, h⟩

/-- The ends of the chain are uncorrelated given the middle (C108, C109). -/
example (oa : SetOrder Bool (ℕ × ℕ)) (oc : SetOrder Unit ℕ) : ∃ (G G1 : Gauss 3 ℝ), G.weight 0 1 = 2 ∧ G.weight 1 2 = 3 ∧
    G.partialCorrelation oc 0 2 {1} = .ok (0, G1) := by
  obtain ⟨G, h2, h3, h4, h5, h6⟩ := chain oa
  have hd : DSep G.dag.E {((0 : Fin 3)).val} {(2 : Fin 3).val} {c | c ∈ ({1} : Finset (Fin 3)).image Fin.val} := by
    have hm : ∀ x, x ∈ G.dag.nodes ↔ ∃ a : Fin 3, a.val = x := fun x => by
      rw [h2.listed.range]; simp [h2.names]
    have hadj : ∀ x y, Adj G.dag.E x y → ∃ a b : Fin 3, a.val = x ∧ b.val = y ∧ (b = 1 ∨ a = 1) := by
      rintro x y (h | h)
      · obtain ⟨a, rfl⟩ := (hm x).1 (h2.listed.valid.fst_mem _ _ h)
        obtain ⟨b, rfl⟩ := (hm y).1 (h2.listed.valid.snd_mem _ _ h)
        refine ⟨a, b, rfl, rfl, ?_⟩
        rcases (h6 a b).1 h with h | h
        · exact Or.inl h.2
        · exact Or.inr h.1
      · obtain ⟨b, rfl⟩ := (hm y).1 (h2.listed.valid.fst_mem _ _ h)
        obtain ⟨a, rfl⟩ := (hm x).1 (h2.listed.valid.snd_mem _ _ h)
        refine ⟨a, b, rfl, rfl, ?_⟩
        rcases (h6 b a).1 h with h | h
        · exact Or.inr h.2
        · exact Or.inl h.1
    intro a ha b hb l hl
    cases ha; cases hb
    have h0 := hl.head
    rcases l with _ | ⟨x, _ | ⟨y, _ | ⟨z, l⟩⟩⟩
    · simp at h0
    · have := hl.last
      simp at h0 this
      omega
    · have := hl.last
      simp at h0 this
      subst h0; subst this
      obtain ⟨a, b, ha, hb, hab⟩ := hadj 0 2 (hl.adj 0 2 List.infix_rfl)
      rcases hab with rfl | rfl
      · simp at hb
      · simp at ha
    · simp at h0
      subst h0
      obtain ⟨a, b, ha, hb, hab⟩ := hadj 0 y (hl.adj 0 y ⟨[], z :: l, by simp⟩)
      have hy : y = 1 := by
        rcases hab with rfl | rfl
        · exact hb.symm
        · simp at ha
      subst hy
      refine (hl.opn 0 1 z ⟨[], l, by simp⟩).2 ?_ (by simp)
      rintro ⟨-, hz⟩
      obtain ⟨c, hc⟩ := (hm z).1 (h2.listed.valid.fst_mem _ _ hz)
      subst hc
      rcases (h6 c 1).1 hz with h | h
      · have : c = 0 := h.1
        subst this
        have := hl.nodup
        simp at this
      · exact absurd h.2 (by decide)
  obtain ⟨G1, h⟩ := C109_markov h2 h4 h5 oc (i := 0) (j := 2) (C := {1}) (by decide) (by decide) (by decide) hd
  exact ⟨G, G1, by rw [h3]; simp, by rw [h3]; simp, by simpa using h⟩

/-- Regression of the last node of the chain on the two others. -/
example (oa : SetOrder Bool (ℕ × ℕ)) (op : SetOrder ℕ ℕ) : ∃ (G : Gauss 3 ℝ) (M : Matrix (Fin 2) (Fin 1) ℝ) (β : Fin 1 → ℝ),
    G.regressionBias op (fun a => ((![2] : Fin 1 → Fin 3) a).val) (fun a => ((![0, 1] : Fin 2 → Fin 3) a).val) = .ok (M, β) ∧
    M 0 0 = 0 ∧ M 1 0 = 3 ∧ β 0 = G.biases 2 := by
  obtain ⟨G, h2, h3, h4, h5, h6⟩ := chain oa
  have hlt : ∀ i j : Fin 3, (i.val, j.val) ∈ G.dag.arcs → i < j := fun i j hij => by
    rcases (h6 i j).1 hij with ⟨rfl, rfl⟩ | ⟨rfl, rfl⟩ <;> decide
  have hpar : ∀ x : Fin 3, (x.val, ((![2] : Fin 1 → Fin 3) 0).val) ∈ G.dag.arcs → ∃ a, (![0, 1] : Fin 2 → Fin 3) a = x := fun x hx => by
    rcases (h6 x 2).1 hx with h | h
    · exact absurd h.2 (by decide)
    · exact ⟨1, h.1.symm⟩
  have hdesc : ∀ a, ¬ Path0 G.dag.E ((![2] : Fin 1 → Fin 3) 0).val ((![0, 1] : Fin 2 → Fin 3) a).val := fun a h => by
    rcases Relation.ReflTransGen.cases_head h with h | ⟨c, hc, -⟩
    · fin_cases a <;> simp at h
    · obtain ⟨b, hb⟩ := (h2.listed.range c).1 (h2.listed.valid.snd_mem _ _ hc)
      rw [h2.names] at hb
      subst hb
      rcases (h6 2 b).1 hc with h | h
      · exact absurd h.1 (by decide)
      · exact absurd h.1 (by decide)
  have hp : Function.Injective (![0, 1] : Fin 2 → Fin 3) := by decide
  obtain ⟨M, β, m, g1, g2, -, -, g3⟩ := C111_bias_partial h2 h4 h5.toCurrent hlt op (tg := ![2]) (p := ![0, 1]) hp
  obtain ⟨M', k1, k2⟩ := C110_structural h2 h4 h5.toCurrent (tg := ![2]) (p := ![0, 1]) hp
  rw [g2] at k1
  cases k1
  refine ⟨G, M, β, g1, ?_, ?_, g3 0 hpar hdesc⟩
  · rw [k2 0 hpar hdesc 0, h3]; simp
  · rw [k2 0 hpar hdesc 1, h3]; simp

end GaussCase

end Props
