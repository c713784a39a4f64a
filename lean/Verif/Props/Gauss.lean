import Verif.Proof.GaussSet
import Mathlib.Data.Fin.VecNotation
import Mathlib.Data.Rat.Defs
import Mathlib.Tactic.FinCases
import Mathlib.Tactic.NormNum

/-! # `GaussDAG` (properties C50–C53, C57, C77–C80) -/

namespace Props

set_option linter.unusedSectionVars false

open Model Spec MeasureTheory ProbabilityTheory

variable {n : ℕ} {K : Type} [Field K] [DecidableEq K]

/-! ## C50 -/

/-- C50. For acyclic weights and nonzero variances `covariance` raises nothing, and `precision` and `covariance` are inverse to
each other. -/
theorem C50_inverse {G : Gauss n K} (hA : AcyclicWeights G.weight) (hv : ∀ i, G.variances i ≠ 0)
    (hc : G.covariance = none) (hp : G.precision = none) :
    ∃ S P G1 G2, G.readCovariance = .ok (S, G1) ∧ G1.readPrecision = (P, G2) ∧ P * S = 1 ∧ S * P = 1 := by
  obtain ⟨G1, h1, rfl⟩ := Gauss.readCovariance_fresh hc hA
  refine ⟨_, _, _, _, h1, Gauss.readPrecision_fresh (by exact hp), ?_, ?_⟩
  · exact Gauss.precision_mul_covariance hA hv
  · exact mul_eq_one_comm.1 (Gauss.precision_mul_covariance hA hv)

variable {Ω : Type} [MeasurableSpace Ω] {μ : Measure Ω} [IsProbabilityMeasure μ]

/-- C50. If the noise terms are uncorrelated with the variances of the graph, then `covariance` is the covariance of what
`sample()` returns. -/
theorem C50_covariance {G : Gauss n ℝ} (h : G.Plain) (hc : G.covariance = none) {e : Fin n → Ω → ℝ}
    (he : ∀ k, MemLp (e k) 2 μ) (hv : ∀ k l, cov[e k, e l; μ] = if k = l then G.variances k else 0)
    (o : SetOrder (Option ℕ) ℕ) (op : SetOrder ℕ ℕ) :
    ∃ S G1 x, G.readCovariance = .ok (S, G1) ∧ G.sample o op e = some (.ok x) ∧ ∀ i j, cov[x i, x j; μ] = S i j := by
  obtain ⟨G1, h1, -⟩ := Gauss.readCovariance_fresh hc h.acyclic
  obtain ⟨x, h2, h3⟩ := h.sample_spec o op e
  exact ⟨_, G1, x, h1, h2, Gauss.sem_covariance h.acyclic he hv h3⟩

/-! ## C57 for `GaussDAG` -/

/-- C57. On the node list `0, …, n-1`, `GaussDAG.sample()` returns the unique solution of the linear structural equations, for
every topological order. -/
theorem C57_gauss {M : Type} [AddCommGroup M] [Module K M] {G : Gauss n K} (h : G.Plain) (noise : Fin n → M) :
    ∃ x, (∀ x', LinearSEM G.weight noise x' ↔ x' = x) ∧ ∀ o op, G.sample o op noise = some (.ok x) := by
  let o0 : SetOrder (Option ℕ) ℕ := ⟨fun _ s => s.toList, fun _ s => s.nodup_toList, by simp⟩
  let op0 : SetOrder ℕ ℕ := ⟨fun _ s => s.toList, fun _ s => s.nodup_toList, by simp⟩
  obtain ⟨x, -, hx⟩ := h.sample_spec o0 op0 noise
  refine ⟨x, fun x' => ⟨fun h' => sem_unique h.acyclic h' hx, fun e => e ▸ hx⟩, fun o op => ?_⟩
  obtain ⟨x', h1, h2⟩ := h.sample_spec o op noise
  rw [h1, sem_unique h.acyclic h2 hx]

/-! ## C52 -/

/-- C52 (partial: only when every arc points to a larger label). `means()` solves the mean equations. -/
theorem C52_means_partial {G : Gauss n K} (h : G.Plain) (hlt : ∀ i j, (i, j) ∈ G.dag.arcs → i < j) (op : SetOrder ℕ ℕ) :
    ∃ m, G.means op = .ok m ∧ LinearSEM G.weight G.biases m :=
  h.means_spec (fun _ _ hij => hlt _ _ hij) op

/-- C52 (partial). Under the same condition `means()` is the expectation of what `sample()` returns. -/
theorem C52_expectation_partial {G : Gauss n ℝ} (h : G.Plain) (hlt : ∀ i j, (i, j) ∈ G.dag.arcs → i < j)
    {e : Fin n → Ω → ℝ} (he : ∀ k, Integrable (e k) μ) (hb : ∀ k, ∫ ω, e k ω ∂μ = G.biases k)
    (o : SetOrder (Option ℕ) ℕ) (op : SetOrder ℕ ℕ) :
    ∃ m x, G.means op = .ok m ∧ G.sample o op e = some (.ok x) ∧ ∀ j, ∫ ω, x j ω ∂μ = m j := by
  obtain ⟨m, h1, h2⟩ := C52_means_partial h hlt op
  obtain ⟨x, h3, h4⟩ := h.sample_spec o op e
  exact ⟨m, x, h1, h3, fun j => congrFun (sem_unique h.acyclic (Gauss.sem_mean h.acyclic he hb h4) h2) j⟩

/-! ## C53 -/

/-- The effect of `set_arc_weight(i, j, val)` on the arcs and weights, if nodes `i` and `j` exist. -/
theorem C53_set_arc_weight {G : Gauss n K} (h : G.Sound) (o : SetOrder (Option ℕ) ℕ) (a b : Fin n) (val : K) :
    ∃ G' e, G.setArcWeight o (G.names a) (G.names b) val = some (G', e) ∧ G'.Sound ∧ G'.names = G.names ∧
      (∀ x y, (x, y) ≠ (a, b) → G'.weight x y = G.weight x y) ∧
      (Acyclic (fun x y => G.dag.E x y ∨ (x = G.names a ∧ y = G.names b)) → G'.weight a b = val ∧ (val ≠ 0 → e = none)) ∧
      (¬ Acyclic (fun x y => G.dag.E x y ∨ (x = G.names a ∧ y = G.names b)) → G'.weight a b = 0 ∧
        (val ≠ 0 → e ≠ none ∧ (a ≠ b → ∃ l, e = some (.cycle l)))) := by
  obtain ⟨G', e, h1, h2, h3, h4, h5, h6⟩ := Gauss.setArcWeight_spec h o a b val
  have hoff : ∀ w, ∀ x y, (x, y) ≠ (a, b) → Gauss.setEntry G.weight a b w x y = G.weight x y := by
    intro w x y hxy
    rw [Gauss.setEntry_apply, if_neg]
    rintro ⟨rfl, rfl⟩; exact hxy rfl
  have hat : ∀ w, Gauss.setEntry G.weight a b w a b = w := fun w => by
    rw [Gauss.setEntry_apply, if_pos ⟨rfl, rfl⟩]
  refine ⟨G', e, h1, h3, h2.names, ?_, ?_, ?_⟩
  · intro x y hxy
    by_cases h0 : val = 0
    · rw [(h4 h0).1]; exact hoff _ x y hxy
    · by_cases hc : Acyclic (fun x y => G.dag.E x y ∨ (x = G.names a ∧ y = G.names b))
      · rw [(h5 h0 hc).2.1]; exact hoff _ x y hxy
      · rw [(h6 h0 hc).2.1]
  · intro hc
    by_cases h0 : val = 0
    · rw [(h4 h0).1, hat]; exact ⟨h0.symm, fun h => absurd h0 h⟩
    · rw [(h5 h0 hc).2.1, hat]; exact ⟨rfl, fun _ => (h5 h0 hc).1⟩
  · intro hc
    have hw : G.weight a b = 0 := by
      by_contra hw
      have hm := (h.arcs_iff a b).2 hw
      refine hc ?_
      have hE : (fun x y => G.dag.E x y ∨ (x = G.names a ∧ y = G.names b)) = G.dag.E := by
        funext x y
        refine propext ⟨?_, Or.inl⟩
        rintro (hxy | ⟨rfl, rfl⟩)
        · exact hxy
        · exact hm
      rw [hE]; exact h.listed.valid.acyclic
    by_cases h0 : val = 0
    · rw [(h4 h0).1, hat]; exact ⟨rfl, fun h => absurd h0 h⟩
    · obtain ⟨g1, g2, -, g4⟩ := h6 h0 hc
      rw [g2]; exact ⟨hw, fun _ => ⟨g1, g4⟩⟩

/-- Any sequence of `set_arc_weight` calls, exceptions being caught. -/
inductive WeightHistory : Gauss n K → Gauss n K → Prop
  | start (G) : WeightHistory G G
  | call {G G' G'' : Gauss n K} (o i j val e) : WeightHistory G G' → G'.setArcWeight o i j val = some (G'', e) →
      WeightHistory G G''

/-- C53. `set_arc_weight` always returns or raises. -/
theorem C53_terminates {G : Gauss n K} (h : G.Sound) (o : SetOrder (Option ℕ) ℕ) (i j : ℕ) (val : K) :
    ∃ G' e, G.setArcWeight o i j val = some (G', e) ∧ G'.Sound := by
  by_cases hi : ∃ a, G.names a = i
  · by_cases hj : ∃ b, G.names b = j
    · obtain ⟨a, rfl⟩ := hi
      obtain ⟨b, rfl⟩ := hj
      obtain ⟨G', e, h1, h2, -⟩ := C53_set_arc_weight h o a b val
      exact ⟨G', e, h1, h2⟩
    · exact ⟨G, _, Gauss.setArcWeight_unknown (Or.inr fun a ha => hj ⟨a, ha⟩), h⟩
  · exact ⟨G, _, Gauss.setArcWeight_unknown (Or.inl fun a ha => hi ⟨a, ha⟩), h⟩

/-- C53. After any history of `set_arc_weight` calls, raising or not, the arcs are exactly the nonzero weights and the graph is
acyclic. -/
theorem C53_history {G G' : Gauss n K} (h : G.Sound) (hist : WeightHistory G G') :
    (∀ a b, (G'.names a, G'.names b) ∈ G'.dag.arcs ↔ G'.weight a b ≠ 0) ∧ Acyclic G'.dag.E ∧ G'.Sound := by
  have : G'.Sound := by
    induction hist with
    | start => exact h
    | call o i j val e _ hc ih =>
      obtain ⟨G2, e2, h1, h2⟩ := C53_terminates ih o i j val
      rw [h1] at hc
      cases hc
      exact h2
  exact ⟨this.arcs_iff, this.listed.valid.acyclic, this⟩

/-! ## C51 -/

/-- Any sequence of updates without reading the matrices, exceptions being caught. -/
inductive Updates : Gauss n K → Gauss n K → Prop
  | start (G) : Updates G G
  | weight {G G' G'' : Gauss n K} (o i j val e) : Updates G G' → G'.setArcWeight o i j val = some (G'', e) → Updates G G''
  | variance {G G' : Gauss n K} (i val) : Updates G G' → Updates G (G'.setNodeVariance i val).1
  | bias {G G' : Gauss n K} (i val) : Updates G G' → Updates G (G'.setNodeBias i val).1

theorem setArcWeight_rest {G G' : Gauss n K} {o i j val e} (h : G.Sound) (hs : G.setArcWeight o i j val = some (G', e)) :
    G'.Sound ∧ G'.names = G.names ∧ G'.covariance = G.covariance ∧ G'.precision = G.precision := by
  by_cases hk : (∃ a, G.names a = i) ∧ ∃ b, G.names b = j
  · obtain ⟨⟨a, rfl⟩, b, rfl⟩ := hk
    obtain ⟨G2, e2, h1, h2, h3, -⟩ := Gauss.setArcWeight_spec h o a b val
    rw [h1] at hs; cases hs
    exact ⟨h3, h2.names, h2.covariance, h2.precision⟩
  · have : (∀ a, G.names a ≠ i) ∨ ∀ a, G.names a ≠ j := by
      by_contra hc
      push Not at hc
      exact hk hc
    rw [Gauss.setArcWeight_unknown this] at hs; cases hs
    exact ⟨h, rfl, rfl, rfl⟩

theorem updates_rest {G G' : Gauss n K} (h : G.Plain) (hu : Updates G G') :
    G'.Plain ∧ G'.covariance = G.covariance ∧ G'.precision = G.precision := by
  induction hu with
  | start => exact ⟨h, rfl, rfl⟩
  | weight o i j val e _ hc ih =>
    obtain ⟨h1, h2, h3, h4⟩ := setArcWeight_rest ih.1.toSound hc
    exact ⟨⟨h1, by rw [h2]; exact ih.1.names⟩, h3.trans ih.2.1, h4.trans ih.2.2⟩
  | variance i val _ ih =>
    unfold Gauss.setNodeVariance
    split
    · exact ⟨⟨⟨ih.1.listed, ih.1.arcs_iff⟩, ih.1.names⟩, ih.2.1, ih.2.2⟩
    · exact ih
  | bias i val _ ih =>
    unfold Gauss.setNodeBias
    split
    · exact ⟨⟨⟨ih.1.listed, ih.1.arcs_iff⟩, ih.1.names⟩, ih.2.1, ih.2.2⟩
    · exact ih

/-- C51 (partial: only if the matrices have not been read before). The first read of `covariance` after any updates is the
covariance of what `sample()` returns now. -/
theorem C51_first_read_partial {G G' : Gauss n ℝ} (h : G.Plain) (hc : G.covariance = none) (hu : Updates G G')
    {e : Fin n → Ω → ℝ} (he : ∀ k, MemLp (e k) 2 μ) (hv : ∀ k l, cov[e k, e l; μ] = if k = l then G'.variances k else 0)
    (o : SetOrder (Option ℕ) ℕ) (op : SetOrder ℕ ℕ) :
    ∃ S G1 x, G'.readCovariance = .ok (S, G1) ∧ G'.sample o op e = some (.ok x) ∧ ∀ i j, cov[x i, x j; μ] = S i j := by
  obtain ⟨h1, h2, -⟩ := updates_rest h hu
  exact C50_covariance h1 (h2.trans hc) he hv o op

/-- C51. Once read, `covariance` and `precision` never change again, whatever weights or variances are set afterwards. -/
theorem C51_stale {G G1 G2 : Gauss n K} (h : G.Plain) {S : Matrix (Fin n) (Fin n) K}
    (hr : G.readCovariance = .ok (S, G1)) (hu : Updates G1 G2) : G2.readCovariance = .ok (S, G2) := by
  have hG1 : G1.Plain ∧ G1.covariance = some S := by
    unfold Gauss.readCovariance at hr
    cases hcov : G.covariance with
    | some S' =>
      rw [hcov] at hr
      simp only [Except.ok.injEq, Prod.mk.injEq] at hr
      obtain ⟨rfl, rfl⟩ := hr
      exact ⟨h, hcov⟩
    | none =>
      rw [hcov] at hr
      dsimp only at hr
      rw [if_neg (det_ne_zero h.acyclic)] at hr
      simp only [Except.ok.injEq, Prod.mk.injEq] at hr
      obtain ⟨rfl, rfl⟩ := hr
      exact ⟨⟨⟨h.listed, h.arcs_iff⟩, h.names⟩, rfl⟩
  obtain ⟨-, h2, -⟩ := updates_rest hG1.1 hu
  unfold Gauss.readCovariance
  rw [h2, hG1.2]

/-! ## C77: the constructor -/

/-- C77 (partial: nothing is said about cyclic input). For a node list without repetitions and a dictionary of weights on known
nodes the constructor raises nothing, stores the given weights, and the arcs are the pairs of nonzero weight. If these form
no cycle, the object is sound. -/
theorem C77_constructor_partial (oa : SetOrder Bool (ℕ × ℕ)) {names : Fin n → ℕ} (hi : Function.Injective names)
    {arcs : List ((ℕ × ℕ) × K)} (hk : ∀ e ∈ arcs, (∃ a, names a = e.1.1) ∧ ∃ b, names b = e.1.2)
    (hn : (arcs.map Prod.fst).Nodup) (biases variances : Fin n → K) :
    ∃ G : Gauss n K, Gauss.new oa names arcs biases variances = (G, none) ∧ G.names = names ∧
      G.biases = biases ∧ G.variances = variances ∧ G.precision = none ∧ G.covariance = none ∧
      (∀ a b v, ((names a, names b), v) ∈ arcs → G.weight a b = v) ∧
      (∀ a b, (∀ v, ((names a, names b), v) ∉ arcs) → G.weight a b = 0) ∧
      (∀ i j, (i, j) ∈ G.dag.arcs ↔ ∃ v, ((i, j), v) ∈ arcs ∧ v ≠ 0) ∧
      (Acyclic (fun i j => ∃ v, ((i, j), v) ∈ arcs ∧ v ≠ 0) → G.Sound) := by
  obtain ⟨G, h1, h2, h3, h4, h5, h6, h7, h8, h9⟩ := Gauss.new_spec oa hi hk hn biases variances
  have hA : ∀ i j, (i, j) ∈ G.dag.arcs ↔ ∃ v, ((i, j), v) ∈ arcs ∧ v ≠ 0 := by
    intro i j
    have key : ∀ a b, (names a, names b) ∈ G.dag.arcs ↔ ∃ v, ((names a, names b), v) ∈ arcs ∧ v ≠ 0 := by
      intro a b
      have := h2.arcs_iff a b
      rw [h3] at this
      rw [this]
      constructor
      · intro h0
        by_cases hc : ∃ v, ((names a, names b), v) ∈ arcs
        · obtain ⟨v, hv⟩ := hc
          exact ⟨v, hv, by rw [← h8 a b v hv]; exact h0⟩
        · exact absurd (h9 a b fun v hv => hc ⟨v, hv⟩) h0
      · rintro ⟨v, hv, h0⟩
        rw [h8 a b v hv]; exact h0
    constructor
    · intro h
      obtain ⟨a, rfl⟩ := (h2.range _).1 (h2.views.fst_mem _ _ h)
      obtain ⟨b, rfl⟩ := (h2.range _).1 (h2.views.snd_mem _ _ h)
      rw [h3] at h ⊢
      exact (key a b).1 h
    · rintro ⟨v, hv, h0⟩
      obtain ⟨⟨a, ha⟩, b, hb⟩ := hk _ hv
      dsimp only at ha hb
      subst ha; subst hb
      exact (key a b).2 ⟨v, hv, h0⟩
  refine ⟨G, h1, h3, h4, h5, h6, h7, h8, h9, hA, fun hac => h2.sound ?_⟩
  have : G.dag.E = fun i j => ∃ v, ((i, j), v) ∈ arcs ∧ v ≠ 0 := by
    funext i j; exact propext (hA i j)
  rw [this]; exact hac

/-- The node list `0, …, n-1`. -/
theorem plain_of_new {oa : SetOrder Bool (ℕ × ℕ)} {arcs : List ((ℕ × ℕ) × K)} {biases variances : Fin n → K}
    (hk : ∀ e ∈ arcs, e.1.1 < n ∧ e.1.2 < n) (hn : (arcs.map Prod.fst).Nodup)
    (hac : Acyclic (fun i j => ∃ v, ((i, j), v) ∈ arcs ∧ v ≠ 0)) :
    ∃ G : Gauss n K, Gauss.new oa Fin.val arcs biases variances = (G, none) ∧ G.Plain ∧ G.biases = biases ∧
      G.variances = variances ∧ G.precision = none ∧ G.covariance = none ∧
      (∀ a b v, ((a.val, b.val), v) ∈ arcs → G.weight a b = v) ∧
      (∀ a b, (∀ v, ((a.val, b.val), v) ∉ arcs) → G.weight a b = 0) := by
  obtain ⟨G, h1, h2, h3, h4, h5, h6, h7, h8, -, h9⟩ := C77_constructor_partial oa Fin.val_injective
    (fun e he => ⟨⟨⟨_, (hk e he).1⟩, rfl⟩, ⟨_, (hk e he).2⟩, rfl⟩) hn biases variances
  exact ⟨G, h1, ⟨h9 hac, fun a => by rw [h2]⟩, h3, h4, h5, h6, h7, h8⟩

theorem acyclic_of_rank {E : ℕ → ℕ → Prop} (r : ℕ → ℕ) (h : ∀ i j, E i j → r i < r j) : Acyclic E := by
  have : ∀ i j, Path E i j → r i < r j := fun i j hij => by
    induction hij with
    | single h' => exact h _ _ h'
    | tail _ h' ih => exact ih.trans (h _ _ h')
  exact fun v hv => lt_irrefl _ (this v v hv)

/-- C77 is violated: the constructor accepts a directed cycle. -/
theorem C77_violated (oa : SetOrder Bool (ℕ × ℕ)) :
    ∃ G : Gauss 2 ℚ, Gauss.new oa Fin.val [((0, 1), 1), ((1, 0), 1)] 0 1 = (G, none) ∧ ¬ Acyclic G.dag.E := by
  obtain ⟨G, h1, -, -, -, -, -, -, -, h2, -⟩ := C77_constructor_partial (K := ℚ) (n := 2) oa
    (names := Fin.val) (arcs := [((0, 1), 1), ((1, 0), 1)]) Fin.val_injective
    (by
      intro e he
      simp only [List.mem_cons, List.not_mem_nil, or_false] at he
      rcases he with rfl | rfl
      · exact ⟨⟨0, rfl⟩, 1, rfl⟩
      · exact ⟨⟨1, rfl⟩, 0, rfl⟩) (by decide) 0 1
  refine ⟨G, h1, fun hc => hc 0 ?_⟩
  exact .tail (.single ((h2 0 1).2 ⟨1, by simp, by norm_num⟩)) ((h2 1 0).2 ⟨1, by simp, by norm_num⟩)

/-! ## Violations of C51 and C52, concrete cases -/

namespace GaussCase

/-- The arc 0 → 1 with weight 1. -/
theorem edge (oa : SetOrder Bool (ℕ × ℕ)) (F : Type) [Field F] [DecidableEq F] (b v : Fin 2 → F) :
    ∃ G : Gauss 2 F, Gauss.new oa Fin.val [((0, 1), 1)] b v = (G, none) ∧ G.Plain ∧
      G.biases = b ∧ G.variances = v ∧ G.precision = none ∧ G.covariance = none ∧
      (∀ x y, G.weight x y = if x = 0 ∧ y = 1 then 1 else 0) := by
  obtain ⟨G, h1, h2, h3, h4, h5, h6, h7, h8⟩ := plain_of_new (K := F) (n := 2) (oa := oa) (arcs := [((0, 1), 1)])
    (biases := b) (variances := v) (by simp) (by simp)
    (acyclic_of_rank id fun i j => by
      rintro ⟨v, hv, -⟩
      simp only [List.mem_cons, Prod.mk.injEq, List.not_mem_nil, or_false] at hv
      obtain ⟨⟨rfl, rfl⟩, -⟩ := hv
      decide)
  refine ⟨G, h1, h2, h3, h4, h5, h6, fun x y => ?_⟩
  by_cases hxy : x = 0 ∧ y = 1
  · rw [if_pos hxy, h7 x y 1]
    rw [hxy.1, hxy.2]; simp
  · rw [if_neg hxy, h8 x y]
    intro v hv
    simp only [List.mem_cons, Prod.mk.injEq, List.not_mem_nil, or_false] at hv
    exact hxy ⟨Fin.ext hv.1.1, Fin.ext hv.1.2⟩

/-- The arc 1 → 0 with weight 1. -/
theorem back (oa : SetOrder Bool (ℕ × ℕ)) (b : Fin 2 → ℚ) :
    ∃ G : Gauss 2 ℚ, Gauss.new oa Fin.val [((1, 0), 1)] b 1 = (G, none) ∧ G.Plain ∧ G.biases = b ∧
      (∀ x y, G.weight x y = if x = 1 ∧ y = 0 then 1 else 0) := by
  obtain ⟨G, h1, h2, h3, h4, h5, h6, h7, h8⟩ := plain_of_new (K := ℚ) (n := 2) (oa := oa) (arcs := [((1, 0), 1)])
    (biases := b) (variances := 1) (by simp) (by simp)
    (acyclic_of_rank (fun i => 1 - i) fun i j => by
      rintro ⟨v, hv, -⟩
      simp only [List.mem_cons, Prod.mk.injEq, List.not_mem_nil, or_false] at hv
      obtain ⟨⟨rfl, rfl⟩, -⟩ := hv
      decide)
  refine ⟨G, h1, h2, h3, fun x y => ?_⟩
  by_cases hxy : x = 1 ∧ y = 0
  · rw [if_pos hxy, h7 x y 1]
    rw [hxy.1, hxy.2]; simp
  · rw [if_neg hxy, h8 x y]
    intro v hv
    simp only [List.mem_cons, Prod.mk.injEq, List.not_mem_nil, or_false] at hv
    exact hxy ⟨Fin.ext hv.1.1, Fin.ext hv.1.2⟩

end GaussCase

/-- C51 is violated: for the graph 0 → 1, after a read the weight is changed from 1 to 2, and `covariance` is not that of an
object with the same weights and variances whose matrices have not been read. -/
theorem C51_violated (oa : SetOrder Bool (ℕ × ℕ)) (o : SetOrder (Option ℕ) ℕ) :
    ∃ (G G1 G2 G3 : Gauss 2 ℚ) (S S' : Matrix (Fin 2) (Fin 2) ℚ),
      Gauss.new oa Fin.val [((0, 1), 1)] 0 1 = (G, none) ∧ G.readCovariance = .ok (S, G1) ∧
      G1.setArcWeight o 0 1 2 = some (G2, none) ∧ G2.readCovariance = .ok (S, G2) ∧
      Gauss.readCovariance { G2 with covariance := none } = .ok (S', G3) ∧ S' ≠ S := by
  obtain ⟨G, h1, h2, -, h4, h5, h6, h7⟩ := GaussCase.edge oa ℚ 0 1
  obtain ⟨G1, g1, rfl⟩ := Gauss.readCovariance_fresh h6 h2.acyclic
  have hp1 : Gauss.Plain ({ G with
      covariance := some ((1 - G.weight)⁻¹.transpose * Matrix.diagonal G.variances * (1 - G.weight)⁻¹) }) :=
    ⟨⟨h2.listed, h2.arcs_iff⟩, h2.names⟩
  obtain ⟨G2, e, k1, k2, k3, -, k5, -⟩ := Gauss.setArcWeight_spec hp1.toSound o 0 1 2
  have hE : (fun x y => G.dag.E x y ∨ (x = G.names 0 ∧ y = G.names 1)) = G.dag.E := by
    funext x y
    refine propext ⟨?_, Or.inl⟩
    rintro (hxy | ⟨rfl, rfl⟩)
    · exact hxy
    · exact (h2.arcs_iff 0 1).2 (by rw [h7]; simp)
  obtain ⟨rfl, k6, -⟩ := k5 (by norm_num) (by
    change Acyclic (fun x y => G.dag.E x y ∨ (x = G.names 0 ∧ y = G.names 1))
    rw [hE]; exact h2.listed.valid.acyclic)
  have hp2 : Gauss.Plain ({ G2 with covariance := none }) :=
    ⟨⟨k3.listed, k3.arcs_iff⟩, by dsimp only; rw [k2.names]; exact hp1.names⟩
  obtain ⟨G3, l1, -⟩ := Gauss.readCovariance_fresh (G := { G2 with covariance := none }) rfl hp2.acyclic
  have hnm : ∀ a : Fin 2, G.names a = a.val := h2.names
  have k1' := k1
  dsimp only at k1'
  rw [hnm, hnm] at k1'
  refine ⟨G, _, G2, G3, _, _, h1, g1, k1', ?_, l1, ?_⟩
  · exact C51_stale h2 g1 (.weight o _ _ _ _ (.start _) k1')
  · intro hS
    dsimp only at hS k6
    have hv2 : G2.variances = G.variances := k2.variances
    have ha1 := h2.acyclic
    have ha2 : AcyclicWeights G2.weight := hp2.acyclic
    have hv0 : ∀ i, G.variances i ≠ 0 := by intro i; rw [h4]; simp
    have p1 := Gauss.precision_mul_covariance ha1 hv0
    have p2 := Gauss.precision_mul_covariance ha2 hv0
    rw [hv2] at hS
    rw [hS] at p2
    have : (1 - G.weight) * Matrix.diagonal (fun i => (G.variances i)⁻¹) * (1 - G.weight).transpose =
        (1 - G2.weight) * Matrix.diagonal (fun i => (G.variances i)⁻¹) * (1 - G2.weight).transpose := by
      have p1' := mul_eq_one_comm.1 p1
      calc _ = ((1 - G2.weight) * Matrix.diagonal (fun i => (G.variances i)⁻¹) * (1 - G2.weight).transpose) *
            ((1 - G.weight)⁻¹.transpose * Matrix.diagonal G.variances * (1 - G.weight)⁻¹) *
            ((1 - G.weight) * Matrix.diagonal (fun i => (G.variances i)⁻¹) * (1 - G.weight).transpose) := by
              rw [p2, Matrix.one_mul]
        _ = _ := by rw [Matrix.mul_assoc, p1', Matrix.mul_one]
    have := congrFun (congrFun this 0) 0
    rw [k6, h4] at this
    simp [Matrix.mul_apply, Fin.sum_univ_two, Matrix.one_apply, Gauss.setEntry_apply, h7] at this
    norm_num at this

/-- C52 is violated: on the graph 1 → 0 with weight 1 and biases 0, 1 the mean of node 0 is 1, `means()` returns 0. -/
theorem C52_violated (oa : SetOrder Bool (ℕ × ℕ)) (op : SetOrder ℕ ℕ) :
    ∃ (G : Gauss 2 ℚ) (m : Fin 2 → ℚ), Gauss.new oa Fin.val [((1, 0), 1)] ![0, 1] 1 = (G, none) ∧ G.Plain ∧
      G.means op = .ok m ∧ m 0 = 0 ∧ ¬ LinearSEM G.weight G.biases m ∧ LinearSEM G.weight G.biases ![1, 1] := by
  obtain ⟨G, h1, h2, h3, h4⟩ := GaussCase.back oa ![0, 1]
  have hm : G.means op = .ok ![0, 1] := by
    unfold Gauss.means
    rw [h2.meansLoop_eq, show List.finRange 2 = [0, 1] from rfl]
    congr 1
    simp only [steps, id, h3, h4, Fin.sum_univ_two]
    funext i
    fin_cases i <;> simp
  refine ⟨G, _, h1, h2, hm, rfl, ?_, ?_⟩
  · intro hc
    have := hc 0
    simp [h3, h4] at this
  · intro j
    fin_cases j <;> simp [h3, h4]

/-! ## Concrete cases of the hypotheses -/

namespace GaussCase

example (oa : SetOrder Bool (ℕ × ℕ)) : ∃ (G : Gauss 2 ℚ) (S P : _) (G1 G2 : Gauss 2 ℚ), G.weight 0 1 = 1 ∧
    G.readCovariance = .ok (S, G1) ∧ G1.readPrecision = (P, G2) ∧ P * S = 1 ∧ S * P = 1 := by
  obtain ⟨G, -, h2, -, h4, h5, h6, h7⟩ := edge oa ℚ 0 ![2, 3]
  obtain ⟨S, P, G1, G2, h⟩ := C50_inverse h2.acyclic (by rw [h4]; intro i; fin_cases i <;> simp) h6 h5
  exact ⟨G, S, P, G1, G2, by rw [h7]; simp, h⟩

/-- Noise `X` at node 0, none at node 1, with `X` any square integrable variable. -/
example (oa : SetOrder Bool (ℕ × ℕ)) (o : SetOrder (Option ℕ) ℕ) (op : SetOrder ℕ ℕ) {X : Ω → ℝ} (hX : MemLp X 2 μ) :
    ∃ (G : Gauss 2 ℝ) (S : _) (G1 : Gauss 2 ℝ) (x : Fin 2 → Ω → ℝ), G.weight 0 1 = 1 ∧ G.readCovariance = .ok (S, G1) ∧
      G.sample o op ![X, 0] = some (.ok x) ∧ ∀ i j, cov[x i, x j; μ] = S i j := by
  obtain ⟨G, -, h2, -, h4, h5, h6, h7⟩ := edge oa ℝ 0 ![cov[X, X; μ], 0]
  obtain ⟨S, G1, x, h⟩ := C50_covariance (μ := μ) h2 h6 (e := ![X, 0])
    (by intro k; fin_cases k
        · exact hX
        · exact MemLp.zero)
    (by
      rw [h4]
      intro k l
      fin_cases k <;> fin_cases l <;> simp) o op
  exact ⟨G, S, G1, x, by rw [h7]; simp, h⟩

example (oa : SetOrder Bool (ℕ × ℕ)) : ∃ G : Gauss 2 ℚ, G.Plain ∧ ∃ x, ∀ o op, G.sample o op ![(5 : ℚ), 7] = some (.ok x) := by
  obtain ⟨G, -, h2, -⟩ := back oa 0
  obtain ⟨x, -, hx⟩ := C57_gauss h2 ![(5 : ℚ), 7]
  exact ⟨G, h2, x, hx⟩

/-- Weight 2 on the new arc 1 → 0 closes a cycle with 0 → 1. -/
example (oa : SetOrder Bool (ℕ × ℕ)) (o : SetOrder (Option ℕ) ℕ) : ∃ (G G' : Gauss 2 ℚ) (l : List ℕ), G.Sound ∧
    G.setArcWeight o 1 0 2 = some (G', some (.cycle l)) ∧ G'.Sound ∧ G'.weight 1 0 = 0 := by
  obtain ⟨G, -, h2, -, -, -, -, h7⟩ := edge oa ℚ 0 1
  obtain ⟨G', e, g1, g2, -, -, -, g4⟩ := C53_set_arc_weight h2.toSound o 1 0 2
  obtain ⟨g5, g6⟩ := g4 (by
    intro hc
    refine hc 0 (.tail (b := 1) (.single (Or.inl ?_)) (Or.inr ?_))
    · exact (h2.arcs 0 1).2 (by rw [h7]; simp)
    · simp [h2.names])
  obtain ⟨l, rfl⟩ := (g6 (by norm_num)).2 (by decide)
  rw [h2.names, h2.names] at g1
  exact ⟨G, G', l, h2.toSound, g1, g2, g5⟩

/-- Means for arcs to larger labels. -/
example (oa : SetOrder Bool (ℕ × ℕ)) (op : SetOrder ℕ ℕ) : ∃ (G : Gauss 2 ℚ) (m : _), G.weight 0 1 = 1 ∧
    G.means op = .ok m ∧ LinearSEM G.weight G.biases m := by
  obtain ⟨G, -, h2, -, -, -, -, h7⟩ := edge oa ℚ ![1, 2] 1
  obtain ⟨m, h⟩ := C52_means_partial h2 (fun i j hij => by
    have hi := (h2.nodes i).1 (h2.valid.fst_mem _ _ hij)
    have hj := (h2.nodes j).1 (h2.valid.snd_mem _ _ hij)
    have := (h2.arcs ⟨i, hi⟩ ⟨j, hj⟩).1 hij
    rw [h7] at this
    simp [Fin.ext_iff] at this
    omega) op
  exact ⟨G, m, by rw [h7]; simp, h⟩

end GaussCase

end Props
