import Verif.Proof.GaussEffects
import Verif.Props.Gauss

/-! # `GaussDAG`: node lists, counterfactuals, total effects (properties C78–C80) -/

namespace Props

set_option linter.unusedSectionVars false
open Model Spec

variable {n : ℕ} {K : Type} [Field K] [DecidableEq K] {M : Type} [AddCommGroup M] [Module K M]

/-- C78 (partial: only if the label of every node with parents is its position). `sample()` returns the unique solution of the
structural equations. -/
theorem C78_sample_partial {G : Gauss n K} (h : G.Sound) (hcol : ∀ i j, G.weight i j ≠ 0 → G.names j = j.val)
    (noise : Fin n → M) :
    ∃ x, (∀ x', LinearSEM G.weight noise x' ↔ x' = x) ∧ ∀ o op, G.sample o op noise = some (.ok x) := by
  let o0 : SetOrder (Option ℕ) ℕ := ⟨fun _ s => s.toList, fun _ s => s.nodup_toList, by simp⟩
  let op0 : SetOrder ℕ ℕ := ⟨fun _ s => s.toList, fun _ s => s.nodup_toList, by simp⟩
  have hA := Gauss.sound_acyclic h
  obtain ⟨x, -, hx⟩ := h.sample_spec hcol o0 op0 noise
  refine ⟨x, fun x' => ⟨fun h' => sem_unique hA h' hx, fun e => e ▸ hx⟩, fun o op => ?_⟩
  obtain ⟨x', h1, h2⟩ := h.sample_spec hcol o op noise
  rw [h1, sem_unique hA h2 hx]

namespace GaussCase

/-- Node list `[1, 0]` with the arc 1 → 0: weight 1 from position 0 to position 1. -/
theorem swappedK (K : Type) [Field K] [DecidableEq K] (oa : SetOrder Bool (ℕ × ℕ)) :
    ∃ G : Gauss 2 K, Gauss.new oa ![1, 0] [((1, 0), 1)] 0 1 = (G, none) ∧ G.Sound ∧ G.names = ![1, 0] ∧
      (∀ x y, G.weight x y = if x = 0 ∧ y = 1 then 1 else 0) := by
  have hinj : Function.Injective (![1, 0] : Fin 2 → ℕ) := by
    intro a b hab
    fin_cases a <;> fin_cases b <;> simp_all
  obtain ⟨G, h1, h2, -, -, -, -, h7, h8, -, h9⟩ := C77_constructor_partial (K := K) (n := 2) oa
    (names := ![1, 0]) (arcs := [((1, 0), 1)]) hinj
    (by
      intro e he
      simp only [List.mem_cons, List.not_mem_nil, or_false] at he
      subst he
      exact ⟨⟨0, rfl⟩, 1, rfl⟩) (by simp) 0 1
  refine ⟨G, h1, h9 ?_, h2, fun x y => ?_⟩
  · refine acyclic_of_rank (fun i => 1 - i) fun i j => ?_
    rintro ⟨v, hv, -⟩
    simp only [List.mem_cons, Prod.mk.injEq, List.not_mem_nil, or_false] at hv
    obtain ⟨⟨rfl, rfl⟩, -⟩ := hv
    decide
  · by_cases hxy : x = 0 ∧ y = 1
    · rw [if_pos hxy, h7 x y 1]
      rw [hxy.1, hxy.2]; simp
    · rw [if_neg hxy, h8 x y]
      intro v hv
      fin_cases x <;> fin_cases y <;> simp_all

theorem swapped (oa : SetOrder Bool (ℕ × ℕ)) :
    ∃ G : Gauss 2 ℚ, Gauss.new oa ![1, 0] [((1, 0), 1)] 0 1 = (G, none) ∧ G.Sound ∧ G.names = ![1, 0] ∧
      (∀ x y, G.weight x y = if x = 0 ∧ y = 1 then 1 else 0) := swappedK ℚ oa

end GaussCase

/-- C78 is violated: on the node list `[1, 0]` with the arc 1 → 0, noise 5 at node 1 and none at node 0, `sample()` returns 0
for node 0; the structural equation gives 5. -/
theorem C78_violated (oa : SetOrder Bool (ℕ × ℕ)) (o : SetOrder (Option ℕ) ℕ) (op : SetOrder ℕ ℕ) :
    ∃ G : Gauss 2 ℚ, Gauss.new oa ![1, 0] [((1, 0), 1)] 0 1 = (G, none) ∧ G.Sound ∧
      G.sample o op ![(5 : ℚ), 0] = some (.ok ![5, 0]) ∧ LinearSEM G.weight ![(5 : ℚ), 0] ![5, 5] := by
  obtain ⟨G, h1, h2, h3, h4⟩ := GaussCase.swapped oa
  refine ⟨G, h1, h2, ?_, fun j => by fin_cases j <;> simp [h4]⟩
  obtain ⟨t, ht, hl⟩ := h2.sort o
  have ht2 : t = [0, 1] := by
    have hs := hl.before 0 1 (by rw [h4]; simp)
    have hlen : t.length = 2 := by
      have : t.toFinset = Finset.univ := by ext v; simp [hl.mem_iff]
      rw [← List.toFinset_card_of_nodup hl.nodup, this]; rfl
    exact (hs.eq_of_length (by rw [hlen]; rfl)).symm
  subst ht2
  unfold Gauss.sample
  rw [ht]
  dsimp only
  congr 1
  have hpar : G.dag.parents 1 = ∅ := by
    ext p
    simp only [Finset.notMem_empty, iff_false]
    intro hp
    have hp := (h2.listed.valid.parents_iff _ _).1 hp
    obtain ⟨a, rfl⟩ := (h2.listed.range _).1 (h2.listed.valid.fst_mem _ _ hp)
    have := (h2.arcs_iff a 0).1 (by rw [show G.names 0 = 1 by rw [h3]; rfl]; exact hp)
    rw [h4] at this
    simp at this
  obtain ⟨ps, k1, k2, k3⟩ := h2.parents_pos op 1
  have hps : ps = [0] := by
    have : ∀ p, p ∈ ps ↔ p = 0 := fun p => by rw [k3, h4]; simp
    rcases ps with _ | ⟨p, _ | ⟨q, ps⟩⟩
    · exact absurd ((this 0).2 rfl) (by simp)
    · rw [(this p).1 (by simp)]
    · have e1 := (this p).1 (by simp)
      have e2 := (this q).1 (by simp)
      rw [e1, e2] at k2
      simp at k2
  subst hps
  have n0 : G.names 0 = 1 := by rw [h3]; rfl
  have n1 : G.names 1 = 0 := by rw [h3]; rfl
  have i0 : G.ix 1 = some 0 := by
    have := lastIx_names h2.listed.inj 0
    rwa [n0] at this
  have i1 : G.ix 0 = some 1 := by
    have := lastIx_names h2.listed.inj 1
    rwa [n1] at this
  rw [n1] at k1
  simp only [List.map_cons, List.map_nil, n0, n1, Gauss.sampleLoop, i0, i1, hpar, Finset.card_empty, k1]
  have hat : Gauss.at? 2 0 = some 0 := rfl
  simp only [hat, ne_eq, not_true_eq_false, if_false]
  have hw : G.weight 0 0 = 0 := by rw [h4]; simp
  split_ifs
  all_goals
    congr 1
    funext i
    fin_cases i <;> simp [hw]

/-! ## C79 -/

/-- C79. `deterministic_intervention_counterfactuals` on the node list `0, …, n-1`: intervened nodes take the given value, all
others keep their noise. -/
theorem C79_counterfactuals {G : Gauss n K} (h : G.Plain) (samples : Fin n → M) (ivn : ℕ → Option M)
    (o : SetOrder (Option ℕ) ℕ) (op : SetOrder ℕ ℕ) :
    ∃ x, G.counterfactuals o op samples ivn = some (.ok x) ∧
      (∀ (j : Fin n) m, ivn j = some m → x j = m) ∧
      (∀ j : Fin n, ivn j = none →
        x j - ∑ i, G.weight i j • x i = samples j - ∑ i, G.weight i j • samples i) ∧
      (∀ j : Fin n, (∀ i : Fin n, ivn i ≠ none → ¬ Path0 (fun a b => G.weight a b ≠ 0) i j) → x j = samples j) := by
  obtain ⟨x, h1, h2⟩ := h.counterfactuals_spec o op samples ivn
  have hnoise : ∀ j, ∑ i, (1 - G.weight) i j • samples i = samples j - ∑ i, G.weight i j • samples i := by
    intro j
    simp only [Matrix.sub_apply, sub_smul, Finset.sum_sub_distrib, Matrix.one_apply, ite_smul, one_smul, zero_smul]
    simp
  have h3 : ∀ j : Fin n, ivn j = none →
      x j - ∑ i, G.weight i j • x i = samples j - ∑ i, G.weight i j • samples i := by
    intro j hj
    have := h2 j
    rw [hj, Option.getD_none, hnoise] at this
    exact sub_eq_of_eq_add' this
  refine ⟨x, h1, fun j m hj => by have := h2 j; rwa [hj, Option.getD_some] at this, h3, ?_⟩
  intro j
  induction j using (acyclic_wf h.acyclic).induction with
  | _ j ih =>
    intro hj
    have hn : ivn j = none := by
      by_contra hc
      exact hj j hc .refl
    have := h3 j hn
    have hs : ∑ i, G.weight i j • x i = ∑ i, G.weight i j • samples i := by
      refine Finset.sum_congr rfl fun i _ => ?_
      by_cases hw : G.weight i j = 0
      · rw [hw, zero_smul, zero_smul]
      · rw [ih i hw fun k hk hp => hj k hk (hp.tail hw)]
    rw [hs] at this
    exact sub_left_injective this

/-! ## C80 -/

/-- C80. `direct_effects()` is the matrix of total effects: the response of node `j` to the noise of node `i` is its entry
`i, j`, plus one if `i = j`. -/
theorem C80_effects {G : Gauss n K} (h : G.Sound) {e x : Fin n → M} (hx : LinearSEM G.weight e x) (j : Fin n) :
    x j = e j + ∑ i, G.directEffects i j • e i := by
  rw [sem_solution (Gauss.sound_acyclic h) hx j, Gauss.inv_eq_effects h]
  simp only [Matrix.add_apply, add_smul, Finset.sum_add_distrib, Matrix.one_apply, ite_smul, one_smul, zero_smul]
  simp

/-- C80. Its entries are zero unless there is a directed path. -/
theorem C80_zero {G : Gauss n K} (h : G.Sound) {i j : Fin n} (hij : ¬ Path G.dag.E (G.names i) (G.names j)) :
    G.directEffects i j = 0 := by
  have key : ∀ k i j, (G.weight ^ (k + 1)) i j ≠ 0 → Path G.dag.E (G.names i) (G.names j) := by
    intro k
    induction k with
    | zero => intro i j h0; rw [zero_add, pow_one] at h0; exact .single ((h.arcs_iff i j).2 h0)
    | succ k ih =>
      intro i j h0
      rw [pow_succ, Matrix.mul_apply] at h0
      obtain ⟨l, -, hl⟩ := Finset.exists_ne_zero_of_sum_ne_zero h0
      exact (ih i l (left_ne_zero_of_mul hl)).tail ((h.arcs_iff l j).2 (right_ne_zero_of_mul hl))
  rw [Gauss.directEffects_eq, Matrix.sum_apply]
  exact Finset.sum_eq_zero fun k _ => by
    by_contra hc
    exact hij (key k i j hc)

namespace GaussCase

example (oa : SetOrder Bool (ℕ × ℕ)) : ∃ G : Gauss 2 ℚ, G.Sound ∧ ∃ x, ∀ o op, G.sample o op ![(5 : ℚ), 7] = some (.ok x) := by
  obtain ⟨G, -, h2, -, -, -, -, h7⟩ := edge oa ℚ 0 1
  obtain ⟨x, -, hx⟩ := C78_sample_partial h2.toSound (fun i j _ => h2.names j) ![(5 : ℚ), 7]
  exact ⟨G, h2.toSound, x, hx⟩

example (oa : SetOrder Bool (ℕ × ℕ)) (o op) : ∃ (G : Gauss 2 ℚ) (x : Fin 2 → ℚ), G.weight 0 1 = 1 ∧
    G.counterfactuals o op ![(2 : ℚ), 3] (fun v => if v = 1 then some 9 else none) = some (.ok x) ∧ x 0 = 2 ∧ x 1 = 9 := by
  obtain ⟨G, -, h2, -, -, -, -, h7⟩ := edge oa ℚ 0 1
  obtain ⟨x, h1, g2, -, g4⟩ := C79_counterfactuals h2 ![(2 : ℚ), 3] (fun v => if v = 1 then some 9 else none) o op
  refine ⟨G, x, by rw [h7]; simp, h1, ?_, g2 1 9 (by simp)⟩
  have := g4 0 (by
    intro i hi hp
    have hi1 : i = 1 := by
      fin_cases i
      · simp at hi
      · rfl
    subst hi1
    rcases Relation.reflTransGen_iff_eq_or_transGen.1 hp with h | h
    · simp at h
    · obtain ⟨c, -, hc⟩ := Relation.TransGen.tail'_iff.1 h
      rw [h7] at hc
      simp at hc)
  simpa using this

example (oa : SetOrder Bool (ℕ × ℕ)) : ∃ G : Gauss 2 ℚ, G.Sound ∧ LinearSEM G.weight ![(1 : ℚ), 2] ![1, 3] := by
  obtain ⟨G, -, h2, -, -, -, -, h7⟩ := edge oa ℚ 0 1
  exact ⟨G, h2.toSound, fun j => by fin_cases j <;> simp [h7]; norm_num⟩

end GaussCase

end Props
