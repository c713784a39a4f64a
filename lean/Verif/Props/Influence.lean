import Verif.Proof.Influence
import Verif.Props.DiscreteSample

/-! # Efficient influence functions of `DiscreteDAG` (properties C161 to C164) -/

namespace Props

open Model Spec
open scoped NNReal ENNReal

variable {D : DiscreteDAG ℕ}

/-- C161. If no set of `get_standard_imset` contains both nodes, `get_efficient_influence_function(target, cond, value)` returns, for
samples that have positive probability, a function that maps a sample to the efficient influence function of
`E[1{cond = value} * target] / propensity` in the network whose tables are free except for those of `ignored_nodes`. -/
theorem C161_influence_partial (hD : D.Proper) (hc : D.Cut) (hA : D.Counting) (o ot : SetOrder (Option ℕ) ℕ)
    (oa : SetOrder Bool (ℕ × ℕ)) (os : SetOrder (ℕ × Finset ℕ) ℕ) (on : SetOrder Unit ℕ) (op : SetOrder (Finset ℕ) ℕ)
    (ok : SetOrder Unit (Finset ℕ)) (oz : SetOrder (List ℕ) (List ℕ)) {q : Query} (hq : D.ExactQuery q) {T Y c : ℕ} (hTY : T ≠ Y)
    (hT : T ∈ D.dag.nodes) (hY : Y ∈ D.dag.nodes) (hcT : c < D.dims T) (propensity : Option ℝ) {ignored : Finset ℕ}
    (hsep : ∀ s, D.dag.standardImset ignored s ≠ 0 → ¬ (T ∈ s ∧ Y ∈ s)) :
    ∃ φ : (ℕ → ℕ) → ℝ,
      D.EfficientInfluence (D.dag.nodes \ ignored)
        (fun y => (if y T = c then (y Y : ℝ) else 0) / propensity.getD (D.pr [T] fun _ => c)) φ ∧
      ∀ (N n : ℕ) (data : Fin N → ℕ → ℕ), (∀ v ∈ D.dag.nodes, v < n) → (∀ j, ∀ v ∈ D.dag.nodes, data j v < D.dims v) →
        (∀ j, D.law (data j) ≠ 0) →
        ∃ I, (D.influence o ot oa os on op ok oz q T Y c propensity ignored n (some data) true).run = some (.ok I) ∧
          ∀ (N' n' : ℕ) (data' : Fin N' → ℕ → ℕ), (∀ v ∈ D.dag.nodes, v < n') →
            (∀ j', ∃ j, ∀ v ∈ D.dag.nodes, data' j' v = data j v) →
            DiscreteDAG.influenceEval I.terms I.propensity n' data' = .ok fun j => φ (data' j) := by
  refine ⟨_, DiscreteDAG.component_efficient hD ot _ Finset.sdiff_subset _, fun N n data hn hdata hpos => ?_⟩
  obtain ⟨r, h1, h2⟩ := DiscreteDAG.influenceTerms_run o ot oa os on op ok oz hD hc hA hq hTY hT hY c hsep hn hdata hpos
  refine ⟨⟨r, propensity.getD (D.pr [T] fun _ => c)⟩, ?_, fun N' n' data' hn' hseen => ?_⟩
  · unfold DiscreteDAG.influence
    cases propensity with
    | some p =>
      simp only [pure_bind, if_true]
      rw [DiscreteDAG.run_bind_ok h1]; rfl
    | none =>
      obtain ⟨t, e1, e2, e3⟩ := DiscreteDAG.getMarginal_run hD hc o ot oa os hT
      dsimp only
      rw [DiscreteDAG.run_bind_ok e1]
      have hle : ¬ t.shape.headD 0 ≤ c := by rw [e2]; simpa using hcT
      simp only [hle, if_false, pure_bind, if_true]
      rw [DiscreteDAG.run_bind_ok h1, e3 c hcT]; rfl
  · rw [DiscreteDAG.influenceEval, DiscreteDAG.influence_fold h2]
    · dsimp only
      congr 1
      funext j
      rw [zero_add, DiscreteDAG.sum_imset ok D.dag ignored fun s => D.mean (DiscreteDAG.payoff T Y c) s (data' j)]
      rfl
    · intro s hs v hv
      rw [ok.mem_iff] at hs
      exact hn' v (DiscreteDAG.imsetKeys_sub hD hs hv)
    · intro s hs _ j'
      rw [ok.mem_iff] at hs
      obtain ⟨j, hj⟩ := hseen j'
      exact ⟨j, fun v hv => hj v (DiscreteDAG.imsetKeys_sub hD hs hv)⟩

/-- C161. There is only one such function on the values that have positive probability. -/
theorem C161_unique {α : Type} [DecidableEq α] {D : DiscreteDAG α} {S : Finset α} {g φ ψ : (α → ℕ) → ℝ}
    (h1 : D.EfficientInfluence S g φ) (h2 : D.EfficientInfluence S g ψ) {y : α → ℕ}
    (hy : y ∈ Spec.assignments D.dag.nodes D.dims) (h0 : D.law y ≠ 0) : φ y = ψ y :=
  h1.unique h2 hy h0

/-- An inference that is exact. -/
noncomputable def exactly (D : DiscreteDAG ℕ) : Query := fun N E =>
  .ok ⟨N.map D.dims, fun idx =>
    let y : ℕ → ℕ := fun v => if v ∈ N then idx.getD (N.idxOf v) 0 else (E.map Prod.snd).getD ((E.map Prod.fst).idxOf v) 0
    (D.pr (N ++ E.map Prod.fst) y / D.pr (E.map Prod.fst) y : ℝ≥0)⟩

theorem exactly_exact (D : DiscreteDAG ℕ) : D.ExactQuery (exactly D) := by
  intro N C _ hnd _ x _ _
  have e1 : (C.zip (C.map x)).map Prod.fst = C := List.map_fst_zip (by simp)
  have e2 : (C.zip (C.map x)).map Prod.snd = C.map x := List.map_snd_zip (by simp)
  refine ⟨_, rfl, rfl, fun y _ hyx => ?_⟩
  simp only [e1, e2]
  set z : ℕ → ℕ := fun v => if v ∈ N then (N.map y).getD (N.idxOf v) 0 else (C.map x).getD (C.idxOf v) 0 with hz
  have hzN : ∀ v ∈ N, z v = y v := fun v hv => by rw [hz]; dsimp only; rw [if_pos hv, getD_map_idxOf hv]
  have hzC : ∀ v ∈ C, z v = x v := fun v hv => by
    have : v ∉ N := fun h => List.disjoint_of_nodup_append hnd h hv
    rw [hz]; dsimp only; rw [if_neg this, getD_map_idxOf hv]
  have hpr : ∀ (L : List ℕ) (a b : ℕ → ℕ), (∀ v ∈ L, a v = b v) → D.pr L a = D.pr L b := by
    intro L a b h
    rw [DiscreteDAG.pr, DiscreteDAG.pr]
    congr 1
    funext w
    refine propext (forall₂_congr fun v hv => ?_)
    rw [h v hv]
  rw [hpr C z x hzC, hpr (N ++ C) z y fun v hv => ?_]
  rcases List.mem_append.1 hv with hv | hv
  · exact hzN v hv
  · rw [hzC v hv, hyx v hv]

/-- The chain with three binary nodes. -/
noncomputable abbrev chain3 : DiscreteDAG ℕ := Sample.natParity {0, 1, 2} {(0, 1), (1, 2)}

theorem chain3_imset : ∀ s, chain3.dag.standardImset ∅ s ≠ 0 → ¬ (0 ∈ s ∧ 2 ∈ s) := by
  intro s hs
  rw [← DiscreteDAG.mem_imsetKeys] at hs
  change s ∈ DiscreteDAG.imsetKeys (Sample.natGraph {0, 1, 2} {(0, 1), (1, 2)}) ∅ at hs
  revert s
  decide

example : ∃ φ : (ℕ → ℕ) → ℝ,
    chain3.EfficientInfluence (chain3.dag.nodes \ ∅)
      (fun y => (if y 0 = 1 then (y 2 : ℝ) else 0) / (none : Option ℝ).getD (chain3.pr [0] fun _ => 1)) φ ∧
    ∀ (N n : ℕ) (data : Fin N → ℕ → ℕ), (∀ v ∈ chain3.dag.nodes, v < n) → (∀ j, ∀ v ∈ chain3.dag.nodes, data j v < chain3.dims v) →
      (∀ j, chain3.law (data j) ≠ 0) →
      ∃ I, (chain3.influence Sample.order Sample.order Sample.order Sample.order Sample.order Sample.order Sample.order
        Sample.order (exactly chain3) 0 2 1 none ∅ n (some data) true).run = some (.ok I) ∧
        ∀ (N' n' : ℕ) (data' : Fin N' → ℕ → ℕ), (∀ v ∈ chain3.dag.nodes, v < n') →
          (∀ j', ∃ j, ∀ v ∈ chain3.dag.nodes, data' j' v = data j v) →
          DiscreteDAG.influenceEval I.terms I.propensity n' data' = .ok fun j => φ (data' j) :=
  C161_influence_partial (Sample.natParity_proper (by decide)) (Sample.natParity_cut _ _) (fun v _ => rfl) _ _ _ _ _ _ _ _
    (exactly_exact _) (by decide) (by decide) (by decide) (by decide) none chain3_imset

example : (∀ v ∈ chain3.dag.nodes, v < 3) ∧
    (∀ j : Fin 4, ∀ v ∈ chain3.dag.nodes, (fun (j : Fin 4) (v : ℕ) => if v = 1 then j.val % 2 else j.val / 2) j v < chain3.dims v) ∧
    ∀ j : Fin 4, chain3.law ((fun (j : Fin 4) (v : ℕ) => if v = 1 then j.val % 2 else j.val / 2) j) ≠ 0 :=
  ⟨by decide, by intro j v _; fin_cases j <;> (by_cases h : v = 1 <;> simp [h, chain3, Sample.natParity, DiscreteDAG.dims]),
    fun j => Sample.natParity_law _ _ _⟩

/-- C162. The function raises whenever a set of `get_standard_imset` contains both nodes, whatever the inference answers. -/
theorem C162_both_raise (hD : D.Proper) (hc : D.Cut) (o ot : SetOrder (Option ℕ) ℕ)
    (oa : SetOrder Bool (ℕ × ℕ)) (os : SetOrder (ℕ × Finset ℕ) ℕ) (on : SetOrder Unit ℕ) (op : SetOrder (Finset ℕ) ℕ)
    (ok : SetOrder Unit (Finset ℕ)) (oz : SetOrder (List ℕ) (List ℕ)) (q : Query) {T Y c : ℕ} (hTY : T ≠ Y)
    (hT : T ∈ D.dag.nodes) (hY : Y ∈ D.dag.nodes) (propensity : Option ℝ) {ignored s : Finset ℕ}
    (hs : D.dag.standardImset ignored s ≠ 0) (hTs : T ∈ s) (hYs : Y ∈ s) {N : ℕ} (hN : 0 < N) (n : ℕ) (data : Fin N → ℕ → ℕ)
    (isPartial : Bool) :
    ∃ e, (D.influence o ot oa os on op ok oz q T Y c propensity ignored n (some data) isPartial).run = some (.error e) := by
  obtain ⟨e, he⟩ := DiscreteDAG.termOf_both o ot oa os on op oz (D := D) q (c := c) ignored hN n data hTs hYs
  exact DiscreteDAG.influence_raises o ot oa os on op ok oz hD hc q hTY hT hY propensity ignored n _ isPartial hs he

/-- The two binary nodes with an arc. -/
noncomputable abbrev pair2 : DiscreteDAG ℕ := Sample.natParity {0, 1} {(0, 1)}

/-- C161, violated: with an arc from the condition to the target nothing is returned, although all rows have positive probability and the
inference is exact. -/
theorem C161_violated : ∃ (D : DiscreteDAG ℕ) (q : Query), D.Proper ∧ D.Cut ∧ D.Counting ∧ D.ExactQuery q ∧
    D.dag.nodes = {0, 1} ∧ D.dag.arcs = {(0, 1)} ∧ (∀ x, D.law x ≠ 0) ∧
    ∀ o ot oa os on op ok oz (propensity : Option ℝ) (N n : ℕ) (data : Fin (N + 1) → ℕ → ℕ), ∃ e,
      (D.influence o ot oa os on op ok oz q 0 1 1 propensity ∅ n (some data) true).run = some (.error e) := by
  refine ⟨pair2, exactly pair2, Sample.natParity_proper (by decide), Sample.natParity_cut _ _, fun v _ => rfl, exactly_exact _, rfl, rfl,
    Sample.natParity_law _ _, fun o ot oa os on op ok oz propensity N n data => ?_⟩
  refine C162_both_raise (Sample.natParity_proper (by decide)) (Sample.natParity_cut _ _) o ot oa os on op ok oz _ (by decide)
    (by decide) (by decide) propensity (s := {0, 1}) ?_ (by decide) (by decide) (Nat.succ_pos N) n data true
  rw [← DiscreteDAG.mem_imsetKeys]
  change ({0, 1} : Finset ℕ) ∈ DiscreteDAG.imsetKeys (Sample.natGraph {0, 1} {(0, 1)}) ∅
  decide

/-- C163. The returned function raises `KeyError` on a row some set of whose values does not occur among the samples given before. -/
theorem C163_unseen (hD : D.Proper) (hc : D.Cut) (hA : D.Counting) (o ot : SetOrder (Option ℕ) ℕ)
    (oa : SetOrder Bool (ℕ × ℕ)) (os : SetOrder (ℕ × Finset ℕ) ℕ) (on : SetOrder Unit ℕ) (op : SetOrder (Finset ℕ) ℕ)
    (ok : SetOrder Unit (Finset ℕ)) (oz : SetOrder (List ℕ) (List ℕ)) {q : Query} (hq : D.ExactQuery q) {T Y c : ℕ} (hTY : T ≠ Y)
    (hT : T ∈ D.dag.nodes) (hY : Y ∈ D.dag.nodes) (propensity : Option ℝ) {ignored : Finset ℕ}
    (hsep : ∀ s, D.dag.standardImset ignored s ≠ 0 → ¬ (T ∈ s ∧ Y ∈ s)) {N n : ℕ} {data : Fin N → ℕ → ℕ}
    (hn : ∀ v ∈ D.dag.nodes, v < n) (hdata : ∀ j, ∀ v ∈ D.dag.nodes, data j v < D.dims v) (hpos : ∀ j, D.law (data j) ≠ 0)
    {I : DiscreteDAG.Influence}
    (hI : (D.influence o ot oa os on op ok oz q T Y c propensity ignored n (some data) true).run = some (.ok I))
    {N' n' : ℕ} {data' : Fin N' → ℕ → ℕ} (hn' : ∀ v ∈ D.dag.nodes, v < n') {s : Finset ℕ}
    (hs : D.dag.standardImset ignored s ≠ 0) (hs0 : s ≠ ∅) {j' : Fin N'} (hj : ∀ j, ∃ v ∈ s, data' j' v ≠ data j v) :
    DiscreteDAG.influenceEval I.terms I.propensity n' data' = .error .key := by
  obtain ⟨r, h1, h2⟩ := DiscreteDAG.influenceTerms_run o ot oa os on op ok oz hD hc hA hq hTY hT hY c hsep hn hdata hpos
  have hr : I.terms = r := by
    unfold DiscreteDAG.influence at hI
    cases propensity with
    | some p =>
      simp only [pure_bind, if_true] at hI
      rw [DiscreteDAG.run_bind_ok h1] at hI
      cases hI; rfl
    | none =>
      obtain ⟨t, e1, e2, e3⟩ := DiscreteDAG.getMarginal_run hD hc o ot oa os hT
      dsimp only at hI
      rw [DiscreteDAG.run_bind_ok e1] at hI
      by_cases hle : t.shape.headD 0 ≤ c
      · rw [if_pos hle] at hI; cases hI
      · rw [if_neg hle] at hI
        simp only [pure_bind, if_true] at hI
        rw [DiscreteDAG.run_bind_ok h1] at hI
        cases hI; rfl
  rw [DiscreteDAG.influenceEval, hr, DiscreteDAG.influence_fold_unseen h2 ?_
    ((ok.mem_iff () _ s).2 ((DiscreteDAG.mem_imsetKeys _ _ _).2 hs)) hs0 hj]
  intro s hs v hv
  rw [ok.mem_iff] at hs
  exact hn' v (DiscreteDAG.imsetKeys_sub hD hs hv)

example : chain3.dag.standardImset ∅ {1, 2} ≠ 0 ∧ ({1, 2} : Finset ℕ) ≠ ∅ ∧
    ∀ j : Fin 1, ∃ v ∈ ({1, 2} : Finset ℕ), (fun (_ : Fin 1) (v : ℕ) => if v = 1 then 1 else 0) 0 v ≠
      (fun (_ : Fin 1) (_ : ℕ) => 0) j v := by
  refine ⟨?_, by decide, fun j => ⟨1, by decide, by simp⟩⟩
  rw [← DiscreteDAG.mem_imsetKeys]
  change ({1, 2} : Finset ℕ) ∈ DiscreteDAG.imsetKeys (Sample.natGraph {0, 1, 2} {(0, 1), (1, 2)}) ∅
  decide

/-- C164. With `partial=False` the function always raises. -/
theorem C164_full_raises (hD : D.Proper) (hc : D.Cut) (o ot : SetOrder (Option ℕ) ℕ)
    (oa : SetOrder Bool (ℕ × ℕ)) (os : SetOrder (ℕ × Finset ℕ) ℕ) (on : SetOrder Unit ℕ) (op : SetOrder (Finset ℕ) ℕ)
    (ok : SetOrder Unit (Finset ℕ)) (oz : SetOrder (List ℕ) (List ℕ)) (q : Query) {T Y c : ℕ}
    (hT : T ∈ D.dag.nodes) (propensity : Option ℝ) (ignored : Finset ℕ) {N : ℕ} (n : ℕ) (sampled : Option (Fin N → ℕ → ℕ)) :
    ∃ e, (D.influence o ot oa os on op ok oz q T Y c propensity ignored n sampled false).run = some (.error e) := by
  unfold DiscreteDAG.influence
  cases propensity with
  | some p => exact ⟨.plain, rfl⟩
  | none =>
    obtain ⟨t, e1, -, -⟩ := DiscreteDAG.getMarginal_run hD hc o ot oa os hT
    dsimp only
    rw [DiscreteDAG.run_bind_ok e1]
    by_cases hle : t.shape.headD 0 ≤ c
    · rw [if_pos hle]; exact ⟨.index, rfl⟩
    · rw [if_neg hle]; exact ⟨.plain, rfl⟩

/-- C164. It also raises without samples (the default) unless all nodes are ignored. -/
theorem C164_no_samples (hD : D.Proper) (hc : D.Cut) (o ot : SetOrder (Option ℕ) ℕ)
    (oa : SetOrder Bool (ℕ × ℕ)) (os : SetOrder (ℕ × Finset ℕ) ℕ) (on : SetOrder Unit ℕ) (op : SetOrder (Finset ℕ) ℕ)
    (ok : SetOrder Unit (Finset ℕ)) (oz : SetOrder (List ℕ) (List ℕ)) (q : Query) {T Y c : ℕ} (hTY : T ≠ Y)
    (hT : T ∈ D.dag.nodes) (hY : Y ∈ D.dag.nodes) (propensity : Option ℝ) {ignored : Finset ℕ} (hi : ¬ D.dag.nodes ⊆ ignored)
    (N n : ℕ) (isPartial : Bool) :
    ∃ e, (D.influence o ot oa os on op ok oz q T Y c propensity ignored n (none : Option (Fin N → ℕ → ℕ)) isPartial).run =
      some (.error e) := by
  obtain ⟨s, hs, hs'⟩ := DiscreteDAG.exists_key hD ot (ignored := ignored) (Finset.sdiff_nonempty.2 hi)
  exact DiscreteDAG.influence_raises o ot oa os on op ok oz hD hc q hTY hT hY propensity ignored n _ isPartial hs'
    (DiscreteDAG.termOf_none o ot oa os on op oz q ignored n hs)

example : ∃ e, (chain3.influence Sample.order Sample.order Sample.order Sample.order Sample.order Sample.order Sample.order
    Sample.order (exactly chain3) 0 2 1 none ∅ 3 (none : Option (Fin 0 → ℕ → ℕ)) true).run = some (.error e) :=
  C164_no_samples (Sample.natParity_proper (by decide)) (Sample.natParity_cut _ _) _ _ _ _ _ _ _ _ _ (by decide) (by decide)
    (by decide) none (by decide) 0 3 true

example : ∃ e, (chain3.influence Sample.order Sample.order Sample.order Sample.order Sample.order Sample.order Sample.order
    Sample.order (exactly chain3) 0 2 1 none ∅ 3 (some fun (_ : Fin 1) _ => 0) false).run = some (.error e) :=
  C164_full_raises (Sample.natParity_proper (by decide)) (Sample.natParity_cut _ _) _ _ _ _ _ _ _ _ _ (by decide) none ∅ 3 _

end Props
