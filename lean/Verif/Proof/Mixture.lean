import Verif.Model.Interventions
import Verif.Spec.Mixture

/-! # Sampling from mixtures -/

namespace Model

set_option linter.unusedSectionVars false
open Spec MeasureTheory ProbabilityTheory

variable {S : Type} {m : ℕ}

theorem mem_whereEq {c : Fin m → ℕ} {k : ℕ} {i : Fin m} : i ∈ whereEq c k ↔ c i = k := by simp [whereEq]

theorem whereEq_nodup (c : Fin m → ℕ) (k : ℕ) : (whereEq c k).Nodup := (List.nodup_finRange m).filter _

theorem assignAt_not_mem {ixs : List (Fin m)} {i : Fin m} (hi : i ∉ ixs) (s : Fin m → S) (vals : List S) :
    assignAt s ixs vals i = s i := by
  induction ixs generalizing s vals with
  | nil => simp [assignAt]
  | cons a ixs ih =>
    cases vals with
    | nil => simp [assignAt]
    | cons v vals =>
      rw [List.mem_cons, not_or] at hi
      have := ih hi.2 (Function.update s a v) vals
      rw [Function.update_of_ne hi.1] at this
      exact this

theorem assignAt_mem {ixs : List (Fin m)} (hn : ixs.Nodup) {i : Fin m} (hi : i ∈ ixs) (s : Fin m → S) (g : Fin ixs.length → S) :
    assignAt s ixs (List.ofFn g) i = g ⟨ixs.idxOf i, List.idxOf_lt_length_of_mem hi⟩ := by
  induction ixs generalizing s with
  | nil => simp at hi
  | cons a ixs ih =>
    rw [List.nodup_cons] at hn
    have e : assignAt s (a :: ixs) (List.ofFn g) = assignAt (Function.update s a (g 0)) ixs (List.ofFn fun j => g j.succ) := by
      rw [List.ofFn_succ]; rfl
    rw [e]
    by_cases hia : i = a
    · subst hia
      rw [assignAt_not_mem hn.1, Function.update_self]
      congr 1
      exact Fin.ext (by simp)
    · have hi' : i ∈ ixs := by simpa [hia] using hi
      rw [ih hn.2 hi']
      congr 1
      exact Fin.ext (by simp [List.idxOf_cons_ne _ (Ne.symm hia)])

/-- The position of `i` among those with the same choice. -/
def rank (c : Fin m → ℕ) (i : Fin m) : Fin (whereEq c (c i)).length :=
  ⟨(whereEq c (c i)).idxOf i, List.idxOf_lt_length_of_mem (mem_whereEq.2 rfl)⟩

theorem getElem_rank (c : Fin m → ℕ) (i : Fin m) : (whereEq c (c i))[rank c i] = i := by
  simp [rank]

theorem binarySample_eq [Zero S] (d : Fin 2 → (s : ℕ) → Fin s → S) {c : Fin m → ℕ} (hc : ∀ i, c i < 2) (i : Fin m) :
    binarySample (fun s => List.ofFn (d 1 s)) (fun s => List.ofFn (d 0 s)) c i = d ⟨c i, hc i⟩ _ (rank c i) := by
  unfold binarySample
  dsimp only
  by_cases h0 : c i = 0
  · rw [assignAt_mem (whereEq_nodup c 0) (mem_whereEq.2 h0)]
    have : ∀ (k : ℕ) (hk : k < 2) (e : c i = k) (hi : i ∈ whereEq c k),
        d ⟨k, hk⟩ _ ⟨(whereEq c k).idxOf i, List.idxOf_lt_length_of_mem hi⟩ = d ⟨c i, hc i⟩ _ (rank c i) := by
      rintro _ _ rfl _; rfl
    exact this 0 (by decide) h0 (mem_whereEq.2 h0)
  · have h1 : c i = 1 := by have := hc i; omega
    rw [assignAt_not_mem (by simpa [mem_whereEq] using h0), assignAt_mem (whereEq_nodup c 1) (mem_whereEq.2 h1)]
    have : ∀ (k : ℕ) (hk : k < 2) (e : c i = k) (hi : i ∈ whereEq c k),
        d ⟨k, hk⟩ _ ⟨(whereEq c k).idxOf i, List.idxOf_lt_length_of_mem hi⟩ = d ⟨c i, hc i⟩ _ (rank c i) := by
      rintro _ _ rfl _; rfl
    exact this 1 (by decide) h1 (mem_whereEq.2 h1)

theorem fold_assign (c : Fin m → ℕ) (i : Fin m) (L : List ((ℕ → List S) × ℕ)) (s : Fin m → S)
    (hn : (L.map Prod.snd).Nodup) :
    ((∀ x ∈ L, x.2 ≠ c i) → L.foldl (fun samples iv => assignAt samples (whereEq c iv.2) (iv.1 (whereEq c iv.2).length)) s i = s i) ∧
      ∀ g : (s : ℕ) → Fin s → S, ((fun s => List.ofFn (g s)), c i) ∈ L →
        L.foldl (fun samples iv => assignAt samples (whereEq c iv.2) (iv.1 (whereEq c iv.2).length)) s i = g _ (rank c i) := by
  induction L generalizing s with
  | nil => simp
  | cons x L ih =>
    rw [List.map_cons, List.nodup_cons] at hn
    rw [List.foldl_cons]
    obtain ⟨h1, h2⟩ := ih (assignAt s (whereEq c x.2) (x.1 (whereEq c x.2).length)) hn.2
    refine ⟨fun h => ?_, fun g hg => ?_⟩
    · rw [h1 fun y hy => h y (by simp [hy]), assignAt_not_mem fun hi => h x (by simp) (mem_whereEq.1 hi).symm]
    · rcases List.mem_cons.1 hg with rfl | hg
      · rw [h1 fun y hy e => hn.1 (List.mem_map.2 ⟨y, hy, e⟩)]
        exact assignAt_mem (whereEq_nodup c _) (mem_whereEq.2 rfl) s _
      · exact h2 g hg

theorem multinomialSample_eq [Zero S] {K : ℕ} (d : Fin K → (s : ℕ) → Fin s → S) {c : Fin m → ℕ} (hc : ∀ i, c i < K) (i : Fin m) :
    multinomialSample (List.ofFn fun k => fun s => List.ofFn (d k s)) c i = d ⟨c i, hc i⟩ _ (rank c i) := by
  unfold multinomialSample
  refine (fold_assign c i _ 0 ?_).2 (d ⟨c i, hc i⟩) ?_
  · rw [List.zipIdx_map_snd]
    exact List.nodup_range'
  · rw [List.mem_zipIdx_iff_getElem?]
    simp [hc i]

section Law

variable {Ω : Type} [MeasurableSpace Ω] [MeasurableSpace S] {K : ℕ} {μ : Measure Ω} {q : Measure (Fin K)} {P : Fin K → Measure S}
  {choices : Ω → Fin m → Fin K} {draws : Fin K → (s : ℕ) → Ω → Fin s → S} [IsProbabilityMeasure μ] [IsProbabilityMeasure q]
  [∀ k, IsProbabilityMeasure (P k)]

/-- The sample for given choices. -/
def pickDraw (d : Fin K → (s : ℕ) → Fin s → S) (c : Fin m → Fin K) (i : Fin m) : S := d (c i) _ (rank (fun i => (c i).val) i)

theorem measurable_pickDraw (h : MixtureDraws μ q P choices draws) :
    Measurable fun ω => pickDraw (fun k s => draws k s ω) (choices ω) := by
  have h1 : Measurable fun x : (Fin m → Fin K) × Ω => pickDraw (fun k s => draws k s x.2) x.1 := by
    refine measurable_from_prod_countable_right fun c => measurable_pi_lambda _ fun i => ?_
    exact (measurable_pi_apply (rank (fun i => (c i).val) i)).comp (h.meas (c i) _)
  exact h1.comp (h.meas_choices.prodMk measurable_id)

theorem prod_whereEq (g : Fin m → ENNReal) (c : Fin m → Fin K) (k : Fin K) :
    ∏ j : Fin (whereEq (fun i => (c i).val) k).length, g (whereEq (fun i => (c i).val) k)[j] = ∏ i with c i = k, g i := by
  have h1 := Fin.prod_univ_fun_getElem (whereEq (fun i => (c i).val) k) g
  have h2 := List.prod_toFinset g (whereEq_nodup (fun i => (c i).val) k)
  refine h1.trans (h2.symm.trans (Finset.prod_congr ?_ fun _ _ => rfl))
  ext i
  simp [mem_whereEq, Fin.ext_iff]

theorem pickDraw_law (h : MixtureDraws μ q P choices draws) :
    μ.map (fun ω => pickDraw (fun k s => draws k s ω) (choices ω)) = Measure.pi fun _ => ∑ k, q {k} • P k := by
  have hp : IsProbabilityMeasure (∑ k, q {k} • P k) := ⟨by
    rw [Measure.finsetSum_apply]
    simp only [Measure.smul_apply, measure_univ, smul_eq_mul, mul_one]
    rw [sum_measure_singleton]
    simp⟩
  refine (Measure.pi_eq fun B hB => ?_).symm
  rw [Measure.map_apply (measurable_pickDraw h) (MeasurableSet.univ_pi hB)]
  let cnt (c : Fin m → Fin K) (k : Fin K) : ℕ := (whereEq (fun i => (c i).val) k).length
  let R (c : Fin m → Fin K) (k : Fin K) : Set (Fin (cnt c k) → S) :=
    Set.univ.pi fun j => B (whereEq (fun i => (c i).val) k)[j]
  have hR : ∀ c k, MeasurableSet (R c k) := fun c k => MeasurableSet.univ_pi fun j => hB _
  have hset : ∀ c, (choices ⁻¹' {c}) ∩ ((fun ω => pickDraw (fun k s => draws k s ω) (choices ω)) ⁻¹' Set.univ.pi B) =
      (choices ⁻¹' {c}) ∩ ((fun ω k => draws k (cnt c k) ω) ⁻¹' Set.univ.pi (R c)) := by
    intro c
    ext ω
    simp only [Set.mem_inter_iff, Set.mem_preimage, Set.mem_singleton_iff, Set.mem_pi, Set.mem_univ, true_imp_iff]
    refine and_congr_right fun hc => ?_
    subst hc
    constructor
    · intro hi k j hj
      clear hj
      let i := (whereEq (fun i => (choices ω i).val) k)[j]
      have hi' := hi i
      have hmem : i ∈ whereEq (fun i => (choices ω i).val) k := List.getElem_mem _
      have hk : choices ω i = k := Fin.ext (mem_whereEq (c := fun i => (choices ω i).val) |>.1 hmem)
      have hr : (rank (fun i => (choices ω i).val) i).val = j.val := by
        change (whereEq (fun i => (choices ω i).val) (choices ω i)).idxOf i = j.val
        rw [hk]
        exact (whereEq_nodup _ _).idxOf_getElem _ _
      have : ∀ k' (e : choices ω i = k') (j' : Fin (cnt (choices ω) k')), j'.val = (rank (fun i => (choices ω i).val) i).val →
          draws k' _ ω j' = pickDraw (fun k s => draws k s ω) (choices ω) i := by
        rintro _ rfl j' hj'
        have : j' = rank (fun i => (choices ω i).val) i := Fin.ext hj'
        rw [this]; rfl
      have e := this k hk j hr.symm
      change draws k _ ω j ∈ B i
      rw [e]
      exact hi'
    · intro hk i
      have := hk (choices ω i) (rank (fun i => (choices ω i).val) i) (Set.mem_univ _)
      have e := getElem_rank (fun i => (choices ω i).val) i
      dsimp only at this e
      rw [e] at this
      exact this
  have hmS : MeasurableSet ((fun ω => pickDraw (fun k s => draws k s ω) (choices ω)) ⁻¹' Set.univ.pi B) :=
    measurable_pickDraw h (MeasurableSet.univ_pi hB)
  have hsum : μ ((fun ω => pickDraw (fun k s => draws k s ω) (choices ω)) ⁻¹' Set.univ.pi B) =
      ∑ c, μ ((choices ⁻¹' {c}) ∩ ((fun ω => pickDraw (fun k s => draws k s ω) (choices ω)) ⁻¹' Set.univ.pi B)) := by
    rw [← measure_biUnion_finset]
    · congr 1
      ext ω
      simp
    · intro c _ c' _ hne
      refine Set.disjoint_left.2 fun ω h1 h2 => hne ?_
      exact (h1.1 : choices ω = c).symm.trans h2.1
    · exact fun c _ => (h.meas_choices (measurableSet_singleton c)).inter hmS
  rw [hsum]
  have hterm : ∀ c, μ ((choices ⁻¹' {c}) ∩ ((fun ω => pickDraw (fun k s => draws k s ω) (choices ω)) ⁻¹' Set.univ.pi B)) =
      ∏ i, q {c i} * P (c i) (B i) := by
    intro c
    rw [hset c, (h.indep_choices (cnt c)).measure_inter_preimage_eq_mul _ _ (measurableSet_singleton c) (MeasurableSet.univ_pi (hR c)),
      Finset.prod_mul_distrib]
    congr 1
    · rw [← Measure.map_apply h.meas_choices (measurableSet_singleton c), h.law_choices, Measure.pi_singleton]
    · have e : (fun ω k => draws k (cnt c k) ω) ⁻¹' Set.univ.pi (R c) = ⋂ k ∈ Finset.univ, (draws k (cnt c k)) ⁻¹' R c k := by
        ext ω; simp [Set.mem_pi]
      rw [e, (h.indep (cnt c)).measure_inter_preimage_eq_mul Finset.univ fun k _ => hR c k]
      have e2 : ∀ k, μ ((draws k (cnt c k)) ⁻¹' R c k) = ∏ i with c i = k, P (c i) (B i) := by
        intro k
        rw [← Measure.map_apply (h.meas k _) (hR c k), h.law, Measure.pi_pi]
        refine (prod_whereEq (fun i => P k (B i)) c k).trans (Finset.prod_congr rfl fun i hi => ?_)
        rw [(Finset.mem_filter.1 hi).2]
      simp only [e2]
      exact Finset.prod_fiberwise Finset.univ c fun i => P (c i) (B i)
  simp only [hterm]
  have hfin := Finset.prod_univ_sum (fun _ : Fin m => (Finset.univ : Finset (Fin K))) (fun i k => q {k} * P k (B i))
  rw [Fintype.piFinset_univ] at hfin
  rw [← hfin]
  refine Finset.prod_congr rfl fun i _ => ?_
  rw [Measure.finsetSum_apply]
  simp

end Law

end Model
