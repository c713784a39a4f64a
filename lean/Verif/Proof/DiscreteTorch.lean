import Verif.Model.DiscreteTorch
import Verif.Proof.DiscreteMarginals

/-! # Marginals of `DiscreteDAGTorch` -/

namespace Model.DiscreteDAG

open Spec
open scoped NNReal ENNReal

variable {α : Type} [DecidableEq α] {D : DiscreteDAG α}

theorem sumNames_eq {R : Type} [AddCommMonoid R] {s d : α → ℕ} : ∀ {l : List α} (_ : ∀ v ∈ l, s v = d v) (f : (α → ℕ) → R) (x : α → ℕ),
    sumNames s l f x = sumL d l f x
  | [], _, _, _ => rfl
  | v :: l, h, f, x => by
    rw [sumNames, sumL, h v (by simp)]
    exact Finset.sum_congr rfl fun i _ => sumNames_eq (fun u hu => h u (by simp [hu])) f _

theorem axisSize_eq (hD : D.Shaped) {t : List α} (ht : ∀ v ∈ t, v ∈ D.dag.nodes) {u : α} (hu : ∃ v ∈ t, u ∈ D.pars v ++ [v]) :
    axisSize (t.map fun v => (D.pars v ++ [v], D.cond v)) u = D.dims u := by
  unfold axisSize
  cases h : (t.map fun v => (D.pars v ++ [v], D.cond v)).find? fun s => decide (u ∈ s.1) with
  | none =>
    obtain ⟨v, hv, huv⟩ := hu
    rw [List.find?_eq_none] at h
    exact absurd (decide_eq_true huv) (h _ (List.mem_map_of_mem hv))
  | some s =>
    obtain ⟨v, hv, rfl⟩ := List.mem_map.1 (List.mem_of_find?_eq_some h)
    have hs : u ∈ D.pars v ++ [v] := by simpa using List.find?_some h
    change (D.cond v).shape.getD ((D.pars v ++ [v]).idxOf u) 0 = _
    rw [hD.shape v (ht v hv)]
    have hlt := List.idxOf_lt_length_of_mem hs
    rw [List.getD_eq_getElem?_getD, List.getElem?_eq_getElem (by rw [List.length_map]; exact hlt), Option.getD_some, List.getElem_map, List.getElem_idxOf]

theorem einsumMarginals_run (hD : D.Proper) (o ot : SetOrder (Option α) α) (oa : SetOrder Bool (α × α))
    (os : SetOrder (α × Finset α) α) (on : SetOrder Unit α) {M : List α} (hM : M.Nodup) (h0 : M ≠ [])
    (hMn : ∀ v ∈ M, v ∈ D.dag.nodes) :
    ∃ T, (D.einsumMarginals o ot oa os on M).run = some (.ok T) ∧ T.shape = M.map D.dims ∧
      ∀ x : α → ℕ, (∀ v ∈ M, x v < D.dims v) → T.val (M.map x) = D.pr M x := by
  obtain ⟨A, hA1, hA⟩ := ancestral_spec hD.valid o oa os M (on.ord () M.toFinset) hMn (by simp [on.mem_iff])
  obtain ⟨t, ht1, ht⟩ := DAG.topologicalSort_ok A ot hA.valid
  have htn : ∀ v ∈ t, v ∈ D.dag.nodes := fun v hv => hA.sub v ((ht.mem_iff v).1 hv)
  have hnames : ∀ u, (∃ v ∈ t, u ∈ D.pars v ++ [v]) ↔ u ∈ t := by
    intro u
    constructor
    · rintro ⟨v, hv, hu⟩
      rcases List.mem_append.1 hu with hu | hu
      · exact (ht.mem_iff u).2 (hA.closed ((hD.pars_iff v (htn v hv) u).1 hu) ((ht.mem_iff v).1 hv))
      · rw [List.mem_singleton.1 hu]; exact hv
    · exact fun hu => ⟨u, hu, by simp⟩
  have hMt : ∀ v ∈ M, v ∈ t := fun v hv => (ht.mem_iff v).2 (hA.mem v hv)
  set ts := t.map fun v => (D.pars v ++ [v], D.cond v) with hts
  have hsz : ∀ u ∈ t, axisSize ts u = D.dims u := fun u hu => axisSize_eq hD.toShaped htn ((hnames u).2 hu)
  set gone := (ts.flatMap Prod.fst).dedup.filter fun d => decide (d ∉ M) with hgone
  have hmem : ∀ u, u ∈ ts.flatMap Prod.fst ↔ u ∈ t := by
    intro u
    rw [List.mem_flatMap, ← hnames u, hts]
    constructor
    · rintro ⟨s, hs, hu⟩
      obtain ⟨v, hv, rfl⟩ := List.mem_map.1 hs
      exact ⟨v, hv, hu⟩
    · rintro ⟨v, hv, hu⟩
      exact ⟨_, List.mem_map_of_mem hv, hu⟩
  have hgm : ∀ u, u ∈ gone ↔ u ∈ t ∧ u ∉ M := by
    intro u
    rw [hgone, List.mem_filter, List.mem_dedup, hmem, decide_eq_true_iff]
  have hperm : (M ++ gone).Perm t := by
    refine (List.perm_ext_iff_of_nodup ?_ ht.nodup).2 fun u => ?_
    · exact List.nodup_append.2 ⟨hM, (List.nodup_dedup _).filter _, fun a ha b hb e => ((hgm b).1 hb).2 (e ▸ ha)⟩
    · rw [List.mem_append, hgm]
      constructor
      · rintro (h | h)
        · exact hMt u h
        · exact h.1
      · intro h
        by_cases hm : u ∈ M
        · exact .inl hm
        · exact .inr ⟨h, hm⟩
  have hok : ts ≠ [] ∧ M.Nodup ∧ (∀ d ∈ M, ∃ s ∈ ts, d ∈ s.1) ∧ ∀ s ∈ ts, s.2.shape = s.1.map (axisSize ts) := by
    refine ⟨fun e => ?_, hM, fun d hd => ?_, fun s hs => ?_⟩
    · obtain ⟨v, hv⟩ := List.exists_mem_of_ne_nil _ h0
      have hv' := hMt v hv
      rw [List.map_eq_nil_iff.1 e] at hv'
      simp at hv'
    · exact ⟨_, List.mem_map_of_mem (hMt d hd), by simp⟩
    · obtain ⟨v, hv, rfl⟩ := List.mem_map.1 hs
      change (D.cond v).shape = _
      rw [hD.shape v (htn v hv)]
      exact List.map_congr_left fun u hu => (hsz u ((hnames u).1 ⟨v, hv, hu⟩)).symm
  refine ⟨⟨M.map (axisSize ts), fun idx => sumNames (axisSize ts) gone (fun y => (ts.map fun t => t.2.val (t.1.map y)).prod)
    fun d => idx.getD (M.idxOf d) 0⟩, ?_, List.map_congr_left fun u hu => hsz u (hMt u hu), fun x hx => ?_⟩
  · rw [einsumMarginals, run_bind_ok hA1, run_bind_ok ht1]
    change some (einopsEinsum ts M) = _
    rw [einopsEinsum, if_pos hok]
  · have hxM : ∀ v ∈ M, (M.map x).getD (M.idxOf v) 0 = x v := by
      intro v hv
      have hlt := List.idxOf_lt_length_of_mem hv
      rw [List.getD_eq_getElem?_getD, List.getElem?_eq_getElem (by rw [List.length_map]; exact hlt), Option.getD_some, List.getElem_map, List.getElem_idxOf]
    change sumNames (axisSize ts) gone _ _ = _
    rw [sumNames_eq fun v hv => hsz v ((hgm v).1 hv).1]
    have := hA.prob hD ht hperm o (fun d => (M.map x).getD (M.idxOf d) 0) fun v hv => by
      rw [hxM v hv]
      exact hx v hv
    have e : (fun y : α → ℕ => (ts.map fun s => s.2.val (s.1.map y)).prod) = fun y => (t.map fun v => D.kern v y).prod := by
      funext y
      rw [hts, List.map_map]
      rfl
    rw [e, this, pr]
    congr 1
    funext y
    exact propext ⟨fun h v hv => (h v hv).trans (hxM v hv), fun h v hv => (h v hv).trans (hxM v hv).symm⟩

theorem einsumMarginals_empty (hD : D.Proper) (o ot : SetOrder (Option α) α) (oa : SetOrder Bool (α × α))
    (os : SetOrder (α × Finset α) α) (on : SetOrder Unit α) (f : EReal → ℝ≥0∞) :
    (D.einsumMarginals o ot oa os on []).run = some (.error .plain) ∧ (D.torchMarginals o ot oa os on f []).run = some (.error .index) := by
  obtain ⟨A, hA1, hA⟩ := ancestral_spec hD.valid o oa os [] (on.ord () (List.toFinset [])) (by simp) (by simp [on.mem_iff])
  obtain ⟨t, ht1, ht⟩ := DAG.topologicalSort_ok A ot hA.valid
  have h0 : t = [] := List.eq_nil_iff_forall_not_mem.2 fun v hv => by
    obtain ⟨s, hs, -⟩ := (hA.nodes_iff v).1 ((ht.mem_iff v).1 hv)
    simp at hs
  subst h0
  constructor
  · rw [einsumMarginals, run_bind_ok hA1, run_bind_ok ht1]
    change some (einopsEinsum [] []) = _
    rw [einopsEinsum, if_neg (by simp)]
  · rw [torchMarginals, getMarginalsBy, run_bind_ok hA1, run_bind_ok ht1]
    rfl

end Model.DiscreteDAG
