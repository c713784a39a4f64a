import Verif.Proof.DiscreteMarginals

/-! # `get_marginals_new` -/

set_option linter.unusedSectionVars false

namespace Model

open Spec Relation
open scoped NNReal ENNReal

theorem Wp.total {ε β : Type} {m : ExceptT ε Option β} {P : β → Prop} {Q : ε → Prop} (h : Wp m P Q) :
    ∃ r, m.run = some r ∧ (∀ b, r = .ok b → P b) ∧ ∀ e, r = .error e → Q e := by
  rcases h with ⟨b, h1, h2⟩ | ⟨e, h1, h2⟩
  · exact ⟨_, h1, by rintro b' ⟨⟩; exact h2, by rintro e ⟨⟩⟩
  · exact ⟨_, h1, by rintro b' ⟨⟩, by rintro e' ⟨⟩; exact h2⟩

namespace DiscreteDAG

variable {α R : Type} [DecidableEq α] {D : DiscreteDAG α}

/-- Some parents are missing: `einops` complains about the number of axes. -/
theorem addVariable_missing (hD : D.Tabled) {cur : List α} {table : Tensor EReal} {v : α} (hv : v ∈ D.dag.nodes)
    (hp : ¬ ∀ u ∈ D.pars v, u ∈ cur) :
    addVariable table cur (D.cond v) D.dims ((D.pars v).filter (· ∈ cur)) = .error .plain := by
  have hlen : ((D.pars v).filter (· ∈ cur)).length < (D.pars v).length := by
    push Not at hp
    obtain ⟨u, hu, hn⟩ := hp
    rw [List.length_filter_lt_length_iff_exists]
    exact ⟨u, hu, by simpa using hn⟩
  rw [addVariable, addVariableBy, repeatDimensions]
  simp only [einopsRepeat]
  rw [if_neg]
  rintro ⟨-, -, -, h⟩
  change _ = (D.cond v).shape.length at h
  rw [hD.shape v hv] at h
  simp only [if_true, List.length_append, List.length_map, List.length_singleton] at h
  omega

/-- Every node of `A` other than `r` has exactly one parent. -/
def Tree (A : DAG α) : Prop := ∃ r, ∀ v ∈ A.nodes, v ≠ r → ∃ u, ∀ w, (w, v) ∈ A.arcs ↔ w = u

theorem tree_root {A : DAG α} (h : Tree A) {t0 : α} (h0 : t0 ∈ A.nodes) (hp : ∀ u, (u, t0) ∉ A.arcs) :
    ∀ v ∈ A.nodes, v ≠ t0 → ∃ u, ∀ w, (w, v) ∈ A.arcs ↔ w = u := by
  obtain ⟨r, h⟩ := h
  have : t0 = r := by
    by_contra hne
    obtain ⟨u, hu⟩ := h t0 h0 hne
    exact hp u ((hu u).2 rfl)
  rwa [this]

/-- What the loop of `get_marginals_new` maintains. -/
structure NewInv (D : DiscreteDAG α) (A : DAG α) (M : List α) (t0 : α) (pre : List α) (gone : List α) (s : List α × Tensor EReal) :
    Prop where
  holds : D.Holds s.1 gone s.2
  sub : ∀ u ∈ s.1 ++ gone, u ∈ A.nodes
  gone_iff : ∀ u, u ∈ gone ↔ u ∈ pre ∧ u ∉ M
  root : t0 ∈ s.1 ++ gone
  kids : ∀ u ∈ pre, ∀ w, (u, w) ∈ A.arcs → w ∈ s.1 ++ gone
  src : ∀ u ∈ s.1 ++ gone, u = t0 ∨ ∃ w, (w, u) ∈ A.arcs

theorem addChildren_spec (hD : D.Tabled) (hc : D.Cut) {M : List α} {A : DAG α} (hA : D.Anc M A) {t0 : α} {pre gone : List α}
    {s : List α × Tensor EReal} (h : D.NewInv A M t0 pre gone s) {v : α}
    (hk : ∀ w, (v, w) ∈ A.arcs → w ∉ pre) (hvs : Tree A → v ∈ s.1) (h0 : t0 ∈ A.nodes) (h0p : ∀ u, (u, t0) ∉ A.arcs)
    (oc : SetOrder α α) :
    (∃ s', (oc.ord v (A.children v \ s.1.toFinset)).foldlM D.addChild s = .ok s' ∧ D.NewInv A M t0 pre gone s' ∧
      (∀ u ∈ s.1, u ∈ s'.1) ∧ ∀ w, (v, w) ∈ A.arcs → w ∈ s'.1) ∨
    (∃ e, (oc.ord v (A.children v \ s.1.toFinset)).foldlM D.addChild s = .error e ∧ ¬ Tree A) := by
  suffices H : ∀ (l : List α) (s : List α × Tensor EReal), D.NewInv A M t0 pre gone s → (Tree A → v ∈ s.1) → l.Nodup →
      (∀ w ∈ l, (v, w) ∈ A.arcs ∧ w ∉ s.1) →
      (∃ s', l.foldlM D.addChild s = .ok s' ∧ D.NewInv A M t0 pre gone s' ∧ (∀ u ∈ s.1, u ∈ s'.1) ∧ ∀ w ∈ l, w ∈ s'.1) ∨
      (∃ e, l.foldlM D.addChild s = .error e ∧ ¬ Tree A) by
    have hl : ∀ w, w ∈ oc.ord v (A.children v \ s.1.toFinset) ↔ (v, w) ∈ A.arcs ∧ w ∉ s.1 := by
      intro w
      rw [oc.mem_iff, Finset.mem_sdiff, hA.valid.children_iff, List.mem_toFinset]
    rcases H _ s h hvs (oc.nodup _ _) (fun w hw => (hl w).1 hw) with ⟨s', h1, h2, h3, h4⟩ | h1
    · refine Or.inl ⟨s', h1, h2, h3, fun w hw => ?_⟩
      by_cases hws : w ∈ s.1
      · exact h3 w hws
      · exact h4 w ((hl w).2 ⟨hw, hws⟩)
    · exact Or.inr h1
  intro l
  induction l with
  | nil => intro s h _ _ _; exact Or.inl ⟨s, rfl, h, fun u hu => hu, by simp⟩
  | cons c l ih =>
    intro s h hvs hnd hl
    rw [List.nodup_cons] at hnd
    obtain ⟨hvc, hcs⟩ := hl c (by simp)
    have hcA : c ∈ A.nodes := hA.valid.snd_mem _ _ hvc
    have hcD := hA.sub c hcA
    have hcg : c ∉ gone := fun hm => hk c hvc ((h.gone_iff c).1 hm).1
    rw [List.foldlM_cons]
    by_cases hp : ∀ u ∈ D.pars c, u ∈ s.1
    · have hf : (D.pars c).filter (· ∈ s.1) = D.pars c := List.filter_eq_self.2 fun u hu => by simpa using hp u hu
      obtain ⟨table, h1, h2⟩ := h.holds.add hD.toFits hc hcD (by
        rw [List.mem_append, not_or]; exact ⟨hcs, hcg⟩) hp
      have e : D.addChild s c = .ok (s.1 ++ [c], table) := by rw [addChild, hf, h1]
      rw [e]
      have hI : D.NewInv A M t0 pre gone (s.1 ++ [c], table) := by
        refine ⟨h2, fun u hu => ?_, h.gone_iff, ?_, fun u hu w hw => ?_, fun u hu => ?_⟩
        · simp only [List.append_assoc, List.mem_append, List.mem_singleton] at hu
          rcases hu with hu | rfl | hu
          · exact h.sub u (by simp [hu])
          · exact hcA
          · exact h.sub u (by simp [hu])
        · have := h.root
          simp only [List.append_assoc, List.mem_append] at this ⊢; tauto
        · have := h.kids u hu w hw
          simp only [List.append_assoc, List.mem_append] at this ⊢; tauto
        · simp only [List.append_assoc, List.mem_append, List.mem_singleton] at hu
          rcases hu with hu | rfl | hu
          · exact h.src u (by simp [hu])
          · exact Or.inr ⟨v, hvc⟩
          · exact h.src u (by simp [hu])
      rcases ih (s.1 ++ [c], table) hI (fun hT => by simp [hvs hT]) hnd.2 (fun w hw => ⟨(hl w (by simp [hw])).1, by
        simp only [List.mem_append, List.mem_singleton, not_or]
        exact ⟨(hl w (by simp [hw])).2, fun e => hnd.1 (e ▸ hw)⟩⟩) with ⟨s', h3, h4, h5, h6⟩ | ⟨e', h3, h4⟩
      · refine Or.inl ⟨s', h3, h4, fun u hu => h5 u (by simp [hu]), fun w hw => ?_⟩
        rcases List.mem_cons.1 hw with rfl | hw
        · exact h5 w (by simp)
        · exact h6 w hw
      · exact Or.inr ⟨e', h3, h4⟩
    · have e : D.addChild s c = .error .plain := by rw [addChild, addVariable_missing hD hcD hp]
      rw [e]
      refine Or.inr ⟨.plain, rfl, fun hT => hp fun u hu => ?_⟩
      have hne : c ≠ t0 := by rintro rfl; exact h0p v hvc
      obtain ⟨w, hw⟩ := tree_root hT h0 h0p c hcA hne
      have h1 := (hw v).1 hvc
      have h2 := (hw u).1 ((hA.arcs_iff u c).2 ⟨hD.pars_sub c hcD u hu, hcA⟩)
      rw [h2, ← h1]; exact hvs hT

theorem elimNew_spec (hD : D.Tabled) (hc : D.Cut) {M : List α} {A : DAG α} (hA : D.Anc M A) {t0 : α} {pre post gone : List α}
    {s : List α × Tensor EReal} (h : D.NewInv A M t0 pre gone s) {t : List α} (ht : LinearExtension (A.nodes : Set α) A.E t)
    {v : α} (e : t = pre ++ v :: post) (h0 : t0 ∈ A.nodes) (h0p : ∀ u, (u, t0) ∉ A.arcs)
    (oc : SetOrder α α) :
    (∃ s' gone', D.elimNew A oc M s v = .ok s' ∧ D.NewInv A M t0 (pre ++ [v]) gone' s') ∨
      (∃ e, D.elimNew A oc M s v = .error e ∧ ¬ Tree A) := by
  obtain ⟨hv, hvp, hpar⟩ := lin_pars ht e
  have hvg : v ∉ gone := fun hm => hvp ((h.gone_iff v).1 hm).1
  have hvs : Tree A → v ∈ s.1 := by
    intro hT
    have : v ∈ s.1 ++ gone := by
      by_cases hvt : v = t0
      · rw [hvt]; exact h.root
      · obtain ⟨u, hu⟩ := tree_root hT h0 h0p v hv hvt
        have := (hu u).2 rfl
        exact h.kids u (hpar u this) v this
    exact (List.mem_append.1 this).resolve_right hvg
  rcases addChildren_spec hD hc hA h (fun w hw => lin_kids ht e hw) hvs h0 h0p oc with ⟨s', h1, h2, h3, h4⟩ | ⟨e', h1, h2⟩
  · rw [elimNew, h1]
    change (∃ s'' gone', (if v ∈ M then _ else _) = _ ∧ _) ∨ (∃ e, (if v ∈ M then _ else _) = _ ∧ _)
    have hkids : ∀ u ∈ pre ++ [v], ∀ w, (u, w) ∈ A.arcs → w ∈ s'.1 ++ gone := by
      intro u hu w hw
      rcases List.mem_append.1 hu with hu | hu
      · exact h2.kids u hu w hw
      · rw [List.mem_singleton.1 hu] at hw
        exact List.mem_append_left _ (h4 w hw)
    by_cases hm : v ∈ M
    · simp only [if_pos hm]
      refine Or.inl ⟨s', gone, rfl, h2.holds, h2.sub, fun u => ?_, h2.root, hkids, h2.src⟩
      rw [h2.gone_iff, List.mem_append, List.mem_singleton]
      constructor
      · rintro ⟨a, b⟩; exact ⟨Or.inl a, b⟩
      · rintro ⟨a | rfl, b⟩
        · exact ⟨a, b⟩
        · exact absurd hm b
    · simp only [if_neg hm]
      by_cases hvs' : v ∈ s'.1
      · simp only [if_pos hvs']
        left
        have hnd := h2.holds.nodup.of_append_left
        have h5 := h2.holds.sum (fun u => u = v) (axes := [s'.1.idxOf v]) (by
          intro j hj
          rw [List.mem_singleton]
          constructor
          · rintro rfl; exact List.getElem_idxOf _
          · intro hj'
            rw [← hj']; exact (hnd.idxOf_getElem j hj).symm)
        have hmem : ∀ u, u ∈ s'.1.filter (fun u => ¬ u = v) ++ (s'.1.filter (fun u => u = v) ++ gone) ↔ u ∈ s'.1 ++ gone := by
          intro u
          simp only [List.mem_append, List.mem_filter, decide_not, Bool.not_eq_true', decide_eq_false_iff_not,
            decide_eq_true_iff]
          tauto
        refine ⟨_, s'.1.filter (fun u => u = v) ++ gone, rfl, ?_, ?_, ?_, ?_, ?_, ?_⟩
        · simpa using h5
        · intro u hu; exact h2.sub u ((hmem u).1 (by simpa using hu))
        · intro u
          rw [List.mem_append, List.mem_filter, h2.gone_iff, List.mem_append, List.mem_singleton, decide_eq_true_iff]
          constructor
          · rintro (⟨-, rfl⟩ | ⟨a, b⟩)
            · exact ⟨Or.inr rfl, hm⟩
            · exact ⟨Or.inl a, b⟩
          · rintro ⟨a | rfl, b⟩
            · exact Or.inr ⟨a, b⟩
            · exact Or.inl ⟨hvs', rfl⟩
        · simpa using (hmem t0).2 h2.root
        · intro u hu w hw
          simpa using (hmem w).2 (hkids u hu w hw)
        · intro u hu; exact h2.src u ((hmem u).1 (by simpa using hu))
      · simp only [if_neg hvs']
        exact Or.inr ⟨.value, rfl, fun hT => hvs' (h3 v (hvs hT))⟩
  · rw [elimNew, h1]
    exact Or.inr ⟨e', rfl, h2⟩

theorem getMarginalsNew_run [One R] (hD : D.Tabled) (hc : D.Cut) (o ot : SetOrder (Option α) α) (oa : SetOrder Bool (α × α))
    (os : SetOrder (α × Finset α) α) (on : SetOrder Unit α) (oc : SetOrder α α) (f : EReal → R) {M : List α} (h0 : M ≠ [])
    (hMn : ∀ v ∈ M, v ∈ D.dag.nodes) :
    ∃ A, D.Anc M A ∧ Wp (D.getMarginalsNew o ot oa os on oc f M)
      (fun T => (∃ r, ∀ v ∈ A.nodes, v ≠ r → ∃ w, (w, v) ∈ A.arcs) ∧ T.shape = M.map D.dims ∧ ∀ x : α → ℕ, (∀ v ∈ M, x v < D.dims v) → ∃ e, T.val (M.map x) = f e ∧
        EReal.exp e = (D.pr M x : ℝ≥0∞))
      (fun _ => ¬ (Tree A ∧ M.Nodup)) := by
  obtain ⟨A, hA1, hA⟩ := ancestral_spec hD.valid o oa os M (on.ord () M.toFinset) hMn (by simp [on.mem_iff])
  obtain ⟨t, ht1, ht⟩ := DAG.topologicalSort_ok A ot hA.valid
  refine ⟨A, hA, ?_⟩
  rw [getMarginalsNew, if_neg h0]
  refine Wp.bind (P := fun A' => A' = A) (Or.inl ⟨A, hA1, rfl⟩) ?_
  rintro A' rfl
  refine Wp.bind (P := fun t' => t' = t) (Or.inl ⟨t, ht1, rfl⟩) ?_
  rintro t' rfl
  match t', ht1, ht with
  | [], ht1, ht =>
    obtain ⟨v, hv⟩ := List.exists_mem_of_ne_nil _ h0
    exact absurd ((ht.mem_iff v).2 (hA.mem v hv)) (by simp)
  | t0 :: ts, ht1, ht =>
    obtain ⟨h0A, -, h0p⟩ := lin_pars ht (pre := []) rfl
    have h0p' : ∀ u, (u, t0) ∉ A'.arcs := fun u hu => by simpa using h0p u hu
    have hinit : D.Inv A' [t0] [] ⟨[t0], {t0}, npLog (D.cond t0)⟩ := by
      refine Inv.init hD.toFits hA h0A h0p' rfl fun x _ => ?_
      exact ENNReal.exp_log _
    refine Wp.bind (P := fun s => ∃ gone, D.NewInv A' M t0 (t0 :: ts) gone s) ?_ ?_
    · refine Wp.foldlM (fun pre s => ∃ gone, D.NewInv A' M t0 pre gone s) _ _ ?_ ?_
      · exact ⟨[], hinit.holds, by simpa using h0A, by simp, by simp, by simp, by simp⟩
      · rintro pre v post s e ⟨gone, hI⟩
        rcases elimNew_spec hD hc hA hI ht e h0A h0p' oc with ⟨s', g', h1, h2⟩ | ⟨e', h1, h2⟩
        · exact Or.inl ⟨s', congrArg some h1, g', h2⟩
        · exact Or.inr ⟨e', congrArg some h1, fun h => h2 h.1⟩
    · rintro s ⟨gone, hI⟩
      have hcn := hI.holds.nodup.of_append_left
      have hgt : ∀ u, u ∈ gone ↔ u ∈ A'.nodes ∧ u ∉ M := by
        intro u
        rw [hI.gone_iff]
        exact and_congr_left fun _ => ht.mem_iff u
      have hcM : ∀ u ∈ s.1, u ∈ M := by
        intro u hu
        by_contra hm
        exact List.disjoint_of_nodup_append hI.holds.nodup hu ((hgt u).2 ⟨hI.sub u (by simp [hu]), hm⟩)
      by_cases hok : M.Nodup ∧ ∀ u ∈ M, u ∈ s.1
      · have hcM' : ∀ u, u ∈ s.1 ↔ u ∈ M := fun u => ⟨hcM u, hok.2 u⟩
        obtain ⟨T, h1, h2, h3⟩ := repeatDimensions_perm (t := s.2.map f) (sz := D.dims) hcn hok.1 hcM' hI.holds.shape
        have hpm : s.1.Perm M := (List.perm_ext_iff_of_nodup hcn hok.1).2 hcM'
        have hpt : (s.1 ++ gone).Perm (t0 :: ts) := by
          refine (List.perm_ext_iff_of_nodup hI.holds.nodup ht.nodup).2 fun u => ?_
          rw [ht.mem_iff, List.mem_append]
          refine ⟨fun hu => hI.sub u (List.mem_append.2 hu), fun hu => ?_⟩
          by_cases hm : u ∈ M
          · exact Or.inl (hok.2 u hm)
          · exact Or.inr ((hgt u).2 ⟨hu, hm⟩)
        refine Or.inl ⟨T, congrArg some h1, ⟨t0, fun v hv hne => ?_⟩, h2, fun x hx => ⟨_, h3 x, ?_⟩⟩
        · exact (hI.src v (hpt.mem_iff.2 ((ht.mem_iff v).2 hv))).resolve_left hne
        rw [hI.holds.val x fun v hv => hx v ((hcM' v).1 hv),
          pr, ← hA.prob hD ht (gone := gone) ((hpm.symm.append_right gone).trans hpt) o x hx]
        congr 1
        refine sumL_congr (R := ℝ≥0) fun y _ _ => ?_
        exact (hpt.map _).prod_eq
      · have hnt : ¬ (Tree A' ∧ M.Nodup) := by
          rintro ⟨hT, hM⟩
          refine hok ⟨hM, fun u hu => ?_⟩
          have : u ∈ s.1 ++ gone := by
            by_cases hut : u = t0
            · rw [hut]; exact hI.root
            · obtain ⟨w, hw⟩ := tree_root hT h0A h0p' u (hA.mem u hu) hut
              have := (hw w).2 rfl
              exact hI.kids w ((ht.mem_iff w).2 (hA.valid.fst_mem _ _ this)) u this
          exact (List.mem_append.1 this).resolve_right fun hg => ((hgt u).1 hg).2 hu
        have herr : ∃ e, repeatDimensions (s.2.map f) s.1 M none false = .error e := by
          rw [repeatDimensions]
          by_cases hex : ∃ d ∈ M, d ∉ s.1
          · exact ⟨_, if_pos hex⟩
          · simp only [if_neg hex, einopsRepeat]
            push Not at hex
            rw [if_neg]
            · exact ⟨_, rfl⟩
            · rintro ⟨-, hn, -⟩
              refine hok ⟨?_, hex⟩
              have : (M.map some).Nodup := by simpa using hn
              exact List.Nodup.of_map _ this
        obtain ⟨e, he⟩ := herr
        exact Or.inr ⟨e, congrArg some he, hnt⟩

end DiscreteDAG

end Model
