import Verif.Proof.Discrete

/-! # `get_marginals` and `get_marginal` -/

set_option linter.unusedSectionVars false

namespace Model

open Spec Relation
open scoped NNReal ENNReal

section Lists
variable {α : Type}

theorem before_of_split {l r s : List α} {a b : α} (hl : l.Nodup) (h : List.Sublist [a, b] l) (e : l = r ++ b :: s) : a ∈ r := by
  subst e
  induction r with
  | nil =>
    rw [List.nil_append] at h hl
    rw [List.nodup_cons] at hl
    cases h with
    | cons _ h => exact absurd (h.subset (by simp)) hl.1
    | cons_cons _ h => exact absurd (h.subset (by simp)) hl.1
  | cons c r ih =>
    rw [List.cons_append] at h hl
    rw [List.nodup_cons] at hl
    cases h with
    | cons _ h => exact List.mem_cons_of_mem _ (ih hl.2 h)
    | cons_cons _ h => simp

theorem not_after {l r s : List α} {a b : α} (hl : l.Nodup) (h : List.Sublist [a, b] l) (e : l = r ++ a :: s) : b ∉ r := by
  intro hb
  obtain ⟨r1, r2, rfl⟩ := List.append_of_mem hb
  have h1 := before_of_split (r := r1) (s := r2 ++ a :: s) hl h (by simp [e])
  subst e
  simp only [List.append_assoc] at hl
  exact List.disjoint_of_nodup_append hl h1 (by simp)

end Lists

namespace DiscreteDAG

variable {α R : Type} [DecidableEq α] {D : DiscreteDAG α}

/-- `A` is the ancestral subgraph of the nodes in `M`. -/
structure Anc (D : DiscreteDAG α) (M : List α) (A : DAG α) : Prop where
  valid : A.Valid
  sub : ∀ v ∈ A.nodes, v ∈ D.dag.nodes
  mem : ∀ v ∈ M, v ∈ A.nodes
  arcs_iff : ∀ u v, (u, v) ∈ A.arcs ↔ (u, v) ∈ D.dag.arcs ∧ v ∈ A.nodes
  reach : ∀ v ∈ A.nodes, v ∉ M → ∃ w, (v, w) ∈ A.arcs
  nodes_iff : ∀ v, v ∈ A.nodes ↔ ∃ s ∈ M, Path0 D.dag.E v s

theorem Anc.closed {M : List α} {A : DAG α} (h : D.Anc M A) {u v : α} (e : (u, v) ∈ D.dag.arcs) (hv : v ∈ A.nodes) : u ∈ A.nodes :=
  h.valid.fst_mem _ _ ((h.arcs_iff u v).2 ⟨e, hv⟩)

theorem ancestral_spec (hD : D.dag.Valid) (o : SetOrder (Option α) α) (oa : SetOrder Bool (α × α))
    (os : SetOrder (α × Finset α) α) (M l : List α) (hM : ∀ v ∈ M, v ∈ D.dag.nodes) (hl : ∀ v, v ∈ l ↔ v ∈ M) :
    ∃ A, (D.ancestral o oa os l).run = some (.ok A) ∧ D.Anc M A := by
  obtain ⟨A, h1, h2, h3, h4⟩ := DAG.ancestralSubgraph_spec hD o oa os l
  have harc : ∀ u v, (u, v) ∈ A.arcs ↔ (u, v) ∈ D.dag.arcs ∧ v ∈ A.nodes := by
    intro u v
    change A.E u v ↔ _
    rw [h4]
    constructor
    · rintro ⟨a, b, c⟩
      exact ⟨a, (h3 v).2 c⟩
    · rintro ⟨a, b⟩
      obtain ⟨s, hs, hp⟩ := (h3 v).1 b
      exact ⟨a, ⟨s, hs, .head a hp⟩, ⟨s, hs, hp⟩⟩
  refine ⟨A, ?_, h2, ?_, ?_, harc, ?_, fun v => by simp [h3, hl]⟩
  · rw [ancestral, h1]; rfl
  · intro v hv
    obtain ⟨s, hs, hp⟩ := (h3 v).1 hv
    rcases hp.cases_head with rfl | ⟨c, hc, _⟩
    · exact hM _ ((hl _).1 hs)
    · exact hD.fst_mem _ _ hc
  · intro v hv
    exact (h3 v).2 ⟨v, (hl v).2 hv, .refl⟩
  · intro v hv hn
    obtain ⟨s, hs, hp⟩ := (h3 v).1 hv
    rcases hp.cases_head with rfl | ⟨c, hc, hp'⟩
    · exact absurd ((hl _).1 hs) hn
    · exact ⟨c, (harc v c).2 ⟨hc, (h3 c).2 ⟨s, hs, hp'⟩⟩⟩

theorem law_eq (D : DiscreteDAG α) : D.law = fun y => ∏ v ∈ D.dag.nodes, D.kern v y := rfl

theorem Tabled.sum_kern (hD : D.Tabled) {v : α} (hv : v ∈ D.dag.nodes) (y : α → ℕ) (hy : ∀ u ∈ D.pars v, y u < D.dims u) :
    ∑ i ∈ Finset.range (D.dims v), D.kern v (Function.update y v i) = 1 := by
  rw [← hD.total v hv y hy]
  refine Finset.sum_congr rfl fun i _ => ?_
  rw [kern, List.map_append, List.map_singleton, Function.update_self]
  congr 2
  refine List.map_congr_left fun u hu => Function.update_of_ne ?_ _ _
  rintro rfl
  exact hD.valid.acyclic u (.single (hD.pars_sub u hv u hu))

theorem Proper.sum_kern (hD : D.Proper) {v : α} (hv : v ∈ D.dag.nodes) (y : α → ℕ) (hy : ∀ u ∈ D.pars v, y u < D.dims u) :
    ∑ i ∈ Finset.range (D.dims v), D.kern v (Function.update y v i) = 1 := hD.tabled.sum_kern hv y hy

/-- Summing the ancestral factors over the nodes that are not asked for gives the marginal. -/
theorem Anc.prob (hD : D.Tabled) {M : List α} {A : DAG α} (hA : D.Anc M A) {t gone : List α}
    (ht : LinearExtension (A.nodes : Set α) A.E t) (hg : (M ++ gone).Perm t) (o : SetOrder (Option α) α) (x : α → ℕ)
    (hx : ∀ v ∈ M, x v < D.dims v) :
    sumL D.dims gone (fun y => (t.map fun v => D.kern v y).prod) x =
      prob D.dag.nodes D.dims D.law (fun y => ∀ v ∈ M, y v = x v) := by
  obtain ⟨T, -, hT⟩ := DAG.topologicalSort_ok D.dag o hD.valid
  have htA : ∀ v, v ∈ t ↔ v ∈ A.nodes := fun v => ht.mem_iff v
  have hTV : ∀ v, v ∈ T ↔ v ∈ D.dag.nodes := fun v => hT.mem_iff v
  set l := T.filter (fun v => v ∉ t) with hl
  have hlmem : ∀ v, v ∈ l ↔ v ∈ D.dag.nodes ∧ v ∉ A.nodes := by
    intro v; rw [hl, List.mem_filter, hTV, decide_eq_true_iff, htA]
  have hlnd : l.Nodup := hT.nodup.filter _
  have hpar : ∀ v ∈ D.dag.nodes, ∀ u ∈ D.pars v, (u, v) ∈ D.dag.arcs := hD.pars_sub
  have hsub : ∀ u v, u ∉ A.nodes → (u, v) ∈ D.dag.arcs → List.Sublist [u, v] l := by
    intro u v hu huv
    have hv : v ∉ A.nodes := fun hv => hu (hA.closed huv hv)
    have := (hT.before u v huv).filter (fun v => decide (v ∉ t))
    simpa [htA, hu, hv, hl] using this
  rw [law_eq]
  refine (prob_marginal (pars := fun v => {u | u ∈ D.pars v}) (kern_depends D) (A := t) (l := l) ?_ hg ?_ ?_ ?_ ?_ x hx).symm
  · refine (List.perm_ext_iff_of_nodup ?_ (Finset.nodup_toList _)).2 fun v => ?_
    · rw [List.nodup_append']
      refine ⟨ht.nodup, hlnd, fun v h1 h2 => ((hlmem v).1 h2).2 ((htA v).1 h1)⟩
    · rw [List.mem_append, htA, hlmem, Finset.mem_toList]
      constructor
      · rintro (h | h)
        · exact hA.sub v h
        · exact h.1
      · intro h
        by_cases hv : v ∈ A.nodes
        · exact Or.inl hv
        · exact Or.inr ⟨h, hv⟩
  · intro u hu w hw
    rw [htA] at hu ⊢
    exact hA.closed (hpar u (hA.sub u hu) w hw) hu
  · intro r v s e u hu hv
    have hvl := (hlmem v).1 (by rw [e]; simp)
    rcases List.mem_append.1 hu with hu | hu
    · have hu' := (htA u).1 hu
      exact hvl.2 (hA.closed (hpar u (hA.sub u hu') v hv) hu')
    · have hul := (hlmem u).1 (by rw [e]; simp [hu])
      exact not_after hlnd (hsub v u hvl.2 (hpar u hul.1 v hv)) e hu
  · intro r v s e u hu
    have hvl := (hlmem v).1 (by rw [e]; simp)
    have huv := hpar v hvl.1 u hu
    by_cases huA : u ∈ A.nodes
    · exact List.mem_append_left _ ((htA u).2 huA)
    · exact List.mem_append_right _ (before_of_split hlnd (hsub u v huA huv) e)
  · intro v hv y hy
    exact hD.sum_kern ((hlmem v).1 hv).1 y hy

/-- What the loops maintain. -/
structure Inv (D : DiscreteDAG α) (A : DAG α) (pre gone : List α) (s : Elim α) : Prop where
  holds : D.Holds s.cur gone s.table
  perm : (s.cur ++ gone).Perm pre
  added : s.added = pre.toFinset
  gone : ∀ u ∈ gone, A.children u ⊆ s.added

theorem elimStep_spec (hD : D.Fits) {lg : Tensor ℝ≥0 → Tensor EReal} (hl : D.Logs lg) {M : List α} {A : DAG α} (hA : D.Anc M A) {pre gone : List α} {s : Elim α}
    (h : D.Inv A pre gone s) {v : α} (hv : v ∈ A.nodes) (hpre : v ∉ pre) (hpar : ∀ u, (u, v) ∈ A.arcs → u ∈ pre)
    {keep : α → Bool} (hk : keep v = true ∨ ∃ w, (v, w) ∈ A.arcs ∧ w ∉ pre) :
    ∃ s' gone', D.elimStepBy lg A keep s v = .ok s' ∧ D.Inv A (pre ++ [v]) gone' s' ∧
      (∀ u, u ∈ s'.cur ↔ u ∈ s.cur ++ [v] ∧ ¬ (A.children u ⊆ s'.added ∧ keep u = false)) ∧
      ∀ u ∈ gone', u ∈ gone ∨ keep u = false := by
  have hpars : ∀ u ∈ D.pars v, u ∈ s.cur := by
    intro u hu
    have huv := (hA.arcs_iff u v).2 ⟨hD.pars_sub v (hA.sub v hv) u hu, hv⟩
    rcases List.mem_append.1 (h.perm.mem_iff.2 (hpar u huv)) with hm | hm
    · exact hm
    · have := h.gone u hm ((hA.valid.children_iff u v).2 huv)
      rw [h.added, List.mem_toFinset] at this
      exact absurd this hpre
  have hn : v ∉ s.cur ++ gone := fun hm => hpre (h.perm.mem_iff.1 hm)
  obtain ⟨table, h1, h2⟩ := h.holds.addBy hD hl (hA.sub v hv) hn hpars
  have hadd : insert v s.added = (pre ++ [v]).toFinset := by
    rw [h.added]; ext u; simp
  have hperm : (s.cur ++ [v] ++ gone).Perm (pre ++ [v]) := by
    rw [List.append_assoc]
    refine List.perm_middle.trans ?_
    exact (List.Perm.cons v h.perm).trans (List.perm_append_singleton v pre).symm
  set out := (s.cur ++ [v]).filter fun u => A.children u ⊆ insert v s.added ∧ keep u = false with hout
  have hmem : ∀ u, u ∈ out ↔ u ∈ s.cur ++ [v] ∧ A.children u ⊆ insert v s.added ∧ keep u = false := by
    intro u; rw [hout, List.mem_filter, decide_eq_true_iff]
  have hvo : v ∉ out := by
    rw [hmem]
    rintro ⟨-, hs, hf⟩
    rcases hk with hk | ⟨w, hw, hwp⟩
    · rw [hk] at hf; cases hf
    · have := hs ((hA.valid.children_iff v w).2 hw)
      rw [hadd, List.mem_toFinset, List.mem_append, List.mem_singleton] at this
      rcases this with h' | rfl
      · exact hwp h'
      · exact hA.valid.acyclic w (.single hw)
  have hos : ∀ u ∈ out, u ∈ s.cur := by
    intro u hu
    rcases List.mem_append.1 ((hmem u).1 hu).1 with h' | h'
    · exact h'
    · rw [List.mem_singleton.1 h'] at hu; exact absurd hu hvo
  have hg : ∀ u ∈ gone, A.children u ⊆ insert v s.added := fun u hu => (h.gone u hu).trans (Finset.subset_insert _ _)
  rw [elimStepBy, h1]
  simp only [← hout]
  by_cases h0 : out = []
  · rw [if_pos h0]
    refine ⟨_, gone, rfl, ⟨h2, hperm, hadd, hg⟩, fun u => ?_, fun u hu => Or.inl hu⟩
    refine ⟨fun hu => ⟨hu, fun hh => ?_⟩, fun hu => hu.1⟩
    have := (hmem u).2 ⟨hu, hh⟩
    rw [h0] at this; cases this
  · rw [if_neg h0, if_pos hos]
    have hax : ∀ j (hj : j < (s.cur ++ [v]).length),
        j ∈ out.map (fun u => s.cur.idxOf u) ↔ (s.cur ++ [v])[j] ∈ out := by
      intro j hj
      rw [List.mem_map]
      have hnd := h.holds.nodup.of_append_left
      constructor
      · rintro ⟨u, hu, rfl⟩
        have := List.idxOf_lt_length_of_mem (hos u hu)
        rw [List.getElem_append_left this, List.getElem_idxOf]; exact hu
      · intro hu
        have hlt : j < s.cur.length := by
          by_contra hge
          have : j = s.cur.length := by simp at hj; omega
          subst this
          rw [List.getElem_concat_length rfl] at hu
          exact hvo hu
        refine ⟨_, hu, ?_⟩
        rw [List.getElem_append_left hlt]
        exact hnd.idxOf_getElem _ _
    have h3 := h2.sum (fun u => u ∈ out) hax
    have e : (s.cur ++ [v]).filter (fun u => u ∈ out) = out := by
      conv_rhs => rw [hout]
      refine List.filter_congr fun u hu => ?_
      rw [decide_eq_decide, hmem]
      exact ⟨fun hh => hh.2, fun hh => ⟨hu, hh⟩⟩
    rw [e] at h3
    refine ⟨_, out ++ gone, rfl, ⟨?_, ?_, hadd, ?_⟩, fun u => ?_, ?_⟩
    · simpa only [decide_not] using h3
    · refine List.Perm.trans ?_ hperm
      rw [← List.append_assoc]
      refine List.Perm.append_right _ ?_
      have := List.filter_append_perm (fun u => decide (u ∈ out)) (s.cur ++ [v])
      rw [e] at this
      simp only [decide_not]
      exact List.perm_append_comm.trans this
    · intro u hu
      rcases List.mem_append.1 hu with hu | hu
      · exact ((hmem u).1 hu).2.1
      · exact hg u hu
    · rw [List.mem_filter, decide_eq_true_iff, hmem]
      exact ⟨fun hh => ⟨hh.1, fun h' => hh.2 ⟨hh.1, h'⟩⟩, fun hh => ⟨hh.1, fun h' => hh.2 h'.2⟩⟩
    · intro u hu
      rcases List.mem_append.1 hu with hu | hu
      · exact Or.inr ((hmem u).1 hu).2.2
      · exact Or.inl hu

theorem Wp.ok {ε β : Type} {m : ExceptT ε Option β} {P : β → Prop} (h : Wp m P fun _ => False) :
    ∃ b, m.run = some (.ok b) ∧ P b := by
  rcases h with h | ⟨_, _, h⟩
  · exact h
  · exact h.elim

theorem run_bind_ok {ε β γ : Type} {m : ExceptT ε Option β} {b : β} (h : m.run = some (.ok b)) (f : β → ExceptT ε Option γ) :
    (m >>= f).run = (f b).run := by
  rw [ExceptT.run_bind, h]; rfl

/-- The state before the loops. -/
theorem Inv.init (hD : D.Fits) {M : List α} {A : DAG α} (hA : D.Anc M A) {t0 : α} (h0 : t0 ∈ A.nodes)
    (hp : ∀ u, (u, t0) ∉ A.arcs) {table : Tensor EReal} (hs : table.shape = (D.cond t0).shape)
    (hv : ∀ x : α → ℕ, x t0 < D.dims t0 → EReal.exp (table.val [x t0]) = ((D.cond t0).val [x t0] : ℝ≥0∞)) :
    D.Inv A [t0] [] ⟨[t0], {t0}, table⟩ := by
  have hpar : D.pars t0 = [] := by
    rw [List.eq_nil_iff_forall_not_mem]
    intro u hu
    exact hp u ((hA.arcs_iff u t0).2 ⟨hD.pars_sub t0 (hA.sub t0 h0) u hu, h0⟩)
  refine ⟨⟨by simp, by simpa using hA.sub t0 h0, ?_, fun x hx => ?_⟩, by simp, by simp, by simp⟩
  · rw [hs, hD.shape t0 (hA.sub t0 h0), hpar]; rfl
  · rw [List.map_singleton, hv x (hx t0 (by simp))]
    simp [sumL, kern, hpar]

theorem lin_pars {A : DAG α} {t : List α} (ht : LinearExtension (A.nodes : Set α) A.E t) {pre post : List α} {v : α}
    (e : t = pre ++ v :: post) : v ∈ A.nodes ∧ v ∉ pre ∧ ∀ u, (u, v) ∈ A.arcs → u ∈ pre := by
  refine ⟨(ht.mem_iff v).1 (by rw [e]; simp), fun hv => ?_, fun u hu => ?_⟩
  · have := ht.nodup
    rw [e] at this
    exact List.disjoint_of_nodup_append this hv (by simp)
  · exact before_of_split ht.nodup (ht.before u v hu) e

theorem lin_kids {A : DAG α} {t : List α} (ht : LinearExtension (A.nodes : Set α) A.E t) {pre post : List α} {v w : α}
    (e : t = pre ++ v :: post) (hw : (v, w) ∈ A.arcs) : w ∉ pre :=
  not_after ht.nodup (ht.before v w hw) e

theorem getMarginalsBy_sum (hD : D.Fits) {lg : Tensor ℝ≥0 → Tensor EReal} (hl : D.Logs lg) (o ot : SetOrder (Option α) α) (oa : SetOrder Bool (α × α))
    (os : SetOrder (α × Finset α) α) (on : SetOrder Unit α) (f : EReal → R) {M : List α} (hM : M.Nodup) (h0 : M ≠ [])
    (hMn : ∀ v ∈ M, v ∈ D.dag.nodes) :
    ∃ T A t gone, (D.getMarginalsBy lg o ot oa os on f M).run = some (.ok T) ∧ T.shape = M.map D.dims ∧ D.Anc M A ∧
      LinearExtension (A.nodes : Set α) A.E t ∧ (M ++ gone).Perm t ∧ ∀ x : α → ℕ, (∀ v ∈ M, x v < D.dims v) →
        ∃ e, T.val (M.map x) = f e ∧
          EReal.exp e = ((sumL D.dims gone (fun y => (t.map fun v => D.kern v y).prod) x : ℝ≥0) : ℝ≥0∞) := by
  obtain ⟨A, hA1, hA⟩ := ancestral_spec hD.valid o oa os M (on.ord () M.toFinset) hMn (by simp [on.mem_iff])
  obtain ⟨t, ht1, ht⟩ := DAG.topologicalSort_ok A ot hA.valid
  cases t with
  | nil =>
    obtain ⟨v, hv⟩ := List.exists_mem_of_ne_nil _ h0
    exact absurd ((ht.mem_iff v).2 (hA.mem v hv)) (by simp)
  | cons t0 ts =>
    obtain ⟨h0A, -, h0p⟩ := lin_pars ht (pre := []) rfl
    have hinit : D.Inv A [t0] [] ⟨[t0], {t0}, npLog (D.cond t0)⟩ := by
      refine Inv.init hD hA h0A (fun u hu => by simpa using h0p u hu) rfl fun x _ => ?_
      exact ENNReal.exp_log _
    obtain ⟨s, hs, gone, hI, hcur, hgone⟩ := Wp.ok (Wp.foldlM (f := fun s v => (ExceptT.mk (some (D.elimStepBy lg A (· ∈ M) s v)) : Run α (Elim α)))
      (Q := fun _ => False)
      (fun pre s => ∃ gone, D.Inv A (t0 :: pre) gone s ∧ (∀ u ∈ s.cur, u ∈ M ∨ ∃ w, (u, w) ∈ A.arcs ∧ w ∉ t0 :: pre) ∧
        ∀ u ∈ gone, u ∉ M) ts ⟨[t0], {t0}, npLog (D.cond t0)⟩ ⟨[], hinit, by
          intro u hu
          rw [List.mem_singleton.1 hu]
          by_cases hm : t0 ∈ M
          · exact Or.inl hm
          · obtain ⟨w, hw⟩ := hA.reach t0 h0A hm
            refine Or.inr ⟨w, hw, ?_⟩
            rw [List.mem_singleton]
            rintro rfl
            exact hA.valid.acyclic w (.single hw), by simp⟩ (by
      rintro pre v post s e ⟨gone, hI, hcur, hgone⟩
      have et : t0 :: ts = (t0 :: pre) ++ v :: post := by rw [e]; rfl
      obtain ⟨hv, hvp, hpar⟩ := lin_pars ht et
      obtain ⟨s', gone', h1, h2, h3, h4⟩ := elimStep_spec (keep := (· ∈ M)) hD hl hA hI hv hvp hpar (by
        by_cases hm : v ∈ M
        · left; simpa using hm
        · obtain ⟨w, hw⟩ := hA.reach v hv hm
          exact Or.inr ⟨w, hw, lin_kids ht et hw⟩)
      refine Or.inl ⟨s', by rw [h1]; rfl, gone', h2, fun u hu => ?_, fun u hu => ?_⟩
      · have := ((h3 u).1 hu).2
        by_cases hm : u ∈ M
        · exact Or.inl hm
        · right
          have : ¬ A.children u ⊆ s'.added := fun hs => this ⟨hs, by simpa using hm⟩
          obtain ⟨w, hw, hw'⟩ := Finset.not_subset.1 this
          rw [h2.added, List.mem_toFinset] at hw'
          exact ⟨w, (hA.valid.children_iff u w).1 hw, hw'⟩
      · rcases h4 u hu with h | h
        · exact hgone u h
        · simpa using h))
    have hcM : ∀ u, u ∈ s.cur ↔ u ∈ M := by
      intro u
      constructor
      · intro hu
        rcases hcur u hu with h | ⟨w, hw, hw'⟩
        · exact h
        · exact absurd ((ht.mem_iff w).2 (hA.valid.snd_mem _ _ hw)) hw'
      · intro hu
        have := hI.perm.mem_iff.2 ((ht.mem_iff u).2 (hA.mem u hu))
        rcases List.mem_append.1 this with h | h
        · exact h
        · exact absurd hu (hgone u h)
    have hcn := hI.holds.nodup.of_append_left
    obtain ⟨T, h1, h2, h3⟩ := repeatDimensions_perm (t := s.table.map f) (sz := D.dims) hcn hM hcM hI.holds.shape
    have hpm : s.cur.Perm M := (List.perm_ext_iff_of_nodup hcn hM).2 hcM
    refine ⟨T, A, t0 :: ts, gone, ?_, h2, hA, ht, (hpm.symm.append_right gone).trans hI.perm, fun x hx => ⟨_, h3 x, ?_⟩⟩
    · rw [getMarginalsBy, run_bind_ok hA1, run_bind_ok ht1]
      refine (run_bind_ok hs _).trans ?_
      change some (repeatDimensions _ _ _ _ _) = _
      rw [h1]
    · rw [hI.holds.val x fun v hv => hx v ((hcM v).1 hv)]
      congr 1
      refine sumL_congr (R := ℝ≥0) fun y _ _ => ?_
      exact (hI.perm.map _).prod_eq

theorem getMarginals_sum (hD : D.Fits) (hc : D.Cut) (o ot : SetOrder (Option α) α) (oa : SetOrder Bool (α × α))
    (os : SetOrder (α × Finset α) α) (on : SetOrder Unit α) (f : EReal → R) {M : List α} (hM : M.Nodup) (h0 : M ≠ [])
    (hMn : ∀ v ∈ M, v ∈ D.dag.nodes) :
    ∃ T A t gone, (D.getMarginals o ot oa os on f M).run = some (.ok T) ∧ T.shape = M.map D.dims ∧ D.Anc M A ∧
      LinearExtension (A.nodes : Set α) A.E t ∧ (M ++ gone).Perm t ∧ ∀ x : α → ℕ, (∀ v ∈ M, x v < D.dims v) →
        ∃ e, T.val (M.map x) = f e ∧
          EReal.exp e = ((sumL D.dims gone (fun y => (t.map fun v => D.kern v y).prod) x : ℝ≥0) : ℝ≥0∞) :=
  getMarginalsBy_sum hD hc.logs o ot oa os on f hM h0 hMn

theorem getMarginalsBy_run (hD : D.Tabled) {lg : Tensor ℝ≥0 → Tensor EReal} (hl : D.Logs lg) (o ot : SetOrder (Option α) α) (oa : SetOrder Bool (α × α))
    (os : SetOrder (α × Finset α) α) (on : SetOrder Unit α) (f : EReal → R) {M : List α} (hM : M.Nodup) (h0 : M ≠ [])
    (hMn : ∀ v ∈ M, v ∈ D.dag.nodes) :
    ∃ T, (D.getMarginalsBy lg o ot oa os on f M).run = some (.ok T) ∧ T.shape = M.map D.dims ∧
      ∀ x : α → ℕ, (∀ v ∈ M, x v < D.dims v) → ∃ e, T.val (M.map x) = f e ∧ EReal.exp e = (D.pr M x : ℝ≥0∞) := by
  obtain ⟨T, A, t, gone, h1, h2, hA, ht, hg, h3⟩ := getMarginalsBy_sum hD.toFits hl o ot oa os on f hM h0 hMn
  refine ⟨T, h1, h2, fun x hx => ?_⟩
  obtain ⟨e, h4, h5⟩ := h3 x hx
  exact ⟨e, h4, by rw [h5, hA.prob hD ht hg o x hx]; rfl⟩

theorem getMarginals_run (hD : D.Tabled) (hc : D.Cut) (o ot : SetOrder (Option α) α) (oa : SetOrder Bool (α × α))
    (os : SetOrder (α × Finset α) α) (on : SetOrder Unit α) (f : EReal → R) {M : List α} (hM : M.Nodup) (h0 : M ≠ [])
    (hMn : ∀ v ∈ M, v ∈ D.dag.nodes) :
    ∃ T, (D.getMarginals o ot oa os on f M).run = some (.ok T) ∧ T.shape = M.map D.dims ∧
      ∀ x : α → ℕ, (∀ v ∈ M, x v < D.dims v) → ∃ e, T.val (M.map x) = f e ∧ EReal.exp e = (D.pr M x : ℝ≥0∞) :=
  getMarginalsBy_run hD hc.logs o ot oa os on f hM h0 hMn

theorem getMarginal_run (hD : D.Tabled) (hc : D.Cut) (o ot : SetOrder (Option α) α) (oa : SetOrder Bool (α × α))
    (os : SetOrder (α × Finset α) α) {v : α} (hv : v ∈ D.dag.nodes) :
    ∃ T, (D.getMarginal o ot oa os v).run = some (.ok T) ∧ T.shape = [D.dims v] ∧
      ∀ i < D.dims v, T.val [i] = (D.pr [v] (fun _ => i) : ℝ≥0∞) := by
  obtain ⟨A, hA1, hA⟩ := ancestral_spec hD.valid o oa os [v] [v] (by simpa using hv) (by simp)
  obtain ⟨t, ht1, ht⟩ := DAG.topologicalSort_ok A ot hA.valid
  cases t with
  | nil => exact absurd ((ht.mem_iff v).2 (hA.mem v (by simp))) (by simp)
  | cons t0 ts =>
    obtain ⟨h0A, -, h0p⟩ := lin_pars ht (pre := []) rfl
    have h0par : D.pars t0 = [] := by
      rw [List.eq_nil_iff_forall_not_mem]
      intro u hu
      simpa using h0p u ((hA.arcs_iff u t0).2 ⟨hD.pars_sub t0 (hA.sub t0 h0A) u hu, h0A⟩)
    have hinit : D.Inv A [t0] [] ⟨[t0], {t0}, noWarnLog (D.cond t0)⟩ := by
      refine Inv.init hD.toFits hA h0A (fun u hu => by simpa using h0p u hu) rfl fun x hx => ?_
      have := exp_noWarnLog hc (hA.sub t0 h0A) (x := x) (by rw [h0par]; simpa using hx)
      rw [kern, h0par] at this
      exact this
    obtain ⟨s, hs, gone, hI, last, hlast, ⟨r, hr⟩, hcur⟩ := Wp.ok (Wp.foldlM (f := fun s v => (ExceptT.mk (some (D.elimStep A (· = v) s v)) : Run α (Elim α)))
      (Q := fun _ => False)
      (fun pre s => ∃ gone, D.Inv A (t0 :: pre) gone s ∧ ∃ last, last ∈ s.cur ∧ (∃ r, t0 :: pre = r ++ [last]) ∧
        ∀ u ∈ s.cur, u = last ∨ ∃ w, (u, w) ∈ A.arcs ∧ w ∉ t0 :: pre) ts ⟨[t0], {t0}, noWarnLog (D.cond t0)⟩
      ⟨[], hinit, t0, by simp, ⟨[], rfl⟩, by simp⟩ (by
      rintro pre v' post s e ⟨gone, hI, -⟩
      have et : t0 :: ts = (t0 :: pre) ++ v' :: post := by rw [e]; rfl
      obtain ⟨hv', hvp, hpar⟩ := lin_pars ht et
      obtain ⟨s', gone', h1, h2, h3, h4⟩ := elimStep_spec (keep := (· = v')) hD.toFits hc.logs hA hI hv' hvp hpar (by simp)
      refine Or.inl ⟨s', by rw [elimStep, h1]; rfl, gone', h2, v', (h3 v').2 ⟨by simp, by simp⟩, ⟨t0 :: pre, rfl⟩, fun u hu => ?_⟩
      have := ((h3 u).1 hu).2
      by_cases hm : u = v'
      · exact Or.inl hm
      · right
        have : ¬ A.children u ⊆ s'.added := fun hs => this ⟨hs, by simpa using hm⟩
        obtain ⟨w, hw, hw'⟩ := Finset.not_subset.1 this
        rw [h2.added, List.mem_toFinset] at hw'
        exact ⟨w, (hA.valid.children_iff u w).1 hw, hw'⟩))
    have hcn := hI.holds.nodup.of_append_left
    have hcl : ∀ u ∈ s.cur, u = last := by
      intro u hu
      rcases hcur u hu with h | ⟨w, hw, hw'⟩
      · exact h
      · exact absurd ((ht.mem_iff w).2 (hA.valid.snd_mem _ _ hw)) hw'
    have hcv : s.cur = [last] := by
      refine List.perm_singleton.1 ((List.perm_ext_iff_of_nodup hcn (by simp)).2 fun u => ?_)
      rw [List.mem_singleton]
      exact ⟨hcl u, fun h => h ▸ hlast⟩
    have hlv : last = v := by
      by_contra hne
      have hlA : last ∈ A.nodes := (ht.mem_iff last).1 (by rw [hr]; simp)
      obtain ⟨w, hw⟩ := hA.reach last hlA (by simpa using hne)
      have hwt := (ht.mem_iff w).2 (hA.valid.snd_mem _ _ hw)
      rw [hr, List.mem_append, List.mem_singleton] at hwt
      rcases hwt with h | rfl
      · exact lin_kids ht hr hw h
      · exact hA.valid.acyclic w (.single hw)
    subst hlv
    refine ⟨s.table.map EReal.exp, ?_, ?_, fun i hi => ?_⟩
    · rw [getMarginal, run_bind_ok hA1, run_bind_ok ht1]
      exact run_bind_ok hs _
    · change s.table.shape = _
      rw [hI.holds.shape, hcv]; rfl
    · have h1 := hI.holds.val (fun _ => i) (by rw [hcv]; simpa using hi)
      have h2 := hI.perm
      rw [hcv] at h1 h2
      change EReal.exp (s.table.val [i]) = _
      rw [List.map_singleton] at h1
      rw [h1]
      have h3 := hA.prob hD ht (gone := gone) h2 o (fun _ => i) (by simpa using hi)
      rw [pr, ← h3]
      congr 1
      refine sumL_congr (R := ℝ≥0) fun y _ _ => ?_
      exact (h2.map _).prod_eq

end DiscreteDAG

end Model
