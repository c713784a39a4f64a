import Verif.Proof.DiscreteMarkov

/-! # Refitting a discrete distribution on an I-map -/

namespace Model.DiscreteDAG

open Spec Relation
open scoped NNReal

variable {α : Type} [DecidableEq α] {D : DiscreteDAG α}

omit [DecidableEq α] in
theorem pr_mono {S T : List α} (h : ∀ v ∈ T, v ∈ S) (x : α → ℕ) : D.pr S x ≤ D.pr T x := by
  classical
  unfold pr prob
  refine Finset.sum_le_sum_of_subset_of_nonneg (fun y hy => ?_) fun _ _ _ => zero_le
  have hy' := (@Finset.mem_filter _ _ (_) _ _).1 hy
  refine (@Finset.mem_filter _ _ (_) _ _).2 ⟨hy'.1, fun v hv => hy'.2 v (h v hv)⟩

/-- The whole assignment. -/
theorem pr_all (hD : D.Shaped) {S : List α} (hS : S.Perm D.dag.nodes.toList) {x : α → ℕ} (hx : ∀ v ∈ D.dag.nodes, x v < D.dims v) :
    D.pr S x = D.law x :=
  pr_eq_sumL hD (M := S) (rest := []) (by simpa using hS) x fun v hv => hx v (by simpa using hS.mem_iff.1 hv)

theorem pr_nil (hD : D.Proper) (x : α → ℕ) : D.pr [] x = 1 := by
  obtain ⟨P, -, hP⟩ := ancestral_spec hD.valid (SetOrder.any _ _) (SetOrder.any _ _) (SetOrder.any _ _) [] [] (by simp)
    (fun _ => Iff.rfl)
  obtain ⟨t, -, ht⟩ := DAG.topologicalSort_ok P (SetOrder.any _ _) hP.valid
  have h0 : t = [] := List.eq_nil_iff_forall_not_mem.2 fun v hv => by
    have := (hP.nodes_iff v).1 ((ht.mem_iff v).1 hv)
    simp at this
  subst h0
  rw [pr, ← hP.prob hD ht (gone := []) (by simp) (SetOrder.any _ _) x (by simp)]
  rfl

/-- One factor of the chain rule. -/
theorem pr_cons (hD : D.Proper) {v : α} {pre pa : List α} (hv : v ∉ pre) (hpre : pre.Nodup) (hpa : pa.Nodup) (hsub : ∀ u ∈ pa, u ∈ pre)
    (hn : ∀ u ∈ v :: pre, u ∈ D.dag.nodes) (hs : DSep D.dag.E {v} {u | u ∈ pre ∧ u ∉ pa} {u | u ∈ pa}) {x : α → ℕ}
    (hx : ∀ u ∈ v :: pre, x u < D.dims u) : D.pr (v :: pre) x = D.condPr [v] pa x * D.pr pre x := by
  rw [condPr]
  by_cases h0 : D.pr pre x = 0
  · rw [h0, mul_zero]
    exact le_antisymm ((pr_mono (fun u hu => List.mem_cons_of_mem _ hu) x).trans h0.le) zero_le
  have h1 : D.pr pa x ≠ 0 := fun h => h0 (le_antisymm ((pr_mono hsub x).trans h.le) zero_le)
  rw [if_neg h1]
  set B := pre.filter (· ∉ pa) with hB
  have hmem : ∀ u, u ∈ B ++ pa ↔ u ∈ pre := by
    intro u
    rw [List.mem_append, hB, List.mem_filter, decide_eq_true_iff]
    constructor
    · rintro (h | h)
      · exact h.1
      · exact hsub u h
    · intro h
      by_cases hu : u ∈ pa
      · exact Or.inr hu
      · exact Or.inl ⟨h, hu⟩
  have hmem' : ∀ u, u ∈ [v] ++ B ++ pa ↔ u ∈ v :: pre := by
    intro u
    rw [List.append_assoc, List.mem_append, hmem]
    simp
  have hnd : ([v] ++ B ++ pa).Nodup := by
    rw [List.append_assoc, List.singleton_append, List.nodup_cons, hmem]
    refine ⟨hv, List.nodup_append'.2 ⟨hpre.filter _, hpa, fun u h1 h2 => ?_⟩⟩
    rw [hB, List.mem_filter, decide_eq_true_iff] at h1
    exact h1.2 h2
  have key := pr_dsep hD hnd (fun u hu => hn u ((hmem' u).1 hu)) (x := x) ?_ fun u hu => hx u ((hmem' u).1 hu)
  · rw [pr_congr hmem', pr_congr hmem] at key
    rw [div_mul_eq_mul_div, eq_div_iff h1]
    exact key
  · convert hs using 1
    · ext u; simp
    · ext u; simp [hB]

/-- Along a topological order of an I-map every node is separated from the earlier ones by its parents. -/
theorem split_of_imap {D' : DiscreteDAG α} {E : α → α → Prop} (hD' : D'.Shaped) (hi : SubModel D'.dag.E E (D'.dag.nodes : Set α)) {t : List α}
    (ht : LinearExtension {v | v ∈ D'.dag.nodes} D'.dag.E t) {r s : List α} {v : α} (e : t = r ++ v :: s) :
    (∀ u ∈ D'.pars v, u ∈ r) ∧ DSep E {v} {u | u ∈ r ∧ u ∉ D'.pars v} {u | u ∈ D'.pars v} := by
  have hmem : ∀ v, v ∈ t ↔ v ∈ D'.dag.nodes := fun v => ht.mem_iff v
  have hv' : v ∈ D'.dag.nodes := (hmem v).1 (by rw [e]; simp)
  have hpar : ∀ u, u ∈ D'.pars v ↔ D'.dag.E u v := hD'.pars_iff v hv'
  have hr : ∀ u ∈ r, u ∈ D'.dag.nodes := fun u hu => (hmem u).1 (by rw [e]; simp [hu])
  have hnd : (r ++ v :: s).Nodup := e ▸ ht.nodup
  refine ⟨fun u hu => before_of_split ht.nodup (ht.before u v ((hpar u).1 hu)) e, ?_⟩
  refine hi _ _ _ (by simpa using hv') (fun u hu => hr u hu.1) (fun u hu => hD'.valid.fst_mem _ _ ((hpar u).1 hu)) ?_ ?_ ?_ ?_
  · rw [Set.disjoint_left]
    rintro u rfl hu
    exact List.disjoint_of_nodup_append hnd hu.1 (by simp)
  · rw [Set.disjoint_left]
    rintro u rfl hu
    exact hD'.valid.acyclic.irrefl ((hpar u).1 hu)
  · rw [Set.disjoint_left]
    exact fun u hu => hu.2
  · have hm := local_markov hD'.valid.acyclic v
    have e2 : {p | D'.dag.E p v} = {u | u ∈ D'.pars v} := by ext u; simp [hpar]
    rw [e2] at hm
    refine dsep_mono ?_ ?_ hm
    · exact Set.Subset.rfl
    · rintro u ⟨h1, h2⟩
      refine ⟨fun h => ?_, fun h => ?_, fun h => h2 ((hpar u).2 h)⟩
      · subst h
        exact List.disjoint_of_nodup_append hnd h1 (by simp)
      · have hcl : ∀ w y, D'.dag.E w y → y ∈ r → w ∈ r := by
          intro w y hwy hy
          obtain ⟨r1, r2, e'⟩ := List.append_of_mem hy
          have := before_of_split ht.nodup (ht.before w y hwy) (r := r1) (s := r2 ++ v :: s) (by rw [e, e']; simp)
          rw [e']
          exact List.mem_append_left _ this
        have hvr : v ∈ r := by
          clear h2
          induction h with
          | single h => exact hcl _ _ h h1
          | tail _ h ih => exact ih (hcl _ _ h h1)
        exact List.disjoint_of_nodup_append hnd hvr (by simp)

/-- A network on an I-map whose tables are the conditional distributions, where those are defined, has the same law. -/
theorem law_of_imap {D' : DiscreteDAG α} (hD : D.Proper) (hD' : D'.Shaped) (hn : D'.dag.nodes = D.dag.nodes)
    (hi : SubModel D'.dag.E D.dag.E (D'.dag.nodes : Set α))
    (hT : ∀ v ∈ D'.dag.nodes, ∀ x : α → ℕ, (∀ u ∈ v :: D'.pars v, x u < D.dims u) → D.pr (D'.pars v) x ≠ 0 →
      (D'.cond v).val ((D'.pars v ++ [v]).map x) = D.condPr [v] (D'.pars v) x) {x : α → ℕ} (hx : ∀ v ∈ D.dag.nodes, x v < D.dims v) :
    D'.law x = D.law x := by
  obtain ⟨t, -, ht⟩ := DAG.topologicalSort_ok D'.dag (SetOrder.any _ _) hD'.valid
  have hmem : ∀ v, v ∈ t ↔ v ∈ D'.dag.nodes := fun v => ht.mem_iff v
  have hperm : t.Perm D.dag.nodes.toList := (List.perm_ext_iff_of_nodup ht.nodup (Finset.nodup_toList _)).2 fun v => by
    rw [hmem, Finset.mem_toList, hn]
  have key : ∀ r, (∃ s, t = r ++ s) → (r.map fun v => D'.kern v x).prod = D.pr r x := by
    intro r
    induction r using List.reverseRecOn with
    | nil => intro _; rw [pr_nil hD]; rfl
    | append_singleton r v ih =>
      rintro ⟨s, e⟩
      have e : t = r ++ v :: s := by rw [e]; simp
      have hr := ih ⟨v :: s, e⟩
      have hv' : v ∈ D'.dag.nodes := (hmem v).1 (by rw [e]; simp)
      have hv := split_of_imap hD' hi ht e
      have hrn : ∀ u ∈ v :: r, u ∈ D.dag.nodes := fun u hu => by
        rw [← hn, ← hmem, e]
        rcases List.mem_cons.1 hu with rfl | hu <;> simp [*]
      have hnd : (r ++ v :: s).Nodup := e ▸ ht.nodup
      rw [List.map_append, List.prod_append, hr, List.map_singleton, List.prod_singleton, pr_congr (S := r ++ [v]) (T := v :: r)
        (fun u => by simp [or_comm]), pr_cons hD (fun h => List.disjoint_of_nodup_append hnd h (by simp)) hnd.of_append_left
        (hD'.nodup v hv') hv.1 hrn hv.2 (fun u hu => hx u (hrn u hu)), mul_comm]
      by_cases h0 : D.pr r x = 0
      · rw [h0, mul_zero, mul_zero]
      · congr 1
        refine hT v hv' x (fun u hu => hx u (hrn u ?_)) fun h => h0 (le_antisymm ((pr_mono hv.1 x).trans h.le) zero_le)
        rcases List.mem_cons.1 hu with rfl | hu
        · simp
        · exact List.mem_cons_of_mem _ (hv.1 u hu)
  rw [← pr_all hD.toShaped hperm hx, ← key t ⟨[], by simp⟩]
  change ∏ v ∈ D'.dag.nodes, D'.kern v x = _
  rw [← Finset.prod_map_toList, hn, ((hperm.map _).prod_eq).symm]

theorem Proper.dims_pos (hD : D.Proper) {v : α} (hv : v ∈ D.dag.nodes) : 0 < D.dims v := by
  obtain ⟨t, -, ht⟩ := DAG.topologicalSort_ok D.dag (SetOrder.any _ _) hD.valid
  have H : ∀ r : List α, (∃ s, t = r ++ s) → ∀ u ∈ r, 0 < D.dims u := by
    intro r
    induction r using List.reverseRecOn with
    | nil => simp
    | append_singleton r u ih =>
      rintro ⟨s, e⟩ w hw
      have ih' := ih ⟨u :: s, by rw [e]; simp⟩
      rcases List.mem_append.1 hw with h | h
      · exact ih' w h
      · rw [List.mem_singleton] at h
        subst h
        have hw' : w ∈ D.dag.nodes := (ht.mem_iff w).1 (by rw [e]; simp)
        by_contra h0
        have h0 : D.dims w = 0 := by omega
        have := hD.total w hw' (fun _ => 0) fun p hp =>
          ih' p (before_of_split ht.nodup (ht.before p w ((hD.pars_iff w hw' p).1 hp)) (r := r) (s := s) (by rw [e]; simp))
        simp [h0] at this
  exact H t ⟨[], by simp⟩ v ((ht.mem_iff v).2 hv)

/-- Conditional distributions sum to one. -/
theorem condPr_total (hD : D.Proper) {v : α} {pa : List α} (hv : v ∉ pa) (hpa : pa.Nodup) (hn : ∀ u ∈ v :: pa, u ∈ D.dag.nodes) {x : α → ℕ}
    (hx : ∀ u ∈ pa, x u < D.dims u) :
    ∑ i ∈ Finset.range (D.dims v), D.condPr [v] pa (Function.update x v i) = 1 := by
  have e : ∀ i, D.pr pa (Function.update x v i) = D.pr pa x := fun i =>
    pr_base fun u hu => Function.update_of_ne (ne_of_mem_of_not_mem hu hv) _ _
  simp only [condPr, e]
  by_cases h : D.pr pa x = 0
  · have hd := hD.dims_pos (hn v (by simp))
    simp only [if_pos h, List.map_singleton, List.prod_singleton, Finset.sum_const, Finset.card_range, nsmul_eq_mul]
    rw [mul_one_div, div_self]
    exact_mod_cast hd.ne'
  · simp only [if_neg h]
    simp only [div_eq_mul_inv]
    rw [← Finset.sum_mul, ← div_eq_mul_inv, div_eq_one_iff_eq h, pr_sum hD.toShaped (M := pa) (l := [v])]
    · refine Finset.sum_congr rfl fun i _ => ?_
      rw [sumL]
      exact pr_congr (fun u => by simp [or_comm]) _
    · refine List.nodup_append'.2 ⟨hpa, by simp, fun u h1 h2 => ?_⟩
      rw [List.mem_singleton] at h2
      exact hv (h2 ▸ h1)
    · exact fun u hu => hn u (by simpa [or_comm] using hu)
    · exact hx

/-- The network on the graph `H` whose tables are the conditional distributions of `D`, the parents listed as in `pars`. -/
noncomputable def refit (D : DiscreteDAG α) (H : DAG α) (pars : α → List α) : DiscreteDAG α :=
  { dag := H
    pars := pars
    alph := D.alph
    cond := fun v => ⟨(pars v ++ [v]).map D.dims, fun idx => D.condPr [v] (pars v) fun u => idx.getD ((pars v ++ [v]).idxOf u) 0⟩ }

omit [DecidableEq α] in
theorem condPr_base {N C : List α} {x x' : α → ℕ} (h : ∀ v ∈ N ++ C, x v = x' v) : D.condPr N C x = D.condPr N C x' := by
  rw [condPr, condPr, pr_base h, pr_base (S := C) fun v hv => h v (List.mem_append_right _ hv)]

theorem refit_cond (D : DiscreteDAG α) (H : DAG α) (pars : α → List α) (v : α) (x : α → ℕ) :
    ((D.refit H pars).cond v).val ((pars v ++ [v]).map x) = D.condPr [v] (pars v) x := by
  refine condPr_base fun u hu => ?_
  have hu' : u ∈ pars v ++ [v] := by
    rcases List.mem_append.1 hu with h | h
    · exact List.mem_append_right _ h
    · exact List.mem_append_left _ h
  exact getD_map_idxOf hu' x

/-- Tables that are conditional distributions make a network with the same probabilities. -/
theorem same_of_imap {D' : DiscreteDAG α} (hD : D.Proper) (hD' : D'.Shaped) (hn : D'.dag.nodes = D.dag.nodes) (ha : D'.alph = D.alph)
    (hi : SubModel D'.dag.E D.dag.E (D'.dag.nodes : Set α))
    (hT : ∀ v ∈ D'.dag.nodes, ∀ x : α → ℕ, (∀ u ∈ v :: D'.pars v, x u < D.dims u) →
      (D'.cond v).val ((D'.pars v ++ [v]).map x) = D.condPr [v] (D'.pars v) x) :
    D'.Proper ∧ ∀ S x, D'.pr S x = D.pr S x := by
  have hd : D'.dims = D.dims := by funext v; rw [dims, dims, ha]
  have hpn : ∀ v ∈ D'.dag.nodes, ∀ u ∈ v :: D'.pars v, u ∈ D.dag.nodes := by
    intro v hv u hu
    rw [← hn]
    rcases List.mem_cons.1 hu with rfl | hu
    · exact hv
    · exact hD'.valid.fst_mem _ _ ((hD'.pars_iff v hv u).1 hu)
  have hvp : ∀ v ∈ D'.dag.nodes, v ∉ D'.pars v := fun v hv h => hD'.valid.acyclic.irrefl ((hD'.pars_iff v hv v).1 h)
  refine ⟨⟨hD', fun v hv x hx => ?_⟩, fun S x => ?_⟩
  · rw [hd] at hx ⊢
    rw [← condPr_total hD (hvp v hv) (hD'.nodup v hv) (hpn v hv) hx]
    refine Finset.sum_congr rfl fun i hi => ?_
    have e : (D'.pars v).map x ++ [i] = (D'.pars v ++ [v]).map (Function.update x v i) := by
      rw [List.map_append, List.map_singleton, Function.update_self]
      congr 1
      exact List.map_congr_left fun u hu => (Function.update_of_ne (ne_of_mem_of_not_mem hu (hvp v hv)) _ _).symm
    rw [e, hT v hv]
    intro u hu
    rcases List.mem_cons.1 hu with rfl | hu
    · rw [Function.update_self]; exact Finset.mem_range.1 hi
    · rw [Function.update_of_ne (ne_of_mem_of_not_mem hu (hvp v hv))]; exact hx u hu
  · unfold pr prob
    rw [hn, hd]
    refine Finset.sum_congr rfl fun y hy => ?_
    have hy' := (@Finset.mem_filter _ _ (_) _ _).1 hy
    exact law_of_imap hD hD' hn hi (fun v hv x hx _ => hT v hv x hx) (mem_assignments.1 hy'.1).1

/-- It is enough that the tables are the conditional distributions where the condition has positive probability. -/
theorem pr_of_imap {D' : DiscreteDAG α} (hD : D.Proper) (hD' : D'.Shaped) (hn : D'.dag.nodes = D.dag.nodes) (ha : D'.alph = D.alph)
    (hi : SubModel D'.dag.E D.dag.E (D'.dag.nodes : Set α))
    (hT : ∀ v ∈ D'.dag.nodes, ∀ x : α → ℕ, (∀ u ∈ v :: D'.pars v, x u < D.dims u) → D.pr (D'.pars v) x ≠ 0 →
      (D'.cond v).val ((D'.pars v ++ [v]).map x) = D.condPr [v] (D'.pars v) x) (S : List α) (x : α → ℕ) : D'.pr S x = D.pr S x := by
  have hd : D'.dims = D.dims := by funext v; rw [dims, dims, ha]
  unfold pr prob
  rw [hn, hd]
  refine Finset.sum_congr rfl fun y hy => ?_
  have hy' := (@Finset.mem_filter _ _ (_) _ _).1 hy
  exact law_of_imap hD hD' hn hi hT (mem_assignments.1 hy'.1).1

end Model.DiscreteDAG
