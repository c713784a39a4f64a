import Verif.Proof.DiscreteNew
import Mathlib.Algebra.BigOperators.Ring.List

/-! # `get_conditional` -/

set_option linter.unusedSectionVars false

namespace Spec

variable {α R : Type} [DecidableEq α] [AddCommMonoid R]

/-- Summing a joint distribution over the values of some variables. -/
theorem sumL_prob (V : Finset α) (d : α → ℕ) (p : (α → ℕ) → R) {N : List α} (hN : ∀ v ∈ N, v ∈ V) (C : List α)
    (hd : (N ++ C).Nodup) (x : α → ℕ) :
    sumL d N (fun y => prob V d p fun z => ∀ v ∈ N ++ C, z v = y v) x = prob V d p fun z => ∀ v ∈ C, z v = x v := by
  classical
  induction N generalizing C x with
  | nil => rfl
  | cons a N ih =>
    rw [sumL]
    have hd' : (N ++ a :: C).Nodup := List.perm_middle.nodup_iff.2 hd
    have hac : a ∉ C := fun h => (List.nodup_cons.1 hd).1 (by simp [h])
    have e : ∀ i, sumL d N (fun y => prob V d p fun z => ∀ v ∈ a :: N ++ C, z v = y v) (Function.update x a i) =
        prob V d p fun z => z a = i ∧ ∀ v ∈ C, z v = x v := by
      intro i
      have := ih (fun v hv => hN v (by simp [hv])) (a :: C) hd' (Function.update x a i)
      simp only [List.cons_append, List.mem_cons, List.mem_append, forall_eq_or_imp, Function.update_self] at this ⊢
      rw [show (fun y : α → ℕ => prob V d p fun z => z a = y a ∧ ∀ v, v ∈ N ∨ v ∈ C → z v = y v) =
        fun y => prob V d p fun z => ∀ v, v ∈ N ∨ v = a ∨ v ∈ C → z v = y v from ?_, this]
      · congr 1; funext z
        refine propext (and_congr_right fun _ => forall₂_congr fun v hv => ?_)
        rw [Function.update_of_ne]
        rintro rfl; exact hac hv
      · funext y; congr 1; funext z
        refine propext ⟨fun h v hv => ?_, fun h => ⟨h a (by simp), fun v hv => h v (by tauto)⟩⟩
        rcases hv with hv | rfl | hv
        · exact h.2 v (Or.inl hv)
        · exact h.1
        · exact h.2 v (Or.inr hv)
    rw [Finset.sum_congr rfl fun i _ => e i]
    rw [prob, ← Finset.sum_fiberwise_of_maps_to (g := fun z : α → ℕ => z a) (t := Finset.range (d a))]
    · refine Finset.sum_congr rfl fun i _ => ?_
      rw [prob]
      refine Finset.sum_congr (Finset.ext fun z => ?_) fun _ _ => rfl
      simp only [Finset.mem_filter]; tauto
    · intro z hz
      simp only [Finset.mem_filter] at hz
      exact Finset.mem_range.2 ((mem_assignments.1 hz.1).1 a (hN a (by simp)))

end Spec

namespace Model.DiscreteDAG

open Spec Relation
open scoped NNReal ENNReal

variable {α R : Type} [DecidableEq α] {D : DiscreteDAG α}

/-- A sum over `zip`. -/
theorem sum_zip {β γ : Type} (l : List β) (d : β) (f : ℕ → γ) (h : β → γ → ℝ) :
    ((l.zip ((List.range l.length).map f)).map fun p => h p.1 p.2).sum =
      ∑ i ∈ Finset.range l.length, h (l.getD i d) (f i) := by
  rw [Finset.sum_range, ← List.sum_ofFn]
  congr 1
  refine List.ext_getElem (by simp) fun i h1 h2 => ?_
  simp

/-- The expectation of a function of one value. -/
theorem expect_of_marginal (D : DiscreteDAG α) {v : α} (hv : v ∈ D.dag.nodes) (g : ℕ → ℝ) :
    D.expect (fun y => g (y v)) = ∑ i ∈ Finset.range (D.dims v), g i * (D.pr [v] (fun _ => i) : ℝ) := by
  classical
  rw [expect, ← Finset.sum_fiberwise_of_maps_to (g := fun y => y v) (t := Finset.range (D.dims v))
    fun y hy => Finset.mem_range.2 ((Spec.mem_assignments.1 hy).1 v hv)]
  refine Finset.sum_congr rfl fun i _ => ?_
  rw [pr, prob, NNReal.coe_sum, Finset.mul_sum]
  refine Finset.sum_congr (Finset.ext fun y => by simp only [Finset.mem_filter, List.mem_singleton, forall_eq])
    fun y hy => ?_
  simp only [Finset.mem_filter, List.mem_singleton, forall_eq] at hy
  rw [mul_comm, hy.2]

theorem condMarginal_val {N C : List α} (hd : (N ++ C).Nodup) (hN : ∀ v ∈ N, v ∈ D.dag.nodes) {full : Tensor EReal}
    (hs : full.shape = (N ++ C).map D.dims)
    (hf : ∀ x : α → ℕ, (∀ v ∈ N ++ C, x v < D.dims v) → EReal.exp (full.val ((N ++ C).map x)) = (D.pr (N ++ C) x : ℝ≥0∞))
    (x : α → ℕ) (hx : ∀ v ∈ C, x v < D.dims v) :
    EReal.exp ((marginalize full (List.range N.length)).val (C.map x)) = (D.pr C x : ℝ≥0∞) := by
  change EReal.exp (ENNReal.log _) = _
  have hfil : (N ++ C).filter (fun v => ¬ v ∈ N) = C := by
    rw [List.filter_append, List.filter_eq_nil_iff.2 (by simp), List.nil_append, List.filter_eq_self]
    intro v hv
    simpa using fun h => List.disjoint_of_nodup_append hd h hv
  have hfil' : (N ++ C).filter (fun v => v ∈ N) = N := by
    rw [List.filter_append, List.filter_eq_self.2 (by simp), List.filter_eq_nil_iff.2, List.append_nil]
    intro v hv
    simpa using fun h => List.disjoint_of_nodup_append hd h hv
  have := sumAxes_eq (axes := List.range N.length) (d := D.dims) (out := fun v => v ∈ N) (N ++ C) hd 0 (by
    intro j hj
    rw [Nat.zero_add, List.mem_range]
    constructor
    · intro h; rw [List.getElem_append_left h]; exact List.getElem_mem h
    · intro h
      by_contra hge
      rw [List.getElem_append_right (by omega)] at h
      exact List.disjoint_of_nodup_append hd h (List.getElem_mem _)) (fun i => EReal.exp (full.val i)) x
  rw [hfil, hfil'] at this
  rw [ENNReal.exp_log, hs, this]
  have h2 := sumL_prob D.dag.nodes D.dims D.law hN C hd x
  rw [pr, ← h2, coe_sumL]
  refine sumL_congr fun y h1 h2 => ?_
  apply hf
  intro v hv
  rcases List.mem_append.1 hv with hv | hv
  · exact h1 v hv
  · rw [h2 v fun h => List.disjoint_of_nodup_append hd h hv]; exact hx v hv

theorem conditionalFrom_spec {M C : List α} (hM : M.Nodup) (hC : C.Nodup) (hMn : ∀ v ∈ M, v ∈ D.dag.nodes)
    (hr : (M.filter (· ∈ C)).length ≤ 1) {full : Tensor EReal}
    (hs : full.shape = (M.filter (· ∉ C) ++ C).map D.dims)
    (hf : ∀ x : α → ℕ, (∀ v ∈ M.filter (· ∉ C) ++ C, x v < D.dims v) →
      EReal.exp (full.val ((M.filter (· ∉ C) ++ C).map x)) = (D.pr (M.filter (· ∉ C) ++ C) x : ℝ≥0∞)) :
    ∃ T, D.conditionalFrom M (M.filter (· ∉ C)) C full = .ok T ∧ T.shape = (M ++ C).map D.dims ∧
      ∀ x r : α → ℕ, (∀ v ∈ M ++ C, x v < D.dims v) → (∀ v ∈ M, r v < D.dims v) →
        T.val (M.map (fun v => if v ∈ C then r v else x v) ++ C.map x) =
          if ∀ v ∈ M, v ∈ C → r v = x v then (D.condPr (M.filter (· ∉ C)) C x : ℝ≥0∞) else 0 := by
  set N := M.filter (· ∉ C) with hN
  have hNC : ∀ v ∈ N, v ∉ C := fun v hv => by simpa using (List.mem_filter.1 hv).2
  have hNM : ∀ v ∈ N, v ∈ M := fun v hv => (List.mem_filter.1 hv).1
  have hd : (N ++ C).Nodup := by
    rw [List.nodup_append']
    exact ⟨hM.filter _, hC, fun v h1 h2 => hNC v h1 h2⟩
  have hcm := condMarginal_val hd (fun v hv => hMn v (hNM v hv)) hs hf
  set conditional : Tensor ℝ≥0∞ := ⟨full.shape, fun idx =>
    if (marginalize full (List.range N.length)).val (idx.drop N.length) = ⊥ then 1 / ((N.map D.dims).prod : ℝ≥0∞)
    else EReal.exp (full.val idx - (marginalize full (List.range N.length)).val (idx.drop N.length))⟩ with hcond
  have hval : ∀ x : α → ℕ, (∀ v ∈ N ++ C, x v < D.dims v) → conditional.val ((N ++ C).map x) = (D.condPr N C x : ℝ≥0∞) := by
    intro x hx
    have h1 := hcm x fun v hv => hx v (by simp [hv])
    have h2 := hf x hx
    have e : ((N ++ C).map x).drop N.length = C.map x := by
      rw [List.map_append, List.drop_append_of_le_length (by simp), List.drop_of_length_le (by simp), List.nil_append]
    change (if _ then _ else _) = _
    rw [e, condPr]
    by_cases hb : (marginalize full (List.range N.length)).val (C.map x) = ⊥
    · have h0 : D.pr C x = 0 := by
        rw [hb, EReal.exp_bot] at h1
        exact (ENNReal.coe_eq_zero.1 h1.symm)
      have hne : ((N.map D.dims).prod : ℝ≥0) ≠ 0 := by
        rw [Nat.cast_ne_zero]
        refine List.prod_ne_zero fun h => ?_
        obtain ⟨v, hv, hv0⟩ := List.mem_map.1 h
        have := hx v (by simp [hv])
        omega
      rw [if_pos hb, if_pos h0, ENNReal.coe_div hne, ENNReal.coe_one, ENNReal.coe_natCast]
    · have h0 : D.pr C x ≠ 0 := by
        intro h0
        rw [h0] at h1
        exact hb (EReal.exp_eq_zero_iff.1 (by simpa using h1))
      rw [if_neg hb, if_neg h0, ENNReal.coe_div h0, ← h2, ← h1, sub_eq_add_neg, EReal.exp_add, EReal.exp_neg,
        ENNReal.div_eq_inv_mul, mul_comm]
  rw [conditionalFrom]
  simp only [← hcond]
  by_cases hlen : M.length = N.length
  · rw [if_pos hlen]
    have hMN : N = M := (List.filter_sublist (l := M)).eq_of_length hlen.symm
    refine ⟨conditional, rfl, by rw [hcond, ← hMN]; exact hs, fun x r hx _ => ?_⟩
    rw [if_pos (fun v hv hc => absurd hc (hNC v (hMN ▸ hv)))]
    rw [← hval x fun v hv => hx v (by rw [← hMN]; exact hv), List.map_append]
    congr 2
    rw [← hMN]
    exact List.map_congr_left fun v hv => if_neg (hNC v hv)
  · rw [if_neg hlen]
    obtain ⟨w, hw⟩ : ∃ w, M.filter (· ∈ C) = [w] := by
      rw [← List.length_eq_one_iff]
      have h1 := List.length_eq_length_filter_add (l := M) (fun v => decide (v ∈ C))
      have h2 : M.filter (fun v => !decide (v ∈ C)) = N := by rw [hN]; simp
      rw [h2] at h1
      omega
    have hwM : w ∈ M ∧ w ∈ C := by
      have : w ∈ M.filter (· ∈ C) := by rw [hw]; simp
      simpa using this
    have huniq : ∀ v ∈ M, v ∈ C → v = w := by
      intro v h1 h2
      have : v ∈ M.filter (· ∈ C) := by simp [h1, h2]
      rw [hw] at this; simpa using this
    have hMN : ∀ v, v ∈ N ↔ v ∈ M ∧ v ∉ C := by intro v; rw [hN, List.mem_filter, decide_eq_true_iff]
    set stop := (M.map fun v => (v, decide (v ∉ N))) ++ C.map fun v => (v, false) with hstop
    have hstart_nd : ((N ++ C).map fun v => (v, false)).Nodup := hd.map fun a b h => (Prod.mk.inj h).1
    have hstop_nd : stop.Nodup := by
      rw [hstop, List.nodup_append']
      refine ⟨hM.map fun a b h => (Prod.mk.inj h).1, hC.map fun a b h => (Prod.mk.inj h).1, ?_⟩
      intro p h1 h2
      obtain ⟨a, ha, rfl⟩ := List.mem_map.1 h1
      obtain ⟨b, hb, he⟩ := List.mem_map.1 h2
      obtain ⟨rfl, he⟩ := Prod.mk.inj he
      have : b ∈ N := by simpa using he.symm
      exact hNC b this hb
    have hws : (w, true) ∈ stop := by
      rw [hstop]
      refine List.mem_append_left _ (List.mem_map.2 ⟨w, hwM.1, ?_⟩)
      simp [hMN, hwM.2]
    have hstop_map : ∀ x r : α → ℕ, stop.map (fun p => if p.2 then r p.1 else x p.1) =
        M.map (fun v => if v ∈ C then r v else x v) ++ C.map x := by
      intro x r
      rw [hstop, List.map_append, List.map_map, List.map_map]
      congr 1
      refine List.map_congr_left fun v hv => ?_
      by_cases hvc : v ∈ C <;> simp [hMN, hv, hvc]
    obtain ⟨T, h1, h2, h3⟩ := einopsRepeat_ok (α := α) (t := conditional) (left := (N ++ C).map fun v => (v, false))
      (right := stop) (sizes := fun d => D.dims d.1) (sz := fun d => D.dims d.1) hstart_nd hstop_nd (by
        intro p hp
        obtain ⟨v, hv, rfl⟩ := List.mem_map.1 hp
        rw [hstop]
        rcases List.mem_append.1 hv with hv | hv
        · exact List.mem_append_left _ (List.mem_map.2 ⟨v, hNM v hv, by simp [hv]⟩)
        · exact List.mem_append_right _ (List.mem_map.2 ⟨v, hv, rfl⟩)) (by
        rw [List.map_map]; exact hs) (fun _ _ _ => rfl)
    obtain ⟨O, h4, h5, h6⟩ := einopsRepeat_ok (α := α)
      (t := (⟨[D.dims w, D.dims w], fun i => if i.getD 0 0 = i.getD 1 0 then 1 else 0⟩ : Tensor ℝ≥0∞))
      (left := [(w, false), (w, true)])
      (right := stop) (sizes := fun d => D.dims d.1) (sz := fun d => D.dims d.1) (by simp) hstop_nd (by
        intro p hp
        rcases List.mem_cons.1 hp with rfl | hp
        · rw [hstop]; exact List.mem_append_right _ (List.mem_map.2 ⟨w, hwM.2, rfl⟩)
        · rw [List.mem_singleton.1 hp]; exact hws) rfl (fun _ _ _ => rfl)
    rw [h1, hw]
    simp only [h4]
    refine ⟨_, rfl, ?_, fun x r hx hr => ?_⟩
    · change T.shape = _
      have := hstop_map D.dims D.dims
      simp only [ite_self] at this
      rw [h2, this, List.map_append]
    · change T.val _ * O.val _ = _
      rw [← hstop_map, h3, h6, List.map_map]
      have e : ((fun p : α × Bool => if p.2 then r p.1 else x p.1) ∘ fun v => (v, false)) = x := by
        funext v; simp
      rw [e, hval x fun v hv => hx v (by
        rcases List.mem_append.1 hv with hv | hv
        · exact List.mem_append_left _ (hNM v hv)
        · exact List.mem_append_right _ hv)]
      have : (∀ v ∈ M, v ∈ C → r v = x v) ↔ x w = r w := by
        constructor
        · intro h; exact (h w hwM.1 hwM.2).symm
        · intro h v hv hc; rw [huniq v hv hc]; exact h.symm
      simp only [this]
      change _ * (if x w = r w then 1 else 0) = _
      split_ifs <;> simp

theorem cond_nodup {M C : List α} (hM : M.Nodup) (hC : C.Nodup) : (M.filter (· ∉ C) ++ C).Nodup :=
  List.nodup_append'.2 ⟨hM.filter _, hC, fun v h1 h2 => by simpa [h2] using (List.mem_filter.1 h1).2⟩

theorem cond_ne {M C : List α} (h0 : M ≠ [] ∨ C ≠ []) : M.filter (· ∉ C) ++ C ≠ [] := by
  by_cases hC : C = []
  · subst hC
    simpa using h0
  · simp [hC]

theorem cond_mem {M C : List α} {S : Finset α} (hn : ∀ v ∈ M ++ C, v ∈ S) : ∀ v ∈ M.filter (· ∉ C) ++ C, v ∈ S := by
  intro v hv
  refine hn v ?_
  rcases List.mem_append.1 hv with h | h
  · simp [(List.mem_filter.1 h).1]
  · simp [h]

theorem run_bind_error {β γ : Type} {m : Run α β} {e : Exn α} (h : m.run = some (.error e)) (f : β → Run α γ) :
    (m >>= f).run = some (.error e) := by
  rw [ExceptT.run_bind, h]; rfl

theorem conditionalFrom_raises {M C : List α} {full : Tensor EReal} {u v : α} (huv : u ≠ v) (hu : u ∈ M ∧ u ∈ C)
    (hv : v ∈ M ∧ v ∈ C) : ∃ e, D.conditionalFrom M (M.filter (· ∉ C)) C full = .error e := by
  have hlen : ¬ M.length = (M.filter (· ∉ C)).length := by
    intro h
    have := (List.filter_eq_self (l := M) (p := (· ∉ C))).1 (List.filter_sublist.eq_of_length h.symm) u hu.1
    simp [hu.2] at this
  rw [conditionalFrom]
  simp only [if_neg hlen]
  split
  · exact ⟨_, rfl⟩
  · rename_i c w h1 h2
    have h3 : u ∈ M.filter (· ∈ C) := by simp [hu.1, hu.2]
    have h4 : v ∈ M.filter (· ∈ C) := by simp [hv.1, hv.2]
    rw [h2] at h3 h4
    exact absurd ((List.mem_singleton.1 h3).trans (List.mem_singleton.1 h4).symm) huv
  · exact ⟨_, rfl⟩

theorem tree_of {M : List α} {A : DAG α} (hA : D.Anc M A)
    (h : ∃ t, ∀ v, (∃ s ∈ M, Path0 D.dag.E v s) → v ≠ t → ∃ w, ∀ u, (u, v) ∈ D.dag.arcs ↔ u = w) : Tree A := by
  obtain ⟨t, ht⟩ := h
  refine ⟨t, fun v hv hvt => ?_⟩
  obtain ⟨w, hw⟩ := ht v ((hA.nodes_iff v).1 hv) hvt
  exact ⟨w, fun u => by rw [hA.arcs_iff, hw]; simp [hv]⟩

theorem getMarginalsNew_raises {R : Type} [One R] (hD : D.Tabled) (hc : D.Cut) (o ot : SetOrder (Option α) α)
    (oa : SetOrder Bool (α × α)) (os : SetOrder (α × Finset α) α) (on : SetOrder Unit α) (oc : SetOrder α α) (f : EReal → R)
    {M : List α} (hMn : ∀ v ∈ M, v ∈ D.dag.nodes) {s t : α} (hst : s ≠ t) (hs : ∃ m ∈ M, Path0 D.dag.E s m)
    (ht : ∃ m ∈ M, Path0 D.dag.E t m) (hsp : ∀ u, (u, s) ∉ D.dag.arcs) (htp : ∀ u, (u, t) ∉ D.dag.arcs) :
    ∃ e, (D.getMarginalsNew o ot oa os on oc f M).run = some (.error e) := by
  obtain ⟨m, hm, -⟩ := id hs
  obtain ⟨A, hA, h⟩ := getMarginalsNew_run hD hc o ot oa os on oc f (List.ne_nil_of_mem hm) hMn
  rcases h with ⟨T, h1, ⟨r, hr⟩, -⟩ | ⟨e, h1, -⟩
  · have key : ∀ v, (∃ m ∈ M, Path0 D.dag.E v m) → (∀ u, (u, v) ∉ D.dag.arcs) → v = r := fun v hv hp => by
      by_contra hne
      obtain ⟨w, hw⟩ := hr v ((hA.nodes_iff v).2 hv) hne
      exact hp w ((hA.arcs_iff w v).1 hw).1
    exact absurd ((key s hs hsp).trans (key t ht htp).symm) hst
  · exact ⟨e, h1⟩

end Model.DiscreteDAG
