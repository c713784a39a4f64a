import Verif.Model.DiscretePgmpy
import Verif.Proof.Influence
import Verif.Proof.DiscreteLearn

/-! # Conditional distributions from `pgmpy` -/

set_option linter.unusedSectionVars false

namespace Model

open Spec
open scoped NNReal ENNReal

theorem ravel_append {d1 d2 a b : List ℕ} (h : a.length = d1.length) :
    ravel (d1 ++ d2) (a ++ b) = ravel (d1 ++ [d2.prod]) (a ++ [ravel d2 b]) := by
  induction d1 generalizing a with
  | nil =>
    rw [List.length_nil, List.length_eq_zero_iff] at h
    subst h
    simp [ravel]
  | cons d d1 ih =>
    cases a with
    | nil => simp at h
    | cons i a =>
      simp only [List.cons_append, ravel]
      rw [ih (by simpa using h)]
      simp

theorem except_mapM {β γ : Type} {f : β → Except (Exn ℕ) γ} {l : List β} (h : ∀ v ∈ l, ∃ c, f v = .ok c) :
    ∃ r, l.mapM f = .ok r ∧ List.Forall₂ (fun v c => f v = .ok c) l r := by
  induction l with
  | nil => exact ⟨[], rfl, .nil⟩
  | cons v l ih =>
    obtain ⟨c, hc⟩ := h v (by simp)
    obtain ⟨r, h1, h2⟩ := ih fun w hw => h w (by simp [hw])
    exact ⟨c :: r, by rw [List.mapM_cons, hc, h1]; rfl, .cons hc h2⟩

theorem mem_products {β : Type} {L : List (List β)} {z : List β} : z ∈ products L ↔ List.Forall₂ (· ∈ ·) z L := by
  induction L generalizing z with
  | nil => simp [products]
  | cons l L ih =>
    simp only [products, List.mem_flatMap, List.mem_map]
    constructor
    · rintro ⟨a, ha, w, hw, rfl⟩
      exact .cons ha (ih.1 hw)
    · intro h
      cases h with
      | cons h1 h2 => exact ⟨_, h1, _, ih.2 h2, rfl⟩

theorem zipWith_nat {ps : List ℕ} {k : ℕ → ℕ} {y : ℕ → ℕ} (hy : ∀ p ∈ ps, y p < k p) :
    List.zipWith (fun i (l : List ℕ) => l.getD i 0) (ps.map y) (ps.map fun p => List.range (k p)) = ps.map y := by
  induction ps with
  | nil => rfl
  | cons p ps ih =>
    simp only [List.map_cons, List.zipWith_cons_cons]
    rw [ih fun q hq => hy q (by simp [hq])]
    congr 1
    rw [List.getD_eq_getElem?_getD]
    simp [hy p (by simp)]

/-- A tuple of values is given by an assignment. -/
theorem tuple_map {C : List ℕ} (hC : C.Nodup) {k : ℕ → ℕ} {z : List ℕ} (h : List.Forall₂ (· ∈ ·) z (C.map fun p => List.range (k p))) :
    ∃ x : ℕ → ℕ, z = C.map x ∧ ∀ p ∈ C, x p < k p := by
  induction C generalizing z with
  | nil => cases h; exact ⟨fun _ => 0, rfl, by simp⟩
  | cons c C ih =>
    rw [List.map_cons] at h
    cases h with
    | @cons i _ w _ h1 h2 =>
      obtain ⟨x, rfl, hx⟩ := ih (List.nodup_cons.1 hC).2 h2
      have hc := (List.nodup_cons.1 hC).1
      refine ⟨Function.update x c i, ?_, fun p hp => ?_⟩
      · rw [List.map_cons, Function.update_self]
        congr 1
        exact List.map_congr_left fun p hp => (Function.update_of_ne (ne_of_mem_of_not_mem hp hc) _ _).symm
      · by_cases hpc : p = c
        · subst hpc; simpa using h1
        · rw [Function.update_of_ne hpc]
          exact hx p (by simpa [hpc] using hp)

/-- The repeated axis. -/
theorem addRepeatedConditional_ok {t : Tensor ℝ} {M C : List ℕ} {dims : ℕ → ℕ} (hM : M.Nodup) (hC : C.Nodup) {w : ℕ} (hwM : w ∈ M)
    (hwC : w ∈ C) (huniq : ∀ v ∈ M, v ∈ C → v = w) (ht : t.shape = (M.filter (· ∉ C) ++ C).map dims) :
    ∃ t', addRepeatedConditional t M C dims = .ok t' ∧ t'.shape = (M ++ C).map dims ∧
      ∀ y x : ℕ → ℕ, (∀ v ∈ M, y v < dims v) → (∀ v ∈ C, x v < dims v) →
        t'.val (M.map y ++ C.map x) = if y w = x w then t.val ((M.filter (· ∉ C)).map y ++ C.map x) else 0 := by
  set N := M.filter (· ∉ C) with hN
  have hNM : ∀ v ∈ N, v ∈ M := fun v hv => (List.mem_filter.1 hv).1
  have hNC : ∀ v ∈ N, v ∉ C := fun v hv => by simpa using (List.mem_filter.1 hv).2
  have hf : M.filter (· ∈ C) = [w] := by
    refine List.perm_singleton.1 ((List.perm_ext_iff_of_nodup (hM.filter _) (by simp)).2 fun v => ?_)
    simp only [List.mem_filter, decide_eq_true_eq, List.mem_singleton]
    exact ⟨fun h => huniq v h.1 h.2, fun h => h ▸ ⟨hwM, hwC⟩⟩
  set stop := (M.map fun v => (v, decide (v ∈ C))) ++ C.map fun v => (v, false) with hstop
  have hstart_nd : ((N ++ C).map fun v => (v, false)).Nodup := (DiscreteDAG.cond_nodup hM hC).map fun a b h => (Prod.mk.inj h).1
  have hstop_nd : stop.Nodup := by
    rw [hstop, List.nodup_append']
    refine ⟨hM.map fun a b h => (Prod.mk.inj h).1, hC.map fun a b h => (Prod.mk.inj h).1, ?_⟩
    intro p h1 h2
    obtain ⟨a, ha, rfl⟩ := List.mem_map.1 h1
    obtain ⟨b, hb, he⟩ := List.mem_map.1 h2
    obtain ⟨rfl, he⟩ := Prod.mk.inj he
    simp [hb] at he
  have hws : (w, true) ∈ stop := List.mem_append_left _ (List.mem_map.2 ⟨w, hwM, by simp [hwC]⟩)
  have hstop_map : ∀ y x : ℕ → ℕ, stop.map (fun p => if p.2 then y p.1 else if p.1 ∈ C then x p.1 else y p.1) = M.map y ++ C.map x := by
    intro y x
    rw [hstop, List.map_append, List.map_map, List.map_map]
    congr 1
    · refine List.map_congr_left fun v hv => ?_
      by_cases hvc : v ∈ C <;> simp [hvc]
    · refine List.map_congr_left fun v hv => ?_
      simp [hv]
  obtain ⟨T, h1, h2, h3⟩ := einopsRepeat_ok (α := ℕ) (t := t) (left := (N ++ C).map fun v => (v, false))
    (right := stop) (sizes := fun d => dims d.1) (sz := fun d => dims d.1) hstart_nd hstop_nd (by
      intro p hp
      obtain ⟨v, hv, rfl⟩ := List.mem_map.1 hp
      rcases List.mem_append.1 hv with hv | hv
      · exact List.mem_append_left _ (List.mem_map.2 ⟨v, hNM v hv, by simp [hNC v hv]⟩)
      · exact List.mem_append_right _ (List.mem_map.2 ⟨v, hv, rfl⟩)) (by
      rw [List.map_map]; exact ht) (fun _ _ _ => rfl)
  obtain ⟨O, h4, h5, h6⟩ := einopsRepeat_ok (α := ℕ)
    (t := (⟨[dims w, dims w], fun i => if i.getD 0 0 = i.getD 1 0 then 1 else 0⟩ : Tensor ℝ))
    (left := [(w, false), (w, true)])
    (right := stop) (sizes := fun d => dims d.1) (sz := fun d => dims d.1) (by simp) hstop_nd (by
      intro p hp
      rcases List.mem_cons.1 hp with rfl | hp
      · exact List.mem_append_right _ (List.mem_map.2 ⟨w, hwC, rfl⟩)
      · rw [List.mem_singleton.1 hp]; exact hws) rfl (fun _ _ _ => rfl)
  have hsh : stop.map (fun d => dims d.1) = (M ++ C).map dims := by
    have := hstop_map dims dims
    simp only [ite_self] at this
    rw [this, List.map_append]
  rw [addRepeatedConditional]
  simp only [← hN, ← hstop, h1, hf, ne_eq, not_true_eq_false, if_false, h4]
  rw [Tensor.mul, if_pos (by
    rw [h2, h5]
    refine ⟨rfl, fun p hp => Or.inl ?_⟩
    rw [List.zip_map', List.mem_map] at hp
    obtain ⟨_, _, rfl⟩ := hp
    rfl)]
  refine ⟨_, rfl, ?_, fun y x hy hx => ?_⟩
  · dsimp only
    rw [h2, h5, hsh]
    generalize (M ++ C).map dims = l
    induction l with
    | nil => rfl
    | cons a l _ => simp
  · have hclip : Tensor.clip (M.map y ++ C.map x) (stop.map fun d => dims d.1) = M.map y ++ C.map x := by
      rw [← hstop_map]
      refine clip_map (α := ℕ × Bool) fun p hp => ?_
      rw [hstop] at hp
      rcases List.mem_append.1 hp with hp | hp
      · obtain ⟨v, hv, rfl⟩ := List.mem_map.1 hp
        by_cases hvc : v ∈ C
        · simpa [hvc] using hy v hv
        · simpa [hvc] using hy v hv
      · obtain ⟨v, hv, rfl⟩ := List.mem_map.1 hp
        simpa [hv] using hx v hv
    dsimp only
    rw [h2, h5, hclip, ← hstop_map, h3, h6, List.map_map]
    have e : (N ++ C).map ((fun p : ℕ × Bool => if p.2 then y p.1 else if p.1 ∈ C then x p.1 else y p.1) ∘ fun v => (v, false)) =
        N.map y ++ C.map x := by
      rw [List.map_append]
      congr 1
      · exact List.map_congr_left fun v hv => by simp [hNC v hv]
      · exact List.map_congr_left fun v hv => by simp [hv]
    rw [e]
    simp only [List.map_cons, List.map_nil, hwC, if_true, List.getD_cons_zero, List.getD_cons_succ]
    by_cases h : y w = x w
    · simp [h]
    · simp [h, Ne.symm h]

namespace DiscreteDAG

variable {D : DiscreteDAG ℕ} {q : Query}

theorem count_toNat (hA : D.Counting) {C : List ℕ} (hC : ∀ v ∈ C, v ∈ D.dag.nodes) :
    (C.map fun c => (D.alph c).map Int.toNat) = C.map fun c => List.range (D.dims c) :=
  List.map_congr_left fun c hc => by
    rw [hA c (hC c hc), List.map_map]
    conv_rhs => rw [← List.map_id (List.range (D.dims c))]
    exact List.map_congr_left fun i _ => by simp

/-- The table before axes are repeated. -/
theorem conditionalTable_columns (hA : D.Counting) (hr : D.Responds q) {N C : List ℕ} (hN0 : N ≠ []) (hnd : (N ++ C).Nodup)
    (hn : ∀ v ∈ N ++ C, v ∈ D.dag.nodes) :
    ∃ ts t, (products (C.map fun c => (D.alph c).map Int.toNat)).mapM (D.pgmpyColumn q N C) = .ok ts ∧
      ((⟨N.map D.dims ++ [(C.map D.dims).prod], fun idx => (ts.getD (idx.getLastD 0) ⟨[], fun _ => 0⟩).val idx.dropLast⟩ : Tensor ℝ).reshape
        (N.map D.dims ++ C.map D.dims) : Except (Exn ℕ) _) = .ok t ∧ t.shape = (N ++ C).map D.dims ∧
      ∀ y x : ℕ → ℕ, (∀ v ∈ N, y v < D.dims v) → (∀ v ∈ C, x v < D.dims v) →
        ∃ u, q N (C.zip (C.map x)) = .ok u ∧ t.val (N.map y ++ C.map x) = u.val (N.map y) := by
  have hCn := (List.nodup_append'.1 hnd).2.1
  have hlen : (C.map fun c => List.range (D.dims c)).map List.length = C.map D.dims := by simp [Function.comp_def]
  rw [count_toNat hA fun v hv => hn v (List.mem_append_right _ hv)]
  obtain ⟨ts, h1, h2⟩ := except_mapM (f := D.pgmpyColumn q N C) (l := products (C.map fun c => List.range (D.dims c))) (by
    intro z hz
    obtain ⟨x, rfl, hx⟩ := tuple_map hCn (mem_products.1 hz)
    obtain ⟨t, t1, t2⟩ := hr N C hN0 hnd hn x hx
    exact ⟨t, by rw [pgmpyColumn, t1]; exact if_pos t2⟩)
  refine ⟨ts, _, h1, if_pos (by simp), (List.map_append ..).symm, fun y x hy hx => ?_⟩
  have hF : List.Forall₂ (· < ·) (C.map x) ((C.map fun c => List.range (D.dims c)).map List.length) := by
    rw [hlen]; exact forall₂_lt hx
  have hlt := ravel_lt hF
  have hF2 : List.Forall₂ (· < ·) (N.map y ++ [ravel (C.map D.dims) (C.map x)]) (N.map D.dims ++ [(C.map D.dims).prod]) := by
    refine List.rel_append (forall₂_lt hy) (.cons ?_ .nil)
    rw [hlen] at hlt
    exact hlt
  have hpl : ravel (C.map D.dims) (C.map x) < (products (C.map fun c => List.range (D.dims c))).length := by
    rw [length_products]; rw [hlen] at hlt ⊢; exact hlt
  have hpl' : ravel (C.map D.dims) (C.map x) < ts.length := h2.length_eq ▸ hpl
  have hg := getD_products 0 hF
  rw [zipWith_nat hx, hlen, List.getD_eq_getElem _ _ hpl] at hg
  have hcol := List.forall₂_iff_get.1 h2 |>.2 _ hpl hpl'
  simp only [List.get_eq_getElem] at hcol
  rw [hg, pgmpyColumn] at hcol
  obtain ⟨u, u1, u2⟩ := hr N C hN0 hnd hn x hx
  rw [u1] at hcol
  dsimp only at hcol
  rw [if_pos u2] at hcol
  refine ⟨u, u1, ?_⟩
  dsimp only
  rw [ravel_append (by simp), unravel_ravel hF2, List.getLastD_concat, List.dropLast_concat, List.getD_eq_getElem _ _ hpl']
  rw [← Except.ok.inj hcol]

theorem conditionalTable_ok (hA : D.Counting) (hq : D.ExactQuery q) (hr : D.Responds q) {M C : List ℕ} (hM : M.Nodup) (hC : C.Nodup)
    (hn : ∀ v ∈ M ++ C, v ∈ D.dag.nodes) (hne : ∃ v ∈ M, v ∉ C) (hone : ∀ u ∈ M, ∀ v ∈ M, u ∈ C → v ∈ C → u = v) :
    ∃ t, D.conditionalTable q M C = .ok t ∧ t.shape = (M ++ C).map D.dims ∧
      ∀ y x : ℕ → ℕ, (∀ v ∈ M, y v < D.dims v) → (∀ v ∈ C, x v < D.dims v) → D.pr C x ≠ 0 →
        t.val (M.map y ++ C.map x) =
          (prob D.dag.nodes D.dims D.law (fun z => (∀ v ∈ M, z v = y v) ∧ ∀ v ∈ C, z v = x v) / D.pr C x : ℝ≥0) := by
  set N := M.filter (· ∉ C) with hN
  have hmN : ∀ v, v ∈ N ↔ v ∈ M ∧ v ∉ C := fun v => by simp [hN]
  have hnd : (N ++ C).Nodup := cond_nodup hM hC
  have hN0 : N ≠ [] := by
    obtain ⟨v, hv⟩ := hne
    exact List.ne_nil_of_mem ((hmN v).2 hv)
  have hn' : ∀ v ∈ N ++ C, v ∈ D.dag.nodes := cond_mem hn
  obtain ⟨ts, t, h1, h2, h3, h4⟩ := conditionalTable_columns hA hr hN0 hnd hn'
  have hval : ∀ y x : ℕ → ℕ, (∀ v ∈ N, y v < D.dims v) → (∀ v ∈ C, x v < D.dims v) → D.pr C x ≠ 0 →
      t.val (N.map y ++ C.map x) =
        (prob D.dag.nodes D.dims D.law (fun z => (∀ v ∈ N, z v = y v) ∧ ∀ v ∈ C, z v = x v) / D.pr C x : ℝ≥0) := by
    intro y x hy hx h0
    obtain ⟨u, u1, u2⟩ := h4 y x hy hx
    obtain ⟨u', v1, -, v3⟩ := hq N C hN0 hnd hn' x hx h0
    rw [u1] at v1
    cases v1
    rw [u2]
    set w : ℕ → ℕ := fun v => if v ∈ C then x v else y v with hw
    have hwC : ∀ v ∈ C, w v = x v := fun v hv => if_pos hv
    have hwN : ∀ v ∈ N, w v = y v := fun v hv => if_neg ((hmN v).1 hv).2
    rw [← List.map_congr_left hwN, v3 w (fun v hv => by rw [hwN v hv]; exact hy v hv) hwC]
    congr 2
    rw [pr]
    congr 1
    funext z
    refine propext ⟨fun h => ⟨fun v hv => ?_, fun v hv => ?_⟩, fun h v hv => ?_⟩
    · rw [h v (List.mem_append_left _ hv), hwN v hv]
    · rw [h v (List.mem_append_right _ hv), hwC v hv]
    · rcases List.mem_append.1 hv with hv | hv
      · rw [h.1 v hv, hwN v hv]
      · rw [h.2 v hv, hwC v hv]
  rw [conditionalTable]
  simp only [← hN, h1, h2]
  by_cases hex : ∃ w ∈ M, w ∈ C
  · obtain ⟨w, hwM, hwC⟩ := hex
    have hlen : M.length ≠ N.length := by
      intro h
      have := (List.filter_eq_self (l := M) (p := (· ∉ C))).1 (List.filter_sublist.eq_of_length h.symm) w hwM
      simp [hwC] at this
    rw [if_pos hlen]
    obtain ⟨t', a1, a2, a3⟩ := addRepeatedConditional_ok (t := t) (dims := D.dims) hM hC hwM hwC (fun v hv hvc => hone v hv w hwM hvc hwC) h3
    refine ⟨t', a1, a2, fun y x hy hx h0 => ?_⟩
    rw [a3 y x hy hx]
    split_ifs with hyx
    · rw [hval y x (fun v hv => hy v ((hmN v).1 hv).1) hx h0]
      congr 3
      funext z
      refine propext ⟨fun h => ⟨fun v hv => ?_, h.2⟩, fun h => ⟨fun v hv => h.1 v ((hmN v).1 hv).1, h.2⟩⟩
      by_cases hvc : v ∈ C
      · rw [hone v hv w hwM hvc hwC, h.2 w hwC, hyx]
      · exact h.1 v ((hmN v).2 ⟨hv, hvc⟩)
    · have : prob D.dag.nodes D.dims D.law (fun z => (∀ v ∈ M, z v = y v) ∧ ∀ v ∈ C, z v = x v) = 0 := by
        rw [prob]
        refine Finset.sum_eq_zero fun z hz => ?_
        have := (@Finset.mem_filter _ _ (Classical.decPred _) _ _).1 hz |>.2
        exact absurd ((this.1 w hwM).symm.trans (this.2 w hwC)) hyx
      rw [this, zero_div, NNReal.coe_zero]
  · push Not at hex
    have hNM : N = M := List.filter_eq_self.2 fun v hv => by simpa using hex v hv
    rw [if_neg (by rw [hNM]; simp)]
    rw [hNM] at h3 hval
    exact ⟨t, rfl, h3, hval⟩

theorem conditionalTable_raises (q : Query) {M C : List ℕ} {u v : ℕ} (huv : u ≠ v) (hu : u ∈ M ∧ u ∈ C) (hv : v ∈ M ∧ v ∈ C) :
    ∃ e, D.conditionalTable q M C = .error e := by
  have hlen : M.length ≠ (M.filter (· ∉ C)).length := by
    intro h
    have := (List.filter_eq_self (l := M) (p := (· ∉ C))).1 (List.filter_sublist.eq_of_length h.symm) u hu.1
    simp [hu.2] at this
  rw [conditionalTable]
  dsimp only
  split
  · exact ⟨_, rfl⟩
  · split
    · exact ⟨_, rfl⟩
    · rw [if_pos hlen, addRepeatedConditional]
      split
      · exact ⟨_, rfl⟩
      · have hmem : ∀ w, w ∈ M.filter (· ∈ C) ↔ w ∈ M ∧ w ∈ C := fun w => by simp
        split
        · exact ⟨_, rfl⟩
        · rename_i r rest hr
          rw [if_pos]
          · exact ⟨_, rfl⟩
          · rintro rfl
            have a := (hmem u).2 hu
            have b := (hmem v).2 hv
            rw [hr, List.mem_singleton] at a b
            exact huv (a.trans b.symm)

theorem sumAxes_rest {f : List ℕ → ℝ} {shape idx : List ℕ} {pos : ℕ} (hp : 2 ≤ pos) (hl : idx.length = shape.length) :
    Tensor.sumAxes [0, 1] shape pos f idx = f idx := by
  induction shape generalizing f idx pos with
  | nil => rw [List.length_nil, List.length_eq_zero_iff] at hl; subst hl; rfl
  | cons n shape ih =>
    cases idx with
    | nil => simp at hl
    | cons i idx =>
      rw [Tensor.sumAxes, if_neg (by simp; omega), ih (by omega) (by simpa using hl)]
      rfl

theorem dropAxes_rest (a b : ℕ) (l : List ℕ) : Tensor.dropAxes [0, 1] (a :: b :: l) = l := by
  have : ∀ (l : List ℕ) (k : ℕ), 2 ≤ k → ((l.zipIdx k).filter fun p => p.2 ∉ [0, 1]).map Prod.fst = l := by
    intro l
    induction l with
    | nil => intro _ _; rfl
    | cons a l ih =>
      intro k hk
      rw [List.zipIdx_cons, List.filter_cons, if_pos (by simp; omega), List.map_cons, ih (k + 1) (by omega)]
  rw [Tensor.dropAxes, List.zipIdx_cons, List.zipIdx_cons, List.filter_cons_of_neg (by simp), List.filter_cons_of_neg (by simp)]
  exact this l 2 le_rfl

theorem expValFunction_ok (hA : D.Counting) {T Y : ℕ} (hT : T ∈ D.dag.nodes) (hY : Y ∈ D.dag.nodes) (c : ℕ) {key : List ℕ} {t : Tensor ℝ}
    (ht : t.shape = ([T, Y] ++ key).map D.dims) :
    ∃ m, D.expValFunction T Y c key.length t = .ok m ∧ m.shape = key.map D.dims ∧
      ∀ x : ℕ → ℕ, (∀ v ∈ key, x v < D.dims v) →
        m.val (key.map x) = ∑ i ∈ Finset.range (D.dims T), ∑ j ∈ Finset.range (D.dims Y),
          (if i = c then (j : ℝ) else 0) * t.val ([i, j] ++ key.map x) := by
  have hal : ∀ v ∈ D.dag.nodes, ∀ i < D.dims v, (D.alph v).getD i 0 = (i : ℤ) := by
    intro v hv i hi
    rw [hA v hv]
    simp [hi]
  have hsh : List.zipWith (fun m n => if m = 1 then n else m) ((D.influenceValues T Y c).shape ++ List.replicate key.length 1) t.shape =
      D.dims T :: D.dims Y :: key.map D.dims := by
    rw [ht]
    simp only [influenceValues, List.cons_append, List.nil_append, List.map_cons, List.zipWith_cons_cons, ite_self]
    congr 2
    clear ht
    induction key with
    | nil => rfl
    | cons a l ih => simpa [List.replicate_succ] using ih
  rw [expValFunction, Tensor.mul, if_pos (by
    rw [ht]
    refine ⟨by simp [influenceValues], fun p hp => ?_⟩
    simp only [influenceValues, List.cons_append, List.nil_append, List.map_cons, List.zip_cons_cons, List.mem_cons] at hp
    rcases hp with rfl | rfl | hp
    · exact Or.inl rfl
    · exact Or.inl rfl
    · exact Or.inr (Or.inl (List.eq_of_mem_replicate (List.of_mem_zip hp).1)))]
  refine ⟨_, rfl, ?_, fun x hx => ?_⟩
  · dsimp only
    rw [hsh, dropAxes_rest]
  · dsimp only
    rw [hsh, Tensor.sumAxes, if_pos (by simp)]
    refine Finset.sum_congr rfl fun i hi => ?_
    rw [Tensor.sumAxes, if_pos (by simp)]
    refine Finset.sum_congr rfl fun j hj => ?_
    rw [Finset.mem_range] at hi hj
    rw [sumAxes_rest le_rfl (by simp)]
    have h1 : (if D.dims T = 1 then 0 else i) = i := by split_ifs <;> omega
    have h2 : (if D.dims Y = 1 then 0 else j) = j := by split_ifs <;> omega
    have h3 : Tensor.clip (i :: j :: key.map x) t.shape = i :: j :: key.map x := by
      have := clip_map hx
      rw [Tensor.clip] at this
      rw [ht, Tensor.clip]
      simp only [List.cons_append, List.nil_append, List.map_cons, List.zipWith_cons_cons, h1, h2, this]
    rw [h3]
    congr 1
    simp only [influenceValues, Tensor.clip, List.cons_append, List.nil_append, List.zipWith_cons_cons, h1, h2, List.take_succ_cons,
      List.take_zero, List.getD_cons_zero, List.getD_cons_succ, hal T hT i hi, hal Y hY j hj]
    split_ifs with h1 h2 h2
    · simp
    · exact absurd (by exact_mod_cast h1) h2
    · exact absurd (by exact_mod_cast h2) h1
    · simp

theorem condMean_eq (D : DiscreteDAG ℕ) (f : (ℕ → ℕ) → ℝ) (s : Finset ℕ) (x : ℕ → ℕ) : D.condMean f s x = D.mean f s x := by
  rw [condMean, mean, part_one D (L := s.toList) (by simp)]
  congr 1
  rw [pr]
  congr 2
  funext y
  simp

/-- What an entry of the answer says. -/
structure GoodMean (D : DiscreteDAG ℕ) (ignored : Finset ℕ) (f : (ℕ → ℕ) → ℝ) (s : Finset ℕ) (m : MeanTerm) : Prop where
  nodup : m.key.Nodup
  mem : ∀ v, v ∈ m.key ↔ v ∈ s
  count : m.count = D.dag.standardImset ignored s
  shape : m.mean.shape = m.key.map D.dims
  val : ∀ x : ℕ → ℕ, (∀ v ∈ s, x v < D.dims v) → (prob D.dag.nodes D.dims D.law fun y => ∀ v ∈ s, y v = x v) ≠ 0 →
    m.mean.val (m.key.map x) = D.condMean f s x

variable (o ot : SetOrder (Option ℕ) ℕ) (oa : SetOrder Bool (ℕ × ℕ)) (os : SetOrder (ℕ × Finset ℕ) ℕ) (on : SetOrder Unit ℕ)
  (op : SetOrder (Finset ℕ) ℕ) (ok : SetOrder Unit (Finset ℕ))

/-- The body of the loop over the keys. -/
noncomputable def meanOf (D : DiscreteDAG ℕ) (q : Query) (T Y : ℕ) (c : ℤ) (ignored : Finset ℕ) (s : Finset ℕ) : Run ℕ MeanTerm := do
    let key := op.ord s s
    if key = [] then
      let t ← D.getMarginals o ot oa os on (fun e => (EReal.exp e).toReal) [T, Y]
      let m ← (ExceptT.mk (some (D.influenceMean T Y c t)) : Run ℕ ℝ)
      return ⟨key, D.dag.standardImset ignored s, ⟨[], fun _ => m⟩⟩
    else
      let t ← (ExceptT.mk (some (match D.conditionalTable q [T, Y] key with
        | .error e => .error e
        | .ok probs => D.expValFunction T Y c key.length probs)) : Run ℕ (Tensor ℝ))
      return ⟨key, D.dag.standardImset ignored s, t⟩

theorem influenceConditionals_eq (q : Query) (T Y : ℕ) (c : ℤ) (ignored : Finset ℕ) :
    D.influenceConditionals o ot oa os on op ok q T Y c ignored =
      (ok.ord () (imsetKeys D.dag ignored)).mapM (meanOf o ot oa os on op D q T Y c ignored) := rfl

theorem meanOf_ok (hD : D.Proper) (hc : D.Cut) (hA : D.Counting) (hq : D.ExactQuery q) (hr : D.Responds q) {T Y : ℕ} (hTY : T ≠ Y)
    (hT : T ∈ D.dag.nodes) (hY : Y ∈ D.dag.nodes) (c : ℕ) {ignored s : Finset ℕ} (hs : s ∈ imsetKeys D.dag ignored)
    (hsep : ¬ (T ∈ s ∧ Y ∈ s)) :
    ∃ m, (meanOf o ot oa os on op D q T Y c ignored s).run = some (.ok m) ∧ GoodMean D ignored (payoff T Y c) s m := by
  have hsn := imsetKeys_sub hD hs
  have hkey : ∀ v, v ∈ op.ord s s ↔ v ∈ s := fun v => op.mem_iff s s v
  have hknd : (op.ord s s).Nodup := op.nodup s s
  have hkn : ∀ v ∈ op.ord s s, v ∈ D.dag.nodes := fun v hv => hsn ((hkey v).1 hv)
  unfold meanOf
  by_cases h0 : op.ord s s = []
  · have hs0 : s = ∅ := Finset.eq_empty_of_forall_notMem fun v hv => by
      have := (hkey v).2 hv
      rw [h0] at this
      simp at this
    obtain ⟨t, h1, h2, h3⟩ := getMarginals_run hD hc o ot oa os on (fun e => (EReal.exp e).toReal) (M := [T, Y])
      (by simpa using hTY) (by simp) (by simp [hT, hY])
    have h4 := influenceMean_ok hA hT hY c (t := t) (by simpa using h2)
    have h5 : ∀ m, D.influenceMean T Y c t = .ok m → (ExceptT.mk (some (D.influenceMean T Y c t)) : Run ℕ ℝ).run = some (.ok m) :=
      fun m h => by rw [h]; rfl
    refine ⟨_, by simp only [h0, if_true, run_bind_ok h1, run_bind_ok (h5 _ h4)]; rfl, ?_⟩
    refine ⟨by simp, by simpa [h0] using hkey, rfl, rfl, fun x _ _ => ?_⟩
    dsimp only
    rw [condMean_eq, ← mean_hit D hT hY c s x]
    refine Finset.sum_congr rfl fun i hi => Finset.sum_congr rfl fun j hj => ?_
    rw [Finset.mem_range] at hi hj
    congr 1
    obtain ⟨e, h5, h6⟩ := h3 (fun v => if v = T then i else j) (by simp [hTY.symm, hi, hj])
    simp only [List.map_cons, List.map_nil, if_true, hTY.symm, if_false] at h5
    rw [h5, h6, mean, hs0, part_empty hD ot, div_one, ENNReal.coe_toReal]
    refine pr_part D (fun z hz => ⟨by simp, ?_⟩) fun z _ hn => ?_
    · rw [hit, if_pos ⟨by rw [hz T (by simp)]; simp, by rw [hz Y (by simp)]; simp [hTY.symm]⟩]
    · rw [hit, if_neg]
      rintro ⟨h, h'⟩
      refine hn fun v hv => ?_
      simp only [List.mem_cons, List.not_mem_nil, or_false] at hv
      rcases hv with rfl | rfl
      · simp [h]
      · simp [h', hTY.symm]
  · set key := op.ord s s with hkeyd
    obtain ⟨t, h1, h2, h3⟩ := conditionalTable_ok hA hq hr (M := [T, Y]) (C := key) (by simpa using hTY) hknd (by
        intro v hv
        rcases List.mem_append.1 hv with hv | hv
        · simp only [List.mem_cons, List.not_mem_nil, or_false] at hv
          rcases hv with rfl | rfl
          · exact hT
          · exact hY
        · exact hkn v hv) (by
        by_cases h : T ∈ s
        · exact ⟨Y, by simp, fun h' => hsep ⟨h, (hkey Y).1 h'⟩⟩
        · exact ⟨T, by simp, fun h' => h ((hkey T).1 h')⟩) (by
        intro u hu v hv huk hvk
        rw [hkey] at huk hvk
        simp only [List.mem_cons, List.not_mem_nil, or_false] at hu hv
        rcases hu with rfl | rfl <;> rcases hv with rfl | rfl
        · rfl
        · exact absurd ⟨huk, hvk⟩ hsep
        · exact absurd ⟨hvk, huk⟩ hsep
        · rfl)
    obtain ⟨m, m1, m2, m3⟩ := expValFunction_ok hA hT hY c h2
    refine ⟨⟨key, D.dag.standardImset ignored s, m⟩, by simp only [h0, if_false, h1, m1]; rfl, hknd, hkey, rfl, m2, fun x hx hp => ?_⟩
    have hx' : ∀ v ∈ key, x v < D.dims v := fun v hv => hx v ((hkey v).1 hv)
    have hpr : D.pr key x ≠ 0 := by
      rw [pr]
      have : (fun y : ℕ → ℕ => ∀ v ∈ key, y v = x v) = fun y => ∀ v ∈ s, y v = x v := by
        funext y
        simp only [hkey]
      rwa [this]
    dsimp only
    rw [m3 x hx', condMean_eq, ← mean_hit D hT hY c s x]
    refine Finset.sum_congr rfl fun i hi => Finset.sum_congr rfl fun j hj => ?_
    rw [Finset.mem_range] at hi hj
    congr 1
    have e := h3 (fun v => if v = T then i else j) x (by simp [hTY.symm, hi, hj]) hx' hpr
    simp only [List.map_cons, List.map_nil, if_true, hTY.symm, if_false] at e
    rw [e, mean, part_one D hkey, NNReal.coe_div]
    congr 1
    classical
    rw [prob, NNReal.coe_sum, part, Finset.sum_filter, Finset.sum_filter]
    refine Finset.sum_congr rfl fun z _ => ?_
    have hTi : (∀ v ∈ [T, Y], z v = if v = T then i else j) ↔ z T = i ∧ z Y = j := by simp [hTY.symm]
    simp only [hTi, hkey, hit]
    by_cases a : z T = i ∧ z Y = j
    · by_cases b : ∀ v ∈ s, z v = x v
      · rw [if_pos ⟨a, b⟩, if_pos b, if_pos a, mul_one]
      · rw [if_neg (fun h => b h.2), if_neg b]
    · rw [if_neg (fun h => a h.1), if_neg a, mul_zero, ite_self]

theorem meanOf_some (hD : D.Proper) (hc : D.Cut) (q : Query) {T Y : ℕ} (hTY : T ≠ Y) (hT : T ∈ D.dag.nodes) (hY : Y ∈ D.dag.nodes)
    (c : ℤ) (ignored s : Finset ℕ) : (meanOf o ot oa os on op D q T Y c ignored s).run ≠ none := by
  obtain ⟨t, h1, -, -⟩ := getMarginals_run hD hc o ot oa os on (fun e => (EReal.exp e).toReal) (M := [T, Y])
    (by simpa using hTY) (by simp) (by simp [hT, hY])
  unfold meanOf
  dsimp only
  split_ifs with h0
  · rw [run_bind_ok h1]
    exact run_bind_some (fun h => by cases h) fun b h => by cases h
  · exact run_bind_some (fun h => by cases h) fun b h => by cases h

theorem meanOf_both (q : Query) {T Y : ℕ} (hTY : T ≠ Y) (c : ℤ) (ignored : Finset ℕ) {s : Finset ℕ} (hT : T ∈ s) (hY : Y ∈ s) :
    ∃ e, (meanOf o ot oa os on op D q T Y c ignored s).run = some (.error e) := by
  have hT' : T ∈ op.ord s s := (op.mem_iff s s T).2 hT
  have hY' : Y ∈ op.ord s s := (op.mem_iff s s Y).2 hY
  obtain ⟨e, he⟩ := conditionalTable_raises (D := D) q (M := [T, Y]) hTY ⟨by simp, hT'⟩ ⟨by simp, hY'⟩
  unfold meanOf
  dsimp only
  rw [if_neg (List.ne_nil_of_mem hT'), he]
  exact ⟨e, rfl⟩

theorem influenceConditionals_ok (hD : D.Proper) (hc : D.Cut) (hA : D.Counting) (hq : D.ExactQuery q) (hr : D.Responds q) {T Y : ℕ}
    (hTY : T ≠ Y) (hT : T ∈ D.dag.nodes) (hY : Y ∈ D.dag.nodes) (c : ℕ) {ignored : Finset ℕ}
    (hsep : ∀ s, D.dag.standardImset ignored s ≠ 0 → ¬ (T ∈ s ∧ Y ∈ s)) :
    ∃ r, (D.influenceConditionals o ot oa os on op ok q T Y c ignored).run = some (.ok r) ∧
      List.Forall₂ (GoodMean D ignored (payoff T Y c)) (ok.ord () (imsetKeys D.dag ignored)) r := by
  rw [influenceConditionals_eq]
  refine run_mapM fun s hs => ?_
  rw [ok.mem_iff] at hs
  exact meanOf_ok o ot oa os on op hD hc hA hq hr hTY hT hY c hs (hsep s ((mem_imsetKeys _ _ _).1 hs))

theorem influenceConditionals_raises (hD : D.Proper) (hc : D.Cut) (q : Query) {T Y : ℕ} (hTY : T ≠ Y) (hT : T ∈ D.dag.nodes)
    (hY : Y ∈ D.dag.nodes) (c : ℤ) {ignored s : Finset ℕ} (hs : D.dag.standardImset ignored s ≠ 0) (hTs : T ∈ s) (hYs : Y ∈ s) :
    ∃ e, (D.influenceConditionals o ot oa os on op ok q T Y c ignored).run = some (.error e) := by
  obtain ⟨e, he⟩ := meanOf_both o ot oa os on op (D := D) q hTY c ignored hTs hYs
  rw [influenceConditionals_eq]
  exact run_mapM_error (fun s _ => meanOf_some o ot oa os on op hD hc q hTY hT hY c ignored s)
    ((ok.mem_iff _ _ s).2 ((mem_imsetKeys _ _ _).2 hs)) he

end DiscreteDAG

end Model
