import Verif.Spec.Discrete
import Verif.Proof.SumOut
import Verif.Proof.Queries
import Mathlib.Analysis.SpecialFunctions.Log.ENNRealLogExp

/-! # Marginals of discrete graphs -/

set_option linter.unusedSectionVars false

namespace Model

open Spec Relation
open scoped NNReal ENNReal

section Arrays
variable {α β R : Type} [DecidableEq α] [DecidableEq β]

theorem getD_map_idxOf {l : List β} {d : β} (hd : d ∈ l) (g : β → ℕ) : (l.map g).getD (l.idxOf d) 0 = g d := by
  have h := List.idxOf_lt_length_of_mem hd
  rw [List.getD_eq_getElem?_getD, List.getElem?_map, List.getElem?_eq_getElem h, List.getElem_idxOf]; rfl

theorem einopsRepeat_ok {t : Tensor R} {left right : List β} {sizes sz : β → ℕ} (hl : left.Nodup) (hr : right.Nodup)
    (hs : ∀ d ∈ left, d ∈ right) (ht : t.shape = left.map sz) (hsz : ∀ d ∈ right, d ∉ left → sizes d = sz d) :
    ∃ t', (einopsRepeat t left right sizes : Except (Exn α) _) = .ok t' ∧ t'.shape = right.map sz ∧
      ∀ g : β → ℕ, t'.val (right.map g) = t.val (left.map g) := by
  rw [einopsRepeat, if_pos ⟨hl, hr, hs, by rw [ht, List.length_map]⟩]
  refine ⟨_, rfl, ?_, fun g => ?_⟩
  · refine List.map_congr_left fun d hd => ?_
    split_ifs with h
    · rw [ht, getD_map_idxOf h]
    · exact hsz d hd h
  · change t.val _ = _
    congr 1
    exact List.map_congr_left fun d hd => getD_map_idxOf (hs d hd) g

/-- A function on the nodes and the new axis. -/
def withNew (x : α → ℕ) (i : ℕ) (d : Option α) : ℕ := d.elim i x

theorem map_withNew (l : List α) (x : α → ℕ) (i : ℕ) : (l.map some ++ [none]).map (withNew x i) = l.map x ++ [i] := by
  simp [withNew]

theorem nodup_new {l : List α} (h : l.Nodup) : (l.map some ++ [none]).Nodup := by
  rw [List.nodup_append]
  refine ⟨h.map (Option.some_injective _), by simp, ?_⟩
  rintro a ha b hb rfl
  simp at hb; subst hb; simp at ha

theorem repeatDimensions_new {t : Tensor R} {curr new : List α} {sz : α → ℕ} {k : ℕ} (hc : curr.Nodup) (hn : new.Nodup)
    (hs : ∀ d ∈ curr, d ∈ new) (ht : t.shape = curr.map sz ++ [k]) :
    ∃ t', repeatDimensions t curr new (some sz) true = .ok t' ∧ t'.shape = new.map sz ++ [k] ∧
      ∀ (x : α → ℕ) (i : ℕ), t'.val (new.map x ++ [i]) = t.val (curr.map x ++ [i]) := by
  obtain ⟨t', h1, h2, h3⟩ := einopsRepeat_ok (α := α) (t := t) (left := curr.map some ++ [none])
    (right := new.map some ++ [none]) (sizes := fun d => d.elim 0 sz) (sz := withNew sz k) (nodup_new hc) (nodup_new hn)
    (by
      intro d hd
      rcases List.mem_append.1 hd with hd | hd
      · obtain ⟨a, ha, rfl⟩ := List.mem_map.1 hd
        exact List.mem_append_left _ (List.mem_map_of_mem (hs a ha))
      · exact List.mem_append_right _ hd) (by rw [map_withNew]; exact ht) (by
      intro d hd hd'
      cases d with
      | none => simp at hd'
      | some d => rfl)
  refine ⟨t', by simpa [repeatDimensions] using h1, by rw [h2, map_withNew], fun x i => ?_⟩
  have := h3 (withNew x i)
  rwa [map_withNew, map_withNew] at this

theorem repeatDimensions_perm {t : Tensor R} {curr new : List α} {sz : α → ℕ} (hc : curr.Nodup) (hn : new.Nodup)
    (hs : ∀ d, d ∈ curr ↔ d ∈ new) (ht : t.shape = curr.map sz) :
    ∃ t', repeatDimensions t curr new none false = .ok t' ∧ t'.shape = new.map sz ∧
      ∀ (x : α → ℕ), t'.val (new.map x) = t.val (curr.map x) := by
  obtain ⟨t', h1, h2, h3⟩ := einopsRepeat_ok (α := α) (t := t) (left := curr.map some)
    (right := new.map some) (sizes := fun _ => 0) (sz := withNew sz 0) (hc.map (Option.some_injective _))
    (hn.map (Option.some_injective _)) (by simp [hs]) (by rw [ht, List.map_map]; rfl) (by
      intro d hd hd'
      simp only [List.mem_map, not_exists, not_and] at hd hd'
      obtain ⟨a, ha, rfl⟩ := hd
      exact absurd rfl (hd' a ((hs a).2 ha)))
  refine ⟨t', ?_, by rw [h2, List.map_map]; rfl, fun x => ?_⟩
  · rw [repeatDimensions]
    rw [if_neg (by rintro ⟨d, hd, hd'⟩; exact hd' ((hs d).2 hd))]
    simpa using h1
  · have := h3 (withNew x 0)
    rw [List.map_map, List.map_map] at this
    exact this

theorem clip_map {l : List α} {x n : α → ℕ} (h : ∀ v ∈ l, x v < n v) : Tensor.clip (l.map x) (l.map n) = l.map x := by
  induction l with
  | nil => rfl
  | cons a l ih =>
    simp only [List.map_cons, Tensor.clip, List.zipWith_cons_cons]
    have := ih fun v hv => h v (by simp [hv])
    rw [Tensor.clip] at this
    rw [this]
    have := h a (by simp)
    split_ifs with h1
    · congr 1; omega
    · rfl

theorem clip_append {l : List α} {x n : α → ℕ} {i k : ℕ} (h : ∀ v ∈ l, x v < n v) :
    Tensor.clip (l.map x ++ [i]) (l.map n ++ [k]) = l.map x ++ [if k = 1 then 0 else i] := by
  rw [Tensor.clip, List.zipWith_append (by simp)]
  have := clip_map h
  rw [Tensor.clip] at this
  rw [this]; rfl

theorem add_ok {a b : Tensor EReal} {l : List α} {n : α → ℕ} {k : ℕ} (ha : a.shape = l.map n ++ [1])
    (hb : b.shape = l.map n ++ [k]) :
    ∃ c, (Tensor.add a b : Except (Exn α) _) = .ok c ∧ c.shape = l.map n ++ [k] ∧
      ∀ (x : α → ℕ) (i : ℕ), (∀ v ∈ l, x v < n v) → i < k →
        c.val (l.map x ++ [i]) = a.val (l.map x ++ [0]) + b.val (l.map x ++ [i]) := by
  have hz : ∀ m : List ℕ, List.zipWith (fun m n => if m = 1 then n else m) m m = m := by
    intro m
    induction m with
    | nil => rfl
    | cons a m ih => rw [List.zipWith_cons_cons, ih]; split_ifs <;> rfl
  rw [Tensor.add, if_pos]
  · refine ⟨_, rfl, ?_, fun x i hx hi => ?_⟩
    · rw [ha, hb, List.zipWith_append rfl, hz]; rfl
    · change a.val (Tensor.clip _ _) + b.val (Tensor.clip _ _) = _
      rw [ha, hb, clip_append hx, clip_append hx, if_pos rfl]
      split_ifs with h
      · subst h
        have : i = 0 := by omega
        rw [this]
      · rfl
  · rw [ha, hb]
    refine ⟨by simp, ?_⟩
    rw [List.zip_append rfl]
    intro p hp
    rcases List.mem_append.1 hp with hp | hp
    · left
      obtain ⟨i, h1, h2⟩ := List.getElem_of_mem hp
      rw [List.getElem_zip] at h2
      rw [← h2]
    · simp only [List.zip_cons_cons, List.zip_nil_right, List.mem_singleton] at hp
      subst hp; right; left; rfl

/-- Summing over axes is summing out variables. -/
theorem sumAxes_eq [AddCommMonoid R] {axes : List ℕ} {d : α → ℕ} {out : α → Prop} [DecidablePred out] (cur : List α) (hnd : cur.Nodup)
    (pos : ℕ) (hax : ∀ j (h : j < cur.length), pos + j ∈ axes ↔ out cur[j]) (f : List ℕ → R) (x : α → ℕ) :
    Tensor.sumAxes axes (cur.map d) pos f ((cur.filter fun v => ¬ out v).map x) =
      sumL d (cur.filter fun v => out v) (fun y => f (cur.map y)) x := by
  induction cur generalizing pos f x with
  | nil => rfl
  | cons a cur ih =>
    rw [List.nodup_cons] at hnd
    have hax' : ∀ j (h : j < cur.length), pos + 1 + j ∈ axes ↔ out cur[j] := by
      intro j h
      have := hax (j + 1) (by simpa using h)
      rw [List.getElem_cons_succ] at this
      rw [← this]; congr! 1; omega
    have h0 := hax 0 (by simp)
    simp only [Nat.add_zero, List.getElem_cons_zero] at h0
    rw [List.map_cons, Tensor.sumAxes]
    by_cases ha : out a
    · rw [if_pos (h0.2 ha), List.filter_cons_of_neg (by simpa using ha), List.filter_cons_of_pos (by simpa using ha), sumL]
      refine Finset.sum_congr rfl fun i _ => ?_
      have e : (cur.filter fun v => ¬ out v).map x = (cur.filter fun v => ¬ out v).map (Function.update x a i) := by
        refine List.map_congr_left fun v hv => (Function.update_of_ne ?_ _ _).symm
        rintro rfl
        exact hnd.1 (List.mem_of_mem_filter hv)
      rw [e, ih hnd.2 _ hax']
      refine sumL_congr fun y _ hy => ?_
      have : y a = i := by
        rw [hy a fun h => hnd.1 (List.mem_of_mem_filter h), Function.update_self]
      rw [List.map_cons, this]
    · rw [if_neg (fun h => ha (h0.1 h)), List.filter_cons_of_pos (by simpa using ha), List.filter_cons_of_neg (by simpa using ha),
        List.map_cons, List.headD_cons, List.tail_cons, ih hnd.2 _ hax']
      refine sumL_congr fun y _ hy => ?_
      have : y a = x a := hy a fun h => hnd.1 (List.mem_of_mem_filter h)
      rw [List.map_cons, this]

theorem dropAxes_eq {axes : List ℕ} {d : α → ℕ} {out : α → Prop} [DecidablePred out] (cur : List α)
    (hax : ∀ j (h : j < cur.length), j ∈ axes ↔ out cur[j]) :
    Tensor.dropAxes axes (cur.map d) = (cur.filter fun v => ¬ out v).map d := by
  suffices H : ∀ (cur : List α) (pos : ℕ), (∀ j (h : j < cur.length), pos + j ∈ axes ↔ out cur[j]) →
      (((cur.map d).zipIdx pos).filter fun p => p.2 ∉ axes).map Prod.fst = (cur.filter fun v => ¬ out v).map d from
    H cur 0 (by simpa using hax)
  intro cur
  induction cur with
  | nil => intro pos _; rfl
  | cons a cur ih =>
    intro pos hax
    have h0 := hax 0 (by simp)
    simp only [Nat.add_zero, List.getElem_cons_zero] at h0
    have ih := ih (pos + 1) (by
      intro j h
      have := hax (j + 1) (by simpa using h)
      rw [List.getElem_cons_succ] at this
      rw [← this]; congr! 1; omega)
    rw [List.map_cons, List.zipIdx_cons]
    by_cases ha : out a
    · rw [List.filter_cons_of_neg (by simpa using h0.2 ha), List.filter_cons_of_neg (by simpa using ha)]
      exact ih
    · rw [List.filter_cons_of_pos (by simpa using fun h => ha (h0.1 h)), List.filter_cons_of_pos (by simpa using ha),
        List.map_cons, List.map_cons, ih]

end Arrays

namespace DiscreteDAG

variable {α R : Type} [DecidableEq α] {D : DiscreteDAG α}

/-- The entry of the table of `v` at an assignment. -/
def kern (D : DiscreteDAG α) (v : α) (y : α → ℕ) : ℝ≥0 := (D.cond v).val ((D.pars v ++ [v]).map y)

theorem kern_depends (D : DiscreteDAG α) (v : α) : LooksAt (D.kern v) (insert v {u | u ∈ D.pars v}) := by
  intro x y h
  refine congrArg (D.cond v).val (List.map_congr_left fun u hu => h u ?_)
  rcases List.mem_append.1 hu with hu | hu
  · exact Or.inr hu
  · exact Or.inl (by simpa using hu)

theorem exp_noWarnLog (hc : D.Cut) {v : α} (hv : v ∈ D.dag.nodes) {x : α → ℕ}
    (hx : ∀ u ∈ D.pars v ++ [v], x u < D.dims u) :
    EReal.exp ((noWarnLog (D.cond v)).val ((D.pars v ++ [v]).map x)) = (D.kern v x : ℝ≥0∞) := by
  change EReal.exp (if (D.cond v).val _ ≤ 1 / 10 ^ 10 then ⊥ else ENNReal.log ((D.cond v).val _ : ℝ≥0∞)) = _
  rcases hc v hv x hx with h | h
  · rw [if_pos (by rw [h]; exact zero_le), EReal.exp_bot, kern, h]; simp
  · rw [if_neg (not_le.2 h), ENNReal.exp_log]; rfl

/-- `lg` gives the logarithms of the entries of the tables. -/
structure Logs (D : DiscreteDAG α) (lg : Tensor ℝ≥0 → Tensor EReal) : Prop where
  shape : ∀ t, (lg t).shape = t.shape
  exp : ∀ v ∈ D.dag.nodes, ∀ x : α → ℕ, (∀ u ∈ D.pars v ++ [v], x u < D.dims u) →
    EReal.exp ((lg (D.cond v)).val ((D.pars v ++ [v]).map x)) = (D.kern v x : ℝ≥0∞)

theorem Cut.logs (hc : D.Cut) : D.Logs noWarnLog := ⟨fun _ => rfl, fun _ hv _ hx => exp_noWarnLog hc hv hx⟩

theorem logs_npLog (D : DiscreteDAG α) : D.Logs npLog := ⟨fun _ => rfl, fun _ _ _ _ => ENNReal.exp_log _⟩

theorem coe_sumL (d : α → ℕ) (l : List α) (f : (α → ℕ) → ℝ≥0) (x : α → ℕ) :
    ((sumL d l f x : ℝ≥0) : ℝ≥0∞) = sumL d l (fun y => (f y : ℝ≥0∞)) x := by
  induction l generalizing x with
  | nil => rfl
  | cons a l ih =>
    rw [sumL, sumL]; push_cast
    exact Finset.sum_congr rfl fun i _ => ih _

/-- `table` is the logarithm of the product of the factors of `cur ++ gone` with `gone` summed out. -/
structure Holds (D : DiscreteDAG α) (cur gone : List α) (table : Tensor EReal) : Prop where
  nodup : (cur ++ gone).Nodup
  mem : ∀ v ∈ cur ++ gone, v ∈ D.dag.nodes
  shape : table.shape = cur.map D.dims
  val : ∀ x : α → ℕ, (∀ v ∈ cur, x v < D.dims v) → EReal.exp (table.val (cur.map x)) =
    ((sumL D.dims gone (fun y => ((cur ++ gone).map fun v => D.kern v y).prod) x : ℝ≥0) : ℝ≥0∞)

/-- Adding a node whose parents are all there. -/
theorem Holds.addBy (hD : D.Fits) {lg : Tensor ℝ≥0 → Tensor EReal} (hl : D.Logs lg) {cur gone : List α} {table : Tensor EReal} (h : D.Holds cur gone table)
    {v : α} (hv : v ∈ D.dag.nodes) (hn : v ∉ cur ++ gone) (hp : ∀ u ∈ D.pars v, u ∈ cur) :
    ∃ t, addVariableBy lg table cur (D.cond v) D.dims (D.pars v) = .ok t ∧ D.Holds (cur ++ [v]) gone t := by
  have hcur : cur.Nodup := h.nodup.of_append_left
  obtain ⟨lc, h1, h2, h3⟩ := repeatDimensions_new (t := lg (D.cond v)) (sz := D.dims) (k := D.dims v) (hD.nodup v hv) hcur hp
    (by rw [hl.shape, hD.shape v hv]; simp)
  obtain ⟨t, h4, h5, h6⟩ := add_ok (a := ⟨table.shape ++ [1], fun idx => table.val idx.dropLast⟩) (b := lc) (l := cur)
    (n := D.dims) (k := D.dims v) (by rw [h.shape]) h2
  refine ⟨t, by rw [addVariableBy, h1]; exact h4, ?_, ?_, by rw [h5]; simp, fun x hx => ?_⟩
  · rw [List.append_assoc]
    exact (List.perm_middle.nodup_iff).2 (List.nodup_cons.2 ⟨hn, h.nodup⟩)
  · intro u hu
    simp only [List.append_assoc, List.mem_append, List.mem_singleton] at hu
    rcases hu with hu | rfl | hu
    · exact h.mem u (by simp [hu])
    · exact hv
    · exact h.mem u (by simp [hu])
  · have hx' : ∀ u ∈ cur, x u < D.dims u := fun u hu => hx u (by simp [hu])
    have hxv : x v < D.dims v := hx v (by simp)
    rw [List.map_append, List.map_singleton, h6 x (x v) hx' hxv, EReal.exp_add]
    change EReal.exp (table.val (cur.map x ++ [0]).dropLast) * _ = _
    rw [List.dropLast_concat, h.val x hx', h3]
    have : (D.pars v).map x ++ [x v] = (D.pars v ++ [v]).map x := by simp
    rw [this, hl.exp v hv x (by
      intro u hu
      rcases List.mem_append.1 hu with hu | hu
      · exact hx' u (hp u hu)
      · rw [List.mem_singleton.1 hu]; exact hxv), ← ENNReal.coe_mul]
    congr 1
    rw [← sumL_mul (R := ℝ≥0) (kern_depends D v)]
    · refine sumL_congr fun y _ _ => ?_
      simp only [List.map_append, List.prod_append, List.map_singleton, List.prod_singleton]
      ring
    · rintro u hu (rfl | hu')
      · exact hn (by simp [hu])
      · exact List.disjoint_of_nodup_append h.nodup (hp u hu') hu

theorem Holds.add (hD : D.Fits) (hc : D.Cut) {cur gone : List α} {table : Tensor EReal} (h : D.Holds cur gone table)
    {v : α} (hv : v ∈ D.dag.nodes) (hn : v ∉ cur ++ gone) (hp : ∀ u ∈ D.pars v, u ∈ cur) :
    ∃ t, addVariable table cur (D.cond v) D.dims (D.pars v) = .ok t ∧ D.Holds (cur ++ [v]) gone t :=
  Holds.addBy hD hc.logs h hv hn hp

/-- Summing out nodes. -/
theorem Holds.sum {cur gone : List α} {table : Tensor EReal} (h : D.Holds cur gone table) (out : α → Prop) [DecidablePred out]
    {axes : List ℕ} (hax : ∀ j (h : j < cur.length), j ∈ axes ↔ out cur[j]) :
    D.Holds (cur.filter fun v => ¬ out v) ((cur.filter fun v => out v) ++ gone) (marginalize table axes) := by
  have hperm : ((cur.filter fun v => ¬ out v) ++ ((cur.filter fun v => out v) ++ gone)).Perm (cur ++ gone) := by
    rw [← List.append_assoc]
    refine List.Perm.append_right _ ?_
    have := List.filter_append_perm (fun v => decide (out v)) cur
    simp only [decide_not]
    exact List.perm_append_comm.trans this
  refine ⟨hperm.nodup_iff.2 h.nodup, fun v hv => h.mem v (hperm.mem_iff.1 hv), ?_, fun x hx => ?_⟩
  · change Tensor.dropAxes axes table.shape = _
    rw [h.shape]; exact dropAxes_eq cur hax
  · change EReal.exp (ENNReal.log _) = _
    rw [ENNReal.exp_log, h.shape, sumAxes_eq cur h.nodup.of_append_left 0 (by simpa using hax), coe_sumL, sumL_append]
    refine sumL_congr fun y hy1 hy2 => ?_
    rw [h.val y, coe_sumL]
    · refine sumL_congr fun z _ _ => ?_
      congr 1
      exact ((hperm.map _).prod_eq).symm
    · intro v hv
      by_cases ho : out v
      · exact hy1 v (List.mem_filter.2 ⟨hv, by simpa using ho⟩)
      · rw [hy2 v (fun hm => ho (by simpa using (List.mem_filter.1 hm).2))]
        exact hx v (List.mem_filter.2 ⟨hv, by simpa using ho⟩)

end DiscreteDAG

end Model
