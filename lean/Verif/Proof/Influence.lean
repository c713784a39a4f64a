import Verif.Proof.Tangent
import Verif.Spec.DiscreteSample

/-! # The efficient influence function of `DiscreteDAG` -/

set_option linter.unusedSectionVars false

namespace Model

open Spec
open scoped NNReal ENNReal

theorem run_mapM {β γ : Type} {f : β → Run ℕ γ} {Q : β → γ → Prop} : ∀ {l : List β},
    (∀ v ∈ l, ∃ P, (f v).run = some (.ok P) ∧ Q v P) →
    ∃ r, (l.mapM f).run = some (.ok r) ∧ List.Forall₂ Q l r := by
  intro l
  induction l with
  | nil => intro _; exact ⟨[], rfl, .nil⟩
  | cons v l ih =>
    intro h
    obtain ⟨P, h1, h2⟩ := h v List.mem_cons_self
    obtain ⟨r, h3, h4⟩ := ih fun w hw => h w (List.mem_cons_of_mem _ hw)
    refine ⟨P :: r, ?_, .cons h2 h4⟩
    rw [List.mapM_cons]
    simp [ExceptT.run_bind, h1, h3, Except.map]

theorem run_mapM_map {β γ : Type} {f : β → Run ℕ γ} {g : β → γ} {l : List β} (h : ∀ v ∈ l, (f v).run = some (.ok (g v))) :
    (l.mapM f).run = some (.ok (l.map g)) := by
  induction l with
  | nil => rfl
  | cons v l ih =>
    rw [List.mapM_cons]
    simp [ExceptT.run_bind, h v List.mem_cons_self, ih fun w hw => h w (List.mem_cons_of_mem _ hw), Except.map]

/-- A list comprehension raises if one of its items raises and the others return or raise. -/
theorem run_mapM_error {β γ : Type} {f : β → Run ℕ γ} {l : List β} (ht : ∀ v ∈ l, (f v).run ≠ none) {v : β} (hv : v ∈ l)
    {e : Exn ℕ} (he : (f v).run = some (.error e)) : ∃ e', (l.mapM f).run = some (.error e') := by
  induction l with
  | nil => exact absurd hv (by simp)
  | cons a l ih =>
    rw [List.mapM_cons]
    rcases h : (f a).run with _ | (e' | b)
    · exact absurd h (ht a List.mem_cons_self)
    · exact ⟨e', by rw [ExceptT.run_bind, h]; rfl⟩
    · have hvl : v ∈ l := by
        rcases List.mem_cons.1 hv with rfl | hv
        · rw [he] at h; simp at h
        · exact hv
      obtain ⟨e', h'⟩ := ih (fun w hw => ht w (List.mem_cons_of_mem _ hw)) hvl
      exact ⟨e', by simp [ExceptT.run_bind, h, h', Except.map]⟩

theorem run_mapM_some {β γ : Type} {f : β → Run ℕ γ} {l : List β} (ht : ∀ v ∈ l, (f v).run ≠ none) : (l.mapM f).run ≠ none := by
  induction l with
  | nil => simp [ExceptT.run]; exact fun h => by cases h
  | cons a l ih =>
    rw [List.mapM_cons]
    rcases h : (f a).run with _ | (e' | b)
    · exact absurd h (ht a List.mem_cons_self)
    · rw [ExceptT.run_bind, h]; exact fun h => by cases h
    · have := ih fun w hw => ht w (List.mem_cons_of_mem _ hw)
      rcases h' : (l.mapM f).run with _ | (e' | b')
      · exact absurd h' this
      · simp [ExceptT.run_bind, h, h']
      · simp [ExceptT.run_bind, h, h']

namespace Tensor

/-- The product of two tables with the same two axes. -/
theorem total_mul {a b : Tensor ℝ} {m n : ℕ} (ha : a.shape = [m, n]) (hb : b.shape = [m, n]) :
    ∃ p, (mul a b : Except (Exn ℕ) _) = .ok p ∧
      p.total = ∑ i ∈ Finset.range m, ∑ j ∈ Finset.range n, a.val [i, j] * b.val [i, j] := by
  rw [mul, if_pos]
  · refine ⟨_, rfl, ?_⟩
    have hsh : ∀ k : ℕ, (if k = 1 then k else k) = k := fun k => ite_self k
    simp only [total, ha, hb, List.zipWith_cons_cons, List.zipWith_nil_right, hsh, List.length_cons, List.length_nil]
    simp only [sumAxes, List.mem_range]
    norm_num
    refine Finset.sum_congr rfl fun i hi => Finset.sum_congr rfl fun j hj => ?_
    rw [Finset.mem_range] at hi hj
    have : clip [i, j] [m, n] = [i, j] := by
      simp only [clip, List.zipWith_cons_cons, List.zipWith_nil_right]
      have h1 : (if m = 1 then 0 else i) = i := by split_ifs <;> omega
      have h2 : (if n = 1 then 0 else j) = j := by split_ifs <;> omega
      rw [h1, h2]
    rw [this]
  · rw [ha, hb]
    simp

end Tensor

namespace DiscreteDAG

variable {D : DiscreteDAG ℕ}

/-- The function whose conditional means are computed. -/
noncomputable def payoff (T Y c : ℕ) (y : ℕ → ℕ) : ℝ := if y T = c then (y Y : ℝ) else 0

theorem influenceMean_ok (hA : D.Counting) {T Y : ℕ} (hT : T ∈ D.dag.nodes) (hY : Y ∈ D.dag.nodes) (c : ℕ) {t : Tensor ℝ}
    (ht : t.shape = [D.dims T, D.dims Y]) :
    D.influenceMean T Y c t = .ok (∑ i ∈ Finset.range (D.dims T), ∑ j ∈ Finset.range (D.dims Y),
      (if i = c then (j : ℝ) else 0) * t.val [i, j]) := by
  obtain ⟨p, h1, h2⟩ := Tensor.total_mul (a := D.influenceValues T Y c) (b := t) rfl ht
  have hal : ∀ v ∈ D.dag.nodes, ∀ i < D.dims v, (D.alph v).getD i 0 = (i : ℤ) := by
    intro v hv i hi
    rw [hA v hv]
    simp [hi]
  rw [influenceMean, h1]
  dsimp only
  rw [h2]
  congr 1
  refine Finset.sum_congr rfl fun i hi => Finset.sum_congr rfl fun j hj => ?_
  rw [Finset.mem_range] at hi hj
  congr 1
  simp only [influenceValues, List.getD_cons_zero, List.getD_cons_succ, hal T hT i hi, hal Y hY j hj]
  split_ifs with h1 h2 h2
  · simp
  · exact absurd (by exact_mod_cast h1) h2
  · exact absurd (by exact_mod_cast h2) h1
  · simp

theorem part_sum {ι : Type} (D : DiscreteDAG ℕ) (I : Finset ι) (f : ι → (ℕ → ℕ) → ℝ) (s : Finset ℕ) (x : ℕ → ℕ) :
    D.part (fun y => ∑ i ∈ I, f i y) s x = ∑ i ∈ I, D.part (f i) s x := by
  simp only [part, Finset.mul_sum]
  exact Finset.sum_comm

theorem part_smul (D : DiscreteDAG ℕ) (a : ℝ) (f : (ℕ → ℕ) → ℝ) (s : Finset ℕ) (x : ℕ → ℕ) :
    D.part (fun y => a * f y) s x = a * D.part f s x := by
  simp only [part, Finset.mul_sum]
  exact Finset.sum_congr rfl fun y _ => by ring

theorem part_congr_fun (D : DiscreteDAG ℕ) {f g : (ℕ → ℕ) → ℝ} (s : Finset ℕ) (x : ℕ → ℕ)
    (h : ∀ y, (∀ v ∈ D.dag.nodes, y v < D.dims v) → (∀ v ∈ s, y v = x v) → f y = g y) : D.part f s x = D.part g s x := by
  classical
  refine Finset.sum_congr rfl fun y hy => ?_
  rw [Finset.mem_filter] at hy
  rw [h y (mem_assignments.1 hy.1).1 hy.2]

/-- A probability as a part. -/
theorem pr_part (D : DiscreteDAG ℕ) {L : List ℕ} {s : Finset ℕ} {x y : ℕ → ℕ} {f : (ℕ → ℕ) → ℝ}
    (h1 : ∀ z : ℕ → ℕ, (∀ v ∈ L, z v = y v) → (∀ v ∈ s, z v = x v) ∧ f z = 1)
    (h0 : ∀ z : ℕ → ℕ, (∀ v ∈ s, z v = x v) → ¬ (∀ v ∈ L, z v = y v) → f z = 0) :
    (D.pr L y : ℝ) = D.part f s x := by
  classical
  rw [pr, prob, NNReal.coe_sum, part, Finset.sum_filter, Finset.sum_filter]
  refine Finset.sum_congr rfl fun z _ => ?_
  by_cases hs : ∀ v ∈ s, z v = x v
  · by_cases hL : ∀ v ∈ L, z v = y v
    · rw [if_pos hL, if_pos hs, (h1 z hL).2, mul_one]
    · rw [if_neg hL, if_pos hs, h0 z hs hL, mul_zero]
  · rw [if_neg hs, if_neg fun hL => hs (h1 z hL).1]

/-- The values of two nodes. -/
noncomputable def hit (T Y i j : ℕ) (y : ℕ → ℕ) : ℝ := if y T = i ∧ y Y = j then 1 else 0

theorem mean_hit (D : DiscreteDAG ℕ) {T Y : ℕ} (hT : T ∈ D.dag.nodes) (hY : Y ∈ D.dag.nodes) (c : ℕ) (s : Finset ℕ) (x : ℕ → ℕ) :
    ∑ i ∈ Finset.range (D.dims T), ∑ j ∈ Finset.range (D.dims Y), (if i = c then (j : ℝ) else 0) * D.mean (hit T Y i j) s x =
      D.mean (payoff T Y c) s x := by
  simp only [mean, ← mul_div_assoc, ← Finset.sum_div, ← part_smul, ← part_sum]
  congr 1
  refine part_congr_fun D s x fun y hy _ => ?_
  rw [Finset.sum_eq_single (y T), Finset.sum_eq_single (y Y)]
  · simp [hit, payoff]
  · intro j _ hj
    exact mul_eq_zero_of_right _ (if_neg fun h => hj h.2.symm)
  · intro h; exact absurd (Finset.mem_range.2 (hy Y hY)) h
  · intro i _ hi
    refine Finset.sum_eq_zero fun j _ => ?_
    exact mul_eq_zero_of_right _ (if_neg fun h => hi h.1.symm)
  · intro h; exact absurd (Finset.mem_range.2 (hy T hT)) h

/-- The table for a key that does not contain both nodes. -/
theorem conditionalAt_ok {q : Query} (hq : D.ExactQuery q) {T Y : ℕ} (hTY : T ≠ Y) (hT : T ∈ D.dag.nodes) (hY : Y ∈ D.dag.nodes)
    {key : List ℕ} {s : Finset ℕ} (hk : ∀ v, v ∈ key ↔ v ∈ s) (hnd : key.Nodup) (hkn : ∀ v ∈ key, v ∈ D.dag.nodes)
    (hsep : ¬ (T ∈ s ∧ Y ∈ s)) {x : ℕ → ℕ} (hx : ∀ v ∈ key, x v < D.dims v) (hp : D.pr key x ≠ 0) :
    ∃ t, D.conditionalAt q [T, Y] key (key.map x) = .ok t ∧ t.shape = [D.dims T, D.dims Y] ∧
      ∀ i < D.dims T, ∀ j < D.dims Y, t.val [i, j] = D.mean (hit T Y i j) s x := by
  have hden : D.part (fun _ => 1) s x = (D.pr key x : ℝ) := part_one D hk x
  have hget : ∀ v ∈ key, (key.map x).getD (key.idxOf v) 0 = x v := fun v hv => getD_map_idxOf hv x
  by_cases hTk : T ∈ key
  · have hYk : Y ∉ key := fun h => hsep ⟨(hk T).1 hTk, (hk Y).1 h⟩
    have hf : [T, Y].filter (· ∉ key) = [Y] := by simp [hTk, hYk]
    have hf' : [T, Y].filter (· ∈ key) = [T] := by simp [hTk, hYk]
    obtain ⟨t, h1, h2, h3⟩ := hq [Y] key (by simp) (by simpa [hYk] using hnd) (by simpa [hY] using hkn) x hx hp
    rw [conditionalAt, hf, h1]
    simp only [List.length_cons, List.length_nil]
    rw [if_pos (by simp), addRepeatedMarginal]
    simp only [hf, hf', List.map_cons, List.map_nil, hTk, hYk, decide_true, decide_false, ne_eq, not_true_eq_false, if_false]
    obtain ⟨t1, e1, s1, v1⟩ := einopsRepeat_ok (α := ℕ) (t := t) (left := [(Y, false)]) (right := [(T, true), (Y, false)])
      (sizes := fun p => D.dims p.1) (sz := fun p => D.dims p.1) (by simp) (by simp) (by simp) (by simpa using h2) (by simp)
    obtain ⟨t2, e2, s2, v2⟩ := einopsRepeat_ok (α := ℕ)
      (t := (⟨[D.dims T], fun idx => if idx.headD 0 = (key.map x).getD (key.idxOf T) 0 then 1 else 0⟩ : Tensor ℝ))
      (left := [(T, true)]) (right := [(T, true), (Y, false)])
      (sizes := fun p => D.dims p.1) (sz := fun p => D.dims p.1) (by simp) (by simp) (by simp) (by simp) (by simp)
    simp only [List.map_cons, List.map_nil] at s1 s2
    rw [e1]
    dsimp only
    rw [e2]
    dsimp only
    rw [Tensor.mul, if_pos (by rw [s1, s2]; simp)]
    refine ⟨_, rfl, by simp [s1, s2], fun i hi j hj => ?_⟩
    have hclip : Tensor.clip [i, j] [D.dims T, D.dims Y] = [i, j] := by
      have := clip_map (α := ℕ) (l := [T, Y]) (x := fun v => if v = T then i else j) (n := D.dims) (by simp [hTY.symm, hi, hj])
      simpa [hTY.symm] using this
    simp only [s1, s2, hclip]
    have g1 := v1 fun p => if p.1 = T then i else j
    have g2 := v2 fun p => if p.1 = T then i else j
    simp only [List.map_cons, List.map_nil, if_true, hTY.symm, if_false] at g1 g2
    rw [g1, g2, List.headD_cons, hget T hTk]
    have h4 := h3 (Function.update x Y j) (by simpa using hj)
      (fun v hv => Function.update_of_ne (ne_of_mem_of_not_mem hv hYk) _ _)
    simp only [List.map_cons, List.map_nil, Function.update_self] at h4
    rw [h4, mean, hden, NNReal.coe_div]
    split_ifs with hi2
    · rw [mul_one]
      congr 1
      refine pr_part D (fun z hz => ?_) fun z hz hn => ?_
      · have hzk : ∀ v ∈ key, z v = x v := fun v hv => by
          rw [hz v (by simp [hv]), Function.update_of_ne (ne_of_mem_of_not_mem hv hYk)]
        refine ⟨fun v hv => hzk v ((hk v).2 hv), ?_⟩
        rw [hit, if_pos ⟨by rw [hzk T hTk, hi2], by rw [hz Y (by simp)]; simp⟩]
      · rw [hit, if_neg]
        rintro ⟨-, h⟩
        refine hn fun v hv => ?_
        rcases List.mem_append.1 hv with hv | hv
        · rw [List.mem_singleton.1 hv, h]; simp
        · rw [hz v ((hk v).1 hv), Function.update_of_ne (ne_of_mem_of_not_mem hv hYk)]
    · rw [mul_zero]
      have : D.part (hit T Y i j) s x = 0 := by
        rw [part_congr_fun D (g := fun _ => 0 * 0) s x, part_smul, zero_mul]
        intro y _ hy
        rw [hit, if_neg, mul_zero]
        rintro ⟨h, -⟩
        exact hi2 (by rw [← h, hy T ((hk T).1 hTk)])
      rw [this, zero_div]
  · by_cases hYk : Y ∈ key
    · have hf : [T, Y].filter (· ∉ key) = [T] := by simp [hTk, hYk]
      have hf' : [T, Y].filter (· ∈ key) = [Y] := by simp [hTk, hYk]
      obtain ⟨t, h1, h2, h3⟩ := hq [T] key (by simp) (by simpa [hTk] using hnd) (by simpa [hT] using hkn) x hx hp
      rw [conditionalAt, hf, h1]
      simp only [List.length_cons, List.length_nil]
      rw [if_pos (by simp), addRepeatedMarginal]
      simp only [hf, hf', List.map_cons, List.map_nil, hTk, hYk, decide_true, decide_false, ne_eq, not_true_eq_false, if_false]
      obtain ⟨t1, e1, s1, v1⟩ := einopsRepeat_ok (α := ℕ) (t := t) (left := [(T, false)]) (right := [(T, false), (Y, true)])
        (sizes := fun p => D.dims p.1) (sz := fun p => D.dims p.1) (by simp) (by simp) (by simp) (by simpa using h2) (by simp)
      obtain ⟨t2, e2, s2, v2⟩ := einopsRepeat_ok (α := ℕ)
        (t := (⟨[D.dims Y], fun idx => if idx.headD 0 = (key.map x).getD (key.idxOf Y) 0 then 1 else 0⟩ : Tensor ℝ))
        (left := [(Y, true)]) (right := [(T, false), (Y, true)])
        (sizes := fun p => D.dims p.1) (sz := fun p => D.dims p.1) (by simp) (by simp) (by simp) (by simp) (by simp)
      simp only [List.map_cons, List.map_nil] at s1 s2
      rw [e1]
      dsimp only
      rw [e2]
      dsimp only
      rw [Tensor.mul, if_pos (by rw [s1, s2]; simp)]
      refine ⟨_, rfl, by simp [s1, s2], fun i hi j hj => ?_⟩
      have hclip : Tensor.clip [i, j] [D.dims T, D.dims Y] = [i, j] := by
        have := clip_map (α := ℕ) (l := [T, Y]) (x := fun v => if v = T then i else j) (n := D.dims) (by simp [hTY.symm, hi, hj])
        simpa [hTY.symm] using this
      simp only [s1, s2, hclip]
      have g1 := v1 fun p => if p.1 = T then i else j
      have g2 := v2 fun p => if p.1 = T then i else j
      simp only [List.map_cons, List.map_nil, if_true, hTY.symm, if_false] at g1 g2
      rw [g1, g2, List.headD_cons, hget Y hYk]
      have h4 := h3 (Function.update x T i) (by simpa using hi)
        (fun v hv => Function.update_of_ne (ne_of_mem_of_not_mem hv hTk) _ _)
      simp only [List.map_cons, List.map_nil, Function.update_self] at h4
      rw [h4, mean, hden, NNReal.coe_div]
      split_ifs with hi2
      · rw [mul_one]
        congr 1
        refine pr_part D (fun z hz => ?_) fun z hz hn => ?_
        · have hzk : ∀ v ∈ key, z v = x v := fun v hv => by
            rw [hz v (by simp [hv]), Function.update_of_ne (ne_of_mem_of_not_mem hv hTk)]
          refine ⟨fun v hv => hzk v ((hk v).2 hv), ?_⟩
          rw [hit, if_pos ⟨by rw [hz T (by simp)]; simp, by rw [hzk Y hYk, hi2]⟩]
        · rw [hit, if_neg]
          rintro ⟨h, -⟩
          refine hn fun v hv => ?_
          rcases List.mem_append.1 hv with hv | hv
          · rw [List.mem_singleton.1 hv, h]; simp
          · rw [hz v ((hk v).1 hv), Function.update_of_ne (ne_of_mem_of_not_mem hv hTk)]
      · rw [mul_zero]
        have : D.part (hit T Y i j) s x = 0 := by
          rw [part_congr_fun D (g := fun _ => 0 * 0) s x, part_smul, zero_mul]
          intro y _ hy
          rw [hit, if_neg, mul_zero]
          rintro ⟨-, h⟩
          exact hi2 (by rw [← h, hy Y ((hk Y).1 hYk)])
        rw [this, zero_div]
    · have hf : [T, Y].filter (· ∉ key) = [T, Y] := by simp [hTk, hYk]
      obtain ⟨t, h1, h2, h3⟩ := hq [T, Y] key (by simp) (by simpa [hTk, hYk, hTY] using hnd) (by simpa [hT, hY] using hkn) x hx hp
      rw [conditionalAt, hf, h1]
      simp only [ne_eq, not_true_eq_false, if_false]
      refine ⟨t, rfl, by simpa using h2, fun i hi j hj => ?_⟩
      have hup : ∀ v ∈ key, Function.update (Function.update x T i) Y j v = x v := fun v hv => by
        rw [Function.update_of_ne (ne_of_mem_of_not_mem hv hYk), Function.update_of_ne (ne_of_mem_of_not_mem hv hTk)]
      have hTv : Function.update (Function.update x T i) Y j T = i := by
        rw [Function.update_of_ne hTY, Function.update_self]
      have h4 := h3 (Function.update (Function.update x T i) Y j) (by
        intro v hv
        simp only [List.mem_cons, List.not_mem_nil, or_false] at hv
        rcases hv with rfl | rfl
        · rw [hTv]; exact hi
        · simpa using hj) hup
      simp only [List.map_cons, List.map_nil, Function.update_self, hTv] at h4
      rw [h4, mean, hden, NNReal.coe_div]
      congr 1
      refine pr_part D (fun z hz => ?_) fun z hz hn => ?_
      · refine ⟨fun v hv => by rw [hz v (by simp [(hk v).2 hv]), hup v ((hk v).2 hv)], ?_⟩
        rw [hit, if_pos ⟨by rw [hz T (by simp), hTv], by rw [hz Y (by simp)]; simp⟩]
      · rw [hit, if_neg]
        rintro ⟨h, h'⟩
        refine hn fun v hv => ?_
        simp only [List.cons_append, List.nil_append, List.mem_cons] at hv
        rcases hv with rfl | rfl | hv
        · rw [h, hTv]
        · rw [h']; simp
        · rw [hz v ((hk v).1 hv), hup v hv]

/-- The total probability. -/
theorem part_empty (hD : D.Proper) (ot : SetOrder (Option ℕ) ℕ) (x : ℕ → ℕ) : D.part (fun _ => 1) ∅ x = 1 := by
  obtain ⟨t, -, ht⟩ := DAG.topologicalSort_ok D.dag ot hD.valid
  have h := expect_pre hD ht (pre := []) (post := t) rfl (k := fun _ => 1) (fun _ _ _ => rfl)
  rw [part_eq_expect]
  simpa [sumL] using h

/-- A row of positive probability makes all its parts possible. -/
theorem pr_ne_zero (hD : D.Proper) {x : ℕ → ℕ} (hx : ∀ v ∈ D.dag.nodes, x v < D.dims v) (h0 : D.law x ≠ 0) {L : List ℕ}
    (hL : ∀ v ∈ L, v ∈ D.dag.nodes) : D.pr L x ≠ 0 := by
  classical
  set y : ℕ → ℕ := fun v => if v ∈ D.dag.nodes then x v else 0 with hy
  have hyx : ∀ v ∈ D.dag.nodes, y v = x v := fun v hv => if_pos hv
  have hlaw : D.law y = D.law x := by
    rw [law_eq]
    refine Finset.prod_congr rfl fun v hv => D.kern_depends v _ _ fun u hu => hyx u ?_
    rcases hu with rfl | hu
    · exact hv
    · exact hD.valid.fst_mem _ _ ((hD.pars_iff v hv u).1 hu)
  intro h
  simp only [pr, prob, Finset.sum_eq_zero_iff] at h
  refine h0 (hlaw ▸ h y (Finset.mem_filter.2 ⟨mem_assignments.2 ⟨fun v hv => ?_, fun v hv => if_neg hv⟩, fun v hv => hyx v (hL v hv)⟩))
  rw [hyx v hv]; exact hx v hv

variable (o ot : SetOrder (Option ℕ) ℕ) (oa : SetOrder Bool (ℕ × ℕ))
    (os : SetOrder (ℕ × Finset ℕ) ℕ) (on : SetOrder Unit ℕ) (op : SetOrder (Finset ℕ) ℕ) (ok : SetOrder Unit (Finset ℕ))
    (oz : SetOrder (List ℕ) (List ℕ))

/-- What an entry of the two dictionaries has to be. -/
structure GoodTerm {N : ℕ} (D : DiscreteDAG ℕ) (ignored : Finset ℕ) (f : (ℕ → ℕ) → ℝ) (data : Fin N → ℕ → ℕ) (s : Finset ℕ) (t : Term) :
    Prop where
  key : ∀ v, v ∈ t.key ↔ v ∈ s
  count : t.count = D.dag.standardImset ignored s
  empty : t.key = [] → ∀ x, t.mean [] = some (D.mean f s x)
  seen : t.key ≠ [] → ∀ j, t.mean (t.key.map (data j)) = some (D.mean f s (data j))
  unseen : t.key ≠ [] → ∀ z, (∀ j, t.key.map (data j) ≠ z) → t.mean z = none

theorem imsetKeys_sub (hD : D.Proper) {ignored s : Finset ℕ} (hs : s ∈ imsetKeys D.dag ignored) : s ⊆ D.dag.nodes := by
  rw [imsetKeys, Finset.mem_filter, Finset.mem_union, Finset.mem_image, Finset.mem_image] at hs
  have hp : ∀ v, D.dag.parents v ⊆ D.dag.nodes := fun v u hu =>
    hD.valid.fst_mem _ _ ((hD.valid.parents_iff u v).1 hu)
  rcases hs.1 with ⟨v, hv, rfl⟩ | ⟨v, hv, rfl⟩
  · exact Finset.insert_subset (Finset.mem_sdiff.1 hv).1 (hp v)
  · exact hp v

theorem mem_imsetKeys (G : DAG ℕ) (ignored s : Finset ℕ) : s ∈ imsetKeys G ignored ↔ G.standardImset ignored s ≠ 0 := by
  rw [imsetKeys, Finset.mem_filter, and_iff_right_iff_imp]
  intro h
  by_contra hn
  rw [Finset.mem_union, Finset.mem_image, Finset.mem_image] at hn
  push Not at hn
  refine h (Finset.sum_eq_zero fun v hv => ?_)
  rw [if_neg (fun e => hn.1 v hv e.symm), if_neg (fun e => hn.2 v hv e.symm), sub_zero]

theorem influenceTerms_run (hD : D.Proper) (hc : D.Cut) (hA : D.Counting) {q : Query} (hq : D.ExactQuery q) {T Y : ℕ} (hTY : T ≠ Y)
    (hT : T ∈ D.dag.nodes) (hY : Y ∈ D.dag.nodes) (c : ℕ) {ignored : Finset ℕ}
    (hsep : ∀ s, D.dag.standardImset ignored s ≠ 0 → ¬ (T ∈ s ∧ Y ∈ s)) {N n : ℕ} {data : Fin N → ℕ → ℕ}
    (hn : ∀ v ∈ D.dag.nodes, v < n) (hdata : ∀ j, ∀ v ∈ D.dag.nodes, data j v < D.dims v) (hpos : ∀ j, D.law (data j) ≠ 0) :
    ∃ r, (D.influenceTerms o ot oa os on op ok oz q T Y c ignored n (some data)).run = some (.ok r) ∧
      List.Forall₂ (GoodTerm D ignored (payoff T Y c) data) (ok.ord () (imsetKeys D.dag ignored)) r := by
  refine run_mapM fun s hs => ?_
  rw [ok.mem_iff] at hs
  have hsn := imsetKeys_sub hD hs
  have hkey : ∀ v, v ∈ op.ord s s ↔ v ∈ s := fun v => op.mem_iff s s v
  have hknd : (op.ord s s).Nodup := op.nodup s s
  have hkn : ∀ v ∈ op.ord s s, v ∈ D.dag.nodes := fun v hv => hsn ((hkey v).1 hv)
  by_cases h0 : op.ord s s = []
  · have hs0 : s = ∅ := Finset.eq_empty_of_forall_notMem fun v hv => by
      have := (hkey v).2 hv
      rw [h0] at this
      simp at this
    obtain ⟨t, h1, h2, h3⟩ := getMarginals_run hD hc o ot oa os on (fun e => (EReal.exp e).toReal) (M := [T, Y])
      (by simpa using hTY) (by simp) (by simp [hT, hY])
    have h4 := influenceMean_ok hA hT hY c (t := t) (by simpa using h2)
    have h5 : ∀ m, D.influenceMean T Y c t = .ok m → (ExceptT.mk (some (D.influenceMean T Y c t)) : Run ℕ ℝ).run = some (.ok m) :=
      fun m h => by rw [h]; rfl
    refine ⟨_, by simp only [h0, if_true, run_bind_ok h1, run_bind_ok (h5 _ h4)]; rfl, ?_⟩
    refine ⟨by simpa [h0] using hkey, rfl, fun _ x => ?_, fun h => absurd rfl h, fun h => absurd rfl h⟩
    dsimp only
    rw [← mean_hit D hT hY c s x]
    congr 1
    refine Finset.sum_congr rfl fun i hi => Finset.sum_congr rfl fun j hj => ?_
    rw [Finset.mem_range] at hi hj
    congr 1
    obtain ⟨e, h5, h6⟩ := h3 (fun v => if v = T then i else j) (by simp [hTY.symm, hi, hj])
    simp only [List.map_cons, List.map_nil, if_true, hTY.symm, if_false] at h5
    rw [h5, h6, mean, hs0, part_empty hD ot, div_one, ENNReal.coe_toReal]
    refine pr_part D (fun z hz => ⟨by simp, ?_⟩) fun z _ hn => ?_
    · rw [hit, if_pos ⟨by rw [hz T (by simp)]; simp, by rw [hz Y (by simp)]; simp [hTY.symm]⟩]
    · rw [hit, if_neg]
      rintro ⟨h, h'⟩
      refine hn fun v hv => ?_
      simp only [List.mem_cons, List.not_mem_nil, or_false] at hv
      rcases hv with rfl | rfl
      · simp [h]
      · simp [h', hTY.symm]
  · set key := op.ord s s with hkeyd
    have hidx : ¬ ∃ v ∈ key, n ≤ v := by
      rintro ⟨v, hv, h⟩
      exact absurd (hn v (hkn v hv)) (by omega)
    set back : List ℕ → ℕ → ℕ := fun z v => z.getD (key.idxOf v) 0 with hback
    have hb : ∀ j, ∀ v ∈ key, back (key.map (data j)) v = data j v := fun j v hv => getD_map_idxOf hv (data j)
    have hb' : ∀ j, key.map (back (key.map (data j))) = key.map (data j) := fun j => List.map_congr_left (hb j)
    have hitem : ∀ z ∈ oz.ord key (Finset.univ.image fun j => key.map (data j)),
        (ExceptT.mk (some ((D.conditionalAt q [T, Y] key z).bind fun t => (D.influenceMean T Y c t).map fun m => (z, m))) :
          Run ℕ (List ℕ × ℝ)).run = some (.ok (z, D.mean (payoff T Y c) s (back z))) := by
      intro z hz
      rw [oz.mem_iff, Finset.mem_image] at hz
      obtain ⟨j, -, rfl⟩ := hz
      obtain ⟨t, e1, e2, e3⟩ := conditionalAt_ok hq hTY hT hY hkey hknd hkn (hsep s ((mem_imsetKeys _ _ _).1 hs))
        (x := back (key.map (data j))) (fun v hv => by rw [hb j v hv]; exact hdata j v (hkn v hv)) (by
          have h5 := pr_ne_zero hD (hdata j) (hpos j) hkn
          have h6 := part_congr D (fun _ => 1) (s := s) (x := back (key.map (data j))) (y := data j) fun v hv => hb j v ((hkey v).2 hv)
          rw [part_one D hkey, part_one D hkey] at h6
          intro h7
          rw [h7] at h6
          exact h5 (by exact_mod_cast h6.symm))
      rw [hb'] at e1
      change some ((D.conditionalAt q [T, Y] key (key.map (data j))).bind _) = _
      rw [e1]
      change some ((D.influenceMean T Y c t).map _) = _
      rw [influenceMean_ok hA hT hY c e2]
      change some (Except.ok _) = _
      congr 3
      rw [← mean_hit D hT hY c s]
      refine Finset.sum_congr rfl fun i hi => Finset.sum_congr rfl fun k hk => ?_
      rw [e3 i (Finset.mem_range.1 hi) k (Finset.mem_range.1 hk)]
    have hmap := run_mapM_map hitem
    refine ⟨_, by simp only [h0, if_false, hidx]; rw [run_bind_ok hmap]; rfl, ?_⟩
    have hfind : ∀ z (l : List (List ℕ)), ((l.map fun z => (z, D.mean (payoff T Y c) s (back z))).find? fun p => p.1 = z).map Prod.snd =
        if z ∈ l then some (D.mean (payoff T Y c) s (back z)) else none := by
      intro z l
      induction l with
      | nil => rfl
      | cons a l ih =>
        rw [List.map_cons, List.find?_cons]
        by_cases haz : a = z
        · subst haz; simp
        · simp only [haz, decide_false, ih, List.mem_cons, Ne.symm haz, false_or]
    refine ⟨hkey, rfl, fun h => absurd h h0, fun _ j => ?_, fun _ z hz => ?_⟩
    · dsimp only
      rw [hfind, if_pos (by rw [oz.mem_iff, Finset.mem_image]; exact ⟨j, Finset.mem_univ _, rfl⟩)]
      rw [mean_congr D _ fun v hv => hb j v ((hkey v).2 hv)]
    · dsimp only
      rw [hfind, if_neg]
      rw [oz.mem_iff, Finset.mem_image]
      rintro ⟨j, -, h⟩
      exact hz j h

/-- The sum over the keys is the sum over the nodes. -/
theorem sum_imset (G : DAG ℕ) (ignored : Finset ℕ) (m : Finset ℕ → ℝ) :
    ((ok.ord () (imsetKeys G ignored)).map fun s => m s * (G.standardImset ignored s : ℝ)).sum =
      ∑ v ∈ G.nodes \ ignored, (m (insert v (G.parents v)) - m (G.parents v)) := by
  have h1 : ((ok.ord () (imsetKeys G ignored)).map fun s => m s * (G.standardImset ignored s : ℝ)).sum =
      ∑ s ∈ imsetKeys G ignored, m s * (G.standardImset ignored s : ℝ) := by
    rw [← List.sum_toFinset _ (ok.nodup _ _)]
    refine Finset.sum_congr (Finset.ext fun s => ?_) fun _ _ => rfl
    rw [List.mem_toFinset, ok.mem_iff]
  rw [h1]
  set K := ((G.nodes \ ignored).image fun v => insert v (G.parents v)) ∪ (G.nodes \ ignored).image G.parents with hK
  rw [imsetKeys, Finset.sum_filter_of_ne (p := fun s => G.standardImset ignored s ≠ 0) (fun s _ h hz => h (by rw [hz]; simp))]
  simp only [DAG.standardImset]
  push_cast
  simp only [Finset.mul_sum]
  rw [Finset.sum_comm]
  refine Finset.sum_congr rfl fun v hv => ?_
  simp only [mul_sub, Finset.sum_sub_distrib, mul_ite, mul_one, mul_zero]
  rw [Finset.sum_ite_eq', Finset.sum_ite_eq', if_pos, if_pos]
  · exact Finset.mem_union_right _ (Finset.mem_image_of_mem _ hv)
  · exact Finset.mem_union_left _ (Finset.mem_image_of_mem (fun v => insert v (G.parents v)) hv)

theorem influence_fold {ignored : Finset ℕ} {f : (ℕ → ℕ) → ℝ} {N N' n' : ℕ} {data : Fin N → ℕ → ℕ} {data' : Fin N' → ℕ → ℕ}
    {l : List (Finset ℕ)} {r : List Term} (h : List.Forall₂ (GoodTerm D ignored f data) l r)
    (hn : ∀ s ∈ l, ∀ v ∈ s, v < n') (hseen : ∀ s ∈ l, s ≠ ∅ → ∀ j', ∃ j, ∀ v ∈ s, data' j' v = data j v) (acc : Fin N' → ℝ) :
    r.foldlM (influenceStep n' data') acc =
      .ok fun j => acc j + (l.map fun s => D.mean f s (data' j) * (D.dag.standardImset ignored s : ℝ)).sum := by
  induction h generalizing acc with
  | nil => simp; rfl
  | @cons s t l r h1 _ ih =>
    have hstep : influenceStep n' data' acc t = .ok fun j => acc j + D.mean f s (data' j) * (D.dag.standardImset ignored s : ℝ) := by
      rw [influenceStep]
      by_cases h0 : t.key = []
      · rw [if_pos h0]
        congr 1
        funext j
        rw [h1.empty h0 (data' j), h1.count]; rfl
      · rw [if_neg h0, if_neg]
        · have hs : s ≠ ∅ := by
            rintro rfl
            exact h0 (List.eq_nil_iff_forall_not_mem.2 fun v hv => by simpa using (h1.key v).1 hv)
          have hm : ∀ j', t.mean (t.key.map (data' j')) = some (D.mean f s (data' j')) := by
            intro j'
            obtain ⟨j, hj⟩ := hseen s List.mem_cons_self hs j'
            have e : t.key.map (data' j') = t.key.map (data j) := List.map_congr_left fun v hv => hj v ((h1.key v).1 hv)
            rw [e, h1.seen h0 j, mean_congr D f hj]
          rw [if_neg]
          · congr 1
            funext j
            rw [hm j, h1.count]; rfl
          · rintro ⟨j, hj⟩
            rw [hm j] at hj
            simp at hj
        · rintro ⟨v, hv, h⟩
          exact absurd (hn s List.mem_cons_self v ((h1.key v).1 hv)) (by omega)
    rw [List.foldlM_cons, hstep]
    change List.foldlM _ _ r = _
    rw [ih (fun s hs => hn s (List.mem_cons_of_mem _ hs)) (fun s hs => hseen s (List.mem_cons_of_mem _ hs))]
    congr 1
    funext j
    rw [List.map_cons, List.sum_cons]; ring

/-- Both nodes in the key. -/
theorem conditionalAt_both (q : Query) {T Y : ℕ} {key : List ℕ} (hT : T ∈ key) (hY : Y ∈ key) (z : List ℕ) :
    ∃ e, D.conditionalAt q [T, Y] key z = .error e := by
  have hf : [T, Y].filter (· ∉ key) = [] := by simp [hT, hY]
  have hf' : [T, Y].filter (· ∈ key) = [T, Y] := by simp [hT, hY]
  rw [conditionalAt, hf]
  rcases q [] (key.zip z) with e | t
  · exact ⟨e, rfl⟩
  · simp only [List.length_cons, List.length_nil]
    rw [if_pos (by simp), addRepeatedMarginal]
    simp only [hf, hf']
    rcases einopsRepeat (α := ℕ) t (List.map (fun v => (v, false)) []) ([T, Y].map fun v => (v, decide (v ∈ key)))
      (fun p => D.dims p.1) with e | t'
    · exact ⟨e, rfl⟩
    · exact ⟨.plain, by simp⟩

/-- The body of the loop over the keys. -/
noncomputable def termOf (D : DiscreteDAG ℕ) (q : Query) (T Y : ℕ) (c : ℤ) (ignored : Finset ℕ) {N : ℕ} (n : ℕ)
    (sampled : Option (Fin N → ℕ → ℕ)) (s : Finset ℕ) : Run ℕ Term := do
    let key := op.ord s s
    if key = [] then
      let t ← D.getMarginals o ot oa os on (fun e => (EReal.exp e).toReal) [T, Y]
      let m ← (ExceptT.mk (some (D.influenceMean T Y c t)) : Run ℕ ℝ)
      return ⟨key, D.dag.standardImset ignored s, fun _ => some m⟩
    else
      match sampled with
      | none => throw .type
      | some data =>
          if ∃ v ∈ key, n ≤ v then throw .index
          let means ← (oz.ord key (Finset.univ.image fun j => key.map (data j))).mapM fun z =>
            (ExceptT.mk (some ((D.conditionalAt q [T, Y] key z).bind fun t => (D.influenceMean T Y c t).map fun m => (z, m))) :
              Run ℕ (List ℕ × ℝ))
          return ⟨key, D.dag.standardImset ignored s, fun z => (means.find? fun p => p.1 = z).map Prod.snd⟩

theorem influenceTerms_eq (q : Query) (T Y : ℕ) (c : ℤ) (ignored : Finset ℕ) {N : ℕ} (n : ℕ) (sampled : Option (Fin N → ℕ → ℕ)) :
    D.influenceTerms o ot oa os on op ok oz q T Y c ignored n sampled =
      (ok.ord () (imsetKeys D.dag ignored)).mapM (termOf o ot oa os on op oz D q T Y c ignored n sampled) := rfl

theorem run_bind_some {β γ : Type} {m : Run ℕ β} {f : β → Run ℕ γ} (h1 : m.run ≠ none) (h2 : ∀ b, (f b).run ≠ none) :
    (m >>= f).run ≠ none := by
  rcases h : m.run with _ | (e | b)
  · exact absurd h h1
  · rw [ExceptT.run_bind, h]; exact fun h => by cases h
  · rw [run_bind_ok h]; exact h2 b

theorem termOf_some (hD : D.Proper) (hc : D.Cut) (q : Query) {T Y : ℕ} (hTY : T ≠ Y) (hT : T ∈ D.dag.nodes) (hY : Y ∈ D.dag.nodes)
    (c : ℤ) (ignored : Finset ℕ) {N : ℕ} (n : ℕ) (sampled : Option (Fin N → ℕ → ℕ)) (s : Finset ℕ) :
    (termOf o ot oa os on op oz D q T Y c ignored n sampled s).run ≠ none := by
  obtain ⟨t, h1, h2, h3⟩ := getMarginals_run hD hc o ot oa os on (fun e => (EReal.exp e).toReal) (M := [T, Y])
    (by simpa using hTY) (by simp) (by simp [hT, hY])
  unfold termOf
  cases sampled with
  | none =>
    dsimp only
    split_ifs with h0
    · rw [run_bind_ok h1]
      exact run_bind_some (fun h => by cases h) fun b h => by cases h
    · exact fun h => by cases h
  | some data =>
    dsimp only
    split_ifs with h0 hidx
    · rw [run_bind_ok h1]
      exact run_bind_some (fun h => by cases h) fun b h => by cases h
    · exact fun h => by cases h
    · exact run_bind_some (run_mapM_some fun z _ h => by cases h) fun b h => by cases h

/-- One key that makes the loop fail. -/
theorem influence_raises (hD : D.Proper) (hc : D.Cut) (q : Query) {T Y c : ℕ} (hTY : T ≠ Y) (hT : T ∈ D.dag.nodes)
    (hY : Y ∈ D.dag.nodes) (propensity : Option ℝ) (ignored : Finset ℕ) {N : ℕ} (n : ℕ) (sampled : Option (Fin N → ℕ → ℕ))
    (isPartial : Bool) {s : Finset ℕ} (hs : D.dag.standardImset ignored s ≠ 0) {e : Exn ℕ}
    (he : (termOf o ot oa os on op oz D q T Y c ignored n sampled s).run = some (.error e)) :
    ∃ e', (D.influence o ot oa os on op ok oz q T Y c propensity ignored n sampled isPartial).run = some (.error e') := by
  have hrest : ∀ p : ℝ, ∃ e', (if isPartial then do
      let terms ← D.influenceTerms o ot oa os on op ok oz q T Y c ignored n sampled
      return ⟨terms, p⟩
    else throw .plain : Run ℕ Influence).run = some (.error e') := by
    intro p
    cases isPartial with
    | false => exact ⟨.plain, rfl⟩
    | true =>
      rw [if_pos rfl, influenceTerms_eq]
      obtain ⟨e', h'⟩ := run_mapM_error (l := ok.ord () (imsetKeys D.dag ignored))
        (fun v _ => termOf_some o ot oa os on op oz hD hc q hTY hT hY c ignored n sampled v)
        ((ok.mem_iff () _ s).2 ((mem_imsetKeys _ _ _).2 hs)) he
      exact ⟨e', run_bind_error h' _⟩
  unfold influence
  cases propensity with
  | some p => simpa only [pure_bind] using hrest p
  | none =>
    obtain ⟨t, e1, -, -⟩ := getMarginal_run hD hc o ot oa os hT
    dsimp only
    rw [run_bind_ok e1]
    by_cases hle : t.shape.headD 0 ≤ c
    · rw [if_pos hle]; exact ⟨.index, rfl⟩
    · rw [if_neg hle]
      simpa only [pure_bind] using hrest (t.val [c]).toReal

theorem termOf_both (q : Query) {T Y c : ℕ} (ignored : Finset ℕ) {N : ℕ} (hN : 0 < N) (n : ℕ) (data : Fin N → ℕ → ℕ) {s : Finset ℕ}
    (hT : T ∈ s) (hY : Y ∈ s) : ∃ e, (termOf o ot oa os on op oz D q T Y c ignored n (some data) s).run = some (.error e) := by
  have hT' : T ∈ op.ord s s := (op.mem_iff s s T).2 hT
  have hY' : Y ∈ op.ord s s := (op.mem_iff s s Y).2 hY
  have h0 : op.ord s s ≠ [] := List.ne_nil_of_mem hT'
  unfold termOf
  dsimp only
  rw [if_neg h0]
  split_ifs with hidx
  · exact ⟨.index, rfl⟩
  · have hz : (op.ord s s).map (data ⟨0, hN⟩) ∈ oz.ord (op.ord s s) (Finset.univ.image fun j => (op.ord s s).map (data j)) := by
      rw [oz.mem_iff, Finset.mem_image]; exact ⟨_, Finset.mem_univ _, rfl⟩
    obtain ⟨e, he⟩ := conditionalAt_both (D := D) q hT' hY' ((op.ord s s).map (data ⟨0, hN⟩))
    obtain ⟨e', he'⟩ := run_mapM_error (f := fun z =>
      (ExceptT.mk (some ((D.conditionalAt q [T, Y] (op.ord s s) z).bind fun t => (D.influenceMean T Y c t).map fun m => (z, m))) :
        Run ℕ (List ℕ × ℝ))) (fun z _ h => by cases h) hz (e := e) (by rw [he]; rfl)
    exact ⟨e', run_bind_error he' _⟩

theorem termOf_none (q : Query) {T Y c : ℕ} (ignored : Finset ℕ) {N : ℕ} (n : ℕ) {s : Finset ℕ} (hs : s.Nonempty) :
    (termOf o ot oa os on op oz D q T Y c ignored n (none : Option (Fin N → ℕ → ℕ)) s).run = some (.error .type) := by
  obtain ⟨v, hv⟩ := hs
  have h0 : op.ord s s ≠ [] := List.ne_nil_of_mem ((op.mem_iff s s v).2 hv)
  unfold termOf
  dsimp only
  rw [if_neg h0]; rfl

/-- A last node with its parents is a set of the imset. -/
theorem exists_key (hD : D.Proper) (ot : SetOrder (Option ℕ) ℕ) {ignored : Finset ℕ} (h : (D.dag.nodes \ ignored).Nonempty) :
    ∃ s : Finset ℕ, s.Nonempty ∧ D.dag.standardImset ignored s ≠ 0 := by
  obtain ⟨t, -, ht⟩ := DAG.topologicalSort_ok D.dag ot hD.valid
  obtain ⟨v, hv, hlast⟩ : ∃ v ∈ D.dag.nodes \ ignored, ∀ w ∈ D.dag.nodes \ ignored, v ∉ D.dag.parents w := by
    by_contra hcon
    push Not at hcon
    obtain ⟨v, hv, hmax⟩ := Finset.exists_max_image (D.dag.nodes \ ignored) (fun v => t.idxOf v) h
    obtain ⟨w, hw, hvw⟩ := hcon v hv
    have h1 := hmax w hw
    have hvt : w ∈ t := (ht.mem_iff w).2 (Finset.mem_sdiff.1 hw).1
    obtain ⟨pre, post, e⟩ := List.append_of_mem hvt
    obtain ⟨-, hwp, hpar⟩ := lin_pars ht e
    have hvp := hpar v ((hD.valid.parents_iff v w).1 hvw)
    rw [e, List.idxOf_append_of_notMem hwp, List.idxOf_append_of_mem hvp] at h1
    have := List.idxOf_lt_length_of_mem hvp
    simp at h1
    omega
  refine ⟨insert v (D.dag.parents v), Finset.insert_nonempty _ _, ?_⟩
  rw [DAG.standardImset, Finset.sum_eq_single v]
  · rw [if_pos rfl, if_neg]
    · simp
    · intro e
      exact hlast v hv (e ▸ Finset.mem_insert_self _ _)
  · intro w hw hwv
    rw [if_neg, if_neg]
    · simp
    · intro e
      exact hlast w hw (e ▸ Finset.mem_insert_self _ _)
    · intro e
      have : v ∈ insert w (D.dag.parents w) := e ▸ Finset.mem_insert_self _ _
      exact hlast w hw ((Finset.mem_insert.1 this).resolve_left hwv.symm)
  · exact fun h => absurd hv h

/-- A row with values that the samples do not have. -/
theorem influence_fold_unseen {ignored : Finset ℕ} {f : (ℕ → ℕ) → ℝ} {N N' n' : ℕ} {data : Fin N → ℕ → ℕ} {data' : Fin N' → ℕ → ℕ}
    {l : List (Finset ℕ)} {r : List Term} (h : List.Forall₂ (GoodTerm D ignored f data) l r)
    (hn : ∀ s ∈ l, ∀ v ∈ s, v < n') {s : Finset ℕ} (hs : s ∈ l) (hs0 : s ≠ ∅) {j' : Fin N'}
    (hj : ∀ j, ∃ v ∈ s, data' j' v ≠ data j v) (acc : Fin N' → ℝ) :
    r.foldlM (influenceStep n' data') acc = .error .key := by
  induction h generalizing acc with
  | nil => simp at hs
  | @cons a t l r h1 _ ih =>
    rw [List.foldlM_cons]
    have hidx : ¬ ∃ v ∈ t.key, n' ≤ v := by
      rintro ⟨v, hv, h⟩
      exact absurd (hn a List.mem_cons_self v ((h1.key v).1 hv)) (by omega)
    rcases List.mem_cons.1 hs with rfl | hs
    · have h0 : t.key ≠ [] := by
        obtain ⟨v, hv⟩ := Finset.nonempty_iff_ne_empty.2 hs0
        exact List.ne_nil_of_mem ((h1.key v).2 hv)
      rw [influenceStep, if_neg h0, if_neg hidx, if_pos]
      · rfl
      · refine ⟨j', h1.unseen h0 _ fun j e => ?_⟩
        obtain ⟨v, hv, hne⟩ := hj j
        exact hne (List.map_inj_left.1 e v ((h1.key v).2 hv)).symm
    · rcases hst : influenceStep n' data' acc t with e | acc'
      · rw [influenceStep] at hst
        split_ifs at hst
        · injection hst with hst
          rw [← hst]; rfl
      · exact ih (fun s hs => hn s (List.mem_cons_of_mem _ hs)) hs acc'

end DiscreteDAG

end Model
