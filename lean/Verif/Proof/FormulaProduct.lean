import Verif.Proof.SemiMarkovian
import Verif.Spec.Separate

/-! # Products of formulas -/

namespace Model

open Spec

universe u v
variable {α : Type u} [DecidableEq α]

/-- The active variables of a list of factors. -/
def allActive : List (Formula α) → Finset α
  | [] => ∅
  | t :: ts => t.active ∪ allActive ts

theorem foldl_active (ts : List (Formula α)) : ∀ s, ts.foldl (fun s t => s ∪ t.active) s = s ∪ allActive ts := by
  induction ts with
  | nil => simp [allActive]
  | cons t ts ih => intro s; rw [List.foldl_cons, ih, allActive, Finset.union_assoc]

theorem mem_allActive {ts : List (Formula α)} {v : α} : v ∈ allActive ts ↔ ∃ t ∈ ts, v ∈ t.active := by
  induction ts with
  | nil => simp [allActive]
  | cons t ts ih => simp [allActive, ih]

theorem product_eq {ts : List (Formula α)} (h : ts ≠ []) : Formula.product ts = .ok (.prod (allActive ts) ts) := by
  simp [Formula.product, h, foldl_active]

variable [Fintype α] {β : Type v} [DecidableEq β] [Fintype β]

omit [Fintype α] [DecidableEq β] [Fintype β] in
theorem freeOf_union {F : (α → β) → ℝ} {D E : Finset α} (h1 : FreeOf F D) (h2 : FreeOf F E) : FreeOf F (D ∪ E) := by
  intro w x h
  rw [h1 w (fun v => if v ∈ D then x v else w v) (fun v hv => by simp [hv])]
  refine h2 _ _ fun v hv => ?_
  by_cases hd : v ∈ D
  · simp [hd]
  · simp only [hd, if_false]
    exact h v (by simp [hd, hv])

omit [DecidableEq α] [Fintype α] [DecidableEq β] [Fintype β] in
theorem freeOf_mono {F : (α → β) → ℝ} {D E : Finset α} (h : FreeOf F D) (hE : E ⊆ D) : FreeOf F E :=
  fun w x hw => h w x fun v hv => hw v fun hvE => hv (hE hvE)

theorem sumOut_mul_left {D : Finset α} {F c : (α → β) → ℝ} (hc : FreeOf c D) (x : α → β) :
    sumOut D (fun w => c w * F w) x = c x * sumOut D F x := by
  unfold sumOut
  rw [Finset.mul_sum]
  refine Finset.sum_congr rfl fun w hw => ?_
  beta_reduce
  rw [hc w x (Finset.mem_filter.1 hw).2]

theorem freeOf_sumOut {D E : Finset α} {F : (α → β) → ℝ} (h : FreeOf F E) : FreeOf (sumOut D F) (D ∪ E) := by
  refine freeOf_union (fun w x hw => sumOut_congr hw) ?_
  intro w x hw
  unfold sumOut
  refine Finset.sum_nbij' (fun u v => if v ∈ D then u v else x v) (fun u v => if v ∈ D then u v else w v) ?_ ?_ ?_ ?_ ?_
  · intro u _; simp +contextual
  · intro u _; simp +contextual
  · intro u hu
    funext v
    have := (Finset.mem_filter.1 hu).2 v
    by_cases hv : v ∈ D
    · simp [hv]
    · simp [hv, this hv]
  · intro u hu
    funext v
    have := (Finset.mem_filter.1 hu).2 v
    by_cases hv : v ∈ D
    · simp [hv]
    · simp [hv, this hv]
  · intro u hu
    refine h _ _ fun v hv => ?_
    by_cases hd : v ∈ D
    · simp [hd]
    · simp only [hd, if_false]
      rw [(Finset.mem_filter.1 hu).2 v hd, hw v hv]

variable (P : Finset α → (α → β) → ℝ)

theorem meanings_free {D : Finset α} : ∀ {ts : List (Formula α)}, (∀ t ∈ ts, FreeOf (meaning P t) D) → FreeOf (meanings P ts) D
  | [], _ => fun w x _ => by simp [meanings]
  | t :: ts, h => fun w x hw => by
      rw [meanings, meanings, h t (by simp) w x hw, meanings_free (fun s hs => h s (by simp [hs])) w x hw]

omit [Fintype α] [DecidableEq β] [Fintype β] in
theorem free_all {F : (α → β) → ℝ} {d : Finset α} : ∀ {ts : List (Formula α)}, (∀ s ∈ ts, FreeOf F (s.active \ d)) →
    FreeOf F (allActive ts \ d)
  | [], _ => fun w x hw => by
      have : w = x := funext fun v => hw v (by simp [allActive])
      rw [this]
  | t :: ts, h => by
      rw [allActive, Finset.union_sdiff_distrib]
      exact freeOf_union (h t (by simp)) (free_all fun s hs => h s (by simp [hs]))

/-- The sum over all variables but `d` is the product of the sums. -/
theorem sumOut_meanings {d : Finset α} : ∀ {ts : List (Formula α)}, ts.Pairwise (Separate P d) → ∀ x,
    sumOut (allActive ts \ d) (meanings P ts) x = (ts.map fun t => sumOut (t.active \ d) (meaning P t) x).prod
  | [], _, x => by
      have : (∅ : Finset α) \ d = ∅ := by simp
      rw [allActive, this, sumOut_empty]
      simp [meanings]
  | t :: ts, h, x => by
      rw [List.pairwise_cons] at h
      have hd : Disjoint (t.active \ d) (allActive ts \ d) := by
        rw [Finset.disjoint_left]
        intro v hv hv'
        obtain ⟨hv', hvd⟩ := Finset.mem_sdiff.1 hv'
        obtain ⟨s, hs, hvs⟩ := mem_allActive.1 hv'
        exact Finset.disjoint_left.1 (h.1 s hs).1 hv (Finset.mem_sdiff.2 ⟨hvs, hvd⟩)
      have e1 : ∀ y, sumOut (allActive ts \ d) (meanings P (t :: ts)) y = meaning P t y * sumOut (allActive ts \ d) (meanings P ts) y := by
        intro y
        rw [← sumOut_mul_left (free_all fun s hs => (h.1 s hs).2.1)]
        rfl
      have hf : FreeOf (sumOut (allActive ts \ d) (meanings P ts)) (t.active \ d) :=
        freeOf_mono (freeOf_sumOut (meanings_free P fun s hs => (h.1 s hs).2.2)) Finset.subset_union_right
      rw [allActive, Finset.union_sdiff_distrib, ← sumOut_sumOut hd, show sumOut (allActive ts \ d) (meanings P (t :: ts)) =
        fun y => sumOut (allActive ts \ d) (meanings P ts) y * meaning P t y from funext fun y => by rw [e1, mul_comm],
        sumOut_mul_left hf, sumOut_meanings h.2 x, List.map_cons, List.prod_cons, mul_comm]

theorem conditionals_ok {d : Finset α} (hne : d ≠ ∅) : ∀ {ts : List (Formula α)}, (∀ t ∈ ts, Single t ∧ d ⊆ t.active) →
    ∃ us, Formula.conditionals ts d = .ok us ∧ allActive us = allActive ts \ d ∧ (ts ≠ [] → us ≠ []) ∧
      ∀ x, (∀ t ∈ ts, sumOut (t.active \ d) (meaning P t) x ≠ 0) →
        meanings P us x = meanings P ts x / (ts.map fun t => sumOut (t.active \ d) (meaning P t) x).prod
  | [], _ => ⟨[], by rw [Formula.conditionals], by simp [allActive], by simp, fun x _ => by simp [meanings]⟩
  | t :: ts, h => by
      obtain ⟨ht, hd⟩ := h t (by simp)
      obtain ⟨g, h1, -, h3, h4⟩ := Formula.single_all P ht hd hne
      obtain ⟨us, i1, i2, -, i3⟩ := conditionals_ok hne (ts := ts) fun s hs => h s (by simp [hs])
      refine ⟨g :: us, by rw [Formula.conditionals, h1, i1], by rw [allActive, allActive, h3, i2, Finset.union_sdiff_distrib], by simp, ?_⟩
      intro x hx
      rw [meanings, meanings, i3 x fun s hs => hx s (by simp [hs]), h4 x (hx t (by simp)), List.map_cons, List.prod_cons]
      have e : t.active \ (t.active \ d ∪ d) = ∅ := by ext v; simp; tauto
      rw [e, sumOut_empty, div_mul_div_comm]

theorem product_conditional {d : Finset α} (hne : d ≠ ∅) {ts : List (Formula α)} (h0 : ts ≠ [])
    (h : ∀ t ∈ ts, Single t ∧ d ⊆ t.active) {m : Finset α} (hm : m ⊆ allActive ts) (hmd : Disjoint m d) {m' : Finset α}
    (hm' : m' = if m = ∅ then allActive ts \ d else m) :
    ∃ g, (Formula.prod (allActive ts) ts).getConditional m d = .ok g ∧ g.active = m' ∧
      (ts.Pairwise (Separate P d) → IsConditional (meaning P (.prod (allActive ts) ts)) (allActive ts) m' d (meaning P g)) := by
  obtain ⟨us, h1, h2, h3, h4⟩ := conditionals_ok P hne h
  have hda : d ⊆ allActive ts := by
    obtain ⟨t, l, rfl⟩ := List.exists_cons_of_ne_nil h0
    exact (h t (by simp)).2.trans Finset.subset_union_left
  have hc : Formula.check (.prod (allActive ts) ts) m d = true := by
    rw [Formula.check_iff]; exact ⟨hmd, hm, hda⟩
  have hsub : m' ⊆ allActive ts \ d := by
    rw [hm']
    split
    · exact Finset.Subset.refl _
    · exact fun v hv => Finset.mem_sdiff.2 ⟨hm hv, fun hd => Finset.disjoint_left.1 hmd hv hd⟩
  have key : ts.Pairwise (Separate P d) → ∀ x, sumOut (allActive ts \ d) (meanings P ts) x ≠ 0 →
      sumOut (allActive ts \ (m' ∪ d)) (meanings P us) x =
        sumOut (allActive ts \ (m' ∪ d)) (meanings P ts) x / sumOut (allActive ts \ d) (meanings P ts) x := by
    intro hs x hx
    unfold sumOut
    rw [Finset.sum_div]
    refine Finset.sum_congr rfl fun y hy => ?_
    have hy' : ∀ v, v ∉ allActive ts \ d → y v = x v := fun v hv =>
      (Finset.mem_filter.1 hy).2 v fun hv' => hv (Finset.sdiff_subset_sdiff (Finset.Subset.refl _) Finset.subset_union_right hv')
    have e := sumOut_congr (F := meanings P ts) hy'
    have hne' : ∀ t ∈ ts, sumOut (t.active \ d) (meaning P t) y ≠ 0 := by
      rw [← e, sumOut_meanings P hs] at hx
      intro t ht h0
      exact hx (List.prod_eq_zero (List.mem_map.2 ⟨t, ht, h0⟩))
    rw [h4 y hne', ← sumOut_meanings P hs y, e]
    rfl
  have hF : meaning P (.prod (allActive ts) ts) = meanings P ts := by funext x; rw [meaning]
  rw [Formula.getConditional, if_pos hc, if_neg hne, h1]
  simp only
  rw [product_eq (h3 h0)]
  simp only
  rw [← hm', h2, hF]
  by_cases hall : m' ∪ d = allActive ts
  · rw [if_pos hall]
    refine ⟨_, rfl, ?_, fun hs x hx => ?_⟩
    · rw [Formula.active]
      ext v
      simp only [Finset.mem_sdiff, ← hall, Finset.mem_union]
      constructor
      · rintro ⟨h | h, h'⟩
        · exact h
        · exact absurd h h'
      · exact fun h => ⟨Or.inl h, (Finset.mem_sdiff.1 (hsub h)).2⟩
    · rw [← key hs x hx, hall, Finset.sdiff_self, sumOut_empty, meaning]
  · rw [if_neg hall, Formula.marginalDistribution, if_pos (by rw [Formula.active]; exact hsub)]
    refine ⟨_, rfl, rfl, fun hs x hx => ?_⟩
    rw [← key hs x hx, meaning, Formula.active]
    have e : (allActive ts \ d) \ m' = allActive ts \ (m' ∪ d) := by ext v; simp; tauto
    rw [e]
    rfl

end Model
