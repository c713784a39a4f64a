import Verif.Model.CoreUtils
import Verif.Proof.Moral
import Verif.Proof.PDAG

/-! # `powerset` -/

namespace Model

universe u
variable {α : Type u}

theorem mem_combinations (t : List α) : ∀ (l : List α) (r : ℕ), t ∈ combinations r l ↔ t.Sublist l ∧ t.length = r := by
  intro l
  induction l generalizing t with
  | nil =>
    intro r
    cases r with
    | zero => simp [combinations]
    | succ r =>
      simp only [combinations, List.not_mem_nil, false_iff, not_and, List.sublist_nil]
      rintro rfl; simp
  | cons x l ih =>
    intro r
    cases r with
    | zero =>
      simp only [combinations, List.mem_singleton, List.length_eq_zero_iff]
      constructor
      · rintro rfl; simp
      · exact fun h => h.2
    | succ r =>
      simp only [combinations, List.mem_append, List.mem_map, ih]
      constructor
      · rintro (⟨t', ⟨h1, h2⟩, rfl⟩ | ⟨h1, h2⟩)
        · exact ⟨h1.cons_cons x, by simp [h2]⟩
        · exact ⟨h1.cons x, h2⟩
      · rintro ⟨h1, h2⟩
        cases h1 with
        | cons _ h => exact Or.inr ⟨h, h2⟩
        | cons_cons _ h => exact Or.inl ⟨_, ⟨h, by simpa using h2⟩, rfl⟩

theorem nodup_combinations : ∀ {l : List α}, l.Nodup → ∀ r, (combinations r l).Nodup := by
  intro l
  induction l with
  | nil => intro _ r; cases r <;> simp [combinations]
  | cons x l ih =>
    intro hl r
    rw [List.nodup_cons] at hl
    cases r with
    | zero => simp [combinations]
    | succ r =>
      simp only [combinations]
      rw [List.nodup_append]
      refine ⟨(ih hl.2 r).map (fun a b h => List.tail_eq_of_cons_eq h), ih hl.2 _, ?_⟩
      intro a ha b hb hab
      subst hab
      obtain ⟨t, _, rfl⟩ := List.mem_map.1 ha
      exact hl.1 ((mem_combinations _ _ _).1 hb |>.1.subset List.mem_cons_self)

variable [DecidableEq α]

/-- Sublists of a duplicate free list are determined by their elements. -/
theorem sublist_ext {l : List α} (hl : l.Nodup) : ∀ {s t : List α}, s.Sublist l → t.Sublist l → s.toFinset = t.toFinset → s = t := by
  induction l with
  | nil => intro s t hs ht _; rw [List.sublist_nil.1 hs, List.sublist_nil.1 ht]
  | cons x l ih =>
    rw [List.nodup_cons] at hl
    intro s t hs ht h
    have hx : ∀ {s : List α}, s.Sublist l → x ∉ s := fun hs hx => hl.1 (hs.subset hx)
    cases hs with
    | cons _ hs =>
      cases ht with
      | cons _ ht => exact ih hl.2 hs ht h
      | cons_cons _ ht =>
        have : x ∈ s.toFinset := by rw [h]; simp
        exact absurd (List.mem_toFinset.1 this) (hx hs)
    | cons_cons _ hs =>
      rename_i s'
      cases ht with
      | cons _ ht =>
        have : x ∈ t.toFinset := by rw [← h]; simp
        exact absurd (List.mem_toFinset.1 this) (hx ht)
      | cons_cons _ ht =>
        rename_i t'
        congr 1
        refine ih hl.2 hs ht ?_
        ext y
        have := Finset.ext_iff.1 h y
        simp only [List.mem_toFinset, List.mem_cons] at this ⊢
        constructor
        · intro hy
          rcases this.1 (Or.inr hy) with rfl | h'
          · exact absurd hy (hx hs)
          · exact h'
        · intro hy
          rcases this.2 (Or.inr hy) with rfl | h'
          · exact absurd hy (hx ht)
          · exact h'

theorem exists_sublist {l : List α} (hl : l.Nodup) {s : Finset α} (hs : s ⊆ l.toFinset) :
    ∃ t : List α, t.Sublist l ∧ t.toFinset = s ∧ t.length = s.card := by
  refine ⟨l.filter (· ∈ s), List.filter_sublist, ?_, ?_⟩
  · ext x
    simp only [List.mem_toFinset, List.mem_filter, decide_eq_true_eq]
    exact ⟨fun h => h.2, fun h => ⟨List.mem_toFinset.1 (hs h), h⟩⟩
  · have : s = (l.filter (· ∈ s)).toFinset := by
      ext x
      simp only [List.mem_toFinset, List.mem_filter, decide_eq_true_eq]
      exact ⟨fun h => ⟨List.mem_toFinset.1 (hs h), h⟩, fun h => h.2⟩
    conv_rhs => rw [this]
    rw [List.toFinset_card_of_nodup (hl.filter _)]

theorem toFinset_card_sublist {l t : List α} (hl : l.Nodup) (h : t.Sublist l) : t.toFinset.card = t.length :=
  List.toFinset_card_of_nodup (h.nodup hl)

/-- Combinations of the sizes in `rs`, as sets. -/
theorem nodup_flat {l : List α} (hl : l.Nodup) (p : List α → Bool) (rs : List ℕ) (hrs : rs.Nodup) :
    ((rs.flatMap fun r => (combinations r l).filter p).map List.toFinset).Nodup := by
  refine List.Nodup.map_on ?_ ?_
  · intro s hs t ht h
    obtain ⟨r, _, h1⟩ := List.mem_flatMap.1 hs
    obtain ⟨r', _, h2⟩ := List.mem_flatMap.1 ht
    exact sublist_ext hl ((mem_combinations _ _ _).1 (List.mem_filter.1 h1).1).1
      ((mem_combinations _ _ _).1 (List.mem_filter.1 h2).1).1 h
  · rw [List.nodup_flatMap]
    refine ⟨fun r _ => (nodup_combinations hl r).filter _, ?_⟩
    refine hrs.imp ?_
    intro r r' hne
    rw [Function.onFun, List.disjoint_left]
    intro t h1 h2
    have h1 := ((mem_combinations _ _ _).1 (List.mem_filter.1 h1).1).2
    have h2 := ((mem_combinations _ _ _).1 (List.mem_filter.1 h2).1).2
    exact hne (h1.symm.trans h2)

theorem powerset_spec {l : List α} (hl : l.Nodup) (rMin : ℕ) (rMax : Option ℕ) :
    (powerset l rMin rMax).Nodup ∧ ∀ s, s ∈ powerset l rMin rMax ↔
      s ⊆ l.toFinset ∧ rMin ≤ s.card ∧ ∀ m, rMax = some m → s.card ≤ m := by
  constructor
  · have := nodup_flat hl (fun _ => true) (List.range' rMin (rMax.getD l.length + 1 - rMin)) List.nodup_range'
    simpa [powerset] using this
  · intro s
    unfold powerset
    simp only [List.mem_map, List.mem_flatMap, List.mem_range'_1, mem_combinations]
    constructor
    · rintro ⟨t, ⟨r, ⟨hr1, hr2⟩, h1, h2⟩, rfl⟩
      refine ⟨fun x hx => List.mem_toFinset.2 (h1.subset (List.mem_toFinset.1 hx)), ?_, ?_⟩
      · rw [toFinset_card_sublist hl h1]; omega
      · rintro m rfl
        rw [toFinset_card_sublist hl h1]; simp only [Option.getD_some] at hr2; omega
    · rintro ⟨h1, h2, h3⟩
      obtain ⟨t, t1, t2, t3⟩ := exists_sublist hl h1
      refine ⟨t, ⟨s.card, ⟨h2, ?_⟩, t1, t3⟩, t2⟩
      cases rMax with
      | none =>
        have : s.card ≤ l.length := by rw [← t3]; exact t1.length_le
        simp only [Option.getD_none]; omega
      | some m => have := h3 m rfl; simp only [Option.getD_some]; omega

theorem powersetPredicateFrom_spec {l : List α} (p : List α → Bool) (q : Finset α → Prop)
    (hp : ∀ t, t.Sublist l → (p t = true ↔ q t.toFinset)) (hq : ∀ s t, s ⊆ t → q t → q s) :
    ∀ (n r : ℕ), r + n = l.length + 1 →
      powersetPredicateFrom l p (List.range' r n) =
        ((List.range' r n).flatMap fun r => (combinations r l).filter p).map List.toFinset := by
  intro n
  induction n with
  | zero => intro r _; rfl
  | succ n ih =>
    intro r hr
    rw [List.range'_succ]
    simp only [powersetPredicateFrom, List.flatMap_cons, List.map_append]
    rw [ih (r + 1) (by omega)]
    by_cases he : (combinations r l).filter p = []
    · rw [he]
      simp only [List.isEmpty_nil, if_true, List.map_nil, List.nil_append]
      symm
      rw [List.map_eq_nil_iff, List.flatMap_eq_nil_iff]
      intro r' hr'
      rw [List.mem_range'_1] at hr'
      rw [List.filter_eq_nil_iff] at he ⊢
      intro t ht hpt
      obtain ⟨h1, h2⟩ := (mem_combinations _ _ _).1 ht
      have hs : (t.take r).Sublist t := List.take_sublist r t
      refine he (t.take r) ((mem_combinations _ _ _).2 ⟨hs.trans h1, ?_⟩) ?_
      · rw [List.length_take]; omega
      · rw [hp _ (hs.trans h1)]
        refine hq _ _ ?_ ((hp t h1).1 hpt)
        intro x hx
        exact List.mem_toFinset.2 (hs.subset (List.mem_toFinset.1 hx))
    · rw [if_neg (by simpa using he)]

theorem powersetPredicate_spec {l : List α} (hl : l.Nodup) (p : List α → Bool) (q : Finset α → Prop)
    (hp : ∀ t, t.Sublist l → (p t = true ↔ q t.toFinset)) (hq : ∀ s t, s ⊆ t → q t → q s) :
    (powersetPredicate l p).Nodup ∧ ∀ s, s ∈ powersetPredicate l p ↔ s ⊆ l.toFinset ∧ q s := by
  have h := powersetPredicateFrom_spec p q hp hq (l.length + 1) 0 (by omega)
  unfold powersetPredicate
  rw [List.range_eq_range', h]
  refine ⟨nodup_flat hl p _ List.nodup_range', fun s => ?_⟩
  simp only [List.mem_map, List.mem_flatMap, List.mem_range'_1, List.mem_filter, mem_combinations]
  constructor
  · rintro ⟨t, ⟨r, _, ⟨h1, _⟩, h3⟩, rfl⟩
    exact ⟨fun x hx => List.mem_toFinset.2 (h1.subset (List.mem_toFinset.1 hx)), (hp t h1).1 h3⟩
  · rintro ⟨h1, h2⟩
    obtain ⟨t, t1, t2, t3⟩ := exists_sublist hl h1
    have : s.card ≤ l.length := by rw [← t3]; exact t1.length_le
    exact ⟨t, ⟨s.card, by omega, ⟨t1, t3⟩, (hp t t1).2 (by rw [t2]; exact h2)⟩, t2⟩

theorem PDAG.isEdgeClique_spec (P : PDAG α) {t : List α} (ht : t.Nodup) :
    P.isEdgeClique t = true ↔ ∀ i ∈ t.toFinset, ∀ j ∈ t.toFinset, i ≠ j → P.hasEdge i j = true := by
  unfold isEdgeClique
  rw [List.all_eq_true]
  have hc : ∀ i j, P.hasEdge i j = true ↔ P.hasEdge j i = true := by
    intro i j; unfold hasEdge; rw [Finset.pair_comm]
  constructor
  · intro h i hi j hj hij
    rcases (mem_pairs ht).2 ⟨List.mem_toFinset.1 hi, List.mem_toFinset.1 hj, hij⟩ with h' | h'
    · exact h _ h'
    · exact (hc _ _).1 (h _ h')
  · rintro h ⟨i, j⟩ hij
    obtain ⟨h1, h2, h3⟩ := (mem_pairs ht).1 (Or.inl hij)
    exact h i (List.mem_toFinset.2 h1) j (List.mem_toFinset.2 h2) h3

/-- Whatever the predicate, only subsets that satisfy it are listed, each at most once. -/
theorem powersetPredicateFrom_sublist (l : List α) (p : List α → Bool) : ∀ rs : List ℕ,
    (powersetPredicateFrom l p rs).Sublist ((rs.flatMap fun r => (combinations r l).filter p).map List.toFinset) := by
  intro rs
  induction rs with
  | nil => simp [powersetPredicateFrom]
  | cons r rs ih =>
    simp only [powersetPredicateFrom, List.flatMap_cons, List.map_append]
    split
    · exact List.nil_sublist _
    · exact List.Sublist.append_left ih _

end Model
