import Verif.Proof.CliqueDesign

/-! # The targets that `_verification_optimal_helper` picks in a component of several cliques -/

namespace Proof.CT

universe u

open Spec Relation Model

section Lists

variable {β : Type u} [DecidableEq β]

omit [DecidableEq β] in
theorem everyOther_cons (b : β) (l : List β) : everyOther (b :: l) = b :: everyOther (l.drop 1) := by cases l <;> rfl

omit [DecidableEq β] in
theorem everyOther_length : ∀ l : List β, (everyOther (l.drop 1)).length = l.length / 2
  | [] => by simp [everyOther]
  | [_] => by simp [everyOther]
  | a :: b :: l => by
      rw [List.drop_one, List.tail_cons, everyOther_cons, List.length_cons, everyOther_length l, List.length_cons, List.length_cons]
      omega

omit [DecidableEq β] in
/-- The last element of a list of even length has an odd index. -/
theorem everyOther_last : ∀ (l : List β) (y : β), (l ++ [y]).length % 2 = 0 → y ∈ everyOther ((l ++ [y]).drop 1)
  | [], y, h => by simp at h
  | [a], y, _ => by simp [everyOther]
  | a :: b :: l, y, h => by
      have := everyOther_last l y (by simp only [List.cons_append, List.length_cons] at h; omega)
      rw [List.cons_append, List.cons_append, List.drop_one, List.tail_cons, everyOther_cons]
      exact List.mem_cons_of_mem _ this

theorem fillHead_mono : ∀ (l : List β) (n : ℕ) (s : Finset β), s ⊆ fillHead l n s
  | [], _, s => subset_rfl
  | v :: l, n, s => by
      rw [fillHead]
      split
      · exact fillHead_mono l 0 s
      · split
        · exact (Finset.subset_insert _ _).trans (fillHead_mono l 0 _)
        · exact fillHead_mono l (n + 1) s

theorem fillHead_sub : ∀ (l : List β) (n : ℕ) (s : Finset β), fillHead l n s ⊆ s ∪ l.toFinset
  | [], _, s => by simp [fillHead]
  | v :: l, n, s => by
      rw [fillHead]
      have h : ∀ (t : Finset β) m, t ⊆ insert v s → fillHead l m t ⊆ s ∪ (v :: l).toFinset := by
        intro t m ht
        refine (fillHead_sub l m t).trans fun x hx => ?_
        rw [List.toFinset_cons]
        rcases Finset.mem_union.1 hx with hx | hx
        · rcases Finset.mem_insert.1 (ht hx) with rfl | hx
          · simp
          · simp [hx]
        · simp [List.mem_toFinset.1 hx]
      split
      · exact h _ _ (Finset.subset_insert _ _)
      · split
        · exact h _ _ subset_rfl
        · exact h _ _ (Finset.subset_insert _ _)

theorem fillHead_covers : ∀ (l : List β) (n : ℕ) (s : Finset β), n ≤ 1 →
    (∀ l1 l2 x y, l = l1 ++ x :: y :: l2 → x ∈ fillHead l n s ∨ y ∈ fillHead l n s) ∧
    (n = 1 → ∀ y l2, l = y :: l2 → y ∈ fillHead l n s)
  | [], n, s, _ => by simp
  | v :: l, n, s, hn => by
      have pair : ∀ m (t : Finset β), m ≤ 1 → (v ∈ fillHead l m t ∨ m = 1) → ∀ l1 l2 x y, v :: l = l1 ++ x :: y :: l2 →
          x ∈ fillHead l m t ∨ y ∈ fillHead l m t := by
        intro m t hm hv l1 l2 x y e
        obtain ⟨i1, i2⟩ := fillHead_covers l m t hm
        cases l1 with
        | nil =>
          rw [List.nil_append, List.cons.injEq] at e
          obtain ⟨rfl, e⟩ := e
          exact hv.imp id fun h => i2 h y l2 e
        | cons a l1 =>
          rw [List.cons_append, List.cons.injEq] at e
          exact i1 l1 l2 x y e.2
      rw [fillHead]
      split
      · rename_i hv
        have := fillHead_mono l 0 s hv
        refine ⟨pair 0 s (by omega) (.inl this), ?_⟩
        rintro - y l2 e
        rw [List.cons.injEq] at e
        rw [← e.1]; exact this
      · split
        · have := fillHead_mono l 0 (insert v s) (Finset.mem_insert_self v s)
          refine ⟨pair 0 _ (by omega) (.inl this), ?_⟩
          rintro - y l2 e
          rw [List.cons.injEq] at e
          rw [← e.1]; exact this
        · exact ⟨pair (n + 1) s (by omega) (.inr (by omega)), fun h => by omega⟩

theorem card_cons {R : Finset β} {v : β} {l : List β} (hv : v ∉ l) :
    (R ∩ (v :: l).toFinset).card = (R ∩ l.toFinset).card + if v ∈ R then 1 else 0 := by
  rw [List.toFinset_cons]
  split
  · rename_i h
    rw [Finset.inter_insert_of_mem h, Finset.card_insert_of_notMem (by simp [hv])]
  · rename_i h
    rw [Finset.inter_insert_of_notMem h, Nat.add_zero]

/-- The loop adds no more elements than any set needs that meets all pairs of consecutive elements. -/
theorem fillHead_min (R : Finset β) : ∀ (l : List β) (s : Finset β), l.Nodup → (∀ v ∈ l, v ∈ s → v ∈ R) →
    (∀ l1 l2 x y, l = l1 ++ x :: y :: l2 → x ∈ R ∨ y ∈ R) →
    (fillHead l 0 s ∩ l.toFinset).card ≤ (R ∩ l.toFinset).card ∧
    ∀ p, p ∉ l → (∀ y l2, l = y :: l2 → p ∈ R ∨ y ∈ R) → (fillHead l 1 s ∩ l.toFinset).card ≤ (R ∩ (p :: l).toFinset).card
  | [], s, _, _, _ => by simp
  | v :: l, s, hn, hs, hR => by
      obtain ⟨hv, hn'⟩ := List.nodup_cons.1 hn
      have hR' : ∀ l1 l2 x y, l = l1 ++ x :: y :: l2 → x ∈ R ∨ y ∈ R := fun l1 l2 x y e => hR (v :: l1) l2 x y (by rw [e]; rfl)
      have i := fillHead_min R l s hn' (fun w hw => hs w (List.mem_cons_of_mem _ hw)) hR'
      have j := fillHead_min R l (insert v s) hn' (fun w hw hw' => by
        rcases Finset.mem_insert.1 hw' with rfl | hw'
        · exact absurd hw hv
        · exact hs w (List.mem_cons_of_mem _ hw) hw') hR'
      have le : ∀ t : Finset β, (t ∩ (v :: l).toFinset).card ≤ (t ∩ l.toFinset).card + 1 := by
        intro t
        rw [card_cons hv]
        split <;> omega
      have mono : ∀ p, p ∉ v :: l → (R ∩ (v :: l).toFinset).card ≤ (R ∩ (p :: v :: l).toFinset).card := by
        intro p hp
        rw [card_cons hp]
        omega
      constructor
      · rw [fillHead]
        split
        · rename_i h
          have h1 := le (fillHead l 0 s)
          have h2 := i.1
          rw [card_cons hv (R := R), if_pos (hs v (List.mem_cons_self ..) h)]
          omega
        · rename_i h
          rw [if_neg (by omega)]
          have h2 := i.2 v hv fun y l2 e => hR [] l2 v y (by rw [e]; rfl)
          refine le_trans (Finset.card_le_card ?_) h2
          intro x hx
          rw [Finset.mem_inter, List.toFinset_cons, Finset.mem_insert] at hx
          obtain ⟨hx, rfl | hx'⟩ := hx
          · exfalso
            rcases Finset.mem_union.1 (fillHead_sub _ _ _ hx) with hx | hx
            · exact h hx
            · exact hv (List.mem_toFinset.1 hx)
          · exact Finset.mem_inter.2 ⟨hx, hx'⟩
      · intro p hp hpv
        rw [fillHead]
        split
        · rename_i h
          have h1 := le (fillHead l 0 s)
          have h2 := i.1
          have h3 := mono p hp
          rw [card_cons hv (R := R), if_pos (hs v (List.mem_cons_self ..) h)] at h3
          omega
        · rw [if_pos rfl]
          have h1 := le (fillHead l 0 (insert v s))
          have h2 := j.1
          rw [card_cons hp, card_cons hv (R := R)]
          rcases hpv v l rfl with h | h
          · rw [if_pos h]; omega
          · rw [if_pos h]; omega

end Lists

variable {α : Type u} [DecidableEq α]

/-- The part of a sorted list that lies in a subset. -/
theorem ext_filter {E : α → α → Prop} {R s : Finset α} {l : List α} (hl : LinearExtension (R : Set α) (Restrict E (R : Set α)) l) (hs : s ⊆ R) :
    LinearExtension (s : Set α) (Restrict E (s : Set α)) (l.filter fun v => decide (v ∈ s)) where
  nodup := hl.nodup.filter _
  mem_iff v := by
    rw [List.mem_filter, decide_eq_true_iff, hl.mem_iff]
    exact ⟨fun h => h.2, fun h => ⟨hs h, h⟩⟩
  before i j h := by
    have := (hl.before i j ⟨h.1, hs h.2.1, hs h.2.2⟩).filter fun v => decide (v ∈ s)
    rwa [List.filter_cons_of_pos (by simpa using h.2.1), List.filter_cons_of_pos (by simpa using h.2.2), List.filter_nil] at this

/-- Cliques that contain the parents of their elements. -/
structure Initial (E : α → α → Prop) (K : Finset (Finset α)) : Prop where
  asym : ∀ x y, E x y → ¬ E y x
  trans : ∀ c ∈ K, ∀ x ∈ c, ∀ y ∈ c, ∀ z ∈ c, E x y → E y z → E x z
  clique : ∀ c ∈ K, Clique E c
  par : ∀ c ∈ K, ∀ z ∈ c, ∀ u, E u z → u ∈ c

namespace Initial

variable {E : α → α → Prop} {K : Finset (Finset α)} (h : Initial E K)

include h

omit [DecidableEq α] in
theorem covered_of {c : Finset α} (hc : c ∈ K) {x y : α} (hx : x ∈ c) (hy : y ∈ c) (hxy : E x y) (hno : ∀ z ∈ c, E x z → ¬ E z y) :
    Covered E x y := by
  refine ⟨hxy, fun p => ⟨fun hp => ⟨?_, ?_⟩, fun ⟨hp, hne⟩ => ?_⟩⟩
  · exact h.trans c hc p (h.par c hc x hx p hp) x hx y hy hp hxy
  · rintro rfl; exact h.asym _ _ hp hp
  · have hpc := h.par c hc y hy p hp
    rcases h.clique c hc p hpc x hx hne with g | g
    · exact g
    · exact absurd hp (hno p hpc g)

omit [DecidableEq α] in
theorem between {x y : α} (hxy : Covered E x y) (z : α) (h1 : E x z) : ¬ E z y := fun h2 =>
  h.asym _ _ h1 ((hxy.2 z).2 ⟨h2, by rintro rfl; exact h.asym _ _ h1 h1⟩)

omit [DecidableEq α] in
/-- The elements of several cliques. -/
theorem common_par {s : Finset α} (hs : ∀ x, x ∈ s ↔ ∃ c ∈ K, ∃ d ∈ K, c ≠ d ∧ x ∈ c ∧ x ∈ d) {x y : α} (hy : y ∈ s) (hxy : E x y) : x ∈ s := by
  obtain ⟨c, hc, d, hd, hcd, h1, h2⟩ := (hs y).1 hy
  exact (hs x).2 ⟨c, hc, d, hd, hcd, h.par c hc y h1 x hxy, h.par d hd y h2 x hxy⟩

omit [DecidableEq α] in
/-- Consecutive elements of a sorted part of a clique are joined by covered arcs. -/
theorem covered_list {c : Finset α} (hc : c ∈ K) {l : List α} (hl : l.Pairwise E) (hin : ∀ x ∈ l, x ∈ c)
    (hmid : ∀ x ∈ l, ∀ y ∈ l, ∀ z ∈ c, E x z → E z y → z ∈ l) {l1 l2 : List α} {x y : α} (e : l = l1 ++ x :: y :: l2) : Covered E x y := by
  have hx : x ∈ l := by rw [e]; simp
  have hy : y ∈ l := by rw [e]; simp
  have hp := hl
  rw [e, List.pairwise_append, List.pairwise_cons, List.pairwise_cons] at hp
  refine h.covered_of hc (hin x hx) (hin y hy) (hp.2.1.1 y (List.mem_cons_self ..)) fun z hz h1 h2 => ?_
  have := hmid x hx y hy z hz h1 h2
  rw [e, List.mem_append, List.mem_cons, List.mem_cons] at this
  rcases this with g | rfl | rfl | g
  · exact h.asym _ _ h1 (hp.2.2 z g x (List.mem_cons_self ..))
  · exact h.asym _ _ h1 h1
  · exact h.asym _ _ h2 h2
  · exact h.asym _ _ h2 (hp.2.1.2.1 z g)

/-- A single clique. -/
theorem single {c : Finset α} (hK : K = {c}) {l : List α} (hl : LinearExtension (c : Set α) (Restrict E (c : Set α)) l) :
    (∀ x y, Covered E x y → y ∈ c → x ∈ everyOther (l.drop 1) ∨ y ∈ everyOther (l.drop 1)) ∧
      ∀ S : Finset α, (∀ x y, Covered E x y → x ∈ S ∨ y ∈ S) → (everyOther (l.drop 1)).toFinset.card ≤ (S ∩ c).card := by
  have hc : c ∈ K := by rw [hK]; simp
  have hm : ∀ x, x ∈ l ↔ x ∈ c := hl.mem_iff
  have hp := sorted_pairwise (h.clique c hc) hl
  constructor
  · intro x y hxy hy
    obtain ⟨l1, l2, e⟩ := consecutive hp ((hm x).2 (h.par c hc y hy x hxy.1)) ((hm y).2 hy) (h.asym _ _ hxy.1)
      (by rintro rfl; exact h.asym _ _ hxy.1 hxy.1) (h.between hxy)
    exact everyOther_covers _ l1 l2 x y e
  · intro S hS
    have hlc : l.toFinset = c := by ext x; rw [List.mem_toFinset, hm]
    rw [← hlc]
    refine (List.toFinset_card_le _).trans (everyOther_min S l hl.nodup fun l1 l2 x y e => hS x y ?_)
    exact h.covered_list hc hp (fun x => (hm x).1) (fun _ _ _ _ z hz _ _ => (hm z).2 hz) e

omit h [DecidableEq α] in
theorem rev_split {l l1 l2 : List α} {x y : α} (e : l.reverse = l1 ++ x :: y :: l2) : l = l2.reverse ++ y :: x :: l1.reverse := by
  have := congrArg List.reverse e
  rw [List.reverse_reverse] at this
  rw [this]
  simp

/-- Several cliques whose common elements form a clique. -/
theorem several {l : List α} (hl : LinearExtension ((K.sup id : Finset α) : Set α) (Restrict E ((K.sup id : Finset α) : Set α)) l)
    {s : Finset α} (hs : ∀ x, x ∈ s ↔ ∃ c ∈ K, ∃ d ∈ K, c ≠ d ∧ x ∈ c ∧ x ∈ d) (hsc : Clique E s) {sel : Finset α → List α}
    (hsel : ∀ r, sel r = l.filter fun v => decide (v ∈ r)) {f : Finset α}
    (hf : f = fillHead (sel s) 0 (K.biUnion fun c => (everyOther ((sel (c \ s)).reverse.drop 1)).toFinset ∪
      (if (sel (c \ s)).length % 2 = 1 then (sel (c ∩ s)).getLast?.toFinset else ∅))) :
    f ⊆ K.sup id ∧ (∀ x y, Covered E x y → y ∈ K.sup id → x ∈ f ∨ y ∈ f) ∧
      ∀ S : Finset α, (∀ x y, Covered E x y → x ∈ S ∨ y ∈ S) → f.card ≤ (S ∩ K.sup id).card := by
  have hU : ∀ x, x ∈ K.sup id ↔ ∃ c ∈ K, x ∈ c := fun x => by simp
  have hcU : ∀ c ∈ K, c ⊆ K.sup id := fun c hc x hx => (hU x).2 ⟨c, hc, hx⟩
  have hsU : s ⊆ K.sup id := fun x hx => by
    obtain ⟨c, hc, -, -, -, hx, -⟩ := (hs x).1 hx
    exact hcU c hc hx
  have hle : ∀ r, r ⊆ K.sup id → LinearExtension (r : Set α) (Restrict E (r : Set α)) (sel r) := fun r hr => by
    rw [hsel]; exact ext_filter hl hr
  have hmem : ∀ r, r ⊆ K.sup id → ∀ x, x ∈ sel r ↔ x ∈ r := fun r hr => (hle r hr).mem_iff
  have ht : ∀ c ∈ K, c \ s ⊆ K.sup id := fun c hc => Finset.sdiff_subset.trans (hcU c hc)
  have hh : ∀ c ∈ K, c ∩ s ⊆ K.sup id := fun c hc => Finset.inter_subset_left.trans (hcU c hc)
  have hpt : ∀ c ∈ K, (sel (c \ s)).Pairwise E := fun c hc =>
    sorted_pairwise (fun x hx y hy => h.clique c hc x (Finset.mem_sdiff.1 hx).1 y (Finset.mem_sdiff.1 hy).1) (hle _ (ht c hc))
  have hph : ∀ c ∈ K, (sel (c ∩ s)).Pairwise E := fun c hc =>
    sorted_pairwise (fun x hx y hy => h.clique c hc x (Finset.mem_inter.1 hx).1 y (Finset.mem_inter.1 hy).1) (hle _ (hh c hc))
  have hps : (sel s).Pairwise E := sorted_pairwise hsc (hle s hsU)
  -- heads come before tails
  have hht : ∀ c ∈ K, ∀ x ∈ c, x ∈ s → ∀ y ∈ c, y ∉ s → E x y := by
    intro c hc x hx hxs y hy hys
    rcases h.clique c hc x hx y hy (by rintro rfl; exact hys hxs) with g | g
    · exact g
    · exact absurd (h.common_par hs hxs g) hys
  have hcovT : ∀ c ∈ K, ∀ l1 l2 x y, sel (c \ s) = l1 ++ x :: y :: l2 → Covered E x y := by
    intro c hc l1 l2 x y e
    refine h.covered_list hc (hpt c hc) (fun x hx => (Finset.mem_sdiff.1 ((hmem _ (ht c hc) x).1 hx)).1) ?_ e
    intro x hx y hy z hz h1 h2
    refine (hmem _ (ht c hc) z).2 (Finset.mem_sdiff.2 ⟨hz, fun hzs => ?_⟩)
    exact (Finset.mem_sdiff.1 ((hmem _ (ht c hc) x).1 hx)).2 (h.common_par hs hzs h1)
  have hcovS : ∀ l1 l2 x y, sel s = l1 ++ x :: y :: l2 → Covered E x y := by
    intro l1 l2 x y e
    have hx : x ∈ sel s := by rw [e]; simp
    have hy : y ∈ sel s := by rw [e]; simp
    have hp := hps
    rw [e, List.pairwise_append, List.pairwise_cons, List.pairwise_cons] at hp
    have hxy := hp.2.1.1 y (List.mem_cons_self ..)
    have hys := (hmem s hsU y).1 hy
    obtain ⟨c, hc, -, -, -, hyc, -⟩ := (hs y).1 hys
    refine h.covered_of hc (h.par c hc y hyc x hxy) hyc hxy fun z hz h1 h2 => ?_
    have := (hmem s hsU z).2 (h.common_par hs hys h2)
    rw [e, List.mem_append, List.mem_cons, List.mem_cons] at this
    rcases this with g | rfl | rfl | g
    · exact h.asym _ _ h1 (hp.2.2 z g x (List.mem_cons_self ..))
    · exact h.asym _ _ h1 h1
    · exact h.asym _ _ h2 h2
    · exact h.asym _ _ h2 (hp.2.1.2.1 z g)
  -- the last element of the head
  have hlast : ∀ c ∈ K, ∀ a, (sel (c ∩ s)).getLast? = some a → a ∈ c ∧ a ∈ s ∧ ∀ z ∈ c, z ∈ s → z ≠ a → E z a := by
    intro c hc a ha
    obtain ⟨m, e⟩ := List.getLast?_eq_some_iff.1 ha
    have hm := hmem _ (hh c hc)
    have hp := hph c hc
    rw [e] at hm hp
    have ha' := Finset.mem_inter.1 ((hm a).1 (by simp))
    refine ⟨ha'.1, ha'.2, fun z hz hzs hne => ?_⟩
    have := (hm z).2 (Finset.mem_inter.2 ⟨hz, hzs⟩)
    rw [List.mem_append, List.mem_singleton] at this
    rcases this with g | g
    · exact (List.pairwise_append.1 hp).2.2 z g a (by simp)
    · exact absurd g hne
  have hcovM : ∀ c ∈ K, ∀ a, (sel (c ∩ s)).getLast? = some a → ∀ y m, sel (c \ s) = y :: m → Covered E a y := by
    intro c hc a ha y m e
    obtain ⟨h1, h2, h3⟩ := hlast c hc a ha
    have hy := Finset.mem_sdiff.1 ((hmem _ (ht c hc) y).1 (by rw [e]; simp))
    refine h.covered_of hc h1 hy.1 (hht c hc a h1 h2 y hy.1 hy.2) fun z hz g1 g2 => ?_
    by_cases hzs : z ∈ s
    · exact h.asym _ _ g1 (h3 z hz hzs (by rintro rfl; exact h.asym _ _ g1 g1))
    · have hzt := (hmem _ (ht c hc) z).2 (Finset.mem_sdiff.2 ⟨hz, hzs⟩)
      have hp := hpt c hc
      rw [e] at hzt hp
      rcases List.mem_cons.1 hzt with rfl | hzt
      · exact h.asym _ _ g2 g2
      · exact h.asym _ _ g2 ((List.pairwise_cons.1 hp).1 z hzt)
  set P : Finset α → Finset α := fun c => (everyOther ((sel (c \ s)).reverse.drop 1)).toFinset with hP
  set O : Finset α → Finset α := fun c => if (sel (c \ s)).length % 2 = 1 then (sel (c ∩ s)).getLast?.toFinset else ∅ with hO
  have hPs : ∀ c ∈ K, P c ⊆ c \ s := by
    intro c hc x hx
    rw [hP, List.mem_toFinset] at hx
    exact (hmem _ (ht c hc) x).1 (List.mem_reverse.1 (List.mem_of_mem_drop ((everyOther_sublist _).subset hx)))
  have hOs : ∀ c ∈ K, ∀ x, x ∈ O c ↔ (sel (c \ s)).length % 2 = 1 ∧ (sel (c ∩ s)).getLast? = some x := by
    intro c hc x
    simp only [hO]
    split
    · rename_i g
      rw [Option.mem_toFinset, Option.mem_def]
      exact ⟨fun k => ⟨g, k⟩, fun k => k.2⟩
    · rename_i g
      simp [g]
  set s0 := K.biUnion fun c => P c ∪ O c with hs0
  have hmono : s0 ⊆ f := by rw [hf]; exact fillHead_mono _ _ _
  have hsub : f ⊆ s0 ∪ s := by
    rw [hf]
    refine (fillHead_sub _ _ _).trans (Finset.union_subset_union_right fun x hx => ?_)
    exact (hmem s hsU x).1 (List.mem_toFinset.1 hx)
  have hPf : ∀ c ∈ K, P c ⊆ f := fun c hc x hx => hmono (Finset.mem_biUnion.2 ⟨c, hc, Finset.mem_union_left _ hx⟩)
  have hOf : ∀ c ∈ K, O c ⊆ f := fun c hc x hx => hmono (Finset.mem_biUnion.2 ⟨c, hc, Finset.mem_union_right _ hx⟩)
  refine ⟨?_, ?_, ?_⟩
  · refine hsub.trans (Finset.union_subset (fun x hx => ?_) hsU)
    obtain ⟨c, hc, hx⟩ := Finset.mem_biUnion.1 hx
    rcases Finset.mem_union.1 hx with hx | hx
    · exact ht c hc (hPs c hc hx)
    · exact hcU c hc (hlast c hc x ((hOs c hc x).1 hx).2).1
  · intro x y hxy hy
    obtain ⟨c, hc, hyc⟩ := (hU y).1 hy
    have hxc := h.par c hc y hyc x hxy.1
    have hne : x ≠ y := by rintro rfl; exact h.asym _ _ hxy.1 hxy.1
    by_cases hys : y ∈ s
    · have hxs := h.common_par hs hys hxy.1
      obtain ⟨l1, l2, e⟩ := consecutive hps ((hmem s hsU x).2 hxs) ((hmem s hsU y).2 hys) (h.asym _ _ hxy.1) hne (h.between hxy)
      rw [hf]
      exact (fillHead_covers _ 0 _ (by omega)).1 l1 l2 x y e
    have hyt := (hmem _ (ht c hc) y).2 (Finset.mem_sdiff.2 ⟨hyc, hys⟩)
    by_cases hxs : x ∈ s
    · -- `y` is the first element of the tail and `x` the last one of the head
      cases e : sel (c \ s) with
      | nil => rw [e] at hyt; simp at hyt
      | cons y' m =>
        have hyy : y = y' := by
          by_contra hyy
          have hp := hpt c hc
          rw [e] at hp hyt
          rcases List.mem_cons.1 hyt with g | g
          · exact hyy g
          · have h1 := (List.pairwise_cons.1 hp).1 y g
            have h2 := Finset.mem_sdiff.1 ((hmem _ (ht c hc) y').1 (by rw [e]; simp))
            exact h.between hxy y' (hht c hc x hxc hxs y' h2.1 h2.2) h1
        subst hyy
        by_cases hodd : (sel (c \ s)).length % 2 = 1
        · left
          have hxh := (hmem _ (hh c hc) x).2 (Finset.mem_inter.2 ⟨hxc, hxs⟩)
          cases e' : (sel (c ∩ s)).getLast? with
          | none =>
            rw [List.getLast?_eq_none_iff] at e'
            rw [e'] at hxh; simp at hxh
          | some a =>
            obtain ⟨h1, h2, h3⟩ := hlast c hc a e'
            have : x = a := by
              by_contra hxa
              exact h.between hxy a (h3 x hxc hxs hxa) (hht c hc a h1 h2 y hyc hys)
            subst this
            exact hOf c hc ((hOs c hc x).2 ⟨hodd, e'⟩)
        · right
          apply hPf c hc
          rw [hP, List.mem_toFinset, e, List.reverse_cons]
          apply everyOther_last
          rw [e] at hodd
          simp only [List.length_append, List.length_reverse, List.length_cons, List.length_nil] at hodd ⊢
          omega
    · have hxt := (hmem _ (ht c hc) x).2 (Finset.mem_sdiff.2 ⟨hxc, hxs⟩)
      obtain ⟨l1, l2, e⟩ := consecutive (hpt c hc) hxt hyt (h.asym _ _ hxy.1) hne (h.between hxy)
      have e' : (sel (c \ s)).reverse = l2.reverse ++ y :: x :: l1.reverse := by rw [e]; simp
      rcases everyOther_covers _ _ _ y x e' with g | g
      · exact .inr (hPf c hc (List.mem_toFinset.2 g))
      · exact .inl (hPf c hc (List.mem_toFinset.2 g))
  · intro S hS
    set Q := K.filter fun c => ∃ a ∈ O c, a ∉ S with hQ
    set R := (S ∩ s) ∪ K.biUnion O with hRdef
    have hOsub : ∀ c ∈ K, ∀ x ∈ O c, x ∈ s := fun c hc x hx => (hlast c hc x ((hOs c hc x).1 hx).2).2.1
    -- the head
    have hhead : (f ∩ s).card ≤ (R ∩ s).card := by
      have := (fillHead_min R (sel s) s0 (hle s hsU).nodup ?_ ?_).1
      · have e : (sel s).toFinset = s := by ext x; rw [List.mem_toFinset, hmem s hsU]
        rw [e, ← hf] at this
        exact this
      · intro v hv hv'
        obtain ⟨c, hc, hx⟩ := Finset.mem_biUnion.1 hv'
        rcases Finset.mem_union.1 hx with hx | hx
        · exact absurd ((hmem s hsU v).1 hv) (Finset.mem_sdiff.1 (hPs c hc hx)).2
        · exact Finset.mem_union_right _ (Finset.mem_biUnion.2 ⟨c, hc, hx⟩)
      · intro l1 l2 x y e
        have hx := (hmem s hsU x).1 (by rw [e]; simp)
        have hy := (hmem s hsU y).1 (by rw [e]; simp)
        rcases hS x y (hcovS l1 l2 x y e) with g | g
        · exact .inl (Finset.mem_union_left _ (Finset.mem_inter.2 ⟨g, hx⟩))
        · exact .inr (Finset.mem_union_left _ (Finset.mem_inter.2 ⟨g, hy⟩))
    have hR : (R ∩ s).card ≤ (S ∩ s).card + Q.card := by
      have h1 : R ∩ s ⊆ (S ∩ s) ∪ Q.biUnion O := by
        intro x hx
        obtain ⟨hx, hxs⟩ := Finset.mem_inter.1 hx
        by_cases hxS : x ∈ S
        · exact Finset.mem_union_left _ (Finset.mem_inter.2 ⟨hxS, hxs⟩)
        · rcases Finset.mem_union.1 hx with hx | hx
          · exact absurd (Finset.mem_inter.1 hx).1 hxS
          · obtain ⟨c, hc, hx⟩ := Finset.mem_biUnion.1 hx
            exact Finset.mem_union_right _ (Finset.mem_biUnion.2 ⟨c, Finset.mem_filter.2 ⟨hc, x, hx, hxS⟩, hx⟩)
      refine (Finset.card_le_card h1).trans ((Finset.card_union_le _ _).trans (Nat.add_le_add_left ?_ _))
      refine (Finset.card_biUnion_le_card_mul _ _ 1 fun c hc => ?_).trans (by rw [Nat.mul_one])
      rw [Finset.card_le_one]
      intro a ha b hb
      have ha' := (hOs c (Finset.mem_filter.1 hc).1 a).1 ha
      have hb' := (hOs c (Finset.mem_filter.1 hc).1 b).1 hb
      rw [ha'.2] at hb'
      exact Option.some.inj hb'.2
    -- the tails
    have htail : ∀ c ∈ K, (P c).card + (if c ∈ Q then 1 else 0) ≤ (S ∩ (c \ s)).card := by
      intro c hc
      have e0 : (sel (c \ s)).reverse.toFinset = c \ s := by ext x; rw [List.mem_toFinset, List.mem_reverse, hmem _ (ht c hc)]
      split
      · rename_i hcQ
        obtain ⟨-, a, ha, haS⟩ := Finset.mem_filter.1 hcQ
        obtain ⟨hodd, hal⟩ := (hOs c hc a).1 ha
        have has := hOsub c hc a ha
        have key := everyOther_min S ((sel (c \ s)).reverse ++ [a]) ?_ ?_
        · rw [everyOther_length, List.length_append, List.length_reverse, List.length_singleton, List.toFinset_append, e0,
            Finset.inter_union_distrib_left] at key
          have h0 : S ∩ [a].toFinset = ∅ := by
            ext x
            simp only [Finset.mem_inter, List.mem_toFinset, List.mem_singleton, Finset.notMem_empty, iff_false]
            rintro ⟨g, rfl⟩
            exact haS g
          rw [h0, Finset.union_empty] at key
          have hPc : (P c).card ≤ (sel (c \ s)).length / 2 := by
            refine (List.toFinset_card_le _).trans ?_
            rw [everyOther_length, List.length_reverse]
          omega
        · rw [List.nodup_append]
          refine ⟨List.nodup_reverse.2 (hle _ (ht c hc)).nodup, by simp, ?_⟩
          rintro x hx y hy rfl
          rw [List.mem_singleton] at hy
          subst hy
          exact (Finset.mem_sdiff.1 ((hmem _ (ht c hc) _).1 (List.mem_reverse.1 hx))).2 has
        · intro l1 l2 x y e
          rw [← List.reverse_cons] at e
          have e' := rev_split e
          cases hl2 : l2.reverse with
          | nil =>
            rw [hl2, List.nil_append, List.cons.injEq] at e'
            rw [← e'.1]
            exact (hS _ _ (hcovM c hc a hal x _ e'.2)).symm
          | cons b m =>
            rw [hl2, List.cons_append, List.cons.injEq] at e'
            exact (hS _ _ (hcovT c hc _ _ y x e'.2)).symm
      · have key := everyOther_min S (sel (c \ s)).reverse (List.nodup_reverse.2 (hle _ (ht c hc)).nodup) fun l1 l2 x y e =>
          (hS _ _ (hcovT c hc _ _ y x (rev_split e))).symm
        rw [e0] at key
        exact (List.toFinset_card_le _).trans key
    have hsum : f.card ≤ (f ∩ s).card + ∑ c ∈ K, (P c).card := by
      have h1 : f ⊆ (f ∩ s) ∪ K.biUnion P := by
        intro x hx
        rcases Finset.mem_union.1 (hsub hx) with g | g
        · obtain ⟨c, hc, g⟩ := Finset.mem_biUnion.1 g
          rcases Finset.mem_union.1 g with g | g
          · exact Finset.mem_union_right _ (Finset.mem_biUnion.2 ⟨c, hc, g⟩)
          · exact Finset.mem_union_left _ (Finset.mem_inter.2 ⟨hx, hOsub c hc x g⟩)
        · exact Finset.mem_union_left _ (Finset.mem_inter.2 ⟨hx, g⟩)
      exact (Finset.card_le_card h1).trans ((Finset.card_union_le _ _).trans (Nat.add_le_add_left Finset.card_biUnion_le _))
    have hQc : Q.card = ∑ c ∈ K, if c ∈ Q then 1 else 0 := by
      rw [Finset.card_eq_sum_ones, ← Finset.sum_filter]
      refine Finset.sum_congr (Finset.ext fun c => ?_) fun _ _ => rfl
      rw [Finset.mem_filter (p := fun c => c ∈ Q)]
      exact ⟨fun g => ⟨(Finset.mem_filter.1 g).1, g⟩, fun g => g.2⟩
    have hfin : (S ∩ s).card + ∑ c ∈ K, (S ∩ (c \ s)).card ≤ (S ∩ K.sup id).card := by
      rw [← Finset.card_biUnion, ← Finset.card_union_of_disjoint]
      · refine Finset.card_le_card (Finset.union_subset (Finset.inter_subset_inter_left hsU) (Finset.biUnion_subset.2 fun c hc => ?_))
        exact Finset.inter_subset_inter_left (ht c hc)
      · rw [Finset.disjoint_left]
        intro x hx hx'
        obtain ⟨c, -, hx'⟩ := Finset.mem_biUnion.1 hx'
        exact (Finset.mem_sdiff.1 (Finset.mem_inter.1 hx').2).2 (Finset.mem_inter.1 hx).2
      · intro c hc d hd hcd
        refine Finset.disjoint_left.2 fun x hx hx' => ?_
        have g1 := Finset.mem_sdiff.1 (Finset.mem_inter.1 hx).2
        have g2 := Finset.mem_sdiff.1 (Finset.mem_inter.1 hx').2
        exact g1.2 ((hs x).2 ⟨c, hc, d, hd, hcd, g1.1, g2.1⟩)
    have hadd : ∑ c ∈ K, (P c).card + ∑ c ∈ K, (if c ∈ Q then 1 else 0) ≤ ∑ c ∈ K, (S ∩ (c \ s)).card := by
      rw [← Finset.sum_add_distrib]
      exact Finset.sum_le_sum htail
    omega

end Initial

variable {cl : List (Finset α)} {T : Finset (Finset α × Finset α)}

omit [DecidableEq α] in
theorem clique_conn {E : α → α → Prop} {c : Finset α} (hc : Clique E c) {x y : α} (hx : x ∈ c) (hy : y ∈ c) : ReflTransGen (Adj E) x y := by
  by_cases h : x = y
  · rw [h]
  · exact .single (hc x hx y hy h)

/-- The nodes of linked cliques are connected. -/
theorem link_conn {E : α → α → Prop} (hT : Arcs E cl T) (hcq : ∀ c ∈ cl, Clique E c) {c d : Finset α} (hc : c ∈ cl)
    (h : ReflTransGen (Link T) c d) {x y : α} (hx : x ∈ c) (hy : y ∈ d) : ReflTransGen (Adj E) x y := by
  induction h generalizing y with
  | refl => exact clique_conn (hcq c hc) hx hy
  | @tail b d hb hs ih =>
    have : (b ∩ d).Nonempty ∧ d ∈ cl := by
      rcases hs with hs | hs
      · exact ⟨(hT.ends _ _ hs).2.2, (hT.ends _ _ hs).2.1⟩
      · have := hT.ends _ _ hs
        rw [Finset.inter_comm] at this
        exact ⟨this.2.2, this.1⟩
    obtain ⟨⟨z, hz⟩, hd⟩ := this
    rw [Finset.mem_inter] at hz
    exact (ih hz.1).trans (clique_conn (hcq d hd) hz.2 hy)

/-- If all edges of the tree have both directions, every clique contains the parents of its elements. -/
theorem parents_mem {E : α → α → Prop} {V : Finset α} (hT : Arcs E cl T) (hj : Joined T) (hcl : ∀ c, c ∈ cl ↔ MaxClique V E c)
    (hcon : ∀ c ∈ cl, ∀ d ∈ cl, (c ∩ d).Nonempty → ReflTransGen (Link T) c d) (hbi : ∀ a b, (a, b) ∈ T → (b, a) ∈ T)
    (hV : ∀ a b, E a b → a ∈ V ∧ b ∈ V) (hasym : ∀ x y, E x y → ¬ E y x) {d : Finset α} (hd : d ∈ cl) {u z : α} (hz : z ∈ d) (huz : E u z) : u ∈ d := by
  obtain ⟨c, hc, huc⟩ := exists_maxClique (V := V) (E := E) (c := {u, z}) ⟨u, by simp⟩ (by
    intro x hx
    rw [Finset.mem_insert, Finset.mem_singleton] at hx
    rcases hx with rfl | rfl
    · exact (hV _ _ huz).1
    · exact (hV _ _ huz).2) (by
    intro a ha b hb hab
    rw [Finset.mem_insert, Finset.mem_singleton] at ha hb
    rcases ha with rfl | rfl <;> rcases hb with rfl | rfl
    · exact absurd rfl hab
    · exact .inl huz
    · exact .inr huz
    · exact absurd rfl hab)
  have hu : u ∈ c := huc (by simp)
  have hzc : z ∈ c := huc (by simp)
  have hp := hj c d (hcon c ((hcl c).2 hc) d hd ⟨z, Finset.mem_inter.2 ⟨hzc, hz⟩⟩)
  have hzcd : z ∈ c ∩ d := Finset.mem_inter.2 ⟨hzc, hz⟩
  have key : ∀ e, ReflTransGen (fun x y => Link T x y ∧ c ∩ d ⊆ x ∧ c ∩ d ⊆ y) c e → u ∈ e := by
    intro e he
    induction he with
    | refl => exact hu
    | @tail a b _ hs ih =>
      obtain ⟨hl, h1, h2⟩ := hs
      have hba : (b, a) ∈ T := by
        rcases hl with hl | hl
        · exact hbi _ _ hl
        · exact hl
      by_contra hub
      exact hasym _ _ huz (hT.into b a hba z (Finset.mem_inter.2 ⟨h2 hzcd, h1 hzcd⟩) u ih fun h => hub (Finset.mem_inter.1 h).1)
  exact key d hp

/-- If all edges of the tree have both directions and connected nodes that lie in several cliques are adjacent, the targets are a smallest
vertex cover of the covered arcs. -/
theorem optimal_several (tie : Finset α → Finset α → Bool) {G : DAG α} (hG : G.Valid) (hm : ∀ x y z, G.E x z → G.E y z → x = y ∨ Adj G.E x y)
    (hcl : ∀ c, c ∈ cl ↔ MaxClique G.nodes G.E c) (hT : DAG.directedCliqueTree tie G cl = some T) (hbi : ∀ a b, (a, b) ∈ T → (b, a) ∈ T)
    (hco : ∀ a ∈ cl, ∀ b ∈ cl, ∀ c ∈ cl, ∀ d ∈ cl, a ≠ b → c ≠ d → ∀ x ∈ a ∩ b, ∀ y ∈ c ∩ d, ReflTransGen (Adj G.E) x y → x ≠ y → Adj G.E x y)
    (on : SetOrder Unit (Finset (Finset α))) (op : SetOrder (Finset (Finset α)) (Finset (Finset α))) (o : SetOrder (Option α) α)
    (oa : SetOrder Bool (α × α)) :
    ∃ S, (DAG.optimalFromTree on op o oa G (DAG.contract cl T)).run = some (.ok S) ∧ S ⊆ G.nodes ∧
      (∀ x y, Covered G.E x y → x ∈ S ∨ y ∈ S) ∧
      ∀ S' : Finset α, (∀ x y, Covered G.E x y → x ∈ S' ∨ y ∈ S') → S.card ≤ S'.card := by
  obtain ⟨T', h1, h2, hj, hcon⟩ := moral_loop tie hG hm hcl
  rw [hT] at h1
  cases h1
  have hf := h2.forest
  have he : ∀ a b, (a, b) ∈ T → a ∈ cl ∧ b ∈ cl := fun a b h => ⟨(h2.ends a b h).1, (h2.ends a b h).2.1⟩
  have hV : ∀ a b, G.E a b → a ∈ G.nodes ∧ b ∈ G.nodes := fun a b h => ⟨hG.fst_mem a b h, hG.snd_mem a b h⟩
  obtain ⟨r, -, hr, -⟩ := exists_rank hG.acyclic _ G.nodes rfl
  replace hr : ∀ a b, G.E a b → r a < r b := fun a b h => hr a (hV a b h).1 b (hV a b h).2 h
  have hasym : ∀ a b, G.E a b → ¬ G.E b a := fun a b h h' => absurd (hr _ _ h) (not_lt.2 (hr _ _ h').le)
  have hcq : ∀ c ∈ cl, Clique G.E c := fun c hc => ((hcl c).1 hc).clique
  have hlb : ∀ a b, ReflTransGen (Link T) a b → B T a b := fun a b h => conn_mono h fun _ _ h => by
    rcases h with h | h
    · exact ⟨h, hbi _ _ h⟩
    · exact ⟨hbi _ _ h, h⟩
  have hK : ∀ K ∈ (DAG.contract cl T).nodes, ∃ c ∈ cl, ∀ d, d ∈ K ↔ d ∈ cl ∧ B T c d := by
    intro K hK
    obtain ⟨c, hc, rfl⟩ := mem_contract_nodes.1 hK
    exact ⟨c, hc, fun d => mem_component⟩
  have hin : ∀ K ∈ (DAG.contract cl T).nodes, Initial G.E K := by
    intro K hKn
    obtain ⟨c, -, hc⟩ := hK K hKn
    refine ⟨hasym, ?_, fun d hd => hcq d ((hc d).1 hd).1, fun d hd z hz u huz =>
      parents_mem h2 hj hcl hcon hbi hV hasym ((hc d).1 hd).1 hz huz⟩
    intro d hd x hx y hy z hz hxy hyz
    have g1 := hr _ _ hxy
    have g2 := hr _ _ hyz
    rcases hcq d ((hc d).1 hd).1 x hx z hz (by rintro rfl; omega) with g | g
    · exact g
    · have := hr _ _ g
      omega
  have hpar : ∀ K, DAG.parentUnion op (DAG.contract cl T) K = ∅ := by
    intro K
    rcases parentUnion_cases op (DAG.contract cl T) K with ⟨e, -⟩ | ⟨P, hP, -⟩
    · exact e
    · obtain ⟨a, b, hab, -⟩ := (mem_contract_arcs hf he).1 hP
      exact absurd (hbi _ _ hab.1) hab.2
  have hall : ∀ K ∈ (DAG.contract cl T).nodes, ∃ f, (DAG.verificationOptimalHelper o oa G K (DAG.parentUnion op (DAG.contract cl T) K)).run =
      some (.ok f) ∧ f ⊆ K.sup id ∧ (∀ x y, Covered G.E x y → y ∈ K.sup id → x ∈ f ∨ y ∈ f) ∧
      ∀ S : Finset α, (∀ x y, Covered G.E x y → x ∈ S ∨ y ∈ S) → f.card ≤ (S ∩ K.sup id).card := by
    intro K hKn
    rw [hpar, DAG.verificationOptimalHelper]
    split
    · rename_i h1
      obtain ⟨c, hc⟩ := Finset.card_eq_one.1 h1
      rw [hc, Finset.sup_singleton, id, Finset.sdiff_empty]
      obtain ⟨l, g1, g2⟩ := sortedNodes_spec hG o oa c
      obtain ⟨i1, i2⟩ := (hin K hKn).single hc g2
      refine ⟨(everyOther (l.drop 1)).toFinset, ?_, ?_, ?_, i2⟩
      · rw [ExceptT.run_bind, g1]
        rfl
      · intro x hx
        exact (g2.mem_iff x).1 (List.mem_of_mem_drop ((everyOther_sublist _).subset (List.mem_toFinset.1 hx)))
      · intro x y hxy hy
        simpa only [List.mem_toFinset] using i1 x y hxy hy
    · obtain ⟨l, g1, g2⟩ := sortedNodes_spec hG o oa (K.sup id)
      rw [ExceptT.run_bind, g1]
      refine ⟨_, rfl, ?_⟩
      simp only [Finset.sdiff_empty]
      refine (hin K hKn).several g2 (fun x => ?_) ?_ (sel := fun r => l.filter fun v => decide (v ∈ r)) (fun r => rfl) rfl
      · simp only [Finset.mem_biUnion]
        refine exists_congr fun c => and_congr_right fun _ => exists_congr fun d => and_congr_right fun _ => ?_
        split
        · rename_i g; simp [g]
        · rename_i g; simp [g]
      · obtain ⟨c0, hc0, hc⟩ := hK K hKn
        intro x hx y hy hxy
        simp only [Finset.mem_biUnion] at hx hy
        obtain ⟨a, ha, b, hb, hx⟩ := hx
        obtain ⟨c, hc', d, hd, hy⟩ := hy
        split at hx
        · simp at hx
        split at hy
        · simp at hy
        rename_i hab hcd
        refine hco a ((hc a).1 ha).1 b ((hc b).1 hb).1 c ((hc c).1 hc').1 d ((hc d).1 hd).1 hab hcd x hx y hy ?_ hxy
        exact link_conn h2 hcq ((hc a).1 ha).1 (B.link (((hc a).1 ha).2.symm.trans ((hc c).1 hc').2)) (Finset.mem_inter.1 hx).1
          (Finset.mem_inter.1 hy).1
  choose! g hg1 hg2 hg3 hg4 using hall
  have hUV : ∀ K ∈ (DAG.contract cl T).nodes, K.sup id ⊆ G.nodes := by
    intro K hKn
    obtain ⟨c, -, hc⟩ := hK K hKn
    exact Finset.sup_le fun d hd => ((hcl d).1 ((hc d).1 hd).1).sub
  refine ⟨(DAG.contract cl T).nodes.biUnion g, optimalFromTree_run hg1, ?_, ?_, ?_⟩
  · exact Finset.biUnion_subset.2 fun K hKn => (hg2 K hKn).trans (hUV K hKn)
  · intro x y hxy
    obtain ⟨c, hc, hyc⟩ := exists_maxClique (V := G.nodes) (E := G.E) (c := {y}) ⟨y, by simp⟩ (by simpa using (hV _ _ hxy.1).2) (by
      intro a ha b hb hab
      rw [Finset.mem_singleton] at ha hb
      exact absurd (ha.trans hb.symm) hab)
    have hn : DAG.cliqueComponent cl T c ∈ (DAG.contract cl T).nodes := mem_contract_nodes.2 ⟨c, (hcl c).2 hc, rfl⟩
    have hyK : y ∈ (DAG.cliqueComponent cl T c).sup id :=
      Finset.mem_sup.2 ⟨c, mem_component.2 ⟨(hcl c).2 hc, .refl⟩, hyc (Finset.mem_singleton_self y)⟩
    rcases hg3 _ hn x y hxy hyK with h | h
    · exact .inl (Finset.mem_biUnion.2 ⟨_, hn, h⟩)
    · exact .inr (Finset.mem_biUnion.2 ⟨_, hn, h⟩)
  · intro S' hS'
    calc ((DAG.contract cl T).nodes.biUnion g).card
        ≤ ∑ K ∈ (DAG.contract cl T).nodes, (g K).card := Finset.card_biUnion_le
      _ ≤ ∑ K ∈ (DAG.contract cl T).nodes, (S' ∩ K.sup id).card := Finset.sum_le_sum fun K hKn => hg4 K hKn S' hS'
      _ = ((DAG.contract cl T).nodes.biUnion fun K => S' ∩ K.sup id).card := by
          refine (Finset.card_biUnion fun K hKn K' hKn' hne => ?_).symm
          refine Finset.disjoint_left.2 fun x hx hx' => hne ?_
          obtain ⟨c, hc, rfl⟩ := mem_contract_nodes.1 hKn
          obtain ⟨d, hd, rfl⟩ := mem_contract_nodes.1 hKn'
          obtain ⟨c', hc', hxc⟩ := Finset.mem_sup.1 (Finset.mem_inter.1 hx).2
          obtain ⟨d', hd', hxd⟩ := Finset.mem_sup.1 (Finset.mem_inter.1 hx').2
          rw [mem_component] at hc' hd'
          refine (component_eq hd).2 (hc'.2.trans ((hlb _ _ (hcon c' hc'.1 d' hd'.1 ⟨x, Finset.mem_inter.2 ⟨hxc, hxd⟩⟩)).trans hd'.2.symm))
      _ ≤ S'.card := Finset.card_le_card (Finset.biUnion_subset.2 fun K _ => Finset.inter_subset_left)

end Proof.CT
