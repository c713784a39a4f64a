import Verif.Proof.Meek
import Verif.Spec.Design

/-! # Orientations learned from several targets; covered arcs and dominated nodes -/

namespace Spec

universe u
variable {α : Type u} {E F B B' : α → α → Prop}

theorem Meek.mono (h : ∀ a b, E a b → B a b → Meek E B' a b) {a b : α} (hm : Meek E B a b) : Meek E B' a b := by
  induction hm with
  | base h1 h2 => exact h _ _ h1 h2
  | vstr hv => exact .vstr hv
  | r1 _ h2 h3 h4 ih => exact .r1 ih h2 h3 h4
  | r2 _ _ h3 ih1 ih2 => exact .r2 ih1 ih2 h3
  | r3 h1 h2 h3 h4 h5 => exact .r3 h1 h2 h3 h4 h5

/-- What is learned from two families of targets together is what is learned from one or the other. -/
theorem meek_or_iff (hE : Acyclic E) (hB : Cotrans B) (hB' : Cotrans B') {a b : α} :
    Meek E (fun x y => B x y ∨ B' x y) a b ↔ Meek E B a b ∨ Meek E B' a b := by
  constructor
  · intro h
    induction h with
    | base h1 h2 => exact h2.imp (.base h1) (.base h1)
    | vstr hv => exact Or.inl (.vstr hv)
    | r1 _ h2 h3 h4 ih => exact ih.imp (fun ih => .r1 ih h2 h3 h4) fun ih => .r1 ih h2 h3 h4
    | r2 h1 h2 h3 ih1 ih2 =>
      have key : ∀ {B : α → α → Prop}, Cotrans B → ∀ {i k j : α}, Meek E B i k → E k j → E i j → Meek E B i j := by
        intro B hB i k j h1 h2 h3
        by_cases h : Meek E B k j
        · exact .r2 h1 h h3
        · exact meek_mixed hE hB h1 j (Or.inl ⟨h2, h⟩)
      exact ih1.imp (fun ih => key hB ih h2.sub h3) fun ih => key hB' ih h2.sub h3
    | r3 h1 h2 h3 h4 h5 => exact Or.inl (.r3 h1 h2 h3 h4 h5)
  · rintro (h | h)
    · exact h.mono fun _ _ h1 h2 => .base h1 (Or.inl h2)
    · exact h.mono fun _ _ h1 h2 => .base h1 (Or.inr h2)

theorem cutBy_union (T T' : Set (Set α)) : CutBy (T ∪ T') = fun x y => CutBy T x y ∨ CutBy T' x y := by
  funext a b
  apply propext
  constructor
  · rintro ⟨I, hI | hI, h⟩
    · exact Or.inl ⟨I, hI, h⟩
    · exact Or.inr ⟨I, hI, h⟩
  · rintro (⟨I, hI, h⟩ | ⟨I, hI, h⟩)
    · exact ⟨I, Or.inl hI, h⟩
    · exact ⟨I, Or.inr hI, h⟩

theorem meek_union (hE : Acyclic E) (T T' : Set (Set α)) {a b : α} :
    Meek E (CutBy (T ∪ T')) a b ↔ Meek E (CutBy T) a b ∨ Meek E (CutBy T') a b := by
  rw [cutBy_union]; exact meek_or_iff hE (cutBy_cotrans T) (cutBy_cotrans T')

theorem cutBy_single {v a b : α} : CutBy ({{v}} : Set (Set α)) a b ↔ ¬ (a = v ↔ b = v) := by
  simp [CutBy]

theorem cutBy_singles {S : Finset α} {a b : α} :
    CutBy (singles S) a b ↔ a ≠ b ∧ (a ∈ S ∨ b ∈ S) := by
  constructor
  · rintro ⟨_, ⟨v, hv, rfl⟩, h⟩
    simp only [Set.mem_singleton_iff] at h
    refine ⟨by rintro rfl; exact h Iff.rfl, ?_⟩
    by_cases ha : a = v
    · exact Or.inl (ha ▸ hv)
    · by_cases hb : b = v
      · exact Or.inr (hb ▸ hv)
      · exact absurd (iff_of_false ha hb) h
  · rintro ⟨hne, h | h⟩
    · exact ⟨_, ⟨a, h, rfl⟩, fun hh => hne ((hh.1 rfl).symm)⟩
    · exact ⟨_, ⟨b, h, rfl⟩, fun hh => hne (hh.2 rfl)⟩

theorem singles_insert [DecidableEq α] (v : α) (S : Finset α) : singles (insert v S) = {{v}} ∪ singles S := by
  ext I; simp [singles]

theorem singles_empty : singles (∅ : Finset α) = ∅ := by ext; simp [singles]

theorem cutBy_empty : CutBy (∅ : Set (Set α)) = fun _ _ => False := by
  funext a b; simp [CutBy]

/-- What a set of nodes orients is oriented by one of its nodes. -/
theorem meek_singles [DecidableEq α] (hE : Acyclic E) (T : Set (Set α)) (S : Finset α) {a b : α} :
    Meek E (CutBy (T ∪ singles S)) a b ↔ Meek E (CutBy T) a b ∨ ∃ v ∈ S, Meek E (CutBy (T ∪ {{v}})) a b := by
  induction S using Finset.induction_on with
  | empty => simp [singles_empty]
  | insert v S _ ih =>
    rw [singles_insert, meek_union hE, meek_union hE]
    rw [meek_union hE] at ih
    rw [or_left_comm, ih]
    simp only [Finset.exists_mem_insert, meek_union hE T {{v}}]
    tauto

/-- A node without undecided edges teaches nothing. -/
theorem meek_isolated {T : Set (Set α)} {v : α} (hv : ∀ x, ¬ Undec E (CutBy T) v x) {a b : α}
    (h : Meek E (CutBy (T ∪ {{v}})) a b) : Meek E (CutBy T) a b := by
  refine h.mono fun a b h1 h2 => ?_
  rw [cutBy_union] at h2
  rcases h2 with h2 | h2
  · exact .base h1 h2
  · by_contra hn
    rw [cutBy_single] at h2
    by_cases ha : a = v
    · subst ha; exact hv b (Or.inl ⟨h1, hn⟩)
    · have hb : b = v := by by_contra hb; exact h2 (iff_of_false ha hb)
      subst hb; exact hv a (Or.inr ⟨h1, hn⟩)

/-- If `w` is the only undecided neighbour of `v`, intervening on `w` teaches at least as much as intervening on `v`. -/
theorem meek_dominated {T : Set (Set α)} {v w : α} (hne : v ≠ w) (hv : ∀ x, Undec E (CutBy T) v x → x = w) {a b : α}
    (h : Meek E (CutBy (T ∪ {{v}})) a b) : Meek E (CutBy (T ∪ {{w}})) a b := by
  have hmono : ∀ {a b}, Meek E (CutBy T) a b → Meek E (CutBy (T ∪ {{w}})) a b := fun h =>
    h.mono fun a b h1 h2 => .base h1 (by rw [cutBy_union]; exact Or.inl h2)
  refine h.mono fun a b h1 h2 => ?_
  rw [cutBy_union] at h2
  rcases h2 with h2 | h2
  · exact hmono (.base h1 h2)
  · by_cases hm : Meek E (CutBy T) a b
    · exact hmono hm
    rw [cutBy_single] at h2
    refine .base h1 ?_
    rw [cutBy_union]
    right
    rw [cutBy_single]
    by_cases ha : a = v
    · subst ha
      have := hv b (Or.inl ⟨h1, hm⟩)
      simp [this, hne]
    · have hb : b = v := by by_contra hb; exact h2 (iff_of_false ha hb)
      subst hb
      have := hv a (Or.inr ⟨h1, hm⟩)
      simp [this, hne]

/-- A set of nodes determines the graph iff it meets every covered arc that the targets do not cut. -/
theorem verifies_iff (hE : Acyclic E) {V : Finset α} (hV : ∀ a b, E a b → a ∈ V ∧ b ∈ V) (T : Set (Set α))
    (S : Finset α) : Verifies E T S ↔ ∀ i j, Covered E i j → CutBy T i j ∨ i ∈ S ∨ j ∈ S := by
  constructor
  · intro h i j hc
    by_contra hn
    push Not at hn
    have hne : i ≠ j := by rintro rfl; exact hE.irrefl hc.1
    have hF : EquivalentCut (T ∪ singles S) E (Reverse E i j) := by
      refine ⟨⟨covered_reverse_acyclic hE hc, covered_sameSkelV hE hc⟩, ?_⟩
      intro a b hab
      have hab1 : ¬ (a = i ∧ b = j) := by
        rintro ⟨rfl, rfl⟩
        rw [cutBy_union] at hab
        rcases hab with hab | hab
        · exact hn.1 hab
        · exact ((cutBy_singles.1 hab).2).elim hn.2.1 hn.2.2
      have hab2 : ¬ (a = j ∧ b = i) := by
        rintro ⟨rfl, rfl⟩
        rw [cutBy_union] at hab
        rcases hab with hab | hab
        · exact hn.1 ((cutBy_cotrans T).symm _ _ hab)
        · exact ((cutBy_singles.1 hab).2).elim hn.2.2 hn.2.1
      simp [Reverse, hab1, hab2]
    have := (h _ hF j i).1 (Or.inr ⟨rfl, rfl⟩)
    exact hE.asymm hc.1 this
  · intro h F hF
    by_contra hn
    have hsub : ∃ a b, E a b ∧ ¬ F a b := by
      by_contra hs
      push Not at hs
      have := eq_of_subset hF.1.1 hF.1.2 hs
      subst this
      exact hn fun _ _ => Iff.rfl
    obtain ⟨i, j, hc, hji⟩ := exists_covered hE hF.1.1 V hV hF.1.2 hsub
    have hne : i ≠ j := by rintro rfl; exact hE.irrefl hc.1
    have hcut : CutBy (T ∪ singles S) i j := by
      rw [cutBy_union]
      rcases h i j hc with h1 | h1
      · exact Or.inl h1
      · exact Or.inr (cutBy_singles.2 ⟨hne, h1⟩)
    exact hF.1.1.asymm hji ((hF.2 i j hcut).1 hc.1)

theorem forced_iff (hE : Acyclic E) {V : Finset α} (hV : ∀ a b, E a b → a ∈ V ∧ b ∈ V) (T : Set (Set α)) {a b : α} :
    Forced E T a b ↔ Meek E (CutBy T) a b := by
  rw [meek_iff hE (cutBy_cotrans T) hV]
  exact ⟨fun h F hF hs hc => h F ⟨⟨hF, hs⟩, hc⟩, fun h F hF => h F hF.1.1 hF.1.2 hF.2⟩

theorem verifies_iff_meek (hE : Acyclic E) {V : Finset α} (hV : ∀ a b, E a b → a ∈ V ∧ b ∈ V) (T : Set (Set α))
    (S : Finset α) : Verifies E T S ↔ ∀ a b, E a b → Meek E (CutBy (T ∪ singles S)) a b := by
  constructor
  · intro h a b hab
    rw [← forced_iff hE hV]
    exact fun F hF => (h F hF a b).2 hab
  · intro h F hF
    have := eq_of_subset hF.1.1 hF.1.2 fun a b hab => (forced_iff hE hV _).2 (h a b hab) F hF
    subst this
    exact fun _ _ => Iff.rfl

end Spec
