import Verif.Spec.Augment
import Verif.Proof.Separation

/-! # `is_invariant` -/

namespace Spec

universe u
variable {α : Type u} {E : α → α → Prop} {I C : Set α}
open Relation

@[simp] theorem augment_some {a b : α} : Augment E I (some a) (some b) ↔ E a b :=
  ⟨fun h => by cases h; assumption, .old⟩
@[simp] theorem augment_none {i : α} : Augment E I none (some i) ↔ i ∈ I :=
  ⟨fun h => by cases h; assumption, .target⟩
@[simp] theorem augment_to_none {x : Option α} : ¬ Augment E I x none := by intro h; cases h

theorem augment_path0 {a : α} {x : Option α} (h : Path0 (Augment E I) (some a) x) :
    ∃ b, x = some b ∧ Path0 E a b := by
  induction h with
  | refl => exact ⟨a, rfl, .refl⟩
  | tail _ h ih =>
    obtain ⟨b, rfl, hb⟩ := ih
    cases h with
    | old h => exact ⟨_, rfl, hb.tail h⟩

theorem augment_acyclic (hE : Acyclic E) : Acyclic (Augment E I) := by
  intro v hv
  obtain ⟨c, h1, h2⟩ := TransGen.tail'_iff.1 hv
  cases v with
  | none => exact augment_to_none h2
  | some v =>
    obtain ⟨d, rfl, hd⟩ := augment_path0 h1
    exact hE v (TransGen.tail' hd (augment_some.1 h2))

theorem augment_an {v : α} : (mg (Augment E I)).An (some '' C) (some v) ↔ (mg E).An C v := by
  constructor
  · rintro ⟨_, ⟨c, hc, rfl⟩, h⟩
    obtain ⟨b, hb, h⟩ := augment_path0 h
    simp at hb; subst hb
    exact ⟨c, hc, h⟩
  · rintro ⟨c, hc, h⟩
    exact ⟨some c, ⟨c, hc, rfl⟩, path0_map some (fun _ _ h => .old h) h⟩

theorem augment_move {v w : α} {d e : Bool} :
    (mg (Augment E I)).Move (some '' C) (some v, d) (some w, e) ↔ (mg E).Move C (v, d) (w, e) := by
  simp [MG.Move, augment_an]

theorem augment_ball {a : α} :
    (∃ t : Option α × Bool, t.1 = none ∧ Ball (Augment E I) (some '' C) (some a, false) t) ↔
    (∃ t : α × Bool, Ball E C (a, false) t ∧ t.1 ∈ I ∧
      ((t.2 = true ∧ (mg E).An C t.1) ∨ (t.2 = false ∧ t.1 ∉ C))) := by
  constructor
  · rintro ⟨t, ht, h⟩
    suffices H : ∀ t, Ball (Augment E I) (some '' C) (some a, false) t →
        (∃ v e, t = (some v, e) ∧ Ball E C (a, false) (v, e)) ∨
        (∃ t : α × Bool, Ball E C (a, false) t ∧ t.1 ∈ I ∧
          ((t.2 = true ∧ (mg E).An C t.1) ∨ (t.2 = false ∧ t.1 ∉ C))) by
      rcases H t h with ⟨v, e, rfl, _⟩ | h
      · simp at ht
      · exact h
    intro t h
    induction h with
    | refl => exact Or.inl ⟨a, false, rfl, .refl⟩
    | tail _ hst ih =>
      rename_i s t _
      rcases ih with ⟨v, e, rfl, hb⟩ | ih
      · obtain ⟨w, f⟩ := t
        cases w with
        | some w => exact Or.inl ⟨w, f, rfl, hb.tail (augment_move.1 hst)⟩
        | none =>
          right
          obtain ⟨h1, h2, h3, h4⟩ := hst
          simp at h1 h3 h4
          refine ⟨(v, e), hb, h1, ?_⟩
          cases e with
          | true => exact Or.inl ⟨rfl, augment_an.1 (h3 rfl h1)⟩
          | false => exact Or.inr ⟨rfl, by simpa using h4 (by simp)⟩
      · exact Or.inr ih
  · rintro ⟨⟨v, e⟩, hb, hI, h⟩
    have hb' : Ball (Augment E I) (some '' C) (some a, false) (some v, e) := by
      have : ∀ t, Ball E C (a, false) t → Ball (Augment E I) (some '' C) (some a, false) (some t.1, t.2) := by
        intro t ht
        induction ht with
        | refl => exact .refl
        | tail _ hst ih => exact ih.tail (augment_move.2 hst)
      exact this _ hb
    refine ⟨(none, false), rfl, hb'.tail ?_⟩
    refine ⟨Or.inr (.target hI), by simp, ?_, ?_⟩
    · rintro ⟨he, _⟩
      simp at he; subst he
      rcases h with h | h
      · exact augment_an.2 h.2
      · simp at h
    · intro hn
      rcases h with h | h
      · exact absurd ⟨h.1, .target hI⟩ hn
      · simpa using h.2

end Spec

namespace Model.DAG

universe u
variable {α : Type u} [DecidableEq α] {G : DAG α}
open Relation Spec

theorem isInvariant_spec (hG : G.Valid) (o : SepOracle α) (A I C : Finset α) (hAC : Disjoint A C) :
    ∃ r, isInvariant G o A I C = some r ∧
      (r = true ↔ DSep (Augment G.E (I : Set α)) (some '' (A : Set α)) {none} (some '' (C : Set α))) := by
  obtain ⟨sh, hsh, hsh'⟩ := shade_spec hG.toConsistent o C
  obtain ⟨r, hr, hr'⟩ := popLoop_decides o.pop
    (fun s => decide ((s.1 ∈ I ∧ s.2 = true ∧ s.1 ∈ sh) ∨ (s.1 ∈ I ∧ s.2 = false ∧ s.1 ∉ C))) (ballSucc G C sh)
    ((G.nodes ∪ A) ×ˢ Finset.univ)
    (fun s _ => ballSucc_sub hG.toConsistent _ Finset.subset_union_left s) (A.image (·, false)) (by
      intro x hx; simp at hx; obtain ⟨a, ha, rfl⟩ := hx; simp [ha])
  refine ⟨r, by simp only [isInvariant, hsh, Option.bind_some, hr], ?_⟩
  have hrel : (fun a b => b ∈ ballSucc G C sh a) = (mg G.E).Move (C : Set α) := by
    funext s t; exact propext (ballSucc_iff hG hsh' s t)
  rw [hrel] at hr'
  have hdis : Disjoint (some '' (A : Set α)) (some '' (C : Set α)) := by
    rw [Set.disjoint_left]
    rintro _ ⟨a, ha, rfl⟩ ⟨c, hc, h⟩
    simp at h; subst h
    exact Finset.disjoint_left.1 hAC ha hc
  rw [← Bool.not_eq_false, hr', dsep_ball hdis]
  constructor
  · rintro h _ ⟨a, ha, rfl⟩ t ht hb
    obtain ⟨t', h1, h2, h3⟩ := augment_ball.1 ⟨t, ht, hb⟩
    refine h ⟨(a, false), by simpa using ha, t', h1, ?_⟩
    simp only [decide_eq_true_eq]
    rcases h3 with h3 | h3
    · exact Or.inl ⟨by simpa using h2, h3.1, (hsh' _).2 h3.2⟩
    · exact Or.inr ⟨by simpa using h2, h3.1, by simpa using h3.2⟩
  · rintro h ⟨s, hs, t, hst, ht⟩
    simp at hs
    obtain ⟨a, ha, rfl⟩ := hs
    simp only [decide_eq_true_eq] at ht
    obtain ⟨t', h1, h2⟩ := augment_ball.2 ⟨t, hst, show t.1 ∈ (I : Set α) from by
      rcases ht with ht | ht <;> simpa using ht.1, by
      rcases ht with ht | ht
      · exact Or.inl ⟨ht.2.1, (hsh' _).1 ht.2.2⟩
      · exact Or.inr ⟨ht.2.1, by simpa using ht.2.2⟩⟩
    exact h (some a) ⟨a, ha, rfl⟩ t' h1 h2

end Model.DAG
