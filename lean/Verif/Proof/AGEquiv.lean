import Verif.Proof.AGDiscSpec

/-! # `markov_equivalent` -/

namespace Model

universe u
variable {α : Type u} [DecidableEq α]
open Relation Spec

namespace AG
variable {A B : AG α}

theorem vstruct_symm (h : A.mixed.Proper) {u v w : α} (k : A.mixed.VStruct u v w) : A.mixed.VStruct w v u :=
  ⟨k.1.symm, ⟨k.2.1.2, k.2.1.1⟩, fun g => k.2.2 (h.ok.symm _ _ g)⟩

theorem into_iff (hc : A.Consistent) {u v : α} : u ∈ A.parents v ∪ A.spouses v ↔ A.mixed.Into u v := by
  rw [Finset.mem_union, hc.parents_iff, hc.spouses_iff]; rfl

theorem mem_vstructures (h : A.Good) (o : SetOrder α α) (srt : Unpack α) (a v c : α) :
    (a, v, c) ∈ A.vstructures o srt ↔ A.mixed.VStruct a v c ∧ srt.fn {a, c} = (a, c) := by
  have hsym := h.proper.ok.symm
  simp only [vstructures, Finset.mem_biUnion, List.mem_toFinset, List.mem_map, List.mem_filter, Prod.mk.injEq,
    Bool.not_eq_true', Bool.eq_false_iff, ne_eq, hasAnyEdge_iff]
  constructor
  · rintro ⟨v', hv, ⟨p, q⟩, ⟨h1, h2⟩, h3, rfl, h4⟩
    obtain ⟨k1, k2, k3⟩ := (mem_pairs (o.nodup _ _)).1 (Or.inl h1)
    rw [o.mem_iff, into_iff h.1] at k1 k2
    have hs : A.mixed.VStruct p v' q := ⟨k3, ⟨k1, k2⟩, h2⟩
    simp only at h3 h4
    rcases srt.spec p q k3 with e | e
    · rw [e] at h3 h4; subst h3; subst h4; exact ⟨hs, e⟩
    · rw [e] at h3 h4; subst h3; subst h4; exact ⟨vstruct_symm h.proper hs, by rw [Finset.pair_comm]; exact e⟩
  · rintro ⟨⟨k1, ⟨k2, k3⟩, k4⟩, e⟩
    refine ⟨v, (h.adj_mem (h.proper.ok.into_adj _ _ k2)).2, ?_⟩
    rcases (mem_pairs (o.nodup v (A.parents v ∪ A.spouses v))).2
      ⟨(o.mem_iff _ _ _).2 ((into_iff h.1).2 k2), (o.mem_iff _ _ _).2 ((into_iff h.1).2 k3), k1⟩ with g | g
    · exact ⟨(a, c), ⟨g, k4⟩, by simp [e]⟩
    · refine ⟨(c, a), ⟨g, fun k => k4 (hsym _ _ k)⟩, ?_⟩
      simp [Finset.pair_comm c a, e]

theorem vstructures_eq_iff (hA : A.Good) (hB : B.Good) (o1 o2 : SetOrder α α) (srt : Unpack α) :
    A.vstructures o1 srt = B.vstructures o2 srt ↔ ∀ u v w, A.mixed.VStruct u v w ↔ B.mixed.VStruct u v w := by
  constructor
  · intro e
    have key : ∀ u v w, srt.fn {u, w} = (u, w) → (A.mixed.VStruct u v w ↔ B.mixed.VStruct u v w) := by
      intro u v w hs
      have h1 := mem_vstructures hA o1 srt u v w
      have h2 := mem_vstructures hB o2 srt u v w
      rw [e, h2] at h1
      simp only [hs, and_true] at h1
      exact h1.symm
    intro u v w
    by_cases huw : u = w
    · subst huw; exact ⟨fun k => absurd rfl k.1, fun k => absurd rfl k.1⟩
    · rcases srt.spec u w huw with k | k
      · exact key u v w k
      · have := key w v u (by rw [Finset.pair_comm]; exact k)
        exact ⟨fun g => vstruct_symm hB.proper (this.1 (vstruct_symm hA.proper g)),
          fun g => vstruct_symm hA.proper (this.2 (vstruct_symm hB.proper g))⟩
  · intro e
    ext ⟨u, v, w⟩
    rw [mem_vstructures hA, mem_vstructures hB, e]

theorem mem_skeleton (h : A.Good) {u v : α} : {u, v} ∈ A.skeleton ↔ A.mixed.Adj u v := by
  have hsym := h.proper.ok.symm
  simp only [skeleton, Finset.mem_union, Finset.mem_image]
  constructor
  · rintro ((k | k) | ⟨⟨a, b⟩, k, e⟩)
    · exact Or.inr (Or.inr (Or.inl k))
    · exact Or.inr (Or.inr (Or.inr k))
    · rcases PDAG.pair_eq_iff.1 e with ⟨rfl, rfl⟩ | ⟨rfl, rfl⟩
      · exact Or.inl k
      · exact Or.inr (Or.inl k)
  · rintro (k | k | k | k)
    · exact Or.inr ⟨(u, v), k, rfl⟩
    · exact Or.inr ⟨(v, u), k, Finset.pair_comm _ _⟩
    · exact Or.inl (Or.inl k)
    · exact Or.inl (Or.inr k)

theorem skeleton_pair (h : A.Good) {e : Finset α} (he : e ∈ A.skeleton) : ∃ u v, e = {u, v} := by
  simp only [skeleton, Finset.mem_union, Finset.mem_image] at he
  rcases he with (k | k) | ⟨⟨a, b⟩, k, rfl⟩
  · obtain ⟨i, j, -, rfl⟩ := h.1.bi_pair _ k; exact ⟨i, j, rfl⟩
  · obtain ⟨i, j, -, rfl⟩ := h.1.un_pair _ k; exact ⟨i, j, rfl⟩
  · exact ⟨a, b, rfl⟩

theorem skeleton_eq_iff (hA : A.Good) (hB : B.Good) :
    A.skeleton = B.skeleton ↔ ∀ u v, A.mixed.Adj u v ↔ B.mixed.Adj u v := by
  constructor
  · intro e u v; rw [← mem_skeleton hA, ← mem_skeleton hB, e]
  · intro h
    ext e
    constructor
    · intro he
      obtain ⟨u, v, rfl⟩ := skeleton_pair hA he
      rw [mem_skeleton hB, ← h, ← mem_skeleton hA]; exact he
    · intro he
      obtain ⟨u, v, rfl⟩ := skeleton_pair hB he
      rw [mem_skeleton hA, h, ← mem_skeleton hB]; exact he

theorem lookup_ne_none {κ ν : Type*} [BEq κ] [LawfulBEq κ] {d : List (κ × ν)} {l : κ} {v : ν} (h : d.lookup l = some v) :
    l ∈ d.map Prod.fst := by
  induction d with
  | nil => simp at h
  | cons e d ih =>
    obtain ⟨a, b⟩ := e
    rw [List.lookup_cons] at h
    by_cases hl : l == a
    · simp at hl; simp [hl]
    · simp only [hl] at h; simp [ih h]

theorem sameDiscriminating_iff (d e : PathDict α) : sameDiscriminating d e = true ↔
    ∀ l x y, d.lookup l = some x → e.lookup l = some y → x = y := by
  unfold sameDiscriminating
  rw [List.all_eq_true]
  constructor
  · intro h l x y hx hy
    have := h l (lookup_ne_none hx)
    rw [hx, hy] at this
    simpa using this
  · intro h l _
    cases hx : d.lookup l with
    | none => rfl
    | some x =>
      cases hy : e.lookup l with
      | none => rfl
      | some y => simpa using h l x y hx hy

theorem markovEquivalent_marks (hA : A.Good) (hB : B.Good) (aA : A.mixed.Ancestral) (aB : B.mixed.Ancestral)
    (o1 o2 : DiscOracle α) (srt : Unpack α) :
    ∃ r, A.markovEquivalent o1 o2 srt B = pure ⟨r⟩ ∧ (r = true ↔ A.mixed.SameMarks B.mixed) := by
  obtain ⟨d, hd, kd, ld⟩ := discriminatingPaths_spec hA aA o1
  obtain ⟨e, he, ke, le⟩ := discriminatingPaths_spec hB aB o2
  refine ⟨decide (A.skeleton = B.skeleton) && decide (A.vstructures o1.vstruct srt = B.vstructures o2.vstruct srt) &&
    sameDiscriminating d e, ?_, ?_⟩
  · unfold markovEquivalent; rw [hd, he]; rfl
  · rw [Bool.and_eq_true, Bool.and_eq_true, decide_eq_true_iff, decide_eq_true_iff, skeleton_eq_iff hA hB,
      vstructures_eq_iff hA hB, sameDiscriminating_iff]
    constructor
    · rintro ⟨⟨h1, h2⟩, h3⟩
      refine ⟨h1, h2, fun x qs q b c hm hn => ?_⟩
      have hx := (kd _).2 ⟨x, qs, q, b, c, rfl, hm⟩
      have hy := (ke _).2 ⟨x, qs, q, b, c, rfl, hn⟩
      obtain ⟨vx, hx⟩ := Option.ne_none_iff_exists'.1 hx
      obtain ⟨vy, hy⟩ := Option.ne_none_iff_exists'.1 hy
      rw [← ld _ _ _ _ _ hm, ← le _ _ _ _ _ hn, hx, hy, h3 _ _ _ hx hy]
    · rintro ⟨h1, h2, h3⟩
      refine ⟨⟨h1, h2⟩, fun l vx vy hx hy => ?_⟩
      obtain ⟨x, qs, q, b, c, rfl, hm⟩ := (kd l).1 (by rw [hx]; simp)
      obtain ⟨x', qs', q', b', c', e', hn⟩ := (ke _).1 (by rw [hy]; simp)
      obtain ⟨rfl, e2⟩ := List.cons.inj e'
      obtain ⟨rfl, e3⟩ := List.append_inj' e2 rfl
      simp only [List.cons.injEq, and_true] at e3
      obtain ⟨rfl, rfl, rfl⟩ := e3
      have := h3 _ _ _ _ _ hm hn
      rw [← ld _ _ _ _ _ hm, ← le _ _ _ _ _ hn, hx, hy, Option.some_inj, Option.some_inj] at this
      cases vx <;> cases vy <;> simp_all

theorem markovEquivalent_spec (hA : A.Good) (hB : B.Good) (aA : A.mixed.Ancestral) (aB : B.mixed.Ancestral)
    (mA : A.mixed.Maximal {v | v ∈ A.nodes}) (mB : B.mixed.Maximal {v | v ∈ B.nodes}) (hn : A.nodes = B.nodes)
    (o1 o2 : DiscOracle α) (srt : Unpack α) :
    ∃ r, A.markovEquivalent o1 o2 srt B = pure ⟨r⟩ ∧ (r = true ↔ A.mixed.MarkovEquiv B.mixed {v | v ∈ A.nodes}) := by
  obtain ⟨r, h1, h2⟩ := markovEquivalent_marks hA hB aA aB o1 o2 srt
  refine ⟨r, h1, h2.trans ?_⟩
  rw [← hn] at mB
  exact (Mixed.markovEquiv_iff (hA.anc aA) (hB.anc aB) mA mB (fun x y k => (hA.adj_mem k).1)
    (fun x y k => by rw [hn]; exact (hB.adj_mem k).1)).symm

end AG

end Model
