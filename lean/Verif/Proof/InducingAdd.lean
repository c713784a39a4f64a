import Verif.Proof.Inducing

/-! # Joining two nodes with an inducing path between them by a bidirected edge -/

namespace Spec.Mixed

universe u
variable {α : Type u} {M M' : Mixed α}
open Relation

theorem Ind.symm (h : M.Proper) {i j : α} (hI : M.Ind i j) : M.Ind j i := by
  obtain ⟨v, w, h1, h2, h3, h4⟩ := hI
  have hs : ∀ x, M.Anc2 i j x ↔ M.Anc2 j i x := fun x => or_comm
  have hw : M.Anc2 i j w := by
    rcases ReflTransGen.cases_tail h3 with rfl | ⟨c, -, hc⟩
    · exact h2
    · exact hc.2
  refine ⟨w, v, h4, (hs w).1 hw, ?_, h1⟩
  have : ∀ x, ReflTransGen (fun a b => M.bi a b ∧ M.Anc2 i j b) v x → M.Anc2 i j x ∧
      ReflTransGen (fun a b => M.bi a b ∧ M.Anc2 j i b) x v := by
    intro x hx
    induction hx with
    | refl => exact ⟨h2, .refl⟩
    | tail _ hbc ih => exact ⟨hbc.2, ReflTransGen.head ⟨h.bi_symm _ _ hbc.1, (hs _).1 ih.1⟩ ih.2⟩
  exact (this w h3).2

/-- In an ancestral graph both ends of an inducing path are bidirected and its ends are not related by ancestry. -/
theorem Ind.ends (h : M.Proper) (hA : M.Ancestral) {i j : α} (hI : M.Ind i j) :
    ∃ v w, M.bi i v ∧ Path M.dir v j ∧ TransGen (fun a b => M.bi a b ∧ M.Anc2 i j b) v w ∧ M.bi j w ∧ Path M.dir w i := by
  obtain ⟨v, w, h1, h2, h3, h4⟩ := hI
  have hw : M.Anc2 i j w := by
    rcases ReflTransGen.cases_tail h3 with rfl | ⟨c, -, hc⟩
    · exact h2
    · exact hc.2
  have no : ∀ {a b}, M.Into a b → ¬ Path M.dir b a := by
    rintro a b (k | k) hp
    · exact hA.acyclic a (TransGen.head k hp)
    · exact hA.almost b a (h.bi_symm _ _ k) hp
  have hvj : Path M.dir v j := h2.resolve_left (no h1)
  have hwi : Path M.dir w i := hw.resolve_right (no h4)
  have b1 : M.bi i v := by
    rcases h1 with k | k
    · exact absurd (hwi.trans (TransGen.head k hvj)) (no h4)
    · exact k
  have b2 : M.bi j w := by
    rcases h4 with k | k
    · exact absurd (hvj.trans (TransGen.head k hwi)) (no h1)
    · exact k
  refine ⟨v, w, b1, hvj, ?_, b2, hwi⟩
  rcases reflTransGen_iff_eq_or_transGen.1 h3 with rfl | k
  · exact absurd hwi (no h1)
  · exact k

/-- `M'` is `M` with `i ↔ j` added. -/
structure AddBi (M M' : Mixed α) (i j : α) : Prop where
  dir : ∀ a b, M'.dir a b ↔ M.dir a b
  un : ∀ a b, M'.un a b ↔ M.un a b
  bi : ∀ a b, M'.bi a b ↔ M.bi a b ∨ (a = i ∧ b = j) ∨ (a = j ∧ b = i)

theorem AddBi.dir_eq {i j : α} (h : AddBi M M' i j) : M'.dir = M.dir := by
  funext a b; exact propext (h.dir a b)

theorem AddBi.ind {i j a b : α} (hM : AddBi M M' i j) (hI : M.Ind a b) : M'.Ind a b := by
  obtain ⟨v, w, h1, h2, h3, h4⟩ := hI
  have hi : ∀ x y, M.Into x y → M'.Into x y := fun x y => Or.imp (hM.dir x y).2 (fun k => (hM.bi x y).2 (Or.inl k))
  have ha : ∀ x, M.Anc2 a b x → M'.Anc2 a b x := by
    intro x k; unfold Anc2 at k ⊢; rw [hM.dir_eq]; exact k
  exact ⟨v, w, hi _ _ h1, ha _ h2, path0_mono (fun x y k => ⟨(hM.bi x y).2 (Or.inl k.1), ha _ k.2⟩) h3, hi _ _ h4⟩

theorem AddBi.ancestral (h : M.Proper) (hA : M.Ancestral) {i j : α} (hI : M.Ind i j)
    (hM : AddBi M M' i j) : M'.Ancestral := by
  obtain ⟨v, w, b1, hvj, -, b2, hwi⟩ := hI.ends h hA
  have nij : ¬ Path M.dir i j := fun k => hA.almost w j (h.bi_symm _ _ b2) (hwi.trans k)
  have nji : ¬ Path M.dir j i := fun k => hA.almost v i (h.bi_symm _ _ b1) (hvj.trans k)
  have tail : ∀ {x y}, Path M.dir x y → ∀ z, ¬ M.un y z := by
    intro x y k z hz
    obtain ⟨c, -, hc⟩ := TransGen.tail'_iff.1 k
    exact h.tails y z c hz (Or.inl hc)
  refine ⟨?_, ?_, ?_⟩
  · rw [hM.dir_eq]; exact hA.acyclic
  · intro a b hab
    rw [hM.dir_eq]
    rcases (hM.bi a b).1 hab with k | ⟨rfl, rfl⟩ | ⟨rfl, rfl⟩
    · exact hA.almost a b k
    · exact nij
    · exact nji
  · intro a b c hab hi
    rw [hM.un] at hab
    rcases hi with hi | hi
    · exact h.tails a b c hab (Or.inl ((hM.dir _ _).1 hi))
    · rcases (hM.bi c a).1 hi with k | ⟨rfl, rfl⟩ | ⟨rfl, rfl⟩
      · exact h.tails a b c hab (Or.inr k)
      · exact tail hvj _ hab
      · exact tail hwi _ hab

theorem AddBi.msep (h : M.Proper) (h' : M'.Proper) (hA : M.Ancestral) {i j : α} (hadj : ¬ M.Adj i j) (hI : M.Ind i j)
    (hM : AddBi M M' i j) {A B C : Set α} (hAC : Disjoint A C) : M'.MSep A B C ↔ M.MSep A B C := by
  have hadj' : ¬ M.Adj j i := fun k => hadj (h.ok.symm _ _ k)
  have hadjM : ∀ a b, M'.Adj a b ↔ M.Adj a b ∨ (a = i ∧ b = j) ∨ (a = j ∧ b = i) := by
    intro a b; unfold Adj; rw [hM.dir, hM.dir, hM.un, hM.bi]; tauto
  have hinto : ∀ a b, M.Adj a b → (M'.Into a b ↔ M.Into a b) := by
    intro a b k
    unfold Into
    rw [hM.dir, hM.bi]
    constructor
    · rintro (k' | k' | ⟨rfl, rfl⟩ | ⟨rfl, rfl⟩)
      · exact Or.inl k'
      · exact Or.inr k'
      · exact absurd k hadj
      · exact absurd k hadj'
    · exact Or.imp_right Or.inl
  have hAn : ∀ x, M'.mg.An C x ↔ M.mg.An C x := by
    intro x; unfold MG.An; simp only [mg, hM.dir_eq]
  have mv : ∀ s t, M.Adj s.1 t.1 → (M'.mg.Move C s t ↔ M.mg.Move C s t) := by
    intro s t k
    have k' := h.ok.symm _ _ k
    have e1 : M'.mg.into s.1 t.1 ↔ M.mg.into s.1 t.1 := hinto _ _ k
    have e2 : M'.mg.into t.1 s.1 ↔ M.mg.into t.1 s.1 := hinto _ _ k'
    have e3 : M'.mg.adj s.1 t.1 ↔ M.mg.adj s.1 t.1 := ⟨fun _ => k, fun _ => (hadjM _ _).2 (Or.inl k)⟩
    unfold MG.Move
    rw [e1, e2, e3, hAn]
  -- a move along the new edge
  have new : ∀ {i j : α}, M.Ind i j → M'.Into j i → M'.Into i j → ∀ {d e : Bool}, M'.mg.Move C (i, d) (j, e) →
      ReflTransGen (M.mg.Move C) (i, d) (j, e) := by
    intro i j hI hin hin' d e hm
    obtain ⟨v, w, b1, hvj, hch, b2, -⟩ := hI.ends h hA
    obtain ⟨-, m2, m3, m4⟩ := hm
    have he : e = true := m2.2 hin'
    obtain ⟨e', k1, k2⟩ := inducing_reach h (Z := C) (i := i) (j := j) (v := v) (w := w) (d := d)
      (fun hd => (hAn i).1 (m3 ⟨hd, hin⟩)) (fun hd => m4 (fun k => by simp [hd] at k)) (Or.inr b1) (Or.inr b1) (Or.inr hvj)
      hch.to_reflTransGen (Or.inr b2)
    rw [he, ← k2 (Or.inr (h.bi_symm _ _ b2))]
    exact k1
  have bij : M'.bi i j := (hM.bi i j).2 (Or.inr (Or.inl ⟨rfl, rfl⟩))
  have bji : M'.bi j i := (hM.bi j i).2 (Or.inr (Or.inr ⟨rfl, rfl⟩))
  rw [msep_iff h.ok, msep_iff h'.ok]
  refine forall₂_congr fun a ha => forall₂_congr fun b _ => not_congr ?_
  have haC : a ∉ C := Set.disjoint_left.1 hAC ha
  constructor
  · rintro ⟨l, hl⟩
    obtain ⟨d, hd, -⟩ := MG.moves_of_walk haC l b hl
    have : ∀ s, ReflTransGen (M'.mg.Move C) (a, false) s → ReflTransGen (M.mg.Move C) (a, false) s := by
      intro s hs
      induction hs with
      | refl => exact .refl
      | @tail s t _ hst ih =>
        refine ih.trans ?_
        obtain ⟨s1, s2⟩ := s
        obtain ⟨t1, t2⟩ := t
        rcases (hadjM _ _).1 hst.1 with k | ⟨rfl, rfl⟩ | ⟨rfl, rfl⟩
        · exact .single ((mv _ _ k).1 hst)
        · exact new hI (Or.inr bji) (Or.inr bij) hst
        · exact new (hI.symm h) (Or.inr bij) (Or.inr bji) hst
    obtain ⟨l', hl', -⟩ := MG.walk_of_moves (this _ hd)
    exact ⟨l', hl'⟩
  · rintro ⟨l, hl⟩
    obtain ⟨d, hd, -⟩ := MG.moves_of_walk haC l b hl
    obtain ⟨l', hl', -⟩ := MG.walk_of_moves (path0_mono (fun s t k => (mv s t k.1).2 k) hd)
    exact ⟨l', hl'⟩

/-- Two nodes without an edge have an inducing path between them iff nothing separates them. -/
theorem ind_iff (h : M.Proper) {V : Set α} (hV : ∀ x y, M.Adj x y → x ∈ V) {i j : α} (hij : i ≠ j)
    (hadj : ¬ M.Adj i j) : M.Ind i j ↔ ∀ Z ⊆ V \ {i, j}, ¬ M.MSep {i} {j} Z := by
  constructor
  · intro hI Z hZ
    exact not_msep_of_ind h hI (fun hiZ => (hZ hiZ).2 (by simp))
  · intro hno
    by_contra hI
    refine hno {x | x ∈ V ∧ x ≠ i ∧ x ≠ j ∧ (M.Ant x i ∨ M.Ant x j)} ?_ ?_
    · rintro x ⟨h1, h2, h3, -⟩
      exact ⟨h1, by simp [h2, h3]⟩
    · rintro a rfl b rfl l hl
      refine hI (ind_of_open h hij hadj (l := l)
        (Z := {x | x ∈ V ∧ x ≠ a ∧ x ≠ b ∧ (M.Ant x a ∨ M.Ant x b)}) ?_ (fun x hx => hx.2.2.2)
        ⟨hl.head, hl.last, hl.adj, hl.opn⟩ hl.nodup)
      rintro x h1 h2 h3 ⟨y, hy⟩
      exact ⟨hV x y hy, h1, h2, h3⟩

end Spec.Mixed
