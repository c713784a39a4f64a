import Verif.Proof.Inducing
import Mathlib.Data.Set.Card

/-! # Taking one edge away from a maximal ancestral graph -/

namespace Spec.Mixed

universe u
variable {α : Type u} {M N P : Mixed α}
open Relation

theorem Ind.symm (h : M.Proper) {i j : α} : M.Ind i j → M.Ind j i := by
  have swap : ∀ {x}, M.Anc2 i j x → M.Anc2 j i x := fun k => Or.symm k
  rintro ⟨v, w, h1, h2, h3, h4⟩
  have : ReflTransGen (fun a b => M.bi a b ∧ M.Anc2 j i b) w v ∧ M.Anc2 j i w := by
    clear h4
    induction h3 with
    | refl => exact ⟨.refl, swap h2⟩
    | tail _ k ih => 
      refine ⟨ReflTransGen.head ⟨h.bi_symm _ _ k.1, ih.2⟩ ih.1, swap k.2⟩
  exact ⟨w, v, h4, this.2, this.1, h1⟩

theorem Ind.mono (hd : ∀ x y, N.dir x y → M.dir x y) (hb : ∀ x y, N.bi x y → M.bi x y) {i j : α} : N.Ind i j → M.Ind i j := by
  have ha : ∀ x, N.Anc2 i j x → M.Anc2 i j x := fun x k => k.imp (fun q => TransGen.mono hd _ _ q) fun q => TransGen.mono hd _ _ q
  have hi : ∀ {x y}, N.Into x y → M.Into x y := fun k => k.imp (hd _ _) (hb _ _)
  rintro ⟨v, w, h1, h2, h3, h4⟩
  exact ⟨v, w, hi h1, ha _ h2, path0_mono (fun _ _ k => ⟨hb _ _ k.1, ha _ k.2⟩) h3, hi h4⟩

/-- No inducing path with inner nodes joins a node and a descendant of it. -/
theorem not_ind_of_path (h : M.Ancestral) (hp : M.Proper) {a b : α} (hab : Path M.dir a b) : ¬ M.Ind a b := by
  rintro ⟨v, w, h1, h2, h3, h4⟩
  have hw : M.Anc2 a b w := by
    rcases ReflTransGen.cases_tail h3 with e | ⟨_, -, k⟩
    · rwa [e]
    · exact k.2
  have hw' : Path M.dir w b := hw.elim (fun k => k.trans hab) id
  rcases h4 with k | k
  · exact h.acyclic _ ((TransGen.single k).trans hw')
  · exact h.almost _ _ (hp.bi_symm _ _ k) hw'

theorem Proper.sub (h : M.Proper) (hd : ∀ x y, N.dir x y → M.dir x y) (hb : ∀ x y, N.bi x y → M.bi x y)
    (hs : ∀ x y, N.bi x y → N.bi y x) (hu : ∀ x y, N.un x y ↔ M.un x y) : N.Proper where
  bi_symm := hs
  un_symm _ _ k := (hu _ _).2 (h.un_symm _ _ ((hu _ _).1 k))
  tails u v w k hi := h.tails u v w ((hu _ _).1 k) (hi.imp (hd _ _) (hb _ _))
  excl u v k hi := h.excl u v (hd _ _ k) (hi.imp (hd _ _) (hb _ _))

/-- Taking away a directed edge keeps a maximal ancestral graph maximal. -/
theorem maximal_del_dir (h : M.Ancestral) (hp : M.Proper) {V : Set α} (hV : ∀ x y, M.Adj x y → x ∈ V) (hmax : M.Maximal V)
    {a b : α} (hd : ∀ x y, N.dir x y ↔ M.dir x y ∧ ¬ (x = a ∧ y = b)) (hb : ∀ x y, N.bi x y ↔ M.bi x y)
    (hu : ∀ x y, N.un x y ↔ M.un x y) : N.Maximal V := by
  have hN : N.Proper := hp.sub (fun x y k => ((hd x y).1 k).1) (fun x y k => (hb x y).1 k)
    (fun x y k => (hb _ _).2 (hp.bi_symm _ _ ((hb _ _).1 k))) hu
  have hadj : ∀ x y, N.Adj x y → M.Adj x y := by
    rintro x y (k | k | k | k)
    · exact Or.inl ((hd _ _).1 k).1
    · exact Or.inr (Or.inl ((hd _ _).1 k).1)
    · exact Or.inr (Or.inr (Or.inl ((hb _ _).1 k)))
    · exact Or.inr (Or.inr (Or.inr ((hu _ _).1 k)))
  rw [maximal_iff hp hV] at hmax
  rw [maximal_iff hN fun x y k => hV x y (hadj x y k)]
  intro i hi j hj hij hn hI
  have hI' := hI.mono (M := M) (fun x y k => ((hd x y).1 k).1) fun x y k => (hb x y).1 k
  by_cases hMadj : M.Adj i j
  · rcases hMadj with k | k | k | k
    · exact not_ind_of_path h hp (.single k) hI'
    · exact not_ind_of_path h hp (.single k) (hI'.symm hp)
    · exact hn (Or.inr (Or.inr (Or.inl ((hb _ _).2 k))))
    · exact hn (Or.inr (Or.inr (Or.inr ((hu _ _).2 k))))
  · exact hmax i hi j hj hij hMadj hI'

/-- If a maximal graph has all the edges but some bidirected ones, then one of these can be taken away. -/
theorem maximal_del_bi (h : M.Ancestral) (hp : M.Proper) {V : Set α} (hfin : V.Finite)
    (hV : ∀ x y, M.Adj x y → x ∈ V) (hmax : M.Maximal V) (hP : P.Proper)
    (hPmax : P.Maximal V) (hd : ∀ x y, P.dir x y ↔ M.dir x y) (hb : ∀ x y, P.bi x y → M.bi x y)
    (hu : ∀ x y, P.un x y ↔ M.un x y) (hne : ∃ x y, M.bi x y ∧ ¬ P.bi x y) (hirr : ∀ x, ¬ M.bi x x) :
    ∃ p q, M.bi p q ∧ ¬ P.bi p q ∧ ∀ N : Mixed α, (∀ x y, N.dir x y ↔ M.dir x y) →
      (∀ x y, N.bi x y ↔ M.bi x y ∧ ¬ ((x = p ∧ y = q) ∨ (x = q ∧ y = p))) → (∀ x y, N.un x y ↔ M.un x y) → N.Maximal V := by
  classical
  have hVb : ∀ {x y}, M.bi x y → x ∈ V := fun k => hV _ _ (Or.inr (Or.inr (Or.inl k)))
  have hVd : ∀ {x y}, M.dir x y → x ∈ V := fun k => hV _ _ (Or.inl k)
  let an : α × α → Set α := fun e => {x | Path0 M.dir x e.1 ∨ Path0 M.dir x e.2}
  have han : ∀ e : α × α, M.bi e.1 e.2 → an e ⊆ V := by
    rintro ⟨p, q⟩ hpq x (k | k)
    · rcases ReflTransGen.cases_head k with rfl | ⟨y, k, -⟩
      · exact hVb hpq
      · exact hVd k
    · rcases ReflTransGen.cases_head k with rfl | ⟨y, k, -⟩
      · exact hVb (hp.bi_symm _ _ hpq)
      · exact hVd k
  obtain ⟨⟨p, q⟩, ⟨hpq, hPpq⟩, hmin⟩ : ∃ e : α × α, (M.bi e.1 e.2 ∧ ¬ P.bi e.1 e.2) ∧
      ∀ f : α × α, M.bi f.1 f.2 ∧ ¬ P.bi f.1 f.2 → ¬ Set.ncard (an f) < Set.ncard (an e) := by
    obtain ⟨x, y, hxy⟩ := hne
    obtain ⟨e, he, hm⟩ := WellFounded.has_min (measure fun e : α × α => Set.ncard (an e)).wf
      {e : α × α | M.bi e.1 e.2 ∧ ¬ P.bi e.1 e.2} ⟨(x, y), hxy⟩
    exact ⟨e, he, fun f hf k => hm f hf k⟩
  have hqp := hp.bi_symm _ _ hpq
  have hne' : p ≠ q := by rintro rfl; exact hirr _ hpq
  refine ⟨p, q, hpq, hPpq, fun N hNd hNb hNu => ?_⟩
  have hN : N.Proper := hp.sub (fun x y k => (hNd x y).1 k) (fun x y k => ((hNb x y).1 k).1) (by
    intro x y k
    obtain ⟨k1, k2⟩ := (hNb x y).1 k
    refine (hNb y x).2 ⟨hp.bi_symm _ _ k1, ?_⟩
    rintro (⟨r, s⟩ | ⟨r, s⟩)
    · exact k2 (Or.inr ⟨s, r⟩)
    · exact k2 (Or.inl ⟨s, r⟩)) hNu
  have hadj : ∀ x y, N.Adj x y → M.Adj x y := by
    rintro x y (k | k | k | k)
    · exact Or.inl ((hNd _ _).1 k)
    · exact Or.inr (Or.inl ((hNd _ _).1 k))
    · exact Or.inr (Or.inr (Or.inl ((hNb _ _).1 k).1))
    · exact Or.inr (Or.inr (Or.inr ((hNu _ _).1 k)))
  have hPadj : ∀ x y, P.Adj x y → M.Adj x y := by
    rintro x y (k | k | k | k)
    · exact Or.inl ((hd _ _).1 k)
    · exact Or.inr (Or.inl ((hd _ _).1 k))
    · exact Or.inr (Or.inr (Or.inl (hb _ _ k)))
    · exact Or.inr (Or.inr (Or.inr ((hu _ _).1 k)))
  rw [maximal_iff hp hV] at hmax
  rw [maximal_iff hP fun x y k => hV x y (hPadj x y k)] at hPmax
  rw [maximal_iff hN fun x y k => hV x y (hadj x y k)]
  -- the pair itself
  have main : ¬ N.Ind p q := by
    rintro ⟨v, w, h1, h2, h3, h4⟩
    have ePath : ∀ {x y}, Path N.dir x y ↔ Path M.dir x y := 
      ⟨fun q => TransGen.mono (fun _ _ k => (hNd _ _).1 k) _ _ q, fun q => TransGen.mono (fun _ _ k => (hNd _ _).2 k) _ _ q⟩
    have ePath' : ∀ {x y}, Path P.dir x y ↔ Path M.dir x y := 
      ⟨fun q => TransGen.mono (fun _ _ k => (hd _ _).1 k) _ _ q, fun q => TransGen.mono (fun _ _ k => (hd _ _).2 k) _ _ q⟩
    have eAnc : ∀ {x}, N.Anc2 p q x ↔ M.Anc2 p q x := or_congr ePath ePath
    have eAnc' : ∀ {x}, P.Anc2 p q x ↔ M.Anc2 p q x := or_congr ePath' ePath'
    have noP : ∀ {x}, M.Anc2 p q x → ¬ Path0 M.dir p x := by
      rintro x (k | k) k'
      · exact h.acyclic _ (TransGen.trans_right k' k)
      · exact h.almost _ _ hpq (TransGen.trans_right k' k)
    have noQ : ∀ {x}, M.Anc2 p q x → ¬ Path0 M.dir q x := by
      rintro x (k | k) k'
      · exact h.almost _ _ hqp (TransGen.trans_right k' k)
      · exact h.acyclic _ (TransGen.trans_right k' k)
    have noPQ : ¬ Path0 M.dir p q := fun k => h.almost _ _ hpq ((reflTransGen_iff_eq_or_transGen.1 k).resolve_left (Ne.symm hne'))
    have noQP : ¬ Path0 M.dir q p := fun k => h.almost _ _ hqp ((reflTransGen_iff_eq_or_transGen.1 k).resolve_left hne')
    have anc0 : ∀ {x y}, M.Anc2 p q y → Path0 M.dir x y → Path0 M.dir x p ∨ Path0 M.dir x q := by
      rintro x y (k | k) k'
      · exact Or.inl (k'.trans k.to_reflTransGen)
      · exact Or.inr (k'.trans k.to_reflTransGen)
    have small : ∀ f : α × α, M.bi f.1 f.2 → an f ⊆ an (p, q) → (∃ z, z ∈ an (p, q) ∧ z ∉ an f) → P.bi f.1 f.2 := by
      intro f hf hsub hz
      by_contra k
      exact hmin f ⟨hf, k⟩ (Set.ncard_lt_ncard (Set.ssubset_iff_exists.2 ⟨hsub, hz⟩) (hfin.subset (han _ hpq)))
    have mid : ∀ {c d}, M.Anc2 p q c → M.Anc2 p q d → M.bi c d → P.bi c d := by
      intro c d hc hd' hcd
      refine small (c, d) hcd ?_ ⟨p, Or.inl .refl, ?_⟩
      · rintro x (k | k)
        · exact anc0 hc k
        · exact anc0 hd' k
      · rintro (k | k)
        · exact noP hc k
        · exact noP hd' k
    have endP : ∀ {d}, M.Anc2 p q d → M.bi p d → P.bi p d := by
      intro d hd' hcd
      refine small (p, d) hcd ?_ ⟨q, Or.inr .refl, ?_⟩
      · rintro x (k | k)
        · exact Or.inl k
        · exact anc0 hd' k
      · rintro (k | k)
        · exact noQP k
        · exact noQ hd' k
    have endQ : ∀ {d}, M.Anc2 p q d → M.bi q d → P.bi q d := by
      intro d hd' hcd
      refine small (q, d) hcd ?_ ⟨p, Or.inl .refl, ?_⟩
      · rintro x (k | k)
        · exact Or.inr k
        · exact anc0 hd' k
      · rintro (k | k)
        · exact noPQ k
        · exact noP hd' k
    have chain : M.Anc2 p q w ∧ ReflTransGen (fun a b => P.bi a b ∧ P.Anc2 p q b) v w := by
      clear h4
      induction h3 with
      | refl => exact ⟨eAnc.1 h2, .refl⟩
      | tail _ k ih => exact ⟨eAnc.1 k.2, ih.2.tail ⟨mid ih.1 (eAnc.1 k.2) ((hNb _ _).1 k.1).1, eAnc'.2 (eAnc.1 k.2)⟩⟩
    refine hPmax p (hVb hpq) q (hVb hqp) hne' ?_ ⟨v, w, ?_, eAnc'.2 (eAnc.1 h2), chain.2, ?_⟩
    · rintro (k | k | k | k)
      · exact h.almost _ _ hpq (.single ((hd _ _).1 k))
      · exact h.almost _ _ hqp (.single ((hd _ _).1 k))
      · exact hPpq k
      · exact h.tails _ _ q ((hu _ _).1 k) (Or.inr hqp)
    · rcases h1 with k | k
      · exact Or.inl ((hd _ _).2 ((hNd _ _).1 k))
      · exact Or.inr (endP (eAnc.1 h2) ((hNb _ _).1 k).1)
    · rcases h4 with k | k
      · exact Or.inl ((hd _ _).2 ((hNd _ _).1 k))
      · exact Or.inr (endQ chain.1 ((hNb _ _).1 k).1)
  intro i hi j hj hij hn hI
  by_cases hMadj : M.Adj i j
  · rcases hMadj with k | k | k | k
    · exact hn (Or.inl ((hNd _ _).2 k))
    · exact hn (Or.inr (Or.inl ((hNd _ _).2 k)))
    · by_cases c : (i = p ∧ j = q) ∨ (i = q ∧ j = p)
      · rcases c with ⟨rfl, rfl⟩ | ⟨rfl, rfl⟩
        · exact main hI
        · exact main (hI.symm hN)
      · exact hn (Or.inr (Or.inr (Or.inl ((hNb _ _).2 ⟨k, c⟩))))
    · exact hn (Or.inr (Or.inr (Or.inr ((hNu _ _).2 k))))
  · exact hmax i hi j hj hij hMadj (hI.mono (fun x y k => (hNd x y).1 k) fun x y k => ((hNb x y).1 k).1)

/-- Fewer edges, more separations. -/
theorem msep_sub (h : M.Proper) (hN : N.Proper) (hd : ∀ x y, N.dir x y → M.dir x y) (hb : ∀ x y, N.bi x y → M.bi x y)
    (hu : ∀ x y, N.un x y → M.un x y) {A B C : Set α} (hs : M.MSep A B C) : N.MSep A B C := by
  have hadj : ∀ {x y}, N.Adj x y → M.Adj x y := by
    rintro x y (k | k | k | k)
    · exact Or.inl (hd _ _ k)
    · exact Or.inr (Or.inl (hd _ _ k))
    · exact Or.inr (Or.inr (Or.inl (hb _ _ k)))
    · exact Or.inr (Or.inr (Or.inr (hu _ _ k)))
  have hinto : ∀ {x y}, N.Adj x y → (N.Into x y ↔ M.Into x y) := by
    intro x y k
    refine ⟨fun q => q.imp (hd _ _) (hb _ _), fun q => ?_⟩
    rcases k with k | k | k | k
    · exact Or.inl k
    · exact absurd q (h.excl _ _ (hd _ _ k))
    · exact Or.inr k
    · exact absurd q (h.tails _ _ _ (h.un_symm _ _ (hu _ _ k)))
  intro a ha b hb' l hl
  refine hs a ha b hb' l ⟨hl.head, hl.last, hl.nodup, fun u v k => hadj (hl.adj u v k), fun u v w k => ?_⟩
  obtain ⟨k1, k2⟩ := hl.opn u v w k
  have a1 : N.Adj u v := hl.adj u v (List.IsInfix.trans ⟨[], [w], rfl⟩ k)
  have a2 : N.Adj v w := hl.adj v w (List.IsInfix.trans ⟨[u], [], rfl⟩ k)
  have a3 : N.Adj w v := hN.ok.symm _ _ a2
  rw [hinto a1, hinto a3] at k1 k2
  refine ⟨fun q => ?_, k2⟩
  obtain ⟨c, hc, hp⟩ := k1 q
  exact ⟨c, hc, path0_mono hd hp⟩

end Spec.Mixed
