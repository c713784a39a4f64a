import Verif.Proof.InducingAdd

/-!
# Marginalising a mixed graph without undirected edges

Segments are walks of the graph with marks at their ends; `P` is what is known of their inner colliders, `Q` what is known of
their other inner nodes.
-/

namespace Spec.Mixed

universe u
variable {α : Type u} {G H : Mixed α}
open Relation

/-- A walk from `u` to `v`; `m`, `e` tell whether it has an arrowhead at `u`, at `v`. -/
inductive Seg (G : Mixed α) (P Q : α → Prop) : α → Bool → α → Bool → Prop
  | edge {u v : α} {m e : Bool} : G.Adj u v → (m = true ↔ G.Into v u) → (e = true ↔ G.Into u v) → Seg G P Q u m v e
  | join {u x v : α} {m e m' e' : Bool} : Seg G P Q u m x e → Seg G P Q x m' v e' → (e = true ∧ m' = true → P x) →
      (¬ (e = true ∧ m' = true) → Q x) → Seg G P Q u m v e'

theorem Seg.mono {P P' Q Q' : α → Prop} (hP : ∀ x, P x → P' x) (hQ : ∀ x, Q x → Q' x) {u v : α} {m e : Bool}
    (h : Seg G P Q u m v e) : Seg G P' Q' u m v e := by
  induction h with
  | edge h1 h2 h3 => exact .edge h1 h2 h3
  | join _ _ h3 h4 ih1 ih2 => exact .join ih1 ih2 (fun k => hP _ (h3 k)) (fun k => hQ _ (h4 k))

/-- Proper, ancestral and without undirected edges. -/
structure Nice (G : Mixed α) : Prop where
  proper : G.Proper
  anc : G.Ancestral
  no_un : ∀ u v, ¬ G.un u v

theorem Nice.no_into (h : G.Nice) {a b : α} (k : G.Into a b) : ¬ Path G.dir b a := by
  intro hp
  rcases k with k | k
  · exact h.anc.acyclic a (TransGen.head k hp)
  · exact h.anc.almost b a (h.proper.bi_symm _ _ k) hp

theorem Nice.dir_of_tail (h : G.Nice) {a b : α} (k : G.Adj a b) (hn : ¬ G.Into b a) : G.dir a b := by
  rcases k with k | k | k | k
  · exact k
  · exact absurd (Or.inl k) hn
  · exact absurd (Or.inr (h.proper.bi_symm _ _ k)) hn
  · exact absurd k (h.no_un _ _)

theorem Nice.into_iff (h : G.Nice) {a b : α} (k : G.Adj a b) : G.Into a b ↔ ¬ Path G.dir b a :=
  ⟨h.no_into, fun hp => by
    by_contra hn
    exact hp (.single (h.dir_of_tail (h.proper.ok.symm _ _ k) hn))⟩

theorem Seg.symm (h : G.Nice) {P Q : α → Prop} {u v : α} {m e : Bool} (k : Seg G P Q u m v e) : Seg G P Q v e u m := by
  induction k with
  | edge h1 h2 h3 => exact .edge (h.proper.ok.symm _ _ h1) h3 h2
  | join _ _ h3 h4 ih1 ih2 => exact .join ih2 ih1 (fun k => h3 k.symm) (fun k => h4 fun k' => k k'.symm)

/-- `x` is `i` or `j` or an ancestor of one of them. -/
def An0 (G : Mixed α) (i j x : α) : Prop := Path0 G.dir x i ∨ Path0 G.dir x j

theorem An0.symm {i j x : α} (h : G.An0 i j x) : G.An0 j i x := Or.symm h

theorem path_an0 {i j x y : α} (h : Path G.dir x y) (k : G.An0 i j y) : Path G.dir x i ∨ Path G.dir x j := by
  rcases k with k | k
  · exact Or.inl (TransGen.trans_left h k)
  · exact Or.inr (TransGen.trans_left h k)

theorem path0_an0 {i j x y : α} (h : Path0 G.dir x y) (k : G.An0 i j y) : G.An0 i j x :=
  k.imp (fun k => ReflTransGen.trans h k) (fun k => ReflTransGen.trans h k)

/-- What a tail at an end of a segment says about ancestors. -/
theorem Seg.tails (h : G.Nice) {P Q : α → Prop} {i j : α} (hP : ∀ x, P x → G.An0 i j x) {u v : α} {m e : Bool}
    (k : Seg G P Q u m v e) :
    (m = false → Path G.dir u v ∨ Path G.dir u i ∨ Path G.dir u j) ∧
    (e = false → Path G.dir v u ∨ Path G.dir v i ∨ Path G.dir v j) := by
  induction k with
  | edge h1 h2 h3 =>
    refine ⟨fun hm => Or.inl (.single (h.dir_of_tail h1 fun k => ?_)),
      fun he => Or.inl (.single (h.dir_of_tail (h.proper.ok.symm _ _ h1) fun k => ?_))⟩
    · rw [h2.2 k] at hm; cases hm
    · rw [h3.2 k] at he; cases he
  | @join u x v m e m' e' _ _ h3 h4 ih1 ih2 =>
    constructor
    · intro hm
      rcases ih1.1 hm with k | k
      · cases hm' : m' with
        | false =>
          rcases ih2.1 hm' with k' | k' | k'
          · exact Or.inl (k.trans k')
          · exact Or.inr (Or.inl (k.trans k'))
          · exact Or.inr (Or.inr (k.trans k'))
        | true =>
          cases he : e with
          | true => exact Or.inr (path_an0 k (hP x (h3 ⟨he, hm'⟩)))
          | false =>
            rcases ih1.2 he with k' | k' | k'
            · exact absurd (k.trans k') (h.anc.acyclic _)
            · exact Or.inr (Or.inl (k.trans k'))
            · exact Or.inr (Or.inr (k.trans k'))
      · exact Or.inr k
    · intro he'
      rcases ih2.2 he' with k | k
      · cases he : e with
        | false =>
          rcases ih1.2 he with k' | k' | k'
          · exact Or.inl (k.trans k')
          · exact Or.inr (Or.inl (k.trans k'))
          · exact Or.inr (Or.inr (k.trans k'))
        | true =>
          cases hm' : m' with
          | true => exact Or.inr (path_an0 k (hP x (h3 ⟨he, hm'⟩)))
          | false =>
            rcases ih2.1 hm' with k' | k' | k'
            · exact absurd (k.trans k') (h.anc.acyclic _)
            · exact Or.inr (Or.inl (k.trans k'))
            · exact Or.inr (Or.inr (k.trans k'))
      · exact Or.inr k

/-- An inducing walk relative to `L` with its marks. -/
def IS (G : Mixed α) (L : Set α) (i : α) (m : Bool) (j : α) (e : Bool) : Prop := Seg G (G.An0 i j) (· ∈ L) i m j e

theorem IS.symm (h : G.Nice) {L : Set α} {i j : α} {m e : Bool} (k : G.IS L i m j e) : G.IS L j e i m :=
  (Seg.symm h k).mono (fun _ => An0.symm) (fun _ => id)

theorem IS.tail_left (h : G.Nice) {L : Set α} {i j : α} {e : Bool} (k : G.IS L i false j e) : Path G.dir i j := by
  rcases (Seg.tails h (fun _ => id) k).1 rfl with k | k | k
  · exact k
  · exact absurd k (h.anc.acyclic _)
  · exact k

theorem IS.tail_right (h : G.Nice) {L : Set α} {i j : α} {m : Bool} (k : G.IS L i m j false) : Path G.dir j i :=
  (k.symm h).tail_left h

theorem IS.head_left (h : G.Nice) {L : Set α} {i j : α} {m e : Bool} (k : G.IS L i m j e) (hn : ¬ Path G.dir i j) :
    m = true := by
  cases m with
  | true => rfl
  | false => exact absurd (k.tail_left h) hn

theorem IS.head_right (h : G.Nice) {L : Set α} {i j : α} {m e : Bool} (k : G.IS L i m j e) (hn : ¬ Path G.dir j i) :
    e = true := (k.symm h).head_left h hn

/-- There is an inducing walk relative to `L`. -/
def IndL (G : Mixed α) (L : Set α) (i j : α) : Prop := ∃ m e, G.IS L i m j e

theorem IndL.symm (h : G.Nice) {L : Set α} {i j : α} (k : G.IndL L i j) : G.IndL L j i := by
  obtain ⟨m, e, k⟩ := k; exact ⟨e, m, k.symm h⟩

open Classical in
theorem IndL.of_adj {L : Set α} {i j : α} (k : G.Adj i j) : G.IndL L i j :=
  ⟨decide (G.Into j i), decide (G.Into i j), .edge k (by simp) (by simp)⟩

/-! ## From a graph with shortcuts back to the original one -/

/-- `H` has only edges along inducing walks of `G`, oriented by ancestry in `G`. -/
structure Shortcut (G H : Mixed α) (L : Set α) : Prop where
  ind : ∀ i j, H.Adj i j → G.IndL L i j
  into : ∀ i j, H.Adj i j → (H.Into i j ↔ ¬ Path G.dir j i)

theorem Shortcut.move (h : G.Nice) {L C : Set α} (hS : Shortcut G H L) (hC : Disjoint C L)
    (hsym : ∀ i j, H.Adj i j → H.Adj j i)
    (hAn : ∀ x, H.mg.An C x → G.mg.An C x) {i j : α} {d e d' : Bool} (hm : H.mg.Move C (i, d) (j, e))
    (hd : d = d' ∨ (d = false ∧ d' = true ∧ G.mg.An C i)) :
    ∃ e', ReflTransGen (G.mg.Move C) (i, d') (j, e') ∧ (e = e' ∨ (e = false ∧ e' = true ∧ G.mg.An C j)) := by
  classical
  obtain ⟨hadj, he, hcol, hnon⟩ := hm
  change H.Adj i j at hadj
  have hij := hS.into i j hadj
  have hji := hS.into j i (hsym _ _ hadj)
  change e = true ↔ H.Into i j at he
  change d = true ∧ H.Into j i → _ at hcol
  change ¬ (d = true ∧ H.Into j i) → i ∉ C at hnon
  rw [hij] at he
  rw [hji] at hcol hnon
  by_cases hA : ¬ G.mg.An C i ∧ Path G.dir i j
  · refine ⟨true, go_down h.proper hA.2 hA.1 d', Or.inl (he.2 fun k => h.anc.acyclic i (hA.2.trans k))⟩
  · -- what is known at the start
    have u1 : d' = true → G.mg.An C i := by
      intro hd'
      rcases hd with rfl | ⟨-, -, k⟩
      · by_contra hn
        exact hn (hAn _ (hcol ⟨hd', fun k => hA ⟨hn, k⟩⟩))
      · exact k
    have u2 : d' = false → i ∉ C := by
      intro hd'
      rcases hd with rfl | ⟨-, k, -⟩
      · exact hnon (by simp [hd'])
      · rw [hd'] at k; cases k
    obtain ⟨m, e0, hseg⟩ := hS.ind i j hadj
    have main : ∀ {u v : α} {m e : Bool}, Seg G (G.An0 i j) (· ∈ L) u m v e → ∀ f,
        ReflTransGen (G.mg.Move C) (i, d') (u, f) → (f = true ∧ m = true → G.mg.An C u) →
        (¬ (f = true ∧ m = true) → u ∉ C) →
        ReflTransGen (G.mg.Move C) (i, d') (j, true) ∨ ReflTransGen (G.mg.Move C) (i, d') (v, e) := by
      intro u v m e hs
      induction hs with
      | @edge u v m e h1 h2 h3 =>
        intro f hr p1 p2
        refine Or.inr (hr.tail ⟨h1, h3, ?_, ?_⟩)
        · rintro ⟨k1, k2⟩; exact p1 ⟨k1, h2.2 k2⟩
        · intro k; exact p2 fun k' => k ⟨k'.1, h2.1 k'.2⟩
      | @join u x v m e m' e' _ _ h3 h4 ih1 ih2 =>
        intro f hr p1 p2
        rcases ih1 f hr p1 p2 with k | k
        · exact Or.inl k
        · by_cases hc : e = true ∧ m' = true
          · by_cases hx : G.mg.An C x
            · exact ih2 e k (fun _ => hx) (fun hn => absurd hc hn)
            · rcases h3 hc with hp | hp
              · have hd' : d' = false := by
                  cases hd' : d' with
                  | false => rfl
                  | true =>
                    obtain ⟨c, hc, hic⟩ := u1 hd'
                    exact absurd ⟨c, hc, ReflTransGen.trans hp hic⟩ hx
                have hr' : ReflTransGen (G.mg.Move C) (i, d') (x, false) := by
                  rcases reflTransGen_iff_eq_or_transGen.1 hp with rfl | hp
                  · rw [hd']
                  · rw [hd']; exact go_up h.proper hp hx
                refine ih2 false hr' (by simp) fun _ hxC => hx ⟨x, hxC, .refl⟩
              · rcases reflTransGen_iff_eq_or_transGen.1 hp with rfl | hp
                · rw [hc.1] at k; exact Or.inl k
                · exact Or.inl (k.trans (go_down h.proper hp hx e))
          · refine ih2 e k (fun hn => absurd hn hc) fun _ hxC => ?_
            exact Set.disjoint_left.1 hC hxC (h4 hc)
    have hstart2 : ¬ (d' = true ∧ m = true) → i ∉ C := by
      intro hn
      cases hd' : d' with
      | false => exact u2 hd'
      | true =>
        have hm : m = false := by cases m <;> simp_all
        rw [hm] at hseg
        have := IS.tail_left h hseg
        exact hnon fun k => k.2 this
    have fin : ∀ e', ReflTransGen (G.mg.Move C) (i, d') (j, e') → (e = true → e' = true) →
        ∃ e', ReflTransGen (G.mg.Move C) (i, d') (j, e') ∧ (e = e' ∨ (e = false ∧ e' = true ∧ G.mg.An C j)) := by
      intro e' hr hee
      cases hev : e with
      | true => exact ⟨e', hr, Or.inl (hee hev).symm⟩
      | false =>
        cases he' : e' with
        | false => rw [he'] at hr; exact ⟨false, hr, Or.inl rfl⟩
        | true =>
          rw [he'] at hr
          by_cases hj : G.mg.An C j
          · exact ⟨true, hr, Or.inr ⟨rfl, rfl, hj⟩⟩
          · have hp : Path G.dir j i := by
              by_contra hn
              rw [he.2 hn] at hev; cases hev
            have hd' : d' = false := by
              cases hd' : d' with
              | false => rfl
              | true =>
                obtain ⟨c, hc, hic⟩ := u1 hd'
                exact absurd ⟨c, hc, ReflTransGen.trans hp.to_reflTransGen hic⟩ hj
            refine ⟨false, ?_, Or.inl rfl⟩
            rw [hd']; exact go_up h.proper hp hj
    rcases main hseg d' .refl (fun k => u1 k.1) hstart2 with k | k
    · exact fin true k fun _ => rfl
    · exact fin e0 k fun hev => IS.head_right h hseg (he.1 hev)

theorem Shortcut.active (h : G.Nice) {L C : Set α} (hS : Shortcut G H L) (hC : Disjoint C L)
    (hsym : ∀ i j, H.Adj i j → H.Adj j i) (hAn : ∀ x, H.mg.An C x → G.mg.An C x) {a b : α} {d : Bool}
    (hm : ReflTransGen (H.mg.Move C) (a, false) (b, d)) :
    ∃ d', ReflTransGen (G.mg.Move C) (a, false) (b, d') := by
  have : ∀ s, ReflTransGen (H.mg.Move C) (a, false) s → ∃ d', ReflTransGen (G.mg.Move C) (a, false) (s.1, d') ∧
      (s.2 = d' ∨ (s.2 = false ∧ d' = true ∧ G.mg.An C s.1)) := by
    intro s hs
    induction hs with
    | refl => exact ⟨false, .refl, Or.inl rfl⟩
    | @tail s t _ hst ih =>
      obtain ⟨d', h1, h2⟩ := ih
      obtain ⟨e', h3, h4⟩ := hS.move h hC hsym hAn (i := s.1) (j := t.1) (d := s.2) (e := t.2) hst h2
      exact ⟨e', h1.trans h3, h4⟩
  obtain ⟨d', h1, -⟩ := this _ hm
  exact ⟨d', h1⟩

end Spec.Mixed
