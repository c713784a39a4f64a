import Verif.Proof.MSep

/-! # Inducing paths and maximality of mixed graphs -/

namespace Spec.Mixed

universe u
variable {α : Type u} {M : Mixed α}
open Relation

/-- What is needed of the graph here. -/
structure Proper (M : Mixed α) : Prop where
  bi_symm : ∀ u v, M.bi u v → M.bi v u
  un_symm : ∀ u v, M.un u v → M.un v u
  tails : ∀ u v w, M.un u v → ¬ M.Into w u
  excl : ∀ u v, M.dir u v → ¬ M.Into v u

theorem Proper.ok (h : M.Proper) : M.mg.Ok := mg_ok h.bi_symm h.un_symm h.tails

/-- `x` is an ancestor of `i` or of `j`. -/
def Anc2 (M : Mixed α) (i j x : α) : Prop := Path M.dir x i ∨ Path M.dir x j

/-- There is an inducing path (with empty set) between `i` and `j`. -/
def Ind (M : Mixed α) (i j : α) : Prop :=
  ∃ v w, M.Into i v ∧ M.Anc2 i j v ∧ ReflTransGen (fun a b => M.bi a b ∧ M.Anc2 i j b) v w ∧ M.Into j w

theorem go_down (h : M.Proper) {Z : Set α} {x y : α} (hp : Path M.dir x y) :
    ¬ M.mg.An Z x → ∀ d, ReflTransGen (M.mg.Move Z) (x, d) (y, true) := by
  have step : ∀ {a b}, M.dir a b → ¬ M.mg.An Z a → ∀ d, M.mg.Move Z (a, d) (b, true) := by
    intro a b hab hn d
    refine ⟨Or.inl hab, ⟨fun _ => Or.inl hab, fun _ => rfl⟩, ?_, ?_⟩
    · rintro ⟨-, hi⟩; exact absurd hi (h.excl _ _ hab)
    · intro _ hZ; exact hn ⟨a, hZ, .refl⟩
  have keep : ∀ {a b}, M.dir a b → ¬ M.mg.An Z a → ¬ M.mg.An Z b := by
    rintro a b hab hn ⟨c, hc, hbc⟩; exact hn ⟨c, hc, ReflTransGen.head hab hbc⟩
  induction hp using TransGen.head_induction_on with
  | single hab => intro hn d; exact .single (step hab hn d)
  | head hab _ ih => intro hn d; exact ReflTransGen.head (step hab hn d) (ih (keep hab hn) true)

theorem go_up (h : M.Proper) {Z : Set α} {x i : α} (hp : Path M.dir x i) (hn : ¬ M.mg.An Z x) :
    ReflTransGen (M.mg.Move Z) (i, false) (x, false) := by
  have not_an : ∀ {b}, Path0 M.dir x b → ¬ M.mg.An Z b := by
    rintro b hb ⟨c, hc, hbc⟩; exact hn ⟨c, hc, ReflTransGen.trans hb hbc⟩
  have step : ∀ {a b}, M.dir a b → Path0 M.dir x b → M.mg.Move Z (b, false) (a, false) := by
    intro a b hab hb
    refine ⟨Or.inr (Or.inl hab), ?_, ?_, ?_⟩
    · exact ⟨fun hf => by simp at hf, fun hi => absurd hi (h.excl a b hab)⟩
    · rintro ⟨hf, -⟩; simp at hf
    · intro _ hZ; exact not_an hb ⟨b, hZ, .refl⟩
  induction hp with
  | single hab => exact .single (step hab (.single hab))
  | tail hxb hbc ih => exact ReflTransGen.head (step hbc (hxb.to_reflTransGen.tail hbc)) ih

/-- Along an inducing path the ball can always be passed on, whatever is conditioned on. -/
theorem inducing_reach (h : M.Proper) {Z : Set α} {i j v w : α} {d : Bool} (hd1 : d = true → M.mg.An Z i)
    (hd2 : d = false → i ∉ Z) (hb : d = false ∨ M.bi i v) (hv : M.Into i v) (hav : M.Anc2 i j v)
    (hc : ReflTransGen (fun a b => M.bi a b ∧ M.Anc2 i j b) v w) (hw : M.Into j w) :
    ∃ e, ReflTransGen (M.mg.Move Z) (i, d) (j, e) ∧ (M.Into w j → e = true) := by
  -- first move
  have h1 : M.mg.Move Z (i, d) (v, true) := by
    refine ⟨h.ok.into_adj _ _ hv, ⟨fun _ => hv, fun _ => rfl⟩, ?_, ?_⟩
    · rintro ⟨hd, -⟩; exact hd1 hd
    · intro hn
      rcases hb with hb | hb
      · exact hd2 hb
      · cases d with
        | false => exact hd2 rfl
        | true => exact absurd ⟨rfl, Or.inr (h.bi_symm _ _ hb)⟩ hn
  -- from a node of the path to the next one
  have step : ∀ a b, M.Anc2 i j a → M.Into b a → ReflTransGen (M.mg.Move Z) (i, d) (a, true) →
      (ReflTransGen (M.mg.Move Z) (i, d) (j, true) ∨
        ∃ e, ReflTransGen (M.mg.Move Z) (i, d) (b, e) ∧ (e = true ↔ M.Into a b)) := by
    classical
    intro a b ha hba hr
    have hadj : M.mg.adj a b := h.ok.symm _ _ (h.ok.into_adj _ _ hba)
    by_cases hA : M.mg.An Z a
    · refine Or.inr ⟨decide (M.Into a b), hr.tail ⟨hadj, by simp [mg], fun _ => hA, fun hn => ?_⟩, by simp⟩
      exact absurd ⟨rfl, hba⟩ hn
    · rcases ha with ha | ha
      · have hd : d = false := by
          cases d with
          | false => rfl
          | true =>
            obtain ⟨c, hc, hic⟩ := hd1 rfl
            exact absurd ⟨c, hc, ReflTransGen.trans ha.to_reflTransGen hic⟩ hA
        have hup := go_up h ha hA
        rw [← hd] at hup
        refine Or.inr ⟨decide (M.Into a b), hup.tail ⟨hadj, by simp [mg], ?_, ?_⟩, by simp⟩
        · rintro ⟨hf, -⟩; rw [hd] at hf; simp at hf
        · intro _ hZ; exact hA ⟨a, hZ, .refl⟩
      · exact Or.inl (hr.trans (go_down h ha hA true))
  have main : ∀ x, ReflTransGen (fun a b => M.bi a b ∧ M.Anc2 i j b) v x → M.Anc2 i j x ∧
      (ReflTransGen (M.mg.Move Z) (i, d) (j, true) ∨ ReflTransGen (M.mg.Move Z) (i, d) (x, true)) := by
    intro x hx
    induction hx with
    | refl => exact ⟨hav, Or.inr (.single h1)⟩
    | @tail b c _ hbc ih =>
      refine ⟨hbc.2, ?_⟩
      rcases ih.2 with k | k
      · exact Or.inl k
      · rcases step b c ih.1 (Or.inr (h.bi_symm _ _ hbc.1)) k with k | ⟨e, k1, k2⟩
        · exact Or.inl k
        · rw [k2.2 (Or.inr hbc.1)] at k1
          exact Or.inr k1
  obtain ⟨haw, k | k⟩ := main w hc
  · exact ⟨true, k, fun _ => rfl⟩
  · rcases step w j haw hw k with k | ⟨e, k1, k2⟩
    · exact ⟨true, k, fun _ => rfl⟩
    · exact ⟨e, k1, k2.2⟩

/-- Nodes with an inducing path between them are never separated. -/
theorem not_msep_of_ind (h : M.Proper) {i j : α} (hI : M.Ind i j) {Z : Set α} (hi : i ∉ Z) : ¬ M.MSep {i} {j} Z := by
  obtain ⟨v, w, h1, h2, h3, h4⟩ := hI
  obtain ⟨e, k, -⟩ := inducing_reach h (Z := Z) (d := false) (by simp) (fun _ => hi) (Or.inl rfl) h1 h2 h3 h4
  obtain ⟨l, hl, -⟩ := MG.walk_of_moves k
  rw [msep_iff h.ok]
  intro hs
  exact hs i rfl j rfl ⟨l, hl⟩

/-- Directed or undirected step. -/
def Ant (M : Mixed α) : α → α → Prop := ReflTransGen fun a b => M.dir a b ∨ M.un a b

theorem ant_of_path0 {x y : α} (h : Path0 M.dir x y) : M.Ant x y := path0_mono (fun _ _ h => Or.inl h) h

/-- From an arrowhead on only directed edges can be followed. -/
theorem ant_head (h : M.Proper) {u x y : α} (hu : M.Into u x) (hxy : M.Ant x y) : Path0 M.dir x y := by
  unfold Ant at hxy
  induction hxy using ReflTransGen.head_induction_on generalizing u with
  | refl => exact .refl
  | head hab _ ih =>
    rcases hab with hab | hab
    · exact ReflTransGen.head hab (ih (Or.inl hab))
    · exact absurd hu (h.tails _ _ _ hab)

/-- Following an open walk from a tail: one arrives at its end or at an ancestor of the set. -/
theorem walk_ant (h : M.Proper) {Z : Set α} : ∀ (rest : List α) (x y b : α), (x :: y :: rest).getLast? = some b →
    (∀ u v, [u, v] <:+: x :: y :: rest → M.Adj u v) → (∀ u v w, [u, v, w] <:+: x :: y :: rest → M.mg.Open Z u v w) →
    (M.dir x y ∨ M.un x y) → M.Ant x b ∨ ∃ z ∈ Z, M.Ant x z := by
  intro rest
  induction rest with
  | nil =>
    intro x y b hb _ _ hxy
    simp at hb
    subst hb
    exact Or.inl (.single hxy)
  | cons z rest ih =>
    intro x y b hb hadj hopn hxy
    have hyz : M.Adj y z := hadj y z ⟨[x], rest, rfl⟩
    have ho := hopn x y z ⟨[], rest, rfl⟩
    have next : M.dir y z ∨ M.un y z → M.Ant x b ∨ ∃ z ∈ Z, M.Ant x z := by
      intro hn
      rcases ih y z b (by simpa using hb) (fun u v huv => hadj u v (huv.trans ⟨[x], [], by simp⟩))
        (fun u v w huv => hopn u v w (huv.trans ⟨[x], [], by simp⟩)) hn with k | ⟨c, hc, k⟩
      · exact Or.inl (ReflTransGen.head hxy k)
      · exact Or.inr ⟨c, hc, ReflTransGen.head hxy k⟩
    by_cases hcol : M.Into x y ∧ M.Into z y
    · obtain ⟨c, hc, hyc⟩ := ho.1 hcol
      exact Or.inr ⟨c, hc, ReflTransGen.head hxy (ant_of_path0 hyc)⟩
    · rcases hyz with k | k | k | k
      · exact next (Or.inl k)
      · rcases hxy with hxy | hxy
        · exact absurd ⟨Or.inl hxy, Or.inl k⟩ hcol
        · exact absurd (Or.inl k) (h.tails y x z (h.un_symm _ _ hxy))
      · rcases hxy with hxy | hxy
        · exact absurd ⟨Or.inl hxy, Or.inr (h.bi_symm _ _ k)⟩ hcol
        · exact absurd (Or.inr (h.bi_symm _ _ k)) (h.tails y x z (h.un_symm _ _ hxy))
      · exact next (Or.inr k)

/-- An inner node of `K` with an arrowhead. -/
def Inner (M : Mixed α) (K : α → Prop) (i j x : α) : Prop := (∃ u, M.Into u x) ∧ x ≠ i ∧ x ≠ j ∧ K x

/-- On a path that is open given all other nodes of a set `K` closed under anterior nodes, all inner nodes are
colliders in `K`. -/
theorem colliders_of_open (h : M.Proper) {i j : α} (hij : i ≠ j) (hadj : ¬ M.Adj i j) {Z : Set α} {K : α → Prop}
    (hK : ∀ x y, M.Ant x y → K y → K x) (hi : K i) (hj : K j)
    (hZ : ∀ x, x ≠ i → x ≠ j → K x → (∃ y, M.Adj x y) → x ∈ Z)
    (hZ' : ∀ x ∈ Z, K x) {l : List α} (hl : M.mg.Walk Z i j l) (hn : l.Nodup) :
    ∃ v w, M.Into i v ∧ M.Inner K i j v ∧ ReflTransGen (fun a b => M.bi a b ∧ M.Inner K i j b) v w ∧ M.Into j w := by
  have hrev := hl.reverse h.ok
  -- every inner node is a collider
  have inner : ∀ p u x w q, l = p ++ u :: x :: w :: q → M.Into u x ∧ M.Into w x ∧ M.Inner K i j x := by
    intro p u x w q hlq
    have hux : M.Adj u x := hl.adj u x ⟨p, w :: q, by simp [hlq]⟩
    have hxw : M.Adj x w := hl.adj x w ⟨p ++ [u], q, by simp [hlq]⟩
    have ho := hl.opn u x w ⟨p, q, by simp [hlq]⟩
    have hlr : l.reverse = q.reverse ++ w :: x :: u :: p.reverse := by simp [hlq]
    have hxi : x ≠ i := by
      rintro rfl
      have := hl.head
      rw [hlq] at this hn
      cases p with
      | nil => simp at this; simp [this] at hn
      | cons a p => simp at this; simp [this] at hn
    have hxj : x ≠ j := by
      rintro rfl
      have := hrev.head
      have hn' := List.nodup_reverse.2 hn
      rw [hlr] at this hn'
      cases hq : q.reverse with
      | nil => simp [hq] at this; simp [hq, this] at hn'
      | cons a q => simp [hq] at this; simp [hq, this] at hn'
    have away : M.Ant x i ∨ M.Ant x j ∨ (∃ z ∈ Z, M.Ant x z) → K x := by
      rintro (k | k | ⟨z, hz, k⟩)
      · exact hK _ _ k hi
      · exact hK _ _ k hj
      · exact hK _ _ k (hZ' z hz)
    have hwx : M.Into w x := by
      by_contra hcon
      have : M.dir x w ∨ M.un x w := by
        rcases hxw with k | k | k | k
        · exact Or.inl k
        · exact absurd (Or.inl k) hcon
        · exact absurd (Or.inr (h.bi_symm _ _ k)) hcon
        · exact Or.inr k
      have ha := walk_ant h (Z := Z) q x w j (by
        have := hl.last
        rw [hlq, show p ++ u :: x :: w :: q = (p ++ [u]) ++ x :: w :: q by simp, List.getLast?_append_of_ne_nil] at this
        · exact this
        · simp) (fun a b hab => hl.adj a b (hab.trans ⟨p ++ [u], [], by simp [hlq]⟩))
        (fun a b c hab => hl.opn a b c (hab.trans ⟨p ++ [u], [], by simp [hlq]⟩)) this
      exact ho.2 (fun k => hcon k.2) (hZ x hxi hxj (away (Or.inr ha)) ⟨w, hxw⟩)
    have hux' : M.Into u x := by
      by_contra hcon
      have : M.dir x u ∨ M.un x u := by
        rcases hux with k | k | k | k
        · exact absurd (Or.inl k) hcon
        · exact Or.inl k
        · exact absurd (Or.inr k) hcon
        · exact Or.inr (h.un_symm _ _ k)
      have ha := walk_ant h (Z := Z) p.reverse x u i (by
        have := hrev.last
        rw [hlr, show q.reverse ++ w :: x :: u :: p.reverse = (q.reverse ++ [w]) ++ x :: u :: p.reverse by simp,
          List.getLast?_append_of_ne_nil] at this
        · exact this
        · simp) (fun a b hab => hrev.adj a b (hab.trans ⟨q.reverse ++ [w], [], by simp [hlr]⟩))
        (fun a b c hab => hrev.opn a b c (hab.trans ⟨q.reverse ++ [w], [], by simp [hlr]⟩)) this
      refine ho.2 (fun k => hcon k.1) (hZ x hxi hxj (away ?_) ⟨w, hxw⟩)
      exact ha.imp_right Or.inr
    refine ⟨hux', hwx, ?_⟩
    obtain ⟨c, hc, hxc⟩ := ho.1 ⟨hux', hwx⟩
    exact ⟨⟨u, hux'⟩, hxi, hxj, away (Or.inr (Or.inr ⟨c, hc, ant_of_path0 hxc⟩))⟩
  have chain : ∀ rest p u x z, l = p ++ u :: x :: z :: rest →
      ∃ w, ReflTransGen (fun a b => M.bi a b ∧ M.Inner K i j b) x w ∧ M.Into j w := by
    intro rest
    induction rest with
    | nil =>
      intro p u x z hlq
      have := hl.last
      rw [hlq] at this
      simp at this
      subst this
      exact ⟨x, .refl, (inner p u x z [] hlq).2.1⟩
    | cons r rest ih =>
      intro p u x z hlq
      obtain ⟨w, h1, h2⟩ := ih (p ++ [u]) x z r (by simp [hlq])
      have k1 := (inner p u x z (r :: rest) hlq).2.1
      have k2 := inner (p ++ [u]) x z r rest (by simp [hlq])
      refine ⟨w, ReflTransGen.head ⟨?_, k2.2.2⟩ h1, h2⟩
      rcases k2.1 with k | k
      · exact absurd k1 (h.excl _ _ k)
      · exact k
  match l, hl.head, hl.last, hl.adj, inner, chain with
  | [a], h1, h2, _, _, _ => simp at h1 h2; exact absurd (h1.symm.trans h2) hij
  | [a, b], h1, h2, h3, _, _ =>
    simp at h1 h2
    subst h1 h2
    exact absurd (h3 a b ⟨[], [], rfl⟩) hadj
  | a :: b :: c :: rest, h1, _, _, inner, chain =>
    simp at h1
    subst h1
    have k := inner [] a b c rest rfl
    obtain ⟨w, hw, hj⟩ := chain rest [] a b c rfl
    exact ⟨b, w, k.1, k.2.2, hw, hj⟩

/-- A path that is open given all other nodes anterior to its ends is an inducing path. -/
theorem ind_of_open (h : M.Proper) {i j : α} (hij : i ≠ j) (hadj : ¬ M.Adj i j) {Z : Set α}
    (hZ : ∀ x, x ≠ i → x ≠ j → (M.Ant x i ∨ M.Ant x j) → (∃ y, M.Adj x y) → x ∈ Z)
    (hZ' : ∀ x ∈ Z, M.Ant x i ∨ M.Ant x j) {l : List α} (hl : M.mg.Walk Z i j l) (hn : l.Nodup) : M.Ind i j := by
  have key : ∀ x, M.Inner (fun x => M.Ant x i ∨ M.Ant x j) i j x → M.Anc2 i j x := by
    rintro x ⟨⟨u, hu⟩, hxi, hxj, k | k⟩
    · exact Or.inl ((reflTransGen_iff_eq_or_transGen.1 (ant_head h hu k)).resolve_left (Ne.symm hxi))
    · exact Or.inr ((reflTransGen_iff_eq_or_transGen.1 (ant_head h hu k)).resolve_left (Ne.symm hxj))
  obtain ⟨v, w, h1, h2, h3, h4⟩ := colliders_of_open h hij hadj (K := fun x => M.Ant x i ∨ M.Ant x j)
    (fun x y k k' => k'.imp (ReflTransGen.trans k) (ReflTransGen.trans k)) (Or.inl .refl) (Or.inr .refl) hZ hZ' hl hn
  exact ⟨v, w, h1, key _ h2, path0_mono (fun a b k => ⟨k.1, key _ k.2⟩) h3, h4⟩

/-- Maximality is the absence of inducing paths between nodes without an edge. -/
theorem maximal_iff (h : M.Proper) {V : Set α} (hV : ∀ x y, M.Adj x y → x ∈ V) :
    M.Maximal V ↔ ∀ i ∈ V, ∀ j ∈ V, i ≠ j → ¬ M.Adj i j → ¬ M.Ind i j := by
  constructor
  · intro hmax i hi j hj hij hadj hI
    obtain ⟨Z, hZ, hs⟩ := hmax i hi j hj hij hadj
    exact not_msep_of_ind h hI (fun hiZ => (hZ hiZ).2 (by simp)) hs
  · intro hno i hi j hj hij hadj
    refine ⟨{x | x ∈ V ∧ x ≠ i ∧ x ≠ j ∧ (M.Ant x i ∨ M.Ant x j)}, ?_, ?_⟩
    · rintro x ⟨h1, h2, h3, -⟩
      exact ⟨h1, by simp [h2, h3]⟩
    · rintro a rfl b rfl l hl
      refine hno a hi b hj hij hadj (ind_of_open h hij hadj (l := l)
        (Z := {x | x ∈ V ∧ x ≠ a ∧ x ≠ b ∧ (M.Ant x a ∨ M.Ant x b)}) ?_ (fun x hx => hx.2.2.2)
        ⟨hl.head, hl.last, hl.adj, hl.opn⟩ hl.nodup)
      rintro x h1 h2 h3 ⟨y, hy⟩
      exact ⟨hV x y hy, h1, h2, h3⟩

end Spec.Mixed
