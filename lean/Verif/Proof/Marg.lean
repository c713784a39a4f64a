import Verif.Proof.Segments

/-! # The marginal graph of a mixed graph without undirected edges -/

namespace Spec.Mixed

universe u
variable {α : Type u} {G H : Mixed α} {L C : Set α}
open Relation

/-- Nodes outside `L`, joined if there is an inducing walk relative to `L`, oriented by ancestry. -/
def marg (G : Mixed α) (L : Set α) : Mixed α where
  dir i j := i ∉ L ∧ j ∉ L ∧ G.IndL L i j ∧ Path G.dir i j
  bi i j := i ∉ L ∧ j ∉ L ∧ i ≠ j ∧ G.IndL L i j ∧ ¬ Path G.dir i j ∧ ¬ Path G.dir j i
  un _ _ := False

theorem marg_adj (h : G.Nice) {i j : α} : (G.marg L).Adj i j ↔ i ∉ L ∧ j ∉ L ∧ i ≠ j ∧ G.IndL L i j := by
  have ne : ∀ {a b}, Path G.dir a b → a ≠ b := by rintro a _ k rfl; exact h.anc.acyclic a k
  constructor
  · rintro (⟨h1, h2, h3, h4⟩ | ⟨h1, h2, h3, h4⟩ | ⟨h1, h2, h3, h4, -⟩ | h1)
    · exact ⟨h1, h2, ne h4, h3⟩
    · exact ⟨h2, h1, (ne h4).symm, h3.symm h⟩
    · exact ⟨h1, h2, h3, h4⟩
    · exact h1.elim
  · rintro ⟨h1, h2, h3, h4⟩
    by_cases p1 : Path G.dir i j
    · exact Or.inl ⟨h1, h2, h4, p1⟩
    · by_cases p2 : Path G.dir j i
      · exact Or.inr (Or.inl ⟨h2, h1, h4.symm h, p2⟩)
      · exact Or.inr (Or.inr (Or.inl ⟨h1, h2, h3, h4, p1, p2⟩))

theorem marg_into (h : G.Nice) {i j : α} (k : (G.marg L).Adj i j) : (G.marg L).Into i j ↔ ¬ Path G.dir j i := by
  obtain ⟨h1, h2, h3, h4⟩ := (marg_adj h).1 k
  constructor
  · rintro (k | k) hp
    · exact h.anc.acyclic i (k.2.2.2.trans hp)
    · exact k.2.2.2.2.2 hp
  · intro hp
    by_cases p1 : Path G.dir i j
    · exact Or.inl ⟨h1, h2, h4, p1⟩
    · exact Or.inr ⟨h1, h2, h3, h4, p1, hp⟩

theorem marg_path {x y : α} (k : Path (G.marg L).dir x y) : Path G.dir x y := by
  induction k with
  | single k => exact k.2.2.2
  | tail _ k ih => exact ih.trans k.2.2.2

theorem marg_path0 {x y : α} (k : Path0 (G.marg L).dir x y) : Path0 G.dir x y := by
  rcases reflTransGen_iff_eq_or_transGen.1 k with rfl | k
  · exact .refl
  · exact (marg_path k).to_reflTransGen

theorem marg_nice (h : G.Nice) : (G.marg L).Nice := by
  have nint : ∀ {a b}, (G.marg L).Into a b → ¬ Path G.dir b a := by
    rintro a b (k | k) hp
    · exact h.anc.acyclic a (k.2.2.2.trans hp)
    · exact k.2.2.2.2.2 hp
  refine ⟨⟨?_, ?_, ?_, ?_⟩, ⟨?_, ?_, ?_⟩, ?_⟩
  · rintro u v ⟨h1, h2, h3, h4, h5, h6⟩; exact ⟨h2, h1, h3.symm, h4.symm h, h6, h5⟩
  · intro u v k; exact k.elim
  · intro u v w k; exact k.elim
  · intro u v k hi; exact nint hi k.2.2.2
  · intro x k; exact h.anc.acyclic x (marg_path k)
  · intro u v k hp; exact k.2.2.2.2.1 (marg_path hp)
  · intro u v w k; exact k.elim
  · intro u v k; exact k.elim

theorem marg_shortcut (h : G.Nice) : Shortcut G (G.marg L) L :=
  ⟨fun _ _ k => ((marg_adj h).1 k).2.2.2, fun _ _ k => marg_into h k⟩

/-! ## Inducing paths of the marginal graph -/

/-- Inducing walks can be put together at nodes that are ancestors of the ends. -/
theorem marg_ind (h : G.Nice) {i j : α} (hI : (G.marg L).Ind i j) : G.IndL L i j := by
  obtain ⟨v, w, h1, h2, h3, h4⟩ := hI
  have anc : ∀ {x}, (G.marg L).Anc2 i j x → G.An0 i j x := fun k =>
    k.imp (fun k => (marg_path k).to_reflTransGen) (fun k => (marg_path k).to_reflTransGen)
  have mn := marg_nice (L := L) h
  have sub : ∀ {a b}, G.An0 i j a → G.An0 i j b → ∀ x, G.An0 a b x → G.An0 i j x := by
    intro a b ha hb x hx
    rcases hx with k | k
    · exact path0_an0 k ha
    · exact path0_an0 k hb
  have edge : ∀ {a b}, (G.marg L).Adj a b → G.An0 i j a → G.An0 i j b →
      ∃ m e, Seg G (G.An0 i j) (· ∈ L) a m b e ∧ ((G.marg L).Into a b → e = true) ∧ ((G.marg L).Into b a → m = true) := by
    intro a b hab ha hb
    obtain ⟨m, e, k⟩ := ((marg_adj h).1 hab).2.2.2
    refine ⟨m, e, Seg.mono (sub ha hb) (fun _ => id) k, fun hi => ?_, fun hi => ?_⟩
    · exact IS.head_right h k ((marg_into h hab).1 hi)
    · exact IS.head_left h k ((marg_into h (mn.proper.ok.symm _ _ hab)).1 hi)
  have hi : G.An0 i j i := Or.inl .refl
  have hj : G.An0 i j j := Or.inr .refl
  have main : ∀ x, ReflTransGen (fun a b => (G.marg L).bi a b ∧ (G.marg L).Anc2 i j b) v x →
      G.An0 i j x ∧ ∃ m, Seg G (G.An0 i j) (· ∈ L) i m x true := by
    intro x hx
    induction hx with
    | refl =>
      obtain ⟨m, e, k, k1, -⟩ := edge (mn.proper.ok.into_adj _ _ h1) hi (anc h2)
      rw [k1 h1] at k
      exact ⟨anc h2, m, k⟩
    | @tail b c _ hbc ih =>
      obtain ⟨hb, m, k⟩ := ih
      obtain ⟨m', e, k', k1, k2⟩ := edge (a := b) (b := c) (Or.inr (Or.inr (Or.inl hbc.1))) hb (anc hbc.2)
      have e1 := k1 (Or.inr hbc.1)
      have e2 := k2 (Or.inr (mn.proper.bi_symm _ _ hbc.1))
      subst e1 e2
      exact ⟨anc hbc.2, m, .join k k' (fun _ => hb) (fun hn => absurd ⟨rfl, rfl⟩ hn)⟩
  obtain ⟨hw, m, k⟩ := main w h3
  obtain ⟨m', e, k', -, k2⟩ := edge (a := w) (b := j) (mn.proper.ok.symm _ _ (mn.proper.ok.into_adj _ _ h4)) hw hj
  have e2 := k2 h4
  subst e2
  exact ⟨m, e, .join k k' (fun _ => hw) (fun hn => absurd ⟨rfl, rfl⟩ hn)⟩

/-! ## From the original graph to the marginal one -/

/-- A walk through nodes of `L` without inner colliders. -/
abbrev LS (G : Mixed α) (L : Set α) : α → Bool → α → Bool → Prop := Seg G (fun _ => False) (· ∈ L)

theorem LS.is {i j : α} {m e : Bool} (k : G.LS L i m j e) : G.IS L i m j e := Seg.mono (fun _ => False.elim) (fun _ => id) k

theorem LS.snoc_dir (h : G.Nice) {i x y : α} {m : Bool} (k : G.LS L i m x true) (hx : x ∈ L) (hxy : G.dir x y) :
    G.LS L i m y true := by
  refine .join (m' := false) k (.edge (Or.inl hxy) ⟨by simp, fun k => absurd k (h.proper.excl _ _ hxy)⟩
    ⟨fun _ => Or.inl hxy, fun _ => rfl⟩) (by simp) (fun _ => hx)

theorem LS.dir (h : G.Nice) {x y : α} (hxy : G.dir x y) : G.LS L x false y true :=
  .edge (Or.inl hxy) ⟨by simp, fun k => absurd k (h.proper.excl _ _ hxy)⟩ ⟨fun _ => Or.inl hxy, fun _ => rfl⟩

/-- The first node outside `L` on a directed path. -/
theorem first_observed (h : G.Nice) {x c : α} (hx : x ∈ L) (hc : c ∉ L) (k : Path0 G.dir x c) :
    ∃ d, d ∉ L ∧ Path0 G.dir d c ∧ G.LS L x false d true := by
  have : ∀ z, Path0 G.dir x z → (∃ d, d ∉ L ∧ Path0 G.dir d z ∧ G.LS L x false d true) ∨
      (z ∈ L ∧ (z = x ∨ G.LS L x false z true)) := by
    intro z hz
    induction hz with
    | refl => exact Or.inr ⟨hx, Or.inl rfl⟩
    | @tail b c _ hbc ih =>
      rcases ih with ⟨d, h1, h2, h3⟩ | ⟨h1, h2⟩
      · exact Or.inl ⟨d, h1, h2.tail hbc, h3⟩
      · have hs : G.LS L x false c true := by
          rcases h2 with rfl | h2
          · exact LS.dir h hbc
          · exact h2.snoc_dir h h1 hbc
        by_cases hc : c ∈ L
        · exact Or.inr ⟨hc, Or.inr hs⟩
        · exact Or.inl ⟨c, hc, .refl, hs⟩
  rcases this c k with k | k
  · exact k
  · exact absurd k.1 hc

theorem marg_path0_of (h : G.Nice) {x y : α} (hx : x ∉ L) (hy : y ∉ L) (k : Path0 G.dir x y) :
    Path0 (G.marg L).dir x y := by
  have step : ∀ {a b}, a ∉ L → b ∉ L → G.LS L a false b true → (G.marg L).dir a b := by
    intro a b ha hb k
    exact ⟨ha, hb, ⟨_, _, k.is⟩, k.is.tail_left h⟩
  have : ∀ z, Path0 G.dir x z → (z ∉ L ∧ Path0 (G.marg L).dir x z) ∨
      (z ∈ L ∧ ∃ d, d ∉ L ∧ Path0 (G.marg L).dir x d ∧ G.LS L d false z true) := by
    intro z hz
    induction hz with
    | refl => exact Or.inl ⟨hx, .refl⟩
    | @tail b c _ hbc ih =>
      obtain ⟨d, h1, h2, h3⟩ : ∃ d, d ∉ L ∧ Path0 (G.marg L).dir x d ∧ G.LS L d false c true := by
        rcases ih with ⟨h1, h2⟩ | ⟨h1, d, h2, h3, h4⟩
        · exact ⟨b, h1, h2, LS.dir h hbc⟩
        · exact ⟨d, h2, h3, h4.snoc_dir h h1 hbc⟩
      by_cases hc : c ∈ L
      · exact Or.inr ⟨hc, d, h1, h2, h3⟩
      · exact Or.inl ⟨hc, h2.tail (step h1 hc h3)⟩
  rcases this y k with k | k
  · exact k.2
  · exact absurd k.1 hy

theorem marg_an (h : G.Nice) (hC : Disjoint C L) {x : α} (hx : x ∉ L) (k : G.mg.An C x) : (G.marg L).mg.An C x := by
  obtain ⟨c, hc, hp⟩ := k
  exact ⟨c, hc, marg_path0_of h hx (Set.disjoint_left.1 hC hc) hp⟩

/-- The node `y`, entered with mark `g`, may be left with mark `m`. -/
def Pass (G : Mixed α) (C : Set α) (y : α) (g m : Bool) : Prop :=
  (g = true ∧ m = true → G.mg.An C y) ∧ (¬ (g = true ∧ m = true) → y ∉ C)

/-- A step along an inducing walk relative to `L`. -/
def Big (G : Mixed α) (L C : Set α) (s t : α × Bool) : Prop :=
  s.1 ∉ L ∧ t.1 ∉ L ∧ ∃ m, G.IS L s.1 m t.1 t.2 ∧ G.Pass C s.1 s.2 m

theorem big_of_moves (h : G.Nice) (hC : Disjoint C L) {a b : α} {d : Bool} (ha : a ∉ L) (hb : b ∉ L)
    (hm : ReflTransGen (G.mg.Move C) (a, false) (b, d)) : ReflTransGen (G.Big L C) (a, false) (b, d) := by
  classical
  have : ∀ s, ReflTransGen (G.mg.Move C) (a, false) s →
      (s.1 ∉ L ∧ ReflTransGen (G.Big L C) (a, false) s) ∨
      (s.1 ∈ L ∧ ∃ y g m, y ∉ L ∧ ReflTransGen (G.Big L C) (a, false) (y, g) ∧ G.LS L y m s.1 s.2 ∧ G.Pass C y g m) := by
    intro s hs
    induction hs with
    | refl => exact Or.inl ⟨ha, .refl⟩
    | @tail s t _ hst ih =>
      obtain ⟨x, f⟩ := s
      obtain ⟨w, k⟩ := t
      obtain ⟨m1, m2, m3, m4⟩ := hst
      change G.Adj x w at m1
      change k = true ↔ G.Into x w at m2
      have hpass : G.Pass C x f (decide (G.Into w x)) := by
        refine ⟨?_, ?_⟩
        · rintro ⟨k1, k2⟩; exact m3 ⟨k1, of_decide_eq_true k2⟩
        · intro hn; exact m4 fun k' => hn ⟨k'.1, decide_eq_true k'.2⟩
      have hedge : G.LS L x (decide (G.Into w x)) w k := .edge m1 (by simp) m2
      -- it suffices to find a segment to the next node
      have fin : (∃ y g m, y ∉ L ∧ ReflTransGen (G.Big L C) (a, false) (y, g) ∧ G.LS L y m w k ∧ G.Pass C y g m) →
          (w ∉ L ∧ ReflTransGen (G.Big L C) (a, false) (w, k)) ∨
          (w ∈ L ∧ ∃ y g m, y ∉ L ∧ ReflTransGen (G.Big L C) (a, false) (y, g) ∧ G.LS L y m w k ∧ G.Pass C y g m) := by
        rintro ⟨y, g, m, k1, k2, k3, k4⟩
        by_cases hw : w ∈ L
        · exact Or.inr ⟨hw, y, g, m, k1, k2, k3, k4⟩
        · exact Or.inl ⟨hw, k2.tail ⟨k1, hw, m, k3.is, k4⟩⟩
      apply fin
      rcases ih with ⟨k1, k2⟩ | ⟨k1, y, g, m, k2, k3, k4, k5⟩
      · exact ⟨x, f, _, k1, k2, hedge, hpass⟩
      · by_cases hcol : f = true ∧ G.Into w x
        · obtain ⟨c, hc, hxc⟩ := m3 hcol
          obtain ⟨z, z1, z2, z3⟩ := first_observed h k1 (Set.disjoint_left.1 hC hc) hxc
          have s1 : G.LS L y m z true := .join k4 z3 (by simp) (fun _ => k1)
          have s2 : G.LS L z true w k := .join (z3.symm h) hedge (by simp) (fun _ => k1)
          exact ⟨z, true, true, z1, k3.tail ⟨k2, z1, m, s1.is, k5⟩, s2, ⟨fun _ => ⟨c, hc, z2⟩, by simp⟩⟩
        · exact ⟨y, g, m, k2, k3, .join k4 hedge (fun k' => absurd ⟨k'.1, by simpa using k'.2⟩ hcol) (fun _ => k1), k5⟩
  rcases this _ hm with k | k
  · exact k.2
  · exact absurd k.1 hb

/-- Chains with their length. -/
inductive Chain (G : Mixed α) (L C : Set α) : ℕ → α × Bool → α × Bool → Prop
  | nil (s) : Chain G L C 0 s s
  | snoc {n s t r} : Chain G L C n s t → G.Big L C t r → Chain G L C (n + 1) s r

theorem chain_of_big {s t : α × Bool} (k : ReflTransGen (G.Big L C) s t) : ∃ n, Chain G L C n s t := by
  induction k with
  | refl => exact ⟨0, .nil _⟩
  | tail _ hb ih => obtain ⟨n, hn⟩ := ih; exact ⟨n + 1, .snoc hn hb⟩

theorem Chain.append {n m : ℕ} {s t r : α × Bool} (h1 : Chain G L C n s t) (h2 : Chain G L C m t r) :
    Chain G L C (n + m) s r := by
  induction h2 with
  | nil => exact h1
  | snoc _ hb ih => exact .snoc (ih h1) hb

theorem Chain.uncons {n : ℕ} {s r : α × Bool} (h : Chain G L C (n + 1) s r) :
    ∃ t, G.Big L C s t ∧ Chain G L C n t r := by
  induction n generalizing r with
  | zero =>
    cases h with
    | snoc h1 hb => cases h1; exact ⟨_, hb, .nil _⟩
  | succ n ih =>
    cases h with
    | snoc h1 hb => obtain ⟨t, k1, k2⟩ := ih h1; exact ⟨t, k1, .snoc k2 hb⟩

/-- A loop can be left out. -/
theorem big_loop (h : G.Nice) {y : α} {g f : Bool} (hb : G.Big L C (y, g) (y, f)) :
    ∀ t, G.Big L C (y, f) t → G.Big L C (y, g) t := by
  rintro t ⟨k1, k2, m', k3, k4⟩
  obtain ⟨-, -, m, j3, j4⟩ := hb
  have e1 : m = true := IS.head_left h j3 (h.anc.acyclic y)
  have e2 : f = true := IS.head_right h j3 (h.anc.acyclic y)
  subst e1 e2
  refine ⟨k1, k2, m', k3, ?_, ?_⟩
  · rintro ⟨hg, -⟩; exact j4.1 ⟨hg, rfl⟩
  · intro hn
    cases g with
    | false => exact j4.2 (by simp)
    | true => exact k4.2 (by simpa using hn)

/-- Two steps can be merged at a node that is an ancestor of one of the other ends. -/
theorem big_merge {y x w : α} {g k m : Bool} (hy : y ∉ L) (hw : w ∉ L)
    (h1 : G.IS L y m x true) (hp : G.Pass C y g m) (h2 : G.IS L x true w k) (hx : G.An0 y w x) :
    G.Big L C (y, g) (w, k) := by
  refine ⟨hy, hw, m, ?_, hp⟩
  refine Seg.join (x := x) (e := true) (m' := true) (Seg.mono ?_ (fun _ => id) h1) (Seg.mono ?_ (fun _ => id) h2)
    (fun _ => hx) (by simp)
  · rintro z (hz | hz)
    · exact Or.inl hz
    · exact path0_an0 hz hx
  · rintro z (hz | hz)
    · exact path0_an0 hz hx
    · exact Or.inr hz

theorem marg_active (h : G.Nice) (hC : Disjoint C L) {a b : α} {d : Bool} (ha : a ∉ L) (hb : b ∉ L) (haC : a ∉ C)
    (hm : ReflTransGen (G.mg.Move C) (a, false) (b, d)) :
    ∃ d', ReflTransGen ((G.marg L).mg.Move C) (a, false) (b, d') := by
  classical
  obtain ⟨n0, hn0⟩ := chain_of_big (big_of_moves h hC ha hb hm)
  have hex : ∃ n d, Chain G L C n (a, false) (b, d) := ⟨n0, d, hn0⟩
  obtain ⟨d, hN⟩ := Nat.find_spec hex
  have hmin : ∀ m, m < Nat.find hex → ∀ d, ¬ Chain G L C m (a, false) (b, d) := fun m hm d k => Nat.find_min hex hm ⟨d, k⟩
  generalize Nat.find hex = N at hN hmin
  have noloop : ∀ k r y g x f, k + 1 + r = N → Chain G L C k (a, false) (y, g) → G.Big L C (y, g) (x, f) →
      Chain G L C r (x, f) (b, d) → y ≠ x := by
    rintro k r y g x f hk c1 hb c2 rfl
    cases r with
    | zero => cases c2; exact hmin k (by omega) _ c1
    | succ r =>
      obtain ⟨t, k1, k2⟩ := c2.uncons
      exact hmin (k + 1 + r) (by omega) _ (Chain.append (.snoc c1 (big_loop h hb t k1)) k2)
  have adj : ∀ {y g x f}, G.Big L C (y, g) (x, f) → y ≠ x → (G.marg L).Adj y x := by
    rintro y g x f ⟨k1, k2, m, k3, -⟩ hne
    exact (marg_adj h).2 ⟨k1, k2, hne, m, f, k3⟩
  have mn := marg_nice (L := L) h
  have main : ∀ k r y g x f, k + 1 + r = N → Chain G L C k (a, false) (y, g) → G.Big L C (y, g) (x, f) →
      Chain G L C r (x, f) (b, d) →
      ReflTransGen ((G.marg L).mg.Move C) (a, false) (x, decide (¬ Path G.dir x y)) := by
    intro k
    induction k with
    | zero =>
      intro r y g x f hk c1 hb c2
      have hne := noloop 0 r y g x f hk c1 hb c2
      cases c1
      have hadj := adj hb hne
      refine .single ⟨hadj, ?_, by simp, fun _ => haC⟩
      change _ ↔ (G.marg L).Into a x
      rw [marg_into h hadj]; simp
    | succ k ih =>
      intro r y g x f hk c1 hb c2
      have hne := noloop (k + 1) r y g x f hk c1 hb c2
      have hadj := adj hb hne
      cases c1 with
      | @snoc _ _ z _ c0 hb0 =>
      obtain ⟨z, e⟩ := z
      have hne0 := noloop k (1 + r) z e y g (by omega) c0 hb0 (by
        rw [Nat.add_comm]
        have := Chain.append (.snoc (.nil _) hb) c2
        rwa [Nat.add_comm, Nat.zero_add] at this)
      have r0 := ih (1 + r) z e y g (by omega) c0 hb0 (by
        have := Chain.append (.snoc (.nil _) hb) c2
        rwa [Nat.zero_add] at this)
      refine r0.tail ⟨hadj, ?_, ?_, ?_⟩
      · change _ ↔ (G.marg L).Into y x
        rw [marg_into h hadj]; simp
      · rintro ⟨k1, k2⟩
        change decide _ = true at k1
        change (G.marg L).Into x y at k2
        rw [marg_into h (mn.proper.ok.symm _ _ hadj)] at k2
        obtain ⟨_, _, m0, i0, _⟩ := hb0
        obtain ⟨hy, _, m1, i1, p1⟩ := hb
        have e1 : g = true := IS.head_right h i0 (by simpa using k1)
        have e2 : m1 = true := IS.head_left h i1 k2
        exact marg_an h hC hy (p1.1 ⟨e1, e2⟩)
      · intro hn hyC
        change ¬ (decide _ = true ∧ (G.marg L).Into x y) at hn
        change y ∈ C at hyC
        rw [marg_into h (mn.proper.ok.symm _ _ hadj)] at hn
        have hb0' := hb0
        obtain ⟨hz, _, m0, i0, p0⟩ := hb0
        obtain ⟨hy, hx, m1, i1, p1⟩ := hb
        have hgm : g = true ∧ m1 = true := by
          by_contra hc; exact p1.2 hc hyC
        obtain ⟨rfl, rfl⟩ := hgm
        have han : G.An0 z x y := by
          by_cases q1 : Path G.dir y z
          · exact Or.inl q1.to_reflTransGen
          · by_cases q2 : Path G.dir y x
            · exact Or.inr q2.to_reflTransGen
            · exact absurd ⟨by simpa using q1, q2⟩ hn
        have := big_merge hz hx i0 p0 i1 han
        exact hmin (k + 1 + r) (by omega) _ (Chain.append (.snoc c0 this) c2)
  cases N with
  | zero => cases hN; exact ⟨false, .refl⟩
  | succ N =>
    cases hN with
    | @snoc _ _ s _ c1 hb => exact ⟨_, main N 0 s.1 s.2 b d rfl c1 hb (.nil _)⟩

/-! ## Separation -/

/-- The marginal graph has the same separations among nodes outside `L`. -/
theorem marg_msep (h : G.Nice) {A B : Set α} (hA : Disjoint A L) (hB : Disjoint B L) (hC : Disjoint C L)
    (hAC : Disjoint A C) : (G.marg L).MSep A B C ↔ G.MSep A B C := by
  have mn := marg_nice (L := L) h
  rw [msep_iff h.proper.ok, msep_iff mn.proper.ok]
  refine forall₂_congr fun a ha => forall₂_congr fun b hb => not_congr ?_
  have haC : a ∉ C := Set.disjoint_left.1 hAC ha
  constructor
  · rintro ⟨l, hl⟩
    obtain ⟨d, hd, -⟩ := MG.moves_of_walk haC l b hl
    obtain ⟨d', hd'⟩ := (marg_shortcut h).active h hC (mn.proper.ok.symm)
      (fun x => fun ⟨c, hc, k⟩ => ⟨c, hc, marg_path0 k⟩) hd
    obtain ⟨l', hl', -⟩ := MG.walk_of_moves hd'
    exact ⟨l', hl'⟩
  · rintro ⟨l, hl⟩
    obtain ⟨d, hd, -⟩ := MG.moves_of_walk haC l b hl
    obtain ⟨d', hd'⟩ := marg_active h hC (Set.disjoint_left.1 hA ha) (Set.disjoint_left.1 hB hb) haC hd
    obtain ⟨l', hl', -⟩ := MG.walk_of_moves hd'
    exact ⟨l', hl'⟩

theorem marg_maximal (h : G.Nice) {V : Set α} (hV : ∀ x y, (G.marg L).Adj x y → x ∈ V) (hVL : Disjoint V L) :
    (G.marg L).Maximal V := by
  rw [maximal_iff (marg_nice h).proper hV]
  intro i hi j hj hij hadj hI
  exact hadj ((marg_adj h).2 ⟨Set.disjoint_left.1 hVL hi, Set.disjoint_left.1 hVL hj, hij, marg_ind h hI⟩)

/-- If there is no inducing walk, the observed ancestors separate. -/
theorem marg_sep (h : G.Nice) {i j : α} (hij : i ≠ j) (hi : i ∉ L) (hj : j ∉ L) (hI : ¬ G.IndL L i j) {Z : Set α}
    (hZ : ∀ x, x ∈ Z ↔ x ∉ L ∧ x ≠ i ∧ x ≠ j ∧ (Path G.dir x i ∨ Path G.dir x j)) : G.MSep {i} {j} Z := by
  have mn := marg_nice (L := L) h
  have hZL : Disjoint Z L := Set.disjoint_left.2 fun x hx => ((hZ x).1 hx).1
  have hiZ : Disjoint ({i} : Set α) Z := by
    rw [Set.disjoint_singleton_left]; intro k; exact ((hZ i).1 k).2.1 rfl
  rw [← marg_msep h (L := L) (by simpa) (by simpa) hZL hiZ]
  rintro _ rfl _ rfl l hl
  rename_i i j
  have hadj : ¬ (G.marg L).Adj i j := fun k => hI ((marg_adj h).1 k).2.2.2
  have ant : ∀ {x y}, (G.marg L).Ant x y ↔ Path0 (G.marg L).dir x y := by
    intro x y
    refine ⟨fun k => ?_, ant_of_path0⟩
    exact path0_mono (fun a b k => k.resolve_right (mn.no_un a b)) k
  refine hI (marg_ind h (ind_of_open mn.proper hij hadj (Z := Z) ?_ ?_ ⟨hl.head, hl.last, hl.adj, hl.opn⟩ hl.nodup))
  · rintro x h1 h2 h3 ⟨y, hy⟩
    rw [hZ]
    refine ⟨((marg_adj h).1 hy).1, h1, h2, ?_⟩
    rw [ant, ant] at h3
    exact h3.imp (fun k => (reflTransGen_iff_eq_or_transGen.1 (marg_path0 k)).resolve_left (Ne.symm h1))
      (fun k => (reflTransGen_iff_eq_or_transGen.1 (marg_path0 k)).resolve_left (Ne.symm h2))
  · intro x hx
    rw [ant, ant]
    obtain ⟨h1, -, -, h4⟩ := (hZ x).1 hx
    exact h4.imp (fun k => marg_path0_of h h1 hi k.to_reflTransGen) (fun k => marg_path0_of h h1 hj k.to_reflTransGen)

/-- With an inducing walk, no set of observed nodes separates. -/
theorem marg_not_sep (h : G.Nice) {i j : α} (hij : i ≠ j) (hi : i ∉ L) (hj : j ∉ L) (hI : G.IndL L i j) {Z : Set α}
    (hZ : Disjoint Z L) (hiZ : i ∉ Z) : ¬ G.MSep {i} {j} Z := by
  classical
  have mn := marg_nice (L := L) h
  rw [← marg_msep h (L := L) (by simpa) (by simpa) hZ (by simpa), msep_iff mn.proper.ok]
  intro hs
  have hadj : (G.marg L).Adj i j := (marg_adj h).2 ⟨hi, hj, hij, hI⟩
  obtain ⟨l, hl, -⟩ := MG.walk_of_moves (M := (G.marg L).mg) (C := Z) (a := i) (b := j)
    (d := decide ((G.marg L).Into i j)) (.single ⟨hadj, by simp [mg], by simp, fun _ => hiZ⟩)
  exact hs i rfl j rfl ⟨l, hl⟩

/-- A graph between the original one and the one with all shortcuts has the separations of the original one. -/
theorem hybrid_msep (h : G.Nice) (hH : H.mg.Ok) (hS : Shortcut G H L) (hadj : ∀ i j, G.Adj i j → H.Adj i j)
    (hp : ∀ x y, Path0 H.dir x y ↔ Path0 G.dir x y) {A B : Set α} (hC : Disjoint C L) (hAC : Disjoint A C) :
    H.MSep A B C ↔ G.MSep A B C := by
  rw [msep_iff h.proper.ok, msep_iff hH]
  refine forall₂_congr fun a ha => forall₂_congr fun b hb => not_congr ?_
  have haC : a ∉ C := Set.disjoint_left.1 hAC ha
  constructor
  · rintro ⟨l, hl⟩
    obtain ⟨d, hd, -⟩ := MG.moves_of_walk haC l b hl
    obtain ⟨d', hd'⟩ := hS.active h hC hH.symm (fun x => fun ⟨c, hc, k⟩ => ⟨c, hc, (hp _ _).1 k⟩) hd
    obtain ⟨l', hl', -⟩ := MG.walk_of_moves hd'
    exact ⟨l', hl'⟩
  · rintro ⟨l, hl⟩
    obtain ⟨d, hd, -⟩ := MG.moves_of_walk haC l b hl
    have hi : ∀ i j, G.Adj i j → (H.Into i j ↔ G.Into i j) := fun i j k => by
      rw [hS.into i j (hadj _ _ k), h.into_iff k]
    have mv : ∀ s t, G.mg.Move C s t → H.mg.Move C s t := by
      rintro s t ⟨k1, k2, k3, k4⟩
      have e1 : H.mg.into s.1 t.1 ↔ G.mg.into s.1 t.1 := hi _ _ k1
      have e2 : H.mg.into t.1 s.1 ↔ G.mg.into t.1 s.1 := hi _ _ (h.proper.ok.symm _ _ k1)
      refine ⟨hadj _ _ k1, ?_, ?_, ?_⟩
      · rw [e1]; exact k2
      · rw [e2]; intro k
        obtain ⟨c, hc, k⟩ := k3 k
        exact ⟨c, hc, (hp _ _).2 k⟩
      · rw [e2]; exact k4
    obtain ⟨l', hl', -⟩ := MG.walk_of_moves (path0_mono mv hd)
    exact ⟨l', hl'⟩

theorem Seg.ends {P Q : α → Prop} {u v : α} {m e : Bool} (k : Seg G P Q u m v e) :
    (∃ x, G.Adj u x) ∧ ∃ x, G.Adj x v := by
  induction k with
  | edge h => exact ⟨⟨_, h⟩, ⟨_, h⟩⟩
  | join _ _ _ _ ih1 ih2 => exact ⟨ih1.1, ih2.2⟩

end Spec.Mixed
