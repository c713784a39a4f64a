import Verif.Spec.Triples
import Verif.Proof.InvPath

/-! # Inseparable triples of maximal ancestral graphs -/

namespace Spec.Mixed

universe u
variable {α : Type u} {M N : Mixed α} {V : Set α}
open Relation

/-! ## Connecting paths of colliders -/

/-- A path of colliders that are ancestors of its ends or of the conditioning set connects. -/
theorem not_msep_of_colliders (h : M.Proper) {i j v w : α} {Z : Set α} {P : α → Prop} (hi : i ∉ Z)
    (hP : ∀ x, P x → M.mg.An Z x ∨ Path0 M.dir x i ∨ Path0 M.dir x j) (hv : M.Into i v) (hPv : P v)
    (hc : ReflTransGen (fun a b => M.bi a b ∧ P b) v w) (hw : M.Into j w) : ¬ M.MSep {i} {j} Z := by
  classical
  -- first move
  have first : ∀ v, M.Adj i v → M.mg.Move Z (i, false) (v, decide (M.Into i v)) := by
    intro v hv
    refine ⟨hv, by simp [mg], ?_, fun _ => hi⟩
    rintro ⟨hd, -⟩; simp at hd
  have h1 : M.mg.Move Z (i, false) (v, true) := by
    have := first v (h.ok.into_adj _ _ hv)
    rwa [decide_eq_true hv] at this
  have step : ∀ a b, P a → M.Into b a → ReflTransGen (M.mg.Move Z) (i, false) (a, true) →
      (ReflTransGen (M.mg.Move Z) (i, false) (j, true) ∨ ReflTransGen (M.mg.Move Z) (i, false) (b, decide (M.Into a b))) := by
    intro a b ha hba hr
    have hadj : M.mg.adj a b := h.ok.symm _ _ (h.ok.into_adj _ _ hba)
    by_cases hA : M.mg.An Z a
    · exact Or.inr (hr.tail ⟨hadj, by simp [mg], fun _ => hA, fun hn => absurd ⟨rfl, hba⟩ hn⟩)
    · rcases (hP a ha).resolve_left hA with ha | ha
      · rcases reflTransGen_iff_eq_or_transGen.1 ha with rfl | ha
        · exact Or.inr (.single (first b hadj))
        · have hup := go_up h ha hA
          refine Or.inr (hup.tail ⟨hadj, by simp [mg], ?_, ?_⟩)
          · rintro ⟨hf, -⟩; simp at hf
          · intro _ hZ; exact hA ⟨a, hZ, .refl⟩
      · rcases reflTransGen_iff_eq_or_transGen.1 ha with rfl | ha
        · exact Or.inl hr
        · exact Or.inl (hr.trans (go_down h ha hA true))
  have main : ∀ x, ReflTransGen (fun a b => M.bi a b ∧ P b) v x → P x ∧
      (ReflTransGen (M.mg.Move Z) (i, false) (j, true) ∨ ReflTransGen (M.mg.Move Z) (i, false) (x, true)) := by
    intro x hx
    induction hx with
    | refl => exact ⟨hPv, Or.inr (.single h1)⟩
    | @tail b c _ hbc ih =>
      refine ⟨hbc.2, ?_⟩
      rcases ih.2 with k | k
      · exact Or.inl k
      · rcases step b c ih.1 (Or.inr (h.bi_symm _ _ hbc.1)) k with k | k
        · exact Or.inl k
        · rw [decide_eq_true (show M.Into b c from Or.inr hbc.1)] at k
          exact Or.inr k
  have fin : ∃ e, ReflTransGen (M.mg.Move Z) (i, false) (j, e) := by
    obtain ⟨haw, k | k⟩ := main w hc
    · exact ⟨_, k⟩
    · rcases step w j haw hw k with k | k
      · exact ⟨_, k⟩
      · exact ⟨_, k⟩
  obtain ⟨e, k⟩ := fin
  obtain ⟨l, hl, -⟩ := MG.walk_of_moves k
  rw [msep_iff h.ok]
  intro hs
  exact hs i rfl j rfl ⟨l, hl⟩

/-- Adjacent nodes are not separated. -/
theorem not_msep_of_adj (h : M.Proper) {i j : α} {Z : Set α} (ha : M.Adj i j) : ¬ M.MSep {i} {j} Z := by
  rw [msep_iff h.ok]
  intro hs
  refine hs i rfl j rfl ⟨[i, j], rfl, rfl, fun u v huv => ?_, fun u v w huv => ?_⟩
  · have := huv.eq_of_length (by simp)
    simp at this; obtain ⟨rfl, rfl⟩ := this; exact ha
  · have := huv.length_le; simp at this

theorem msep_symm (h : M.Proper) {i j : α} {Z : Set α} (hs : M.MSep {i} {j} Z) : M.MSep {j} {i} Z := by
  rw [msep_iff h.ok] at hs ⊢
  rintro a rfl b rfl ⟨l, hl⟩
  exact hs b rfl a rfl ⟨_, hl.reverse h.ok⟩

/-- The same starting with a bidirected edge, or with none. -/
theorem not_msep_of_chain (h : M.Proper) {i j w : α} {Z : Set α} {P : α → Prop} (hi : i ∉ Z)
    (hP : ∀ x, P x → M.mg.An Z x ∨ Path0 M.dir x i ∨ Path0 M.dir x j)
    (hc : ReflTransGen (fun a b => M.bi a b ∧ P b) i w) (hw : M.Into j w) : ¬ M.MSep {i} {j} Z := by
  rcases ReflTransGen.cases_head hc with rfl | ⟨v, hv, hc⟩
  · exact fun k => not_msep_of_adj h (h.ok.into_adj _ _ hw) (msep_symm h k)
  · exact not_msep_of_colliders h hi hP (Or.inr hv.1) hv.2 hc hw

/-! ## The structure of inseparable triples -/

/-- Ancestors of two nodes, and the nodes themselves. -/
def An2 (M : Mixed α) (v w x : α) : Prop := Path0 M.dir x v ∨ Path0 M.dir x w

/-- Ancestors of three nodes, and the nodes themselves. -/
def An3 (M : Mixed α) (v w z x : α) : Prop := Path0 M.dir x v ∨ Path0 M.dir x w ∨ Path0 M.dir x z

/-- `v ↔ w`, and `z` is in the tail of the two. -/
def Head2 (M : Mixed α) (v w z : α) : Prop :=
  M.bi v w ∧ z ≠ v ∧ z ≠ w ∧
    ∃ d, ReflTransGen (fun a b => M.bi a b ∧ M.An2 v w b) v d ∧ (M.dir z d ∨ M.bi z d ∧ M.An2 v w z)

/-- `v ↔ w`, no one of the three nodes is an ancestor of another, and `z` is in the district of `v` among the ancestors. -/
def Head3 (M : Mixed α) (v w z : α) : Prop :=
  M.bi v w ∧ (¬ M.An2 v w z ∧ ¬ Path0 M.dir v z ∧ ¬ Path0 M.dir w z) ∧
    ∃ d, ReflTransGen (fun a b => M.bi a b ∧ M.An3 v w z b) v d ∧ M.bi z d

variable [DecidableEq α]

/-- The triples that are found by `discriminating_triples`. -/
def CodeTriple (M : Mixed α) (s : Finset α) : Prop :=
  ∃ v w z, s = {v, w, z} ∧ ((M.Head2 v w z ∨ M.Head3 v w z) ∧ ¬ (M.Adj v z ∧ M.Adj w z) ∨ M.VStruct v w z)

theorem insep_of_chain (h : M.Proper) {v w z d : α} (hvw : M.bi v w) (hvw' : v ≠ w) (hzv : z ≠ v) (hzw : z ≠ w)
    (hc : ReflTransGen (fun a b => M.bi a b ∧ M.An3 v w z b) v d) (hz : M.Into z d) :
    M.Inseparable V {v, w, z} := by
  have kvz : ∀ Z : Set α, v ∉ Z → w ∈ Z → ¬ M.MSep {v} {z} Z := by
    intro Z hv hw
    refine not_msep_of_chain h hv (fun x hx => ?_) hc hz
    rcases hx with k | k | k
    · exact Or.inr (Or.inl k)
    · exact Or.inl ⟨w, hw, k⟩
    · exact Or.inr (Or.inr k)
  have kwz : ∀ Z : Set α, w ∉ Z → v ∈ Z → ¬ M.MSep {w} {z} Z := by
    intro Z hw hv
    refine not_msep_of_chain (P := M.An3 v w z) h hw (fun x hx => ?_)
      (ReflTransGen.head ⟨h.bi_symm _ _ hvw, Or.inl .refl⟩ hc) hz
    rcases hx with k | k | k
    · exact Or.inl ⟨v, hv, k⟩
    · exact Or.inr (Or.inl k)
    · exact Or.inr (Or.inr k)
  intro a ha b hb hab Z _ haZ hbZ hin hs
  simp only [Finset.mem_insert, Finset.mem_singleton, forall_eq_or_imp, forall_eq] at ha hb hin
  rcases ha with rfl | rfl | rfl <;> rcases hb with rfl | rfl | rfl
  · exact hab rfl
  · exact not_msep_of_adj h (Or.inr (Or.inr (Or.inl hvw))) hs
  · exact kvz Z haZ (hin.2.1 hvw'.symm hzw.symm) hs
  · exact not_msep_of_adj h (Or.inr (Or.inr (Or.inl (h.bi_symm _ _ hvw)))) hs
  · exact hab rfl
  · exact kwz Z haZ (hin.1 hvw' hzv.symm) hs
  · exact kvz Z hbZ (hin.2.1 hzw.symm hvw'.symm) (msep_symm h hs)
  · exact kwz Z hbZ (hin.1 hzv.symm hvw') (msep_symm h hs)
  · exact hab rfl

/-- Between inseparable nodes without an edge there is a path of colliders, ancestors of the three nodes. -/
theorem colliders_of_insep (h : M.Proper) (vM : ∀ x y, M.Adj x y → x ∈ V) {a b c : α} (hs : ∀ x ∈ ({a, b, c} : Finset α), x ∈ V)
    (hab : a ≠ b) (ins : M.Inseparable V {a, b, c}) (hadj : ¬ M.Adj a b) :
    ∃ v w, M.Into a v ∧ M.Inner (M.An3 a b c) a b v ∧
      ReflTransGen (fun x y => M.bi x y ∧ M.Inner (M.An3 a b c) a b y) v w ∧ M.Into b w := by
  have key : ∀ x, M.Inner (fun x => M.Ant x a ∨ M.Ant x b ∨ M.Ant x c) a b x → M.Inner (M.An3 a b c) a b x := by
    rintro x ⟨⟨u, hu⟩, h1, h2, k⟩
    exact ⟨⟨u, hu⟩, h1, h2, k.imp (ant_head h hu) (Or.imp (ant_head h hu) (ant_head h hu))⟩
  have := ins a (by simp) b (by simp) hab {x | x ∈ V ∧ x ≠ a ∧ x ≠ b ∧ (M.Ant x a ∨ M.Ant x b ∨ M.Ant x c)}
    (fun x hx => hx.1) (fun k => k.2.1 rfl) (fun k => k.2.2.1 rfl) (fun x hx k1 k2 => by
      refine ⟨hs x hx, k1, k2, Or.inr (Or.inr ?_)⟩
      simp only [Finset.mem_insert, Finset.mem_singleton] at hx
      obtain rfl := (hx.resolve_left k1).resolve_left k2
      exact .refl)
  unfold MSep at this
  push Not at this
  obtain ⟨a', rfl, b', rfl, l, hl⟩ := this
  obtain ⟨v, w, h1, h2, h3, h4⟩ := colliders_of_open h hab hadj (K := fun x => M.Ant x a' ∨ M.Ant x b' ∨ M.Ant x c)
    (fun x y k k' => k'.imp (ReflTransGen.trans k) (Or.imp (ReflTransGen.trans k) (ReflTransGen.trans k)))
    (Z := {x | x ∈ V ∧ x ≠ a' ∧ x ≠ b' ∧ (M.Ant x a' ∨ M.Ant x b' ∨ M.Ant x c)})
    (Or.inl .refl) (Or.inr (Or.inl .refl)) (by rintro x k1 k2 k3 ⟨y, hy⟩; exact ⟨vM x y hy, k1, k2, k3⟩)
    (fun x hx => hx.2.2.2) ⟨hl.head, hl.last, hl.adj, hl.opn⟩ hl.nodup
  exact ⟨v, w, h1, key _ h2, path0_mono (fun _ _ k => ⟨k.1, key _ k.2⟩) h3, h4⟩

omit [DecidableEq α] in
theorem anc2_of_inner {a b c x : α} (hc : M.An2 a b c) (hx : M.Inner (M.An3 a b c) a b x) : M.Anc2 a b x := by
  obtain ⟨-, h1, h2, k⟩ := hx
  have : M.An2 a b x := by
    rcases k with k | k | k
    · exact Or.inl k
    · exact Or.inr k
    · exact hc.imp (ReflTransGen.trans k) (ReflTransGen.trans k)
  exact this.imp (fun k => (reflTransGen_iff_eq_or_transGen.1 k).resolve_left (Ne.symm h1))
    (fun k => (reflTransGen_iff_eq_or_transGen.1 k).resolve_left (Ne.symm h2))

/-- In a maximal graph, if the third node is an ancestor of one of the other two, these are adjacent. -/
theorem adj_of_insep (h : M.Proper) (mM : M.Maximal V) (vM : ∀ x y, M.Adj x y → x ∈ V) {a b c : α}
    (hs : ∀ x ∈ ({a, b, c} : Finset α), x ∈ V) (hab : a ≠ b)
    (ins : M.Inseparable V {a, b, c}) (hc : M.An2 a b c) : M.Adj a b := by
  by_contra hadj
  obtain ⟨v, w, h1, h2, h3, h4⟩ := colliders_of_insep h vM hs hab ins hadj
  refine (maximal_iff h vM).1 mM a (hs a (by simp)) b (hs b (by simp)) hab hadj
    ⟨v, w, h1, anc2_of_inner hc h2, path0_mono (fun _ _ k => ⟨k.1, anc2_of_inner hc k.2⟩) h3, h4⟩

omit [DecidableEq α] in
/-- The chain of colliders seen from the other end. -/
theorem chain_symm (h : M.Proper) {P : α → Prop} {v w : α} (hv : P v) (hc : ReflTransGen (fun a b => M.bi a b ∧ P b) v w) :
    P w ∧ ReflTransGen (fun a b => M.bi a b ∧ P b) w v := by
  induction hc with
  | refl => exact ⟨hv, .refl⟩
  | tail _ hbc ih => exact ⟨hbc.2, ReflTransGen.head ⟨h.bi_symm _ _ hbc.1, ih.1⟩ ih.2⟩

private theorem rot1 {a b c : α} : ({b, c, a} : Finset α) = {a, b, c} := by ext x; simp; tauto

private theorem rot2 {a b c : α} : ({a, c, b} : Finset α) = {a, b, c} := by ext x; simp; tauto

private theorem rot3 {a b c : α} : ({b, a, c} : Finset α) = {a, b, c} := by ext x; simp; tauto

/-- Cases 1 and 2: `a` is an ancestor of one of the others. -/
theorem code_of_anc (hM : M.Anc) (mM : M.Maximal V) (vM : ∀ x y, M.Adj x y → x ∈ V) {a b c v w u : α}
    (hs : ∀ x ∈ ({a, b, c} : Finset α), x ∈ V) (hab : a ≠ b) (hac : a ≠ c) (hbc : b ≠ c)
    (ins : M.Inseparable V {a, b, c}) (hc : ¬ M.An2 a b c) (hu : M.Into u c)
    (ha : M.An2 c b a) (h1 : M.Into a v) (h2 : M.Inner (M.An3 a b c) a b v)
    (h3 : ReflTransGen (fun x y => M.bi x y ∧ M.Inner (M.An3 a b c) a b y) v w) (h4 : M.Into b w)
    (hb : ¬ Path M.dir b c) : M.Head2 b c a := by
  have h := hM.proper
  have e : ({b, c, a} : Finset α) = {a, b, c} := rot1
  have bc : M.Adj b c := adj_of_insep h mM vM (c := a) (by rw [e]; exact hs) hbc (by rw [e]; exact ins) ha.symm
  have hba : ¬ Path M.dir b a := by
    intro k
    rcases ha with ha | ha
    · exact hb (k.trans_left ha)
    · exact hM.anc.acyclic _ (k.trans_left ha)
  have hbi : M.bi b c := by
    rcases bc with k | k | k | k
    · exact absurd (.single k) hb
    · exact absurd (Or.inr (.single k)) hc
    · exact k
    · exact absurd hu (h.tails _ _ _ (h.un_symm _ _ k))
  have conv : ∀ x, M.Inner (M.An3 a b c) a b x → M.An2 b c x := by
    rintro x ⟨-, -, -, k | k | k⟩
    · exact ha.symm.imp (ReflTransGen.trans k) (ReflTransGen.trans k)
    · exact Or.inl k
    · exact Or.inr k
  obtain ⟨hw, h3⟩ := chain_symm h h2 h3
  have hbw : M.bi b w := by
    rcases h4 with k | k
    · exfalso
      rcases conv w hw with k' | k'
      · exact hM.anc.acyclic b (TransGen.head' k k')
      · exact hb (TransGen.head' k k')
    · exact k
  refine ⟨hbi, hab, hac, v, ReflTransGen.head ⟨hbw, conv w hw⟩ (path0_mono (fun _ _ k => ⟨k.1, conv _ k.2⟩) h3), ?_⟩
  rcases h1 with k | k
  · exact Or.inl k
  · exact Or.inr ⟨k, ha.symm⟩

omit [DecidableEq α] in
/-- Case 3: no one of the three is an ancestor of another. -/
theorem code_of_barren (hM : M.Anc) {a b c v w u : α}
    (hc : ¬ M.An2 a b c) (hu : M.Into u c) (h1 : M.Into a v) (h2 : M.Inner (M.An3 a b c) a b v)
    (h3 : ReflTransGen (fun x y => M.bi x y ∧ M.Inner (M.An3 a b c) a b y) v w) (h4 : M.Into b w)
    (ac : M.Adj a c) (ha : ¬ M.An2 b c a) (hb : ¬ M.An2 a c b) : M.Head3 a c b := by
  have h := hM.proper
  have hbi : M.bi a c := by
    rcases ac with k | k | k | k
    · exact absurd (Or.inr (.single k)) ha
    · exact absurd (Or.inl (.single k)) hc
    · exact k
    · exact absurd hu (h.tails _ _ _ (h.un_symm _ _ k))
  have conv : ∀ x, M.Inner (M.An3 a b c) a b x → M.An3 a c b x := by
    rintro x ⟨-, -, -, k | k | k⟩
    · exact Or.inl k
    · exact Or.inr (Or.inr k)
    · exact Or.inr (Or.inl k)
  have hw := (chain_symm h h2 h3).1
  have hbw : M.bi b w := by
    rcases h4 with k | k
    · exfalso
      rcases hw.2.2.2 with k' | k' | k'
      · exact hb (Or.inl (ReflTransGen.head k k'))
      · exact hM.anc.acyclic b (TransGen.head' k k')
      · exact hb (Or.inr (ReflTransGen.head k k'))
    · exact k
  have hav : M.bi a v := by
    rcases h1 with k | k
    · exfalso
      rcases h2.2.2.2 with k' | k' | k'
      · exact hM.anc.acyclic a (TransGen.head' k k')
      · exact ha (Or.inl (ReflTransGen.head k k'))
      · exact ha (Or.inr (ReflTransGen.head k k'))
    · exact k
  exact ⟨hbi, ⟨hb, fun k => ha (Or.inl k), fun k => hc (Or.inr k)⟩, w,
    ReflTransGen.head ⟨hav, conv v h2⟩ (path0_mono (fun _ _ k => ⟨k.1, conv _ k.2⟩) h3), hbw⟩

theorem code_of_insep (hM : M.Anc) (mM : M.Maximal V) (vM : ∀ x y, M.Adj x y → x ∈ V) {a b c : α}
    (hs : ∀ x ∈ ({a, b, c} : Finset α), x ∈ V) (hab : a ≠ b) (hac : a ≠ c) (hbc : b ≠ c)
    (ins : M.Inseparable V {a, b, c}) (hadj : ¬ M.Adj a b) (hedge : M.Adj a c ∨ M.Adj b c) : M.CodeTriple {a, b, c} := by
  have h := hM.proper
  have hc : ¬ M.An2 a b c := fun k => hadj (adj_of_insep h mM vM hs hab ins k)
  obtain ⟨v, w, h1, h2, h3, h4⟩ := colliders_of_insep h vM hs hab ins hadj
  obtain ⟨hw, h3'⟩ := chain_symm h h2 h3
  obtain ⟨u, hu⟩ : ∃ u, M.Into u c := by
    by_contra hno
    have key : ∀ x, M.Inner (M.An3 a b c) a b x → M.Anc2 a b x := by
      rintro x ⟨⟨u, hu⟩, k1, k2, k | k | k⟩
      · exact Or.inl ((reflTransGen_iff_eq_or_transGen.1 k).resolve_left (Ne.symm k1))
      · exact Or.inr ((reflTransGen_iff_eq_or_transGen.1 k).resolve_left (Ne.symm k2))
      · exfalso
        rcases ReflTransGen.cases_tail k with rfl | ⟨y, -, hy⟩
        · exact hno ⟨u, hu⟩
        · exact hno ⟨y, Or.inl hy⟩
    exact (maximal_iff h vM).1 mM a (hs a (by simp)) b (hs b (by simp)) hab hadj
      ⟨v, w, h1, key _ h2, path0_mono (fun _ _ k => ⟨k.1, key _ k.2⟩) h3, h4⟩
  -- the same with `a` and `b` exchanged
  have e : ({b, a, c} : Finset α) = {a, b, c} := rot3
  have hadj' : ¬ M.Adj b a := fun k => hadj (hM.symm k)
  have inn : ∀ x, M.Inner (M.An3 a b c) a b x → M.Inner (M.An3 b a c) b a x := by
    rintro x ⟨k1, k2, k3, k⟩
    exact ⟨k1, k3, k2, by unfold An3 at k ⊢; tauto⟩
  have hc' : ¬ M.An2 b a c := fun k => hc k.symm
  have h3'' : ReflTransGen (fun x y => M.bi x y ∧ M.Inner (M.An3 b a c) b a y) w v :=
    path0_mono (fun _ _ k => ⟨k.1, inn _ k.2⟩) h3'
  have A : M.An2 c b a → ¬ Path M.dir b c → M.CodeTriple {a, b, c} := by
    intro k1 k2
    refine ⟨b, c, a, rot1.symm, Or.inl ⟨Or.inl ?_, fun k => hadj (hM.symm k.1)⟩⟩
    exact code_of_anc hM mM vM hs hab hac hbc ins hc hu k1 h1 h2 h3 h4 k2
  have B : M.An2 c a b → ¬ Path M.dir a c → M.CodeTriple {a, b, c} := by
    intro k1 k2
    refine ⟨a, c, b, rot2.symm, Or.inl ⟨Or.inl ?_, fun k => hadj k.1⟩⟩
    exact code_of_anc hM mM vM (by rw [e]; exact hs) hab.symm hbc hac (by rw [e]; exact ins) hc' hu k1 h4 (inn _ hw) h3''
      h1 k2
  by_cases pa : Path M.dir a c
  · by_cases pb : Path M.dir b c
    · have dirs : ∀ x, M.Adj x c → Path M.dir x c → M.Into x c := by
        intro x k hp
        rcases k with k | k | k | k
        · exact Or.inl k
        · exact absurd (hp.tail k) (hM.anc.acyclic x)
        · exact Or.inr k
        · exact absurd hu (h.tails _ _ _ (h.un_symm _ _ k))
      have ac := adj_of_insep h mM vM (a := a) (b := c) (c := b) (by rw [rot2]; exact hs) hac
        (by rw [rot2]; exact ins) (Or.inr pb.to_reflTransGen)
      have bc := adj_of_insep h mM vM (a := b) (b := c) (c := a) (by rw [rot1]; exact hs) hbc
        (by rw [rot1]; exact ins) (Or.inr pa.to_reflTransGen)
      exact ⟨a, c, b, rot2.symm, Or.inr ⟨hab, ⟨dirs a ac pa, dirs b bc pb⟩, hadj⟩⟩
    · exact A (Or.inl pa.to_reflTransGen) pb
  · by_cases pb : Path M.dir b c
    · exact B (Or.inl pb.to_reflTransGen) pa
    · by_cases qa : Path M.dir a b
      · exact A (Or.inr qa.to_reflTransGen) pb
      · by_cases qb : Path M.dir b a
        · exact B (Or.inr qb.to_reflTransGen) pa
        · have no : ∀ {x y : α}, x ≠ y → ¬ Path M.dir x y → ¬ Path0 M.dir x y := fun k1 k2 k =>
            k2 ((reflTransGen_iff_eq_or_transGen.1 k).resolve_left k1.symm)
          rcases hedge with ac | bc
          · refine ⟨a, c, b, rot2.symm, Or.inl ⟨Or.inr ?_, fun k => hadj k.1⟩⟩
            exact code_of_barren hM hc hu h1 h2 h3 h4 ac
              (fun k => k.elim (no hab qa) (no hac pa)) (fun k => k.elim (no hab.symm qb) (no hbc pb))
          · refine ⟨b, c, a, rot1.symm, Or.inl ⟨Or.inr ?_, fun k => hadj' k.1⟩⟩
            exact code_of_barren hM hc' hu h4 (inn _ hw) h3'' h1 bc
              (fun k => k.elim (no hab.symm qb) (no hbc pb)) (fun k => k.elim (no hab qa) (no hac pa))

omit [DecidableEq α] in
theorem Head2.chain {v w z : α} (k : M.Head2 v w z) :
    z ≠ v ∧ z ≠ w ∧ ∃ d, ReflTransGen (fun a b => M.bi a b ∧ M.An3 v w z b) v d ∧ M.Into z d := by
  obtain ⟨-, h1, h2, d, h3, h4⟩ := k
  exact ⟨h1, h2, d, path0_mono (fun _ _ k => ⟨k.1, k.2.imp_right Or.inl⟩) h3, h4.imp_right And.left⟩

omit [DecidableEq α] in
theorem Head3.chain {v w z : α} (k : M.Head3 v w z) :
    z ≠ v ∧ z ≠ w ∧ ∃ d, ReflTransGen (fun a b => M.bi a b ∧ M.An3 v w z b) v d ∧ M.Into z d := by
  obtain ⟨-, ⟨h1, -, -⟩, d, h3, h4⟩ := k
  exact ⟨by rintro rfl; exact h1 (Or.inl .refl), by rintro rfl; exact h1 (Or.inr .refl), d, h3, Or.inr h4⟩

theorem insep_of_vstruct (h : M.Proper) {a b c : α} (hv : M.VStruct a c b) (hac : a ≠ c) (hbc : b ≠ c) :
    M.Inseparable V {a, c, b} := by
  obtain ⟨hab, ⟨h1, h2⟩, -⟩ := hv
  have key : ∀ Z : Set α, a ∉ Z → c ∈ Z → ¬ M.MSep {a} {b} Z := fun Z hZ hc =>
    not_msep_of_colliders (P := fun x => x = c) h hZ (by rintro x rfl; exact Or.inl ⟨x, hc, .refl⟩) h1 rfl .refl h2
  intro x hx y hy hxy Z _ hxZ hyZ hin hs
  simp only [Finset.mem_insert, Finset.mem_singleton, forall_eq_or_imp, forall_eq] at hx hy hin
  rcases hx with rfl | rfl | rfl <;> rcases hy with rfl | rfl | rfl
  · exact hxy rfl
  · exact not_msep_of_adj h (h.ok.into_adj _ _ h1) hs
  · exact key Z hxZ (hin.2.1 hac.symm hbc.symm) hs
  · exact not_msep_of_adj h (h.ok.symm _ _ (h.ok.into_adj _ _ h1)) hs
  · exact hxy rfl
  · exact not_msep_of_adj h (h.ok.symm _ _ (h.ok.into_adj _ _ h2)) hs
  · exact key Z hyZ (hin.2.1 hbc.symm hac.symm) (msep_symm h hs)
  · exact not_msep_of_adj h (h.ok.into_adj _ _ h2) hs
  · exact hxy rfl

/-- The triples that are found are the inseparable ones. -/
theorem codeTriple_iff (hM : M.Anc) (mM : M.Maximal V) (vM : ∀ x y, M.Adj x y → x ∈ V) (s : Finset α) :
    M.CodeTriple s ↔ M.InsepTriple V s := by
  have h := hM.proper
  constructor
  · rintro ⟨v, w, z, rfl, ⟨k, hn⟩ | k⟩
    · have hvw : M.bi v w := k.elim (·.1) (·.1)
      have hne : v ≠ w := by rintro rfl; exact hM.loop _ (Or.inr (Or.inr (Or.inl hvw)))
      obtain ⟨hzv, hzw, d, hc, hz⟩ := k.elim Head2.chain Head3.chain
      have avw : M.Adj v w := Or.inr (Or.inr (Or.inl hvw))
      refine ⟨Finset.card_eq_three.2 ⟨v, w, z, hne, hzv.symm, hzw.symm, rfl⟩, ?_, ⟨v, by simp, w, by simp, avw⟩, ?_,
        insep_of_chain h hvw hne hzv hzw hc hz⟩
      · simp only [Finset.mem_insert, Finset.mem_singleton, forall_eq_or_imp, forall_eq]
        exact ⟨vM _ _ avw, vM _ _ (hM.symm avw), vM _ _ (h.ok.into_adj _ _ hz)⟩
      · rcases not_and_or.1 hn with k | k
        · exact ⟨v, by simp, z, by simp, hzv.symm, k⟩
        · exact ⟨w, by simp, z, by simp, hzw.symm, k⟩
    · have a1 := h.ok.into_adj _ _ k.2.1.1
      have a2 := h.ok.into_adj _ _ k.2.1.2
      have n1 : v ≠ w := by rintro rfl; exact hM.loop _ a1
      have n2 : z ≠ w := by rintro rfl; exact hM.loop _ a2
      refine ⟨Finset.card_eq_three.2 ⟨v, w, z, n1, k.1, n2.symm, rfl⟩, ?_, ⟨v, by simp, w, by simp, a1⟩,
        ⟨v, by simp, z, by simp, k.1, k.2.2⟩, insep_of_vstruct h k n1 n2⟩
      simp only [Finset.mem_insert, Finset.mem_singleton, forall_eq_or_imp, forall_eq]
      exact ⟨vM _ _ a1, vM _ _ (hM.symm a1), vM _ _ a2⟩
  · rintro ⟨hcard, hs, ⟨x, hx, y, hy, hxy⟩, ⟨a, ha, b, hb, hab, hadj⟩, ins⟩
    obtain ⟨c, hac, hbc, rfl⟩ : ∃ c, a ≠ c ∧ b ≠ c ∧ s = {a, b, c} := by
      have h2 : ((s.erase a).erase b).card = 1 := by
        rw [Finset.card_erase_of_mem (Finset.mem_erase.2 ⟨hab.symm, hb⟩), Finset.card_erase_of_mem ha, hcard]
      obtain ⟨c, hc⟩ := Finset.card_eq_one.1 h2
      have hc' : c ∈ (s.erase a).erase b := by rw [hc]; simp
      simp only [Finset.mem_erase] at hc'
      refine ⟨c, hc'.2.1.symm, hc'.1.symm, ?_⟩
      ext x
      have := congrArg (x ∈ ·) hc
      simp only [Finset.mem_erase, Finset.mem_singleton, eq_iff_iff] at this
      simp only [Finset.mem_insert, Finset.mem_singleton]
      constructor
      · intro hx; by_cases e1 : x = a
        · exact Or.inl e1
        · by_cases e2 : x = b
          · exact Or.inr (Or.inl e2)
          · exact Or.inr (Or.inr (this.1 ⟨e2, e1, hx⟩))
      · rintro (rfl | rfl | rfl)
        · exact ha
        · exact hb
        · exact hc'.2.2
    refine code_of_insep hM mM vM hs hab hac hbc ins hadj ?_
    simp only [Finset.mem_insert, Finset.mem_singleton] at hx hy
    rcases hx with rfl | rfl | rfl <;> rcases hy with rfl | rfl | rfl
    · exact absurd hxy (hM.loop _)
    · exact absurd hxy hadj
    · exact Or.inl hxy
    · exact absurd (hM.symm hxy) hadj
    · exact absurd hxy (hM.loop _)
    · exact Or.inr hxy
    · exact Or.inl (hM.symm hxy)
    · exact Or.inr (hM.symm hxy)
    · exact absurd hxy (hM.loop _)

/-! ## Markov equivalence -/

omit [DecidableEq α] in
/-- The triples depend on the adjacencies and separations only. -/
theorem insepTriple_of_equiv (he : M.MarkovEquiv N V) (ha : ∀ u v, M.Adj u v ↔ N.Adj u v) {s : Finset α}
    (h : M.InsepTriple V s) : N.InsepTriple V s := by
  obtain ⟨h1, h2, ⟨x, hx, y, hy, hxy⟩, ⟨a, ha', b, hb, hab, hadj⟩, ins⟩ := h
  refine ⟨h1, h2, ⟨x, hx, y, hy, (ha _ _).1 hxy⟩, ⟨a, ha', b, hb, hab, fun k => hadj ((ha _ _).2 k)⟩, ?_⟩
  intro i hi j hj hij Z hZ hiZ hjZ hin hs
  exact ins i hi j hj hij Z hZ hiZ hjZ hin ((he {i} {j} Z (by simpa using h2 i hi) (by simpa using h2 j hj) hZ (by simpa using hij)
    (by simpa using hiZ) (by simpa using hjZ)).2 hs)

/-- A collider of a discriminating path is a collider in every maximal ancestral graph with the same triples in which the path
is discriminating. -/
theorem collider_of_triples (hM : M.Anc) (hN : N.Anc) (mM : M.Maximal V) (mN : N.Maximal V)
    (vM : ∀ x y, M.Adj x y → x ∈ V) (vN : ∀ x y, N.Adj x y → x ∈ V) (ht : ∀ s, M.CodeTriple s → N.CodeTriple s)
    {x q b c : α} {qs : List α} (dM : M.Discriminating x (qs ++ [q]) b c) (dN : N.Discriminating x (qs ++ [q]) b c)
    (k : M.Collider q b c) : N.Collider q b c := by
  have h := hM.proper
  obtain ⟨p, i, hi, e0, e1, e2, key⟩ := exists_numbering x qs q b
  obtain ⟨c1, -, c3⟩ := key M c dM
  have hqc : M.dir q c := dM.parent q (by simp)
  have hqb : M.bi q b := hM.bi_of k.1 (by
    have := (c1 (i - 1) (by omega) (by omega)).1.2
    rwa [show i - 1 + 1 = i by ring, e1, e2] at this)
  have hbc : M.bi b c := by
    rcases k.2 with k2 | k2
    · exact absurd (.tail (.single hqc) k2) (hM.anc.almost _ _ hqb)
    · exact h.bi_symm _ _ k2
  have hxb : x ≠ b := by
    have := dM.nodup
    rintro rfl
    simp at this
  have hxc : x ≠ c := by rw [← e0]; exact c3 0 le_rfl (by omega)
  have hbc' : b ≠ c := by rw [← e2]; exact c3 i (by omega) le_rfl
  have chain : ∀ n : ℕ, (n : ℤ) + 1 ≤ i → ReflTransGen (fun u v => M.bi u v ∧ M.An3 b c x v) b (p (i - n)) := by
    intro n
    induction n with
    | zero => intro _; rw [show i - ((0 : ℕ) : ℤ) = i by simp, e2]
    | succ n ih =>
      intro hn
      push_cast at hn
      refine (ih (by omega)).tail ⟨?_, Or.inr (Or.inl (.single (c1 _ (by push_cast; omega) (by push_cast; omega)).2))⟩
      rw [show i - ((n + 1 : ℕ) : ℤ) = i - n - 1 by push_cast; ring]
      have k1 := (c1 (i - n - 1) (by omega) (by omega)).1.2
      rw [show i - (n : ℤ) - 1 + 1 = i - n by ring] at k1
      rcases Nat.eq_zero_or_pos n with rfl | hpos
      · rw [show i - ((0 : ℕ) : ℤ) = i by simp, e1, e2]; exact h.bi_symm _ _ hqb
      · exact hM.bi_of k1 (c1 (i - n) (by omega) (by omega)).1.1
  have hx1 : M.Into x (p 1) := by
    have := (c1 1 (by omega) (by omega)).1.1
    rwa [show (1 : ℤ) - 1 = 0 by ring, e0] at this
  have hc := chain (i - 1).toNat (by omega)
  rw [show i - ((i - 1).toNat : ℤ) = 1 by omega] at hc
  have abc : M.Adj b c := Or.inr (Or.inr (Or.inl hbc))
  have tM : M.InsepTriple V {b, c, x} := by
    refine ⟨Finset.card_eq_three.2 ⟨b, c, x, hbc', hxb.symm, hxc.symm, rfl⟩, ?_, ⟨b, by simp, c, by simp, abc⟩,
      ⟨x, by simp, c, by simp, hxc, dM.start⟩, insep_of_chain h hbc hbc' hxb hxc hc hx1⟩
    simp only [Finset.mem_insert, Finset.mem_singleton, forall_eq_or_imp, forall_eq]
    exact ⟨vM _ _ abc, vM _ _ (hM.symm abc), vM _ _ (h.ok.into_adj _ _ hx1)⟩
  have tN := (codeTriple_iff hN mN vN _).1 (ht _ ((codeTriple_iff hM mM vM _).2 tM))
  by_contra hcol
  have e : ({x, c, b} : Finset α) = {b, c, x} := by ext y; simp; clear * -; tauto
  refine dN.start (adj_of_insep hN.proper mN vN (a := x) (b := c) (c := b) (by rw [e]; exact tN.sub) hxc
    (by rw [e]; exact tN.insep) (Or.inr ?_))
  have hbq : N.Into b q := by
    have := ((key N c dN).1 (i - 1) (by omega) (by omega)).1.2
    rwa [show i - 1 + 1 = i by ring, e1, e2] at this
  by_cases hqb' : N.Into q b
  · exact .single (hN.out hqb' dN.last fun k => hcol ⟨hqb', k⟩)
  · rcases hbq with k' | k'
    · exact ReflTransGen.head k' (.single (dN.parent q (by simp)))
    · exact absurd (Or.inr (hN.bi_symm _ _ k')) hqb'

/-- Hu and Evans: maximal ancestral graphs are Markov equivalent if and only if they have the same adjacencies, unshielded
colliders and triples. -/
theorem markovEquiv_iff_triples (hM : M.Anc) (hN : N.Anc) (mM : M.Maximal V) (mN : N.Maximal V)
    (vM : ∀ x y, M.Adj x y → x ∈ V) (vN : ∀ x y, N.Adj x y → x ∈ V) :
    M.MarkovEquiv N V ↔ (∀ u v, M.Adj u v ↔ N.Adj u v) ∧ (∀ u v w, M.VStruct u v w ↔ N.VStruct u v w) ∧
      ∀ s, M.CodeTriple s ↔ N.CodeTriple s := by
  rw [markovEquiv_iff hM hN mM mN vM vN]
  constructor
  · intro k
    have he := (markovEquiv_iff hM hN mM mN vM vN).2 k
    have he' := (markovEquiv_iff hN hM mN mM vN vM).2 k.symm
    refine ⟨k.adj, k.vstruct, fun s => ?_⟩
    rw [codeTriple_iff hM mM vM, codeTriple_iff hN mN vN]
    exact ⟨insepTriple_of_equiv he k.adj, insepTriple_of_equiv he' k.symm.adj⟩
  · rintro ⟨h1, h2, h3⟩
    exact ⟨h1, h2, fun x qs q b c dM dN => ⟨collider_of_triples hM hN mM mN vM vN (fun s => (h3 s).1) dM dN,
      collider_of_triples hN hM mN mM vN vM (fun s => (h3 s).2) dN dM⟩⟩

end Spec.Mixed
