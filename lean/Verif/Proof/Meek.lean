import Verif.Proof.Chordal
import Verif.Proof.Covered
import Verif.Spec.Essential

/-!
# Orientation rules

`Meek E B` closes the v-structure arcs of `E`, together with the arcs of `E` between pairs related by `B`, under the
three orientation rules. For a `B` that cuts triangles as intervention targets do (`Cotrans`), the arcs of `E` that are
not obtained are exactly those that some equivalent graph reverses.
-/

namespace Spec

universe u
variable {α : Type u} {E F B : α → α → Prop}

inductive Meek (E B : α → α → Prop) : α → α → Prop
  | base {a b : α} : E a b → B a b → Meek E B a b
  | vstr {a c b : α} : VStruct E a c b → Meek E B a c
  | r1 {k i j : α} : Meek E B k i → k ≠ j → ¬ Adj E k j → E i j → Meek E B i j
  | r2 {i k j : α} : Meek E B i k → Meek E B k j → E i j → Meek E B i j
  | r3 {i j k l : α} : VStruct E k j l → Adj E i k → Adj E i l → ¬ (E k i ∧ E l i) → E i j → Meek E B i j

/-- Symmetric, and a related pair is separated by every third node. -/
structure Cotrans (B : α → α → Prop) : Prop where
  symm : ∀ a b, B a b → B b a
  tri : ∀ a b c, B a b → B a c ∨ B c b

theorem cutBy_cotrans (T : Set (Set α)) : Cotrans (CutBy T) where
  symm := by rintro a b ⟨I, hI, h⟩; exact ⟨I, hI, fun h' => h h'.symm⟩
  tri := by
    rintro a b c ⟨I, hI, h⟩
    by_cases h' : a ∈ I ↔ c ∈ I
    · exact Or.inr ⟨I, hI, fun h'' => h (h'.trans h'')⟩
    · exact Or.inl ⟨I, hI, h'⟩

theorem cotrans_false : Cotrans (fun _ _ : α => False) := ⟨fun _ _ h => h, fun _ _ _ h => h.elim⟩

theorem Meek.sub {a b : α} (h : Meek E B a b) : E a b := by
  cases h with
  | base h _ => exact h
  | vstr h => exact h.2.1
  | r1 _ _ _ h => exact h
  | r2 _ _ h => exact h
  | r3 _ _ _ _ h => exact h

/-- Soundness: every member of the class contains the arcs obtained. -/
theorem Meek.sound (hE : Acyclic E) (hF : Acyclic F) (h : SameSkelV E F) (hB : ∀ a b, B a b → E a b → F a b) {a b : α}
    (hm : Meek E B a b) : F a b := by
  induction hm with
  | base h1 h2 => exact hB _ _ h2 h1
  | vstr hv => exact ((h.vstr _ _ _).1 hv).2.1
  | r1 hk hne hna hij ih =>
    rename_i k i j
    rcases (h.skel i j).1 (Or.inl hij) with h1 | h1
    · exact h1
    · exfalso
      have hv : VStruct F k i j := ⟨hne, ih, h1, fun h' => hna ((h.skel _ _).2 h')⟩
      exact hE.asymm hij ((h.vstr _ _ _).2 hv).2.2.1
  | r2 hik hkj hij ih1 ih2 =>
    rename_i i k j
    rcases (h.skel i j).1 (Or.inl hij) with h1 | h1
    · exact h1
    · exact absurd (((Relation.TransGen.single ih1).tail ih2).tail h1) (hF i)
  | r3 hv hik hil hnot hij =>
    rename_i i j k l
    rcases (h.skel i j).1 (Or.inl hij) with h1 | h1
    · exact h1
    · exfalso
      have hvF := (h.vstr _ _ _).1 hv
      have hki : F k i := by
        rcases (h.skel i k).1 hik with h2 | h2
        · exact absurd (((Relation.TransGen.single h2).tail hvF.2.1).tail h1) (hF i)
        · exact h2
      have hli : F l i := by
        rcases (h.skel i l).1 hil with h2 | h2
        · exact absurd (((Relation.TransGen.single h2).tail hvF.2.2.1).tail h1) (hF i)
        · exact h2
      have := (h.vstr k i l).2 ⟨hv.1, hki, hli, hvF.2.2.2⟩
      exact hnot ⟨this.2.1, this.2.2.1⟩

/-- Adjacent, and not oriented by the rules. -/
def Undec (E B : α → α → Prop) (a b : α) : Prop := (E a b ∧ ¬ Meek E B a b) ∨ (E b a ∧ ¬ Meek E B b a)

theorem Undec.symm {a b : α} (h : Undec E B a b) : Undec E B b a := Or.symm h

theorem Undec.adj {a b : α} (h : Undec E B a b) : Adj E a b := h.imp And.left And.left

theorem Undec.not (hE : Acyclic E) {a b : α} (h : Undec E B a b) : ¬ Meek E B a b := by
  rcases h with h | h
  · exact h.2
  · intro hm; exact hE.asymm hm.sub h.1

theorem Undec.ne (hE : Acyclic E) {a b : α} (h : Undec E B a b) : a ≠ b := by
  rintro rfl
  rcases h.adj with h | h <;> exact hE.irrefl h

theorem undec_of_adj {a b : α} (h : Adj E a b) (h1 : ¬ Meek E B a b) (h2 : ¬ Meek E B b a) : Undec E B a b :=
  h.imp (fun h => ⟨h, h1⟩) fun h => ⟨h, h2⟩

/-- An oriented arc into an end of an undecided edge: its source is adjacent to the other end. -/
theorem meek_adj (hE : Acyclic E) {a b c : α} (h : Meek E B a b) (hu : Undec E B b c) (hac : a ≠ c) : Adj E a c := by
  by_contra hn
  rcases hu.adj with h1 | h1
  · exact hu.not hE (.r1 h hac hn h1)
  · exact hu.symm.not hE (.vstr (vstruct_symm ⟨hac, h.sub, h1, hn⟩))

theorem meek_ne (hE : Acyclic E) {a b c : α} (h : Meek E B a b) (hu : Undec E B b c) : a ≠ c := by
  rintro rfl
  exact hu.symm.not hE h

/-- The step shared by all cases: if the conclusion fails, the third side is undecided. -/
theorem meek_or (hE : Acyclic E) {a b c : α} (h : Meek E B a b) (hu : Undec E B b c) :
    Meek E B a c ∨ Undec E B a c := by
  by_cases h1 : Meek E B a c
  · exact Or.inl h1
  · right
    have hadj := meek_adj hE h hu (meek_ne hE h hu)
    refine undec_of_adj hadj h1 fun h2 => ?_
    rcases hu.adj with h3 | h3
    · exact hE _ (((Relation.TransGen.single h2.sub).tail h.sub).tail h3)
    · exact hu.symm.not hE (.r2 h2 h h3)

theorem meek_vstr (hE : Acyclic E) {a b c d : α} (h : VStruct E a b d) (hu : Undec E B b c) : Meek E B a c := by
  rcases meek_or hE (.vstr h) hu with h1 | h1
  · exact h1
  · exfalso
    have hd : Meek E B d b := .vstr (vstruct_symm h)
    have hdc : Adj E d c := meek_adj hE hd hu (meek_ne hE hd hu)
    rcases hu.adj with h2 | h2
    · have hac : E a c := h1.adj.resolve_right fun h3 => hE _ (((Relation.TransGen.single h3).tail h.2.1).tail h2)
      have hdc' : E d c := hdc.resolve_right fun h3 => hE _ (((Relation.TransGen.single h3).tail h.2.2.1).tail h2)
      exact h1.not hE (.vstr ⟨h.1, hac, hdc', h.2.2.2⟩)
    · refine hu.symm.not hE (.r3 h (adj_symm h1.adj) (adj_symm hdc) ?_ h2)
      rintro ⟨h3, h4⟩
      exact h1.not hE (.vstr ⟨h.1, h3, h4, h.2.2.2⟩)

/-- Meek's lemma: an oriented arc into an end of an undecided edge forces an oriented arc into its other end. -/
theorem meek_mixed (hE : Acyclic E) (hB : Cotrans B) {a b : α} (h : Meek E B a b) :
    ∀ c, Undec E B b c → Meek E B a c := by
  induction h with
  | base h1 h2 =>
    rename_i a b
    intro c hu
    rcases meek_or hE (.base h1 h2) hu with h3 | h3
    · exact h3
    · exfalso
      rcases hB.tri a b c h2 with h4 | h4
      · rcases h3.adj with h5 | h5
        · exact h3.not hE (.base h5 h4)
        · exact h3.symm.not hE (.base h5 (hB.symm _ _ h4))
      · rcases hu.adj with h5 | h5
        · exact hu.not hE (.base h5 (hB.symm _ _ h4))
        · exact hu.symm.not hE (.base h5 h4)
  | vstr hv => intro c hu; exact meek_vstr hE hv hu
  | r1 hk hne hna hij ih =>
    rename_i k i j
    intro c hu
    rcases meek_or hE (.r1 hk hne hna hij) hu with h1 | h1
    · exact h1
    · exact absurd (meek_adj hE (ih c h1) hu.symm hne) hna
  | r2 hik hkj hij ih1 ih2 =>
    rename_i i k j
    intro c hu
    rcases meek_or hE (.r2 hik hkj hij) hu with h1 | h1
    · exact h1
    · have hkc := ih2 c hu
      have hic : E i c := h1.adj.resolve_right fun h3 =>
        hE _ (((Relation.TransGen.single h3).tail hik.sub).tail hkc.sub)
      exact .r2 hik hkc hic
  | r3 hv hik hil hnot hij =>
    rename_i i j k l
    intro c hu
    rcases meek_or hE (.r3 hv hik hil hnot hij) hu with h1 | h1
    · exact h1
    · have hkc := meek_vstr hE hv hu
      have hlc := meek_vstr hE (vstruct_symm hv) hu
      rcases h1.adj with h2 | h2
      · exact .r3 ⟨hv.1, hkc.sub, hlc.sub, hv.2.2.2⟩ hik hil hnot h2
      · exfalso
        refine hnot ⟨hik.resolve_left fun h3 => ?_, hil.resolve_left fun h3 => ?_⟩
        · exact hE _ (((Relation.TransGen.single h3).tail hkc.sub).tail h2)
        · exact hE _ (((Relation.TransGen.single h3).tail hlc.sub).tail h2)

/-- The oriented arcs, with the undecided edges oriented by a rank. -/
def Ranked (E B : α → α → Prop) (r : α → ℕ) (a b : α) : Prop := Meek E B a b ∨ (Undec E B a b ∧ r a < r b)

theorem ranked_equivalent (hE : Acyclic E) (hB : Cotrans B) {V : Finset α} (hV : ∀ a b, E a b → a ∈ V ∧ b ∈ V)
    {r : α → ℕ} (hinj : ∀ x ∈ V, ∀ y ∈ V, r x = r y → x = y)
    (hm : ∀ x ∈ V, ∀ y ∈ V, ∀ z ∈ V, Undec E B x z → Undec E B y z → r x < r z → r y < r z → x ≠ y → Undec E B x y) :
    Acyclic (Ranked E B r) ∧ SameSkelV E (Ranked E B r) := by
  have hUV : ∀ {a b}, Undec E B a b → a ∈ V ∧ b ∈ V := by
    intro a b h
    rcases h.adj with h | h
    · exact hV _ _ h
    · exact (hV _ _ h).symm
  have hadj : ∀ a b, Adj E a b ↔ Adj (Ranked E B r) a b := by
    intro a b
    constructor
    · intro h
      by_cases h1 : Meek E B a b
      · exact Or.inl (Or.inl h1)
      · by_cases h2 : Meek E B b a
        · exact Or.inr (Or.inl h2)
        · have hu := undec_of_adj h h1 h2
          have hne : r a ≠ r b := fun h3 => hu.ne hE (hinj a (hUV hu).1 b (hUV hu).2 h3)
          rcases lt_or_gt_of_ne hne with h3 | h3
          · exact Or.inl (Or.inr ⟨hu, h3⟩)
          · exact Or.inr (Or.inr ⟨hu.symm, h3⟩)
    · rintro ((h | h) | (h | h))
      · exact Or.inl h.sub
      · exact h.1.adj
      · exact Or.inr h.sub
      · exact adj_symm h.1.adj
  refine ⟨?_, hadj, ?_⟩
  · -- acyclicity
    have hlift : ∀ {m c}, Path (Meek E B) m c → ∀ {d}, Undec E B c d → Path (Meek E B) m d := by
      intro m c h d hu
      cases h with
      | single h => exact .single (meek_mixed hE hB h _ hu)
      | tail h1 h2 => exact .tail h1 (meek_mixed hE hB h2 _ hu)
    have hsplit : ∀ {a c}, Path (Ranked E B r) a c →
        (r a < r c ∧ Path (fun x y => Undec E B x y ∧ r x < r y) a c) ∨
          ∃ m, Path0 (fun x y => Undec E B x y ∧ r x < r y) a m ∧ Path (Meek E B) m c := by
      intro a c h
      induction h with
      | single h =>
        rcases h with h | h
        · exact Or.inr ⟨a, .refl, .single h⟩
        · exact Or.inl ⟨h.2, .single h⟩
      | tail _ h ih =>
        rcases ih with ⟨h1, h2⟩ | ⟨m, h1, h2⟩
        · rcases h with h | h
          · exact Or.inr ⟨_, h2.to_reflTransGen, .single h⟩
          · exact Or.inl ⟨h1.trans h.2, h2.tail h⟩
        · rcases h with h | h
          · exact Or.inr ⟨m, h1, h2.tail h⟩
          · exact Or.inr ⟨m, h1, hlift h2 h.1⟩
    intro v hv
    rcases hsplit hv with ⟨h, _⟩ | ⟨m, h1, h2⟩
    · exact lt_irrefl _ h
    · have hgo : ∀ x, Path0 (fun x y => Undec E B x y ∧ r x < r y) v x → Path (Meek E B) m x := by
        intro x hx
        induction hx with
        | refl => exact h2
        | tail _ h ih => exact hlift ih h.1
      exact hE m (path_mono (fun _ _ h => h.sub) (hgo m h1))
  · -- v-structures
    intro a c b
    constructor
    · intro h
      exact ⟨h.1, Or.inl (.vstr h), Or.inl (.vstr (vstruct_symm h)), fun h' => h.2.2.2 ((hadj _ _).2 h')⟩
    · rintro ⟨hne, h1, h2, h3⟩
      have h3' : ¬ Adj E a b := fun h' => h3 ((hadj _ _).1 h')
      rcases h1 with h1 | h1 <;> rcases h2 with h2 | h2
      · exact ⟨hne, h1.sub, h2.sub, h3'⟩
      · exact absurd (Or.inl (meek_mixed hE hB h1 _ h2.1.symm).sub) h3'
      · exact absurd (Or.inr (meek_mixed hE hB h2 _ h1.1.symm).sub) h3'
      · exact absurd (hm a (hUV h1.1).1 b (hUV h2.1).1 c (hUV h1.1).2 h1.1 h2.1 h1.2 h2.2 hne).adj h3'

/-- Completeness: an arc that the rules do not orient is reversed in some member of the class. -/
theorem meek_complete (hE : Acyclic E) (hB : Cotrans B) {V : Finset α} (hV : ∀ a b, E a b → a ∈ V ∧ b ∈ V) {a b : α}
    (h : E a b) (hn : ¬ Meek E B a b) :
    ∃ F, Acyclic F ∧ SameSkelV E F ∧ (∀ x y, B x y → (E x y ↔ F x y)) ∧ F b a := by
  classical
  have hu : Undec E B a b := Or.inl ⟨h, hn⟩
  -- the undecided part, oriented as in `E`, has no unshielded collider
  have hel : Elim (Undec E B) V := by
    refine elim_of_acyclic (D := fun x y => E x y ∧ ¬ Meek E B x y) ?_ (fun x y => Iff.rfl) ?_ _ V rfl
    · exact acyclic_mono (fun _ _ h => h.1) hE
    · rintro x y z ⟨hx, hx'⟩ ⟨hy, hy'⟩ hne
      have hadj : Adj E x y := by
        by_contra hc; exact hx' (.vstr ⟨hne, hx, hy, hc⟩)
      have hux : Undec E B x z := Or.inl ⟨hx, hx'⟩
      have huy : Undec E B y z := Or.inl ⟨hy, hy'⟩
      exact undec_of_adj hadj (fun h1 => hx' (meek_mixed hE hB h1 _ huy)) (fun h1 => hy' (meek_mixed hE hB h1 _ hux))
  obtain ⟨r, h1, _, h3, h4⟩ := hel.rank (fun _ _ h => h.symm) (fun x hx => hx.ne hE rfl) b V.card V rfl (hV _ _ h).2
  obtain ⟨hac, hsk⟩ := ranked_equivalent hE hB hV h1 h4
  refine ⟨Ranked E B r, hac, hsk, ?_, ?_⟩
  · intro x y hxy
    constructor
    · intro hx; exact Or.inl (.base hx hxy)
    · rintro (hx | hx)
      · exact hx.sub
      · rcases hx.1.adj with h5 | h5
        · exact h5
        · exact absurd (.base h5 (hB.symm _ _ hxy)) (hx.1.symm.not hE)
  · refine Or.inr ⟨hu.symm, ?_⟩
    rw [h3]
    refine Nat.pos_of_ne_zero fun h5 => hu.ne hE (h1 a (hV _ _ h).1 b (hV _ _ h).2 ?_)
    rw [h5, h3]

/-- The arcs oriented by the rules are the forced ones. -/
theorem meek_iff (hE : Acyclic E) (hB : Cotrans B) {V : Finset α} (hV : ∀ a b, E a b → a ∈ V ∧ b ∈ V) {a b : α} :
    Meek E B a b ↔ ∀ F, Acyclic F → SameSkelV E F → (∀ x y, B x y → (E x y ↔ F x y)) → F a b := by
  constructor
  · intro h F hF hs hc; exact h.sound hE hF hs fun x y h1 h2 => (hc x y h1).1 h2
  · intro h
    by_contra hn
    have hab : E a b := h E hE (SameSkelV.refl E) fun _ _ _ => Iff.rfl
    obtain ⟨F, hF, hs, hc, hba⟩ := meek_complete hE hB hV hab hn
    exact hF.asymm hba (h F hF hs hc)

end Spec
