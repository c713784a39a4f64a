import Verif.Proof.UnionFind
import Verif.Proof.CommonPath
import Verif.Proof.Between
import Verif.Proof.Covered
import Mathlib.Data.Finset.Powerset

/-! # The loop of `directed_clique_tree` -/

namespace Proof.CT

universe u

open Spec Relation

section Trees

variable {β : Type u}

/-- The relation `r'` has at most one more link than `r`, between `c` and `d`. -/
theorem conn_insert {r r' : β → β → Prop} {c d : β} (h : ∀ x y, r' x y → r x y ∨ (x = c ∧ y = d) ∨ (x = d ∧ y = c)) {x y : β}
    (hxy : ReflTransGen r' x y) :
    ReflTransGen r x y ∨ (ReflTransGen r x c ∧ ReflTransGen r d y) ∨ (ReflTransGen r x d ∧ ReflTransGen r c y) := by
  induction hxy with
  | refl => exact .inl .refl
  | tail _ hs ih =>
    rcases h _ _ hs with h1 | ⟨rfl, rfl⟩ | ⟨rfl, rfl⟩
    · rcases ih with ih | ⟨i1, i2⟩ | ⟨i1, i2⟩
      · exact .inl (ih.tail h1)
      · exact .inr (.inl ⟨i1, i2.tail h1⟩)
      · exact .inr (.inr ⟨i1, i2.tail h1⟩)
    · rcases ih with ih | ⟨i1, i2⟩ | ⟨i1, i2⟩
      · exact .inr (.inl ⟨ih, .refl⟩)
      · exact .inr (.inl ⟨i1, .refl⟩)
      · exact .inl i1
    · rcases ih with ih | ⟨i1, i2⟩ | ⟨i1, i2⟩
      · exact .inr (.inr ⟨ih, .refl⟩)
      · exact .inl i1
      · exact .inr (.inr ⟨i1, .refl⟩)

theorem conn_mono {r r' : β → β → Prop} {a b : β} (h : ReflTransGen r a b) (hr : ∀ a b, r a b → r' a b) : ReflTransGen r' a b :=
  h.lift id hr

theorem link_symm {T : Finset (β × β)} {a b : β} (h : Link T a b) : Link T b a := h.symm

theorem conn_symm {r : β → β → Prop} (hs : ∀ a b, r a b → r b a) {a b : β} (h : ReflTransGen r a b) : ReflTransGen r b a := by
  induction h with
  | refl => exact .refl
  | tail _ h ih => exact .head (hs _ _ h) ih

theorem link_conn_symm {T : Finset (β × β)} {a b : β} (h : ReflTransGen (Link T) a b) : ReflTransGen (Link T) b a :=
  conn_symm (fun _ _ => link_symm) h

/-- No link closes a cycle. -/
def Forest (T : Finset (β × β)) : Prop := ∀ a b, Link T a b → ¬ ReflTransGen (LinkExcept T a b) a b

theorem forest_insert {T T' : Finset (β × β)} {c d : β} (hT : ∀ x y, Link T' x y ↔ Link T x y ∨ (x = c ∧ y = d) ∨ (x = d ∧ y = c))
    (hcd : ¬ ReflTransGen (Link T) c d) (h : Forest T) : Forest T' := by
  have sy : ¬ ReflTransGen (Link T) d c := fun h => hcd (link_conn_symm h)
  intro a b hab hc
  rcases (hT a b).1 hab with h1 | ⟨rfl, rfl⟩ | ⟨rfl, rfl⟩
  · have key : ∀ x y, LinkExcept T' a b x y → LinkExcept T a b x y ∨ (x = c ∧ y = d) ∨ (x = d ∧ y = c) := by
      rintro x y ⟨h2, h3, h4⟩
      rcases (hT x y).1 h2 with h5 | h5
      · exact .inl ⟨h5, h3, h4⟩
      · exact .inr h5
    have up : ∀ {x y}, ReflTransGen (LinkExcept T a b) x y → ReflTransGen (Link T) x y := fun h => conn_mono h fun _ _ h => h.1
    rcases conn_insert key hc with h2 | ⟨h2, h3⟩ | ⟨h2, h3⟩
    · exact h a b h1 h2
    · exact hcd ((link_conn_symm (up h2)).trans ((ReflTransGen.single h1).trans (link_conn_symm (up h3))))
    · exact sy ((link_conn_symm (up h2)).trans ((ReflTransGen.single h1).trans (link_conn_symm (up h3))))
  · refine hcd (conn_mono hc ?_)
    rintro x y ⟨h2, h3, h4⟩
    rcases (hT x y).1 h2 with h5 | h5 | h5
    · exact h5
    · exact absurd h5 h3
    · exact absurd h5 h4
  · refine sy (conn_mono hc ?_)
    rintro x y ⟨h2, h3, h4⟩
    rcases (hT x y).1 h2 with h5 | h5 | h5
    · exact h5
    · exact absurd h5 h4
    · exact absurd h5 h3

end Trees

variable {α : Type u} [DecidableEq α]

/-- Connected sets are connected through sets that contain their intersection. -/
def Joined (T : Finset (Finset α × Finset α)) : Prop :=
  ∀ c d, ReflTransGen (Link T) c d → ReflTransGen (fun x y => Link T x y ∧ c ∩ d ⊆ x ∧ c ∩ d ⊆ y) c d

theorem joined_insert {T T' : Finset (Finset α × Finset α)} {c d : Finset α}
    (hT : ∀ x y, Link T' x y ↔ Link T x y ∨ (x = c ∧ y = d) ∨ (x = d ∧ y = c))
    (hx : ∀ p q, ReflTransGen (Link T) p c → ReflTransGen (Link T) d q → p ∩ q ⊆ c ∩ d) (h : Joined T) : Joined T' := by
  have lift : ∀ {p q x y : Finset α} {I : Finset α}, I ⊆ p ∩ q →
      ReflTransGen (fun x y => Link T x y ∧ p ∩ q ⊆ x ∧ p ∩ q ⊆ y) x y →
      ReflTransGen (fun x y => Link T' x y ∧ I ⊆ x ∧ I ⊆ y) x y :=
    fun hI h => conn_mono h fun _ _ h => ⟨(hT _ _).2 (.inl h.1), hI.trans h.2.1, hI.trans h.2.2⟩
  have key : ∀ p q, ReflTransGen (Link T) p c → ReflTransGen (Link T) d q →
      ReflTransGen (fun x y => Link T' x y ∧ p ∩ q ⊆ x ∧ p ∩ q ⊆ y) p q := by
    intro p q h1 h2
    have hs := hx p q h1 h2
    have hc := hs.trans Finset.inter_subset_left
    have hd := hs.trans Finset.inter_subset_right
    have e1 : p ∩ q ⊆ p ∩ c := Finset.subset_inter Finset.inter_subset_left hc
    have e2 : p ∩ q ⊆ d ∩ q := Finset.subset_inter hd Finset.inter_subset_right
    exact ((lift e1 (h _ _ h1)).tail ⟨(hT _ _).2 (.inr (.inl ⟨rfl, rfl⟩)), hc, hd⟩).trans (lift e2 (h _ _ h2))
  intro p q hpq
  rcases conn_insert (fun x y => (hT x y).1) hpq with h1 | ⟨h1, h2⟩ | ⟨h1, h2⟩
  · exact lift (Finset.Subset.refl _) (h p q h1)
  · exact key p q h1 h2
  · have := key q p (link_conn_symm h2) (link_conn_symm h1)
    refine conn_mono (conn_symm (fun a b h => ⟨link_symm h.1, h.2.2, h.2.1⟩) this) ?_
    rw [Finset.inter_comm q p]
    exact fun _ _ h => h

/-! ## Cliques of a graph without v-structures -/

section Cliques

variable {V : Finset α} {E : α → α → Prop}

theorem exists_maxClique {c : Finset α} (hn : c.Nonempty) (hV : c ⊆ V) (hc : Clique E c) : ∃ m, MaxClique V E m ∧ c ⊆ m := by
  classical
  obtain ⟨m, hm, hmax⟩ := Finset.exists_max_image (V.powerset.filter fun d => Clique E d ∧ c ⊆ d) Finset.card
    ⟨c, by simp [hV, hc]⟩
  rw [Finset.mem_filter, Finset.mem_powerset] at hm
  refine ⟨m, ⟨hn.mono hm.2.2, hm.1, hm.2.1, fun d hd hcd hmd => ?_⟩, hm.2.2⟩
  exact (Finset.eq_of_subset_of_card_le hmd (hmax d (by
    rw [Finset.mem_filter, Finset.mem_powerset]; exact ⟨hd, hcd, hm.2.2.trans hmd⟩))).symm

variable {r : α → ℕ} (hr : ∀ a b, E a b → r a < r b)
include hr

/-- Of two initial parts of a clique the smaller one is contained in the other one. -/
theorem into_sub {s t c : Finset α} (hs : s ⊆ c) (ht : t ⊆ c) (is : Into E s c) (it : Into E t c) (h : s.card ≤ t.card) : s ⊆ t := by
  intro x hx
  by_contra hxt
  have : t ⊆ s := by
    intro y hy
    by_contra hys
    have h1 := hr _ _ (is x hx y (ht hy) hys)
    have h2 := hr _ _ (it y hy x (hs hx) hxt)
    omega
  exact hxt ((Finset.eq_of_subset_of_card_le this h) ▸ hx)

omit [DecidableEq α] in
theorem clique_arc {c : Finset α} (hc : Clique E c) {x y : α} (hx : x ∈ c) (hy : y ∈ c) (h : r x < r y) : E x y := by
  rcases hc x hx y hy (by rintro rfl; omega) with h1 | h1
  · exact h1
  · exact absurd (hr _ _ h1) (by omega)

/-- If `I` is initial in `c` and `c ∩ d` is initial in both and no smaller than `I`, then `I` is initial in `d`. -/
theorem into_step {I c d : Finset α} (hI : I ⊆ c) (iI : Into E I c) (ic : Into E (c ∩ d) c) (id : Into E (c ∩ d) d) (h : I.card ≤ (c ∩ d).card) :
    I ⊆ d ∧ Into E I d := by
  have hs := into_sub hr hI Finset.inter_subset_left iI ic h
  refine ⟨hs.trans Finset.inter_subset_right, fun x hx y hy hyI => ?_⟩
  by_cases hyc : y ∈ c
  · exact iI x hx y hyc hyI
  · exact id x (hs hx) y hy fun h => hyc (Finset.mem_inter.1 h).1

end Cliques

/-! ## The arcs of the tree -/

/-- An arc from `a` to `b` without its reverse. -/
def Up (T : Finset (Finset α × Finset α)) (a b : Finset α) : Prop := (a, b) ∈ T ∧ (b, a) ∉ T

/-- Arcs in both directions between sets with at least `w` common elements. -/
def Bi (T : Finset (Finset α × Finset α)) (w : ℕ) (a b : Finset α) : Prop := (a, b) ∈ T ∧ (b, a) ∈ T ∧ w ≤ (a ∩ b).card

/-- `I` is initial in `d`, and `d` is joined by arcs in both directions to the end of a one-way arc; all of these have at least as many
common elements as `I` has elements. -/
def Blocked (E : α → α → Prop) (T : Finset (Finset α × Finset α)) (I d : Finset α) : Prop :=
  Into E I d ∧ ∃ c' c0, ReflTransGen (Bi T I.card) d c' ∧ Up T c0 c' ∧ I.card ≤ (c0 ∩ c').card

/-- What the loop leaves behind for a pair. -/
def Seen (E : α → α → Prop) (T : Finset (Finset α × Finset α)) (c d : Finset α) : Prop :=
  ReflTransGen (Link T) c d ∨ Blocked E T (c ∩ d) c ∨ Blocked E T (c ∩ d) d ∨ (¬ Into E (c ∩ d) c ∧ ¬ Into E (c ∩ d) d)

theorem Seen.symm {E : α → α → Prop} {T : Finset (Finset α × Finset α)} {c d : Finset α} (h : Seen E T c d) : Seen E T d c := by
  rw [Seen, Finset.inter_comm d c]
  rcases h with h | h | h | h
  · exact .inl (link_conn_symm h)
  · exact .inr (.inr (.inl h))
  · exact .inr (.inl h)
  · exact .inr (.inr (.inr h.symm))

/-- What is true of the arcs at any time. -/
structure Arcs (E : α → α → Prop) (cl : List (Finset α)) (T : Finset (Finset α × Finset α)) : Prop where
  ends : ∀ a b, (a, b) ∈ T → a ∈ cl ∧ b ∈ cl ∧ (a ∩ b).Nonempty
  into : ∀ a b, (a, b) ∈ T → Into E (a ∩ b) b
  back : ∀ a b, (a, b) ∈ T → Into E (a ∩ b) a → (b, a) ∈ T
  forest : Forest T

theorem Arcs.conn_mem {E : α → α → Prop} {cl : List (Finset α)} {T : Finset (Finset α × Finset α)} (h : Arcs E cl T) {a b : Finset α}
    (ha : a ∈ cl) (hab : ReflTransGen (Link T) a b) : b ∈ cl := by
  induction hab with
  | refl => exact ha
  | tail _ hs _ =>
    rcases hs with hs | hs
    · exact (h.ends _ _ hs).2.1
    · exact (h.ends _ _ hs).1

/-- One-way arcs never lead back. -/
theorem up_acyclic {T : Finset (Finset α × Finset α)} (h : Forest T) {a b : Finset α}
    (hab : Up T a b) : ¬ ReflTransGen (fun x y => (x, y) ∈ T) b a := by
  intro hba
  have key : ∀ x, ReflTransGen (fun x y => (x, y) ∈ T) b x → ReflTransGen (LinkExcept T a b) b x := by
    intro x hx
    induction hx with
    | refl => exact .refl
    | @tail y x _ hs ih =>
      by_cases h1 : y = a ∧ x = b
      · rw [h1.2]
      by_cases h2 : y = b ∧ x = a
      · rw [h2.1, h2.2] at hs
        exact absurd hs hab.2
      exact ih.tail ⟨.inl hs, h1, h2⟩
  refine h a b (.inl hab.1) (conn_symm ?_ (key a hba))
  rintro x y ⟨h1, h2, h3⟩
  exact ⟨link_symm h1, fun e => h3 ⟨e.2, e.1⟩, fun e => h2 ⟨e.2, e.1⟩⟩

section Level

variable {V : Finset α} {E : α → α → Prop} {r : α → ℕ} {cl : List (Finset α)} {T : Finset (Finset α × Finset α)}

open scoped Classical in
/-- The number of cliques from which arcs lead to `d`. -/
noncomputable def above (cl : List (Finset α)) (T : Finset (Finset α × Finset α)) (d : Finset α) : ℕ :=
  (cl.toFinset.filter fun x => ReflTransGen (fun x y => (x, y) ∈ T) x d).card

theorem Arcs.above_lt (h : Arcs E cl T) {w : ℕ} {d c' c0 : Finset α} (hd : d ∈ cl) (h1 : ReflTransGen (Bi T w) d c') (h2 : Up T c0 c') :
    above cl T c0 < above cl T d := by
  classical
  have b1 : ReflTransGen (fun x y => (x, y) ∈ T) d c' := conn_mono h1 fun _ _ h => h.1
  have b2 : ReflTransGen (fun x y => (x, y) ∈ T) c' d := conn_symm (r := fun x y => (x, y) ∈ T ∧ (y, x) ∈ T) (fun _ _ h => h.symm)
    (conn_mono h1 fun _ _ h => ⟨h.1, h.2.1⟩) |> fun h => conn_mono h fun _ _ h => h.1
  refine Finset.card_lt_card ⟨fun x hx => ?_, fun hs => ?_⟩
  · rw [Finset.mem_filter] at hx ⊢
    exact ⟨hx.1, (hx.2.tail h2.1).trans b2⟩
  · have := hs (Finset.mem_filter.2 ⟨List.mem_toFinset.2 hd, .refl⟩)
    exact up_acyclic h.forest h2 (b2.trans (Finset.mem_filter.1 this).2)

variable (hr : ∀ a b, E a b → r a < r b) (hm : ∀ x y z, E x z → E y z → x = y ∨ Adj E x y)
  (hV : ∀ a b, E a b → a ∈ V ∧ b ∈ V) (hcl : ∀ c, c ∈ cl ↔ MaxClique V E c)
include hr

theorem Arcs.bi_into (h : Arcs E cl T) {I d c' : Finset α} (hI : I ⊆ d) (iI : Into E I d) (hp : ReflTransGen (Bi T I.card) d c') :
    I ⊆ c' ∧ Into E I c' := by
  induction hp with
  | refl => exact ⟨hI, iI⟩
  | @tail y z _ hs ih =>
    have := h.into _ _ hs.2.1
    rw [Finset.inter_comm] at this
    exact into_step hr ih.1 ih.2 this (h.into _ _ hs.1) hs.2.2

include hm hcl

/-- If `c ∩ d` is initial in neither set, some clique has more in common with both. -/
theorem upper {c d I : Finset α} (hc : c ∈ cl) (hd : d ∈ cl) (hI : I = c ∩ d) (h1 : ¬ Into E I c) (h2 : ¬ Into E I d) :
    ∃ n ∈ cl, I ⊆ n ∧ (∃ x ∈ c, x ∈ n ∧ x ∉ I) ∧ ∃ y ∈ d, y ∈ n ∧ y ∉ I := by
  have hIc : I ⊆ c := hI ▸ Finset.inter_subset_left
  have hId : I ⊆ d := hI ▸ Finset.inter_subset_right
  have kc := ((hcl c).1 hc).clique
  have kd := ((hcl d).1 hd).clique
  have ex : ∀ e : Finset α, I ⊆ e → Clique E e → ¬ Into E I e → ∃ x ∈ e, x ∉ I ∧ ∃ s ∈ I, E x s := by
    intro e hIe ke hn
    rw [Into] at hn
    push Not at hn
    obtain ⟨s, hs, x, hx, hxI, hE⟩ := hn
    refine ⟨x, hx, hxI, s, hs, ?_⟩
    rcases ke s (hIe hs) x hx (by rintro rfl; exact hxI hs) with h | h
    · exact absurd h hE
    · exact h
  obtain ⟨x, hx, hxI, s, hs, hxs⟩ := ex c hIc kc h1
  obtain ⟨y, hy, hyI, t, ht, hyt⟩ := ex d hId kd h2
  have head : ∃ z ∈ I, E x z ∧ E y z := by
    by_cases hst : s = t
    · subst hst
      exact ⟨s, hs, hxs, hyt⟩
    · rcases kc s (hIc hs) t (hIc ht) hst with h3 | h3
      · exact ⟨t, ht, clique_arc hr kc hx (hIc ht) ((hr _ _ hxs).trans (hr _ _ h3)), hyt⟩
      · exact ⟨s, hs, hxs, clique_arc hr kd hy (hId hs) ((hr _ _ hyt).trans (hr _ _ h3))⟩
  obtain ⟨z, hz, hxz, hyz⟩ := head
  have hxy : x ≠ y := by
    rintro rfl
    exact hxI (hI ▸ Finset.mem_inter.2 ⟨hx, hy⟩)
  have adj : Adj E x y := (hm x y z hxz hyz).resolve_left hxy
  have sa : ∀ {a b}, Adj E a b → Adj E b a := fun h => h.symm
  obtain ⟨n, hn, hsub⟩ := exists_maxClique (V := V) (E := E) (c := insert x (insert y I)) ⟨x, by simp⟩ (by
      intro a ha
      simp only [Finset.mem_insert] at ha
      rcases ha with rfl | rfl | ha
      · exact ((hcl c).1 hc).sub hx
      · exact ((hcl d).1 hd).sub hy
      · exact ((hcl c).1 hc).sub (hIc ha)) (by
      intro a ha b hb hab
      simp only [Finset.mem_insert] at ha hb
      rcases ha with rfl | rfl | ha <;> rcases hb with rfl | rfl | hb
      · exact absurd rfl hab
      · exact adj
      · exact kc _ hx _ (hIc hb) hab
      · exact sa adj
      · exact absurd rfl hab
      · exact kd _ hy _ (hId hb) hab
      · exact kc _ (hIc ha) _ hx hab
      · exact kd _ (hId ha) _ hy hab
      · exact kc _ (hIc ha) _ (hIc hb) hab)
  exact ⟨n, (hcl n).2 hn, fun a ha => hsub (by simp [ha]), ⟨x, hx, hsub (by simp), hxI⟩, y, hy, hsub (by simp), hyI⟩

/-- If all pairs with at least `w` common elements have been treated, they are connected. -/
theorem Arcs.level (h : Arcs E cl T) {w : ℕ} (hall : ∀ c ∈ cl, ∀ d ∈ cl, c ≠ d → w ≤ (c ∩ d).card → Seen E T c d) :
    ∀ c ∈ cl, ∀ d ∈ cl, w ≤ (c ∩ d).card → ReflTransGen (Link T) c d := by
  have main : ∀ k, ∀ I : Finset α, w ≤ I.card → V.card - I.card = k → ∀ m, ∀ c ∈ cl, ∀ d ∈ cl, I ⊆ c → I ⊆ d →
      above cl T c + above cl T d = m → ReflTransGen (Link T) c d := by
    intro k
    induction k using Nat.strong_induction_on with
    | _ k ihk =>
      intro I hw hk m
      induction m using Nat.strong_induction_on with
      | _ m ihm =>
        intro c hc d hd hIc hId hmu
        have bigger : ∀ x ∈ cl, ∀ y ∈ cl, ∀ z, z ∉ I → I ⊆ x → I ⊆ y → z ∈ x → z ∈ y → ReflTransGen (Link T) x y := by
          intro x hx y hy z hzI h1 h2 h3 h4
          have e1 : insert z I ⊆ x ∩ y := Finset.subset_inter (Finset.insert_subset h3 h1) (Finset.insert_subset h4 h2)
          have e2 := Finset.card_le_card (e1.trans (Finset.inter_subset_left.trans ((hcl x).1 hx).sub))
          have e3 := Finset.card_insert_of_notMem hzI
          exact ihk _ (by omega) (insert z I) (by omega) rfl _ x hx y hy (e1.trans Finset.inter_subset_left)
            (e1.trans Finset.inter_subset_right) rfl
        by_cases hcd : c = d
        · rw [hcd]
        by_cases hI : I = c ∩ d
        swap
        · have : ∃ z ∈ c ∩ d, z ∉ I := by
            by_contra hno
            push Not at hno
            exact hI (Finset.Subset.antisymm (Finset.subset_inter hIc hId) hno)
          obtain ⟨z, hz, hzI⟩ := this
          rw [Finset.mem_inter] at hz
          exact bigger c hc d hd z hzI hIc hId hz.1 hz.2
        have blocked : ∀ x ∈ cl, ∀ y ∈ cl, I ⊆ x → I ⊆ y → above cl T x + above cl T y = m → Blocked E T I x →
            (∀ c0 ∈ cl, I ⊆ c0 → above cl T c0 < above cl T x → ReflTransGen (Link T) c0 y) → ReflTransGen (Link T) x y := by
          rintro x hx y hy hIx hIy hmu ⟨h1, c', c0, h2, h3, h4⟩ hih
          obtain ⟨b1, b2⟩ := h.bi_into hr hIx h1 h2
          have e0 := into_sub hr b1 Finset.inter_subset_right b2 (h.into _ _ h3.1) h4
          have hx0 : ReflTransGen (Link T) x c0 := (conn_mono h2 fun _ _ h => .inl h.1).tail (.inr h3.1)
          exact hx0.trans (hih c0 (h.ends _ _ h3.1).1 (e0.trans Finset.inter_subset_left) (h.above_lt hx h2 h3))
        rcases hall c hc d hd hcd (hI ▸ hw) with h1 | h1 | h1 | ⟨h1, h2⟩
        · exact h1
        · rw [← hI] at h1
          exact blocked c hc d hd hIc hId hmu h1 fun c0 hc0 hI0 hlt => ihm _ (by omega) c0 hc0 d hd hI0 hId rfl
        · rw [← hI] at h1
          refine link_conn_symm (blocked d hd c hc hId hIc (by omega) h1 fun c0 hc0 hI0 hlt => ?_)
          exact ihm _ (by omega) c0 hc0 c hc hI0 hIc rfl
        · rw [← hI] at h1 h2
          obtain ⟨n, hn, hIn, ⟨x, hx, hxn, hxI⟩, y, hy, hyn, hyI⟩ := upper hr hm hcl hc hd hI h1 h2
          exact (bigger c hc n hn x hxI hIc hIn hx hxn).trans (bigger n hn d hd y hyI hIn hId hyn hy)
  exact fun c hc d hd hw => main _ (c ∩ d) hw rfl _ c hc d hd Finset.inter_subset_left Finset.inter_subset_right rfl

include hV in
/-- If a pair is not connected although all pairs with more common elements have been treated, then whatever is connected to the first set
and whatever is connected to the second one have only elements of the intersection in common. -/
theorem Arcs.cross (h : Arcs E cl T) {c d : Finset α} (hc : c ∈ cl) (hd : d ∈ cl)
    (hall : ∀ a ∈ cl, ∀ b ∈ cl, a ≠ b → (c ∩ d).card + 1 ≤ (a ∩ b).card → Seen E T a b) (hbig : ∀ a b, (a, b) ∈ T → (c ∩ d).card ≤ (a ∩ b).card)
    (hcd : ¬ ReflTransGen (Link T) c d) (p q : Finset α) (hp : ReflTransGen (Link T) p c) (hq : ReflTransGen (Link T) d q) : p ∩ q ⊆ c ∩ d := by
  have lv := h.level hr hm hcl hall
  have sa : ∀ {a b}, Adj E a b → Adj E b a := fun h => h.symm
  have near : ∀ e ∈ cl, c ∩ d ⊆ e → ∀ p ∈ cl, ReflTransGen (Link T) p e → ∀ u ∈ p, u ∉ c ∩ d →
      ∃ k ∈ cl, ReflTransGen (Link T) p k ∧ c ∩ d ⊆ k ∧ ∃ a ∈ k, a ∉ c ∩ d ∧
        ReflTransGen (fun x y => Adj E x y ∧ x ∉ c ∩ d ∧ y ∉ c ∩ d) u a := by
    intro e he hse p hp hpe
    induction hpe using ReflTransGen.head_induction_on with
    | refl => exact fun u hu huS => ⟨e, he, .refl, hse, u, hu, huS, .refl⟩
    | @head p p' hs _ ih =>
      intro u hu huS
      by_cases hSp : c ∩ d ⊆ p
      · exact ⟨p, hp, .refl, hSp, u, hu, huS, .refl⟩
      have hp' : p' ∈ cl := h.conn_mem hp (.single hs)
      have hcard : (c ∩ d).card ≤ (p ∩ p').card := by
        rcases hs with hs | hs
        · exact hbig _ _ hs
        · rw [Finset.inter_comm p]; exact hbig _ _ hs
      have : ∃ v ∈ p ∩ p', v ∉ c ∩ d := by
        by_contra hno
        push Not at hno
        have := Finset.eq_of_subset_of_card_le hno hcard
        exact hSp (this ▸ Finset.inter_subset_left)
      obtain ⟨v, hv, hvS⟩ := this
      rw [Finset.mem_inter] at hv
      obtain ⟨k, hk, h1, h2, a, ha, haS, h3⟩ := ih hp' v hv.2 hvS
      refine ⟨k, hk, .head hs h1, h2, a, ha, haS, ?_⟩
      by_cases huv : u = v
      · rw [huv]; exact h3
      · exact .head ⟨((hcl p).1 hp).clique u hu v hv.1 huv, huS, hvS⟩ h3
  have chain : ∀ a b, ReflTransGen (Common (Adj E) (↑(c ∩ d) : Set α)) a b → ∀ k ∈ cl, c ∩ d ⊆ k → a ∈ k → a ∉ c ∩ d →
      ∀ k' ∈ cl, c ∩ d ⊆ k' → b ∈ k' → ReflTransGen (Link T) k k' := by
    have share : ∀ z, z ∉ c ∩ d → ∀ x ∈ cl, ∀ y ∈ cl, c ∩ d ⊆ x → c ∩ d ⊆ y → z ∈ x → z ∈ y → ReflTransGen (Link T) x y := by
      intro z hz x hx y hy h1 h2 h3 h4
      refine lv x hx y hy ?_
      rw [← Finset.card_insert_of_notMem hz]
      exact Finset.card_le_card (Finset.subset_inter (Finset.insert_subset h3 h1) (Finset.insert_subset h4 h2))
    intro a b hab
    induction hab with
    | refl => exact fun k hk h1 h2 h3 k' hk' h4 h5 => share a h3 k hk k' hk' h1 h4 h2 h5
    | @tail b z _ hs ih =>
      intro k hk h1 h2 h3 k' hk' h4 h5
      obtain ⟨hadj, hb, hz, sb, sz⟩ := hs
      have hb' : b ∉ c ∩ d := fun h => hb (Finset.mem_coe.2 h)
      have hz' : z ∉ c ∩ d := fun h => hz (Finset.mem_coe.2 h)
      have hbV : b ∈ V ∧ z ∈ V := by
        rcases hadj with e | e
        · exact hV _ _ e
        · exact (hV _ _ e).symm
      obtain ⟨n, hn, hsub⟩ := exists_maxClique (V := V) (E := E) (c := insert b (insert z (c ∩ d))) ⟨b, by simp⟩ (by
          intro x hx
          simp only [Finset.mem_insert] at hx
          rcases hx with rfl | rfl | hx
          · exact hbV.1
          · exact hbV.2
          · exact ((hcl c).1 hc).sub (Finset.mem_inter.1 hx).1) (by
          intro x hx y hy hxy
          simp only [Finset.mem_insert] at hx hy
          rcases hx with rfl | rfl | hx <;> rcases hy with rfl | rfl | hy
          · exact absurd rfl hxy
          · exact hadj
          · exact sa (sb y (Finset.mem_coe.2 hy))
          · exact sa hadj
          · exact absurd rfl hxy
          · exact sa (sz y (Finset.mem_coe.2 hy))
          · exact sb x (Finset.mem_coe.2 hx)
          · exact sz x (Finset.mem_coe.2 hx)
          · exact ((hcl c).1 hc).clique x (Finset.mem_inter.1 hx).1 y (Finset.mem_inter.1 hy).1 hxy)
      have hSn : c ∩ d ⊆ n := fun x hx => hsub (by rw [Finset.mem_insert, Finset.mem_insert]; exact .inr (.inr hx))
      have hn' := (hcl n).2 hn
      exact (ih k hk h1 h2 h3 n hn' hSn (hsub (by simp))).trans (share z hz' n hn' k' hk' hSn h4 (hsub (by simp)) h5)
  intro u hu
  by_contra huS
  rw [Finset.mem_inter] at hu
  have hpcl : p ∈ cl := h.conn_mem hc (link_conn_symm hp)
  have hqcl : q ∈ cl := h.conn_mem hd hq
  obtain ⟨k, hk, h1, h2, a, ha, haS, h3⟩ := near c hc Finset.inter_subset_left p hpcl hp u hu.1 huS
  obtain ⟨k', hk', h1', h2', b, hb, hbS, h3'⟩ := near d hd Finset.inter_subset_right q hqcl (link_conn_symm hq) u hu.2 huS
  have hab : ReflTransGen (fun x y => Adj E x y ∧ x ∉ (↑(c ∩ d) : Set α) ∧ y ∉ (↑(c ∩ d) : Set α)) a b := by
    refine conn_mono ((conn_symm ?_ h3).trans h3') ?_
    · rintro x y ⟨e1, e2, e3⟩
      exact ⟨sa e1, e3, e2⟩
    · rintro x y ⟨e1, e2, e3⟩
      exact ⟨e1, fun h => e2 (Finset.mem_coe.1 h), fun h => e3 (Finset.mem_coe.1 h)⟩
  have comp : ∀ k ∈ cl, c ∩ d ⊆ k → ∀ a ∈ k, a ∉ c ∩ d → ∀ s ∈ (↑(c ∩ d) : Set α), Adj E s a := by
    intro k hk hS a ha haS s hs
    have hs := Finset.mem_coe.1 hs
    exact ((hcl k).1 hk).clique s (hS hs) a ha (by rintro rfl; exact haS hs)
  have cp := common_path hr hm hab (fun h => haS (Finset.mem_coe.1 h)) (comp k hk h2 a ha haS) (comp k' hk' h2' b hb hbS)
  have := chain a b cp k hk h2 ha haS k' hk' h2' hb
  exact hcd ((link_conn_symm hp).trans (h1.trans (this.trans ((link_conn_symm h1').trans (link_conn_symm hq)))))

end Level

/-! ## One turn of the loop -/

open Model

theorem allInto_iff {G : DAG α} {s c : Finset α} : G.allInto s c = true ↔ Into G.E s c := by
  simp only [DAG.allInto, decide_eq_true_eq, Finset.mem_sdiff, Into, DAG.E, and_imp]

/-- The end of a one-way arc is in the class of `b`. -/
def Src (t : CliqueTree α) (rb : Finset α → Finset α) (b : Finset α) : Prop := ∃ c' c0, rb c' = rb b ∧ Up t.arcs c0 c'

theorem hasSource_src {cl : List (Finset α)} {t t' : CliqueTree α} {rb : Finset α → Finset α} (ht : t'.arcs = t.arcs) (hb : t'.bi.Ok rb)
    {b : Finset α} (h : DAG.hasSource cl t' (rb b) = true) : Src t rb b := by
  rw [DAG.hasSource, decide_eq_true_eq] at h
  obtain ⟨c, -, hc, e, he, rfl, hn⟩ := h
  rw [ht] at he hn
  refine ⟨e.2, e.1, ?_, he, hn⟩
  rw [← hb.step, hc, hb.rep_rep]

/-- The arcs of a treated pair that is added. -/
def Added (E : α → α → Prop) (e : Finset α × Finset α) (T T' : Finset (Finset α × Finset α)) : Prop :=
  (Into E (e.1 ∩ e.2) e.1 ∧ Into E (e.1 ∩ e.2) e.2 ∧ T' = insert e.swap (insert e T)) ∨
  (¬ Into E (e.1 ∩ e.2) e.1 ∧ Into E (e.1 ∩ e.2) e.2 ∧ T' = insert e T) ∨ (¬ Into E (e.1 ∩ e.2) e.2 ∧ T' = insert e.swap T)

/-- The classes after joining those of `e.1` and `e.2`. -/
def Merged (e : Finset α × Finset α) (rep rep' : Finset α → Finset α) : Prop := ∀ a b, rep' a = rep' b ↔
  rep a = rep b ∨ (rep a = rep e.1 ∧ rep b = rep e.2) ∨ (rep a = rep e.2 ∧ rep b = rep e.1)

theorem step_cases (tie : Finset α → Finset α → Bool) (G : DAG α) (cl : List (Finset α)) (t : CliqueTree α) (e : Finset α × Finset α)
    {rs rb : Finset α → Finset α} (hs : t.sub.Ok rs) (hb : t.bi.Ok rb) : ∃ t', DAG.cliqueStep tie G cl t e = some t' ∧
      ((t'.arcs = t.arcs ∧ t'.sub.Ok rs ∧ t'.bi.Ok rb ∧ (rs e.1 = rs e.2 ∨
          (Into G.E (e.1 ∩ e.2) e.2 ∧ Src t rb e.2) ∨ (¬ Into G.E (e.1 ∩ e.2) e.2 ∧ Src t rb e.1))) ∨
        (rs e.1 ≠ rs e.2 ∧ Added G.E e t.arcs t'.arcs ∧ (∃ rs', t'.sub.Ok rs' ∧ Merged e rs rs') ∧
          ∃ rb', t'.bi.Ok rb' ∧ ((rb' = rb) ∨ (Into G.E (e.1 ∩ e.2) e.1 ∧ Into G.E (e.1 ∩ e.2) e.2 ∧ Merged e rb rb')))) := by
  obtain ⟨s1, f1, o1⟩ := UF.find_ok hs e.1
  obtain ⟨s2, f2, o2⟩ := UF.find_ok o1 e.2
  simp only [DAG.cliqueStep, f1, f2, Option.bind_eq_bind, Option.bind_some]
  by_cases h0 : rs e.1 = rs e.2
  · rw [if_pos h0]
    exact ⟨_, rfl, .inl ⟨rfl, o2, hb, .inl h0⟩⟩
  rw [if_neg h0]
  by_cases hboth : (G.allInto (e.1 ∩ e.2) e.1 && G.allInto (e.1 ∩ e.2) e.2) = true
  · rw [if_pos hboth]
    rw [Bool.and_eq_true, allInto_iff, allInto_iff] at hboth
    obtain ⟨b1, g1, p1⟩ := UF.find_ok hb e.1
    obtain ⟨b2, g2, p2⟩ := UF.find_ok p1 e.2
    simp only [g1, g2, Option.bind_some]
    split
    · rename_i hsrc
      rw [Bool.and_eq_true] at hsrc
      exact ⟨_, rfl, .inl ⟨rfl, o2, p2, .inr (.inl ⟨hboth.2, hasSource_src (t' := ⟨t.arcs, s2, b2⟩) rfl p2 hsrc.2⟩)⟩⟩
    · obtain ⟨s3, rs', f3, o3, m3⟩ := UF.union_ok tie o2 e.1 e.2
      obtain ⟨b3, rb', g3, p3, n3⟩ := UF.union_ok tie p2 e.1 e.2
      simp only [f3, g3, Option.bind_some]
      exact ⟨_, rfl, .inr ⟨h0, .inl ⟨hboth.1, hboth.2, rfl⟩, ⟨rs', o3, m3⟩, rb', p3, .inr ⟨hboth.1, hboth.2, n3⟩⟩⟩
  · rw [if_neg hboth]
    rw [Bool.and_eq_true, allInto_iff, allInto_iff] at hboth
    by_cases h2 : G.allInto (e.1 ∩ e.2) e.2 = true
    · rw [if_pos h2]
      rw [allInto_iff] at h2
      obtain ⟨b2, g2, p2⟩ := UF.find_ok hb e.2
      simp only [g2, Option.bind_some]
      split
      · rename_i hsrc
        exact ⟨_, rfl, .inl ⟨rfl, o2, p2, .inr (.inl ⟨h2, hasSource_src (t' := ⟨t.arcs, s2, b2⟩) rfl p2 hsrc⟩)⟩⟩
      · obtain ⟨s3, rs', f3, o3, m3⟩ := UF.union_ok tie o2 e.1 e.2
        simp only [f3, Option.bind_some]
        exact ⟨_, rfl, .inr ⟨h0, .inr (.inl ⟨fun h => hboth ⟨h, h2⟩, h2, rfl⟩), ⟨rs', o3, m3⟩, rb, p2, .inl rfl⟩⟩
    · rw [if_neg h2]
      rw [allInto_iff] at h2
      obtain ⟨b2, g2, p2⟩ := UF.find_ok hb e.1
      simp only [Prod.fst_swap, Prod.snd_swap, g2, Option.bind_some]
      split
      · rename_i hsrc
        exact ⟨_, rfl, .inl ⟨rfl, o2, p2, .inr (.inr ⟨h2, hasSource_src (t' := ⟨t.arcs, s2, b2⟩) rfl p2 hsrc⟩)⟩⟩
      · obtain ⟨s3, rs', f3, o3, m3⟩ := UF.union_ok tie o2 e.2 e.1
        simp only [f3, Option.bind_some]
        refine ⟨_, rfl, .inr ⟨h0, .inr (.inr ⟨h2, rfl⟩), ⟨rs', o3, fun a b => ?_⟩, rb, p2, .inl rfl⟩⟩
        rw [m3]
        exact or_congr_right or_comm

theorem added_link {E : α → α → Prop} {e : Finset α × Finset α} {T T' : Finset (Finset α × Finset α)} (h : Added E e T T') (x y : Finset α) :
    Link T' x y ↔ Link T x y ∨ (x = e.1 ∧ y = e.2) ∨ (x = e.2 ∧ y = e.1) := by
  rcases h with ⟨-, -, rfl⟩ | ⟨-, -, rfl⟩ | ⟨-, rfl⟩ <;>
    simp only [Link, Finset.mem_insert, Prod.ext_iff, Prod.fst_swap, Prod.snd_swap] <;> tauto

theorem added_sub {E : α → α → Prop} {e : Finset α × Finset α} {T T' : Finset (Finset α × Finset α)} (h : Added E e T T') : T ⊆ T' := by
  rcases h with ⟨-, -, rfl⟩ | ⟨-, -, rfl⟩ | ⟨-, rfl⟩
  · exact (Finset.subset_insert _ _).trans (Finset.subset_insert _ _)
  · exact Finset.subset_insert _ _
  · exact Finset.subset_insert _ _

theorem added_mem {E : α → α → Prop} {e : Finset α × Finset α} {T T' : Finset (Finset α × Finset α)} (h : Added E e T T') {a b : Finset α}
    (hab : (a, b) ∈ T') : (a, b) ∈ T ∨ (a = e.1 ∧ b = e.2 ∧ Into E (e.1 ∩ e.2) e.2) ∨
      (a = e.2 ∧ b = e.1 ∧ (Into E (e.1 ∩ e.2) e.1 ∨ ¬ Into E (e.1 ∩ e.2) e.2)) := by
  rcases h with ⟨h1, h2, rfl⟩ | ⟨h1, h2, rfl⟩ | ⟨h1, rfl⟩ <;>
    simp only [Finset.mem_insert, Prod.ext_iff, Prod.fst_swap, Prod.snd_swap] at hab
  · rcases hab with h | h | h
    · exact .inr (.inr ⟨h.1, h.2, .inl h1⟩)
    · exact .inr (.inl ⟨h.1, h.2, h2⟩)
    · exact .inl h
  · rcases hab with h | h
    · exact .inr (.inl ⟨h.1, h.2, h2⟩)
    · exact .inl h
  · rcases hab with h | h
    · exact .inr (.inr ⟨h.1, h.2, .inr h1⟩)
    · exact .inl h

theorem added_conn {E : α → α → Prop} {e : Finset α × Finset α} {T T' : Finset (Finset α × Finset α)} (h : Added E e T T') (x y : Finset α) :
    ReflTransGen (Link T') x y ↔ ReflTransGen (Link T) x y ∨ (ReflTransGen (Link T) x e.1 ∧ ReflTransGen (Link T) e.2 y) ∨
      (ReflTransGen (Link T) x e.2 ∧ ReflTransGen (Link T) e.1 y) := by
  have hl := added_link h
  have up : ∀ {x y}, ReflTransGen (Link T) x y → ReflTransGen (Link T') x y := fun h => conn_mono h fun _ _ h => (hl _ _).2 (.inl h)
  refine ⟨conn_insert fun x y => (hl x y).1, ?_⟩
  rintro (h1 | ⟨h1, h2⟩ | ⟨h1, h2⟩)
  · exact up h1
  · exact ((up h1).tail ((hl _ _).2 (.inr (.inl ⟨rfl, rfl⟩)))).trans (up h2)
  · exact ((up h1).tail ((hl _ _).2 (.inr (.inr ⟨rfl, rfl⟩)))).trans (up h2)

/-- What is true for all graphs. -/
structure Basic (cl : List (Finset α)) (t : CliqueTree α) : Prop where
  ends : ∀ a b, (a, b) ∈ t.arcs → a ∈ cl ∧ b ∈ cl ∧ (a ∩ b).Nonempty
  forest : Forest t.arcs
  sub : ∃ rs, t.sub.Ok rs ∧ ∀ a b, rs a = rs b ↔ ReflTransGen (Link t.arcs) a b
  bi : ∃ rb, t.bi.Ok rb ∧ ∀ a b, rb a = rb b → ReflTransGen (fun x y => (x, y) ∈ t.arcs ∧ (y, x) ∈ t.arcs) a b

theorem basic_empty (cl : List (Finset α)) : Basic cl ⟨∅, .empty, .empty⟩ := by
  refine ⟨by simp, fun a b h => by simp [Link] at h, ⟨id, UF.empty_ok, fun a b => ⟨?_, fun h => ?_⟩⟩, id, UF.empty_ok, ?_⟩
  · rintro rfl; exact .refl
  · induction h with
    | refl => rfl
    | tail _ h _ => simp [Link] at h
  · rintro a b rfl; exact .refl

/-- One turn of the loop, in terms of the arcs. -/
theorem Basic.step (tie : Finset α → Finset α → Bool) {G : DAG α} {cl : List (Finset α)} {t : CliqueTree α} (h : Basic cl t)
    {e : Finset α × Finset α} (h1 : e.1 ∈ cl) (h2 : e.2 ∈ cl) (hn : (e.1 ∩ e.2).Nonempty) :
    ∃ t', DAG.cliqueStep tie G cl t e = some t' ∧ Basic cl t' ∧
      ((t'.arcs = t.arcs ∧ (ReflTransGen (Link t.arcs) e.1 e.2 ∨
          ∃ b c' c0, ((b = e.2 ∧ Into G.E (e.1 ∩ e.2) e.2) ∨ (b = e.1 ∧ ¬ Into G.E (e.1 ∩ e.2) e.2)) ∧
            ReflTransGen (fun x y => (x, y) ∈ t.arcs ∧ (y, x) ∈ t.arcs) b c' ∧ Up t.arcs c0 c')) ∨
        (¬ ReflTransGen (Link t.arcs) e.1 e.2 ∧ Added G.E e t.arcs t'.arcs)) := by
  obtain ⟨rs, hs, hs'⟩ := h.sub
  obtain ⟨rb, hb, hb'⟩ := h.bi
  obtain ⟨t', ht, hc⟩ := step_cases tie G cl t e hs hb
  refine ⟨t', ht, ?_⟩
  rcases hc with ⟨e1, e2, e3, e4⟩ | ⟨e1, e2, ⟨rs', e3, e4⟩, rb', e5, e6⟩
  · refine ⟨⟨e1 ▸ h.ends, e1 ▸ h.forest, ⟨rs, e2, e1 ▸ hs'⟩, rb, e3, e1 ▸ hb'⟩, .inl ⟨e1, ?_⟩⟩
    rcases e4 with e4 | ⟨e4, c', c0, e5, e6⟩ | ⟨e4, c', c0, e5, e6⟩
    · exact .inl ((hs' _ _).1 e4)
    · exact .inr ⟨e.2, c', c0, .inl ⟨rfl, e4⟩, hb' _ _ e5.symm, e6⟩
    · exact .inr ⟨e.1, c', c0, .inr ⟨rfl, e4⟩, hb' _ _ e5.symm, e6⟩
  · rw [Ne, hs'] at e1
    have hsub := added_sub e2
    refine ⟨⟨?_, forest_insert (added_link e2) e1 h.forest, ⟨rs', e3, fun a b => ?_⟩, rb', e5, fun a b hab => ?_⟩, .inr ⟨e1, e2⟩⟩
    · intro a b hab
      rcases added_mem e2 hab with h3 | ⟨rfl, rfl, -⟩ | ⟨rfl, rfl, -⟩
      · exact h.ends a b h3
      · exact ⟨h1, h2, hn⟩
      · exact ⟨h2, h1, by rwa [Finset.inter_comm]⟩
    · rw [e4, added_conn e2, hs', hs', hs', hs', hs']
      have sy : ∀ x y, ReflTransGen (Link t.arcs) x y ↔ ReflTransGen (Link t.arcs) y x := fun x y => ⟨link_conn_symm, link_conn_symm⟩
      rw [sy b e.2, sy b e.1]
    · have up : ∀ {x y}, rb x = rb y → ReflTransGen (fun x y => (x, y) ∈ t'.arcs ∧ (y, x) ∈ t'.arcs) x y :=
        fun h => conn_mono (hb' _ _ h) fun _ _ h => ⟨hsub h.1, hsub h.2⟩
      rcases e6 with rfl | ⟨i1, i2, e6⟩
      · exact up hab
      · have both : (e.1, e.2) ∈ t'.arcs ∧ (e.2, e.1) ∈ t'.arcs := by
          rcases e2 with ⟨-, -, e2⟩ | ⟨e2, -⟩ | ⟨e2, -⟩
          · rw [e2]
            exact ⟨Finset.mem_insert_of_mem (Finset.mem_insert_self _ _), Finset.mem_insert_self _ _⟩
          · exact absurd i1 e2
          · exact absurd i2 e2
        rcases (e6 a b).1 hab with h3 | ⟨h3, h4⟩ | ⟨h3, h4⟩
        · exact up h3
        · exact ((up h3).tail both).trans (up h4.symm)
        · exact ((up h3).tail both.symm).trans (up h4.symm)

/-- What is true for graphs without v-structures, after treating the pairs `done`. -/
structure Inv (E : α → α → Prop) (cl : List (Finset α)) (done : List (Finset α × Finset α)) (t : CliqueTree α) : Prop extends Basic cl t where
  into : ∀ a b, (a, b) ∈ t.arcs → Into E (a ∩ b) b
  back : ∀ a b, (a, b) ∈ t.arcs → Into E (a ∩ b) a → (b, a) ∈ t.arcs
  joined : Joined t.arcs
  seen : ∀ e ∈ done, Seen E t.arcs e.1 e.2

theorem Inv.arcs {E : α → α → Prop} {cl : List (Finset α)} {done : List (Finset α × Finset α)} {t : CliqueTree α} (h : Inv E cl done t) :
    Arcs E cl t.arcs := ⟨h.ends, h.into, h.back, h.forest⟩

theorem Seen.mono {E : α → α → Prop} {T T' : Finset (Finset α × Finset α)} (hT : T ⊆ T') (hU : ∀ a b, Up T a b → Up T' a b) {c d : Finset α}
    (h : Seen E T c d) : Seen E T' c d := by
  have hb : ∀ I x, Blocked E T I x → Blocked E T' I x := by
    rintro I x ⟨h1, c', c0, h2, h3, h4⟩
    exact ⟨h1, c', c0, conn_mono h2 fun _ _ h => ⟨hT h.1, hT h.2.1, h.2.2⟩, hU _ _ h3, h4⟩
  rcases h with h | h | h | h
  · exact .inl (conn_mono h fun _ _ h => h.imp (fun h => hT h) fun h => hT h)
  · exact .inr (.inl (hb _ _ h))
  · exact .inr (.inr (.inl (hb _ _ h)))
  · exact .inr (.inr (.inr h))

section Loop

variable {G : DAG α} {r : α → ℕ} {cl : List (Finset α)}
  (hr : ∀ a b, G.E a b → r a < r b) (hm : ∀ x y z, G.E x z → G.E y z → x = y ∨ Adj G.E x y)
  (hV : ∀ a b, G.E a b → a ∈ G.nodes ∧ b ∈ G.nodes) (hcl : ∀ c, c ∈ cl ↔ MaxClique G.nodes G.E c)
include hr hm hV hcl

theorem Inv.step (tie : Finset α → Finset α → Bool) {done : List (Finset α × Finset α)} {t : CliqueTree α} (h : Inv G.E cl done t)
    {e : Finset α × Finset α} (h1 : e.1 ∈ cl) (h2 : e.2 ∈ cl) (hn : (e.1 ∩ e.2).Nonempty)
    (hall : ∀ a ∈ cl, ∀ b ∈ cl, a ≠ b → (e.1 ∩ e.2).card + 1 ≤ (a ∩ b).card → Seen G.E t.arcs a b)
    (hbig : ∀ a b, (a, b) ∈ t.arcs → (e.1 ∩ e.2).card ≤ (a ∩ b).card) :
    ∃ t', DAG.cliqueStep tie G cl t e = some t' ∧ Inv G.E cl (e :: done) t' ∧
      ∀ a b, (a, b) ∈ t'.arcs → (e.1 ∩ e.2).card ≤ (a ∩ b).card := by
  obtain ⟨t', ht, hB, hc⟩ := h.toBasic.step tie (G := G) h1 h2 hn
  refine ⟨t', ht, ?_⟩
  have first : ¬ ReflTransGen (Link t.arcs) e.1 e.2 → ¬ Into G.E (e.1 ∩ e.2) e.2 → Into G.E (e.1 ∩ e.2) e.1 := by
    intro hcon h3
    by_contra h4
    have lv := h.arcs.level hr hm hcl hall
    obtain ⟨n, hn, hIn, ⟨x, hx, hxn, hxI⟩, y, hy, hyn, hyI⟩ := upper hr hm hcl h1 h2 rfl h4 h3
    refine hcon ((lv _ h1 n hn ?_).trans (lv n hn _ h2 ?_))
    · rw [← Finset.card_insert_of_notMem hxI]
      exact Finset.card_le_card (Finset.subset_inter (Finset.insert_subset hx Finset.inter_subset_left) (Finset.insert_subset hxn hIn))
    · rw [← Finset.card_insert_of_notMem hyI]
      exact Finset.card_le_card (Finset.subset_inter (Finset.insert_subset hyn hIn) (Finset.insert_subset hy Finset.inter_subset_right))
  rcases hc with ⟨e1, e2⟩ | ⟨hcon, hadd⟩
  · refine ⟨⟨hB, e1 ▸ h.into, e1 ▸ h.back, e1 ▸ h.joined, ?_⟩, e1 ▸ hbig⟩
    rw [e1]
    intro f hf
    rcases List.mem_cons.1 hf with rfl | hf
    swap
    · exact h.seen f hf
    by_cases hcon : ReflTransGen (Link t.arcs) f.1 f.2
    · exact .inl hcon
    rcases e2 with e2 | ⟨b, c', c0, hb, e2, e3⟩
    · exact .inl e2
    · have bl : Into G.E (f.1 ∩ f.2) b → Blocked G.E t.arcs (f.1 ∩ f.2) b := fun hi =>
        ⟨hi, c', c0, conn_mono e2 fun _ _ h => ⟨h.1, h.2, hbig _ _ h.1⟩, e3, hbig _ _ e3.1⟩
      rcases hb with ⟨rfl, hb⟩ | ⟨rfl, hb⟩
      · exact .inr (.inr (.inl (bl hb)))
      · exact .inr (.inl (bl (first hcon hb)))
  · have hsub := added_sub hadd
    have hU : ∀ a b, Up t.arcs a b → Up t'.arcs a b := by
      rintro a b ⟨h3, h4⟩
      refine ⟨hsub h3, fun h5 => ?_⟩
      rcases added_mem hadd h5 with h6 | ⟨rfl, rfl, -⟩ | ⟨rfl, rfl, -⟩
      · exact h4 h6
      · exact hcon (.single (.inr h3))
      · exact hcon (.single (.inl h3))
    have both : Into G.E (e.1 ∩ e.2) e.1 → Into G.E (e.1 ∩ e.2) e.2 → (e.1, e.2) ∈ t'.arcs ∧ (e.2, e.1) ∈ t'.arcs := by
      intro i1 i2
      rcases hadd with ⟨-, -, hadd⟩ | ⟨hadd, -⟩ | ⟨hadd, -⟩
      · rw [hadd]
        exact ⟨Finset.mem_insert_of_mem (Finset.mem_insert_self _ _), Finset.mem_insert_self _ _⟩
      · exact absurd i1 hadd
      · exact absurd i2 hadd
    have cr := h.arcs.cross hr hm hV hcl h1 h2 hall hbig hcon
    refine ⟨⟨hB, ?_, ?_, joined_insert (added_link hadd) cr h.joined, ?_⟩, ?_⟩
    · intro a b hab
      rcases added_mem hadd hab with h6 | ⟨rfl, rfl, h6⟩ | ⟨rfl, rfl, h6⟩
      · exact h.into a b h6
      · exact h6
      · rw [Finset.inter_comm]
        exact h6.elim id fun h6 => first hcon h6
    · intro a b hab hi
      rcases added_mem hadd hab with h6 | ⟨rfl, rfl, h6⟩ | ⟨rfl, rfl, h6⟩
      · exact hsub (h.back a b h6 hi)
      · exact (both hi h6).2
      · rw [Finset.inter_comm] at hi
        rcases h6 with h6 | h6
        · exact (both h6 hi).1
        · exact absurd hi h6
    · intro f hf
      rcases List.mem_cons.1 hf with rfl | hf
      · exact .inl (.single ((added_link hadd _ _).2 (.inr (.inl ⟨rfl, rfl⟩))))
      · exact (h.seen f hf).mono hsub hU
    · intro a b hab
      rcases added_mem hadd hab with h6 | ⟨rfl, rfl, -⟩ | ⟨rfl, rfl, -⟩
      · exact hbig a b h6
      · exact le_rfl
      · rw [Finset.inter_comm e.2]

theorem Inv.loop (tie : Finset α → Finset α → Bool) : ∀ (rest done : List (Finset α × Finset α)) (t : CliqueTree α), Inv G.E cl done t →
    (∀ e ∈ rest, e.1 ∈ cl ∧ e.2 ∈ cl ∧ (e.1 ∩ e.2).Nonempty) →
    (∀ a ∈ cl, ∀ b ∈ cl, a ≠ b → (a ∩ b).Nonempty → (a, b) ∈ done ∨ (b, a) ∈ done ∨ (a, b) ∈ rest ∨ (b, a) ∈ rest) →
    rest.Pairwise (fun a b => (b.1 ∩ b.2).card ≤ (a.1 ∩ a.2).card) →
    (∀ a b, (a, b) ∈ t.arcs → ∀ e ∈ rest, (e.1 ∩ e.2).card ≤ (a ∩ b).card) →
    ∃ t' done', rest.foldlM (DAG.cliqueStep tie G cl) t = some t' ∧ Inv G.E cl done' t' ∧
      ∀ a ∈ cl, ∀ b ∈ cl, a ≠ b → (a ∩ b).Nonempty → (a, b) ∈ done' ∨ (b, a) ∈ done' := by
  intro rest
  induction rest with
  | nil =>
    intro done t h _ hc _ _
    refine ⟨t, done, rfl, h, fun a ha b hb hab hn => ?_⟩
    rcases hc a ha b hb hab hn with h | h | h | h
    · exact .inl h
    · exact .inr h
    · simp at h
    · simp at h
  | cons e rest ih =>
    intro done t h hin hc hp hbig
    rw [List.pairwise_cons] at hp
    obtain ⟨i1, i2, i3⟩ := hin e (List.mem_cons_self ..)
    have hle : ∀ f ∈ e :: rest, (f.1 ∩ f.2).card ≤ (e.1 ∩ e.2).card := by
      intro f hf
      rcases List.mem_cons.1 hf with rfl | hf
      · exact le_rfl
      · exact hp.1 f hf
    obtain ⟨t', ht, h', hb'⟩ := h.step hr hm hV hcl tie i1 i2 i3 (by
        intro a ha b hb hab hcard
        rcases hc a ha b hb hab (Finset.card_pos.1 (by omega)) with h3 | h3 | h3 | h3
        · exact h.seen _ h3
        · exact (h.seen _ h3).symm
        · have := hle _ h3
          dsimp only at this
          omega
        · have := hle _ h3
          dsimp only at this
          rw [Finset.inter_comm b] at this
          omega) (fun a b hab => hbig a b hab e (List.mem_cons_self ..))
    rw [List.foldlM_cons, ht]
    refine ih (e :: done) t' h' (fun f hf => hin f (List.mem_cons_of_mem _ hf)) ?_ hp.2 ?_
    · intro a ha b hb hab hn
      have := hc a ha b hb hab hn
      simp only [List.mem_cons] at this ⊢
      tauto
    · exact fun a b hab f hf => (hp.1 f hf).trans (hb' a b hab)

end Loop

theorem mem_cliquePairs {cl : List (Finset α)} {e : Finset α × Finset α} :
    e ∈ DAG.cliquePairs cl ↔ List.Sublist [e.1, e.2] cl ∧ (e.1 ∩ e.2).Nonempty := by
  rw [DAG.cliquePairs, List.mem_insertionSort, List.mem_filter, decide_eq_true_eq]
  exact and_congr_left fun _ => pairs_iff_sublist (x := e.1) (y := e.2)

theorem cliquePairs_sorted (cl : List (Finset α)) :
    (DAG.cliquePairs cl).Pairwise fun a b => (b.1 ∩ b.2).card ≤ (a.1 ∩ a.2).card := by
  rw [DAG.cliquePairs]
  have : Std.Total fun a b : Finset α × Finset α => (b.1 ∩ b.2).card ≤ (a.1 ∩ a.2).card := ⟨fun a b => le_total _ _⟩
  have : IsTrans (Finset α × Finset α) fun a b => (b.1 ∩ b.2).card ≤ (a.1 ∩ a.2).card := ⟨fun a b c h1 h2 => h2.trans h1⟩
  exact List.pairwise_insertionSort _ _

theorem cliquePairs_mem {cl : List (Finset α)} : ∀ e ∈ DAG.cliquePairs cl, e.1 ∈ cl ∧ e.2 ∈ cl ∧ (e.1 ∩ e.2).Nonempty := by
  intro e he
  rw [mem_cliquePairs] at he
  exact ⟨he.1.subset (by simp), he.1.subset (by simp), he.2⟩

/-- The loop ends for every graph, and what it leaves is a forest. -/
theorem basic_loop (tie : Finset α → Finset α → Bool) (G : DAG α) (cl : List (Finset α)) :
    ∃ t, (DAG.cliquePairs cl).foldlM (DAG.cliqueStep tie G cl) ⟨∅, .empty, .empty⟩ = some t ∧ Basic cl t := by
  have key : ∀ (l : List (Finset α × Finset α)) (t : CliqueTree α), Basic cl t → (∀ e ∈ l, e.1 ∈ cl ∧ e.2 ∈ cl ∧ (e.1 ∩ e.2).Nonempty) →
      ∃ t', l.foldlM (DAG.cliqueStep tie G cl) t = some t' ∧ Basic cl t' := by
    intro l
    induction l with
    | nil => exact fun t h _ => ⟨t, rfl, h⟩
    | cons e l ih =>
      intro t h hin
      obtain ⟨i1, i2, i3⟩ := hin e (List.mem_cons_self ..)
      obtain ⟨t', ht, h', -⟩ := h.step tie (G := G) i1 i2 i3
      rw [List.foldlM_cons, ht]
      exact ih t' h' fun f hf => hin f (List.mem_cons_of_mem _ hf)
  exact key _ _ (basic_empty cl) cliquePairs_mem

theorem sublist_pair {β : Type u} {l : List β} {a b : β} (ha : a ∈ l) (hb : b ∈ l) (hab : a ≠ b) :
    List.Sublist [a, b] l ∨ List.Sublist [b, a] l := by
  induction l with
  | nil => simp at ha
  | cons x l ih =>
    rcases List.mem_cons.1 ha with rfl | ha'
    · rcases List.mem_cons.1 hb with h | hb
      · exact absurd h.symm hab
      · exact .inl ((List.singleton_sublist.2 hb).cons_cons a)
    · rcases List.mem_cons.1 hb with rfl | hb'
      · exact .inr ((List.singleton_sublist.2 ha').cons_cons b)
      · exact (ih ha' hb').imp (.cons x) (.cons x)

/-- The result for a graph without v-structures. -/
theorem moral_loop (tie : Finset α → Finset α → Bool) {G : DAG α} (hG : G.Valid) (hm : ∀ x y z, G.E x z → G.E y z → x = y ∨ Adj G.E x y)
    {cl : List (Finset α)} (hcl : ∀ c, c ∈ cl ↔ MaxClique G.nodes G.E c) :
    ∃ T, DAG.directedCliqueTree tie G cl = some T ∧ Arcs G.E cl T ∧ Joined T ∧
      ∀ c ∈ cl, ∀ d ∈ cl, (c ∩ d).Nonempty → ReflTransGen (Link T) c d := by
  have hV : ∀ a b, G.E a b → a ∈ G.nodes ∧ b ∈ G.nodes := fun a b h => ⟨hG.fst_mem a b h, hG.snd_mem a b h⟩
  obtain ⟨r, -, hr, -⟩ := exists_rank hG.acyclic _ G.nodes rfl
  replace hr : ∀ a b, G.E a b → r a < r b := fun a b h => hr a (hV a b h).1 b (hV a b h).2 h
  have h0 : Inv G.E cl [] ⟨∅, .empty, .empty⟩ := by
    refine ⟨basic_empty cl, by simp, by simp, ?_, by simp⟩
    intro c d h
    induction h with
    | refl => exact .refl
    | tail _ h _ => simp [Link] at h
  obtain ⟨t, done, h1, h2, h3⟩ := Inv.loop hr hm hV hcl tie (DAG.cliquePairs cl) [] _ h0 cliquePairs_mem (by
      intro a ha b hb hab hn
      rcases sublist_pair ha hb hab with h | h
      · exact .inr (.inr (.inl (mem_cliquePairs.2 ⟨h, hn⟩)))
      · exact .inr (.inr (.inr (mem_cliquePairs.2 ⟨h, by rwa [Finset.inter_comm] at hn⟩)))) (cliquePairs_sorted cl) (by simp)
  refine ⟨t.arcs, by rw [DAG.directedCliqueTree, h1]; rfl, h2.arcs, h2.joined, fun c hc d hd hn => ?_⟩
  refine h2.arcs.level hr hm hcl (w := 1) (fun a ha b hb hab hcard => ?_) c hc d hd (Finset.card_pos.2 hn)
  rcases h3 a ha b hb hab (Finset.card_pos.1 hcard) with h | h
  · exact h2.seen _ h
  · exact (h2.seen _ h).symm

end Proof.CT
