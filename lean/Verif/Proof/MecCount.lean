import Verif.Proof.Covered
import Mathlib.Algebra.BigOperators.Group.Finset.Basic
import Mathlib.Algebra.Order.BigOperators.Group.Finset
import Mathlib.Combinatorics.Enumerative.DoubleCounting
import Mathlib.Order.Fin.Basic
import Mathlib.Data.Fintype.Perm

/-! # Counting the orientations of a connected graph without v-structures -/

namespace Spec

universe u
variable {α : Type u} [DecidableEq α]
open Relation

set_option linter.unusedSectionVars false

/-- `A` orients the graph `S` without a directed cycle and without v-structures. -/
structure Moral (S : α → α → Prop) (A : Finset (α × α)) : Prop where
  acyclic : Acyclic fun i j => (i, j) ∈ A
  adj : ∀ a b, Adj (fun i j => (i, j) ∈ A) a b ↔ S a b
  no_vstr : ∀ a c b, ¬ VStruct (fun i j => (i, j) ∈ A) a c b

/-- `S` is a connected graph on the nodes `V`. -/
structure OnePiece (V : Finset α) (S : α → α → Prop) : Prop where
  mem : ∀ a b, S a b → a ∈ V ∧ b ∈ V
  path : ∀ a ∈ V, ∀ b ∈ V, ReflTransGen S a b

/-- `s` is a node without incoming arcs. -/
def Root (V : Finset α) (A : Finset (α × α)) (s : α) : Prop := s ∈ V ∧ ∀ p, (p, s) ∉ A

variable {V : Finset α} {S : α → α → Prop} {A B : Finset (α × α)}

theorem Moral.mem (h : Moral S A) (hJ : OnePiece V S) {a b : α} (hab : (a, b) ∈ A) : a ∈ V ∧ b ∈ V :=
  hJ.mem a b ((h.adj a b).1 (Or.inl hab))

theorem Moral.linked (h : Moral S A) {a b c : α} (hac : (a, c) ∈ A) (hbc : (b, c) ∈ A) (hne : a ≠ b) :
    (a, b) ∈ A ∨ (b, a) ∈ A := by
  by_contra hn
  exact h.no_vstr a c b ⟨hne, hac, hbc, hn⟩

/-- Every node has a root above it. -/
theorem Moral.exists_root (h : Moral S A) (hJ : OnePiece V S) {v : α} (hv : v ∈ V) :
    ∃ s, Root V A s ∧ ReflTransGen (fun i j => (i, j) ∈ A) s v := by
  classical
  obtain ⟨s, hs, hmin⟩ := Model.DAG.exists_minimal h.acyclic
    (V.filter fun s => ReflTransGen (fun i j => (i, j) ∈ A) s v) ⟨v, Finset.mem_filter.2 ⟨hv, .refl⟩⟩
  rw [Finset.mem_filter] at hs
  refine ⟨s, ⟨hs.1, fun p hp => ?_⟩, hs.2⟩
  exact hmin p (Finset.mem_filter.2 ⟨(h.mem hJ hp).1, .head hp hs.2⟩) (.single hp)

/-- There is only one root above a node. -/
theorem Moral.root_above (h : Moral S A) (hJ : OnePiece V S) {s t : α} (hs : Root V A s) (ht : Root V A t) :
    ∀ v ∈ V, ReflTransGen (fun i j => (i, j) ∈ A) s v → ReflTransGen (fun i j => (i, j) ∈ A) t v → s = t := by
  classical
  by_contra hc
  push Not at hc
  obtain ⟨w, hw, k1, k2, hne⟩ := hc
  obtain ⟨v, hv, hmin⟩ := Model.DAG.exists_minimal h.acyclic
    (V.filter fun v => ReflTransGen (fun i j => (i, j) ∈ A) s v ∧ ReflTransGen (fun i j => (i, j) ∈ A) t v)
    ⟨w, Finset.mem_filter.2 ⟨hw, k1, k2⟩⟩
  rw [Finset.mem_filter] at hv
  obtain ⟨hv, h1, h2⟩ := hv
  rcases h1.cases_tail with rfl | ⟨p, hsp, hpv⟩
  · rcases h2.cases_tail with h3 | ⟨q, htq, hqv⟩
    · exact hne h3
    · exact hs.2 q hqv
  rcases h2.cases_tail with rfl | ⟨q, htq, hqv⟩
  · exact ht.2 p hpv
  by_cases hpq : p = q
  · subst hpq
    exact hmin p (Finset.mem_filter.2 ⟨(h.mem hJ hpv).1, hsp, htq⟩) (.single hpv)
  · rcases h.linked hpv hqv hpq with h3 | h3
    · exact hmin q (Finset.mem_filter.2 ⟨(h.mem hJ hqv).1, hsp.tail h3, htq⟩) (.single hqv)
    · exact hmin p (Finset.mem_filter.2 ⟨(h.mem hJ hpv).1, hsp, htq.tail h3⟩) (.single hpv)

theorem Moral.root_unique (h : Moral S A) (hJ : OnePiece V S) {s t : α} (hs : Root V A s) (ht : Root V A t) : s = t := by
  have key : ∀ v, ReflTransGen S t v → v ∈ V → ∃ r, ReflTransGen (fun i j => (i, j) ∈ A) t v ∧ r = t := by
    intro v hv
    induction hv with
    | refl => exact fun _ => ⟨t, .refl, rfl⟩
    | @tail b c hb hbc ih =>
      intro hc
      obtain ⟨_, k1, _⟩ := ih (hJ.mem _ _ hbc).1
      rcases (h.adj b c).2 hbc with h1 | h1
      · exact ⟨t, k1.tail h1, rfl⟩
      · obtain ⟨r, hr, hrc⟩ := h.exists_root hJ hc
        obtain rfl := h.root_above hJ hr ht b (hJ.mem _ _ hbc).1 (hrc.tail h1) k1
        exact ⟨r, hrc, rfl⟩
  obtain ⟨_, k, _⟩ := key s (hJ.path t ht.1 s hs.1) hs.1
  exact h.root_above hJ hs ht s hs.1 .refl k

/-- The number of arcs into a node. -/
def indeg (A : Finset (α × α)) (v : α) : ℕ := (A.filter fun a => a.2 = v).card

theorem Moral.sum_indeg (h : Moral S A) (hJ : OnePiece V S) {s : α} (hs : Root V A s) :
    A.card = ∑ v ∈ V.erase s, indeg A v := by
  refine Finset.card_eq_sum_card_fiberwise fun a ha => ?_
  have ha' : (a.1, a.2) ∈ A := ha
  refine Finset.mem_coe.2 (Finset.mem_erase.2 ⟨?_, (h.mem hJ ha').2⟩)
  intro he
  rw [he] at ha'
  exact hs.2 _ ha'

theorem Moral.one_le_indeg (h : Moral S A) (hJ : OnePiece V S) {s v : α} (hs : Root V A s) (hv : v ∈ V.erase s) :
    1 ≤ indeg A v := by
  rw [Finset.mem_erase] at hv
  by_contra hn
  refine hv.1 (h.root_unique hJ ⟨hv.2, fun p hp => ?_⟩ hs)
  exact hn (Finset.card_pos.2 ⟨(p, v), Finset.mem_filter.2 ⟨hp, rfl⟩⟩)

theorem eq_of_indeg_one {v p q : α} (h : indeg A v = 1) (hp : (p, v) ∈ A) (hq : (q, v) ∈ A) : p = q := by
  obtain ⟨a, ha⟩ := Finset.card_eq_one.1 h
  have h1 : (p, v) ∈ A.filter fun a => a.2 = v := Finset.mem_filter.2 ⟨hp, rfl⟩
  have h2 : (q, v) ∈ A.filter fun a => a.2 = v := Finset.mem_filter.2 ⟨hq, rfl⟩
  rw [ha, Finset.mem_singleton] at h1 h2
  exact congrArg Prod.fst (h1.trans h2.symm)

/-- In a tree every node has at most one parent. -/
theorem Moral.tree (h : Moral S A) (hJ : OnePiece V S) (hV : V.Nonempty) (hc : A.card + 1 = V.card) {v p q : α}
    (hp : (p, v) ∈ A) (hq : (q, v) ∈ A) : p = q := by
  obtain ⟨x, hx⟩ := hV
  obtain ⟨s, hs, _⟩ := h.exists_root hJ hx
  have h1 := h.sum_indeg hJ hs
  have h2 : ∑ v ∈ V.erase s, 1 = ∑ v ∈ V.erase s, indeg A v := by
    rw [← h1, Finset.sum_const, Finset.card_erase_of_mem hs.1]; simp; omega
  have h3 := (Finset.sum_eq_sum_iff_of_le fun v hv => h.one_le_indeg hJ hs hv).1 h2
  refine eq_of_indeg_one (h3 v (Finset.mem_erase.2 ⟨?_, (h.mem hJ hp).2⟩)).symm hp hq
  rintro rfl
  exact hs.2 _ hp

/-- With one edge more than a tree, exactly one node has two parents. -/
theorem Moral.unicyclic (h : Moral S A) (hJ : OnePiece V S) (hV : V.Nonempty) (hc : A.card = V.card) :
    ∃ p q z, (p, q) ∈ A ∧ (p, z) ∈ A ∧ (q, z) ∈ A ∧ (∀ x, (x, z) ∈ A → x = p ∨ x = q) ∧
      ∀ v, v ≠ z → ∀ x y, (x, v) ∈ A → (y, v) ∈ A → x = y := by
  obtain ⟨x, hx⟩ := hV
  obtain ⟨s, hs, _⟩ := h.exists_root hJ hx
  have h1 := h.sum_indeg hJ hs
  have hcard : (V.erase s).card + 1 = V.card := Finset.card_erase_add_one hs.1
  obtain ⟨z, hz, hz2⟩ : ∃ z ∈ V.erase s, 2 ≤ indeg A z := by
    by_contra hn
    push Not at hn
    have : ∑ v ∈ V.erase s, indeg A v ≤ ∑ v ∈ V.erase s, 1 := Finset.sum_le_sum fun v hv => by
      have := hn v hv; omega
    rw [Finset.sum_const] at this
    simp only [nsmul_eq_mul, Nat.cast_id, mul_one] at this
    omega
  have h2 := Finset.add_sum_erase _ (indeg A) hz
  have hle : ∀ v ∈ (V.erase s).erase z, 1 ≤ indeg A v := fun v hv => h.one_le_indeg hJ hs (Finset.mem_of_mem_erase hv)
  have h3 : ∑ v ∈ (V.erase s).erase z, 1 ≤ ∑ v ∈ (V.erase s).erase z, indeg A v := Finset.sum_le_sum hle
  have h4 : ((V.erase s).erase z).card + 1 = (V.erase s).card := Finset.card_erase_add_one hz
  rw [Finset.sum_const, nsmul_eq_mul, Nat.cast_id, mul_one] at h3
  have hz' : indeg A z = 2 := by omega
  have h5 : ∑ v ∈ (V.erase s).erase z, 1 = ∑ v ∈ (V.erase s).erase z, indeg A v := by
    rw [Finset.sum_const, nsmul_eq_mul, Nat.cast_id, mul_one]; omega
  have h6 := (Finset.sum_eq_sum_iff_of_le hle).1 h5
  have hone : ∀ v, v ≠ z → ∀ x y, (x, v) ∈ A → (y, v) ∈ A → x = y := by
    intro v hv x y hx hy
    refine eq_of_indeg_one (h6 v (Finset.mem_erase.2 ⟨hv, Finset.mem_erase.2 ⟨?_, (h.mem hJ hx).2⟩⟩)).symm hx hy
    rintro rfl
    exact hs.2 _ hx
  obtain ⟨a, b, hab, heq⟩ := Finset.card_eq_two.1 hz'
  have hmem : ∀ x, (x, z) ∈ A ↔ (x, z) = a ∨ (x, z) = b := by
    intro x
    have : (x, z) ∈ A.filter (fun a => a.2 = z) ↔ (x, z) ∈ A := by simp
    rw [← this, heq]; simp
  have ha2 : a.2 = z := by
    have : a ∈ A.filter fun a => a.2 = z := by rw [heq]; simp
    exact (Finset.mem_filter.1 this).2
  have hb2 : b.2 = z := by
    have : b ∈ A.filter fun a => a.2 = z := by rw [heq]; simp
    exact (Finset.mem_filter.1 this).2
  obtain ⟨p, z'⟩ := a
  obtain ⟨q, z''⟩ := b
  dsimp only at ha2 hb2
  subst ha2 hb2
  have hpq : p ≠ q := fun h => hab (by rw [h])
  have hp := (hmem p).2 (Or.inl rfl)
  have hq := (hmem q).2 (Or.inr rfl)
  have hm' : ∀ x, (x, z'') ∈ A → x = p ∨ x = q := by
    intro x hx
    rcases (hmem x).1 hx with h | h
    · exact Or.inl (congrArg Prod.fst h)
    · exact Or.inr (congrArg Prod.fst h)
  rcases h.linked hp hq hpq with h7 | h7
  · exact ⟨p, q, _, h7, hp, hq, hm', hone⟩
  · exact ⟨q, p, _, h7, hq, hp, fun x hx => (hm' x hx).symm, hone⟩

/-- `A` with the arc `i → j` reversed. -/
def turned (A : Finset (α × α)) (i j : α) : Finset (α × α) := A.filter (fun a => ¬ (a.1 = i ∧ a.2 = j)) ∪ {(j, i)}

theorem mem_turned {i j a b : α} : (a, b) ∈ turned A i j ↔ Reverse (fun i j => (i, j) ∈ A) i j a b := by
  simp only [turned, Reverse, Finset.mem_union, Finset.mem_filter, Finset.mem_singleton, Prod.mk.injEq]

theorem Moral.flip (h : Moral S A) {i j : α} (hc : Covered (fun i j => (i, j) ∈ A) i j) : Moral S (turned A i j) := by
  have he : (fun a b => (a, b) ∈ Spec.turned A i j) = Reverse (fun i j => (i, j) ∈ A) i j := by
    funext a b; exact propext mem_turned
  have hs := covered_sameSkelV h.acyclic hc
  constructor
  · rw [he]; exact covered_reverse_acyclic h.acyclic hc
  · intro a b; rw [he, ← hs.skel, h.adj]
  · intro a c b; rw [he, ← hs.vstr]; exact h.no_vstr a c b

theorem turned_card {i j : α} (hij : (i, j) ∈ A) (hji : (j, i) ∉ A) : (turned A i j).card = A.card := by
  have he : A.filter (fun a => ¬ (a.1 = i ∧ a.2 = j)) = A.erase (i, j) := by
    ext ⟨a, b⟩
    simp only [Finset.mem_filter, Finset.mem_erase, ne_eq, Prod.mk.injEq]
    tauto
  unfold turned
  rw [he, Finset.card_union_of_disjoint, Finset.card_erase_of_mem hij]
  · have := Finset.card_pos.2 ⟨_, hij⟩
    simp; omega
  · rw [Finset.disjoint_singleton_right]
    exact fun h => hji (Finset.mem_of_mem_erase h)

/-- The arc from the root to a node without other parents can be reversed. -/
theorem Moral.move (h : Moral S A) (hJ : OnePiece V S) {s c : α} (hs : Root V A s) (hsc : (s, c) ∈ A)
    (hc : ∀ x, (x, c) ∈ A → x = s) : ∃ B, Moral S B ∧ B.card = A.card ∧ Root V B c := by
  have hcov : Covered (fun i j => (i, j) ∈ A) s c :=
    ⟨hsc, fun p => ⟨fun hp => absurd hp (hs.2 p), fun hp => absurd (hc p hp.1) hp.2⟩⟩
  refine ⟨Spec.turned A s c, h.flip hcov, turned_card hsc (h.acyclic.asymm hsc), (h.mem hJ hsc).2, fun p hp => ?_⟩
  rw [mem_turned, reverse_parent_j h.acyclic hcov] at hp
  exact hs.2 p hp

/-- The unique node with two parents can exchange its place with one of them. -/
theorem Moral.swap (h : Moral S A) {p q z : α} (hpq : (p, q) ∈ A) (hpz : (p, z) ∈ A) (hqz : (q, z) ∈ A)
    (hz : ∀ x, (x, z) ∈ A → x = p ∨ x = q) (hone : ∀ v, v ≠ z → ∀ x y, (x, v) ∈ A → (y, v) ∈ A → x = y) :
    Covered (fun i j => (i, j) ∈ A) q z := by
  have hne : q ≠ z := by rintro rfl; exact h.acyclic.irrefl hqz
  refine ⟨hqz, fun x => ⟨fun hx => ?_, fun hx => ?_⟩⟩
  · obtain rfl := hone q hne x p hx hpq
    exact ⟨hpz, by rintro rfl; exact h.acyclic.irrefl hx⟩
  · rcases hz x hx.1 with rfl | rfl
    · exact hpq
    · exact absurd rfl hx.2

/-- Any node can be made the root. -/
theorem Moral.reroot (h : Moral S A) (hJ : OnePiece V S) (hV : V.Nonempty) (hc : A.card + 1 = V.card ∨ A.card = V.card)
    {r : α} (hr : r ∈ V) : ∃ B, Moral S B ∧ B.card = A.card ∧ Root V B r := by
  obtain ⟨s, hs, _⟩ := h.exists_root hJ hr
  have key : ∀ v, ReflTransGen S s v → ∃ B, Moral S B ∧ B.card = A.card ∧ Root V B v := by
    intro v hv
    induction hv with
    | refl => exact ⟨A, h, rfl, hs⟩
    | @tail b c _ hbc ih =>
      obtain ⟨B, h1, h2, h3⟩ := ih
      have hbc' : (b, c) ∈ B := ((h1.adj b c).2 hbc).resolve_right (h3.2 c)
      rw [← h2] at hc
      rcases hc with hc | hc
      · obtain ⟨C, k1, k2, k3⟩ := h1.move hJ h3 hbc' fun x hx => h1.tree hJ hV hc hx hbc'
        exact ⟨C, k1, k2.trans h2, k3⟩
      · obtain ⟨p, q, z, e1, e2, e3, e4, e5⟩ := h1.unicyclic hJ hV hc
        by_cases hcz : c = z
        · subst hcz
          have hcov := h1.swap e1 e2 e3 e4 e5
          have hpb : p = b := by
            rcases e4 b hbc' with h | h
            · exact h.symm
            · exact absurd (h ▸ e1) (h3.2 p)
          subst hpb
          have hne : p ≠ q := by rintro rfl; exact h1.acyclic.irrefl e1
          have hroot : Root V (Spec.turned B q c) p := by
            refine ⟨h3.1, fun x hx => ?_⟩
            rw [mem_turned, reverse_parent_other hne (by rintro rfl; exact h3.2 _ e2)] at hx
            exact h3.2 x hx
          obtain ⟨C, k1, k2, k3⟩ := (h1.flip hcov).move hJ hroot (c := c) (by
            rw [mem_turned, reverse_parent_j h1.acyclic hcov]; exact e1) (by
            intro x hx
            rw [mem_turned, reverse_parent_j h1.acyclic hcov] at hx
            exact e5 q (by rintro rfl; exact h1.acyclic.irrefl e3) x p hx e1)
          exact ⟨C, k1, by rw [k2, turned_card e3 (h1.acyclic.asymm e3), h2], k3⟩
        · obtain ⟨C, k1, k2, k3⟩ := h1.move hJ h3 hbc' fun x hx => e5 c hcz x b hx hbc'
          exact ⟨C, k1, k2.trans h2, k3⟩
  exact key r (hJ.path s hs.1 r hr)

/-- The first place where two orientations with the same root differ. -/
theorem Moral.differ (hA : Moral S A) (hB : Moral S B) (hJ : OnePiece V S) {s : α} (hs : Root V A s) (ht : Root V B s)
    (hne : A ≠ B) : ∃ x a b, (x, a) ∈ A ∧ (x, a) ∈ B ∧ (a, b) ∈ A ∧ (b, a) ∈ B ∧ (x, b) ∈ A := by
  have hflip : ∀ a b, (a, b) ∈ A → (a, b) ∉ B → (b, a) ∈ B := by
    intro a b hab hn
    exact ((hB.adj a b).2 ((hA.adj a b).1 (Or.inl hab))).resolve_left hn
  have hex : ∃ a b, (a, b) ∈ A ∧ (b, a) ∈ B := by
    by_contra hc
    push Not at hc
    refine hne (Finset.Subset.antisymm ?_ ?_)
    · rintro ⟨a, b⟩ hab
      by_contra hn
      exact hc a b hab (hflip a b hab hn)
    · rintro ⟨a, b⟩ hab
      rcases (hA.adj a b).2 ((hB.adj a b).1 (Or.inl hab)) with h | h
      · exact h
      · exact absurd hab (hc b a h)
  obtain ⟨a0, b0, h1, h2⟩ := hex
  classical
  obtain ⟨a, ha, hmin⟩ := Model.DAG.exists_minimal hA.acyclic (V.filter fun a => ∃ b, (a, b) ∈ A ∧ (b, a) ∈ B)
    ⟨a0, Finset.mem_filter.2 ⟨(hA.mem hJ h1).1, b0, h1, h2⟩⟩
  rw [Finset.mem_filter] at ha
  obtain ⟨hav, b, hab, hba⟩ := ha
  have has : a ≠ s := by rintro rfl; exact ht.2 _ hba
  obtain ⟨x, hxa⟩ : ∃ x, (x, a) ∈ A := by
    by_contra hc
    push Not at hc
    exact has (hA.root_unique hJ ⟨hav, hc⟩ hs)
  have hxa' : (x, a) ∈ B := by
    by_contra hn
    exact hmin x (Finset.mem_filter.2 ⟨(hA.mem hJ hxa).1, a, hxa, hflip x a hxa hn⟩) (.single hxa)
  have hxb : x ≠ b := by rintro rfl; exact hA.acyclic.asymm hab hxa
  refine ⟨x, a, b, hxa, hxa', hab, hba, ?_⟩
  have : Adj (fun i j => (i, j) ∈ A) x b := (hA.adj x b).2 ((hB.adj x b).1 (hB.linked hxa' hba hxb))
  rcases this with h | h
  · exact h
  · exact absurd (Relation.TransGen.tail (.tail (.single h) hxa) hab) (hA.acyclic b)

/-- The number of orientations is the number of nodes times the number of orientations for a given root. -/
theorem count_by_root (hJ : OnePiece V S) (hV : V.Nonempty) (M : Finset (Finset (α × α))) (hM : ∀ A, A ∈ M → Moral S A)
    (k : ℕ) (hk : ∀ s ∈ V, ∃ T : Finset (Finset (α × α)), T.card = k ∧ ∀ A, A ∈ T ↔ A ∈ M ∧ Root V A s) :
    M.card = k * V.card := by
  classical
  have h := Finset.sum_card_bipartiteAbove_eq_sum_card_bipartiteBelow (fun A s => Root V A s) (s := M) (t := V)
  have h1 : ∀ A ∈ M, (Finset.bipartiteAbove (fun A s => Root V A s) V A).card = 1 := by
    intro A hA
    obtain ⟨x, hx⟩ := hV
    obtain ⟨s, hs, _⟩ := (hM A hA).exists_root hJ hx
    rw [Finset.card_eq_one]
    refine ⟨s, ?_⟩
    ext t
    rw [Finset.mem_bipartiteAbove, Finset.mem_singleton]
    exact ⟨fun ht => (hM A hA).root_unique hJ ht.2 hs, fun ht => ht ▸ ⟨hs.1, hs⟩⟩
  have h2 : ∀ s ∈ V, (Finset.bipartiteBelow (fun A s => Root V A s) M s).card = k := by
    intro s hs
    obtain ⟨T, hT, hT'⟩ := hk s hs
    rw [← hT]
    congr 1
    ext A
    rw [Finset.mem_bipartiteBelow, hT']
  rw [Finset.sum_congr rfl h1, Finset.sum_congr rfl h2] at h
  simp only [Finset.sum_const, nsmul_eq_mul, Nat.cast_id, mul_one] at h
  rw [h, Nat.mul_comm]

/-- A tree with `n` nodes has `n` orientations without v-structures. -/
theorem count_tree (hJ : OnePiece V S) (hV : V.Nonempty) (M : Finset (Finset (α × α))) (hM : ∀ A, A ∈ M ↔ Moral S A)
    (hne : M.Nonempty) (hc : ∀ A ∈ M, A.card + 1 = V.card) : M.card = V.card := by
  obtain ⟨A, hA⟩ := hne
  have := count_by_root hJ hV M (fun A h => (hM A).1 h) 1 ?_
  · rw [this, one_mul]
  intro s hs
  obtain ⟨B, h1, h2, h3⟩ := ((hM A).1 hA).reroot hJ hV (Or.inl (hc A hA)) hs
  refine ⟨{B}, rfl, fun C => ?_⟩
  rw [Finset.mem_singleton]
  refine ⟨fun h => h ▸ ⟨(hM B).2 h1, h3⟩, fun ⟨k1, k2⟩ => ?_⟩
  by_contra hn
  obtain ⟨x, a, b, e1, e2, e3, e4, e5⟩ := ((hM C).1 k1).differ h1 hJ k2 h3 hn
  obtain rfl := ((hM C).1 k1).tree hJ hV (hc C k1) e5 e3
  exact h1.acyclic.irrefl e2

/-- A connected graph with `n` nodes and `n` edges has `2 n` orientations without v-structures, if it has any. -/
theorem count_unicyclic (hJ : OnePiece V S) (hV : V.Nonempty) (M : Finset (Finset (α × α)))
    (hM : ∀ A, A ∈ M ↔ Moral S A) (hne : M.Nonempty) (hc : ∀ A ∈ M, A.card = V.card) : M.card = 2 * V.card := by
  obtain ⟨A, hA⟩ := hne
  refine count_by_root hJ hV M (fun A h => (hM A).1 h) 2 fun s hs => ?_
  obtain ⟨B, h1, h2, h3⟩ := ((hM A).1 hA).reroot hJ hV (Or.inr (hc A hA)) hs
  have hB := (hM B).2 h1
  obtain ⟨p, q, z, e1, e2, e3, e4, e5⟩ := h1.unicyclic hJ hV (hc B hB)
  have hcov := h1.swap e1 e2 e3 e4 e5
  have h4 := h1.flip hcov
  have hnqz : q ≠ z := by rintro rfl; exact h1.acyclic.irrefl e3
  have hroot : Root V (Spec.turned B q z) s := by
    refine ⟨hs, fun x hx => ?_⟩
    rw [mem_turned] at hx
    rcases hx with hx | ⟨_, rfl⟩
    · exact h3.2 x hx.1
    · exact h3.2 p e1
  have hzq : (z, q) ∈ Spec.turned B q z := mem_turned.2 (Or.inr ⟨rfl, rfl⟩)
  have hBF : B ≠ Spec.turned B q z := by
    intro h
    rw [← h] at hzq
    exact h1.acyclic.asymm e3 hzq
  -- where another orientation may differ from `B`
  have hfirst : ∀ C, Moral S C → Root V C s → C ≠ B → (z, q) ∈ C := by
    intro C hC hCs hn
    obtain ⟨x, a, b, f1, f2, f3, f4, f5⟩ := h1.differ hC hJ h3 hCs (Ne.symm hn)
    have hbz : b = z := by
      by_contra hbz
      obtain rfl := e5 b hbz x a f5 f3
      exact h1.acyclic.irrefl f1
    subst hbz
    rcases e4 a f3 with rfl | rfl
    · rcases e4 x f5 with rfl | rfl
      · exact absurd f1 h1.acyclic.irrefl
      · exact absurd f1 (h1.acyclic.asymm e1)
    · exact f4
  refine ⟨{B, Spec.turned B q z}, Finset.card_pair hBF, fun C => ?_⟩
  rw [Finset.mem_insert, Finset.mem_singleton]
  constructor
  · rintro (rfl | rfl)
    · exact ⟨hB, h3⟩
    · exact ⟨(hM _).2 h4, hroot⟩
  · rintro ⟨k1, k2⟩
    by_contra hn
    push Not at hn
    have hC := (hM C).1 k1
    have hzqC := hfirst C hC k2 hn.1
    -- the parents in the second orientation
    have hparq : ∀ x, (x, q) ∈ Spec.turned B q z → x = p ∨ x = z := by
      intro x hx
      rw [mem_turned, reverse_parent_i h1.acyclic hcov] at hx
      exact hx.imp_left fun h => e5 q hnqz x p h e1
    have hother : ∀ v, v ≠ q → ∀ x y, (x, v) ∈ Spec.turned B q z → (y, v) ∈ Spec.turned B q z → x = y := by
      intro v hv x y hx hy
      rw [mem_turned] at hx hy
      by_cases hvz : v = z
      · subst hvz
        rw [reverse_parent_j h1.acyclic hcov] at hx hy
        exact e5 q hnqz x y hx hy
      · rw [reverse_parent_other hv hvz] at hx hy
        exact e5 v hvz x y hx hy
    obtain ⟨x, a, b, f1, f2, f3, f4, f5⟩ := h4.differ hC hJ hroot k2 (Ne.symm hn.2)
    have hbq : b = q := by
      by_contra hbq
      obtain rfl := hother b hbq x a f5 f3
      exact h4.acyclic.irrefl f1
    subst hbq
    rcases hparq a f3 with rfl | rfl
    · rcases hparq x f5 with rfl | rfl
      · exact h4.acyclic.irrefl f1
      · exact h4.acyclic.asymm f1 (mem_turned.2 (by rw [reverse_parent_j h1.acyclic hcov]; exact e1))
    · exact hC.acyclic.asymm f4 hzqC

/-- The orientations of a complete graph are the linear orders. -/
theorem count_complete (M : Finset (Finset (α × α)))
    (hM : ∀ A, A ∈ M ↔ Moral (fun a b => a ∈ V ∧ b ∈ V ∧ a ≠ b) A) : M.card = V.card.factorial := by
  classical
  set n := V.card with hn
  have hcard : Fintype.card (V ≃ Fin n) = n.factorial := by
    rw [Fintype.card_equiv (V.equivFin)]; simp [hn]
  rw [← hcard, ← Finset.card_univ]
  symm
  let f : (V ≃ Fin n) → Finset (α × α) := fun e =>
    (Finset.univ.filter fun a : V × V => e a.1 < e a.2).image fun a => (a.1.1, a.2.1)
  have hf : ∀ e a b, (a, b) ∈ f e ↔ ∃ (ha : a ∈ V) (hb : b ∈ V), e ⟨a, ha⟩ < e ⟨b, hb⟩ := by
    intro e a b
    simp only [f, Finset.mem_image, Finset.mem_filter, Finset.mem_univ, true_and, Prod.exists, Prod.mk.injEq,
      Subtype.exists]
    constructor
    · rintro ⟨a', ha, b', hb, h, rfl, rfl⟩
      exact ⟨ha, hb, h⟩
    · rintro ⟨ha, hb, h⟩
      exact ⟨a, ha, b, hb, h, rfl, rfl⟩
  have hadj : ∀ e a b, Adj (fun i j => (i, j) ∈ f e) a b ↔ a ∈ V ∧ b ∈ V ∧ a ≠ b := by
    intro e a b
    unfold Adj
    beta_reduce
    rw [hf, hf]
    constructor
    · rintro (⟨ha, hb, h⟩ | ⟨hb, ha, h⟩)
      · exact ⟨ha, hb, by rintro rfl; exact lt_irrefl _ h⟩
      · exact ⟨ha, hb, by rintro rfl; exact lt_irrefl _ h⟩
    · rintro ⟨ha, hb, hne⟩
      have : e ⟨a, ha⟩ ≠ e ⟨b, hb⟩ := fun h => hne (congrArg Subtype.val (e.injective h))
      rcases lt_or_gt_of_ne this with h | h
      · exact Or.inl ⟨ha, hb, h⟩
      · exact Or.inr ⟨hb, ha, h⟩
  have hac : ∀ e, Acyclic fun i j => (i, j) ∈ f e := by
    intro e v hv
    have key : ∀ a b, Path (fun i j => (i, j) ∈ f e) a b → ∃ (ha : a ∈ V) (hb : b ∈ V), e ⟨a, ha⟩ < e ⟨b, hb⟩ := by
      intro a b hab
      induction hab with
      | single h => exact (hf _ _ _).1 h
      | tail _ h ih =>
        obtain ⟨ha, hb, h1⟩ := ih
        obtain ⟨_, hc, h2⟩ := (hf _ _ _).1 h
        exact ⟨ha, hc, h1.trans h2⟩
    obtain ⟨_, _, h⟩ := key v v hv
    exact lt_irrefl _ h
  refine Finset.card_nbij f ?_ ?_ ?_
  · intro e _
    refine (hM _).2 ⟨hac e, hadj e, ?_⟩
    rintro a c b ⟨hne, h1, h2, h3⟩
    refine h3 ((hadj e a b).2 ⟨?_, ?_, hne⟩)
    · exact ((hf _ _ _).1 h1).1
    · exact ((hf _ _ _).1 h2).1
  · intro e _ e' _ hee
    have hlt : ∀ x y : V, e x < e y ↔ e' x < e' y := by
      intro x y
      have h1 : (x.1, y.1) ∈ f e ↔ (x.1, y.1) ∈ f e' := by rw [hee]
      rw [hf, hf] at h1
      constructor
      · intro h; obtain ⟨_, _, h⟩ := h1.1 ⟨x.2, y.2, h⟩; exact h
      · intro h; obtain ⟨_, _, h⟩ := h1.2 ⟨x.2, y.2, h⟩; exact h
    let g : Fin n ≃o Fin n :=
      { toEquiv := e.symm.trans e'
        map_rel_iff' := by
          intro a b
          have := hlt (e.symm b) (e.symm a)
          simp only [Equiv.apply_symm_apply] at this
          simp only [Equiv.trans_apply]
          rw [← not_lt, ← not_lt, this] }
    have hg : g = OrderIso.refl _ := Subsingleton.elim _ _
    ext x
    have : g (e x) = e x := by rw [hg]; rfl
    have h2 : g (e x) = e' x := by simp [g]
    rw [← h2, this]
  · intro A hA
    have hA' := (hM A).1 hA
    obtain ⟨r, r1, r2, r3⟩ := exists_rank hA'.acyclic n V rfl
    let g : V → Fin n := fun x => ⟨r x.1, r3 x.1 x.2⟩
    have hg : Function.Injective g := fun x y h => Subtype.ext (r1 x.1 x.2 y.1 y.2 (congrArg Fin.val h))
    have hb : Function.Bijective g := (Fintype.bijective_iff_injective_and_card g).2 ⟨hg, by simp [hn]⟩
    refine ⟨Equiv.ofBijective g hb, Finset.mem_coe.2 (Finset.mem_univ _), ?_⟩
    ext ⟨a, b⟩
    rw [hf]
    constructor
    · rintro ⟨ha, hb, h⟩
      have hne : a ≠ b := by rintro rfl; exact lt_irrefl _ h
      rcases (hA'.adj a b).2 ⟨ha, hb, hne⟩ with h1 | h1
      · exact h1
      · have := r2 b hb a ha h1
        exact absurd (show r a < r b from h) (by omega)
    · intro h
      obtain ⟨ha, hb, _⟩ := (hA'.adj a b).1 (Or.inl h)
      exact ⟨ha, hb, r2 a ha b hb h⟩

end Spec
