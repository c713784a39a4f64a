import Verif.Spec.Covered
import Verif.Proof.IMap
import Verif.Proof.Mutators

/-! # Covered reversals and Markov equivalence -/

namespace Spec

universe u
variable {α : Type u} {E F : α → α → Prop}
open Relation

theorem SameSkelV.refl (E : α → α → Prop) : SameSkelV E E := ⟨fun _ _ => Iff.rfl, fun _ _ _ => Iff.rfl⟩

theorem SameSkelV.symm (h : SameSkelV E F) : SameSkelV F E := ⟨fun a b => (h.skel a b).symm, fun a c b => (h.vstr a c b).symm⟩

theorem SameSkelV.trans {K : α → α → Prop} (h : SameSkelV E F) (h' : SameSkelV F K) : SameSkelV E K :=
  ⟨fun a b => (h.skel a b).trans (h'.skel a b), fun a c b => (h.vstr a c b).trans (h'.vstr a c b)⟩

theorem vstruct_symm {a c b : α} (h : VStruct E a c b) : VStruct E b c a :=
  ⟨h.1.symm, h.2.2.1, h.2.1, fun h' => h.2.2.2 h'.symm⟩

theorem adj_symm {a b : α} (h : Adj E a b) : Adj E b a := h.symm

/-! ## Reversal of a covered arc -/

theorem reverse_adj {i j : α} (h : E i j) (a b : α) : Adj (Reverse E i j) a b ↔ Adj E a b := by
  unfold Adj Reverse
  constructor
  · rintro ((⟨h1, _⟩ | ⟨rfl, rfl⟩) | (⟨h1, _⟩ | ⟨rfl, rfl⟩))
    · exact Or.inl h1
    · exact Or.inr h
    · exact Or.inr h1
    · exact Or.inl h
  · rintro (h1 | h1)
    · by_cases hab : a = i ∧ b = j
      · exact Or.inr (Or.inr ⟨hab.2, hab.1⟩)
      · exact Or.inl (Or.inl ⟨h1, hab⟩)
    · by_cases hab : b = i ∧ a = j
      · exact Or.inl (Or.inr ⟨hab.2, hab.1⟩)
      · exact Or.inr (Or.inl ⟨h1, hab⟩)

theorem covered_reverse_acyclic (hE : Acyclic E) {i j : α} (hc : Covered E i j) : Acyclic (Reverse E i j) := by
  classical
  have h0 : Acyclic (fun a b => E a b ∧ ¬ (a = i ∧ b = j)) := acyclic_mono (fun _ _ h => h.1) hE
  have hne : j ≠ i := by rintro rfl; exact hE.irrefl hc.1
  refine (Model.DAG.insert_acyclic h0 j i).2 ⟨hne, ?_⟩
  intro hp
  rcases TransGen.tail'_iff.1 hp with ⟨p, hip, hpj, hn⟩
  have hpi : p ≠ i := fun h => hn ⟨h, rfl⟩
  have h1 := (hc.2 p).2 ⟨hpj, hpi⟩
  have h2 : Path0 E i p := path0_mono (fun _ _ h => h.1) hip
  exact hE i (TransGen.tail' h2 h1)

/-- Parents after a covered reversal. -/
theorem reverse_parent_i (hE : Acyclic E) {i j : α} (hc : Covered E i j) (p : α) :
    Reverse E i j p i ↔ E p i ∨ p = j := by
  have hne : i ≠ j := by rintro rfl; exact hE.irrefl hc.1
  simp [Reverse, hne]

theorem reverse_parent_j (hE : Acyclic E) {i j : α} (hc : Covered E i j) (p : α) :
    Reverse E i j p j ↔ E p i := by
  have hne : i ≠ j := by rintro rfl; exact hE.irrefl hc.1
  rw [hc.2]
  simp [Reverse, hne.symm]

theorem reverse_parent_other {i j v : α} (hi : v ≠ i) (hj : v ≠ j) (p : α) :
    Reverse E i j p v ↔ E p v := by
  simp [Reverse, hi, hj]

theorem covered_reverse (hE : Acyclic E) {i j : α} (hc : Covered E i j) : Covered (Reverse E i j) j i := by
  refine ⟨Or.inr ⟨rfl, rfl⟩, fun p => ?_⟩
  rw [reverse_parent_i hE hc, reverse_parent_j hE hc]
  constructor
  · intro h; exact ⟨Or.inl h, by rintro rfl; exact hE.asymm hc.1 h⟩
  · rintro ⟨h | h, h'⟩
    · exact h
    · exact absurd h h'

theorem reverse_reverse (hE : Acyclic E) {i j : α} (h : E i j) : Reverse (Reverse E i j) j i = E := by
  have hji := hE.asymm h
  funext a b
  simp only [Reverse, eq_iff_iff]
  constructor
  · rintro (⟨⟨h1, _⟩ | h1, h2⟩ | ⟨rfl, rfl⟩)
    · exact h1
    · exact absurd h1 h2
    · exact h
  · intro hab
    by_cases h1 : a = i ∧ b = j
    · exact Or.inr h1
    · refine Or.inl ⟨Or.inl ⟨hab, h1⟩, ?_⟩
      rintro ⟨rfl, rfl⟩; exact hji hab

theorem covered_vstr (hE : Acyclic E) {i j : α} (hc : Covered E i j) {a c b : α}
    (h : VStruct (Reverse E i j) a c b) : VStruct E a c b := by
  obtain ⟨h1, h2, h3, h4⟩ := h
  rw [reverse_adj hc.1] at h4
  refine ⟨h1, ?_, ?_, h4⟩
  all_goals
    by_cases hci : c = i
    · subst hci
      rw [reverse_parent_i hE hc] at h2 h3
      rcases h2 with h2 | rfl <;> rcases h3 with h3 | rfl
      · assumption
      · exact absurd (Or.inl ((hc.2 a).1 h2).1) h4
      · exact absurd (Or.inr ((hc.2 b).1 h3).1) h4
      · exact absurd rfl h1
    · by_cases hcj : c = j
      · subst hcj
        rw [reverse_parent_j hE hc] at h2 h3
        first | exact ((hc.2 _).1 h2).1 | exact ((hc.2 _).1 h3).1
      · first | exact (reverse_parent_other hci hcj a).1 h2 | exact (reverse_parent_other hci hcj b).1 h3

theorem covered_sameSkelV (hE : Acyclic E) {i j : α} (hc : Covered E i j) : SameSkelV E (Reverse E i j) := by
  refine ⟨fun a b => (reverse_adj hc.1 a b).symm, fun a c b => ⟨fun h => ?_, covered_vstr hE hc⟩⟩
  have := covered_vstr (covered_reverse_acyclic hE hc) (covered_reverse hE hc) (a := a) (c := c) (b := b)
  rw [reverse_reverse hE hc.1] at this
  exact this h

/-- An arc is covered iff its reversal is acyclic and creates or destroys no v-structure. -/
theorem covered_iff (hE : Acyclic E) {i j : α} (h : E i j) :
    Covered E i j ↔ Acyclic (Reverse E i j) ∧ ∀ a c b, VStruct E a c b ↔ VStruct (Reverse E i j) a c b := by
  refine ⟨fun hc => ⟨covered_reverse_acyclic hE hc, (covered_sameSkelV hE hc).vstr⟩, ?_⟩
  rintro ⟨hac, hv⟩
  have hne : i ≠ j := by rintro rfl; exact hE.irrefl h
  refine ⟨h, fun p => ⟨fun hp => ?_, ?_⟩⟩
  · have hpi : p ≠ i := by rintro rfl; exact hE.irrefl hp
    refine ⟨?_, hpi⟩
    by_contra hpj
    by_cases hjp : E j p
    · exact hE i (((TransGen.single h).tail hjp).tail hp)
    · have hpj' : p ≠ j := by rintro rfl; exact hE.asymm h hp
      have := (hv p i j).2 ⟨hpj', Or.inl ⟨hp, fun hh => hpi hh.1⟩, Or.inr ⟨rfl, rfl⟩, by
        rw [reverse_adj h]; rintro (hh | hh)
        · exact hpj hh
        · exact hjp hh⟩
      exact hE.asymm h this.2.2.1
  · rintro ⟨hpj, hpi⟩
    by_contra hpi'
    by_cases hip : E i p
    · have hpnj : p ≠ j := by rintro rfl; exact hE.irrefl hpj
      refine hac i (((TransGen.single (b := p) ?_).tail (c := j) ?_).tail ?_)
      · exact Or.inl ⟨hip, fun hh => hpnj hh.2⟩
      · exact Or.inl ⟨hpj, fun hh => hpi hh.1⟩
      · exact Or.inr ⟨rfl, rfl⟩
    · have := (hv i j p).1 ⟨hpi.symm, h, hpj, by
        rintro (hh | hh)
        · exact hip hh
        · exact hpi' hh⟩
      rcases this.2.1 with ⟨_, hn⟩ | ⟨h1, _⟩
      · exact hn ⟨rfl, rfl⟩
      · exact hne h1

/-! ## Chickering's lemma -/

/-- Two different members of one class: some covered arc of the first is reversed in the second. -/
theorem exists_covered (hE : Acyclic E) (hF : Acyclic F) (V : Finset α) (hV : ∀ a b, E a b → a ∈ V ∧ b ∈ V)
    (h : SameSkelV E F) (hne : ∃ a b, E a b ∧ ¬ F a b) : ∃ i j, Covered E i j ∧ F j i := by
  classical
  have hflip : ∀ {a b}, E a b → ¬ F a b → F b a := fun hab hn => ((h.skel _ _).1 (Or.inl hab)).resolve_left hn
  -- the lowest node with a reversed incoming arc
  obtain ⟨y, hy, hymin⟩ := Model.DAG.exists_minimal hE (V.filter fun y => ∃ x, E x y ∧ F y x) (by
    obtain ⟨a, b, hab, hn⟩ := hne
    exact ⟨b, Finset.mem_filter.2 ⟨(hV _ _ hab).2, a, hab, hflip hab hn⟩⟩)
  have hymin' : ∀ u, Path E u y → ∀ x, E x u → F x u := by
    intro u hu x hxu
    by_contra hn
    exact hymin u (Finset.mem_filter.2 ⟨(hV _ _ hxu).2, x, hxu, hflip hxu hn⟩) hu
  have hEr : Acyclic (fun a b => E b a) := fun v hv => hE v (by
    have : ∀ a b, Path (fun a b => E b a) a b → Path E b a := by
      intro a b hab
      induction hab with
      | single h => exact .single h
      | tail _ h ih => exact .head h ih
    exact this _ _ hv)
  have hrev : ∀ {a b}, E a b → Path (fun a b => E b a) b a := fun hab => .single hab
  obtain ⟨_, x0, hx0, hx0'⟩ := Finset.mem_filter.1 hy
  obtain ⟨x, hx, hxmax⟩ := Model.DAG.exists_minimal hEr (V.filter fun x => E x y ∧ F y x)
    ⟨x0, Finset.mem_filter.2 ⟨(hV _ _ hx0).1, hx0, hx0'⟩⟩
  obtain ⟨_, hxy, hyx⟩ := Finset.mem_filter.1 hx
  refine ⟨x, y, ⟨hxy, fun p => ⟨fun hp => ?_, ?_⟩⟩, hyx⟩
  · have hFp := hymin' x (.single hxy) p hp
    have hpx : p ≠ x := by rintro rfl; exact hE.irrefl hp
    refine ⟨?_, hpx⟩
    have hpy : p ≠ y := by rintro rfl; exact hE.asymm hxy hp
    by_cases hadj : Adj E p y
    · exact hadj.resolve_right fun hyp => hE x (((TransGen.single hxy).tail hyp).tail hp)
    · have := (h.vstr p x y).2 ⟨hpy, hFp, hyx, fun hh => hadj ((h.skel _ _).2 hh)⟩
      exact absurd this.2.2.1 (hE.asymm hxy)
  · rintro ⟨hpy, hpx⟩
    by_contra hn
    by_cases hadj : Adj E p x
    · have hxp := hadj.resolve_left hn
      have hpy' : F p y := by
        by_contra hc
        exact hxmax p (Finset.mem_filter.2 ⟨(hV _ _ hpy).1, hpy, hflip hpy hc⟩) (hrev hxp)
      have hFxp := hymin' p (.single hpy) x hxp
      exact hF x (((TransGen.single hFxp).tail hpy').tail hyx)
    · have := (h.vstr x y p).1 ⟨hpx.symm, hxy, hpy, fun hh => hadj hh.symm⟩
      exact hF.asymm hyx this.2.1

/-! ## Covered reversals preserve all separations -/

/-- As `subModel_of_ordered`, with the order given by a rank function. -/
theorem subModel_of_ranked (hE : Acyclic E) (hF : Acyclic F) {V : Set α} (hV : ∀ a b, E a b → a ∈ V ∧ b ∈ V)
    (f : α → ℕ) (hinj : ∀ x ∈ V, ∀ y ∈ V, f x = f y → x = y) (hf : ∀ a b, E a b → f a < f b)
    (hfin : ∃ N, ∀ x ∈ V, f x < N)
    (hloc : ∀ v ∈ V, DSep F {v} {n | n ∈ V ∧ f n < f v ∧ ¬ E n v} {p | E p v}) : SubModel E F V := by
  have key : ∀ k, SubModel E F {x | x ∈ V ∧ f x < k} := by
    intro k
    induction k with
    | zero =>
      intro A B C hA _ _ _ _ _ _ a ha
      exact absurd (hA ha).2 (by simp)
    | succ k ih =>
      by_cases hv : ∃ v ∈ V, f v = k
      · obtain ⟨v, hvV, hvk⟩ := hv
        have heq : {x | x ∈ V ∧ f x < k + 1} = insert v {x | x ∈ V ∧ f x < k} := by
          ext x
          simp only [Set.mem_ofPred_eq, Set.mem_insert_iff]
          constructor
          · rintro ⟨hx, hlt⟩
            rcases Nat.lt_succ_iff_lt_or_eq.1 hlt with h | h
            · exact Or.inr ⟨hx, h⟩
            · exact Or.inl (hinj x hx v hvV (h.trans hvk.symm))
          · rintro (rfl | ⟨hx, h⟩)
            · exact ⟨hvV, by omega⟩
            · exact ⟨hx, by omega⟩
        rw [heq]
        refine subModel_insert hE hF (fun h => by have := h.2; omega) ?_ ?_ ?_ ih
        · intro i hi; exact ⟨(hV _ _ hi).1, by have := hf _ _ hi; omega⟩
        · rintro i j hij ⟨_, hj⟩; exact ⟨(hV _ _ hij).1, by have := hf _ _ hij; omega⟩
        · refine dsep_mono subset_rfl ?_ (hloc v hvV)
          rintro n ⟨⟨h1, h2⟩, h3⟩; exact ⟨h1, by omega, h3⟩
      · have heq : {x | x ∈ V ∧ f x < k + 1} = {x | x ∈ V ∧ f x < k} := by
          ext x
          simp only [Set.mem_ofPred_eq]
          constructor
          · rintro ⟨hx, hlt⟩
            rcases Nat.lt_succ_iff_lt_or_eq.1 hlt with h | h
            · exact ⟨hx, h⟩
            · exact absurd ⟨x, hx, h⟩ hv
          · rintro ⟨hx, h⟩; exact ⟨hx, by omega⟩
        rw [heq]; exact ih
  obtain ⟨N, hN⟩ := hfin
  have heq : {x | x ∈ V ∧ f x < N} = V := by ext x; exact ⟨fun h => h.1, fun h => ⟨h, hN x h⟩⟩
  have := key N
  rwa [heq] at this

/-- Separation of a node from earlier nodes, for any rank function. -/
theorem local_ranked (hE : Acyclic E) (f : α → ℕ) (hf : ∀ a b, E a b → f a < f b) (v : α) :
    DSep E {v} {n | f n < f v ∧ ¬ E n v} {p | E p v} := by
  refine dsep_mono subset_rfl ?_ (local_markov hE v)
  rintro n ⟨h1, h2⟩
  have hp : ∀ a b, Path E a b → f a < f b := by
    intro a b hab
    induction hab with
    | single h => exact hf _ _ h
    | tail _ h ih => exact ih.trans (hf _ _ h)
  exact ⟨by rintro rfl; omega, fun h => by have := hp _ _ h; omega, h2⟩

theorem covered_subModel [DecidableEq α] (hE : Acyclic E) {V : Set α} (hV : ∀ a b, E a b → a ∈ V ∧ b ∈ V) {i j : α} (hc : Covered E i j)
    (f : α → ℕ) (hinj : ∀ x ∈ V, ∀ y ∈ V, f x = f y → x = y) (hf : ∀ a b, E a b → f a < f b)
    (hfin : ∃ N, ∀ x ∈ V, f x < N) : SubModel (Reverse E i j) E V := by
  have hne : i ≠ j := by rintro rfl; exact hE.irrefl hc.1
  have hij := hf _ _ hc.1
  -- `i` and `j` made neighbours in the order: `g` for `E`, `g'` for the reversed graph
  set g : α → ℕ := fun x => if x = j then 2 * f i + 2 else 2 * f x + 1 with hg
  set g' : α → ℕ := fun x => if x = j then 2 * f i else 2 * f x + 1 with hg'
  have hgE : ∀ a b, E a b → g a < g b := by
    intro a b hab
    have h0 := hf _ _ hab
    simp only [hg]
    by_cases ha : a = j
    · subst ha
      have hb : b ≠ a := by rintro rfl; omega
      simp only [if_true, if_neg hb]; omega
    · by_cases hb : b = j
      · subst hb
        simp only [if_true, if_neg ha]
        by_cases hai : a = i
        · subst hai; omega
        · have := hf _ _ ((hc.2 a).2 ⟨hab, hai⟩); omega
      · simp only [if_neg ha, if_neg hb]; omega
  have hE' := covered_reverse_acyclic hE hc
  have hVi := (hV _ _ hc.1).1
  have hVj := (hV _ _ hc.1).2
  refine subModel_of_ranked hE' hE ?_ g' ?_ ?_ ?_ ?_
  · rintro a b (⟨h, _⟩ | ⟨rfl, rfl⟩)
    · exact hV _ _ h
    · exact ⟨hVj, hVi⟩
  · intro x hx y hy hxy
    simp only [hg'] at hxy
    by_cases h1 : x = j <;> by_cases h2 : y = j
    · rw [h1, h2]
    · rw [if_pos h1, if_neg h2] at hxy; omega
    · rw [if_neg h1, if_pos h2] at hxy; omega
    · rw [if_neg h1, if_neg h2] at hxy; exact hinj x hx y hy (by omega)
  · intro a b hab
    simp only [hg']
    by_cases ha : a = j
    · subst ha
      rcases hab with ⟨hab, _⟩ | ⟨_, rfl⟩
      · have h0 := hf _ _ hab
        have hb : b ≠ a := by rintro rfl; omega
        simp only [if_true, if_neg hb]; omega
      · simp only [if_true, if_neg hne]; omega
    · by_cases hb : b = j
      · subst hb
        rw [reverse_parent_j hE hc] at hab
        have := hf _ _ hab
        simp only [if_true, if_neg ha]; omega
      · rcases hab with ⟨hab, _⟩ | ⟨h, _⟩
        · have := hf _ _ hab
          simp only [if_neg ha, if_neg hb]; omega
        · exact absurd h ha
  · obtain ⟨N, hN⟩ := hfin
    refine ⟨2 * N + 2, fun x hx => ?_⟩
    have h1 := hN i hVi
    have h2 := hN x hx
    simp only [hg']
    split <;> omega
  · intro v hv
    by_cases hvj : v = j ∨ v = i
    swap
    · push Not at hvj
      have h0 := local_ranked hE g hgE v
      have heq : ∀ p, Reverse E i j p v ↔ E p v := reverse_parent_other hvj.2 hvj.1
      simp only [heq]
      refine dsep_mono subset_rfl ?_ h0
      rintro n ⟨_, h1, h2⟩
      refine ⟨?_, h2⟩
      simp only [hg, hg', if_neg hvj.1] at h1 ⊢
      by_cases hn : n = j
      · rw [if_pos hn] at h1 ⊢
        by_contra hcon
        have : f v = f i := by omega
        exact hvj.2 (hinj v hv i hVi this)
      · rw [if_neg hn] at h1 ⊢; exact h1
    · -- the nodes before both `i` and `j` that are no parents
      set N : Set α := {n | n ≠ j ∧ f n < f i ∧ ¬ E n i} with hN
      set P : Set α := {p | E p i} with hP
      have hPj : {p | E p j} = P ∪ {i} := by
        ext x
        simp only [Set.mem_ofPred_eq, Set.mem_union, Set.mem_singleton_iff, hP, hc.2]
        by_cases hx : x = i
        · subst hx; simp [hc.1]
        · simp [hx]
      have h1 : DSep E {i} N P := by
        refine dsep_mono subset_rfl ?_ (local_ranked hE g hgE i)
        rintro n ⟨h1, h2, h3⟩
        refine ⟨?_, h3⟩
        simp only [hg, if_neg h1, if_neg hne]; omega
      have h2 : DSep E {j} N (P ∪ {i}) := by
        rw [← hPj]
        refine dsep_mono subset_rfl ?_ (local_ranked hE g hgE j)
        rintro n ⟨h1, h2, h3⟩
        refine ⟨?_, ?_⟩
        · simp only [hg, if_neg h1, if_true]; omega
        · intro h; exact h3 ((hc.2 n).2 ⟨h, by rintro rfl; omega⟩)
      have hNP : Disjoint N P := Set.disjoint_left.2 fun x hx hx' => hx.2.2 hx'
      have hNi : Disjoint N {i} := by simp [hN]
      have h3 : DSep E N ({j} ∪ {i}) P := dsep_contraction hNP hNi (dsep_symm h2) (dsep_symm h1)
      rcases hvj with rfl | rfl
      · have heq : ∀ p, Reverse E i v p v ↔ E p i := reverse_parent_j hE hc
        simp only [heq]
        refine dsep_mono subset_rfl ?_ (dsep_symm (dsep_mono subset_rfl (by simp : {v} ⊆ ({v} ∪ {i} : Set α)) h3))
        rintro n ⟨_, g1, g2⟩
        have hnv : n ≠ v := by rintro rfl; omega
        refine ⟨hnv, ?_, g2⟩
        simp only [hg', if_neg hnv, if_true] at g1; omega
      · have heq : {p | Reverse E v j p v} = P ∪ {j} := by
          ext x; simp only [Set.mem_ofPred_eq, reverse_parent_i hE hc]; rfl
        have heq' : ∀ p, Reverse E v j p v ↔ (E p v ∨ p = j) := reverse_parent_i hE hc
        rw [heq]
        have hNj : Disjoint N {j} := by simp [hN]
        rw [Set.union_comm] at h3
        refine dsep_mono subset_rfl ?_ (dsep_symm (dsep_weak_union hE hNP hNj h3))
        rintro n ⟨_, g1, g2⟩
        rw [heq'] at g2
        push Not at g2
        refine ⟨g2.2, ?_, g2.1⟩
        simp only [hg', if_neg g2.2, if_neg hne] at g1; omega

/-! ## Equivalence -/

theorem SubModel.trans {K : α → α → Prop} {V : Set α} (h : SubModel E F V) (h' : SubModel F K V) : SubModel E K V :=
  fun A B C hA hB hC hAB hAC hBC hs => h' A B C hA hB hC hAB hAC hBC (h A B C hA hB hC hAB hAC hBC hs)

theorem SubModel.refl (E : α → α → Prop) (V : Set α) : SubModel E E V := fun _ _ _ _ _ _ _ _ _ h => h

theorem exists_rank (hE : Acyclic E) : ∀ (n : ℕ) (V : Finset α), V.card = n →
    ∃ f : α → ℕ, (∀ x ∈ V, ∀ y ∈ V, f x = f y → x = y) ∧ (∀ a ∈ V, ∀ b ∈ V, E a b → f a < f b) ∧
      ∀ x ∈ V, f x < n := by
  classical
  intro n
  induction n with
  | zero => intro V hV; rw [Finset.card_eq_zero] at hV; subst hV; exact ⟨fun _ => 0, by simp, by simp, by simp⟩
  | succ n ih =>
    intro V hV
    obtain ⟨v, hv, hmin⟩ := Model.DAG.exists_minimal hE V (Finset.card_pos.1 (by omega))
    obtain ⟨f, h1, h2, h3⟩ := ih (V.erase v) (by rw [Finset.card_erase_of_mem hv]; omega)
    refine ⟨fun x => if x = v then 0 else f x + 1, ?_, ?_, ?_⟩
    · intro x hx y hy hxy
      by_cases hxv : x = v <;> by_cases hyv : y = v <;> simp [hxv, hyv] at hxy
      · rw [hxv, hyv]
      · exact h1 x (Finset.mem_erase.2 ⟨hxv, hx⟩) y (Finset.mem_erase.2 ⟨hyv, hy⟩) hxy
    · intro a ha b hb hab
      have hbv : b ≠ v := by rintro rfl; exact hmin a ha (.single hab)
      by_cases hav : a = v
      · simp [hav, hbv]
      · simp only [hav, hbv, if_false]
        have := h2 a (Finset.mem_erase.2 ⟨hav, ha⟩) b (Finset.mem_erase.2 ⟨hbv, hb⟩) hab
        omega
    · intro x hx
      by_cases hxv : x = v
      · simp [hxv]
      · simp only [hxv, if_false]
        have := h3 x (Finset.mem_erase.2 ⟨hxv, hx⟩)
        omega

theorem covered_subModels (hE : Acyclic E) (V : Finset α) (hV : ∀ a b, E a b → a ∈ V ∧ b ∈ V) {i j : α}
    (hc : Covered E i j) : SubModel E (Reverse E i j) (V : Set α) ∧ SubModel (Reverse E i j) E (V : Set α) := by
  classical
  have key : ∀ {E : α → α → Prop} (_ : Acyclic E) (_ : ∀ a b, E a b → a ∈ V ∧ b ∈ V) {i j : α} (_ : Covered E i j),
      SubModel (Reverse E i j) E (V : Set α) := by
    intro E hE hV i j hc
    obtain ⟨f, h1, h2, h3⟩ := exists_rank hE _ V rfl
    exact covered_subModel hE hV hc f h1 (fun a b hab => h2 a (hV _ _ hab).1 b (hV _ _ hab).2 hab) ⟨_, h3⟩
  refine ⟨?_, key hE hV hc⟩
  have := key (covered_reverse_acyclic hE hc) (by
    rintro a b (⟨h, _⟩ | ⟨rfl, rfl⟩)
    · exact hV _ _ h
    · exact (hV _ _ hc.1).symm) (covered_reverse hE hc)
  rwa [reverse_reverse hE hc.1] at this

theorem eq_of_subset (hF : Acyclic F) (h : SameSkelV E F) (hs : ∀ a b, E a b → F a b) : E = F := by
  funext a b
  refine propext ⟨hs a b, fun hf => ?_⟩
  rcases (h.skel a b).2 (Or.inl hf) with h' | h'
  · exact h'
  · exact absurd (hs _ _ h') (hF.asymm hf)

/-- Graphs with the same skeleton and v-structures have the same separations. -/
theorem subModel_of_sameSkelV (hF : Acyclic F) (V : Finset α) : ∀ (n : ℕ) (E : α → α → Prop), Acyclic E →
    (∀ a b, E a b → a ∈ V ∧ b ∈ V) → SameSkelV E F →
    (∀ D : Finset (α × α), (∀ a b, (a, b) ∈ D → E a b ∧ ¬ F a b) → D.card ≤ n) →
    SubModel E F (V : Set α) ∧ SubModel F E (V : Set α) := by
  classical
  intro n
  induction n with
  | zero =>
    intro E hE hV h hD
    have : E = F := eq_of_subset hF h fun a b hab => by
      by_contra hn
      have := hD {(a, b)} (by simp; exact ⟨hab, hn⟩)
      simp at this
    subst this
    exact ⟨.refl _ _, .refl _ _⟩
  | succ n ih =>
    intro E hE hV h hD
    by_cases hs : ∀ a b, E a b → F a b
    · have := eq_of_subset hF h hs; subst this
      exact ⟨.refl _ _, .refl _ _⟩
    · push Not at hs
      obtain ⟨i, j, hc, hji⟩ := exists_covered hE hF V hV h hs
      have hn : ¬ F i j := hF.asymm hji
      obtain ⟨h1, h2⟩ := covered_subModels hE V hV hc
      obtain ⟨h3, h4⟩ := ih (Reverse E i j) (covered_reverse_acyclic hE hc) (by
        rintro a b (⟨h, _⟩ | ⟨rfl, rfl⟩)
        · exact hV _ _ h
        · exact (hV _ _ hc.1).symm) ((covered_sameSkelV hE hc).symm.trans h) (by
        intro D hD'
        have hnm : (i, j) ∉ D := by
          intro hm
          rcases (hD' i j hm).1 with ⟨_, hh⟩ | ⟨rfl, _⟩
          · exact hh ⟨rfl, rfl⟩
          · exact hn hji
        have := hD (insert (i, j) D) (by
          intro a b hab
          rcases Finset.mem_insert.1 hab with he | he
          · cases he; exact ⟨hc.1, hn⟩
          · obtain ⟨g1, g2⟩ := hD' a b he
            rcases g1 with ⟨g1, _⟩ | ⟨rfl, rfl⟩
            · exact ⟨g1, g2⟩
            · exact absurd hji g2)
        rw [Finset.card_insert_of_notMem hnm] at this
        omega)
      exact ⟨h1.trans h3, h4.trans h2⟩

theorem nonadj_sep (hE : Acyclic E) {V : Set α} (hV : ∀ a b, E a b → a ∈ V ∧ b ∈ V) {a b : α} (hab : a ≠ b)
    (h : ¬ Adj E a b) : ∃ C ⊆ V, a ∉ C ∧ b ∉ C ∧ DSep E {a} {b} C ∧ (∀ c, E a c → E b c → c ∉ C) := by
  by_cases hp : Path E a b
  · refine ⟨{p | E p b}, fun x hx => (hV _ _ hx).1, fun hh => h (Or.inl hh), fun hh => hE.irrefl hh, ?_, ?_⟩
    · refine dsep_symm (dsep_mono subset_rfl ?_ (local_markov hE b))
      rintro x rfl
      exact ⟨hab, fun hh => hE _ (hp.trans hh), fun hh => h (Or.inl hh)⟩
    · intro c _ hbc hc; exact hE.asymm hbc hc
  · refine ⟨{p | E p a}, fun x hx => (hV _ _ hx).1, fun hh => hE.irrefl hh, fun hh => h (Or.inr hh), ?_, ?_⟩
    · refine dsep_mono subset_rfl ?_ (local_markov hE a)
      rintro x rfl
      exact ⟨hab.symm, hp, fun hh => h (Or.inr hh)⟩
    · intro c hac _ hc; exact hE.asymm hac hc

theorem subModel_adj (hE : Acyclic E) (hF : Acyclic F) {V : Set α} (hV : ∀ a b, E a b → a ∈ V ∧ b ∈ V)
    (hVF : ∀ a b, F a b → a ∈ V ∧ b ∈ V) (h : SubModel E F V) {a b : α} (hab : Adj F a b) : Adj E a b := by
  by_contra hn
  have hne : a ≠ b := by rintro rfl; exact hF.irrefl (hab.elim id id)
  obtain ⟨C, hC, haC, hbC, hs, _⟩ := nonadj_sep hE hV hne hn
  have hm : a ∈ V ∧ b ∈ V := by
    rcases hab with h | h
    · exact hVF _ _ h
    · exact (hVF _ _ h).symm
  have := h {a} {b} C (by simpa using hm.1) (by simpa using hm.2) hC (by simpa using hne) (by simpa using haC)
    (by simpa using hbC) hs
  rw [dsep_iff] at this
  exact this a rfl b rfl (dconn_adj hab)

/-- Graphs with the same separations have the same skeleton and v-structures. -/
theorem sameSkelV_of_subModels (hE : Acyclic E) (hF : Acyclic F) {V : Set α} (hV : ∀ a b, E a b → a ∈ V ∧ b ∈ V)
    (hVF : ∀ a b, F a b → a ∈ V ∧ b ∈ V) (h : SubModel E F V) (h' : SubModel F E V) : SameSkelV E F := by
  have hskel : ∀ a b, Adj E a b ↔ Adj F a b := fun a b =>
    ⟨subModel_adj hF hE hVF hV h', subModel_adj hE hF hV hVF h⟩
  have key : ∀ {E F : α → α → Prop}, Acyclic E → Acyclic F → (∀ a b, E a b → a ∈ V ∧ b ∈ V) → SubModel E F V →
      (∀ a b, Adj E a b ↔ Adj F a b) → ∀ a c b, VStruct E a c b → VStruct F a c b := by
    intro E F hE hF hV h hskel a c b ⟨h1, h2, h3, h4⟩
    obtain ⟨C, hC, haC, hbC, hs, hcC⟩ := nonadj_sep hE hV h1 h4
    have hac := (hskel a c).1 (Or.inl h2)
    have hcb := (hskel c b).1 (Or.inr h3)
    have hs' := h {a} {b} C (by simpa using (hV _ _ h2).1) (by simpa using (hV _ _ h3).1) hC (by simpa using h1)
      (by simpa using haC) (by simpa using hbC) hs
    rw [dsep_iff] at hs'
    have hcol : F a c ∧ F b c := by
      by_contra hn
      exact hs' a rfl b rfl (dconn_noncollider hac hcb hn (hcC c h2 h3))
    exact ⟨h1, hcol.1, hcol.2, fun hh => h4 ((hskel a b).2 hh)⟩
  exact ⟨hskel, fun a c b => ⟨key hE hF hV h hskel a c b, key hF hE hVF h' (fun a b => (hskel a b).symm) a c b⟩⟩

theorem sameSkelV_iff (hE : Acyclic E) (hF : Acyclic F) (V : Finset α) (hV : ∀ a b, E a b → a ∈ V ∧ b ∈ V)
    (hVF : ∀ a b, F a b → a ∈ V ∧ b ∈ V) :
    SameSkelV E F ↔ SubModel E F (V : Set α) ∧ SubModel F E (V : Set α) := by
  classical
  refine ⟨fun h => ?_, fun h => sameSkelV_of_subModels hE hF hV hVF h.1 h.2⟩
  refine subModel_of_sameSkelV hF V (V ×ˢ V).card E hE hV h ?_
  intro D hD
  refine Finset.card_le_card fun x hx => ?_
  have := hV _ _ (hD x.1 x.2 hx).1
  exact Finset.mem_product.2 this

end Spec
