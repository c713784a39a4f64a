import Verif.Proof.ToDag
import Verif.Proof.Reversals
import Verif.Model.AllDags

/-! # `all_dags`: soundness and termination -/

namespace Model.SmallDag

open Spec
universe u
variable {α : Type u} [DecidableEq α]

/-- The arcs of a record as a relation. -/
abbrev E (d : SmallDag α) (i j : α) : Prop := (i, j) ∈ d.arcs

/-- What is true of all records: they describe an acyclic graph with the skeleton and v-structures of `F`, containing
`fixed`; only covered arcs are listed as reversible. -/
structure Ok (F : α → α → Prop) (fixed : Finset (α × α)) (d : SmallDag α) : Prop where
  parents_iff : ∀ i j, i ∈ d.parents j ↔ (i, j) ∈ d.arcs
  children_iff : ∀ i j, j ∈ d.children i ↔ (i, j) ∈ d.arcs
  acyclic : Acyclic d.E
  same : SameSkelV F d.E
  fixed_sub : fixed ⊆ d.arcs
  rev : ∀ i j, (i, j) ∈ d.rev → Covered d.E i j ∧ (i, j) ∉ fixed

theorem mem_mark {s : Finset (α × α)} {a x : α × α} {b : Bool} :
    x ∈ mark s a b ↔ (x ≠ a ∧ x ∈ s) ∨ (x = a ∧ b = true) := by
  unfold mark
  by_cases hx : x = a
  · subst hx; cases b <;> simp
  · cases b <;> simp [hx]

theorem mem_markParents (fixed : Finset (α × α)) (pa : α → Finset α) (x : α) (p q : α) :
    ∀ (l : List α) (s : Finset (α × α)), (p, q) ∈ markParents fixed pa x l s ↔
      if p ∈ l ∧ q = x then pa x \ {p} = pa p ∧ (p, q) ∉ fixed else (p, q) ∈ s := by
  intro l
  induction l with
  | nil => intro s; simp [markParents]
  | cons k l ih =>
    intro s
    have : markParents fixed pa x (k :: l) s =
      markParents fixed pa x l (mark s (k, x) (decide (pa x \ {k} = pa k) && decide ((k, x) ∉ fixed))) := rfl
    rw [this, ih, mem_mark]
    simp only [List.mem_cons, Prod.mk.injEq, Bool.and_eq_true, decide_eq_true_eq]
    by_cases hq : q = x
    · subst hq
      by_cases hl : p ∈ l
      · simp [hl]
      · by_cases hk : p = k
        · subst hk; simp [hl]
        · simp [hl, hk]
    · simp [hq]

theorem mem_markChildren (fixed : Finset (α × α)) (pa : α → Finset α) (x : α) (p q : α) :
    ∀ (l : List α) (s : Finset (α × α)), (p, q) ∈ markChildren fixed pa x l s ↔
      if q ∈ l ∧ p = x then pa x = pa q \ {x} ∧ (p, q) ∉ fixed else (p, q) ∈ s := by
  intro l
  induction l with
  | nil => intro s; simp [markChildren]
  | cons k l ih =>
    intro s
    have : markChildren fixed pa x (k :: l) s =
      markChildren fixed pa x l (mark s (x, k) (decide (pa x = pa k \ {x}) && decide ((x, k) ∉ fixed))) := rfl
    rw [this, ih, mem_mark]
    simp only [List.mem_cons, Prod.mk.injEq, Bool.and_eq_true, decide_eq_true_eq]
    by_cases hq : p = x
    · subst hq
      by_cases hl : q ∈ l
      · simp [hl]
      · by_cases hk : q = k
        · subst hk; simp [hl]
        · simp [hl, hk]
    · simp [hq]

variable {F : α → α → Prop} {fixed : Finset (α × α)}

theorem mem_newArcs (d : SmallDag α) (i j a b : α) : (a, b) ∈ d.newArcs i j ↔ Reverse d.E i j a b := by
  unfold newArcs Reverse E
  simp [Finset.mem_filter, Prod.mk.injEq, or_comm]

/-- Reversing a covered arc leads to a record of the same kind. -/
theorem Ok.reverse {d : SmallDag α} (h : Ok F fixed d) (o : SetOrder (Fin 4) α) {i j : α} (hij : (i, j) ∈ d.rev) :
    Ok F fixed (d.reverse o fixed i j) := by
  obtain ⟨hc, hf⟩ := h.rev i j hij
  have hne : i ≠ j := by rintro rfl; exact h.acyclic.irrefl hc.1
  have hji : ¬ d.E j i := h.acyclic.asymm hc.1
  have hE : (d.reverse o fixed i j).E = Reverse d.E i j := by
    funext a b; exact propext (mem_newArcs d i j a b)
  have hpa : ∀ a b, a ∈ d.newParents i j b ↔ Reverse d.E i j a b := by
    intro a b
    unfold newParents Reverse
    by_cases h1 : b = i
    · subst h1; simp [h.parents_iff, hne]; tauto
    · by_cases h2 : b = j
      · subst h2; simp [h.parents_iff, h1, E]
      · simp [h1, h2, h.parents_iff, E]
  have hcov : ∀ p q, (p, q) ∈ d.newArcs i j → (d.newParents i j q \ {p} = d.newParents i j p ↔
      Covered (Reverse d.E i j) p q) := by
    intro p q hpq
    rw [Finset.ext_iff]
    simp only [Finset.mem_sdiff, Finset.mem_singleton, hpa]
    exact ⟨fun h' => ⟨(mem_newArcs _ _ _ _ _).1 hpq, fun x => (h' x).symm⟩, fun h' x => (h'.2 x).symm⟩
  refine ⟨?_, ?_, ?_, ?_, ?_, ?_⟩
  · intro a b; exact (hpa a b).trans (mem_newArcs d i j a b).symm
  · intro a b
    refine Iff.trans ?_ (mem_newArcs d i j a b).symm
    show b ∈ d.newChildren i j a ↔ _
    unfold newChildren Reverse
    by_cases h1 : a = i
    · subst h1; simp [h.children_iff, hne, E]
    · by_cases h2 : a = j
      · subst h2; simp [h.children_iff, h1, E, or_comm]
      · simp [h1, h2, h.children_iff, E]
  · rw [hE]; exact covered_reverse_acyclic h.acyclic hc
  · rw [hE]; exact h.same.trans (covered_sameSkelV h.acyclic hc)
  · rintro ⟨a, b⟩ hab
    refine (mem_newArcs d i j a b).2 (Or.inl ⟨h.fixed_sub hab, ?_⟩)
    rintro ⟨rfl, rfl⟩; exact hf hab
  · intro p q hpq
    rw [hE]
    have hpq' : (p, q) ∈ markChildren fixed (d.newParents i j) i (o.ord 3 (d.children i))
        (markParents fixed (d.newParents i j) i (o.ord 2 (d.parents i))
        (markChildren fixed (d.newParents i j) j (o.ord 1 (d.children j))
        (markParents fixed (d.newParents i j) j (o.ord 0 (d.parents j)) d.rev))) := hpq
    rw [mem_markChildren, mem_markParents, mem_markChildren, mem_markParents] at hpq'
    simp only [o.mem_iff, h.children_iff, h.parents_iff] at hpq'
    have hin : ∀ {p q}, d.E p q → ¬ (p = i ∧ q = j) → (p, q) ∈ d.newArcs i j := fun h1 h2 =>
      (mem_newArcs d i j _ _).2 (Or.inl ⟨h1, h2⟩)
    split_ifs at hpq' with c1 c2 c3 c4
    · obtain ⟨c1, rfl⟩ := c1
      by_cases hqj : q = j
      · subst hqj
        have h1 := (Finset.ext_iff.1 hpq'.1 q).1 ((hpa q p).2 (Or.inr ⟨rfl, rfl⟩))
        rcases (hpa q q).1 (Finset.mem_sdiff.1 h1).1 with h2 | h2
        · exact absurd h2.1 h.acyclic.irrefl
        · exact absurd h2.2.symm hne
      · exact ⟨(hcov _ _ (hin c1 (by tauto))).1 hpq'.1.symm, hpq'.2⟩
    · obtain ⟨c2, rfl⟩ := c2
      exact ⟨(hcov _ _ (hin c2 (by tauto))).1 hpq'.1, hpq'.2⟩
    · obtain ⟨c3, rfl⟩ := c3
      exact ⟨(hcov _ _ (hin c3 (by tauto))).1 hpq'.1.symm, hpq'.2⟩
    · obtain ⟨c4, rfl⟩ := c4
      have hpi : p ≠ i := by
        rintro rfl
        exact c1 ⟨c4, rfl⟩
      exact ⟨(hcov _ _ (hin c4 (by tauto))).1 hpq'.1, hpq'.2⟩
    · obtain ⟨k1, k2⟩ := h.rev p q hpq'
      have hpi : p ≠ i := by rintro rfl; exact c1 ⟨k1.1, rfl⟩
      have hqi : q ≠ i := by rintro rfl; exact c2 ⟨k1.1, rfl⟩
      have hpj : p ≠ j := by rintro rfl; exact c3 ⟨k1.1, rfl⟩
      have hqj : q ≠ j := by rintro rfl; exact c4 ⟨k1.1, rfl⟩
      refine ⟨⟨Or.inl ⟨k1.1, by tauto⟩, fun x => ?_⟩, k2⟩
      unfold Reverse
      simpa [hpi, hqi, hpj, hqj] using k1.2 x

/-- The arcs listed as reversible after a reversal. -/
theorem Ok.mem_reverse_rev {d : SmallDag α} (h : Ok F fixed d) (o : SetOrder (Fin 4) α) {i j : α} (hij : (i, j) ∈ d.rev)
    (p q : α) : (p, q) ∈ (d.reverse o fixed i j).rev ↔
      if p = i ∨ q = i ∨ p = j ∨ q = j then
        ¬ (p = j ∧ q = i) ∧ Covered (Reverse d.E i j) p q ∧ (p, q) ∉ fixed
      else (p, q) ∈ d.rev := by
  obtain ⟨h1, h2⟩ := h.rev i j hij
  have hok := h.reverse o hij
  have hij' : i ≠ j := by rintro rfl; exact h.acyclic.irrefl h1.1
  have hji : ¬ d.E j i := h.acyclic.asymm h1.1
  have hE : (d.reverse o fixed i j).E = Reverse d.E i j := by
    funext a b; exact propext (mem_newArcs d i j a b)
  have hpa : ∀ a b, a ∈ d.newParents i j b ↔ Reverse d.E i j a b := by
    intro a b; rw [← hE]; exact hok.parents_iff a b
  have hiff : (p, q) ∈ (d.reverse o fixed i j).rev ↔ (p, q) ∈ markChildren fixed (d.newParents i j) i (o.ord 3 (d.children i))
        (markParents fixed (d.newParents i j) i (o.ord 2 (d.parents i))
        (markChildren fixed (d.newParents i j) j (o.ord 1 (d.children j))
        (markParents fixed (d.newParents i j) j (o.ord 0 (d.parents j)) d.rev))) := Iff.rfl
  rw [mem_markChildren, mem_markParents, mem_markChildren, mem_markParents] at hiff
  simp only [o.mem_iff, h.children_iff, h.parents_iff] at hiff
  split_ifs with hin
  · constructor
    · intro hpq
      obtain ⟨k1, k2⟩ := hok.rev p q hpq
      rw [hE] at k1
      refine ⟨?_, k1, k2⟩
      rintro ⟨rfl, rfl⟩
      rw [hiff] at hpq
      split_ifs at hpq with c1 c2 c3 c4
      · exact hij' c1.2.symm
      · exact hji c2.1
      · exact hji c3.1
      · exact hij' c4.2
      · exact hji (h.rev _ _ hpq).1.1
    · rintro ⟨k3, k1, k2⟩
      have hpq : d.E p q ∧ ¬ (p = i ∧ q = j) := k1.1.resolve_right k3
      have key : d.newParents i j q \ {p} = d.newParents i j p := by
        ext x
        rw [Finset.mem_sdiff, Finset.mem_singleton, hpa, hpa]
        exact (k1.2 x).symm
      rw [hiff]
      split_ifs with c1 c2 c3 c4
      · obtain ⟨_, rfl⟩ := c1; exact ⟨key.symm, k2⟩
      · obtain ⟨_, rfl⟩ := c2; exact ⟨key, k2⟩
      · obtain ⟨_, rfl⟩ := c3; exact ⟨key.symm, k2⟩
      · obtain ⟨_, rfl⟩ := c4; exact ⟨key, k2⟩
      · exfalso
        rcases hin with rfl | rfl | rfl | rfl
        · exact c1 ⟨hpq.1, rfl⟩
        · exact c2 ⟨hpq.1, rfl⟩
        · exact c3 ⟨hpq.1, rfl⟩
        · exact c4 ⟨hpq.1, rfl⟩
  · rw [hiff, if_neg (by tauto), if_neg (by tauto), if_neg (by tauto), if_neg (by tauto)]

theorem push_spec (o : SetOrder (Fin 4) α) (fixed : Finset (α × α)) (all : Finset (Finset (α × α))) (d : SmallDag α) :
    ∀ (l : List (α × α)) (q : List (SmallDag α)), ∃ c : List (SmallDag α), d.push o fixed all l q = c ++ q ∧
      (∀ x ∈ c, x.arcs ∉ all ∧ ∃ a ∈ l, x = d.reverse o fixed a.1 a.2) ∧
      ∀ a ∈ l, d.newArcs a.1 a.2 ∈ all ∨ ∃ x ∈ c, x.arcs = d.newArcs a.1 a.2 := by
  intro l
  induction l with
  | nil => intro q; exact ⟨[], rfl, by simp, by simp⟩
  | cons a l ih =>
    intro q
    have hstep : d.push o fixed all (a :: l) q =
      d.push o fixed all l (if d.newArcs a.1 a.2 ∈ all then q else d.reverse o fixed a.1 a.2 :: q) := rfl
    by_cases h : d.newArcs a.1 a.2 ∈ all
    · obtain ⟨c, h1, h2, h3⟩ := ih q
      refine ⟨c, by rw [hstep, if_pos h, h1], fun x hx => ?_, fun b hb => ?_⟩
      · obtain ⟨k1, b, k2, k3⟩ := h2 x hx
        exact ⟨k1, b, List.mem_cons_of_mem _ k2, k3⟩
      · rcases List.mem_cons.1 hb with rfl | hb
        · exact Or.inl h
        · exact h3 b hb
    · obtain ⟨c, h1, h2, h3⟩ := ih (d.reverse o fixed a.1 a.2 :: q)
      refine ⟨c ++ [d.reverse o fixed a.1 a.2], by rw [hstep, if_neg h, h1]; simp, fun x hx => ?_, fun b hb => ?_⟩
      · rw [List.mem_append, List.mem_singleton] at hx
        rcases hx with hx | rfl
        · obtain ⟨k1, b, k2, k3⟩ := h2 x hx
          exact ⟨k1, b, List.mem_cons_of_mem _ k2, k3⟩
        · exact ⟨h, a, List.mem_cons_self, rfl⟩
      · rcases List.mem_cons.1 hb with rfl | hb
        · exact Or.inr ⟨_, List.mem_append_right _ (List.mem_singleton_self _), rfl⟩
        · rcases h3 b hb with h4 | ⟨x, hx, h4⟩
          · exact Or.inl h4
          · exact Or.inr ⟨x, List.mem_append_left _ hx, h4⟩

end Model.SmallDag

namespace Model.PDAG

open Spec
universe u
variable {α : Type u} [DecidableEq α] {F : α → α → Prop} {fixed : Finset (α × α)}

/-- The loop ends, whatever the stack holds, as only finitely many arc sets exist. Every arc set added to the result
belongs to a record `d` for which the reversals of all arcs listed in it are in the result as well. -/
theorem allDagsLoop_spec (o : AllOracle α) (S : Finset (Finset (α × α)))
    (Q : SmallDag α → Prop) (hS : ∀ d, Q d → d.arcs ∈ S)
    (hQ : ∀ d, Q d → ∀ (o : SetOrder (Fin 4) α) (i j : α), (i, j) ∈ d.rev → Q (d.reverse o fixed i j)) : ∀ (k : ℕ) (l n : ℕ) (q : List (SmallDag α))
    (all : Finset (Finset (α × α))), (S \ all).card ≤ k → q.length ≤ l → (∀ d ∈ q, Q d) →
    ∃ r, (allDagsLoop o fixed n q all).run = some (.ok r) ∧ all ⊆ r ∧ (∀ d ∈ q, d.arcs ∈ r) ∧
      ∀ A ∈ r, A ∈ all ∨ ∃ d, Q d ∧ d.arcs = A ∧ ∀ a ∈ d.rev, d.newArcs a.1 a.2 ∈ r := by
  intro k
  induction k using Nat.strong_induction_on with
  | _ k ihk =>
    -- one round on a record that is new
    have hnew : ∀ (n : ℕ) (d : SmallDag α) (q : List (SmallDag α)) (all : Finset (Finset (α × α))),
        (S \ all).card ≤ k → (∀ x ∈ d :: q, Q x) → d.arcs ∉ all →
        ∃ r, (allDagsLoop o fixed n (d :: q) all).run = some (.ok r) ∧ all ⊆ r ∧ (∀ x ∈ d :: q, x.arcs ∈ r) ∧
          ∀ A ∈ r, A ∈ all ∨ ∃ d, Q d ∧ d.arcs = A ∧ ∀ a ∈ d.rev, d.newArcs a.1 a.2 ∈ r := by
      intro n d q all hk hq hd
      have hdS := hS d (hq d List.mem_cons_self)
      have hlt : (S \ insert d.arcs all).card < (S \ all).card := by
        apply Finset.card_lt_card
        rw [Finset.ssubset_iff_of_subset (fun x hx => by
          rw [Finset.mem_sdiff, Finset.mem_insert, not_or] at hx
          exact Finset.mem_sdiff.2 ⟨hx.1, hx.2.2⟩)]
        exact ⟨d.arcs, Finset.mem_sdiff.2 ⟨hdS, hd⟩, by simp⟩
      obtain ⟨c, c1, c2, c3⟩ := SmallDag.push_spec (o.nodes n) fixed (insert d.arcs all) d (o.arcs.ord n d.rev) q
      obtain ⟨r, r1, r2, r3, r4⟩ := ihk _ (lt_of_lt_of_le hlt hk) _ (n + 1) (c ++ q) (insert d.arcs all) le_rfl le_rfl (by
        intro x hx
        rcases List.mem_append.1 hx with hx | hx
        · obtain ⟨_, a, ha, rfl⟩ := c2 x hx
          exact hQ _ (hq d List.mem_cons_self) _ _ _ ((o.arcs.mem_iff _ _ _).1 ha)
        · exact hq x (List.mem_cons_of_mem _ hx))
      refine ⟨r, ?_, (Finset.subset_insert _ _).trans r2, ?_, ?_⟩
      · rw [allDagsLoop]; simp only [c1]; exact r1
      · intro x hx
        rcases List.mem_cons.1 hx with rfl | hx
        · exact r2 (Finset.mem_insert_self _ _)
        · exact r3 x (List.mem_append_right _ hx)
      · intro A hA
        rcases r4 A hA with h | h
        · rcases Finset.mem_insert.1 h with rfl | h
          · refine Or.inr ⟨d, hq d List.mem_cons_self, rfl, fun a ha => ?_⟩
            rcases c3 a ((o.arcs.mem_iff _ _ _).2 ha) with h4 | ⟨x, hx, h4⟩
            · exact r2 h4
            · rw [← h4]; exact r3 x (List.mem_append_left _ hx)
          · exact Or.inl h
        · exact Or.inr h
    intro l
    induction l with
    | zero =>
      intro n q all _ hl _
      obtain rfl : q = [] := List.length_eq_zero_iff.1 (by omega)
      refine ⟨all, ?_, Finset.Subset.refl _, by simp, fun A hA => Or.inl hA⟩
      rw [allDagsLoop]; rfl
    | succ l ihl =>
      intro n q all hk hl hq
      cases q with
      | nil =>
        refine ⟨all, ?_, Finset.Subset.refl _, by simp, fun A hA => Or.inl hA⟩
        rw [allDagsLoop]; rfl
      | cons d q =>
        by_cases hd : d.arcs ∈ all
        · -- a repeated record: its first child, if any, is new
          obtain ⟨c, c1, c2, c3⟩ := SmallDag.push_spec (o.nodes n) fixed all d (o.arcs.ord n d.rev) q
          have hok : ∀ x ∈ c ++ q, Q x := by
            intro x hx
            rcases List.mem_append.1 hx with hx | hx
            · obtain ⟨_, a, ha, rfl⟩ := c2 x hx
              exact hQ _ (hq d List.mem_cons_self) _ _ _ ((o.arcs.mem_iff _ _ _).1 ha)
            · exact hq x (List.mem_cons_of_mem _ hx)
          have hrun : (allDagsLoop o fixed n (d :: q) all).run = (allDagsLoop o fixed (n + 1) (c ++ q) all).run := by
            rw [allDagsLoop]; simp only [Finset.insert_eq_of_mem hd, c1]
          have hres : ∃ r, (allDagsLoop o fixed (n + 1) (c ++ q) all).run = some (.ok r) ∧ all ⊆ r ∧
              (∀ x ∈ c ++ q, x.arcs ∈ r) ∧ ∀ A ∈ r, A ∈ all ∨ ∃ d, Q d ∧ d.arcs = A ∧ ∀ a ∈ d.rev, d.newArcs a.1 a.2 ∈ r := by
            cases c with
            | nil => exact ihl (n + 1) q all hk (by simpa using hl) (by simpa using hok)
            | cons x c => exact hnew (n + 1) x (c ++ q) all hk hok (c2 x List.mem_cons_self).1
          obtain ⟨r, r1, r2, r3, r4⟩ := hres
          refine ⟨r, hrun.trans r1, r2, ?_, r4⟩
          intro x hx
          rcases List.mem_cons.1 hx with rfl | hx
          · exact r2 hd
          · exact r3 x (List.mem_append_right _ hx)
        · exact hnew n d q all hk hq hd

/-- `all_dags` on a PDAG that has a consistent extension. -/
theorem allDags_spec (o : AllOracle α) {P : PDAG α} (hP : P.Consistent) (hS : P.Simple)
    (hF : ∃ F, Extends P.Arc P.Edge F) :
    ∃ r G, (P.allDags o).run = some (.ok r) ∧ (P.toDag o.dag).run = some (.ok G) ∧ G.arcs ∈ r ∧
      ∀ A ∈ r, Extends P.Arc P.Edge (fun i j => (i, j) ∈ A) ∧ SameSkelV G.E fun i j => (i, j) ∈ A := by
  obtain ⟨G, h1, h2, _, _, h5⟩ := toDag_spec o.dag hP hS
  have hE := h5.resolve_right fun h => h.2 hF
  set d : SmallDag α := ⟨G.arcs, G.reversibleArcs \ P.arcs, G.parents, G.children⟩ with hd
  have hok : SmallDag.Ok G.E P.arcs d := by
    refine ⟨h2.parents_iff, h2.children_iff, h2.acyclic, SameSkelV.refl _, fun a ha => hE.arcs a.1 a.2 ha, ?_⟩
    intro i j hij
    have := Finset.mem_sdiff.1 hij
    exact ⟨(DAG.mem_reversibleArcs h2).1 this.1, this.2⟩
  have hsub : ∀ d, SmallDag.Ok G.E P.arcs d → d.arcs ∈ (G.nodes ×ˢ G.nodes).powerset := by
    intro d hd
    rw [Finset.mem_powerset]
    rintro ⟨a, b⟩ hab
    rw [Finset.mem_product]
    rcases (hd.same.skel a b).2 (Or.inl hab) with h | h
    · exact ⟨h2.fst_mem _ _ h, h2.snd_mem _ _ h⟩
    · exact ⟨h2.snd_mem _ _ h, h2.fst_mem _ _ h⟩
  obtain ⟨r, r1, _, r3, r4⟩ := allDagsLoop_spec o _ _ hsub (fun d hd o i j hij => hd.reverse o hij) _ _ 0 [d] ∅ le_rfl le_rfl
    (by simpa using hok)
  refine ⟨r, G, ?_, h1, r3 d (by simp), ?_⟩
  · unfold allDags
    rw [ExceptT.run_bind, h1]
    exact r1
  · intro A hA
    obtain ⟨x, hx, rfl, _⟩ := (r4 A hA).resolve_left (by simp)
    refine ⟨⟨hx.acyclic, ?_, fun a b hab => hx.fixed_sub hab, ?_⟩, hx.same⟩
    · intro a b; rw [← hE.adj]; exact (hx.same.skel a b).symm
    · intro a c b hv; exact hE.vstr a c b ((hx.same.vstr a c b).2 hv)

end Model.PDAG
