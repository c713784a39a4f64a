import Verif.Model.PAG
import Verif.Proof.UGConvert

/-! # Matrices of partial ancestral graphs -/

namespace Model.PAG

theorem mem_indices {n : ℕ} {p : ℕ × ℕ} : p ∈ indices n ↔ p.1 < n ∧ p.2 < n := by
  obtain ⟨i, j⟩ := p
  simp [indices]

/-- The entry stands for an adjacency. -/
def Joins (x : ℤ) : Prop := x = 1 ∨ x = 2 ∨ x = 3

theorem readEntry_spec (i j : ℕ) (x : ℤ) (P : PAG) :
    (readEntry i j x P).nodes = P.nodes ∧ (∀ e, e ∈ (readEntry i j x P).adjacencies ↔ e ∈ P.adjacencies ∨ (Joins x ∧ e = {i, j})) ∧
      (∀ p, p ∈ (readEntry i j x P).arrowheads ↔ p ∈ P.arrowheads ∨ (x = 2 ∧ p = (i, j))) ∧
      ∀ p, p ∈ (readEntry i j x P).tails ↔ p ∈ P.tails ∨ (x = 3 ∧ p = (i, j)) := by
  unfold readEntry Joins
  by_cases h1 : x = 1
  · subst h1; simp; tauto
  · by_cases h2 : x = 2
    · subst h2; simp; tauto
    · by_cases h3 : x = 3
      · subst h3; simp; tauto
      · simp [h1, h2, h3]

theorem fold_spec (f : ℕ → ℕ → ℤ) : ∀ (l : List (ℕ × ℕ)) (P : PAG),
    (l.foldl (fun P p => readEntry p.1 p.2 (f p.1 p.2) P) P).nodes = P.nodes ∧
      (∀ e, e ∈ (l.foldl (fun P p => readEntry p.1 p.2 (f p.1 p.2) P) P).adjacencies ↔
        e ∈ P.adjacencies ∨ ∃ p ∈ l, Joins (f p.1 p.2) ∧ e = {p.1, p.2}) ∧
      (∀ q, q ∈ (l.foldl (fun P p => readEntry p.1 p.2 (f p.1 p.2) P) P).arrowheads ↔ q ∈ P.arrowheads ∨ (q ∈ l ∧ f q.1 q.2 = 2)) ∧
      ∀ q, q ∈ (l.foldl (fun P p => readEntry p.1 p.2 (f p.1 p.2) P) P).tails ↔ q ∈ P.tails ∨ (q ∈ l ∧ f q.1 q.2 = 3)
  | [], P => by simp
  | p :: l, P => by
    obtain ⟨h1, h2, h3, h4⟩ := readEntry_spec p.1 p.2 (f p.1 p.2) P
    obtain ⟨k1, k2, k3, k4⟩ := fold_spec f l (readEntry p.1 p.2 (f p.1 p.2) P)
    rw [List.foldl_cons]
    refine ⟨k1.trans h1, fun e => ?_, fun q => ?_, fun q => ?_⟩
    · rw [k2, h2]
      simp only [List.mem_cons, exists_eq_or_imp]
      tauto
    · rw [k3, h3, List.mem_cons]
      constructor
      · rintro ((h | ⟨h, rfl⟩) | h)
        · exact .inl h
        · exact .inr ⟨.inl rfl, h⟩
        · exact .inr ⟨.inr h.1, h.2⟩
      · rintro (h | ⟨rfl | h, h'⟩)
        · exact .inl (.inl h)
        · exact .inl (.inr ⟨h', rfl⟩)
        · exact .inr ⟨h, h'⟩
    · rw [k4, h4, List.mem_cons]
      constructor
      · rintro ((h | ⟨h, rfl⟩) | h)
        · exact .inl h
        · exact .inr ⟨.inl rfl, h⟩
        · exact .inr ⟨.inr h.1, h.2⟩
      · rintro (h | ⟨rfl | h, h'⟩)
        · exact .inl (.inl h)
        · exact .inl (.inr ⟨h', rfl⟩)
        · exact .inr ⟨h, h'⟩

theorem fromAmat_spec (A : Amat) :
    (fromAmat A).nodes = Finset.range A.n ∧
      (∀ e, e ∈ (fromAmat A).adjacencies ↔ ∃ i j, i < A.n ∧ j < A.n ∧ Joins (A.entry i j) ∧ e = {i, j}) ∧
      (∀ i j, (i, j) ∈ (fromAmat A).arrowheads ↔ i < A.n ∧ j < A.n ∧ A.entry i j = 2) ∧
      ∀ i j, (i, j) ∈ (fromAmat A).tails ↔ i < A.n ∧ j < A.n ∧ A.entry i j = 3 := by
  obtain ⟨h1, h2, h3, h4⟩ := fold_spec A.entry (indices A.n) ⟨Finset.range A.n, ∅, ∅, ∅⟩
  refine ⟨h1, fun e => ?_, fun i j => ?_, fun i j => ?_⟩
  · refine (h2 e).trans ?_
    simp only [Finset.notMem_empty, false_or, mem_indices, Prod.exists, and_assoc]
  · refine (h3 _).trans ?_
    simp only [Finset.notMem_empty, false_or, mem_indices, and_assoc]
  · refine (h4 _).trans ?_
    simp only [Finset.notMem_empty, false_or, mem_indices, and_assoc]

theorem setAll_spec (x : ℤ) : ∀ (l : List (ℕ × ℕ)) (A : Amat), (∀ p ∈ l, p.1 < A.n ∧ p.2 < A.n) →
    ∃ B, setAll x l A = .ok B ∧ B.n = A.n ∧ ∀ a b, B.entry a b = if (a, b) ∈ l then x else A.entry a b
  | [], A, _ => ⟨A, rfl, rfl, by simp⟩
  | p :: l, A, h => by
    obtain ⟨B, b1, b2, b3⟩ := setAll_spec x l ⟨A.n, fun a b => if a = p.1 ∧ b = p.2 then x else A.entry a b⟩
      fun q hq => h q (by simp [hq])
    refine ⟨B, ?_, b2, fun a b => ?_⟩
    · have : A.set (α := ℕ) p.1 p.2 x = .ok ⟨A.n, fun a b => if a = p.1 ∧ b = p.2 then x else A.entry a b⟩ := by
        unfold Amat.set; rw [if_pos (h p (by simp))]
      rw [setAll, this]
      exact b1
    · rw [b3]
      simp only [List.mem_cons]
      by_cases h1 : (a, b) ∈ l
      · rw [if_pos h1, if_pos (.inr h1)]
      · rw [if_neg h1]
        by_cases h2 : (a, b) = p
        · subst h2
          simp
        · rw [if_neg (not_or.2 ⟨h2, h1⟩), if_neg]
          rintro ⟨rfl, rfl⟩
          exact h2 rfl

theorem setAdj_spec (ou : SetOrder Unit ℕ) : ∀ (l : List (Finset ℕ)) (A : Amat), (∀ e ∈ l, ∃ i j, i ≠ j ∧ e = {i, j} ∧ i < A.n ∧ j < A.n) →
    ∃ B, setAdj ou l A = .ok B ∧ B.n = A.n ∧ ∀ a b, B.entry a b = if {a, b} ∈ l then 1 else A.entry a b
  | [], A, _ => ⟨A, rfl, rfl, by simp⟩
  | e :: l, A, h => by
    obtain ⟨i, j, hij, he, hi, hj⟩ := h e (by simp)
    obtain ⟨p, hp, -, hp2⟩ := UG.unpack_ok ou hij he
    have hb : p.1 < A.n ∧ p.2 < A.n := by
      rcases UG.pair_eq.1 (hp2.symm.trans he) with ⟨h1, h2⟩ | ⟨h1, h2⟩
      · rw [h1, h2]; exact ⟨hi, hj⟩
      · rw [h1, h2]; exact ⟨hj, hi⟩
    obtain ⟨C, c1, c2, c3⟩ := setAll_spec 1 [(p.1, p.2), (p.2, p.1)] A (by simp [hb])
    obtain ⟨B, b1, b2, b3⟩ := setAdj_spec ou l C fun f hf => by
      rw [c2]
      exact h f (by simp [hf])
    refine ⟨B, ?_, b2.trans c2, fun a b => ?_⟩
    · rw [setAdj, hp]
      simp only [Except.bind]
      rw [c1]
      exact b1
    · rw [b3, c3]
      have e1 : (a, b) ∈ [(p.1, p.2), (p.2, p.1)] ↔ ({a, b} : Finset ℕ) = e := by
        rw [hp2, UG.pair_eq]
        simp only [List.mem_cons, List.not_mem_nil, or_false, Prod.mk.injEq]
      by_cases h1 : ({a, b} : Finset ℕ) ∈ l
      · rw [if_pos h1, if_pos (List.mem_cons_of_mem _ h1)]
      · rw [if_neg h1]
        by_cases h2 : ({a, b} : Finset ℕ) = e
        · rw [if_pos (e1.2 h2), if_pos (h2 ▸ List.mem_cons_self)]
        · rw [if_neg (fun h => h2 (e1.1 h)), if_neg (by simp [h1, h2])]

theorem unpack_single (ou : SetOrder Unit ℕ) (i : ℕ) : UG.unpack ou {i} = .error .value := by
  have hl : (ou.ord () {i}).length = 1 := by
    rw [← List.toFinset_card_of_nodup (ou.nodup () {i})]
    have : (ou.ord () {i}).toFinset = {i} := by ext x; simp [ou.mem_iff]
    rw [this, Finset.card_singleton]
  obtain ⟨a, ha⟩ := List.length_eq_one_iff.1 hl
  rw [UG.unpack, ha]

theorem setAdj_error (ou : SetOrder Unit ℕ) : ∀ (l : List (Finset ℕ)) (A : Amat), (∀ e ∈ l, ∃ i j, e = {i, j} ∧ i < A.n ∧ j < A.n) →
    (∃ i, {i} ∈ l) → setAdj ou l A = .error .value
  | [], A, _, ⟨i, hi⟩ => by simp at hi
  | e :: l, A, h, hx => by
    obtain ⟨i, j, he, hi, hj⟩ := h e (by simp)
    by_cases hij : i = j
    · subst hij
      rw [Finset.pair_eq_singleton] at he
      rw [setAdj, he, unpack_single]
      rfl
    · obtain ⟨p, hp, -, hp2⟩ := UG.unpack_ok ou hij he
      have hb : p.1 < A.n ∧ p.2 < A.n := by
        rcases UG.pair_eq.1 (hp2.symm.trans he) with ⟨h1, h2⟩ | ⟨h1, h2⟩
        · rw [h1, h2]; exact ⟨hi, hj⟩
        · rw [h1, h2]; exact ⟨hj, hi⟩
      obtain ⟨C, c1, c2, -⟩ := setAll_spec 1 [(p.1, p.2), (p.2, p.1)] A (by simp [hb])
      rw [setAdj, hp]
      simp only [Except.bind]
      rw [c1]
      refine setAdj_error ou l C (fun f hf => by rw [c2]; exact h f (by simp [hf])) ?_
      obtain ⟨k, hk⟩ := hx
      rcases List.mem_cons.1 hk with hk | hk
      · exfalso
        have := congrArg Finset.card (hk.trans he)
        rw [Finset.card_singleton, Finset.card_pair hij] at this
        omega
      · exact ⟨k, hk⟩

theorem toAmat_spec (oe : SetOrder Unit (Finset ℕ)) (ou : SetOrder Unit ℕ) (op : SetOrder Bool (ℕ × ℕ)) (P : PAG)
    (ha : ∀ e ∈ P.adjacencies, ∃ i j, i ≠ j ∧ e = {i, j} ∧ i < P.nodes.card ∧ j < P.nodes.card)
    (hh : ∀ i j, (i, j) ∈ P.arrowheads → i < P.nodes.card ∧ j < P.nodes.card)
    (ht : ∀ i j, (i, j) ∈ P.tails → i < P.nodes.card ∧ j < P.nodes.card) :
    ∃ B, P.toAmat oe ou op = .ok B ∧ B.n = P.nodes.card ∧ ∀ a b, B.entry a b =
      if (a, b) ∈ P.arrowheads then 2 else if (a, b) ∈ P.tails then 3 else if {a, b} ∈ P.adjacencies then 1 else 0 := by
  obtain ⟨B, b1, b2, b3⟩ := setAdj_spec ou (oe.ord () P.adjacencies) (.zeros P.nodes.card)
    fun e he => ha e ((oe.mem_iff () _ e).1 he)
  have hn : B.n = P.nodes.card := b2
  obtain ⟨C, c1, c2, c3⟩ := setAll_spec 3 (op.ord false P.tails) B fun p hp => by
    rw [hn]
    exact ht p.1 p.2 ((op.mem_iff false _ p).1 hp)
  obtain ⟨D, d1, d2, d3⟩ := setAll_spec 2 (op.ord true P.arrowheads) C fun p hp => by
    rw [c2, hn]
    exact hh p.1 p.2 ((op.mem_iff true _ p).1 hp)
  refine ⟨D, ?_, by rw [d2, c2, hn], fun a b => ?_⟩
  · rw [toAmat, b1]
    simp only [Except.bind]
    rw [c1]
    exact d1
  · rw [d3, c3, b3]
    simp only [op.mem_iff, oe.mem_iff, Amat.zeros]

end Model.PAG
