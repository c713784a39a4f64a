import Verif.Proof.PAG
import Verif.Props.Sample

/-! # C174, C175: `PAG` -/

namespace Props

open Model Model.PAG

/-- C174. A matrix with entries 0 to 3, zero diagonal and nonzero entries in symmetric positions comes back from
`from_amat(amat).to_amat()`. -/
theorem C174_matrix_round_trip (oe : SetOrder Unit (Finset ℕ)) (ou : SetOrder Unit ℕ) (op : SetOrder Bool (ℕ × ℕ)) (A : Amat)
    (hv : ∀ i j, i < A.n → j < A.n → 0 ≤ A.entry i j ∧ A.entry i j ≤ 3) (hd : ∀ i, i < A.n → A.entry i i = 0)
    (hs : ∀ i j, i < A.n → j < A.n → A.entry i j ≠ 0 → A.entry j i ≠ 0) :
    ∃ B, (fromAmat A).toAmat oe ou op = .ok B ∧ B.n = A.n ∧ ∀ i j, i < A.n → j < A.n → B.entry i j = A.entry i j := by
  obtain ⟨h1, h2, h3, h4⟩ := fromAmat_spec A
  have hc : (fromAmat A).nodes.card = A.n := by rw [h1, Finset.card_range]
  obtain ⟨B, b1, b2, b3⟩ := toAmat_spec oe ou op (fromAmat A) (by
      intro e he
      obtain ⟨i, j, hi, hj, hx, rfl⟩ := (h2 e).1 he
      refine ⟨i, j, ?_, rfl, hc.symm ▸ hi, hc.symm ▸ hj⟩
      rintro rfl
      rw [Joins, hd i hi] at hx
      omega)
    (by intro i j h; rw [hc]; exact ⟨((h3 i j).1 h).1, ((h3 i j).1 h).2.1⟩)
    (by intro i j h; rw [hc]; exact ⟨((h4 i j).1 h).1, ((h4 i j).1 h).2.1⟩)
  refine ⟨B, b1, b2.trans hc, fun i j hi hj => ?_⟩
  have hadj : ({i, j} : Finset ℕ) ∈ (fromAmat A).adjacencies ↔ A.entry i j ≠ 0 := by
    rw [h2]
    constructor
    · rintro ⟨a, b, ha, hb, hx, he⟩
      have hx' : A.entry a b ≠ 0 := by unfold Joins at hx; omega
      rcases UG.pair_eq.1 he with ⟨rfl, rfl⟩ | ⟨rfl, rfl⟩
      · exact hx'
      · exact hs _ _ ha hb hx'
    · intro h
      refine ⟨i, j, hi, hj, ?_, rfl⟩
      have := hv i j hi hj
      unfold Joins
      omega
  have k3 := h3 i j
  have k4 := h4 i j
  simp only [hi, hj, true_and] at k3 k4
  have := hv i j hi hj
  rw [b3]
  split_ifs with c1 c2 c3
  · rw [k3.1 c1]
  · rw [k4.1 c2]
  · have e1 := hadj.1 c3
    have e2 : A.entry i j ≠ 2 := fun h => c1 (k3.2 h)
    have e3 : A.entry i j ≠ 3 := fun h => c2 (k4.2 h)
    omega
  · exact (not_ne_iff.1 fun h => c3 (hadj.2 h)).symm

/-- C174. In general the entries of `from_amat(amat).to_amat()` are: 2 and 3 where they were; 1 at the other places where one of the two
entries was 1, 2 or 3; 0 elsewhere. -/
theorem C174_normal_form (oe : SetOrder Unit (Finset ℕ)) (ou : SetOrder Unit ℕ) (op : SetOrder Bool (ℕ × ℕ)) (A : Amat)
    (hd : ∀ i, i < A.n → A.entry i i ≠ 1 ∧ A.entry i i ≠ 2 ∧ A.entry i i ≠ 3) :
    ∃ B, (fromAmat A).toAmat oe ou op = .ok B ∧ B.n = A.n ∧ ∀ i j, i < A.n → j < A.n →
      (A.entry i j = 2 → B.entry i j = 2) ∧ (A.entry i j = 3 → B.entry i j = 3) ∧
      (A.entry i j ≠ 2 → A.entry i j ≠ 3 → (A.entry i j = 1 ∨ A.entry j i = 1 ∨ A.entry j i = 2 ∨ A.entry j i = 3) → B.entry i j = 1) ∧
      ((∀ x ∈ ({1, 2, 3} : Finset ℤ), A.entry i j ≠ x ∧ A.entry j i ≠ x) → B.entry i j = 0) := by
  obtain ⟨h1, h2, h3, h4⟩ := fromAmat_spec A
  have hc : (fromAmat A).nodes.card = A.n := by rw [h1, Finset.card_range]
  obtain ⟨B, b1, b2, b3⟩ := toAmat_spec oe ou op (fromAmat A) (by
      intro e he
      obtain ⟨i, j, hi, hj, hx, rfl⟩ := (h2 e).1 he
      refine ⟨i, j, ?_, rfl, hc.symm ▸ hi, hc.symm ▸ hj⟩
      rintro rfl
      have := hd i hi
      unfold Joins at hx
      omega)
    (by intro i j h; rw [hc]; exact ⟨((h3 i j).1 h).1, ((h3 i j).1 h).2.1⟩)
    (by intro i j h; rw [hc]; exact ⟨((h4 i j).1 h).1, ((h4 i j).1 h).2.1⟩)
  refine ⟨B, b1, b2.trans hc, fun i j hi hj => ?_⟩
  have hadj : ({i, j} : Finset ℕ) ∈ (fromAmat A).adjacencies ↔ Joins (A.entry i j) ∨ Joins (A.entry j i) := by
    rw [h2]
    constructor
    · rintro ⟨a, b, ha, hb, hx, he⟩
      rcases UG.pair_eq.1 he with ⟨rfl, rfl⟩ | ⟨rfl, rfl⟩
      · exact .inl hx
      · exact .inr hx
    · rintro (h | h)
      · exact ⟨i, j, hi, hj, h, rfl⟩
      · exact ⟨j, i, hj, hi, h, Finset.pair_comm _ _⟩
  have k3 := h3 i j
  have k4 := h4 i j
  simp only [hi, hj, true_and] at k3 k4
  rw [b3]
  simp only [Finset.mem_insert, Finset.mem_singleton, forall_eq_or_imp, forall_eq]
  unfold Joins at hadj
  refine ⟨fun h => ?_, fun h => ?_, fun h h' h'' => ?_, fun h => ?_⟩
  · rw [if_pos (k3.2 h)]
  · rw [if_neg (by rw [k3]; omega), if_pos (k4.2 h)]
  · rw [if_neg (by rw [k3]; exact h), if_neg (by rw [k4]; exact h'), if_pos (by rw [hadj]; tauto)]
  · rw [if_neg (by rw [k3]; exact h.2.1.1), if_neg (by rw [k4]; exact h.2.2.1), if_neg]
    rw [hadj]
    rintro ((k | k | k) | k | k | k)
    · exact h.1.1 k
    · exact h.2.1.1 k
    · exact h.2.2.1 k
    · exact h.1.2 k
    · exact h.2.1.2 k
    · exact h.2.2.2 k

/-- C174. An entry 1, 2 or 3 on the diagonal is accepted by `from_amat`, but then `to_amat` raises `ValueError`. -/
theorem C174_diagonal (oe : SetOrder Unit (Finset ℕ)) (ou : SetOrder Unit ℕ) (op : SetOrder Bool (ℕ × ℕ)) (A : Amat) (i : ℕ) (hi : i < A.n)
    (h : A.entry i i = 1 ∨ A.entry i i = 2 ∨ A.entry i i = 3) : (fromAmat A).toAmat oe ou op = .error .value := by
  obtain ⟨h1, h2, -, -⟩ := fromAmat_spec A
  have hc : (fromAmat A).nodes.card = A.n := by rw [h1, Finset.card_range]
  rw [toAmat, setAdj_error ou _ _ (fun e he => ?_) ⟨i, (oe.mem_iff () _ _).2 ((h2 _).2 ⟨i, i, hi, hi, h, by simp⟩)⟩]
  · rfl
  · obtain ⟨a, b, ha, hb, -, rfl⟩ := (h2 e).1 ((oe.mem_iff () _ e).1 he)
    exact ⟨a, b, rfl, by rw [hc]; exact ha, by rw [hc]; exact hb⟩

/-- C174. A PAG on `0..n-1` whose marks lie on adjacencies, with no arrowhead where there is a tail, comes back from
`PAG.from_amat(p.to_amat())`. -/
theorem C174_graph_round_trip (oe : SetOrder Unit (Finset ℕ)) (ou : SetOrder Unit ℕ) (op : SetOrder Bool (ℕ × ℕ)) (P : PAG) (n : ℕ)
    (hn : P.nodes = Finset.range n) (ha : ∀ e ∈ P.adjacencies, ∃ i j, i ≠ j ∧ e = {i, j} ∧ i < n ∧ j < n)
    (hh : ∀ i j, (i, j) ∈ P.arrowheads → {i, j} ∈ P.adjacencies) (ht : ∀ i j, (i, j) ∈ P.tails → {i, j} ∈ P.adjacencies)
    (hd : ∀ p ∈ P.tails, p ∉ P.arrowheads) :
    ∃ B, P.toAmat oe ou op = .ok B ∧ fromAmat B = P := by
  have hc : P.nodes.card = n := by rw [hn, Finset.card_range]
  have hb : ∀ i j, ({i, j} : Finset ℕ) ∈ P.adjacencies → i < n ∧ j < n := by
    intro i j h
    obtain ⟨a, b, -, he, ha, hb⟩ := ha _ h
    rcases UG.pair_eq.1 he with ⟨rfl, rfl⟩ | ⟨rfl, rfl⟩
    · exact ⟨ha, hb⟩
    · exact ⟨hb, ha⟩
  obtain ⟨B, b1, b2, b3⟩ := toAmat_spec oe ou op P (by rw [hc]; exact ha) (by rw [hc]; exact fun i j h => hb i j (hh i j h))
    (by rw [hc]; exact fun i j h => hb i j (ht i j h))
  have hB : B.n = n := b2.trans hc
  refine ⟨B, b1, ?_⟩
  obtain ⟨h1, h2, h3, h4⟩ := fromAmat_spec B
  rw [hB] at h1
  simp only [hB] at h2 h3 h4
  have e2 : (fromAmat B).adjacencies = P.adjacencies := by
    ext e
    rw [h2]
    constructor
    · rintro ⟨i, j, hi, hj, hx, rfl⟩
      rw [Joins, b3] at hx
      split_ifs at hx with k1 k2 k3
      · exact hh i j k1
      · exact ht i j k2
      · exact k3
      · omega
    · intro he
      obtain ⟨i, j, -, rfl, hi, hj⟩ := ha e he
      refine ⟨i, j, hi, hj, ?_, rfl⟩
      rw [Joins, b3, if_pos he]
      split_ifs <;> simp
  have e3 : (fromAmat B).arrowheads = P.arrowheads := by
    ext ⟨i, j⟩
    rw [h3, b3]
    constructor
    · rintro ⟨-, -, hx⟩
      split_ifs at hx with k1 k2 k3 <;> first | exact k1 | omega
    · intro h
      exact ⟨(hb i j (hh i j h)).1, (hb i j (hh i j h)).2, by rw [if_pos h]⟩
  have e4 : (fromAmat B).tails = P.tails := by
    ext ⟨i, j⟩
    rw [h4, b3]
    constructor
    · rintro ⟨-, -, hx⟩
      split_ifs at hx with k1 k2 k3 <;> first | exact k2 | omega
    · intro h
      exact ⟨(hb i j (ht i j h)).1, (hb i j (ht i j h)).2, by rw [if_neg (hd _ h), if_pos h]⟩
  exact PAG.ext (h1.trans hn.symm) e2 e3 e4

/-- C175. `shd_skeleton` counts the pairs that are adjacent in exactly one of the graphs; it is symmetric, zero iff the adjacencies are the
same, and satisfies the triangle inequality. -/
theorem C175_shd_skeleton (P Q R : PAG) :
    (∀ s : Finset (Finset ℕ), (∀ e, e ∈ s ↔ (e ∈ P.adjacencies ↔ e ∉ Q.adjacencies)) → P.shdSkeleton Q = s.card) ∧
      P.shdSkeleton Q = Q.shdSkeleton P ∧ (P.shdSkeleton Q = 0 ↔ P.adjacencies = Q.adjacencies) ∧
      P.shdSkeleton R ≤ P.shdSkeleton Q + Q.shdSkeleton R := by
  unfold shdSkeleton
  refine ⟨fun s hs => ?_, by rw [symmDiff_comm], ?_, ?_⟩
  · congr 1
    ext e
    rw [hs, Finset.mem_symmDiff]
    tauto
  · rw [Finset.card_eq_zero]
    exact symmDiff_eq_bot
  · exact (Finset.card_le_card (symmDiff_triangle P.adjacencies Q.adjacencies R.adjacencies)).trans (Finset.card_union_le _ _)

/-- `0 o-> 1 <-> 2`, as a matrix: it meets the hypotheses, and comes back. -/
example : ∃ B, (fromAmat ⟨3, fun i j => if (i, j) = (0, 1) ∨ (i, j) = (2, 1) ∨ (i, j) = (1, 2) then 2 else if (i, j) = (1, 0) then 1 else 0⟩).toAmat
    _root_.Sample.order _root_.Sample.order _root_.Sample.order = .ok B ∧ B.entry 0 1 = 2 ∧ B.entry 1 0 = 1 := by
  obtain ⟨B, h1, h2, h3⟩ := C174_matrix_round_trip _root_.Sample.order _root_.Sample.order _root_.Sample.order
    ⟨3, fun i j => if (i, j) = (0, 1) ∨ (i, j) = (2, 1) ∨ (i, j) = (1, 2) then 2 else if (i, j) = (1, 0) then 1 else 0⟩
    (by intro i j _ _; dsimp only; split_ifs <;> omega)
    (by intro i hi; dsimp only at hi ⊢; interval_cases i <;> decide)
    (by intro i j hi hj; dsimp only at hi hj ⊢; interval_cases i <;> interval_cases j <;> decide)
  exact ⟨B, h1, by rw [h3 0 1 (by decide) (by decide)]; decide, by rw [h3 1 0 (by decide) (by decide)]; decide⟩

/-- The PAG `0 o-> 1` meets the hypotheses of `C174_graph_round_trip`. -/
example : ∃ B, (PAG.mk {0, 1} {{0, 1}} {(0, 1)} ∅).toAmat _root_.Sample.order _root_.Sample.order _root_.Sample.order = .ok B ∧
    fromAmat B = ⟨{0, 1}, {{0, 1}}, {(0, 1)}, ∅⟩ :=
  C174_graph_round_trip _ _ _ _ 2 rfl (by simpa using ⟨0, 1, by decide, rfl, by decide, by decide⟩)
    (by simp +contextual) (by simp) (by simp)

end Props
