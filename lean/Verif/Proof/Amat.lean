import Verif.Model.Amat
import Verif.Proof.ToDag
import Verif.Proof.Moral
import Verif.Proof.UG

/-! # Adjacency matrices -/

namespace Model

universe u
variable {α : Type u} [DecidableEq α]

theorem node2ix_from (v : α) : ∀ (l : List α) (k : ℕ) (d : α → Option ℕ), l.Nodup →
    (l.zipIdx k).foldl (fun (d : α → Option ℕ) p => Function.update d p.1 (some p.2)) d v =
      if v ∈ l then some (k + l.idxOf v) else d v := by
  intro l
  induction l with
  | nil => intro k d _; simp
  | cons x l ih =>
    intro k d hn
    rw [List.nodup_cons] at hn
    rw [List.zipIdx_cons, List.foldl_cons, ih _ _ hn.2]
    by_cases hx : v = x
    · subst hx; simp [hn.1]
    · have : x ≠ v := fun h => hx h.symm
      by_cases hv : v ∈ l
      · simp [hv, List.idxOf_cons_ne _ this]; omega
      · simp [hv, hx]

theorem node2ix_spec {l : List α} (hl : l.Nodup) (v : α) :
    node2ix l v = if v ∈ l then some (l.idxOf v) else none := by
  unfold node2ix
  rw [node2ix_from v l 0 _ hl]
  simp

theorem ixOf_ok {l : List α} (hl : l.Nodup) {v : α} (hv : v ∈ l) : ixOf l v = .ok (l.idxOf v) := by
  unfold ixOf; rw [node2ix_spec hl, if_pos hv]

theorem ixOf_error {l : List α} (hl : l.Nodup) {v : α} (hv : v ∉ l) : ixOf l v = .error .key := by
  unfold ixOf; rw [node2ix_spec hl, if_neg hv]

theorem getElem?_iff {l : List α} (hl : l.Nodup) (a : ℕ) (v : α) : l[a]? = some v ↔ v ∈ l ∧ a = l.idxOf v := by
  constructor
  · intro h
    obtain ⟨ha, hv⟩ := List.getElem?_eq_some_iff.1 h
    subst hv
    exact ⟨List.getElem_mem _, (hl.idxOf_getElem a ha).symm⟩
  · rintro ⟨hv, rfl⟩
    rw [List.getElem?_eq_getElem (List.idxOf_lt_length_iff.2 hv), List.getElem_idxOf]

/-- The matrix with one entry set to 1. -/
def Amat.put (i j : ℕ) (A : Amat) : Amat := ⟨A.n, fun a b => if a = i ∧ b = j then 1 else A.entry a b⟩

theorem setOnes_spec {l : List α} (hl : l.Nodup) : ∀ (ps : List (α × α)) (A : Amat), l.length ≤ A.n →
    (∀ p ∈ ps, p.1 ∈ l ∧ p.2 ∈ l) →
    ∃ B, setOnes l ps A = .ok B ∧ B.n = A.n ∧ ∀ a b, B.entry a b = 
      open Classical in if ∃ p ∈ ps, l[a]? = some p.1 ∧ l[b]? = some p.2 then 1 else A.entry a b := by
  intro ps
  induction ps with
  | nil => intro A _ _; exact ⟨A, rfl, rfl, by simp⟩
  | cons p ps ih =>
    intro A hA h
    obtain ⟨h1, h2⟩ := h p (by simp)
    have hi := List.idxOf_lt_length_iff.2 h1
    have hj := List.idxOf_lt_length_iff.2 h2
    unfold setOnes
    rw [ixOf_ok hl h1, ixOf_ok hl h2]
    have hset : A.set (α := α) (l.idxOf p.1) (l.idxOf p.2) 1 = .ok (A.put (l.idxOf p.1) (l.idxOf p.2)) := by
      unfold Amat.set; rw [if_pos ⟨by omega, by omega⟩]; rfl
    simp only [Except.bind, hset]
    obtain ⟨B, b1, b2, b3⟩ := ih (A.put (l.idxOf p.1) (l.idxOf p.2)) hA (fun q hq => h q (by simp [hq]))
    refine ⟨B, b1, b2, fun a b => ?_⟩
    rw [b3]
    by_cases hps : ∃ q ∈ ps, l[a]? = some q.1 ∧ l[b]? = some q.2
    · rw [if_pos hps, if_pos]
      obtain ⟨q, hq, hq'⟩ := hps
      exact ⟨q, by simp [hq], hq'⟩
    · rw [if_neg hps]
      dsimp only [Amat.put]
      by_cases hp : a = l.idxOf p.1 ∧ b = l.idxOf p.2
      · rw [if_pos hp, if_pos]
        exact ⟨p, by simp, (getElem?_iff hl _ _).2 ⟨h1, hp.1⟩, (getElem?_iff hl _ _).2 ⟨h2, hp.2⟩⟩
      · rw [if_neg hp, if_neg]
        rintro ⟨q, hq, hq1, hq2⟩
        rcases List.mem_cons.1 hq with rfl | hq
        · exact hp ⟨((getElem?_iff hl _ _).1 hq1).2, ((getElem?_iff hl _ _).1 hq2).2⟩
        · exact hps ⟨q, hq, hq1, hq2⟩

/-- A missing label raises `KeyError`. -/
theorem setOnes_error {l : List α} (hl : l.Nodup) : ∀ (ps : List (α × α)) (A : Amat), l.length ≤ A.n →
    (∃ p ∈ ps, p.1 ∉ l ∨ p.2 ∉ l) → setOnes l ps A = .error .key := by
  intro ps
  induction ps with
  | nil => rintro A _ ⟨p, hp, _⟩; simp at hp
  | cons p ps ih =>
    intro A hA h
    unfold setOnes
    by_cases h1 : p.1 ∈ l
    · rw [ixOf_ok hl h1]
      by_cases h2 : p.2 ∈ l
      · rw [ixOf_ok hl h2]
        have hi := List.idxOf_lt_length_iff.2 h1
        have hj := List.idxOf_lt_length_iff.2 h2
        have hset : A.set (α := α) (l.idxOf p.1) (l.idxOf p.2) 1 = .ok (A.put (l.idxOf p.1) (l.idxOf p.2)) := by
          unfold Amat.set; rw [if_pos ⟨by omega, by omega⟩]; rfl
        simp only [Except.bind, hset]
        refine ih _ hA ?_
        obtain ⟨q, hq, hq'⟩ := h
        rcases List.mem_cons.1 hq with rfl | hq
        · rcases hq' with h | h <;> contradiction
        · exact ⟨q, hq, hq'⟩
      · rw [ixOf_error hl h2]; rfl
    · rw [ixOf_error hl h1]; rfl

theorem DAG.toAmat_spec [LinearOrder α] {G : DAG α} (hm : ∀ i j, (i, j) ∈ G.arcs → i ∈ G.nodes ∧ j ∈ G.nodes)
    (o : SetOrder Unit (α × α)) (nodeList : Option (List α)) (l : List α)
    (hl : l = orSorted G.nodes nodeList)
    (hn : l.Nodup) (hs : ∀ v, v ∈ l ↔ v ∈ G.nodes) :
    ∃ A, G.toAmat o nodeList = .ok (A, l) ∧ A.n = G.nodes.card ∧ l.length = G.nodes.card ∧
      ∀ a b i j, l[a]? = some i → l[b]? = some j → A.entry a b = if (i, j) ∈ G.arcs then 1 else 0 := by
  have hlen : l.length = G.nodes.card := by
    rw [← List.toFinset_card_of_nodup hn]
    congr 1; ext v; rw [List.mem_toFinset, hs]
  obtain ⟨B, b1, b2, b3⟩ := setOnes_spec hn (o.ord () G.arcs) (.zeros G.nodes.card) hlen.le (by
    intro p hp
    rw [o.mem_iff] at hp
    rw [hs, hs]; exact hm p.1 p.2 hp)
  refine ⟨B, ?_, b2, hlen, ?_⟩
  · unfold toAmat
    dsimp only
    rw [← hl, b1]
    rfl
  · intro a b i j hi hj
    rw [b3]
    have : (∃ p ∈ o.ord () G.arcs, l[a]? = some p.1 ∧ l[b]? = some p.2) ↔ (i, j) ∈ G.arcs := by
      rw [hi, hj]
      constructor
      · rintro ⟨⟨x, y⟩, hp, h1, h2⟩
        simp only [Option.some.injEq] at h1 h2
        subst h1 h2
        exact (o.mem_iff _ _ _).1 hp
      · intro h
        exact ⟨(i, j), (o.mem_iff _ _ _).2 h, rfl, rfl⟩
    simp only [this]
    rfl

theorem DAG.toAmat_error [LinearOrder α] {G : DAG α} (o : SetOrder Unit (α × α)) (x : α) (l : List α)
    (hn : (x :: l).Nodup) (hlen : (x :: l).length ≤ G.nodes.card)
    (h : ∃ i j, (i, j) ∈ G.arcs ∧ (i ∉ x :: l ∨ j ∉ x :: l)) :
    G.toAmat o (some (x :: l)) = .error .key := by
  obtain ⟨i, j, h1, h2⟩ := h
  have := setOnes_error hn (o.ord () G.arcs) (.zeros G.nodes.card) hlen ⟨(i, j), (o.mem_iff _ _ _).2 h1, h2⟩
  unfold toAmat orSorted
  dsimp only
  rw [this]
  rfl

theorem sort_range (n : ℕ) : (Finset.range n).sort (· ≤ ·) = List.range n := by
  refine List.Perm.eq_of_pairwise' (r := (· ≤ ·)) (Finset.pairwise_sort _ _) ?_ ?_
  · exact List.pairwise_le_range
  · refine (List.perm_ext_iff_of_nodup (Finset.sort_nodup _ _) List.nodup_range).2 fun a => ?_
    simp

theorem DAG.fromAmat_spec (o : SetOrder (Option ℕ) ℕ) (oa : SetOrder Bool (ℕ × ℕ)) (A : Amat)
    (h : Spec.Acyclic fun a b => a < A.n ∧ b < A.n ∧ a ≠ b ∧ A.entry a b ≠ 0) :
    ∃ G, fromAmat o oa A = some (G, none) ∧ G.Valid ∧ G.nodes = Finset.range A.n ∧
      ∀ a b, (a, b) ∈ G.arcs ↔ a < A.n ∧ b < A.n ∧ a ≠ b ∧ A.entry a b ≠ 0 := by
  have hmem : ∀ a b, (a, b) ∈ ((Finset.range A.n).offDiag.filter fun a => A.entry a.1 a.2 ≠ 0) ↔
      a < A.n ∧ b < A.n ∧ a ≠ b ∧ A.entry a b ≠ 0 := by
    intro a b
    rw [Finset.mem_filter, Finset.mem_offDiag, Finset.mem_range, Finset.mem_range]
    tauto
  obtain ⟨G, h1, h2, h3, h4⟩ := new_ok o oa (Finset.range A.n)
    ((Finset.range A.n).offDiag.filter fun a => A.entry a.1 a.2 ≠ 0) (by simpa only [hmem] using h)
  refine ⟨G, h1, h2, ?_, fun a b => by rw [h3, hmem]⟩
  rw [h4]
  ext v
  simp only [Finset.mem_union, Finset.mem_image, Prod.exists, exists_and_right, exists_eq_right]
  constructor
  · rintro ((h | ⟨b, h⟩) | ⟨b, h⟩)
    · exact h
    · exact Finset.mem_range.2 ((hmem _ _).1 h).1
    · exact Finset.mem_range.2 ((hmem _ _).1 h).2.1
  · exact fun h => Or.inl (Or.inl h)

namespace PDAG

theorem setBoth_spec {l : List α} (hl : l.Nodup) : ∀ (ps : List (α × α)) (A : Amat), l.length ≤ A.n →
    (∀ p ∈ ps, p.1 ∈ l ∧ p.2 ∈ l) →
    ∃ B, setBoth l ps A = .ok B ∧ B.n = A.n ∧ ∀ a b, B.entry a b =
      open Classical in if ∃ p ∈ ps, (l[a]? = some p.1 ∧ l[b]? = some p.2) ∨ (l[a]? = some p.2 ∧ l[b]? = some p.1)
        then 1 else A.entry a b := by
  intro ps
  induction ps with
  | nil => intro A _ _; exact ⟨A, rfl, rfl, by simp⟩
  | cons p ps ih =>
    intro A hA h
    obtain ⟨h1, h2⟩ := h p (by simp)
    obtain ⟨C, c1, c2, c3⟩ := setOnes_spec hl [(p.1, p.2), (p.2, p.1)] A hA (by simp [h1, h2])
    obtain ⟨B, b1, b2, b3⟩ := ih C (by omega) (fun q hq => h q (by simp [hq]))
    refine ⟨B, ?_, by omega, fun a b => ?_⟩
    · unfold setBoth; rw [c1]; exact b1
    · rw [b3, c3]
      have e1 : (∃ q ∈ [(p.1, p.2), (p.2, p.1)], l[a]? = some q.1 ∧ l[b]? = some q.2) ↔
          (l[a]? = some p.1 ∧ l[b]? = some p.2) ∨ (l[a]? = some p.2 ∧ l[b]? = some p.1) := by
        simp only [List.mem_cons, List.not_mem_nil, or_false, exists_eq_or_imp, exists_eq_left]
      simp only [e1]
      simp only [List.mem_cons, exists_eq_or_imp]
      by_cases hq : ∃ q ∈ ps, (l[a]? = some q.1 ∧ l[b]? = some q.2) ∨ (l[a]? = some q.2 ∧ l[b]? = some q.1)
      · rw [if_pos hq, if_pos (Or.inr hq)]
      · rw [if_neg hq]
        by_cases hp : (l[a]? = some p.1 ∧ l[b]? = some p.2) ∨ (l[a]? = some p.2 ∧ l[b]? = some p.1)
        · rw [if_pos hp, if_pos (Or.inl hp)]
        · rw [if_neg hp, if_neg (not_or.2 ⟨hp, hq⟩)]

theorem toAmat_spec [LinearOrder α] {P : PDAG α} (hP : P.Consistent)
    (oa : SetOrder Unit (α × α)) (oe : SetOrder Unit (Finset α)) (up : Unpack α)
    (nodeList : Option (List α)) (axis0 : Bool) (l : List α) (hl : l = nodeList.getD (P.nodes.sort (· ≤ ·)))
    (hn : l.Nodup) (hs : ∀ v, v ∈ l ↔ v ∈ P.nodes) :
    ∃ A, P.toAmat oa oe up nodeList axis0 = .ok (A, l) ∧ A.n = P.nodes.card ∧ l.length = P.nodes.card ∧
      ∀ a b i j, l[a]? = some i → l[b]? = some j → A.entry a b =
        if {i, j} ∈ P.edges ∨ (if axis0 then (i, j) ∈ P.arcs else (j, i) ∈ P.arcs) then 1 else 0 := by
  have hlen : l.length = P.nodes.card := by
    rw [← List.toFinset_card_of_nodup hn]
    congr 1; ext v; rw [List.mem_toFinset, hs]
  obtain ⟨B, b1, b2, b3⟩ := setOnes_spec hn ((oa.ord () P.arcs).map fun a => if axis0 then (a.1, a.2) else (a.2, a.1))
    (.zeros P.nodes.card) hlen.le (by
      intro p hp
      obtain ⟨⟨i, j⟩, hq, rfl⟩ := List.mem_map.1 hp
      rw [oa.mem_iff] at hq
      have := hP.arc_mem i j hq
      cases axis0 <;> simp [hs, this])
  have hpair : ∀ p ∈ (oe.ord () P.edges).map up.fn, p.1 ≠ p.2 ∧ {p.1, p.2} ∈ P.edges := by
    intro p hp
    obtain ⟨e, he, rfl⟩ := List.mem_map.1 hp
    rw [oe.mem_iff] at he
    obtain ⟨i, j, hij, rfl⟩ := hP.edge_pair e he
    rcases up.spec i j hij with h | h <;> rw [h]
    · exact ⟨hij, he⟩
    · exact ⟨hij.symm, by rwa [Finset.pair_comm]⟩
  obtain ⟨C, c1, c2, c3⟩ := setBoth_spec hn ((oe.ord () P.edges).map up.fn) B
    (by rw [b2]; exact hlen.le) (by
      intro p hp
      rw [hs, hs]
      have := hP.edge_mem _ (hpair p hp).2
      exact ⟨this (by simp), this (by simp)⟩)
  refine ⟨C, ?_, c2.trans b2, hlen, ?_⟩
  · unfold toAmat
    simp only [← hl, b1, c1, Except.bind]
    rfl
  · intro a b i j hi hj
    rw [c3, b3]
    have hE : (∃ p ∈ (oe.ord () P.edges).map up.fn,
        (l[a]? = some p.1 ∧ l[b]? = some p.2) ∨ (l[a]? = some p.2 ∧ l[b]? = some p.1)) ↔ {i, j} ∈ P.edges := by
      rw [hi, hj]
      simp only [Option.some.injEq]
      constructor
      · rintro ⟨p, hp, ⟨rfl, rfl⟩ | ⟨rfl, rfl⟩⟩
        · exact (hpair p hp).2
        · rw [Finset.pair_comm]; exact (hpair p hp).2
      · intro h
        have hij : i ≠ j := by
          rintro rfl
          obtain ⟨x, y, hxy, he⟩ := hP.edge_pair _ h
          have := congrArg Finset.card he
          rw [Finset.card_pair hxy] at this
          simp at this
        refine ⟨up.fn {i, j}, List.mem_map.2 ⟨_, (oe.mem_iff _ _ _).2 h, rfl⟩, ?_⟩
        rcases up.spec i j hij with h | h <;> rw [h] <;> simp
    have hA : (∃ p ∈ (oa.ord () P.arcs).map fun a => if axis0 then (a.1, a.2) else (a.2, a.1),
        l[a]? = some p.1 ∧ l[b]? = some p.2) ↔ (if axis0 then (i, j) ∈ P.arcs else (j, i) ∈ P.arcs) := by
      rw [hi, hj]
      simp only [Option.some.injEq, List.mem_map, oa.mem_iff, Prod.exists]
      constructor
      · rintro ⟨x, y, ⟨x', y', h, he⟩, rfl, rfl⟩
        cases axis0 <;> simp_all
      · intro h
        cases axis0
        · exact ⟨i, j, ⟨j, i, by simpa using h, rfl⟩, rfl, rfl⟩
        · exact ⟨i, j, ⟨i, j, by simpa using h, rfl⟩, rfl, rfl⟩
    simp only [hE, hA]
    by_cases h1 : {i, j} ∈ P.edges
    · simp [h1]
    · simp only [h1, if_false, false_or]
      rfl

theorem mem_triu {n i j : ℕ} : (i, j) ∈ triu n ↔ i < j ∧ j < n := by
  unfold triu
  simp only [Finset.mem_filter, Finset.mem_product, Finset.mem_range]
  omega

/-- What is read from the matrix with `source_axis=0`. -/
theorem fromAmat_spec (oa oe : SetOrder Unit (ℕ × ℕ)) (A : Amat) :
    (fromAmat oa oe A true).Consistent ∧ (fromAmat oa oe A true).nodes = Finset.range A.n ∧
    (∀ i j, (i, j) ∈ (fromAmat oa oe A true).arcs ↔ i < A.n ∧ j < A.n ∧ i ≠ j ∧ A.entry i j ≠ 0 ∧ A.entry j i = 0) ∧
    ∀ i j, {i, j} ∈ (fromAmat oa oe A true).edges ↔ i < A.n ∧ j < A.n ∧ i ≠ j ∧ A.entry i j ≠ 0 ∧ A.entry j i ≠ 0 := by
  unfold fromAmat
  simp only [↓reduceIte]
  obtain ⟨h1, h2, h3, _, h5⟩ := new_spec oa oe (Finset.range A.n)
    (((triu A.n).filter fun a => A.entry a.1 a.2 ≠ 0 ∧ A.entry a.2 a.1 = 0).image
        (fun a => (a.1, a.2)) ∪ ((triu A.n).filter fun a => A.entry a.1 a.2 = 0 ∧ A.entry a.2 a.1 ≠ 0).image fun a => (a.2, a.1))
    ((triu A.n).filter fun a => A.entry a.1 a.2 ≠ 0 ∧ A.entry a.2 a.1 ≠ 0) ∅ (by
      rintro ⟨i, j⟩ h
      have := mem_triu.1 (Finset.mem_filter.1 h).1
      exact this.1.ne)
  have harc : ∀ i j, (i, j) ∈ ((triu A.n).filter fun a => A.entry a.1 a.2 ≠ 0 ∧ A.entry a.2 a.1 = 0).image
        (fun a => (a.1, a.2)) ∪ ((triu A.n).filter fun a => A.entry a.1 a.2 = 0 ∧ A.entry a.2 a.1 ≠ 0).image (fun a => (a.2, a.1)) ↔
      i < A.n ∧ j < A.n ∧ i ≠ j ∧ A.entry i j ≠ 0 ∧ A.entry j i = 0 := by
    intro i j
    simp only [Finset.mem_union, Finset.mem_image, Finset.mem_filter, Prod.exists, Prod.mk.injEq, mem_triu]
    constructor
    · rintro (⟨a, b, ⟨⟨k1, k2⟩, k3, k4⟩, rfl, rfl⟩ | ⟨a, b, ⟨⟨k1, k2⟩, k3, k4⟩, rfl, rfl⟩)
      · exact ⟨by omega, k2, by omega, k3, k4⟩
      · exact ⟨k2, by omega, by omega, k4, k3⟩
    · rintro ⟨k1, k2, k3, k4, k5⟩
      rcases Nat.lt_or_gt_of_ne k3 with h | h
      · exact Or.inl ⟨i, j, ⟨⟨h, k2⟩, k4, k5⟩, rfl, rfl⟩
      · exact Or.inr ⟨j, i, ⟨⟨h, k1⟩, k5, k4⟩, rfl, rfl⟩
  refine ⟨h1, ?_, ?_, ?_⟩
  · ext v
    rw [h5, Finset.mem_range]
    constructor
    · rintro (h | ⟨⟨i, j⟩, h, h'⟩ | ⟨⟨i, j⟩, h, h'⟩)
      · exact h
      · have := (harc i j).1 h
        rcases h' with rfl | rfl
        · exact this.1
        · exact this.2.1
      · have := mem_triu.1 (Finset.mem_filter.1 h).1
        rcases h' with rfl | rfl <;> omega
    · exact Or.inl
  · intro i j
    rw [h2, harc]
  · intro i j
    rw [h3]
    simp only [Finset.mem_image, Finset.mem_filter, Prod.exists, mem_triu]
    constructor
    · rintro ⟨a, b, ⟨⟨k1, k2⟩, k3, k4⟩, he⟩
      rcases UG.pair_eq.1 he with ⟨rfl, rfl⟩ | ⟨rfl, rfl⟩
      · exact ⟨by omega, k2, by omega, k3, k4⟩
      · exact ⟨k2, by omega, by omega, k4, k3⟩
    · rintro ⟨k1, k2, k3, k4, k5⟩
      rcases Nat.lt_or_gt_of_ne k3 with h | h
      · exact ⟨i, j, ⟨⟨h, k2⟩, k4, k5⟩, rfl⟩
      · exact ⟨j, i, ⟨⟨h, k1⟩, k5, k4⟩, Finset.pair_comm _ _⟩

/-- What is read from a labelled matrix, for either axis. -/
theorem fromDf_spec [Inhabited α] (oa oe : SetOrder Unit (α × α)) (A : Amat) (index : List α) (hn : index.Nodup)
    (hlen : index.length = A.n) (axis0 : Bool) (e : ℕ → ℕ → ℤ)
    (he : e = if axis0 then A.entry else fun a b => A.entry b a) :
    (fromDf oa oe A index axis0).Consistent ∧ (∀ v, v ∈ (fromDf oa oe A index axis0).nodes ↔ v ∈ index) ∧
    ∀ a b i j, index[a]? = some i → index[b]? = some j →
      ((i, j) ∈ (fromDf oa oe A index axis0).arcs ↔ a ≠ b ∧ e a b ≠ 0 ∧ e b a = 0) ∧
      ({i, j} ∈ (fromDf oa oe A index axis0).edges ↔ a ≠ b ∧ e a b ≠ 0 ∧ e b a ≠ 0) := by
  set name : ℕ → α := fun i => (index[i]?).getD default with hname
  set both := (triu A.n).filter fun a => A.entry a.1 a.2 ≠ 0 ∧ A.entry a.2 a.1 ≠ 0 with hboth
  set arcs := ((triu A.n).filter fun a => A.entry a.1 a.2 ≠ 0 ∧ A.entry a.2 a.1 = 0).image
        (fun a => if axis0 then (a.1, a.2) else (a.2, a.1)) ∪
      ((triu A.n).filter fun a => A.entry a.1 a.2 = 0 ∧ A.entry a.2 a.1 ≠ 0).image
        fun a => if axis0 then (a.2, a.1) else (a.1, a.2) with harcs
  have hnm : ∀ {a i}, index[a]? = some i → name a = i := by
    intro a i h; simp [hname, h]
  have hlt : ∀ {a i}, index[a]? = some i → a < A.n := by
    intro a i h
    rw [← hlen]
    exact (List.getElem?_eq_some_iff.1 h).1
  have hinj : ∀ {a b}, a < A.n → b < A.n → name a = name b → a = b := by
    intro a b ha hb h
    rw [← hlen] at ha hb
    simp only [hname, List.getElem?_eq_getElem ha, List.getElem?_eq_getElem hb, Option.getD_some] at h
    exact (hn.getElem_inj_iff).1 h
  have hin : ∀ {a}, a < A.n → name a ∈ index := by
    intro a ha
    rw [← hlen] at ha
    simp only [hname, List.getElem?_eq_getElem ha, Option.getD_some]
    exact List.getElem_mem _
  have hA : ∀ a b, (a, b) ∈ arcs ↔ a < A.n ∧ b < A.n ∧ a ≠ b ∧ e a b ≠ 0 ∧ e b a = 0 := by
    intro a b
    rw [harcs, he]
    simp only [Finset.mem_union, Finset.mem_image, Finset.mem_filter, Prod.exists, mem_triu]
    cases axis0
    · simp only [Bool.false_eq_true, if_false, Prod.mk.injEq]
      constructor
      · rintro (⟨x, y, ⟨⟨k1, k2⟩, k3, k4⟩, rfl, rfl⟩ | ⟨x, y, ⟨⟨k1, k2⟩, k3, k4⟩, rfl, rfl⟩)
        · exact ⟨k2, by omega, by omega, k3, k4⟩
        · exact ⟨by omega, k2, by omega, k4, k3⟩
      · rintro ⟨k1, k2, k3, k4, k5⟩
        rcases Nat.lt_or_gt_of_ne k3 with h | h
        · exact Or.inr ⟨a, b, ⟨⟨h, k2⟩, k5, k4⟩, rfl, rfl⟩
        · exact Or.inl ⟨b, a, ⟨⟨h, k1⟩, k4, k5⟩, rfl, rfl⟩
    · simp only [if_true, Prod.mk.injEq]
      constructor
      · rintro (⟨x, y, ⟨⟨k1, k2⟩, k3, k4⟩, rfl, rfl⟩ | ⟨x, y, ⟨⟨k1, k2⟩, k3, k4⟩, rfl, rfl⟩)
        · exact ⟨by omega, k2, by omega, k3, k4⟩
        · exact ⟨k2, by omega, by omega, k4, k3⟩
      · rintro ⟨k1, k2, k3, k4, k5⟩
        rcases Nat.lt_or_gt_of_ne k3 with h | h
        · exact Or.inl ⟨a, b, ⟨⟨h, k2⟩, k4, k5⟩, rfl, rfl⟩
        · exact Or.inr ⟨b, a, ⟨⟨h, k1⟩, k5, k4⟩, rfl, rfl⟩
  have hB : ∀ a b, (a, b) ∈ both ↔ a < b ∧ b < A.n ∧ e a b ≠ 0 ∧ e b a ≠ 0 := by
    intro a b
    rw [hboth, he, Finset.mem_filter, mem_triu]
    cases axis0 <;> simp <;> tauto
  obtain ⟨h1, h2, h3, _, h5⟩ := new_spec oa oe index.toFinset (arcs.image fun a => (name a.1, name a.2))
    (both.image fun a => (name a.1, name a.2)) ∅ (by
      intro p hp
      obtain ⟨⟨a, b⟩, hab, rfl⟩ := Finset.mem_image.1 hp
      have := (hB a b).1 hab
      intro h
      have := hinj (by omega) (by omega) h
      omega)
  change (fromDf oa oe A index axis0).Consistent at h1
  change (fromDf oa oe A index axis0).arcs = _ at h2
  change (fromDf oa oe A index axis0).edges = _ at h3
  refine ⟨h1, fun v => ?_, ?_⟩
  · refine (h5 v).trans ?_
    rw [List.mem_toFinset]
    refine ⟨?_, Or.inl⟩
    rintro (h | ⟨p, hp, h⟩ | ⟨p, hp, h⟩)
    · exact h
    · obtain ⟨⟨a, b⟩, hab, rfl⟩ := Finset.mem_image.1 hp
      have := (hA a b).1 hab
      rcases h with rfl | rfl
      · exact hin this.1
      · exact hin this.2.1
    · obtain ⟨⟨a, b⟩, hab, rfl⟩ := Finset.mem_image.1 hp
      have := (hB a b).1 hab
      rcases h with rfl | rfl
      · exact hin (by omega)
      · exact hin (by omega)
  · intro a b i j hi hj
    have ha := hlt hi
    have hb := hlt hj
    have hia := hnm hi
    have hjb := hnm hj
    constructor
    · rw [h2, Finset.mem_image]
      constructor
      · rintro ⟨⟨x, y⟩, hxy, hp⟩
        have hxy' := (hA x y).1 hxy
        simp only [Prod.mk.injEq] at hp
        obtain rfl := hinj hxy'.1 ha (hp.1.trans hia.symm)
        obtain rfl := hinj hxy'.2.1 hb (hp.2.trans hjb.symm)
        exact hxy'.2.2
      · intro h
        exact ⟨(a, b), (hA a b).2 ⟨ha, hb, h⟩, by simp only [hia, hjb]⟩
    · rw [h3, Finset.mem_image]
      constructor
      · rintro ⟨p, hp, hpe⟩
        obtain ⟨⟨x, y⟩, hxy, rfl⟩ := Finset.mem_image.1 hp
        obtain ⟨k1, k2, k3, k4⟩ := (hB x y).1 hxy
        rcases UG.pair_eq.1 hpe with ⟨g1, g2⟩ | ⟨g1, g2⟩
        · obtain rfl := hinj (by omega) ha (g1.trans hia.symm)
          obtain rfl := hinj (by omega) hb (g2.trans hjb.symm)
          exact ⟨by omega, k3, k4⟩
        · obtain rfl := hinj (by omega) hb (g1.trans hjb.symm)
          obtain rfl := hinj (by omega) ha (g2.trans hia.symm)
          exact ⟨by omega, k4, k3⟩
      · rintro ⟨k1, k2, k3⟩
        rcases Nat.lt_or_gt_of_ne k1 with h | h
        · exact ⟨(i, j), Finset.mem_image.2 ⟨(a, b), (hB a b).2 ⟨h, hb, k2, k3⟩, by simp only [hia, hjb]⟩, rfl⟩
        · exact ⟨(j, i), Finset.mem_image.2 ⟨(b, a), (hB b a).2 ⟨h, ha, k3, k2⟩, by simp only [hia, hjb]⟩,
            Finset.pair_comm _ _⟩

end PDAG

end Model
