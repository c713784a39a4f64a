import Verif.Spec.Metric
import Verif.Spec.PViews
import Verif.Spec.Views
import Verif.Model.Queries
import Verif.Model.PDAGCompare
import Verif.Proof.PDAG
import Verif.Proof.Complete
import Verif.Proof.Mutators

/-! # Structural Hamming distances -/

namespace Spec

universe u
variable {α : Type u} [DecidableEq α]

theorem pairsOf_mono {R R' : α → α → Prop} (h : ∀ i j, R i j → R' i j) : pairsOf R ⊆ pairsOf R' := by
  rintro s ⟨i, j, hij, rfl, hr⟩; exact ⟨i, j, hij, rfl, h i j hr⟩

theorem pairsOf_or (R R' : α → α → Prop) : pairsOf (fun i j => R i j ∨ R' i j) = pairsOf R ∪ pairsOf R' := by
  ext s
  constructor
  · rintro ⟨i, j, hij, rfl, hr | hr⟩
    · exact Or.inl ⟨i, j, hij, rfl, hr⟩
    · exact Or.inr ⟨i, j, hij, rfl, hr⟩
  · rintro (⟨i, j, hij, rfl, hr⟩ | ⟨i, j, hij, rfl, hr⟩)
    · exact ⟨i, j, hij, rfl, Or.inl hr⟩
    · exact ⟨i, j, hij, rfl, Or.inr hr⟩

/-- A pair belongs to `pairsOf R` iff it is related, for symmetric `R`. -/
theorem mem_pairsOf {R : α → α → Prop} (hR : ∀ i j, R i j → R j i) {i j : α} (hij : i ≠ j) :
    {i, j} ∈ pairsOf R ↔ R i j := by
  constructor
  · rintro ⟨a, b, _, h, hr⟩
    rcases Model.PDAG.pair_eq_iff.1 h with ⟨rfl, rfl⟩ | ⟨rfl, rfl⟩
    · exact hr
    · exact hR _ _ hr
  · intro h; exact ⟨i, j, hij, rfl, h⟩

omit [DecidableEq α] in
theorem Differ.symm {A U A' U' : α → α → Prop} (hU : ∀ i j, U i j → U j i) (hU' : ∀ i j, U' i j → U' j i) (i j : α)
    (h : Differ A U A' U' i j) : Differ A U A' U' j i := by
  have h1 : U i j ↔ U j i := ⟨hU i j, hU j i⟩
  have h2 : U' i j ↔ U' j i := ⟨hU' i j, hU' j i⟩
  unfold Differ at *
  rw [h1, h2] at h
  tauto

theorem ncard_triangle {R S T : α → α → Prop} (hS : (pairsOf S).Finite) (hT : (pairsOf T).Finite)
    (h : ∀ i j, R i j → S i j ∨ T i j) : (pairsOf R).ncard ≤ (pairsOf S).ncard + (pairsOf T).ncard := by
  refine (Set.ncard_le_ncard (pairsOf_mono h) ?_).trans ?_
  · rw [pairsOf_or]; exact hS.union hT
  · rw [pairsOf_or]; exact Set.ncard_union_le _ _

theorem eq_of_ncard_zero {R : α → α → Prop} (hf : (pairsOf R).Finite) :
    (pairsOf R).ncard = 0 ↔ ∀ i j, i ≠ j → ¬ R i j := by
  rw [Set.ncard_eq_zero hf, Set.eq_empty_iff_forall_notMem]
  constructor
  · intro h i j hij hr; exact h {i, j} ⟨i, j, hij, rfl, hr⟩
  · rintro h s ⟨i, j, hij, rfl, hr⟩; exact h i j hij hr

end Spec

namespace Model.DAG

open Spec
universe u
variable {α : Type u} [DecidableEq α] {G H : DAG α}

/-- No undirected edges. -/
abbrev noEdge (_ _ : α) : Prop := False

omit [DecidableEq α] in
theorem differ_iff {E F : α → α → Prop} {i j : α} (h1 : E i j → ¬ E j i) (h2 : F i j → ¬ F j i) :
    Differ E noEdge F noEdge i j ↔
      ((F i j ∧ ¬ E i j ∧ ¬ E j i) ∨ (E i j ∧ ¬ F i j ∧ ¬ F j i) ∨ (E i j ∧ F j i)) ∨
      ((F j i ∧ ¬ E j i ∧ ¬ E i j) ∨ (E j i ∧ ¬ F j i ∧ ¬ F i j) ∨ (E j i ∧ F i j)) := by
  unfold Differ
  generalize E i j = a at *; generalize E j i = b at *; generalize F i j = c at *; generalize F j i = d at *
  by_cases a <;> by_cases b <;> by_cases c <;> by_cases d <;> simp_all

theorem shd_spec (hG : G.Valid) (hH : H.Valid) :
    (pairsOf (Differ G.E noEdge H.E noEdge)).Finite ∧
      shd G H = (pairsOf (Differ G.E noEdge H.E noEdge)).ncard := by
  have aG : ∀ {i j}, G.E i j → ¬ G.E j i := fun h => hG.acyclic.asymm h
  have aH : ∀ {i j}, H.E i j → ¬ H.E j i := fun h => hH.acyclic.asymm h
  have iG : ∀ {i}, ¬ G.E i i := hG.acyclic.irrefl
  have iH : ∀ {i}, ¬ H.E i i := hH.acyclic.irrefl
  set X := (H.arcs \ G.arcs) \ G.arcs.image Prod.swap with hX
  set Y := (G.arcs \ H.arcs) \ H.arcs.image Prod.swap with hY
  set Z := G.arcs ∩ H.arcs.image Prod.swap with hZ
  have mX : ∀ i j, (i, j) ∈ X ↔ H.E i j ∧ ¬ G.E i j ∧ ¬ G.E j i := by
    intro i j; simp [hX, E, and_assoc]
  have mY : ∀ i j, (i, j) ∈ Y ↔ G.E i j ∧ ¬ H.E i j ∧ ¬ H.E j i := by
    intro i j; simp [hY, E, and_assoc]
  have mZ : ∀ i j, (i, j) ∈ Z ↔ G.E i j ∧ H.E j i := by
    intro i j; simp [hZ, E]
  have hXY : Disjoint X Y := by
    rw [Finset.disjoint_left]; rintro ⟨i, j⟩ h1 h2
    exact ((mX i j).1 h1).2.1 ((mY i j).1 h2).1
  have hXYZ : Disjoint (X ∪ Y) Z := by
    rw [Finset.disjoint_left]; rintro ⟨i, j⟩ h1 h2
    have h2 := (mZ i j).1 h2
    rcases Finset.mem_union.1 h1 with h1 | h1
    · exact ((mX i j).1 h1).2.1 h2.1
    · exact ((mY i j).1 h1).2.2 h2.2
  have hmem : ∀ i j, (i, j) ∈ X ∪ Y ∪ Z ↔ (H.E i j ∧ ¬ G.E i j ∧ ¬ G.E j i) ∨ (G.E i j ∧ ¬ H.E i j ∧ ¬ H.E j i) ∨
      (G.E i j ∧ H.E j i) := by
    intro i j; rw [Finset.mem_union, Finset.mem_union, mX, mY, mZ, or_assoc]
  have hinj : Set.InjOn (fun a : α × α => ({a.1, a.2} : Finset α)) ↑(X ∪ Y ∪ Z) := by
    rintro ⟨i, j⟩ h1 ⟨k, l⟩ h2 h3
    rw [Finset.mem_coe, hmem] at h1 h2
    rcases Model.PDAG.pair_eq_iff.1 h3 with ⟨h4, h5⟩ | ⟨h4, h5⟩
    · exact Prod.ext h4 h5
    · simp only at h4 h5
      subst h4 h5
      exfalso
      have a1 := @aG i j; have a3 := @aH i j
      clear h3 hXYZ hXY mX mY mZ hmem hX hY hZ aG aH iG iH
      generalize G.E i j = a at *; generalize G.E j i = b at *; generalize H.E i j = c at *
      generalize H.E j i = d at *
      by_cases a <;> by_cases b <;> by_cases c <;> by_cases d <;> simp_all
  have hset : pairsOf (Differ G.E noEdge H.E noEdge) =
      ↑((X ∪ Y ∪ Z).image fun a : α × α => ({a.1, a.2} : Finset α)) := by
    ext s
    rw [Finset.mem_coe, Finset.mem_image]
    constructor
    · rintro ⟨i, j, hij, rfl, hd⟩
      rcases (differ_iff aG aH).1 hd with h1 | h1
      · exact ⟨(i, j), (hmem i j).2 h1, rfl⟩
      · exact ⟨(j, i), (hmem j i).2 h1, Finset.pair_comm _ _⟩
    · rintro ⟨⟨i, j⟩, h1, rfl⟩
      rw [hmem] at h1
      have hij : i ≠ j := by
        rintro rfl
        rcases h1 with h1 | h1 | h1
        · exact iH h1.1
        · exact iG h1.1
        · exact iG h1.1
      exact ⟨i, j, hij, rfl, (differ_iff aG aH).2 (Or.inl h1)⟩
  rw [hset]
  refine ⟨Finset.finite_toSet _, ?_⟩
  rw [Set.ncard_coe_finset, Finset.card_image_of_injOn hinj, Finset.card_union_of_disjoint hXYZ,
    Finset.card_union_of_disjoint hXY]
  rfl

theorem mem_skeleton {i j : α} : {i, j} ∈ G.skeleton ↔ Adj G.E i j := by
  unfold skeleton
  rw [Finset.mem_image]
  constructor
  · rintro ⟨⟨a, b⟩, hab, h⟩
    rcases Model.PDAG.pair_eq_iff.1 h with ⟨h1, h2⟩ | ⟨h1, h2⟩ <;> simp only at h1 h2 <;> subst h1 h2
    · exact Or.inl hab
    · exact Or.inr hab
  · rintro (h | h)
    · exact ⟨_, h, rfl⟩
    · exact ⟨_, h, Finset.pair_comm _ _⟩

theorem skeleton_pair (hG : G.Valid) {s : Finset α} (hs : s ∈ G.skeleton) : ∃ i j, i ≠ j ∧ s = {i, j} := by
  obtain ⟨⟨i, j⟩, h, rfl⟩ := Finset.mem_image.1 hs
  exact ⟨i, j, by rintro rfl; exact hG.acyclic.irrefl h, rfl⟩

end Model.DAG

namespace Spec

universe u
variable {α : Type u} [DecidableEq α]

/-- Symmetric differences of sets of pairs. -/
theorem symmDiff_spec {S S' : Finset (Finset α)} {R R' : α → α → Prop}
    (hS : ∀ s ∈ S, ∃ i j, i ≠ j ∧ s = {i, j}) (hS' : ∀ s ∈ S', ∃ i j, i ≠ j ∧ s = {i, j})
    (hR : ∀ i j, {i, j} ∈ S ↔ R i j) (hR' : ∀ i j, {i, j} ∈ S' ↔ R' i j) :
    (pairsOf (AdjDiffer R R')).Finite ∧ (symmDiff S S').card = (pairsOf (AdjDiffer R R')).ncard := by
  have : pairsOf (AdjDiffer R R') = ↑(symmDiff S S') := by
    ext s
    rw [Finset.mem_coe, Finset.mem_symmDiff]
    constructor
    · rintro ⟨i, j, _, rfl, h⟩
      unfold AdjDiffer at h
      rw [hR, hR']; tauto
    · intro h
      have : ∃ i j, i ≠ j ∧ s = {i, j} := by
        rcases h with h | h
        · exact hS s h.1
        · exact hS' s h.1
      obtain ⟨i, j, hij, rfl⟩ := this
      refine ⟨i, j, hij, rfl, ?_⟩
      rw [hR, hR'] at h
      unfold AdjDiffer; tauto
  rw [this]
  exact ⟨Finset.finite_toSet _, (Set.ncard_coe_finset _).symm⟩

end Spec

namespace Model.PDAG

open Spec
universe u
variable {α : Type u} [DecidableEq α] {P Q : PDAG α}

theorem mem_skeleton {i j : α} : {i, j} ∈ P.skeleton ↔ P.hasEdgeOrArc i j = true := by
  unfold skeleton
  rw [Finset.mem_union, Finset.mem_image, adj_true]
  constructor
  · rintro (⟨⟨a, b⟩, hab, h⟩ | h)
    · rcases pair_eq_iff.1 h with ⟨h1, h2⟩ | ⟨h1, h2⟩ <;> simp only at h1 h2 <;> subst h1 h2
      · exact Or.inl hab
      · exact Or.inr (Or.inl hab)
    · exact Or.inr (Or.inr h)
  · rintro (h | h | h)
    · exact Or.inl ⟨_, h, rfl⟩
    · exact Or.inl ⟨_, h, Finset.pair_comm _ _⟩
    · exact Or.inr h

theorem skeleton_pair (hP : P.Consistent) (hS : P.Simple) {s : Finset α} (hs : s ∈ P.skeleton) :
    ∃ i j, i ≠ j ∧ s = {i, j} := by
  rcases Finset.mem_union.1 hs with h | h
  · obtain ⟨⟨i, j⟩, h', rfl⟩ := Finset.mem_image.1 h
    exact ⟨i, j, hS.ne h', rfl⟩
  · obtain ⟨i, j, h1, h2⟩ := hP.edge_pair s h
    exact ⟨i, j, h1, h2⟩

theorem shd_spec (hP : P.Consistent) (hS : P.Simple) (hQ : Q.Consistent) (hT : Q.Simple) (up : Unpack α) :
    (pairsOf (Differ P.Arc P.Edge Q.Arc Q.Edge)).Finite ∧
      shd up P Q = (pairsOf (Differ P.Arc P.Edge Q.Arc Q.Edge)).ncard := by
  set I := (P.skeleton ∩ Q.skeleton).filter fun s => P.diffCond Q (up.fn s).1 (up.fn s).2 with hI
  have hup : ∀ s ∈ P.skeleton, ({(up.fn s).1, (up.fn s).2} : Finset α) = s := by
    intro s hs
    obtain ⟨i, j, hij, rfl⟩ := skeleton_pair hP hS hs
    rcases up.spec i j hij with h | h <;> rw [h]
    exact Finset.pair_comm _ _
  have hcard : (((P.skeleton ∩ Q.skeleton).image up.fn).filter fun a => P.diffCond Q a.1 a.2).card = I.card := by
    rw [Finset.filter_image, Finset.card_image_of_injOn]
    intro s hs t ht h
    have h1 := hup s (Finset.mem_inter.1 (Finset.mem_filter.1 hs).1).1
    have h2 := hup t (Finset.mem_inter.1 (Finset.mem_filter.1 ht).1).1
    rw [← h1, ← h2, h]
  have hc : ∀ i j, (P.diffCond Q i j = true ↔ ((i, j) ∈ P.arcs ∧ (i, j) ∉ Q.arcs) ∨ ((j, i) ∈ P.arcs ∧ (j, i) ∉ Q.arcs) ∨
      ({i, j} ∈ P.edges ∧ {i, j} ∉ Q.edges)) := by
    intro i j; unfold diffCond; simp only [Bool.or_eq_true, Bool.and_eq_true, decide_eq_true_eq, or_assoc]
  have mI : ∀ i j, i ≠ j → ({i, j} ∈ I ↔ P.hasEdgeOrArc i j = true ∧ Q.hasEdgeOrArc i j = true ∧
      P.diffCond Q i j = true) := by
    intro i j hij
    rw [hI, Finset.mem_filter, Finset.mem_inter, mem_skeleton, mem_skeleton, and_assoc]
    refine and_congr_right fun _ => and_congr_right fun _ => ?_
    rcases up.spec i j hij with h | h <;> rw [h]
    rw [hc, hc, Finset.pair_comm j i]; tauto
  have hset : pairsOf (Differ P.Arc P.Edge Q.Arc Q.Edge) =
      ↑((P.skeleton \ Q.skeleton) ∪ (Q.skeleton \ P.skeleton) ∪ I) := by
    have key : ∀ i j, i ≠ j → ({i, j} ∈ (P.skeleton \ Q.skeleton) ∪ (Q.skeleton \ P.skeleton) ∪ I ↔
        Differ P.Arc P.Edge Q.Arc Q.Edge i j) := by
      intro i j hij
      rw [Finset.mem_union, Finset.mem_union, Finset.mem_sdiff, Finset.mem_sdiff, mI i j hij, mem_skeleton, mem_skeleton,
        adj_true, adj_true, hc]
      have p1 := hS.one_arc i j; have p2 := hS.no_edge i j; have p3 := hS.no_edge j i
      have q1 := hT.one_arc i j; have q2 := hT.no_edge i j; have q3 := hT.no_edge j i
      rw [Finset.pair_comm j i] at p3 q3
      unfold Differ Arc Edge
      generalize ((i, j) ∈ P.arcs) = a at *
      generalize ((j, i) ∈ P.arcs) = b at *
      generalize ({i, j} ∈ P.edges) = c at *
      generalize ((i, j) ∈ Q.arcs) = a' at *
      generalize ((j, i) ∈ Q.arcs) = b' at *
      generalize ({i, j} ∈ Q.edges) = c' at *
      clear hc hcard hup hI mI
      by_cases a <;> by_cases b <;> by_cases c <;> by_cases a' <;> by_cases b' <;> by_cases c' <;> simp_all
    ext s
    rw [Finset.mem_coe]
    constructor
    · rintro ⟨i, j, hij, rfl, h⟩; exact (key i j hij).2 h
    · intro h
      have : ∃ i j, i ≠ j ∧ s = {i, j} := by
        rcases Finset.mem_union.1 h with h | h
        · rcases Finset.mem_union.1 h with h | h
          · exact skeleton_pair hP hS (Finset.mem_sdiff.1 h).1
          · exact skeleton_pair hQ hT (Finset.mem_sdiff.1 h).1
        · exact skeleton_pair hP hS (Finset.mem_inter.1 (Finset.mem_filter.1 h).1).1
      obtain ⟨i, j, hij, rfl⟩ := this
      exact ⟨i, j, hij, rfl, (key i j hij).1 h⟩
  rw [hset]
  refine ⟨Finset.finite_toSet _, ?_⟩
  rw [Set.ncard_coe_finset, Finset.card_union_of_disjoint, Finset.card_union_of_disjoint, ← hcard]
  · rfl
  · rw [Finset.disjoint_left]; intro s h1 h2
    exact (Finset.mem_sdiff.1 h2).2 (Finset.mem_sdiff.1 h1).1
  · rw [Finset.disjoint_left]; intro s h1 h2
    have := Finset.mem_inter.1 (Finset.mem_filter.1 h2).1
    rcases Finset.mem_union.1 h1 with h | h
    · exact (Finset.mem_sdiff.1 h).2 this.2
    · exact (Finset.mem_sdiff.1 h).2 this.1

end Model.PDAG
