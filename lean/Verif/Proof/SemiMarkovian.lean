import Mathlib.Algebra.BigOperators.Ring.Finset
import Mathlib.Algebra.BigOperators.Field
import Mathlib.Tactic.FieldSimp
import Verif.Proof.Components
import Verif.Proof.TopoSort
import Verif.Spec.SemiMarkovian

/-! # `SemiMarkovian` -/

namespace Model

universe u v
variable {α : Type u} [DecidableEq α]
open Relation Spec

namespace SemiMarkovian

theorem mem_put {d : α → Finset α} {k x a b : α} : b ∈ put d k x a ↔ (a = k ∧ b = x) ∨ b ∈ d a := by
  unfold put
  by_cases h : a = k
  · subst h; simp
  · simp [h]

theorem addDirected_consistent {A : SemiMarkovian α} (h : A.Consistent) (i j : α) : (A.addDirected i j).Consistent := by
  refine ⟨?_, ?_, ?_, ?_, ?_, ?_, ?_⟩
  · intro a b
    simp only [addDirected, mem_put, Finset.mem_insert, Prod.mk.injEq, h.parents_iff]
    tauto
  · intro a b
    simp only [addDirected, mem_put, Finset.mem_insert, Prod.mk.injEq, h.children_iff]
  · exact h.spouses_iff
  · intro a b
    simp only [addDirected, mem_put, Finset.mem_insert, Prod.mk.injEq, h.adjacent_iff]
    tauto
  · intro a b hab
    simp only [addDirected, Finset.mem_insert, Prod.mk.injEq] at hab ⊢
    rcases hab with ⟨rfl, rfl⟩ | hab
    · simp
    · have := h.dir_mem a b hab; tauto
  · exact h.bi_pair
  · intro e he
    exact (h.bi_mem e he).trans (by simp only [addDirected]; exact (Finset.subset_insert _ _).trans (Finset.subset_insert _ _))

theorem pair_eq {a b i j : α} : ({a, b} : Finset α) = {i, j} ↔ (a = i ∧ b = j) ∨ (a = j ∧ b = i) := by
  rw [← Finset.coe_inj]
  push_cast
  exact Set.pair_eq_pair_iff

theorem addBidirected_consistent {A : SemiMarkovian α} (h : A.Consistent) (i j : α) : (A.addBidirected i j).Consistent := by
  refine ⟨h.parents_iff, h.children_iff, ?_, ?_, ?_, ?_, ?_⟩
  · intro a b
    simp only [addBidirected, mem_put, Finset.mem_insert, pair_eq, h.spouses_iff]
    tauto
  · intro a b
    simp only [addBidirected, mem_put, Finset.mem_insert, pair_eq, h.adjacent_iff]
    tauto
  · intro a b hab
    have := h.dir_mem a b hab
    simp only [addBidirected, Finset.mem_insert]
    tauto
  · intro e he
    simp only [addBidirected, Finset.mem_insert] at he
    rcases he with rfl | he
    · exact ⟨i, j, rfl⟩
    · exact h.bi_pair e he
  · intro e he
    simp only [addBidirected, Finset.mem_insert] at he ⊢
    rcases he with rfl | he
    · intro x; simp; tauto
    · exact (h.bi_mem e he).trans ((Finset.subset_insert _ _).trans (Finset.subset_insert _ _))

theorem foldl_directed {A : SemiMarkovian α} (h : A.Consistent) (l : List (α × α)) :
    (l.foldl (fun A e => A.addDirected e.1 e.2) A).Consistent ∧
    (∀ e, e ∈ (l.foldl (fun A e => A.addDirected e.1 e.2) A).directed ↔ e ∈ A.directed ∨ e ∈ l) ∧
    (l.foldl (fun A e => A.addDirected e.1 e.2) A).bidirected = A.bidirected ∧
    ∀ v, v ∈ (l.foldl (fun A e => A.addDirected e.1 e.2) A).nodes ↔ v ∈ A.nodes ∨ ∃ e ∈ l, v = e.1 ∨ v = e.2 := by
  induction l generalizing A with
  | nil => exact ⟨h, by simp, rfl, by simp⟩
  | cons e l ih =>
    obtain ⟨h1, h2, h3, h4⟩ := ih (addDirected_consistent h e.1 e.2)
    refine ⟨h1, ?_, h3, ?_⟩
    · intro x
      rw [List.foldl_cons, h2]
      simp only [addDirected, Finset.mem_insert, List.mem_cons]
      tauto
    · intro x
      rw [List.foldl_cons, h4]
      simp only [addDirected, Finset.mem_insert, List.mem_cons, exists_eq_or_imp]
      exact (by intros; tauto : ∀ a b c d : Prop, ((a ∨ b ∨ c) ∨ d) ↔ (c ∨ (b ∨ a) ∨ d)) _ _ _ _

theorem foldl_bidirected {A : SemiMarkovian α} (h : A.Consistent) (l : List (α × α)) :
    (l.foldl (fun A e => A.addBidirected e.1 e.2) A).Consistent ∧
    (∀ e, e ∈ (l.foldl (fun A e => A.addBidirected e.1 e.2) A).bidirected ↔ e ∈ A.bidirected ∨ ∃ p ∈ l, e = {p.1, p.2}) ∧
    (l.foldl (fun A e => A.addBidirected e.1 e.2) A).directed = A.directed ∧
    ∀ v, v ∈ (l.foldl (fun A e => A.addBidirected e.1 e.2) A).nodes ↔ v ∈ A.nodes ∨ ∃ e ∈ l, v = e.1 ∨ v = e.2 := by
  induction l generalizing A with
  | nil => exact ⟨h, by simp, rfl, by simp⟩
  | cons e l ih =>
    obtain ⟨h1, h2, h3, h4⟩ := ih (addBidirected_consistent h e.1 e.2)
    refine ⟨h1, ?_, h3, ?_⟩
    · intro x
      rw [List.foldl_cons, h2]
      simp only [addBidirected, Finset.mem_insert, List.mem_cons, exists_eq_or_imp]
      tauto
    · intro x
      rw [List.foldl_cons, h4]
      simp only [addBidirected, Finset.mem_insert, List.mem_cons, exists_eq_or_imp]
      exact (by intros; tauto : ∀ a b c d : Prop, ((a ∨ b ∨ c) ∨ d) ↔ (c ∨ (b ∨ a) ∨ d)) _ _ _ _

theorem new_spec (od ob : SetOrder Unit (α × α)) (nodes : Finset α) (directed bidirected : Finset (α × α)) :
    (new od ob nodes directed bidirected).Consistent ∧
    (new od ob nodes directed bidirected).directed = directed ∧
    (∀ e, e ∈ (new od ob nodes directed bidirected).bidirected ↔ ∃ p ∈ bidirected, e = {p.1, p.2}) ∧
    ∀ v, v ∈ (new od ob nodes directed bidirected).nodes ↔ v ∈ nodes ∨ ∃ e ∈ directed ∪ bidirected, v = e.1 ∨ v = e.2 := by
  have h0 : (⟨nodes, ∅, ∅, fun _ => ∅, fun _ => ∅, fun _ => ∅, fun _ => ∅⟩ : SemiMarkovian α).Consistent :=
    ⟨by simp, by simp, by simp, by simp, by simp, by simp, by simp⟩
  obtain ⟨a1, a2, a3, a4⟩ := foldl_directed h0 (od.ord () directed)
  obtain ⟨b1, b2, b3, b4⟩ := foldl_bidirected a1 (ob.ord () bidirected)
  refine ⟨b1, ?_, ?_, ?_⟩
  · ext e
    unfold new
    rw [b3, a2]
    simp [od.mem_iff]
  · intro e
    unfold new
    rw [b2, a3]
    simp [ob.mem_iff]
  · intro x
    unfold new
    rw [b4, a4]
    simp only [od.mem_iff, ob.mem_iff, Finset.mem_union, or_and_right, exists_or]
    exact or_assoc

variable {A : SemiMarkovian α}

theorem Consistent.two (h : A.Consistent) (hl : A.Loopless) : ∀ e ∈ A.bidirected, ∃ i j, i ≠ j ∧ e = {i, j} := by
  intro e he
  obtain ⟨i, j, rfl⟩ := h.bi_pair e he
  refine ⟨i, j, ?_, rfl⟩
  rintro rfl
  exact hl i (by simpa using he)

theorem Consistent.card_two (h : A.Consistent) (hl : A.Loopless) : ¬ ∃ e ∈ A.bidirected, e.card ≠ 2 := by
  rintro ⟨e, he, hc⟩
  obtain ⟨i, j, hij, rfl⟩ := h.two hl e he
  exact hc (Finset.card_pair hij)

theorem unpack_eq (up : Unpack α) {i j : α} (hij : i ≠ j) : ({(up.fn {i, j}).1, (up.fn {i, j}).2} : Finset α) = {i, j} := by
  rcases up.spec i j hij with h | h <;> rw [h]
  exact Finset.pair_comm _ _

theorem image_unpack (h : A.Consistent) (hl : A.Loopless) (up : Unpack α) (Q : Finset α → Prop) (e : Finset α) :
    (∃ p ∈ A.bidirected.image up.fn, Q {p.1, p.2} ∧ e = {p.1, p.2}) ↔ e ∈ A.bidirected ∧ Q e := by
  constructor
  · rintro ⟨p, hp, hq, rfl⟩
    obtain ⟨e, he, rfl⟩ := Finset.mem_image.1 hp
    obtain ⟨i, j, hij, rfl⟩ := h.two hl e he
    rw [unpack_eq up hij] at hq ⊢
    exact ⟨he, hq⟩
  · rintro ⟨he, hq⟩
    obtain ⟨i, j, hij, rfl⟩ := h.two hl e he
    exact ⟨_, Finset.mem_image_of_mem _ he, by rwa [unpack_eq up hij], (unpack_eq up hij).symm⟩

theorem inducedSubgraph_spec (od ob : SetOrder Unit (α × α)) (up : Unpack α) (h : A.Consistent) (hl : A.Loopless) (nodes : Finset α) :
    ∃ B, A.inducedSubgraph od ob up nodes none = .ok B ∧ B.Consistent ∧ B.nodes = nodes ∧
      (∀ i j, (i, j) ∈ B.directed ↔ (i, j) ∈ A.directed ∧ i ∈ nodes ∧ j ∈ nodes) ∧
      ∀ e, e ∈ B.bidirected ↔ e ∈ A.bidirected ∧ e ⊆ nodes := by
  simp only [inducedSubgraph, if_neg (h.card_two hl)]
  obtain ⟨h1, h2, h3, h4⟩ := new_spec od ob nodes (A.directed.filter fun e => e.1 ∈ nodes ∧ e.2 ∈ nodes)
    ((A.bidirected.image up.fn).filter fun e => e.1 ∈ nodes ∧ e.2 ∈ nodes)
  refine ⟨_, rfl, h1, ?_, ?_, ?_⟩
  · ext x
    rw [h4]
    constructor
    · rintro (hx | ⟨e, he, rfl | rfl⟩)
      · exact hx
      · simp only [Finset.mem_union, Finset.mem_filter] at he; tauto
      · simp only [Finset.mem_union, Finset.mem_filter] at he; tauto
    · exact Or.inl
  · intro i j; rw [h2]; simp
  · intro e
    rw [h3, ← image_unpack h hl up (fun e => e ⊆ nodes) e]
    simp only [Finset.mem_filter, Finset.insert_subset_iff, Finset.singleton_subset_iff]
    constructor
    · rintro ⟨p, ⟨h1, h2⟩, h3⟩; exact ⟨p, h1, h2, h3⟩
    · rintro ⟨p, h1, h2, h3⟩; exact ⟨p, ⟨h1, h2⟩, h3⟩

theorem remaining_some (out inc : Finset α) (l : List (α × α)) :
    remaining (some out) (some inc) l = .ok (l.toFinset.filter fun e => e.1 ∉ out ∧ e.2 ∉ inc) := by
  induction l with
  | nil => rfl
  | cons e l ih =>
    by_cases h1 : e.1 ∈ out
    · simp [remaining, remains, h1, ih, Finset.filter_insert]
    · by_cases h2 : e.2 ∈ inc
      · simp [remaining, remains, h1, h2, ih, Finset.filter_insert]
      · simp [remaining, remains, h1, h2, ih, Finset.filter_insert]

theorem mutilatedGraph_spec (od ob : SetOrder Unit (α × α)) (up : Unpack α) (h : A.Consistent) (hl : A.Loopless)
    (out inc : Finset α) :
    ∃ B, A.mutilatedGraph od ob up (some out) (some inc) = .ok B ∧ B.Consistent ∧ B.nodes = A.nodes ∧
      (∀ i j, (i, j) ∈ B.directed ↔ (i, j) ∈ A.directed ∧ i ∉ out ∧ j ∉ inc) ∧ B.bidirected = A.bidirected := by
  simp only [mutilatedGraph, remaining_some, ofSets, if_neg (h.card_two hl)]
  obtain ⟨h1, h2, h3, h4⟩ := new_spec od ob A.nodes ((od.ord () A.directed).toFinset.filter fun e => e.1 ∉ out ∧ e.2 ∉ inc)
    (A.bidirected.image up.fn)
  refine ⟨_, rfl, h1, ?_, ?_, ?_⟩
  · ext x
    rw [h4]
    constructor
    · rintro (hx | ⟨e, he, hxe⟩)
      · exact hx
      · simp only [Finset.mem_union, Finset.mem_filter, List.mem_toFinset, od.mem_iff] at he
        rcases he with ⟨he, -⟩ | he
        · have := h.dir_mem e.1 e.2 he
          rcases hxe with rfl | rfl
          · exact this.1
          · exact this.2
        · obtain ⟨e, he', rfl⟩ := Finset.mem_image.1 he
          obtain ⟨i, j, hij, rfl⟩ := h.two hl e he'
          apply h.bi_mem _ he'
          rw [← unpack_eq up hij]
          simpa using hxe
    · exact Or.inl
  · intro i j; rw [h2]; simp [od.mem_iff]
  · ext e
    rw [h3]
    have := image_unpack h hl up (fun _ => True) e
    simpa using this

theorem mutilatedGraph_none_out (od ob : SetOrder Unit (α × α)) (up : Unpack α) (inc : Option (Finset α)) (hd : A.directed.Nonempty) :
    A.mutilatedGraph od ob up none inc = .error .type := by
  unfold mutilatedGraph
  cases hl : od.ord () A.directed with
  | nil =>
    obtain ⟨e, he⟩ := hd
    rw [← od.mem_iff (), hl] at he
    simp at he
  | cons e l => simp [remaining, remains]

theorem remaining_none_in (out : Finset α) (l : List (α × α)) (hl : ∃ e ∈ l, e.1 ∉ out) :
    remaining (some out) none l = .error .type := by
  induction l with
  | nil => simp at hl
  | cons e l ih =>
    by_cases h1 : e.1 ∈ out
    · simp only [List.mem_cons, exists_eq_or_imp, h1, not_true_eq_false, false_or] at hl
      simp [remaining, remains, h1, ih hl]
    · simp [remaining, remains, h1]

theorem mutilatedGraph_none_in (od ob : SetOrder Unit (α × α)) (up : Unpack α) {out : Finset α} {i j : α} (hd : (i, j) ∈ A.directed)
    (hi : i ∉ out) : A.mutilatedGraph od ob up (some out) none = .error .type := by
  unfold mutilatedGraph
  rw [remaining_none_in out _ ⟨(i, j), (od.mem_iff _ _ _).2 hd, hi⟩]

/-! ## Components, order -/

theorem cComponents_spec (h : A.Consistent) (o : SetOrder (α × Finset α) α) (pk : Pick α) :
    ∃ cs, A.cComponents o pk = some cs ∧ cs.Pairwise Disjoint ∧ (∀ v, (∃ c ∈ cs, v ∈ c) ↔ v ∈ A.nodes) ∧
      ∀ v ∈ A.nodes, ∀ w, (∃ c ∈ cs, v ∈ c ∧ w ∈ c) ↔ ReflTransGen (fun a b => {a, b} ∈ A.bidirected) v w := by
  have hE : (fun a b => b ∈ A.spouses a) = fun a b => {a, b} ∈ A.bidirected := by
    funext a b
    rw [h.spouses_iff, Finset.pair_comm]
  have hU : ∀ x ∈ A.nodes, A.spouses x ⊆ A.nodes := by
    intro x _ y hy
    exact h.bi_mem _ ((h.spouses_iff y x).1 hy) (by simp)
  have hsym : ∀ x y, y ∈ A.spouses x → x ∈ A.spouses y := by
    intro x y hy
    rw [h.spouses_iff] at hy ⊢
    rwa [Finset.pair_comm]
  obtain ⟨cs, h1, h2, h3, h4⟩ := components_spec A.spouses o pk (fun _ => true) A.nodes hU hsym
  rw [hE] at h3 h4
  have hsymm : ∀ {a b}, ReflTransGen (fun a b => {a, b} ∈ A.bidirected) a b → ReflTransGen (fun a b => {a, b} ∈ A.bidirected) b a := by
    intro a b hab
    induction hab with
    | refl => exact .refl
    | tail _ hbc ih => exact .head (by rwa [Finset.pair_comm] at hbc) ih
  have hcov : ∀ v ∈ A.nodes, ∃ c ∈ cs, v ∈ c := by
    intro v hv
    rcases h4 v hv with h | ⟨c, hc, -⟩
    · exact h
    · simp at hc
  refine ⟨cs, h1, h2, fun v => ⟨?_, hcov v⟩, ?_⟩
  · rintro ⟨c, hc, hv⟩
    obtain ⟨-, u, huc, hu, hiff⟩ := h3 c hc
    have hr := (hiff v).1 hv
    clear hv
    induction hr with
    | refl => exact hu
    | tail _ hbc _ => exact h.bi_mem _ hbc (by simp)
  · intro v hv w
    constructor
    · rintro ⟨c, hc, hvc, hwc⟩
      obtain ⟨-, u, -, -, hiff⟩ := h3 c hc
      exact (hsymm ((hiff v).1 hvc)).trans ((hiff w).1 hwc)
    · intro hr
      obtain ⟨c, hc, hvc⟩ := hcov v hv
      obtain ⟨-, u, -, -, hiff⟩ := h3 c hc
      exact ⟨c, hc, hvc, (hiff w).2 (((hiff v).1 hvc).trans hr)⟩

theorem topologicalSort_spec (h : A.Consistent) (o : SetOrder (Option α) α) :
    (Acyclic (fun i j => (i, j) ∈ A.directed) ∧ ∃ l, A.topologicalSort o = some (.ok l) ∧
      LinearExtension (A.nodes : Set α) (fun i j => (i, j) ∈ A.directed) l) ∨
    (¬ Acyclic (fun i j => (i, j) ∈ A.directed) ∧ A.topologicalSort o = some (.error .plain)) := by
  have hE : A.dag.E = fun i j => (i, j) ∈ A.directed := rfl
  unfold topologicalSort
  rcases DAG.topologicalSort_wp A.dag o ⟨h.children_iff, fun i j hij => (h.dir_mem i j hij).1, fun i j hij => (h.dir_mem i j hij).2⟩ with
    ⟨l, hl, hle⟩ | ⟨e, he, l, rfl, hl⟩
  · rw [hE] at hle
    exact Or.inl ⟨DAG.linearExtension_acyclic hle, l, by rw [hl]; rfl, hle⟩
  · refine Or.inr ⟨?_, by rw [he]; rfl⟩
    intro hac
    obtain ⟨v, hv⟩ := DAG.isClosingWalk_cycle hl
    exact hac v hv

/-! ## Ancestors -/

theorem addAncestors_spec (h : A.Consistent) : ∀ (n : ℕ) (anc S : Finset α), (A.nodes \ anc).card ≤ n →
    ∃ R, A.addAncestors anc S = some (anc ∪ R, some .type) ∧
      (∀ x ∈ R, ∃ s ∈ S, Path (fun i j => (i, j) ∈ A.directed) x s) ∧
      (∀ s ∈ S ∪ R, ∀ p, (p, s) ∈ A.directed → p ∈ anc ∪ R) := by
  intro n
  induction n with
  | zero =>
    intro anc S hn
    have hsub : A.nodes ⊆ anc := by
      rw [← Finset.sdiff_eq_empty_iff_subset, ← Finset.card_eq_zero]; omega
    have hnew : S.biUnion A.parents \ anc = ∅ := by
      rw [Finset.sdiff_eq_empty_iff_subset]
      intro p hp
      obtain ⟨s, -, hps⟩ := Finset.mem_biUnion.1 hp
      exact hsub (h.dir_mem p s ((h.parents_iff p s).1 hps)).1
    refine ⟨∅, ?_, by simp, ?_⟩
    · rw [addAncestors]
      by_cases hS : S = ∅
      · simp [parentsOf, hS]
      · simp only [parentsOf, if_neg hS, hnew]
        rw [addAncestors]
        simp [parentsOf]
    · intro s hs p hp
      exact Finset.mem_union_left _ (hsub (h.dir_mem p s hp).1)
  | succ n ih =>
    intro anc S hn
    by_cases hS : S = ∅
    · subst hS
      refine ⟨∅, ?_, by simp, by simp⟩
      rw [addAncestors]
      simp [parentsOf]
    · by_cases hnew : S.biUnion A.parents \ anc = ∅
      · refine ⟨∅, ?_, by simp, ?_⟩
        · rw [addAncestors]
          simp only [parentsOf, if_neg hS, hnew]
          rw [addAncestors]
          simp [parentsOf]
        · intro s hs p hp
          simp only [Finset.union_empty] at hs ⊢
          rw [Finset.sdiff_eq_empty_iff_subset] at hnew
          exact hnew (Finset.mem_biUnion.2 ⟨s, hs, (h.parents_iff p s).2 hp⟩)
      · obtain ⟨R, h1, h2, h3⟩ := ih (anc ∪ (S.biUnion A.parents \ anc)) (S.biUnion A.parents \ anc) (by
          obtain ⟨p, hp⟩ := Finset.nonempty_iff_ne_empty.2 hnew
          have hpn : p ∈ A.nodes := by
            obtain ⟨s, -, hps⟩ := Finset.mem_biUnion.1 (Finset.mem_sdiff.1 hp).1
            exact (h.dir_mem p s ((h.parents_iff p s).1 hps)).1
          have : (A.nodes \ (anc ∪ (S.biUnion A.parents \ anc))).card < (A.nodes \ anc).card := by
            apply Finset.card_lt_card
            rw [Finset.ssubset_iff_of_subset (Finset.sdiff_subset_sdiff le_rfl Finset.subset_union_left)]
            refine ⟨p, Finset.mem_sdiff.2 ⟨hpn, (Finset.mem_sdiff.1 hp).2⟩, ?_⟩
            intro hc
            exact (Finset.mem_sdiff.1 hc).2 (Finset.mem_union_right _ hp)
          omega)
        refine ⟨(S.biUnion A.parents \ anc) ∪ R, ?_, ?_, ?_⟩
        · rw [addAncestors]
          simp only [parentsOf, if_neg hS]
          rw [h1, Finset.union_assoc]
        · have hpar : ∀ x ∈ S.biUnion A.parents \ anc, ∃ s ∈ S, (x, s) ∈ A.directed := by
            intro x hx
            obtain ⟨s, hs, hps⟩ := Finset.mem_biUnion.1 (Finset.mem_sdiff.1 hx).1
            exact ⟨s, hs, (h.parents_iff x s).1 hps⟩
          intro x hx
          rcases Finset.mem_union.1 hx with hx | hx
          · obtain ⟨s, hs, hxs⟩ := hpar x hx
            exact ⟨s, hs, .single hxs⟩
          · obtain ⟨t, ht, hxt⟩ := h2 x hx
            obtain ⟨s, hs, hts⟩ := hpar t ht
            exact ⟨s, hs, hxt.tail hts⟩
        · intro s hs p hp
          rw [← Finset.union_assoc]
          rcases Finset.mem_union.1 hs with hs | hs
          · by_cases hpa : p ∈ anc
            · simp [hpa]
            · refine Finset.mem_union_left _ (Finset.mem_union_right _ ?_)
              exact Finset.mem_sdiff.2 ⟨Finset.mem_biUnion.2 ⟨s, hs, (h.parents_iff p s).2 hp⟩, hpa⟩
          · exact h3 s hs p hp

theorem addAncestors_empty (h : A.Consistent) (S : Finset α) :
    ∃ R, A.addAncestors ∅ S = some (R, some .type) ∧ ∀ x, x ∈ R ↔ ∃ s ∈ S, Path (fun i j => (i, j) ∈ A.directed) x s := by
  obtain ⟨R, h1, h2, h3⟩ := addAncestors_spec h _ ∅ S le_rfl
  rw [Finset.empty_union] at h1 h3
  refine ⟨R, h1, fun x => ⟨h2 x, ?_⟩⟩
  rintro ⟨s, hs, hp⟩
  induction hp using TransGen.head_induction_on with
  | single hp => exact h3 s (Finset.mem_union_left _ hs) _ hp
  | head hp _ ih => exact h3 _ (Finset.mem_union_right _ ih) _ hp

theorem addAncestors_self (h : A.Consistent) (S : Finset α) :
    ∃ R, A.addAncestors S S = some (R, some .type) ∧
      ∀ x, x ∈ R ↔ x ∈ S ∨ ∃ s ∈ S, Path (fun i j => (i, j) ∈ A.directed) x s := by
  obtain ⟨R, h1, h2, h3⟩ := addAncestors_spec h _ S S le_rfl
  refine ⟨S ∪ R, h1, fun x => ?_⟩
  rw [Finset.mem_union]
  refine or_congr_right' fun hx => Iff.intro (h2 x) ?_
  rintro ⟨s, hs, hp⟩
  have : x ∈ S ∪ R := by
    clear hx
    induction hp using TransGen.head_induction_on with
    | single hp => exact h3 s (Finset.mem_union_left _ hs) _ hp
    | head hp _ ih => exact h3 _ ih _ hp
  exact (Finset.mem_union.1 this).resolve_left hx

end SemiMarkovian

/-! ## Formulas -/

section

variable [Fintype α] {β : Type v} [DecidableEq β] [Fintype β]

theorem sumOut_sumOut {D D' : Finset α} (hd : Disjoint D D') (F : (α → β) → ℝ) (x : α → β) :
    sumOut D (sumOut D' F) x = sumOut (D ∪ D') F x := by
  unfold sumOut
  rw [Finset.sum_comm' (t' := Finset.univ.filter fun u : α → β => ∀ v, v ∉ D ∪ D' → u v = x v)
    (s' := fun u => {fun v => if v ∈ D then u v else x v})]
  · simp
  · intro w u
    simp only [Finset.mem_filter, Finset.mem_univ, true_and, Finset.mem_singleton, Finset.mem_union, not_or]
    constructor
    · rintro ⟨h1, h2⟩
      refine ⟨?_, fun v hv => by rw [h2 v hv.2, h1 v hv.1]⟩
      funext v
      by_cases hv : v ∈ D
      · rw [if_pos hv, h2 v (Finset.disjoint_left.1 hd hv)]
      · rw [if_neg hv, h1 v hv]
    · rintro ⟨rfl, h2⟩
      refine ⟨fun v hv => if_neg hv, fun v hv => ?_⟩
      beta_reduce
      by_cases hvD : v ∈ D
      · rw [if_pos hvD]
      · rw [if_neg hvD, h2 v ⟨hvD, hv⟩]

theorem sumOut_marginalPr {D S : Finset α} (hd : D ⊆ S) (law : (α → β) → ℝ) (x : α → β) :
    sumOut D (marginalPr law S) x = marginalPr law (S \ D) x := by
  unfold sumOut marginalPr
  rw [Finset.sum_comm' (t' := Finset.univ.filter fun u : α → β => ∀ v ∈ S \ D, u v = x v)
    (s' := fun u => {fun v => if v ∈ D then u v else x v})]
  · simp
  · intro w u
    simp only [Finset.mem_filter, Finset.mem_univ, true_and, Finset.mem_singleton, Finset.mem_sdiff]
    constructor
    · rintro ⟨h1, h2⟩
      refine ⟨?_, fun v hv => by rw [h2 v hv.1, h1 v hv.2]⟩
      funext v
      by_cases hv : v ∈ D
      · rw [if_pos hv, h2 v (hd hv)]
      · rw [if_neg hv, h1 v hv]
    · rintro ⟨rfl, h2⟩
      refine ⟨fun v hv => if_neg hv, fun v hv => ?_⟩
      beta_reduce
      by_cases hvD : v ∈ D
      · rw [if_pos hvD]
      · rw [if_neg hvD, h2 v ⟨hv, hvD⟩]

theorem sumOut_div {D : Finset α} {F c : (α → β) → ℝ} {x : α → β} (hc : ∀ w, (∀ v, v ∉ D → w v = x v) → c w = c x) :
    sumOut D (fun w => F w / c w) x = sumOut D F x / c x := by
  unfold sumOut
  rw [Finset.sum_div]
  refine Finset.sum_congr rfl fun w hw => ?_
  beta_reduce
  rw [hc w (Finset.mem_filter.1 hw).2]

theorem marginalPr_congr {law : (α → β) → ℝ} {S : Finset α} {w x : α → β} (h : ∀ v ∈ S, w v = x v) :
    marginalPr law S w = marginalPr law S x := by
  unfold marginalPr
  congr 1
  ext u
  simp only [Finset.mem_filter, Finset.mem_univ, true_and]
  exact forall₂_congr fun v hv => by rw [h v hv]

theorem sumOut_congr {D : Finset α} {F : (α → β) → ℝ} {w x : α → β} (h : ∀ v, v ∉ D → w v = x v) : sumOut D F w = sumOut D F x := by
  unfold sumOut
  congr 1
  ext u
  simp only [Finset.mem_filter, Finset.mem_univ, true_and]
  exact forall₂_congr fun v hv => by rw [h v hv]

theorem sumOut_empty (F : (α → β) → ℝ) (x : α → β) : sumOut ∅ F x = F x := by
  unfold sumOut
  rw [Finset.sum_eq_single x]
  · intro w hw hne
    exact absurd (funext fun v => (Finset.mem_filter.1 hw).2 v (by simp)) hne
  · intro h; simp at h

theorem sumOut_term (P : Finset α → (α → β) → ℝ) {a c i D : Finset α} (hac : Disjoint a c) (hD : D ⊆ a) (x : α → β) :
    sumOut D (meaning P (.term a c i)) x = marginalPr (P i) ((a ∪ c) \ D) x / marginalPr (P i) c x := by
  have e : meaning P (.term a c i) = fun w => marginalPr (P i) (a ∪ c) w / marginalPr (P i) c w := by
    funext w; simp [meaning]
  rw [e, sumOut_div, sumOut_marginalPr (hD.trans Finset.subset_union_left)]
  intro w hw
  exact marginalPr_congr fun v hv => hw v fun hvD => Finset.disjoint_left.1 hac (hD hvD) hv

namespace Formula

variable (P : Finset α → (α → β) → ℝ)

/-- The variables of the result: `marginal`, or all but those conditioned on. -/
theorem term_conditional {a c i m d : Finset α} (hac : Disjoint a c) (hm : m ⊆ a) (hd : d ⊆ a) :
    IsConditional (meaning P (.term a c i)) a m d (meaning P (.term m (c ∪ d) i)) := by
  intro x hx
  rw [sumOut_term P hac Finset.sdiff_subset] at hx
  rw [sumOut_term P hac Finset.sdiff_subset, sumOut_term P hac Finset.sdiff_subset]
  have hc : marginalPr (P i) c x ≠ 0 := by
    intro h; rw [h] at hx; simp at hx
  have e1 : (a ∪ c) \ (a \ (m ∪ d)) = m ∪ (c ∪ d) := by
    ext v
    have h1 : v ∈ m → v ∈ a := fun h => hm h
    have h2 : v ∈ d → v ∈ a := fun h => hd h
    have h3 : v ∈ a → v ∉ c := fun h => Finset.disjoint_left.1 hac h
    simp only [Finset.mem_union, Finset.mem_sdiff]
    tauto
  have e2 : (a ∪ c) \ (a \ d) = c ∪ d := by
    ext v
    have h2 : v ∈ d → v ∈ a := fun h => hd h
    have h3 : v ∈ a → v ∉ c := fun h => Finset.disjoint_left.1 hac h
    simp only [Finset.mem_union, Finset.mem_sdiff]
    tauto
  rw [e1, e2, div_div_div_cancel_right₀ hc]
  simp [meaning]

omit [Fintype α] in
theorem check_iff {f : Formula α} {m d : Finset α} : f.check m d = true ↔ Disjoint m d ∧ m ⊆ f.active ∧ d ⊆ f.active := by
  simp [check, Finset.union_subset_iff]

theorem sumOut_marginal {a s : Finset α} {f : Formula α} {D : Finset α} (hD : Disjoint D s) (x : α → β) :
    sumOut D (meaning P (.marginal a s f)) x = sumOut (D ∪ s) (meaning P f) x := by
  have e : meaning P (.marginal a s f) = sumOut s (meaning P f) := by
    funext w; simp [meaning]
  rw [e, sumOut_sumOut hD]

theorem single_total {f : Formula α} (hf : Single f) (x : α → β) :
    sumOut f.active (meaning P f) x = 0 ∨ sumOut f.active (meaning P f) x = 1 := by
  induction hf with
  | @term a c i hac =>
    rw [active, sumOut_term P hac le_rfl]
    have e : (a ∪ c) \ a = c := by
      ext v
      have h3 : v ∈ a → v ∉ c := fun h => Finset.disjoint_left.1 hac h
      simp only [Finset.mem_union, Finset.mem_sdiff]
      tauto
    rw [e]
    by_cases h : marginalPr (P i) c x = 0
    · left; simp [h]
    · right; exact div_self h
  | @marginal m f hf hm ih =>
    rw [active, sumOut_marginal P Finset.disjoint_sdiff, Finset.union_sdiff_of_subset hm]
    exact ih

/-- Asking for a conditional distribution without naming the marginal variables. -/
theorem single_all {f : Formula α} (hf : Single f) {d : Finset α} (hd : d ⊆ f.active) (hne : d ≠ ∅) :
    ∃ g, f.getConditional ∅ d = .ok g ∧ Single g ∧ g.active = f.active \ d ∧
      IsConditional (meaning P f) f.active (f.active \ d) d (meaning P g) := by
  induction hf with
  | @term a c i hac =>
    refine ⟨.term (a \ d) (c ∪ d) i, ?_, .term ?_, rfl, term_conditional P hac Finset.sdiff_subset hd⟩
    · rw [getConditional, if_pos (by rw [check_iff]; exact ⟨by simp, by simp, hd⟩)]
      simp
    · rw [Finset.disjoint_union_right]
      exact ⟨hac.mono_left Finset.sdiff_subset, Finset.sdiff_disjoint⟩
  | @marginal m f hf hm ih =>
    rw [active] at hd ⊢
    obtain ⟨g, h1, h2, h3, h4⟩ := ih (hd.trans hm)
    have hsub : m \ d ⊆ g.active := by rw [h3]; exact Finset.sdiff_subset_sdiff hm le_rfl
    refine ⟨.marginal (m \ d) (g.active \ (m \ d)) g, ?_, .marginal h2 hsub, rfl, ?_⟩
    · rw [getConditional, if_pos (by rw [check_iff]; exact ⟨by simp, by simp, hd⟩), if_neg hne, h1]
      simp [marginalDistribution, hsub]
    · intro x hx
      have hdm : Disjoint (m \ d) (f.active \ m) := Finset.disjoint_sdiff.mono_left Finset.sdiff_subset
      have hu : m \ d ∪ f.active \ m = f.active \ d := by
        ext v
        have h1 : v ∈ m → v ∈ f.active := fun h => hm h
        have h2 : v ∈ d → v ∈ m := fun h => hd h
        simp only [Finset.mem_union, Finset.mem_sdiff]
        tauto
      rw [sumOut_marginal P hdm, hu] at hx
      have hm0 : m \ (m \ d ∪ d) = ∅ := by
        ext v; simp only [Finset.mem_union, Finset.mem_sdiff, Finset.notMem_empty, iff_false]; tauto
      rw [sumOut_marginal P hdm, hu, hm0, sumOut_empty]
      simp only [meaning]
      have hsd : g.active \ (m \ d) = f.active \ m := by
        rw [h3]
        ext v
        have h2 : v ∈ d → v ∈ m := fun h => hd h
        simp only [Finset.mem_sdiff]
        tauto
      rw [hsd]
      have hcg : ∀ w, (∀ v, v ∉ f.active \ m → w v = x v) →
          sumOut (f.active \ d) (meaning P f) w = sumOut (f.active \ d) (meaning P f) x := by
        intro w hw
        refine sumOut_congr fun v hv => hw v fun hv' => hv ?_
        rw [← hu]; exact Finset.mem_union_right _ hv'
      rw [← sumOut_div hcg]
      unfold sumOut
      refine Finset.sum_congr rfl fun w hw => ?_
      have hw' := (Finset.mem_filter.1 hw).2
      have := h4 w (by rw [hcg w hw']; exact hx)
      rw [this]
      congr 1
      have h0 : f.active \ (f.active \ d ∪ d) = ∅ := by
        ext v; simp only [Finset.mem_union, Finset.mem_sdiff, Finset.notMem_empty, iff_false]; tauto
      rw [h0, sumOut_empty]

theorem single_conditional {f : Formula α} (hf : Single f) {m d : Finset α} (hm : m ⊆ f.active) (hd : d ⊆ f.active)
    (hmd : Disjoint m d) (hne : m ≠ ∅) :
    ∃ g, f.getConditional m d = .ok g ∧ Single g ∧ g.active = m ∧ IsConditional (meaning P f) f.active m d (meaning P g) := by
  cases hf with
  | @term a c i hac =>
    rw [active] at hm hd ⊢
    refine ⟨.term m (c ∪ d) i, ?_, .term ?_, rfl, term_conditional P hac hm hd⟩
    · rw [getConditional, if_pos (by rw [check_iff]; exact ⟨hmd, hm, hd⟩), if_neg hne]
    · rw [Finset.disjoint_union_right]
      exact ⟨hac.mono_left hm, hmd⟩
  | @marginal a f hf ha =>
    rw [active] at hm hd ⊢
    have hchk : check (.marginal a (f.active \ a) f) m d = true := by rw [check_iff]; exact ⟨hmd, hm, hd⟩
    have hdj : Disjoint (a \ (m ∪ d)) (f.active \ a) := Finset.disjoint_sdiff.mono_left Finset.sdiff_subset
    have hu1 : a \ (m ∪ d) ∪ f.active \ a = f.active \ (m ∪ d) := by
      ext v
      have h1 : v ∈ a → v ∈ f.active := fun h => ha h
      have h2 : v ∈ d → v ∈ a := fun h => hd h
      have h3 : v ∈ m → v ∈ a := fun h => hm h
      simp only [Finset.mem_union, Finset.mem_sdiff]
      tauto
    have hdj2 : Disjoint (a \ d) (f.active \ a) := Finset.disjoint_sdiff.mono_left Finset.sdiff_subset
    have hu2 : a \ d ∪ f.active \ a = f.active \ d := by
      ext v
      have h1 : v ∈ a → v ∈ f.active := fun h => ha h
      have h2 : v ∈ d → v ∈ a := fun h => hd h
      simp only [Finset.mem_union, Finset.mem_sdiff]
      tauto
    by_cases hd0 : d = ∅
    · subst hd0
      refine ⟨.marginal m (f.active \ m) f, ?_, .marginal hf (hm.trans ha), rfl, ?_⟩
      · rw [getConditional, if_pos hchk, if_pos rfl]
        simp [marginalDistribution, hm.trans ha]
      · intro x hx
        rw [sumOut_marginal P hdj2, hu2] at hx
        rw [sumOut_marginal P hdj2, hu2, sumOut_marginal P hdj, hu1]
        rw [Finset.sdiff_empty] at hx ⊢
        rcases single_total P hf x with h | h
        · exact absurd h hx
        · rw [h]; simp [meaning]
    · obtain ⟨g, h1, h2, h3, h4⟩ := single_all P hf (hd.trans ha) hd0
      have hsub : m ⊆ g.active := by
        rw [h3, Finset.subset_sdiff]; exact ⟨hm.trans ha, hmd⟩
      refine ⟨.marginal m (g.active \ m) g, ?_, .marginal h2 hsub, rfl, ?_⟩
      · rw [getConditional, if_pos hchk, if_neg hd0, h1]
        simp [marginalDistribution, hsub, hne]
      · intro x hx
        rw [sumOut_marginal P hdj2, hu2] at hx
        rw [sumOut_marginal P hdj2, hu2, sumOut_marginal P hdj, hu1]
        simp only [meaning]
        have hsd : g.active \ m = f.active \ (m ∪ d) := by
          rw [h3]; ext v; simp only [Finset.mem_union, Finset.mem_sdiff]; tauto
        rw [hsd]
        have hcg : ∀ w, (∀ v, v ∉ f.active \ (m ∪ d) → w v = x v) →
            sumOut (f.active \ d) (meaning P f) w = sumOut (f.active \ d) (meaning P f) x := by
          intro w hw
          refine sumOut_congr fun v hv => hw v fun hv' => hv ?_
          simp only [Finset.mem_union, Finset.mem_sdiff] at hv' ⊢
          tauto
        rw [← sumOut_div hcg]
        unfold sumOut
        refine Finset.sum_congr rfl fun w hw => ?_
        have hw' := (Finset.mem_filter.1 hw).2
        have := h4 w (by rw [hcg w hw']; exact hx)
        rw [this]
        congr 1
        have h0 : f.active \ (f.active \ d ∪ d) = ∅ := by
          ext v; simp only [Finset.mem_union, Finset.mem_sdiff, Finset.notMem_empty, iff_false]; tauto
        rw [h0, sumOut_empty]

end Formula

end

namespace Formula

theorem getConditional_error {f : Formula α} {m d : Finset α} (hd : ¬ d ⊆ f.active) : f.getConditional m d = .error .assertion := by
  have hc : ¬ f.check m d = true := by
    simp only [check, decide_eq_true_eq, not_and, Finset.union_subset_iff]
    tauto
  cases f <;> rw [getConditional, if_neg hc]

theorem conditionals_error {d : Finset α} {ts : List (Formula α)} {t : Formula α} (ht : t ∈ ts) (hd : ¬ d ⊆ t.active) :
    ∃ e, conditionals ts d = .error e := by
  induction ts with
  | nil => simp at ht
  | cons u ts ih =>
    rw [conditionals]
    rcases List.mem_cons.1 ht with rfl | ht
    · rw [getConditional_error hd]; exact ⟨_, rfl⟩
    · obtain ⟨e, he⟩ := ih ht
      rw [he]
      cases getConditional u ∅ d <;> exact ⟨_, rfl⟩

theorem prod_error {a m d : Finset α} {ts : List (Formula α)} {t : Formula α} (ht : t ∈ ts) (hd : ¬ d ⊆ t.active) (hne : d ≠ ∅) :
    ∃ e, (prod a ts).getConditional m d = .error e := by
  obtain ⟨e, he⟩ := conditionals_error ht hd
  rw [getConditional, if_neg hne, he]
  split <;> exact ⟨_, rfl⟩

end Formula

end Model
