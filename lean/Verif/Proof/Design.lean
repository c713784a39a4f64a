import Mathlib.Algebra.Order.BigOperators.Group.Finset
import Mathlib.Algebra.BigOperators.Group.Finset.Basic
import Verif.Model.Design
import Verif.Proof.CPDAG
import Verif.Proof.CoreUtils
import Verif.Proof.Verification

/-! # Intervention design -/

namespace Model.DAG

open Spec

universe u
variable {α : Type u} [DecidableEq α] {G : DAG α}

/-- `c` is the essential graph of `G` for the targets `T` and remembers why. -/
structure Knows (G : DAG α) (T : Set (Set α)) (c : PDAG α) : Prop where
  shows : PDAG.Shows G (CutBy T) c
  known : ∀ i j, G.E i j → ((i, j) ∈ c.known ↔ (∃ l, VStruct G.E i j l) ∨ CutBy T i j)

theorem E_mem (hG : G.Valid) : ∀ a b, G.E a b → a ∈ G.nodes ∧ b ∈ G.nodes := fun _ _ h =>
  ⟨hG.fst_mem _ _ h, hG.snd_mem _ _ h⟩

theorem cpdag_knows (hG : G.Valid) (oa : SetOrder Unit (α × α)) (o : PDAG.OrientOracle α) :
    ∃ Q, (G.cpdag oa o).run = some (.ok Q) ∧ Knows G ∅ Q := by
  obtain ⟨Q, h1, h2, h3⟩ := PDAG.cpdag_shows hG oa o
  refine ⟨Q, h1, by rw [cutBy_empty]; exact h2, fun i j _ => ?_⟩
  rw [h3, PDAG.mem_arcsInVstructures hG, cutBy_empty, or_false]

theorem interventionalCpdag_knows (hG : G.Valid) (oa : SetOrder Unit (α × α)) (o : PDAG.OrientOracle α)
    (iv : List (Finset α)) {T : Set (Set α)} {c : PDAG α} (hc : Knows G T c) :
    ∃ Q, (G.interventionalCpdag oa o iv c).run = some (.ok Q) ∧ Knows G (T ∪ targets iv) Q := by
  unfold DAG.interventionalCpdag
  have hk : ∀ i j, G.E i j → ((i, j) ∈ (iv.foldl (fun c iv => c ∪ G.arcs.filter fun a =>
      (({a.1, a.2} : Finset α) ∩ iv).card = 1) ∅ ∪ c.known) ↔
      (∃ l, VStruct G.E i j l) ∨ CutBy (T ∪ targets iv) i j) := by
    intro i j hij
    rw [Finset.mem_union, PDAG.mem_cut, hc.known i j hij, cutBy_union]
    have hne : i ≠ j := by rintro rfl; exact hG.acyclic.irrefl hij
    have hij' : (i, j) ∈ G.arcs := hij
    simp only [Finset.notMem_empty, false_or, hij', true_and, PDAG.card_pair_inter hne]
    have : (∃ s ∈ iv, ¬ (i ∈ s ↔ j ∈ s)) ↔ CutBy (targets iv) i j := by
      constructor
      · rintro ⟨s, hs, h⟩; exact ⟨s, ⟨s, hs, rfl⟩, by simpa using h⟩
      · rintro ⟨_, ⟨s, hs, rfl⟩, h⟩; exact ⟨s, hs, by simpa using h⟩
    rw [this]; tauto
  obtain ⟨Q, h1, h2, h3⟩ := PDAG.orient_spec hG oa o _ (CutBy (T ∪ targets iv)) hk
  exact ⟨Q, h1, h2, fun i j hij => by rw [h3]; exact hk i j hij⟩

omit [DecidableEq α] in
theorem targets_single (v : α) : targets [({v} : Finset α)] = {{v}} := by
  ext I; simp [targets]

omit [DecidableEq α] in
theorem targets_append (iv iv' : List (Finset α)) : targets (iv ++ iv') = targets iv ∪ targets iv' := by
  ext I
  simp only [targets, List.mem_append, Set.mem_union, Set.mem_ofPred_eq]
  constructor
  · rintro ⟨s, h | h, rfl⟩
    · exact Or.inl ⟨s, h, rfl⟩
    · exact Or.inr ⟨s, h, rfl⟩
  · rintro (⟨s, h, rfl⟩ | ⟨s, h, rfl⟩)
    · exact ⟨s, Or.inl h, rfl⟩
    · exact ⟨s, Or.inr h, rfl⟩

omit [DecidableEq α] in
open Classical in
/-- The arcs directed by the targets. -/
noncomputable def dirArcs (G : DAG α) (T : Set (Set α)) : Finset (α × α) :=
  G.arcs.filter fun a => Meek G.E (CutBy T) a.1 a.2

omit [DecidableEq α] in
theorem mem_dirArcs {T : Set (Set α)} {a b : α} : (a, b) ∈ G.dirArcs T ↔ Meek G.E (CutBy T) a b := by
  classical
  unfold dirArcs
  rw [Finset.mem_filter]
  exact ⟨fun h => h.2, fun h => ⟨h.sub, h⟩⟩

theorem Knows.arcs {T : Set (Set α)} {c : PDAG α} (h : Knows G T c) : c.arcs = G.dirArcs T := by
  ext ⟨a, b⟩; rw [h.shows.arcs, mem_dirArcs]

theorem dirArcs_sub (T : Set (Set α)) : G.dirArcs T ⊆ G.arcs := by
  classical
  unfold dirArcs; exact Finset.filter_subset _ _

omit [DecidableEq α] in
theorem dirArcs_mono {T T' : Set (Set α)} (hT : T ⊆ T') : G.dirArcs T ⊆ G.dirArcs T' := by
  rintro ⟨a, b⟩ h
  rw [mem_dirArcs] at h ⊢
  exact h.mono fun a b h1 ⟨I, hI, h2⟩ => .base h1 ⟨I, hT hI, h2⟩

/-- Undirected edges and arcs together are as many as the arcs of the graph. -/
theorem Knows.card (hG : G.Valid) {T : Set (Set α)} {c : PDAG α} (h : Knows G T c) :
    c.edges.card + c.arcs.card = G.arcs.card := by
  have h1 : c.edges = (G.arcs \ c.arcs).image fun a => {a.1, a.2} := by
    ext e
    simp only [Finset.mem_image, Finset.mem_sdiff, Prod.exists]
    constructor
    · intro he
      obtain ⟨i, j, hij, rfl⟩ := h.shows.cons.edge_pair e he
      rcases (h.shows.edges i j).1 he with ⟨h1, h2⟩ | ⟨h1, h2⟩
      · exact ⟨i, j, ⟨h1, fun h3 => h2 ((h.shows.arcs _ _).1 h3)⟩, rfl⟩
      · exact ⟨j, i, ⟨h1, fun h3 => h2 ((h.shows.arcs _ _).1 h3)⟩, Finset.pair_comm _ _⟩
    · rintro ⟨i, j, ⟨h1, h2⟩, rfl⟩
      exact (h.shows.edges i j).2 (Or.inl ⟨h1, fun h3 => h2 ((h.shows.arcs _ _).2 h3)⟩)
  have h2 : (G.arcs \ c.arcs).card = c.edges.card := by
    rw [h1, Finset.card_image_of_injOn]
    rintro ⟨a, b⟩ hab ⟨a', b'⟩ hab' he
    simp only [Finset.coe_sdiff, Set.mem_sdiff, Finset.mem_coe] at hab hab'
    rcases PDAG.pair_eq_iff.1 he with ⟨rfl, rfl⟩ | ⟨rfl, rfl⟩
    · rfl
    · exact absurd hab'.1 (hG.acyclic.asymm hab.1)
  have hs : c.arcs ⊆ G.arcs := by rw [h.arcs]; exact dirArcs_sub T
  rw [← h2, Finset.card_sdiff_of_subset hs, Nat.sub_add_cancel (Finset.card_le_card hs)]

/-- Every node is matched by a node that is not dominated and teaches at least as much, if anything is left to learn. -/
theorem exists_undominated (hG : G.Valid) {T : Set (Set α)} {c : PDAG α} (h : Knows G T c)
    (hne : c.edges.card ≠ 0) (v : α) :
    ∃ w ∈ G.nodes \ c.dominatedNodes, G.dirArcs (T ∪ {{v}}) ⊆ G.dirArcs (T ∪ {{w}}) := by
  have hund : ∀ {i j}, j ∈ c.undirected i ↔ Undec G.E (CutBy T) i j := by
    intro i j
    rw [h.shows.cons.undirected_iff, Finset.pair_comm, h.shows.edges]
  -- the nodes of an edge are not both dominated
  have hpair : ∀ i j, Undec G.E (CutBy T) i j → i ∈ c.dominatedNodes →
      j ∉ c.dominatedNodes ∧ c.undirected i = {j} := by
    intro i j hij hi
    simp only [PDAG.dominatedNodes, Finset.mem_filter] at hi
    have hj : j ∈ c.undirected i := hund.2 hij
    rcases hi.2 with h0 | ⟨h1, h2⟩
    · rw [Finset.card_eq_zero.1 h0] at hj; simp at hj
    · obtain ⟨x, hx⟩ := Finset.card_eq_one.1 h1
      rw [hx, Finset.mem_singleton] at hj
      subst hj
      rw [hx, Finset.sup_singleton] at h2
      refine ⟨?_, hx⟩
      simp only [PDAG.dominatedNodes, Finset.mem_filter, not_and, not_or]
      exact fun _ => ⟨by omega, fun h3 => by omega⟩
  have hmem : ∀ {i j}, Undec G.E (CutBy T) i j → i ∈ G.nodes ∧ j ∈ G.nodes := by
    intro i j hij
    rcases hij.adj with h1 | h1
    · exact E_mem hG _ _ h1
    · exact (E_mem hG _ _ h1).symm
  by_cases hv : ∃ x, Undec G.E (CutBy T) v x
  · obtain ⟨x, hx⟩ := hv
    by_cases hd : v ∈ c.dominatedNodes
    · obtain ⟨h1, h2⟩ := hpair v x hx hd
      refine ⟨x, Finset.mem_sdiff.2 ⟨(hmem hx).2, h1⟩, ?_⟩
      rintro ⟨a, b⟩ hab
      rw [mem_dirArcs] at hab ⊢
      refine meek_dominated (hx.ne hG.acyclic) (fun y hy => ?_) hab
      have := hund.2 hy
      rw [h2, Finset.mem_singleton] at this
      exact this
    · exact ⟨v, Finset.mem_sdiff.2 ⟨(hmem hx).1, hd⟩, subset_rfl⟩
  · push Not at hv
    obtain ⟨e, he⟩ := Finset.card_pos.1 (Nat.pos_of_ne_zero hne)
    obtain ⟨i, j, hij, rfl⟩ := h.shows.cons.edge_pair e he
    have hu := (h.shows.edges i j).1 he
    have hsub : ∀ w, G.dirArcs (T ∪ {{v}}) ⊆ G.dirArcs (T ∪ {{w}}) := by
      rintro w ⟨a, b⟩ hab
      rw [mem_dirArcs] at hab
      exact dirArcs_mono (Set.subset_union_left) (mem_dirArcs.2 (meek_isolated hv hab))
    by_cases hd : i ∈ c.dominatedNodes
    · exact ⟨j, Finset.mem_sdiff.2 ⟨(hmem hu).2, (hpair i j hu hd).1⟩, hsub j⟩
    · exact ⟨i, Finset.mem_sdiff.2 ⟨(hmem hu).1, hd⟩, hsub i⟩

omit [DecidableEq α] in
theorem mapM_run {β γ : Type u} (f : β → Run α γ) (Q : β → γ → Prop) : ∀ l : List β,
    (∀ v ∈ l, ∃ P, (f v).run = some (.ok P) ∧ Q v P) →
    ∃ r, (l.mapM f).run = some (.ok r) ∧ List.Forall₂ Q l r := by
  intro l
  induction l with
  | nil => intro _; exact ⟨[], rfl, .nil⟩
  | cons v l ih =>
    intro h
    obtain ⟨P, h1, h2⟩ := h v List.mem_cons_self
    obtain ⟨r, h3, h4⟩ := ih fun w hw => h w (List.mem_cons_of_mem _ hw)
    refine ⟨P :: r, ?_, .cons h2 h4⟩
    rw [List.mapM_cons]
    simp [ExceptT.run_bind, h1, h3, Except.map]

theorem nodes2icpdags_spec (hG : G.Valid) (d : DesignOracle α) (n : ℕ) {T : Set (Set α)} {c : PDAG α}
    (h : Knows G T c) : ∃ items, (nodes2icpdags d n G c).run = some (.ok items) ∧
      (∀ v, v ∈ G.nodes \ c.dominatedNodes ↔ ∃ P, (v, P) ∈ items) ∧
      ∀ v P, (v, P) ∈ items → Knows G (T ∪ {{v}}) P := by
  obtain ⟨r, h1, h2⟩ := mapM_run
    (fun v => do
      let P ← G.interventionalCpdag d.arcs (d.icpdag n v) [{v}] c
      return (v, P))
    (fun v x => x.1 = v ∧ Knows G (T ∪ {{v}}) x.2) (d.nodes.ord n (G.nodes \ c.dominatedNodes)) (by
      intro v _
      obtain ⟨P, h1, h2⟩ := interventionalCpdag_knows hG d.arcs (d.icpdag n v) [{v}] h
      rw [targets_single] at h2
      exact ⟨(v, P), by simp [h1, Except.map], rfl, h2⟩)
  refine ⟨r, h1, fun v => ?_, fun v P hP => ?_⟩
  · rw [← d.nodes.mem_iff n]
    constructor
    · intro hv
      have : ∀ (l : List α) (r : List (α × PDAG α)), List.Forall₂ (fun v x => x.1 = v ∧ Knows G (T ∪ {{v}}) x.2) l r →
          v ∈ l → ∃ P, (v, P) ∈ r := by
        intro l r hf
        induction hf with
        | nil => simp
        | cons hx _ ih =>
          intro hv
          rcases List.mem_cons.1 hv with rfl | hv
          · obtain ⟨rfl, _⟩ := hx; exact ⟨_, List.mem_cons_self⟩
          · obtain ⟨P, hP⟩ := ih hv; exact ⟨P, List.mem_cons_of_mem _ hP⟩
      exact this _ _ h2 hv
    · rintro ⟨P, hP⟩
      have : ∀ (l : List α) (r : List (α × PDAG α)), List.Forall₂ (fun v x => x.1 = v ∧ Knows G (T ∪ {{v}}) x.2) l r →
          (v, P) ∈ r → v ∈ l := by
        intro l r hf
        induction hf with
        | nil => simp
        | cons hx _ ih =>
          intro hv
          rcases List.mem_cons.1 hv with h | hv
          · obtain ⟨rfl, _⟩ := hx; rw [← h]; exact List.mem_cons_self
          · exact List.mem_cons_of_mem _ (ih hv)
      exact this _ _ h2 hP
  · have : ∀ (l : List α) (r : List (α × PDAG α)), List.Forall₂ (fun v x => x.1 = v ∧ Knows G (T ∪ {{v}}) x.2) l r →
        (v, P) ∈ r → Knows G (T ∪ {{v}}) P := by
      intro l r hf
      induction hf with
      | nil => simp
      | cons hx _ ih =>
        intro hv
        rcases List.mem_cons.1 hv with h | hv
        · obtain ⟨rfl, hk⟩ := hx; rw [← h] at hk; exact hk
        · exact ih hv
    exact this _ _ h2 hP

/-- Arcs directed by a set of nodes. -/
theorem dirArcs_singles (hG : G.Valid) (T : Set (Set α)) (S : Finset α) :
    G.dirArcs (T ∪ singles S) = G.dirArcs T ∪ S.biUnion fun v => G.dirArcs (T ∪ {{v}}) := by
  ext ⟨a, b⟩
  rw [mem_dirArcs, meek_singles hG.acyclic, Finset.mem_union, mem_dirArcs, Finset.mem_biUnion]
  simp only [mem_dirArcs]

theorem verifies_iff_card (hG : G.Valid) (T : Set (Set α)) (S : Finset α) :
    Verifies G.E T S ↔ (G.dirArcs (T ∪ singles S)).card = G.arcs.card := by
  rw [verifies_iff_meek hG.acyclic (E_mem hG)]
  constructor
  · intro h
    congr 1
    exact Finset.Subset.antisymm (dirArcs_sub _) fun ⟨a, b⟩ hab => mem_dirArcs.2 (h a b hab)
  · intro h a b hab
    have := Finset.eq_of_subset_of_card_le (dirArcs_sub (G := G) (T ∪ singles S)) h.ge
    have hab' : (a, b) ∈ G.arcs := hab
    rw [← this] at hab'
    exact mem_dirArcs.1 hab'

end Model.DAG
