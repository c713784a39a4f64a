import Verif.Proof.AGQueries
import Verif.Proof.Inducing
import Verif.Proof.Moral

/-! # Maximality and `pairwise_markov_statements` -/

namespace Model.AG

universe u
variable {α : Type u} [DecidableEq α] {A : AG α}
open Relation Spec

theorem Good.proper (h : A.Good) : A.mixed.Proper where
  bi_symm u v k := by change ({v, u} : Finset α) ∈ _; rw [Finset.pair_comm]; exact k
  un_symm u v k := by change ({v, u} : Finset α) ∈ _; rw [Finset.pair_comm]; exact k
  tails u v w k hi := by
    obtain ⟨h1, h2⟩ := h.2.tails u v w k
    exact hi.elim h1 h2
  excl u v k hi := by
    rcases hi with hi | hi
    · exact h.2.dir_dir _ _ k hi
    · exact h.2.dir_bi _ _ k (by rw [Finset.pair_comm]; exact hi)

theorem Good.adj_mem (h : A.Good) {x y : α} (k : A.mixed.Adj x y) : x ∈ A.nodes ∧ y ∈ A.nodes := by
  rcases k with k | k | k | k
  · exact h.1.dir_mem _ _ k
  · exact (h.1.dir_mem _ _ k).symm
  · have := h.1.bi_mem _ k; exact ⟨this (by simp), this (by simp)⟩
  · have := h.1.un_mem _ k; exact ⟨this (by simp), this (by simp)⟩

theorem Good.maximal_iff (h : A.Good) : A.mixed.Maximal {v | v ∈ A.nodes} ↔
    ∀ i ∈ A.nodes, ∀ j ∈ A.nodes, i ≠ j → ¬ A.mixed.Adj i j → ¬ A.mixed.Ind i j :=
  Mixed.maximal_iff h.proper fun _ _ k => (h.adj_mem k).1

/-- Without undirected edges the other ancestors of two nodes separate them in a maximal graph. -/
theorem msep_ancestors (h : A.Good) (hmax : A.mixed.Maximal {v | v ∈ A.nodes}) (hun : A.undirected = ∅) {i j : α}
    (hi : i ∈ A.nodes) (hj : j ∈ A.nodes) (hij : i ≠ j) (hadj : ¬ A.mixed.Adj i j) {Z : Set α}
    (hZ : ∀ x, x ∈ Z ↔ x ≠ i ∧ x ≠ j ∧ A.mixed.Anc2 i j x) : A.mixed.MSep {i} {j} Z := by
  have hant : ∀ {x y}, A.mixed.Ant x y ↔ Path0 A.mixed.dir x y := by
    intro x y
    refine ⟨path0_mono fun a b k => ?_, Mixed.ant_of_path0⟩
    rcases k with k | k
    · exact k
    · exact absurd (show ({a, b} : Finset α) ∈ A.undirected from k) (by simp [hun])
  rintro a rfl b rfl l hl
  refine h.maximal_iff.1 hmax a hi b hj hij hadj (Mixed.ind_of_open h.proper hij hadj (Z := Z) (l := l) ?_ ?_
    ⟨hl.head, hl.last, hl.adj, hl.opn⟩ hl.nodup)
  · intro x h1 h2 h3 _
    refine (hZ x).2 ⟨h1, h2, ?_⟩
    rcases h3 with k | k
    · exact Or.inl ((reflTransGen_iff_eq_or_transGen.1 (hant.1 k)).resolve_left (Ne.symm h1))
    · exact Or.inr ((reflTransGen_iff_eq_or_transGen.1 (hant.1 k)).resolve_left (Ne.symm h2))
  · intro x hx
    rcases ((hZ x).1 hx).2.2 with k | k
    · exact Or.inl (hant.2 k.to_reflTransGen)
    · exact Or.inr (hant.2 k.to_reflTransGen)

omit [DecidableEq α] in
theorem mapM_option {β γ : Type u} (f : β → Option γ) (g : β → γ) : ∀ l : List β, (∀ x ∈ l, f x = some (g x)) →
    l.mapM f = some (l.map g) := by
  intro l
  induction l with
  | nil => intro _; rfl
  | cons x l ih =>
    intro h
    rw [List.mapM_cons, h x List.mem_cons_self, ih fun y hy => h y (List.mem_cons_of_mem _ hy)]
    rfl

theorem pairwiseMarkov_spec (h : A.Good) (on : SetOrder Unit α) (o : SetOrder (α × Finset α) α) :
    ∃ l, A.pairwiseMarkov on o = some l ∧ (∀ i ∈ A.nodes, ∀ j ∈ A.nodes, i ≠ j → ¬ A.mixed.Adj i j →
      ∃ S, (i, j, S) ∈ l ∨ (j, i, S) ∈ l) ∧
    ∀ i j S, (i, j, S) ∈ l → i ∈ A.nodes ∧ j ∈ A.nodes ∧ i ≠ j ∧ ¬ A.mixed.Adj i j ∧
      (∀ x, x ∈ S ↔ Path A.mixed.dir x i ∨ (Path A.mixed.dir x j ∧ x ≠ i ∧ x ≠ j)) ∧
      (i, j) ∈ DAG.pairs (on.ord () A.nodes) := by
  choose g hg hg' using fun v => ancestorsOf_spec h o ∅ v
  have hg'' : ∀ v x, x ∈ g v ↔ Path A.mixed.dir x v := by
    intro v x; rw [hg']; simp [mixed]
  refine ⟨_, mapM_option _ (fun p => (p.1, p.2, g p.1 ∪ g p.2 \ {p.1, p.2})) _ ?_, ?_, ?_⟩
  · intro p _; rw [hg, hg]; rfl
  · intro i hi j hj hij hadj
    have hadj' : ¬ A.mixed.Adj j i := fun k => hadj (h.proper.ok.symm _ _ k)
    have key : ∀ {i j}, ¬ A.mixed.Adj i j → (i, j) ∈ DAG.pairs (on.ord () A.nodes) →
        (i, j) ∈ (DAG.pairs (on.ord () A.nodes)).filter fun p => !A.hasAnyEdge p.1 p.2 := by
      intro i j k hp
      refine List.mem_filter.2 ⟨hp, ?_⟩
      rw [Bool.not_eq_true', ← Bool.not_eq_true, hasAnyEdge_iff]
      exact k
    rcases (mem_pairs (on.nodup () A.nodes)).2 ⟨(on.mem_iff _ _ _).2 hi, (on.mem_iff _ _ _).2 hj, hij⟩ with k | k
    · exact ⟨_, Or.inl (List.mem_map.2 ⟨_, key hadj k, rfl⟩)⟩
    · exact ⟨_, Or.inr (List.mem_map.2 ⟨_, key hadj' k, rfl⟩)⟩
  · intro i j S hS
    obtain ⟨⟨a, b⟩, hp, he⟩ := List.mem_map.1 hS
    simp only [Prod.mk.injEq] at he
    obtain ⟨rfl, rfl, rfl⟩ := he
    obtain ⟨h1, h2⟩ := List.mem_filter.1 hp
    obtain ⟨h3, h4, h5⟩ := (mem_pairs (on.nodup () A.nodes)).1 (Or.inl h1)
    rw [Bool.not_eq_true', ← Bool.not_eq_true, hasAnyEdge_iff] at h2
    refine ⟨(on.mem_iff _ _ _).1 h3, (on.mem_iff _ _ _).1 h4, h5, h2, fun x => ?_, h1⟩
    simp only [Finset.mem_union, Finset.mem_sdiff, Finset.mem_insert, Finset.mem_singleton, hg'', not_or]

end Model.AG
