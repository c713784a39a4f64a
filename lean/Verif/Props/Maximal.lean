import Verif.Proof.Maximal
import Verif.Props.AG

/-! # C75: `to_maximal` and `is_maximal` -/

namespace Props

open Model Relation Spec

universe u
variable {α : Type u} [DecidableEq α]

/-- C75. On every ancestral graph `to_maximal()` terminates without raising, for all iteration and pop orders in all
passes. It keeps the nodes, directed and undirected edges; the bidirected edges afterwards are the old ones and exactly
those between two non-adjacent nodes that no set of other nodes m-separates; the result has consistent views, is ancestral
and maximal, and has the same m-separations. -/
theorem C75_to_maximal (A : AG α) (h : AG.Reachable A) (hanc : A.mixed.Ancestral) (w : ℕ → AG.MaxOracle α) :
    ∃ B, A.toMaximal w 0 = some (B, none) ∧ B.Consistent ∧ B.Simple ∧ B.mixed.Ancestral ∧
      B.mixed.Maximal {v | v ∈ B.nodes} ∧
      B.nodes = A.nodes ∧ B.directed = A.directed ∧ B.undirected = A.undirected ∧
      (∀ e, e ∈ B.bidirected ↔ e ∈ A.bidirected ∨ ∃ i j, e = {i, j} ∧ i ∈ A.nodes ∧ j ∈ A.nodes ∧ i ≠ j ∧
        ¬ A.mixed.Adj i j ∧ ∀ Z ⊆ {v | v ∈ A.nodes} \ {i, j}, ¬ A.mixed.MSep {i} {j} Z) ∧
      ∀ S T C : Set α, Disjoint S C → (B.mixed.MSep S T C ↔ A.mixed.MSep S T C) := by
  obtain ⟨B, h1, h2, h3⟩ := AG.toMaximal_spec w _ 0 A rfl h.good hanc
  exact ⟨B, h1, h2.good.1, h2.good.2, h2.ancestral, h3, h2.nodes, h2.directed, h2.undirected, h2.exact h.good h3, h2.msep⟩

/-- `to_maximal(new=False)`, which tries all conditioning sets, does the same. -/
theorem C75_to_maximal_old (A : AG α) (h : AG.Reachable A) (hanc : A.mixed.Ancestral) (w : ℕ → AG.MaxOracle α)
    (o : SepOracle α) (oS : SetOrder (α × α) α) (on : SetOrder Unit α) :
    ∃ B C, A.toMaximal w 0 = some (B, none) ∧
      AG.toMaximalOld o oS (DAG.pairs (on.ord () A.nodes)) A = some (C, none) ∧ B = C := by
  obtain ⟨B, h1, h2, h3⟩ := AG.toMaximal_spec w _ 0 A rfl h.good hanc
  obtain ⟨C, k1, k2, k3⟩ := AG.toMaximalOld_spec h.good hanc o oS on
  refine ⟨B, C, h1, k1, AG.Consistent.ext h2.good.1 k2.good.1 (h2.nodes.trans k2.nodes.symm)
    (h2.directed.trans k2.directed.symm) ?_ (h2.undirected.trans k2.undirected.symm)⟩
  ext e
  rw [h2.exact h.good h3, k2.exact h.good k3]

/-- `is_maximal()` and `is_maximal(new=False)` terminate without raising and return `True` exactly on maximal graphs: those
where any two non-adjacent nodes are m-separated by some set of other nodes. -/
theorem C75_is_maximal (A : AG α) (h : AG.Reachable A) (hanc : A.mixed.Ancestral) (o : SetOrder (Fin 3) (α × α))
    (up : Unpack α) (w : ℕ → AG.MaxOracle α) (os : SepOracle α) (on : SetOrder Unit α) (oS : SetOrder (α × α) α) :
    (∃ r, A.isMaximal o up w = some (.ok r) ∧ (r = true ↔ A.mixed.Maximal {v | v ∈ A.nodes})) ∧
    (∃ r, A.isMaximalOld o up os on oS = some (.ok r) ∧ (r = true ↔ A.mixed.Maximal {v | v ∈ A.nodes})) :=
  ⟨AG.isMaximal_spec h.good hanc o up w, AG.isMaximalOld_spec h.good hanc o up os on oS⟩

/-- `2 ↔ 0 ↔ 1 ↔ 3`, `0 → 3`, `1 → 2` is an ancestral graph that is not maximal: `to_maximal` adds `2 ↔ 3`. -/
example : ∃ A : AG (Fin 4), AG.Reachable A ∧ A.mixed.Ancestral ∧ ¬ A.mixed.Maximal {v | v ∈ A.nodes} ∧
    ∀ w, ∃ B, A.toMaximal w 0 = some (B, none) ∧ {2, 3} ∈ B.bidirected := by
  have g : (Sample.mixed (n := 4) {(0, 3), (1, 2)} {{0, 2}, {0, 1}, {1, 3}} ∅).Good :=
    Sample.mixed_good (by decide) (by decide) (by decide) (by decide) (by decide)
  have r := Sample.mixed_reachable g Sample.order {(0, 2), (0, 1), (1, 3)} ∅ (by decide) rfl
  have out : ∀ {x y}, Path (Sample.mixed (n := 4) {(0, 3), (1, 2)} {{0, 2}, {0, 1}, {1, 3}} ∅).mixed.dir x y →
      (Sample.mixed (n := 4) {(0, 3), (1, 2)} {{0, 2}, {0, 1}, {1, 3}} ∅).mixed.dir x y := by
    intro x y h
    induction h with
    | single h => exact h
    | tail _ h ih =>
      exfalso
      rename_i b c k
      clear k; revert x b c; unfold AG.mixed; decide
  have anc : (Sample.mixed (n := 4) {(0, 3), (1, 2)} {{0, 2}, {0, 1}, {1, 3}} ∅).mixed.Ancestral := by
    refine ⟨fun v h => ?_, fun u v hb h => ?_, fun u v w h => ?_⟩
    · have := out h; revert this; clear h; revert v; unfold AG.mixed; decide
    · have := out h; revert this hb; clear h; revert u v; unfold AG.mixed; decide
    · simp [AG.mixed, Sample.mixed] at h
  have hind : (Sample.mixed (n := 4) {(0, 3), (1, 2)} {{0, 2}, {0, 1}, {1, 3}} ∅).mixed.Ind 2 3 := by
    refine ⟨0, 1, Or.inr (by unfold AG.mixed; decide), Or.inr (.single (by unfold AG.mixed; decide)),
      .single ⟨by unfold AG.mixed; decide, Or.inl (.single (by unfold AG.mixed; decide))⟩, Or.inr (by unfold AG.mixed; decide)⟩
  have nadj : ¬ (Sample.mixed (n := 4) {(0, 3), (1, 2)} {{0, 2}, {0, 1}, {1, 3}} ∅).mixed.Adj 2 3 := by
    change ¬ (_ ∨ _ ∨ _ ∨ _); unfold AG.mixed; decide
  refine ⟨_, r, anc, fun hm => g.maximal_iff.1 hm 2 (by simp [Sample.mixed]) 3 (by simp [Sample.mixed]) (by decide) nadj hind, ?_⟩
  intro w
  obtain ⟨B, h1, -, -, -, -, -, -, -, h2, -⟩ := C75_to_maximal _ r anc w
  refine ⟨B, h1, (h2 _).2 (Or.inr ⟨2, 3, rfl, by simp [Sample.mixed], by simp [Sample.mixed], by decide, nadj, ?_⟩)⟩
  exact (Mixed.ind_iff g.proper (AG.hV g) (by decide) nadj).1 hind

end Props
