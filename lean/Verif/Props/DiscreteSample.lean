import Verif.Props.Sample
import Verif.Spec.Discrete
import Mathlib.Data.Finset.Sort

/-! # Sample objects: discrete graphs -/

namespace Sample

open Model Spec
open scoped NNReal

/-- The probability of an entry of the table of a noisy parity. -/
noncomputable def noisy (i : List ℕ) : ℝ≥0 := if i.sum % 2 = 0 then 3 / 4 else 1 / 4

/-- Binary nodes; a node is the parity of its parents with probability `3/4`. -/
noncomputable def parity {n : ℕ} (arcs : Finset (Fin n × Fin n)) : DiscreteDAG (Fin n) :=
  { dag := graph arcs
    pars := fun v => (List.finRange n).filter fun u => (u, v) ∈ arcs
    alph := fun _ => [0, 1]
    cond := fun v => ⟨(((List.finRange n).filter fun u => (u, v) ∈ arcs) ++ [v]).map fun _ => 2, noisy⟩ }

theorem parity_proper {n : ℕ} {arcs : Finset (Fin n × Fin n)} (h : ∀ a ∈ arcs, a.1 < a.2) : (parity arcs).Proper := by
  refine ⟨⟨graph_valid h, fun v _ => (List.nodup_finRange n).filter _, fun v _ u => ?_, fun v _ => rfl⟩, fun v _ x _ => ?_⟩
  · simp [parity, graph]
  · change ∑ i ∈ Finset.range 2, noisy (_ ++ [i]) = 1
    rw [Finset.sum_range_succ, Finset.sum_range_one]
    simp only [noisy, List.sum_append, List.sum_singleton]
    have h34 : (3 / 4 : ℝ≥0) + 1 / 4 = 1 := by norm_num
    have h43 : (1 / 4 : ℝ≥0) + 3 / 4 = 1 := by norm_num
    split_ifs with h1 h2 h2
    · omega
    · exact h34
    · exact h43
    · omega

theorem parity_cut {n : ℕ} (arcs : Finset (Fin n × Fin n)) : (parity arcs).Cut := by
  intro v _ x _
  right
  change _ < noisy _
  rw [noisy]
  split_ifs
  · rw [div_lt_div_iff₀ (by positivity) (by positivity)]; norm_num
  · rw [div_lt_div_iff₀ (by positivity) (by positivity)]; norm_num

/-- The graph on numbers with the given nodes and arcs and the views that belong to them. -/
def natGraph (nodes : Finset ℕ) (arcs : Finset (ℕ × ℕ)) : DAG ℕ :=
  { nodes := nodes
    arcs := arcs
    neighbors := fun v => nodes.filter fun u => (u, v) ∈ arcs ∨ (v, u) ∈ arcs
    parents := fun v => nodes.filter fun u => (u, v) ∈ arcs
    children := fun v => nodes.filter fun w => (v, w) ∈ arcs }

theorem natGraph_valid {nodes : Finset ℕ} {arcs : Finset (ℕ × ℕ)} (h : ∀ a ∈ arcs, a.1 < a.2 ∧ a.1 ∈ nodes ∧ a.2 ∈ nodes) :
    (natGraph nodes arcs).Valid := by
  refine ⟨?_, fun v hv => ?_⟩
  · have h1 : ∀ i j, (i, j) ∈ arcs → i ∈ nodes := fun i j e => (h _ e).2.1
    have h2 : ∀ i j, (i, j) ∈ arcs → j ∈ nodes := fun i j e => (h _ e).2.2
    constructor
    · exact fun i j => by simpa [natGraph] using h1 i j
    · exact fun i j => by simpa [natGraph] using h2 i j
    · refine fun i j => ?_
      simp only [natGraph, Finset.mem_filter, and_iff_right_iff_imp]
      rintro (e | e)
      · exact h1 _ _ e
      · exact h2 _ _ e
    · exact h1
    · exact h2
  · have : ∀ a b, Path (natGraph nodes arcs).E a b → a < b := fun a b hab => by
      induction hab with
      | single e => exact (h _ e).1
      | tail _ e ih => exact lt_trans ih (h _ e).1
    exact lt_irrefl _ (this v v hv)

/-- The noisy parity on numbers. -/
noncomputable def natParity (nodes : Finset ℕ) (arcs : Finset (ℕ × ℕ)) : DiscreteDAG ℕ :=
  { dag := natGraph nodes arcs
    pars := fun v => (nodes.sort (· ≤ ·)).filter fun u => (u, v) ∈ arcs
    alph := fun _ => [0, 1]
    cond := fun v => ⟨(((nodes.sort (· ≤ ·)).filter fun u => (u, v) ∈ arcs) ++ [v]).map fun _ => 2, noisy⟩ }

theorem natParity_proper {nodes : Finset ℕ} {arcs : Finset (ℕ × ℕ)} (h : ∀ a ∈ arcs, a.1 < a.2 ∧ a.1 ∈ nodes ∧ a.2 ∈ nodes) :
    (natParity nodes arcs).Proper := by
  refine ⟨⟨natGraph_valid h, fun v _ => (nodes.sort_nodup _).filter _, fun v _ u => ?_, fun v _ => rfl⟩, fun v _ x _ => ?_⟩
  · simpa [natParity, natGraph] using fun e => (h (u, v) e).2.1
  · change ∑ i ∈ Finset.range 2, noisy (_ ++ [i]) = 1
    rw [Finset.sum_range_succ, Finset.sum_range_one]
    simp only [noisy, List.sum_append, List.sum_singleton]
    have h34 : (3 / 4 : ℝ≥0) + 1 / 4 = 1 := by norm_num
    have h43 : (1 / 4 : ℝ≥0) + 3 / 4 = 1 := by norm_num
    split_ifs with h1 h2 h2
    · omega
    · exact h34
    · exact h43
    · omega

theorem natParity_cut (nodes : Finset ℕ) (arcs : Finset (ℕ × ℕ)) : (natParity nodes arcs).Cut := by
  intro v _ x _
  right
  change _ < noisy _
  rw [noisy]
  split_ifs
  · rw [div_lt_div_iff₀ (by positivity) (by positivity)]; norm_num
  · rw [div_lt_div_iff₀ (by positivity) (by positivity)]; norm_num

theorem natParity_law (nodes : Finset ℕ) (arcs : Finset (ℕ × ℕ)) (x : ℕ → ℕ) : (natParity nodes arcs).law x ≠ 0 := by
  refine Finset.prod_ne_zero_iff.2 fun v _ => ?_
  change noisy _ ≠ 0
  rw [noisy]
  split_ifs <;> simp

end Sample
