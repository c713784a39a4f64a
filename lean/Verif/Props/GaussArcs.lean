import Verif.Proof.GaussArcs
import Verif.Props.DiscreteSample
import Mathlib.Data.Fin.VecNotation
import Mathlib.Data.Rat.Defs
import Mathlib.Tactic.FinCases

/-! # `set_arc_weights` and `add_arcs_from` of `GaussDAG` (property C258) -/

namespace Props

open Model Spec

variable {n : ℕ} {K : Type} [Field K] [DecidableEq K]

/-- C258. `set_arc_weights(arcs)` for a dictionary with nodes of the graph raises nothing, sets these weights and no others, and the arcs
are those of nonzero weight. If they form no cycle the object is in a state in which this can be used again. -/
theorem C258_set_arc_weights_partial {G : Gauss n K} (h : G.Sound) (hv : G.dag.Valid) (oa : SetOrder Bool (ℕ × ℕ))
    {arcs : List ((ℕ × ℕ) × K)} (hk : ∀ e ∈ arcs, (∃ a, G.names a = e.1.1) ∧ ∃ b, G.names b = e.1.2) (hn : (arcs.map Prod.fst).Nodup) :
    ∃ G', G.setArcWeights oa arcs = (G', none) ∧ G'.names = G.names ∧ G'.dag.nodes = G.dag.nodes ∧ G'.biases = G.biases ∧
      G'.variances = G.variances ∧ (∀ a b v, ((G.names a, G.names b), v) ∈ arcs → G'.weight a b = v) ∧
      (∀ a b, (∀ v, ((G.names a, G.names b), v) ∉ arcs) → G'.weight a b = G.weight a b) ∧
      (∀ a b, (G.names a, G.names b) ∈ G'.dag.arcs ↔ G'.weight a b ≠ 0) ∧ (Acyclic G'.dag.E → G'.Sound ∧ G'.dag.Valid) := by
  obtain ⟨W, d, h1, h2, h3, h4, h5, h6⟩ := Gauss.setArcWeights_spec h hv oa hk hn
  refine ⟨_, h1, rfl, h5, rfl, rfl, h2, h3, h6, fun ha => ⟨⟨⟨?_, h.listed.inj, fun v => ?_⟩, h6⟩, h4, ha⟩⟩
  · exact (show DAG.Valid d from ⟨h4, ha⟩).sortable
  · rw [← h.listed.range v]
    exact iff_of_eq (congrArg (v ∈ ·) h5)

/-- C258. A dictionary with an unknown node: `KeyError`, and nothing has been changed. -/
theorem C258_unknown (G : Gauss n K) (oa : SetOrder Bool (ℕ × ℕ)) {arcs : List ((ℕ × ℕ) × K)}
    (h : ∃ e ∈ arcs, (∀ a, G.names a ≠ e.1.1) ∨ ∀ a, G.names a ≠ e.1.2) : G.setArcWeights oa arcs = (G, some .key) := by
  have hl : ¬ arcs.length = 0 := by
    obtain ⟨e, he, -⟩ := h
    exact fun h0 => by rw [List.length_eq_zero_iff.1 h0] at he; simp at he
  rw [Gauss.setArcWeights, if_neg hl, Gauss.putWeights_unknown arcs _ h]

/-- C258. `add_arcs_from(arcs)` adds the arcs, with weight 1 even if they were there before. -/
theorem C258_add_arcs_from_partial {G : Gauss n K} (h : G.Sound) (hv : G.dag.Valid) (oa : SetOrder Bool (ℕ × ℕ)) {arcs : List (ℕ × ℕ)}
    (hk : ∀ e ∈ arcs, (∃ a, G.names a = e.1) ∧ ∃ b, G.names b = e.2) (hn : arcs.Nodup) :
    ∃ G', G.addArcsFrom oa arcs = (G', none) ∧ G'.names = G.names ∧ G'.dag.nodes = G.dag.nodes ∧
      (∀ a b, G'.weight a b = if (G.names a, G.names b) ∈ arcs then 1 else G.weight a b) ∧
      (∀ a b, (G.names a, G.names b) ∈ G'.dag.arcs ↔ (G.names a, G.names b) ∈ G.dag.arcs ∨ (G.names a, G.names b) ∈ arcs) ∧
      (Acyclic G'.dag.E → G'.Sound ∧ G'.dag.Valid) := by
  obtain ⟨G', h1, h2, h3, -, -, h6, h7, h8, h9⟩ := C258_set_arc_weights_partial h hv oa (arcs := arcs.map fun a => (a, (1 : K)))
    (fun e he => by
      obtain ⟨a, ha, rfl⟩ := List.mem_map.1 he
      exact hk a ha) (by rw [List.map_map]; simpa [Function.comp_def] using hn)
  have hw : ∀ a b, G'.weight a b = if (G.names a, G.names b) ∈ arcs then 1 else G.weight a b := by
    intro a b
    split_ifs with hm
    · exact h6 a b 1 (List.mem_map.2 ⟨_, hm, rfl⟩)
    · refine h7 a b fun v hv => hm ?_
      obtain ⟨p, hp, e⟩ := List.mem_map.1 hv
      rw [← (Prod.mk.inj e).1]; exact hp
  refine ⟨G', h1, h2, h3, hw, fun a b => ?_, h9⟩
  rw [h8, hw, h.arcs_iff]
  split_ifs with hm <;> simp [hm]

namespace GaussCase

/-- `0 → 1` with weight 1 among three nodes. -/
def three : Gauss 3 ℚ :=
  { dag := Sample.natGraph {0, 1, 2} {(0, 1)}, names := Fin.val, weight := !![0, 1, 0; 0, 0, 0; 0, 0, 0], variances := 1, biases := 0
    precision := none, covariance := none, correlation := none }

theorem three_valid : three.dag.Valid := Sample.natGraph_valid (by decide)

theorem three_sound : three.Sound := by
  refine ⟨⟨three_valid.sortable, Fin.val_injective, fun v => ?_⟩, fun a b => ?_⟩
  · constructor
    · intro h
      have : v < 3 := by
        simp only [three, Sample.natGraph, Finset.mem_insert, Finset.mem_singleton] at h
        omega
      exact ⟨⟨v, this⟩, rfl⟩
    · rintro ⟨a, rfl⟩
      fin_cases a <;> decide
  · fin_cases a <;> fin_cases b <;> simp [three, Sample.natGraph]

end GaussCase

example (oa : SetOrder Bool (ℕ × ℕ)) : ∃ G', GaussCase.three.setArcWeights oa [((0, 1), 0), ((2, 1), 5)] = (G', none) ∧ G'.weight 0 1 = 0 ∧
    G'.weight 2 1 = 5 ∧ (2, 1) ∈ G'.dag.arcs ∧ (0, 1) ∉ G'.dag.arcs := by
  obtain ⟨G', h1, -, -, -, -, h6, -, h8, -⟩ := C258_set_arc_weights_partial GaussCase.three_sound GaussCase.three_valid oa
    (arcs := [((0, 1), 0), ((2, 1), 5)]) (by
      intro e he
      simp only [List.mem_cons, List.not_mem_nil, or_false] at he
      rcases he with rfl | rfl
      · exact ⟨⟨0, rfl⟩, 1, rfl⟩
      · exact ⟨⟨2, rfl⟩, 1, rfl⟩) (by decide)
  have e1 : G'.weight 0 1 = 0 := h6 0 1 0 (by simp [GaussCase.three])
  have e2 : G'.weight 2 1 = 5 := h6 2 1 5 (by simp [GaussCase.three])
  exact ⟨G', h1, e1, e2, (h8 2 1).2 (by rw [e2]; norm_num), fun h => (h8 0 1).1 h e1⟩

example (oa : SetOrder Bool (ℕ × ℕ)) : GaussCase.three.setArcWeights oa [((0, 1), 2), ((1, 7), 5)] = (GaussCase.three, some .key) :=
  C258_unknown _ oa ⟨((1, 7), 5), by simp, Or.inr fun a => by fin_cases a <;> decide⟩

example (oa : SetOrder Bool (ℕ × ℕ)) : ∃ G', GaussCase.three.addArcsFrom oa [(1, 2), (0, 2)] = (G', none) ∧ G'.weight 1 2 = 1 ∧
    (0, 1) ∈ G'.dag.arcs ∧ (0, 2) ∈ G'.dag.arcs := by
  obtain ⟨G', h1, -, -, h4, h5, -⟩ := C258_add_arcs_from_partial GaussCase.three_sound GaussCase.three_valid oa
    (arcs := [(1, 2), (0, 2)]) (by
      intro e he
      simp only [List.mem_cons, List.not_mem_nil, or_false] at he
      rcases he with rfl | rfl
      · exact ⟨⟨1, rfl⟩, 2, rfl⟩
      · exact ⟨⟨0, rfl⟩, 2, rfl⟩) (by decide)
  exact ⟨G', h1, by rw [h4]; simp [GaussCase.three], (h5 0 1).2 (Or.inl (by decide)), (h5 0 2).2 (Or.inr (by decide))⟩

/-- C258, violated: an arc that closes a cycle is accepted, by both methods. -/
theorem C258_violated : ∃ G : Gauss 3 ℚ, G.Sound ∧ G.dag.Valid ∧ ∀ oa, (∃ G', G.setArcWeights oa [((1, 0), 1)] = (G', none) ∧
    ¬ Acyclic G'.dag.E) ∧ ∃ G', G.addArcsFrom oa [(1, 0)] = (G', none) ∧ ¬ Acyclic G'.dag.E := by
  have key : ∀ oa, ∃ G', GaussCase.three.addArcsFrom oa [(1, 0)] = (G', none) ∧ ¬ Acyclic G'.dag.E := fun oa => by
    obtain ⟨G', h1, -, -, -, h5, -⟩ := C258_add_arcs_from_partial GaussCase.three_sound GaussCase.three_valid oa
      (arcs := [(1, 0)]) (by
        intro e he
        rw [List.mem_singleton.1 he]
        exact ⟨⟨1, rfl⟩, 0, rfl⟩) (by decide)
    exact ⟨G', h1, fun ha => ha.asymm ((h5 0 1).2 (Or.inl (by decide))) ((h5 1 0).2 (Or.inr (by decide)))⟩
  exact ⟨GaussCase.three, GaussCase.three_sound, GaussCase.three_valid, fun oa => ⟨key oa, key oa⟩⟩

end Props
