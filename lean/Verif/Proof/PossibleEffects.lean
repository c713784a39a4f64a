import Verif.Proof.Adjust
import Verif.Proof.DiscreteBackdoor
import Verif.Spec.Essential
import Verif.Props.Adjust

/-! # Members of a Markov equivalence class and total effects in them -/

namespace Props

open Model Model.DAG Spec Relation

universe u

open scoped Classical in
/-- The graph with given nodes and arcs. -/
theorem exists_dag {α : Type u} [DecidableEq α] {N : Finset α} {F : α → α → Prop} (hF : Acyclic F) (hN : ∀ a b, F a b → a ∈ N ∧ b ∈ N) :
    ∃ H : DAG α, H.Valid ∧ H.nodes = N ∧ H.E = F := by
  refine ⟨{ nodes := N, arcs := (N ×ˢ N).filter fun a => F a.1 a.2, neighbors := fun v => N.filter fun u => F u v ∨ F v u,
            parents := fun v => N.filter fun u => F u v, children := fun v => N.filter fun u => F v u }, ?_, rfl, ?_⟩
  · have hE : ∀ a b, (a, b) ∈ ((N ×ˢ N).filter fun a => F a.1 a.2) ↔ F a b := fun a b => by
      rw [Finset.mem_filter, Finset.mem_product]
      exact ⟨fun h => h.2, fun h => ⟨hN a b h, h⟩⟩
    refine ⟨⟨?_, ?_, ?_, ?_, ?_⟩, ?_⟩
    · intro a b
      change a ∈ N.filter _ ↔ _
      rw [Finset.mem_filter, hE]
      exact ⟨fun h => h.2, fun h => ⟨(hN _ _ h).1, h⟩⟩
    · intro a b
      change _ ∈ N.filter _ ↔ _
      rw [Finset.mem_filter, hE]
      exact ⟨fun h => h.2, fun h => ⟨(hN _ _ h).2, h⟩⟩
    · intro a b
      change _ ∈ N.filter _ ↔ _
      rw [Finset.mem_filter, hE, hE]
      exact ⟨fun h => h.2, fun h => ⟨h.elim (fun h => (hN _ _ h).1) (fun h => (hN _ _ h).2), h⟩⟩
    · exact fun a b h => (hN a b ((hE a b).1 h)).1
    · exact fun a b h => (hN a b ((hE a b).1 h)).2
    · intro v hv
      exact hF v (TransGen.mono (fun a b h => (hE a b).1 h) _ _ hv)
  · funext a b
    refine propext ?_
    change (a, b) ∈ (N ×ˢ N).filter _ ↔ _
    rw [Finset.mem_filter, Finset.mem_product]
    exact ⟨fun h => h.2, fun h => ⟨hN a b h, h⟩⟩

variable {n k : ℕ}

/-- The total effects of a node are 1 on itself and 0 on the nodes without a path to them. -/
theorem sem_row {H : DAG ℕ} (hH : H.Valid) {A : Matrix (Fin n) (Fin n) ℝ} (hA : ∀ a b, A a b ≠ 0 → H.E a.val b.val) (i : Fin n) :
    AcyclicWeights A ∧ (1 - A)⁻¹ i i = 1 ∧ ∀ j, j ≠ i → ¬ Path H.E i.val j.val → (1 - A)⁻¹ i j = 0 := by
  obtain ⟨G, G1, g1, g2, g3, rfl, -, g6, -, -⟩ := read_amat hH hA 0 1 (SetOrder.any _ _)
  obtain ⟨t1, t2⟩ := effects_row g2 i
  refine ⟨g2.acyclic, t1, fun j hj hp => ?_⟩
  rw [t2 _ hj]
  refine C80_zero g2.toSound fun hpath => hp ?_
  rw [g2.names, g2.names] at hpath
  exact TransGen.mono (fun x y hxy => g6 x y hxy) _ _ hpath

/-- The regression on a node and its parents, in any graph that the covariance matrix comes from. -/
theorem effect_of_parents {H : DAG ℕ} (hH : H.Valid) {A : Matrix (Fin n) (Fin n) ℝ} (hA : ∀ a b, A a b ≠ 0 → H.E a.val b.val)
    {v : Fin n → ℝ} (hv : ∀ a, 0 < v a) {i j : Fin n} (hij : i ≠ j) {z : Fin k → Fin n} (hz : ∀ x : Fin n, H.E x.val i.val ↔ ∃ a, z a = x)
    (hj : ¬ H.E j.val i.val) {β : Fin (k + 1) → ℝ}
    (hβ : ∀ a, ((semCov A v).submatrix (Matrix.vecCons i z) (Matrix.vecCons i z)).mulVec β a = semCov A v (Matrix.vecCons i z a) j) :
    β 0 = (1 - A)⁻¹ i j := by
  have hE := fin_acyclic (n := n) hH
  obtain ⟨hAc, t1, t2⟩ := sem_row hH hA i
  have hpj : ∀ a, Matrix.vecCons i z a ≠ j := by
    intro a
    induction a using Fin.cases with
    | zero => exact hij
    | succ a => exact fun ha => hj ((hz j).2 ⟨a, ha⟩)
  refine adjust_of_dsep hAc hv hpj (i := i) (a0 := 0) rfl t1 (fun a ha => ?_) hβ ?_
  · obtain ⟨a, rfl⟩ := Fin.exists_succ_eq.2 ha
    have hE' : H.E (z a).val i.val := (hz _).2 ⟨a, rfl⟩
    exact t2 _ (fun e : z a = i => hH.acyclic i.val (.single (e ▸ hE'))) fun hp => hH.acyclic i.val (hp.tail hE')
  · refine dsep_sub (E := Augment (fun a b : Fin n => H.E a.val b.val) {i}) (augment_acyclic hE) (fun x y hxy => ?_) ?_
    · cases hxy with
      | old h => exact .old (hA _ _ h)
      | target h => exact .target h
    · have := source_separated hE (i := i) (A := {j}) (fun h => hij h) (fun p hp h => hj (Set.mem_singleton_iff.1 h ▸ hp))
      rw [Set.image_singleton] at this
      convert this using 2
      ext x
      simp only [Set.mem_range, Set.mem_insert_iff, Set.mem_ofPred_eq, Fin.exists_fin_succ, hz]
      exact or_congr_left ⟨fun h => h.symm, fun h => h.symm⟩

end Props
