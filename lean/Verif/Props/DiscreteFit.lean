import Verif.Proof.DiscreteFit
import Verif.Props.DiscreteSample

/-! # `DiscreteDAG.fit` (properties C137 to C139) -/

namespace Props

open Model Spec
open scoped NNReal

variable {N n : ℕ}

/-- C137. `fit(dag, data)` returns a graph with the nodes and arcs of the given one, with the alphabets `0..max`, and with conditional
probability tables that give the data the largest likelihood. -/
theorem C137_fit_mle (o ot : SetOrder (Option ℕ) ℕ) (oa : SetOrder Bool (ℕ × ℕ)) (op : SetOrder ℕ ℕ) (oz : SetOrder ℕ (List ℕ))
    {G : DAG ℕ} (hG : G.Valid) (hn : ∀ v ∈ G.nodes, v < n) (hN : N ≠ 0) (data : Fin N → ℕ → ℕ) :
    ∃ D, (fitCounts o ot oa op oz G n data none 0).run = some (.ok D) ∧ D.Proper ∧ D.dag.nodes = G.nodes ∧ D.dag.arcs = G.arcs ∧
      (∀ v ∈ G.nodes, D.alph v = (List.range (Finset.univ.sup (fun j => data j v) + 1)).map fun i : ℕ => (i : ℤ)) ∧
      ∀ E : DiscreteDAG ℕ, E.Proper → E.dag.nodes = G.nodes → E.dag.arcs = G.arcs → (∀ v ∈ G.nodes, E.dims v = D.dims v) →
        ∏ j, E.law (data j) ≤ ∏ j, D.law (data j) := by
  obtain ⟨a, h1, h2, h3⟩ := defaultAlphabets_ok (data := data) hn hN
  have hC : ∀ v ∈ G.nodes, a v = (List.range (a v).length).map fun i : ℕ => (i : ℤ) := fun v _ => by
    rw [h2]; simp
  obtain ⟨D, g1, g2⟩ := fitCounts_run o ot oa op oz (data := data) (alphabets := none) hG hn hN h1 (fun j v _ => h3 j v) 0
  refine ⟨D, g1, g2.proper hC (fun j v _ => h3 j v) hN, g2.nodes, g2.arcs, fun v _ => by rw [g2.alph_eq, h2],
    fun E hE hEn hEa hEd => g2.likelihood_le hC (fun j v _ => h3 j v) hE hEn hEa fun v hv => ?_⟩
  rw [hEd v hv, DiscreteDAG.dims, g2.alph_eq]

/-- C138. The same for given alphabets `0..k-1` that contain the data. -/
theorem C138_fit_alphabets_partial (o ot : SetOrder (Option ℕ) ℕ) (oa : SetOrder Bool (ℕ × ℕ)) (op : SetOrder ℕ ℕ)
    (oz : SetOrder ℕ (List ℕ)) {G : DAG ℕ} (hG : G.Valid) (hn : ∀ v ∈ G.nodes, v < n) (hN : N ≠ 0) (data : Fin N → ℕ → ℕ) {k : ℕ → ℕ}
    (hk : ∀ j, ∀ v ∈ G.nodes, data j v < k v) :
    ∃ D, (fitCounts o ot oa op oz G n data (some fun v => (List.range (k v)).map fun i : ℕ => (i : ℤ)) 0).run = some (.ok D) ∧
      D.Proper ∧ D.dag.nodes = G.nodes ∧ D.dag.arcs = G.arcs ∧ (∀ v ∈ G.nodes, D.dims v = k v) ∧
      ∀ E : DiscreteDAG ℕ, E.Proper → E.dag.nodes = G.nodes → E.dag.arcs = G.arcs → (∀ v ∈ G.nodes, E.dims v = k v) →
        ∏ j, E.law (data j) ≤ ∏ j, D.law (data j) := by
  have hC : ∀ v ∈ G.nodes, (List.range (k v)).map (fun i : ℕ => (i : ℤ)) =
      (List.range ((List.range (k v)).map fun i : ℕ => (i : ℤ)).length).map fun i : ℕ => (i : ℤ) := fun v _ => by simp
  have hd : ∀ j, ∀ v ∈ G.nodes, data j v < ((List.range (k v)).map fun i : ℕ => (i : ℤ)).length := fun j v hv => by
    simpa using hk j v hv
  obtain ⟨D, g1, g2⟩ := fitCounts_run o ot oa op oz (n := n) (data := data)
    (alphabets := some fun v => (List.range (k v)).map fun i : ℕ => (i : ℤ)) hG hn hN rfl hd 0
  refine ⟨D, g1, g2.proper hC hd hN, g2.nodes, g2.arcs, fun v _ => by simp [DiscreteDAG.dims, g2.alph_eq],
    fun E hE hEn hEa hEd => g2.likelihood_le hC hd hE hEn hEa fun v hv => ?_⟩
  rw [hEd v hv]
  simp

/-- C138, violated: the values of the parents are used as positions, `IndexError` for the alphabets `1, 2`. -/
theorem C138_violated : ∃ (G : DAG ℕ) (data : Fin 1 → ℕ → ℕ), G.Valid ∧ (∀ v ∈ G.nodes, v < 2) ∧
    (∀ j, ∀ v ∈ G.nodes, (data j v : ℤ) ∈ [(1 : ℤ), 2]) ∧
    ∀ o ot oa op oz, (fitCounts o ot oa op oz G 2 data (some fun _ => [1, 2]) 0).run = some (.error .index) := by
  have hG := Sample.natGraph_valid (nodes := {0, 1}) (arcs := {(0, 1)}) (by decide)
  refine ⟨Sample.natGraph {0, 1} {(0, 1)}, fun _ _ => 2, hG, by decide, by decide, fun o ot oa op oz => ?_⟩
  obtain ⟨t, ht1, ht⟩ := DAG.topologicalSort_ok _ ot hG
  have ht0 : t = [0, 1] := by
    have h1 : List.Sublist [0, 1] t := ht.before 0 1 (by simp [DAG.E, Sample.natGraph])
    refine (h1.eq_of_length ?_).symm
    have : t.Perm [0, 1] := (List.perm_ext_iff_of_nodup ht.nodup (by simp)).2 fun v => by
      rw [ht.mem_iff]
      simp [Sample.natGraph]
    exact this.length_eq.symm
  subst ht0
  have hp0 : op.ord 0 ((Sample.natGraph {0, 1} {(0, 1)}).parents 0) = [] := by
    refine List.eq_nil_iff_forall_not_mem.2 fun u hu => ?_
    rw [op.mem_iff] at hu
    simp [Sample.natGraph] at hu
  have hp1 : op.ord 1 ((Sample.natGraph {0, 1} {(0, 1)}).parents 1) = [0] := by
    refine List.perm_singleton.1 ((List.perm_ext_iff_of_nodup (op.nodup _ _) (by simp)).2 fun u => ?_)
    rw [op.mem_iff]
    simp only [Sample.natGraph]
    constructor
    · intro h
      simp at h
      simp [h.2]
    · intro h
      simp at h
      simp [h]
  have hz : oz.ord 1 (Finset.univ.image fun _ : Fin 1 => [2]) = [[2]] := by
    refine List.perm_singleton.1 ((List.perm_ext_iff_of_nodup (oz.nodup _ _) (by simp)).2 fun u => ?_)
    rw [oz.mem_iff]
    simp
  have e0 : ∃ t, fitConditional oz 2 (fun (_ : Fin 1) _ => 2) 0 [1, 2] [] [] 0 = .ok t := ⟨_, rfl⟩
  obtain ⟨t0, e0⟩ := e0
  have e1 : fitConditional oz 2 (fun (_ : Fin 1) _ => 2) 1 [1, 2] [0] [2] 0 = .error .index := by
    rw [fitConditional, if_neg (by decide), if_neg (by decide), if_neg (by decide)]
    simp only [List.map_cons, List.map_nil]
    rw [hz]
    rfl
  rw [fitCounts]
  dsimp only
  rw [pure_bind, DiscreteDAG.run_bind_ok ht1]
  simp only [List.foldlM_cons, hp0, hp1, List.map_cons, List.map_nil, List.length_cons, List.length_nil, e0]
  rw [show (0 + 1 + 1 : ℕ) = 2 from rfl, e1]
  rfl

/-- C139. `fit(dag, data, method="add_one_mle", alpha=alpha)`: each table entry is the number of rows that show it plus `alpha`, divided
by the sum of these numbers for the same values of the parents. -/
theorem C139_fit_add_one (o ot : SetOrder (Option ℕ) ℕ) (oa : SetOrder Bool (ℕ × ℕ)) (op : SetOrder ℕ ℕ) (oz : SetOrder ℕ (List ℕ))
    {G : DAG ℕ} (hG : G.Valid) (hn : ∀ v ∈ G.nodes, v < n) (hN : N ≠ 0) (data : Fin N → ℕ → ℕ) {alpha : ℝ≥0} (ha : 0 < alpha) :
    ∃ D, (fitCounts o ot oa op oz G n data none alpha).run = some (.ok D) ∧ D.Proper ∧ D.dag.nodes = G.nodes ∧ D.dag.arcs = G.arcs ∧
      (∀ v ∈ G.nodes, D.alph v = (List.range (Finset.univ.sup (fun j => data j v) + 1)).map fun i : ℕ => (i : ℤ)) ∧
      ∀ v ∈ G.nodes, ∀ y : ℕ → ℕ, y v < D.dims v → (D.cond v).val ((D.pars v ++ [v]).map y) =
        (((Finset.univ.filter fun j => (∀ a ∈ G.arcs, a.2 = v → data j a.1 = y a.1) ∧ data j v = y v).card : ℝ≥0) + alpha) /
          (((Finset.univ.filter fun j => ∀ a ∈ G.arcs, a.2 = v → data j a.1 = y a.1).card : ℝ≥0) + D.dims v * alpha) := by
  obtain ⟨a, h1, h2, h3⟩ := defaultAlphabets_ok (data := data) hn hN
  have hC : ∀ v ∈ G.nodes, a v = (List.range (a v).length).map fun i : ℕ => (i : ℤ) := fun v _ => by
    rw [h2]; simp
  obtain ⟨D, g1, g2⟩ := fitCounts_run o ot oa op oz (data := data) (alphabets := none) hG hn hN h1 (fun j v _ => h3 j v) alpha
  refine ⟨D, g1, g2.proper hC (fun j v _ => h3 j v) hN, g2.nodes, g2.arcs, fun v _ => by rw [g2.alph_eq, h2], fun v hv y hy => ?_⟩
  have hdim : D.dims v = (a v).length := by rw [DiscreteDAG.dims, g2.alph_eq]
  rw [hdim] at hy ⊢
  have hm : matching data (D.pars v) y = Finset.univ.filter fun j => ∀ a ∈ G.arcs, a.2 = v → data j a.1 = y a.1 := by
    ext j
    simp only [matching, Finset.mem_filter, Finset.mem_univ, true_and, g2.pars_iff]
    exact ⟨fun h b hb e => h b.1 (by rw [← e]; exact hb), fun h p hp => h (p, v) hp rfl⟩
  rw [List.map_append, List.map_singleton, g2.val v hv, fitted]
  split_ifs with hne
  · rw [frequencies_eq (hC v hv) (fun j _ => h3 j v) hy, hm, Finset.filter_filter]
  · rw [Finset.not_nonempty_iff_eq_empty] at hne
    have e : (Finset.univ.filter fun j => (∀ a ∈ G.arcs, a.2 = v → data j a.1 = y a.1) ∧ data j v = y v) = ∅ := by
      rw [← Finset.filter_filter, ← hm, hne]; simp
    rw [← hm, hne, e]
    have hl : ((a v).length : ℝ≥0) ≠ 0 := by
      have := hy
      simp only [ne_eq, Nat.cast_eq_zero]
      omega
    simp only [Finset.card_empty, Nat.cast_zero, zero_add]
    field_simp

example : ∃ D, (fitCounts Sample.order Sample.order Sample.order Sample.order Sample.order (Sample.natGraph {0, 1} {(0, 1)}) 2
    (fun (j : Fin 4) v => if v = 0 then j.val % 2 else j.val / 3) none 0).run = some (.ok D) ∧ D.Proper := by
  obtain ⟨D, h1, h2, -⟩ := C137_fit_mle (n := 2) Sample.order Sample.order Sample.order Sample.order Sample.order
    (Sample.natGraph_valid (nodes := {0, 1}) (arcs := {(0, 1)}) (by decide)) (by decide) (by decide)
    (fun (j : Fin 4) v => if v = 0 then j.val % 2 else j.val / 3)
  exact ⟨D, h1, h2⟩

example : ∃ D, (fitCounts Sample.order Sample.order Sample.order Sample.order Sample.order (Sample.natGraph {0, 1} {(0, 1)}) 2
    (fun (j : Fin 4) v => if v = 0 then j.val % 2 else j.val / 3) (some fun _ => (List.range 3).map fun i : ℕ => (i : ℤ)) 0).run =
    some (.ok D) ∧ D.Proper := by
  obtain ⟨D, h1, h2, -⟩ := C138_fit_alphabets_partial (n := 2) Sample.order Sample.order Sample.order Sample.order Sample.order
    (Sample.natGraph_valid (nodes := {0, 1}) (arcs := {(0, 1)}) (by decide)) (by decide) (by decide)
    (fun (j : Fin 4) v => if v = 0 then j.val % 2 else j.val / 3) (k := fun _ => 3) (by decide)
  exact ⟨D, h1, h2⟩

example : ∃ D, (fitCounts Sample.order Sample.order Sample.order Sample.order Sample.order (Sample.natGraph {0, 1} {(0, 1)}) 2
    (fun (j : Fin 4) v => if v = 0 then j.val % 2 else j.val / 3) none 1).run = some (.ok D) ∧ D.Proper := by
  obtain ⟨D, h1, h2, -⟩ := C139_fit_add_one (n := 2) Sample.order Sample.order Sample.order Sample.order Sample.order
    (Sample.natGraph_valid (nodes := {0, 1}) (arcs := {(0, 1)}) (by decide)) (by decide) (by decide)
    (fun (j : Fin 4) v => if v = 0 then j.val % 2 else j.val / 3) one_pos
  exact ⟨D, h1, h2⟩

end Props
