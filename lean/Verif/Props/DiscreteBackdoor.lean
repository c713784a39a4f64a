import Verif.Proof.DiscreteBackdoor
import Verif.Props.DiscreteInvariant
import Verif.Props.Discrete

/-! # C243: effects of interventions from observational tables -/

namespace Props

open Model Model.DAG Spec
open scoped NNReal ENNReal

variable {α : Type} [DecidableEq α] {D : DiscreteDAG α}

/-- C243. Let `is_invariant(Y, {t}, {t} ∪ Z)` and `is_invariant(Z, {t})` answer `True`. Then the distribution of `Y` in the network that
`get_hard_interventional_dag(t, c)` returns is given by P(Y | do(t = c)) = ∑ z, P(Y | t = c, z) P(z), if `t = c` is possible for
every possible `z`. -/
theorem C243_backdoor (hD : D.Proper) (o : SetOrder (Option α) α) (oa : SetOrder Bool (α × α)) (w : SepOracle α) {t : α}
    (halph : (D.alph t).Nodup) {c : ℕ} (hc : c < D.dims t) {Y Z : List α} (hnd : (Y ++ t :: Z).Nodup)
    (hN : ∀ v ∈ Y ++ t :: Z, v ∈ D.dag.nodes) (hY : isInvariant D.dag w Y.toFinset {t} (t :: Z).toFinset = some true)
    (hZ : isInvariant D.dag w Z.toFinset {t} ∅ = some true)
    (hpos : ∀ z : α → ℕ, (∀ v ∈ t :: Z, z v < D.dims v) → z t = c → D.pr Z z ≠ 0 → D.pr (t :: Z) z ≠ 0) :
    ∃ D', D.hardInterventional o oa t ((D.alph t).getD c 0) = some (.ok D') ∧ D'.Proper ∧
      ∀ x : α → ℕ, (∀ v ∈ Y, x v < D.dims v) → D'.pr Y x = ∑ z ∈ assignments Z.toFinset D.dims,
        D.condPr Y (t :: Z) (fun v => if v = t then c else if v ∈ Z then z v else x v) * D.pr Z z := by
  have ht : t ∈ D.dag.nodes := hN t (by simp)
  obtain ⟨D', h1, h2, h3, h4, h5, h6, h7, -⟩ := DiscreteDAG.hardInterventional_tables hD o oa ht halph hc
  have hsub : D'.dag.arcs ⊆ D.dag.arcs := fun a ha => ((h3 a).1 ha).1
  have hsame : ∀ v ∈ D.dag.nodes, v ∉ ({t} : Finset α) → D'.pars v = D.pars v ∧ D'.cond v = D.cond v :=
    fun v _ hv => h7 v (by simpa using hv)
  have hI : ({t} : Finset α) ⊆ D.dag.nodes := by simpa using ht
  refine ⟨D', h1, h5, fun x hx => DiscreteDAG.adjustment h5 h2 h4 h6 hnd hN hc (fun z hz => ?_) (fun x hx hp hp' => ?_) hpos hx⟩
  · have hZn : (Z ++ []).Nodup := by simpa using (List.nodup_cons.1 hnd.of_append_right).2
    have hZN : ∀ v ∈ Z ++ [], v ∈ D.dag.nodes := fun v hv => hN v (by simp at hv; simp [hv])
    have := C222_tables hD h5 hI h2 h4 hsub hsame w hZn hZN (by simpa using hZ) (x := z) (by simpa using hz)
      (by rw [DiscreteDAG.pr_nil hD]; exact one_ne_zero) (by rw [DiscreteDAG.pr_nil h5]; exact one_ne_zero)
    rw [DiscreteDAG.condPr, DiscreteDAG.condPr, DiscreteDAG.pr_nil hD, DiscreteDAG.pr_nil h5, if_neg one_ne_zero, if_neg one_ne_zero,
      div_one, div_one, List.append_nil] at this
    exact this
  · exact C222_tables hD h5 hI h2 h4 hsub hsame w hnd hN hY hx hp hp'

/-- C243 for the tables that `get_marginals` and `get_conditional` return. -/
theorem C243_tables (hD : D.Proper) (hcut : D.Cut) (o ot : SetOrder (Option α) α) (oa : SetOrder Bool (α × α))
    (os : SetOrder (α × Finset α) α) (on : SetOrder Unit α) (oc : SetOrder α α) (w : SepOracle α) {t : α}
    (halph : (D.alph t).Nodup) {c : ℕ} (hc : c < D.dims t) {Y Z : List α} (hnd : (Y ++ t :: Z).Nodup) (hY0 : Y ≠ []) (hZ0 : Z ≠ [])
    (hN : ∀ v ∈ Y ++ t :: Z, v ∈ D.dag.nodes) (hY : isInvariant D.dag w Y.toFinset {t} (t :: Z).toFinset = some true)
    (hZ : isInvariant D.dag w Z.toFinset {t} ∅ = some true)
    (hpos : ∀ z : α → ℕ, (∀ v ∈ t :: Z, z v < D.dims v) → z t = c → D.pr Z z ≠ 0 → D.pr (t :: Z) z ≠ 0) :
    ∃ D' T T1 T2, D.hardInterventional o oa t ((D.alph t).getD c 0) = some (.ok D') ∧
      (D'.getMarginals o ot oa os on EReal.exp Y).run = some (.ok T) ∧
      (D.getConditional o ot oa os on oc false Y (t :: Z)).run = some (.ok T1) ∧
      (D.getMarginals o ot oa os on EReal.exp Z).run = some (.ok T2) ∧
      ∀ x : α → ℕ, (∀ v ∈ Y, x v < D.dims v) →
        T.val (Y.map x) = ∑ z ∈ assignments Z.toFinset D.dims, T1.val (Y.map x ++ c :: Z.map z) * T2.val (Z.map z) := by
  have ht : t ∈ D.dag.nodes := hN t (by simp)
  obtain ⟨D', h1, h2, -, h4, h5, -, -, h8⟩ := DiscreteDAG.hardInterventional_tables hD o oa ht halph hc
  obtain ⟨D'', k1, -, k2⟩ := C243_backdoor hD o oa w halph hc hnd hN hY hZ hpos
  rw [h1] at k1
  obtain rfl : D' = D'' := Except.ok.inj (Option.some.inj k1)
  have hd : D'.dims = D.dims := funext fun v => by rw [DiscreteDAG.dims, DiscreteDAG.dims, h4]
  have hdis := List.disjoint_of_nodup_append hnd
  have htZ : t ∉ Z := (List.nodup_cons.1 hnd.of_append_right).1
  obtain ⟨T, t1, -, t2⟩ := C127_marginals_partial h5 (h8 hcut) o ot oa os on hnd.of_append_left hY0
    (fun v hv => by rw [h2]; exact hN v (List.mem_append_left _ hv))
  obtain ⟨T1, t3, t4⟩ := conditional_disjoint hD hcut o ot oa os on oc hnd hY0 hN
  obtain ⟨T2, t5, -, t6⟩ := C127_marginals_partial hD hcut o ot oa os on (List.nodup_cons.1 hnd.of_append_right).2 hZ0
    (fun v hv => hN v (List.mem_append_right _ (List.mem_cons_of_mem _ hv)))
  refine ⟨D', T, T1, T2, h1, t1, t3, t5, fun x hx => ?_⟩
  rw [t2 x (by rw [hd]; exact hx), k2 x hx, ENNReal.ofNNReal_finsetSum]
  refine Finset.sum_congr rfl fun z hz => ?_
  have hzb : ∀ v ∈ Z, z v < D.dims v := fun v hv => (mem_assignments.1 hz).1 v (List.mem_toFinset.2 hv)
  set y : α → ℕ := fun v => if v = t then c else if v ∈ Z then z v else x v with hy
  have hyt : y t = c := if_pos rfl
  have hyZ : ∀ v ∈ Z, y v = z v := fun v hv => by
    simp only [hy, if_neg (fun e : v = t => htZ (e ▸ hv)), if_pos hv]
  have hyY : ∀ v ∈ Y, y v = x v := fun v hv => by
    simp only [hy, if_neg (fun e : v = t => hdis hv (e ▸ List.mem_cons_self ..)),
      if_neg (fun e : v ∈ Z => hdis hv (List.mem_cons_of_mem _ e))]
  rw [ENNReal.coe_mul, t6 z hzb, ← t4 y, List.map_cons, hyt, List.map_congr_left hyZ, List.map_congr_left hyY]
  intro v hv
  rcases List.mem_append.1 hv with h | h
  · rw [hyY v h]; exact hx v h
  · rcases List.mem_cons.1 h with rfl | h
    · rw [hyt]; exact hc
    · rw [hyZ v h]; exact hzb v h

/-- C243. Both answers are `True` for the parents of `t` and all nodes that are neither `t` nor parents of it. -/
theorem C243_parents {G : DAG α} (hG : G.Valid) (w : SepOracle α) {t : α} {Y Z : List α}
    (hZ : ∀ u, u ∈ Z ↔ (u, t) ∈ G.arcs) (hnd : (Y ++ t :: Z).Nodup) :
    isInvariant G w Y.toFinset {t} (t :: Z).toFinset = some true ∧ isInvariant G w Z.toFinset {t} ∅ = some true := by
  have hdis := List.disjoint_of_nodup_append hnd
  have e0 : {a | a ∈ ({t} : Finset α)} = {t} := by ext; simp
  constructor
  · obtain ⟨r, h1, h2⟩ := C17_is_invariant G hG w Y.toFinset {t} (t :: Z).toFinset (by
      rw [Finset.disjoint_left]
      intro v h1 h2
      exact hdis (List.mem_toFinset.1 h1) (List.mem_toFinset.1 h2))
    rw [h1, h2.2]
    have := source_separated hG.acyclic (i := t) (A := {a | a ∈ Y.toFinset}) (fun h => hdis (List.mem_toFinset.1 h) (List.mem_cons_self ..))
      (fun p hp h => hdis (List.mem_toFinset.1 h) (List.mem_cons_of_mem _ ((hZ p).2 hp)))
    rw [e0]
    convert this using 2
    ext u
    simp only [List.mem_toFinset, List.mem_cons, Set.mem_insert_iff, Set.mem_ofPred_eq, hZ]
    rfl
  · obtain ⟨r, h1, h2⟩ := C17_is_invariant G hG w Z.toFinset {t} ∅ (Finset.disjoint_empty_right _)
    rw [h1, h2.2]
    have := source_before hG.acyclic (i := t) (A := {a | a ∈ Z.toFinset}) (by
      intro a ha hp
      have ha' := (hZ a).1 (List.mem_toFinset.1 ha)
      exact hG.acyclic t (Relation.TransGen.tail' hp ha'))
    rw [e0]
    convert this using 2
    simp

/-- P(2 | do(1 = 1)) in the noisy parity on the triangle `0 → 1 → 2 ← 0`, by adjusting for `0`. -/
example (w : SepOracle (Fin 3)) : ∃ D', (Sample.parity {((0 : Fin 3), 1), (0, 2), (1, 2)}).hardInterventional Sample.order Sample.order 1 1 =
    some (.ok D') ∧ ∀ x : Fin 3 → ℕ, (∀ v ∈ [(2 : Fin 3)], x v < 2) → D'.pr [2] x =
      ∑ z ∈ assignments {(0 : Fin 3)} (fun _ => 2), (Sample.parity {((0 : Fin 3), 1), (0, 2), (1, 2)}).condPr [2] [1, 0]
        (fun v => if v = 1 then 1 else if v ∈ [(0 : Fin 3)] then z v else x v) *
        (Sample.parity {((0 : Fin 3), 1), (0, 2), (1, 2)}).pr [0] z := by
  have hp := Sample.parity_proper (arcs := {((0 : Fin 3), 1), (0, 2), (1, 2)}) (by decide)
  obtain ⟨h1, h2⟩ := C243_parents hp.valid w (t := 1) (Y := [2]) (Z := [0]) (by decide) (by decide)
  obtain ⟨D', k1, -, k2⟩ := C243_backdoor hp Sample.order Sample.order w (t := 1) (by decide) (c := 1) (by decide) (Y := [2]) (Z := [0])
    (by decide) (fun v _ => Finset.mem_univ v) h1 h2 (fun z hz _ _ => DiscreteDAG.pr_possible hp (fun v _ x _ => by
      change Sample.noisy _ ≠ 0
      rw [Sample.noisy]
      split_ifs <;> norm_num) hz fun v _ => Finset.mem_univ v)
  exact ⟨D', k1, k2⟩

end Props
