import Verif.Proof.DiscreteFaithful
import Verif.Props.DiscreteMarkov
import Verif.Props.GaussImap

/-! # Graphs and the distributions of their tables (properties C227, C228 and C229) -/

namespace Props

open Model Model.DAG Spec
open scoped NNReal ENNReal

variable {α : Type} [DecidableEq α] {G H : DAG α}

/-- C227. On every DAG there are tables with two values for each node such that, for all nodes i, j and sets C, the tables returned by
`get_marginals` satisfy P(i, j, C) P(C) = P(i, C) P(j, C) exactly if `dsep(i, j, C)` answers `True`. The table of no nodes is taken to
be 1. -/
theorem C227_faithful (hG : G.Valid) : ∃ D : DiscreteDAG α, D.dag = G ∧ D.Proper ∧ D.Cut ∧ (∀ v, D.alph v = [0, 1]) ∧
    ∀ (o ot : SetOrder (Option α) α) (oa : SetOrder Bool (α × α)) (os : SetOrder (α × Finset α) α) (on : SetOrder Unit α) (w : SepOracle α)
      (i j : α) (C : List α), (i :: j :: C).Nodup → (∀ v ∈ i :: j :: C, v ∈ G.nodes) →
      ∃ T TI TJ TC r, (D.getMarginals o ot oa os on EReal.exp (i :: j :: C)).run = some (.ok T) ∧
        (D.getMarginals o ot oa os on EReal.exp (i :: C)).run = some (.ok TI) ∧
        (D.getMarginals o ot oa os on EReal.exp (j :: C)).run = some (.ok TJ) ∧
        (C ≠ [] → (D.getMarginals o ot oa os on EReal.exp C).run = some (.ok TC)) ∧ (C = [] → TC.val [] = 1) ∧
        dsep G w {i} {j} C.toFinset = some r ∧
        (r = true ↔ ∀ x : α → ℕ, (∀ v, x v < 2) →
          T.val ((i :: j :: C).map x) * TC.val (C.map x) = TI.val ((i :: C).map x) * TJ.val ((j :: C).map x)) := by
  obtain ⟨D, rfl, hD, hc, ha, h⟩ := DiscreteDAG.exists_binary hG
  refine ⟨D, rfl, hD, hc, ha, fun o ot oa os on w i j C hnd hn => ?_⟩
  have hdim : ∀ v, D.dims v = 2 := fun v => by rw [DiscreteDAG.dims, ha]; rfl
  have sI : List.Sublist (i :: C) (i :: j :: C) := (List.sublist_cons_self j C).cons_cons i
  have sJ : List.Sublist (j :: C) (i :: j :: C) := List.sublist_cons_self i _
  have sC : List.Sublist C (i :: j :: C) := (List.sublist_cons_self j C).trans sJ
  obtain ⟨T, h1, -, h2⟩ := C127_marginals_partial hD hc o ot oa os on hnd (by simp) hn
  obtain ⟨TI, a1, -, a2⟩ := C127_marginals_partial hD hc o ot oa os on (sI.nodup hnd) (by simp) fun v hv => hn v (sI.subset hv)
  obtain ⟨TJ, b1, -, b2⟩ := C127_marginals_partial hD hc o ot oa os on (sJ.nodup hnd) (by simp) fun v hv => hn v (sJ.subset hv)
  obtain ⟨TC, c1, c0, c2⟩ : ∃ TC : Tensor ℝ≥0∞, (C ≠ [] → (D.getMarginals o ot oa os on EReal.exp C).run = some (.ok TC)) ∧
      (C = [] → TC.val [] = 1) ∧ ∀ x : α → ℕ, (∀ v ∈ C, x v < D.dims v) → TC.val (C.map x) = (D.pr C x : ℝ≥0∞) := by
    by_cases hC : C = []
    · subst hC
      exact ⟨⟨[], fun _ => 1⟩, fun h => absurd rfl h, fun _ => rfl, fun x _ => by rw [DiscreteDAG.pr_nil hD]; rfl⟩
    · obtain ⟨TC, c1, -, c2⟩ := C127_marginals_partial hD hc o ot oa os on (sC.nodup hnd) hC fun v hv => hn v (sC.subset hv)
      exact ⟨TC, fun _ => c1, fun h => absurd h hC, c2⟩
  have hiC : i ∉ C := fun h => (List.nodup_cons.1 hnd).1 (by simp [h])
  obtain ⟨r, d1, d2⟩ := dsep_decides hG w {i} {j} C.toFinset (by simpa using hiC)
  refine ⟨T, TI, TJ, TC, r, h1, a1, b1, c1, c0, d1, d2.trans ?_⟩
  simp only [Finset.coe_singleton, List.coe_toFinset]
  have val : ∀ x : α → ℕ, (∀ v, x v < 2) →
      ((T.val ((i :: j :: C).map x) * TC.val (C.map x) = TI.val ((i :: C).map x) * TJ.val ((j :: C).map x)) ↔
        D.pr (i :: j :: C) x * D.pr C x = D.pr (i :: C) x * D.pr (j :: C) x) := by
    intro x hx
    have hx' : ∀ v, x v < D.dims v := fun v => by rw [hdim]; exact hx v
    rw [h2 x fun v _ => hx' v, a2 x fun v _ => hx' v, b2 x fun v _ => hx' v, c2 x fun v _ => hx' v]
    exact_mod_cast Iff.rfl
  constructor
  · intro hs x hx
    rw [val x hx]
    have := DiscreteDAG.pr_dsep hD (A := [i]) (B := [j]) (C := C) hnd hn (by simpa using hs) (x := x) fun v _ => by rw [hdim]; exact hx v
    simpa using this
  · intro hx
    exact h i j C hnd hn ((val _ fun _ => Nat.one_lt_two).1 (hx (fun _ => 1) fun _ => Nat.one_lt_two))

/-- If `H` represents the distributions of `G` then separations in `H` hold in `G`. -/
theorem subModel_of_tables (hG : G.Valid) (hH : H.Valid) (hn : H.nodes = G.nodes)
    (h : ∀ D : DiscreteDAG α, D.dag = G → D.Proper → ∃ D' : DiscreteDAG α, D'.dag = H ∧ D'.alph = D.alph ∧ D'.Proper ∧
      ∀ S x, D'.pr S x = D.pr S x) : SubModel H.E G.E (G.nodes : Set α) := by
  classical
  obtain ⟨D, rfl, hD, -, ha, hf⟩ := DiscreteDAG.exists_binary hG
  obtain ⟨D', rfl, ha', hD', hpr⟩ := h D rfl hD
  intro X Y C hX hY hC hXY hXC hYC hd i hi j hj
  obtain ⟨C, rfl⟩ : ∃ C' : Finset α, (C' : Set α) = C := ⟨D.dag.nodes.filter (· ∈ C), by
    ext k
    simp only [Finset.coe_filter, Set.mem_ofPred_eq]
    exact ⟨fun h => h.2, fun h => ⟨hC h, h⟩⟩⟩
  have hnd : (i :: j :: C.toList).Nodup := by
    simp only [List.nodup_cons, List.mem_cons, Finset.mem_toList, Finset.nodup_toList, and_true, not_or]
    exact ⟨⟨by rintro rfl; exact Set.disjoint_left.1 hXY hi hj, fun h => Set.disjoint_left.1 hXC hi h⟩, fun h => Set.disjoint_left.1 hYC hj h⟩
  have hmem : ∀ v ∈ i :: j :: C.toList, v ∈ D.dag.nodes := by
    intro v hv
    simp only [List.mem_cons, Finset.mem_toList] at hv
    rcases hv with rfl | rfl | hv
    · exact hX hi
    · exact hY hj
    · exact hC hv
  have hset : {v | v ∈ C.toList} = (C : Set α) := by ext v; simp
  have key := DiscreteDAG.pr_dsep hD' (A := [i]) (B := [j]) (C := C.toList) hnd (fun v hv => by rw [hn]; exact hmem v hv)
    (by rw [hset]; exact dsep_mono (by simpa using hi) (by simpa using hj) hd) (x := fun _ => 1)
    fun v _ => by rw [DiscreteDAG.dims, ha', ha]; simp
  simp only [hpr] at key
  have := hf i j C.toList hnd hmem (by simpa using key)
  rw [hset] at this
  exact this i rfl j rfl

/-- C228. `H.is_imap(G)` answers `True` exactly if every distribution given by tables on `G` is given by tables on `H`. -/
theorem C228_is_imap (hG : G.Valid) (hH : H.Valid) (hn : H.nodes = G.nodes) (w : ImapOracle α) :
    ∃ r, isImap w H G = some r ∧
      (r = true ↔ ∀ D : DiscreteDAG α, D.dag = G → D.Proper → ∃ D' : DiscreteDAG α, D'.dag = H ∧ D'.alph = D.alph ∧ D'.Proper ∧
        ∀ S x, D'.pr S x = D.pr S x) := by
  obtain ⟨r, h1, h2⟩ := isImap_spec w hH hG
  refine ⟨r, h1, fun hr D hD hp => ?_, fun h => h2.2 ?_⟩
  · subst hD hr
    exact C221_represents hp hH hn w h1
  · rw [hn]
    exact subModel_of_tables hG hH hn h

/-- C229. `markov_equivalent` answers `True` exactly if the graphs have the same nodes and their tables give the same distributions. -/
theorem C229_markov_equivalent (hG : G.Valid) (hH : H.Valid) (oa oa' : SetOrder Unit (α × α)) (o o' : PDAG.OrientOracle α) :
    ∃ r : Bool, (G.markovEquivalent oa oa' o o' H none).run = some (.ok ⟨r⟩) ∧
      (r = true ↔ H.nodes = G.nodes ∧ ∀ (a : α → List ℤ) (p : List α → (α → ℕ) → ℝ≥0),
        (∃ D : DiscreteDAG α, D.dag = G ∧ D.alph = a ∧ D.Proper ∧ ∀ S x, D.pr S x = p S x) ↔
        ∃ D : DiscreteDAG α, D.dag = H ∧ D.alph = a ∧ D.Proper ∧ ∀ S x, D.pr S x = p S x) := by
  obtain ⟨r, h1, h2⟩ := markovEquivalent_spec G H hG hH oa oa' o o'
  refine ⟨r, h1, h2.trans ?_⟩
  have half : ∀ {G H : DAG α}, G.Valid → H.Valid → H.nodes = G.nodes → SubModel H.E G.E (G.nodes : Set α) →
      ∀ (a : α → List ℤ) (p : List α → (α → ℕ) → ℝ≥0), (∃ D : DiscreteDAG α, D.dag = G ∧ D.alph = a ∧ D.Proper ∧ ∀ S x, D.pr S x = p S x) →
        ∃ D : DiscreteDAG α, D.dag = H ∧ D.alph = a ∧ D.Proper ∧ ∀ S x, D.pr S x = p S x := by
    rintro G H hG hH hn hs a p ⟨D, rfl, rfl, hD, hp⟩
    have hs' : (D.refit H fun v => (H.parents v).toList).Shaped :=
      ⟨hH, fun v _ => Finset.nodup_toList _, fun v _ u => by
        change u ∈ (H.parents v).toList ↔ _
        rw [Finset.mem_toList]
        exact hH.parents_iff u v, fun v _ => rfl⟩
    obtain ⟨e3, e4⟩ := DiscreteDAG.same_of_imap hD hs' hn rfl (by rw [← hn] at hs; exact hs) fun v _ x _ => DiscreteDAG.refit_cond D H _ v x
    exact ⟨D.refit H fun v => (H.parents v).toList, rfl, rfl, e3, fun S x => (e4 S x).trans (hp S x)⟩
  rw [eq_comm]
  refine and_congr_right fun hn => ?_
  rw [sameSkelV_iff hG.acyclic hH.acyclic G.nodes (nodes_of_valid hG) (by rw [← hn]; exact nodes_of_valid hH)]
  constructor
  · rintro ⟨g1, g2⟩ a p
    exact ⟨half hG hH hn g2 a p, half hH hG hn.symm (by rw [hn]; exact g1) a p⟩
  · intro h
    refine ⟨?_, subModel_of_tables hG hH hn fun D hD hp => ?_⟩
    · rw [← hn]
      refine subModel_of_tables hH hG hn.symm fun D hD hp => ?_
      exact (h D.alph D.pr).2 ⟨D, hD, rfl, hp, fun _ _ => rfl⟩
    · exact (h D.alph D.pr).1 ⟨D, hD, rfl, hp, fun _ _ => rfl⟩

/-! ## Examples -/

/-- `0 → 2 ← 1`. -/
def Sample.join : DAG (Fin 3) := Sample.graph {(0, 2), (1, 2)}

theorem Sample.join_valid : Sample.join.Valid := Sample.graph_valid (by decide)

theorem Sample.join_sep : DSep Sample.join.E {0} {1} ∅ := by
  refine dsep_symm ?_
  have h := Spec.local_markov Sample.join_valid.acyclic 1
  have hpa : ({p | Sample.join.E p 1} : Set (Fin 3)) = ∅ := by
    ext x; simp only [Set.mem_ofPred_eq, Set.mem_empty_iff_false]; revert x; decide
  rw [hpa] at h
  refine dsep_mono subset_rfl ?_ h
  rintro x rfl
  refine ⟨by decide, ?_, by decide⟩
  intro hp
  have h1 : ∀ a b, Sample.join.E a b → a < b := by decide
  have hlt : ∀ a b, Path Sample.join.E a b → a < b := by
    intro a b hab
    induction hab with
    | single h => exact h1 _ _ h
    | tail _ h ih => exact ih.trans (h1 _ _ h)
  exact absurd (hlt _ _ hp) (by decide)

theorem Sample.join_open : ¬ DSep Sample.join.E {0} {1} {2} := by
  intro h
  refine h 0 rfl 1 rfl [0, 2, 1] ⟨rfl, rfl, by decide, fun u v huv => ?_, fun u v w huvw => ?_⟩
  · have : (u, v) = (0, 2) ∨ (u, v) = (2, 1) := by
      obtain ⟨s, t, e⟩ := huv
      rcases s with _ | ⟨a, _ | ⟨b, s⟩⟩
      · simp at e; simp [e]
      · simp at e; simp [e]
      · have := congrArg List.length e
        simp at this
        omega
    rcases this with h | h <;> cases h
    · exact Or.inl (by decide)
    · exact Or.inr (by decide)
  · have := huvw.eq_of_length rfl
    cases this
    exact ⟨fun _ => ⟨2, rfl, .refl⟩, fun hn => absurd ⟨by decide, by decide⟩ hn⟩

/-- On `0 → 2 ← 1` tables in which 0 and 1 are independent, but not given 2. -/
example : ∃ D : DiscreteDAG (Fin 3), D.dag = Sample.join ∧ D.Proper ∧
    (∃ T TI TJ, (D.getMarginals Sample.order Sample.order Sample.order Sample.order Sample.order EReal.exp [0, 1]).run = some (.ok T) ∧
      (D.getMarginals Sample.order Sample.order Sample.order Sample.order Sample.order EReal.exp [0]).run = some (.ok TI) ∧
      (D.getMarginals Sample.order Sample.order Sample.order Sample.order Sample.order EReal.exp [1]).run = some (.ok TJ) ∧
      T.val [1, 0] = TI.val [1] * TJ.val [0]) ∧
    ∃ T TI TJ TC, (D.getMarginals Sample.order Sample.order Sample.order Sample.order Sample.order EReal.exp [0, 1, 2]).run = some (.ok T) ∧
      (D.getMarginals Sample.order Sample.order Sample.order Sample.order Sample.order EReal.exp [0, 2]).run = some (.ok TI) ∧
      (D.getMarginals Sample.order Sample.order Sample.order Sample.order Sample.order EReal.exp [1, 2]).run = some (.ok TJ) ∧
      (D.getMarginals Sample.order Sample.order Sample.order Sample.order Sample.order EReal.exp [2]).run = some (.ok TC) ∧
      ¬ ∀ x : Fin 3 → ℕ, (∀ v, x v < 2) → T.val [x 0, x 1, x 2] * TC.val [x 2] = TI.val [x 0, x 2] * TJ.val [x 1, x 2] := by
  obtain ⟨D, h1, h2, -, -, h⟩ := C227_faithful Sample.join_valid
  refine ⟨D, h1, h2, ?_, ?_⟩
  · obtain ⟨T, TI, TJ, TC, r, g1, g2, g3, -, g4, g5, g6⟩ := h Sample.order Sample.order Sample.order Sample.order Sample.order Sample.sep
      0 1 [] (by decide) (by decide)
    obtain ⟨r', k1, k2⟩ := dsep_decides Sample.join_valid Sample.sep {0} {1} ∅ (by simp)
    have hr : r = true := by
      rw [List.toFinset_nil, k1] at g5
      rw [← Option.some.inj g5, k2]
      simpa using Sample.join_sep
    have := g6.1 hr (fun v => if v = 0 then 1 else 0) fun v => by split_ifs <;> norm_num
    refine ⟨T, TI, TJ, g1, g2, g3, ?_⟩
    simpa [g4 rfl] using this
  · obtain ⟨T, TI, TJ, TC, r, g1, g2, g3, g4, -, g5, g6⟩ := h Sample.order Sample.order Sample.order Sample.order Sample.order Sample.sep
      0 1 [2] (by decide) (by decide)
    obtain ⟨r', k1, k2⟩ := dsep_decides Sample.join_valid Sample.sep {0} {1} {2} (by decide)
    refine ⟨T, TI, TJ, TC, g1, g2, g3, g4 (by simp), fun hx => ?_⟩
    have hr := g6.2 hx
    have e : ([2] : List (Fin 3)).toFinset = {2} := rfl
    rw [e, k1] at g5
    have := k2.1 (by rw [Option.some.inj g5, hr])
    exact Sample.join_open (by simpa using this)

/-- Some tables of `0 → 2 ← 1` are not distributions of `0 → 1 → 2`. -/
example : ¬ ∀ D : DiscreteDAG (Fin 3), D.dag = Sample.join → D.Proper → ∃ D' : DiscreteDAG (Fin 3), D'.dag = Sample.chain ∧
    D'.alph = D.alph ∧ D'.Proper ∧ ∀ S x, D'.pr S x = D.pr S x := by
  intro h
  obtain ⟨r, h1, h2⟩ := C228_is_imap Sample.join_valid Sample.chain_valid rfl Sample.imap
  obtain ⟨r', k1, k2⟩ := isImap_spec Sample.imap Sample.chain_valid Sample.join_valid
  have hr := h2.2 h
  rw [h1] at k1
  have hs := k2.1 (by rw [← Option.some.inj k1, hr])
  have := hs {0} {2} {1} (by simp [Sample.chain, Sample.graph]) (by simp [Sample.chain, Sample.graph]) (by simp [Sample.chain, Sample.graph])
    (by simp) (by simp) (by simp) Sample.chain_sep
  refine this 0 rfl 2 rfl [0, 2] ⟨rfl, rfl, by decide, fun u v huv => ?_, fun u v w huvw => ?_⟩
  · have := huv.eq_of_length rfl
    cases this
    exact Or.inl (by decide)
  · have := huvw.length_le
    simp at this

example : ∃ r : Bool, (Sample.right.markovEquivalent Sample.order Sample.order ⟨Sample.order, Sample.order⟩ ⟨Sample.order, Sample.order⟩
    Sample.left none).run = some (.ok ⟨r⟩) ∧
    (r = true ↔ Sample.left.nodes = Sample.right.nodes ∧ ∀ (a : Fin 3 → List ℤ) (p : List (Fin 3) → (Fin 3 → ℕ) → ℝ≥0),
      (∃ D : DiscreteDAG (Fin 3), D.dag = Sample.right ∧ D.alph = a ∧ D.Proper ∧ ∀ S x, D.pr S x = p S x) ↔
      ∃ D : DiscreteDAG (Fin 3), D.dag = Sample.left ∧ D.alph = a ∧ D.Proper ∧ ∀ S x, D.pr S x = p S x) :=
  C229_markov_equivalent Sample.right_valid Sample.left_valid _ _ _ _

end Props
