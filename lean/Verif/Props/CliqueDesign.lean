import Verif.Proof.CliqueStar
import Verif.Props.CliqueTree
import Verif.Spec.Design

/-! # C169: `optimal_fully_orienting_single_node_interventions(new=True)` -/

namespace Props

universe u

open Spec Model Relation Proof Proof.CT

variable {α : Type u} [DecidableEq α]

/-- C169. If no two cliques of the tree are joined by edges in both directions, `new=True` returns a set of nodes whose single-node
interventions leave the graph as the only candidate, and no smaller set does. Missing: the same for all DAGs without v-structures. -/
theorem C169_optimal_new_partial (tie : Finset α → Finset α → Bool) (G : DAG α) (hG : G.Valid) (hv : ∀ a c b, ¬ VStruct G.E a c b)
    (cl : List (Finset α)) (hcl : ∀ c, c ∈ cl ↔ MaxClique G.nodes G.E c) (T : Finset (Finset α × Finset α))
    (hT : DAG.directedCliqueTree tie G cl = some T) (hno : ∀ a b, (a, b) ∈ T → (b, a) ∉ T) (on : SetOrder Unit (Finset (Finset α)))
    (op : SetOrder (Finset (Finset α)) (Finset (Finset α))) (o : SetOrder (Option α) α) (oa : SetOrder Bool (α × α)) :
    ∃ S, (DAG.optimalNew tie on op o oa G cl).run = some (.ok S) ∧ S ⊆ G.nodes ∧ Verifies G.E ∅ S ∧
      ∀ S', Verifies G.E ∅ S' → S.card ≤ S'.card := by
  obtain ⟨S, h1, h2, h3, h4⟩ := optimal_single tie hG (moral_of hv) hcl hT hno on op o oa
  have key : ∀ S, Verifies G.E ∅ S ↔ ∀ x y, Covered G.E x y → x ∈ S ∨ y ∈ S := by
    intro S
    rw [DAG.verifies_iff_cover hG, VertexCover]
    simp only [Prod.forall, DAG.mem_coveredEdges]
  refine ⟨S, ?_, h2, (key S).2 h3, fun S' hS' => h4 S' ((key S').1 hS')⟩
  rw [DAG.optimalNew, hT]
  exact h1

/-- C169. The same if all edges of the tree have both directions and any two connected nodes that lie in several maximal cliques are
adjacent. Missing: the same for all DAGs without v-structures. -/
theorem C169_both_ways_partial (tie : Finset α → Finset α → Bool) (G : DAG α) (hG : G.Valid) (hv : ∀ a c b, ¬ VStruct G.E a c b)
    (cl : List (Finset α)) (hcl : ∀ c, c ∈ cl ↔ MaxClique G.nodes G.E c) (T : Finset (Finset α × Finset α))
    (hT : DAG.directedCliqueTree tie G cl = some T) (hbi : ∀ a b, (a, b) ∈ T → (b, a) ∈ T)
    (hco : ∀ a ∈ cl, ∀ b ∈ cl, ∀ c ∈ cl, ∀ d ∈ cl, a ≠ b → c ≠ d → ∀ x ∈ a ∩ b, ∀ y ∈ c ∩ d, ReflTransGen (Adj G.E) x y → x ≠ y → Adj G.E x y)
    (on : SetOrder Unit (Finset (Finset α)))
    (op : SetOrder (Finset (Finset α)) (Finset (Finset α))) (o : SetOrder (Option α) α) (oa : SetOrder Bool (α × α)) :
    ∃ S, (DAG.optimalNew tie on op o oa G cl).run = some (.ok S) ∧ S ⊆ G.nodes ∧ Verifies G.E ∅ S ∧
      ∀ S', Verifies G.E ∅ S' → S.card ≤ S'.card := by
  obtain ⟨S, h1, h2, h3, h4⟩ := optimal_several tie hG (moral_of hv) hcl hT hbi hco on op o oa
  have key : ∀ S, Verifies G.E ∅ S ↔ ∀ x y, Covered G.E x y → x ∈ S ∨ y ∈ S := by
    intro S
    rw [DAG.verifies_iff_cover hG, VertexCover]
    simp only [Prod.forall, DAG.mem_coveredEdges]
  refine ⟨S, ?_, h2, (key S).2 h3, fun S' hS' => h4 S' ((key S').1 hS')⟩
  rw [DAG.optimalNew, hT]
  exact h1

end Props

namespace Sample.Tree

open Spec Model Relation Proof Proof.CT

/-- `2 ← 0`, and `0` points to the path `1 → 3 → 4`. -/
def lost : DAG (Fin 5) := graph {(0, 1), (0, 2), (0, 3), (0, 4), (1, 3), (3, 4)}

def lostCl : List (Finset (Fin 5)) := [{0, 2}, {0, 3, 4}, {0, 1, 3}]

def lostTree : Finset (Finset (Fin 5) × Finset (Fin 5)) := {({0, 1, 3}, {0, 3, 4}), ({0, 2}, {0, 3, 4}), ({0, 3, 4}, {0, 2})}

theorem lost_valid : lost.Valid := graph_valid (by decide)

theorem lost_moral : ∀ a c b, ¬ VStruct lost.E a c b := by
  unfold VStruct Adj DAG.E
  decide

theorem lost_cliques : ∀ c, c ∈ lostCl ↔ MaxClique lost.nodes lost.E c := by
  refine maxCliques_of_families (r := Fin.val) ?_ ?_ ?_ ?_
  · unfold DAG.E; decide
  · unfold Clique Adj DAG.E; decide
  · decide
  · unfold DAG.E; decide

theorem lost_run : DAG.directedCliqueTree (fun _ _ => true) lost lostCl = some lostTree :=
  DAG.run_ok (n := 10) rfl (by decide +kernel)

theorem lost_first : DAG.cliqueComponent lostCl lostTree {0, 1, 3} = {{0, 1, 3}} := by
  ext d
  rw [mem_component, Finset.mem_singleton]
  constructor
  · rintro ⟨-, h⟩
    rcases ReflTransGen.cases_head h with h | ⟨c, hs, -⟩
    · exact h.symm
    · have : ∀ e ∈ lostTree, e.2 ≠ {0, 1, 3} := by decide +kernel
      exact absurd rfl (this _ hs.2)
  · rintro rfl; exact ⟨by decide, .refl⟩

theorem lost_second : DAG.cliqueComponent lostCl lostTree {0, 3, 4} = {{0, 2}, {0, 3, 4}} := by
  ext d
  rw [mem_component, Finset.mem_insert, Finset.mem_singleton]
  constructor
  · rintro ⟨-, h⟩
    induction h with
    | refl => exact .inr rfl
    | @tail b c _ hs ih =>
      have : ∀ e ∈ lostTree, (e.2, e.1) ∈ lostTree → e.2 = {0, 2} ∨ e.2 = {0, 3, 4} := by decide +kernel
      exact this _ hs.1 hs.2
  · rintro (rfl | rfl)
    · exact ⟨by decide, .single ⟨by decide, by decide⟩⟩
    · exact ⟨by decide, .refl⟩

theorem lost_nodes (K : Finset (Finset (Fin 5))) : K ∈ (DAG.contract lostCl lostTree).nodes → K = {{0, 1, 3}} ∨ K = {{0, 2}, {0, 3, 4}} := by
  intro h
  obtain ⟨c, hc, rfl⟩ := mem_contract_nodes.1 h
  simp only [lostCl, List.mem_cons, List.not_mem_nil, or_false] at hc
  rcases hc with rfl | rfl | rfl
  · right
    rw [← lost_second]
    exact (component_eq (by decide)).2 (.single ⟨by decide, by decide⟩)
  · exact .inr lost_second
  · exact .inl lost_first

theorem lost_parent (op : SetOrder (Finset (Finset (Fin 5))) (Finset (Finset (Fin 5)))) :
    DAG.parentUnion op (DAG.contract lostCl lostTree) {{0, 2}, {0, 3, 4}} = {0, 1, 3} := by
  obtain ⟨hf, he⟩ := Props.tree_basic lost_run
  have key : ∀ e ∈ lostTree, (e.2, e.1) ∉ lostTree → e.1 = {0, 1, 3} := by decide +kernel
  rcases parentUnion_cases op (DAG.contract lostCl lostTree) {{0, 2}, {0, 3, 4}} with ⟨-, h⟩ | ⟨P, hP, e⟩
  · refine absurd ((mem_contract_arcs hf he).2 ⟨{0, 1, 3}, {0, 3, 4}, ⟨by decide, by decide⟩, rfl, rfl⟩) ?_
    rw [lost_second]
    exact h _
  · obtain ⟨a, b, hab, rfl, -⟩ := (mem_contract_arcs hf he).1 hP
    have := key _ hab.1 hab.2
    dsimp only at this
    rw [e, this, lost_first]
    rfl

/-- Neither 0 nor 2 is picked. -/
theorem lost_helper (op : SetOrder (Finset (Finset (Fin 5))) (Finset (Finset (Fin 5)))) (o : SetOrder (Option (Fin 5)) (Fin 5))
    (oa : SetOrder Bool (Fin 5 × Fin 5)) (K : Finset (Finset (Fin 5))) (hK : K ∈ (DAG.contract lostCl lostTree).nodes) :
    ∃ s, (DAG.verificationOptimalHelper o oa lost K (DAG.parentUnion op (DAG.contract lostCl lostTree) K)).run = some (.ok s) ∧
      0 ∉ s ∧ 2 ∉ s := by
  rcases lost_nodes K hK with rfl | rfl
  · set R := ({{0, 1, 3}} : Finset (Finset (Fin 5))).sup id \ DAG.parentUnion op (DAG.contract lostCl lostTree) {{0, 1, 3}} with hR
    have hsub : R ⊆ {0, 1, 3} := by
      intro x hx
      rw [hR, Finset.sup_singleton, Finset.mem_sdiff] at hx
      exact hx.1
    obtain ⟨l, h1, h2⟩ := sortedNodes_spec lost_valid o oa R
    refine ⟨(everyOther (l.drop 1)).toFinset, ?_, ?_, ?_⟩
    · rw [DAG.verificationOptimalHelper, if_pos (Finset.card_singleton _), ExceptT.run_bind, ← hR, h1]
      rfl
    · rw [List.mem_toFinset]
      intro h
      have h3 := (everyOther_sublist _).subset h
      have hc : Clique lost.E R := by
        have : Clique lost.E ({0, 1, 3} : Finset (Fin 5)) := by unfold Clique Adj DAG.E; decide
        exact fun x hx y hy => this x (hsub hx) y (hsub hy)
      have hp := sorted_pairwise hc h2
      cases l with
      | nil => simp at h3
      | cons a l =>
        have : ∀ a, ¬ lost.E a 0 := by unfold DAG.E; decide
        exact this a ((List.pairwise_cons.1 hp).1 0 h3)
    · rw [List.mem_toFinset]
      intro h
      have h3 := hsub ((h2.mem_iff 2).1 (List.mem_of_mem_drop ((everyOther_sublist _).subset h)))
      exact absurd h3 (by decide)
  · obtain ⟨l, h1, h2⟩ := sortedNodes_spec lost_valid o oa (({{0, 2}, {0, 3, 4}} : Finset (Finset (Fin 5))).sup id)
    rw [lost_parent op]
    rw [DAG.verificationOptimalHelper, if_neg (by decide), ExceptT.run_bind, h1]
    refine ⟨_, rfl, ?_⟩
    have hcommon : ∀ (inst : ∀ c d : Finset (Fin 5), Decidable (c = d)),
        ((({{0, 2}, {0, 3, 4}} : Finset (Finset (Fin 5))).biUnion fun c =>
        ({{0, 2}, {0, 3, 4}} : Finset (Finset (Fin 5))).biUnion fun d => if c = d then ∅ else c ∩ d) \ {0, 1, 3}) = ∅ := by
      intro inst
      ext x
      simp only [Finset.mem_sdiff, Finset.mem_biUnion, Finset.mem_insert, Finset.mem_singleton, Finset.notMem_empty, iff_false]
      rintro ⟨⟨c, hc, d, hd, hx⟩, hn⟩
      by_cases hcd : c = d
      · rw [if_pos hcd] at hx; simp at hx
      · rw [if_neg hcd] at hx
        apply hn
        left
        rcases hc with rfl | rfl <;> rcases hd with rfl | rfl
        · exact absurd rfl hcd
        · revert hx; revert x; decide
        · revert hx; revert x; decide
        · exact absurd rfl hcd
    have short : ∀ p : Fin 5 → Bool, (∀ x y, p x = true → p y = true → x = y) → (l.filter p).length ≤ 1 := by
      intro p hp
      have hn := h2.nodup.filter p
      cases e : l.filter p with
      | nil => simp
      | cons a m =>
        cases m with
        | nil => simp
        | cons b m =>
          have ha : a ∈ l.filter p := by rw [e]; simp
          have hb : b ∈ l.filter p := by rw [e]; simp
          rw [e] at hn
          have := hp a b (List.mem_filter.1 ha).2 (List.mem_filter.1 hb).2
          subst this
          simp at hn
    have drop : ∀ m : List (Fin 5), m.length ≤ 1 → m.reverse.drop 1 = [] := by
      intro m hm
      rw [List.drop_eq_nil_iff, List.length_reverse]
      exact hm
    rw [hcommon]
    simp only [Finset.inter_empty, Finset.notMem_empty, decide_false, List.filter_false, fillHead, Finset.sdiff_empty]
    constructor
    · rw [Finset.mem_biUnion]
      rintro ⟨c, hc, h⟩
      rw [Finset.mem_union] at h
      rcases h with h | h
      · rw [List.mem_toFinset] at h
        have := (everyOther_sublist _).subset h
        have := List.mem_of_mem_drop this
        rw [List.mem_reverse, List.mem_filter, decide_eq_true_iff] at this
        exact absurd this.2 (by simp)
      · split at h <;> simp at h
    · rw [Finset.mem_biUnion]
      rintro ⟨c, hc, h⟩
      rw [Finset.mem_union] at h
      rcases h with h | h
      · rw [drop _ (short _ ?_)] at h
        · simp [everyOther] at h
        · simp only [Finset.mem_insert, Finset.mem_singleton] at hc
          rcases hc with rfl | rfl <;> decide
      · split at h <;> simp at h

/-- A triangle and an arc: `0 → 1 → 2 → 3` with `0 → 2`. -/
def chain : DAG (Fin 4) := graph {(0, 1), (0, 2), (1, 2), (2, 3)}

def chainCl : List (Finset (Fin 4)) := [{2, 3}, {0, 1, 2}]

theorem chain_run : DAG.directedCliqueTree (fun _ _ => true) chain chainCl = some {({0, 1, 2}, {2, 3})} :=
  DAG.run_ok (n := 10) rfl (by decide +kernel)

/-- Three cliques with the common head `0 → 1`. -/
def fan : DAG (Fin 6) := graph {(0, 1), (0, 2), (1, 2), (0, 3), (1, 3), (0, 4), (1, 4), (3, 4), (0, 5), (1, 5)}

def fanCl : List (Finset (Fin 6)) := [{0, 1, 2}, {0, 1, 3, 4}, {0, 1, 5}]

theorem fan_run : ∃ T, DAG.directedCliqueTree (fun _ _ => true) fan fanCl = some T ∧ ∀ a b, (a, b) ∈ T → (b, a) ∈ T :=
  ⟨{({0, 1, 2}, {0, 1, 3, 4}), ({0, 1, 3, 4}, {0, 1, 2}), ({0, 1, 2}, {0, 1, 5}), ({0, 1, 5}, {0, 1, 2})},
    DAG.run_ok (n := 10) rfl (by decide +kernel), by
      intro a b h
      simp only [Finset.mem_insert, Finset.mem_singleton, Prod.mk.injEq] at h ⊢
      tauto⟩

end Sample.Tree

namespace Props

open Spec Model Relation Proof Proof.CT Sample.Tree

/-- C169 fails: with `0 → 2` and `0` pointing to the path `1 → 3 → 4`, an order of the cliques lets `{0, 2}` join the component of
`{0, 3, 4}`. Whatever the other orders, neither end of `0 → 2` is returned, and the arc stays undirected. -/
theorem C169_violated : ∃ (G : DAG (Fin 5)) (cl : List (Finset (Fin 5))) (tie : Finset (Fin 5) → Finset (Fin 5) → Bool), G.Valid ∧
    (∀ a c b, ¬ VStruct G.E a c b) ∧ (∀ c, c ∈ cl ↔ MaxClique G.nodes G.E c) ∧ cl.Nodup ∧
    ∀ on op o oa, ∃ S, (DAG.optimalNew tie on op o oa G cl).run = some (.ok S) ∧ ¬ Verifies G.E ∅ S := by
  refine ⟨lost, lostCl, fun _ _ => true, lost_valid, lost_moral, lost_cliques, by decide, fun on op o oa => ?_⟩
  have h := lost_helper op o oa
  choose! g h1 h2 using h
  refine ⟨(DAG.contract lostCl lostTree).nodes.biUnion g, ?_, fun h => ?_⟩
  · rw [DAG.optimalNew, lost_run]
    exact optimalFromTree_run h1
  · rw [DAG.verifies_iff_cover lost_valid] at h
    have hc : (0, 2) ∈ lost.coveredEdges := by
      rw [DAG.mem_coveredEdges]
      unfold Covered DAG.E
      decide
    rcases h _ hc with h | h
    · obtain ⟨K, hK, h⟩ := Finset.mem_biUnion.1 h
      exact (h2 K hK).1 h
    · obtain ⟨K, hK, h⟩ := Finset.mem_biUnion.1 h
      exact (h2 K hK).2 h

/-- A triangle followed by an arc meets the hypotheses. -/
example (on : SetOrder Unit (Finset (Finset (Fin 4)))) (op : SetOrder (Finset (Finset (Fin 4))) (Finset (Finset (Fin 4))))
    (o : SetOrder (Option (Fin 4)) (Fin 4)) (oa : SetOrder Bool (Fin 4 × Fin 4)) :
    ∃ S, (DAG.optimalNew (fun _ _ => true) on op o oa chain chainCl).run = some (.ok S) ∧ Verifies chain.E ∅ S := by
  obtain ⟨S, h1, -, h2, -⟩ := C169_optimal_new_partial (fun _ _ => true) chain (Sample.graph_valid (by decide))
    (by unfold VStruct Adj DAG.E; decide) chainCl
    (maxCliques_of_families (r := Fin.val) (by unfold DAG.E; decide) (by unfold Clique Adj DAG.E; decide) (by decide)
      (by unfold DAG.E; decide)) _ chain_run (by decide) on op o oa
  exact ⟨S, h1, h2⟩

/-- Three cliques with the common head `0 → 1` meet the hypotheses. -/
example (on : SetOrder Unit (Finset (Finset (Fin 6)))) (op : SetOrder (Finset (Finset (Fin 6))) (Finset (Finset (Fin 6))))
    (o : SetOrder (Option (Fin 6)) (Fin 6)) (oa : SetOrder Bool (Fin 6 × Fin 6)) :
    ∃ S, (DAG.optimalNew (fun _ _ => true) on op o oa fan fanCl).run = some (.ok S) ∧ Verifies fan.E ∅ S := by
  obtain ⟨T, hT, hbi⟩ := fan_run
  have hco : ∀ a ∈ fanCl, ∀ b ∈ fanCl, a ≠ b → ∀ x ∈ a ∩ b, x = 0 ∨ x = 1 := by decide +kernel
  obtain ⟨S, h1, -, h2, -⟩ := C169_both_ways_partial (fun _ _ => true) fan (Sample.graph_valid (by decide))
    (by unfold VStruct Adj DAG.E; decide) fanCl
    (maxCliques_of_families (r := Fin.val) (by unfold DAG.E; decide) (by unfold Clique Adj DAG.E; decide) (by decide)
      (by unfold DAG.E; decide)) T hT hbi (by
        intro a ha b hb c hc d hd hab hcd x hx y hy _ hxy
        have : ∀ x y : Fin 6, (x = 0 ∨ x = 1) → (y = 0 ∨ y = 1) → x ≠ y → Adj fan.E x y := by unfold Adj DAG.E; decide
        exact this x y (hco a ha b hb hab x hx) (hco c hc d hd hcd y hy) hxy) on op o oa
  exact ⟨S, h1, h2⟩

end Props
