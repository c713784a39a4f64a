import Verif.Proof.CliqueRun
import Verif.Proof.Residuals
import Verif.Props.Sample

/-! # C165-C168: the directed clique tree, its components and residuals -/

namespace Props

universe u

open Spec Model Relation Proof Proof.CT

variable {α : Type u} [DecidableEq α]

omit [DecidableEq α] in
theorem moral_of {E : α → α → Prop} (h : ∀ a c b, ¬ VStruct E a c b) : ∀ x y z, E x z → E y z → x = y ∨ Adj E x y := by
  intro x y z h1 h2
  by_contra hno
  push Not at hno
  exact h x z y ⟨hno.1, h1, h2, hno.2⟩

/-- C165. For every DAG, every list of cliques and every tie-breaking, `directed_clique_tree` terminates, and its edges join overlapping
cliques without closing a cycle. -/
theorem C165_forest (tie : Finset α → Finset α → Bool) (G : DAG α) (cl : List (Finset α)) :
    ∃ T, DAG.directedCliqueTree tie G cl = some T ∧ (∀ a b, (a, b) ∈ T → a ∈ cl ∧ b ∈ cl ∧ (a ∩ b).Nonempty) ∧
      ∀ a b, (a, b) ∈ T → ¬ ReflTransGen (LinkExcept T a b) a b := by
  obtain ⟨t, h1, h2⟩ := basic_loop tie G cl
  exact ⟨t.arcs, by rw [DAG.directedCliqueTree, h1]; rfl, h2.ends, fun a b h => h2.forest a b (.inl h)⟩

/-- C165. For a DAG without v-structures, `directed_clique_tree` is a clique tree: a forest on the maximal cliques in which two cliques
are joined by cliques that contain their intersection. An edge enters a clique exactly if the intersection points to the rest of the
clique. -/
theorem C165_directed_clique_tree (tie : Finset α → Finset α → Bool) (G : DAG α) (hG : G.Valid) (hv : ∀ a c b, ¬ VStruct G.E a c b)
    (cl : List (Finset α)) (hcl : ∀ c, c ∈ cl ↔ MaxClique G.nodes G.E c) :
    ∃ T, DAG.directedCliqueTree tie G cl = some T ∧ CliqueForest cl T ∧ ∀ a b, Link T a b → ((a, b) ∈ T ↔ Into G.E (a ∩ b) b) := by
  obtain ⟨T, h1, h2, h3, h4⟩ := moral_loop tie hG (moral_of hv) hcl
  refine ⟨T, h1, ⟨h2.ends, fun a b h => h2.forest a b (.inl h), fun c hc d hd hn => h3 c d (h4 c hc d hd hn)⟩, fun a b hab => ?_⟩
  refine ⟨h2.into a b, fun hi => ?_⟩
  rcases hab with h | h
  · exact h
  · exact h2.back b a h (by rwa [Finset.inter_comm])

theorem tree_basic {tie : Finset α → Finset α → Bool} {G : DAG α} {cl : List (Finset α)} {T : Finset (Finset α × Finset α)}
    (hT : DAG.directedCliqueTree tie G cl = some T) : Forest T ∧ ∀ a b, (a, b) ∈ T → a ∈ cl ∧ b ∈ cl := by
  obtain ⟨t, h1, h2⟩ := basic_loop tie G cl
  rw [DAG.directedCliqueTree, h1] at hT
  cases hT
  exact ⟨h2.forest, fun a b h => ⟨(h2.ends a b h).1, (h2.ends a b h).2.1⟩⟩

theorem mem_residuals {on : SetOrder Unit (Finset (Finset α))} {op : SetOrder (Finset (Finset α)) (Finset (Finset α))} {C : Contracted α}
    {R : Finset α} : R ∈ DAG.residuals on op C ↔ ∃ K ∈ C.nodes, R = DAG.residual op C K := by
  simp only [DAG.residuals, List.mem_map, on.mem_iff, eq_comm]

/-- C166. The nodes of `contracted_directed_clique_tree` are a partition of the cliques, two cliques being in one part exactly if they
are joined by edges in both directions, and its arcs have no cycle. Missing: no part has two predecessors. -/
theorem C166_contracted_partial (tie : Finset α → Finset α → Bool) (G : DAG α) (cl : List (Finset α)) (T : Finset (Finset α × Finset α))
    (hT : DAG.directedCliqueTree tie G cl = some T) :
    (∀ K ∈ (DAG.contract cl T).nodes, K.Nonempty ∧ ∀ c ∈ K, c ∈ cl ∧
      ∀ d ∈ cl, (d ∈ K ↔ ReflTransGen (fun x y => (x, y) ∈ T ∧ (y, x) ∈ T) c d)) ∧
    (∀ c ∈ cl, ∃ K ∈ (DAG.contract cl T).nodes, c ∈ K) ∧
    (∀ K L, (K, L) ∈ (DAG.contract cl T).arcs ↔ K ∈ (DAG.contract cl T).nodes ∧ L ∈ (DAG.contract cl T).nodes ∧ K ≠ L ∧
      ∃ a ∈ K, ∃ b ∈ L, (a, b) ∈ T) ∧
    Acyclic fun K L => (K, L) ∈ (DAG.contract cl T).arcs := by
  obtain ⟨hf, he⟩ := tree_basic hT
  refine ⟨fun K hK => ?_, fun c hc => ⟨_, mem_contract_nodes.2 ⟨c, hc, rfl⟩, mem_component.2 ⟨hc, .refl⟩⟩, fun K L => ?_, fun K hK => ?_⟩
  · obtain ⟨c, hc, rfl⟩ := mem_contract_nodes.1 hK
    refine ⟨⟨c, mem_component.2 ⟨hc, .refl⟩⟩, fun d hd => ?_⟩
    rw [mem_component] at hd
    refine ⟨hd.1, fun e he => ?_⟩
    rw [mem_component]
    exact ⟨fun h => hd.2.symm.trans h.2, fun h => ⟨he, hd.2.trans h⟩⟩
  · constructor
    · intro h
      obtain ⟨a, b, hab, rfl, rfl⟩ := (mem_contract_arcs hf he).1 h
      obtain ⟨ha, hb⟩ := he a b hab.1
      exact ⟨mem_contract_nodes.2 ⟨a, ha, rfl⟩, mem_contract_nodes.2 ⟨b, hb, rfl⟩, fun h => up_not_B hf hab ((component_eq hb).1 h),
        a, mem_component.2 ⟨ha, .refl⟩, b, mem_component.2 ⟨hb, .refl⟩, hab.1⟩
    · rintro ⟨hK, hL, hne, a, ha, b, hb, hab⟩
      obtain ⟨c, hc, rfl⟩ := mem_contract_nodes.1 hK
      obtain ⟨d, hd, rfl⟩ := mem_contract_nodes.1 hL
      rw [mem_component] at ha hb
      refine (mem_contract_arcs hf he).2 ⟨a, b, ⟨hab, fun hba => hne ?_⟩, (component_eq ha.1).2 ha.2, (component_eq hb.1).2 hb.2⟩
      exact (component_eq hd).2 ((ha.2.tail ⟨hab, hba⟩).trans hb.2.symm)
  · have key : ∀ K L, Path (fun K L => (K, L) ∈ (DAG.contract cl T).arcs) K L → ∀ c ∈ K, ∀ d ∈ L,
        ReflTransGen (fun x y => (x, y) ∈ T) c d := by
      have one : ∀ K L, (K, L) ∈ (DAG.contract cl T).arcs → ∀ c ∈ K, ∀ d ∈ L, ReflTransGen (fun x y => (x, y) ∈ T) c d := by
        intro K L hKL c hc d hd
        obtain ⟨a, b, hab, rfl, rfl⟩ := (mem_contract_arcs hf he).1 hKL
        rw [mem_component] at hc hd
        exact (hc.2.symm.dir.tail hab.1).trans hd.2.dir
      intro K L h
      induction h with
      | single h => exact one _ _ h
      | @tail L M _ h ih =>
        intro c hc d hd
        obtain ⟨a, b, hab, rfl, rfl⟩ := (mem_contract_arcs hf he).1 h
        have ha : a ∈ DAG.cliqueComponent cl T a := mem_component.2 ⟨(he a b hab.1).1, .refl⟩
        exact (ih c hc a ha).trans (one _ _ h a ha d hd)
    have last : ∃ L, (L, K) ∈ (DAG.contract cl T).arcs ∧ ∀ c ∈ K, ∀ d ∈ L, ReflTransGen (fun x y => (x, y) ∈ T) c d := by
      cases hK with
      | single h =>
        obtain ⟨a, b, hab, e1, e2⟩ := (mem_contract_arcs hf he).1 h
        exact absurd ((component_eq (he a b hab.1).2).1 (e1.symm.trans e2)) (up_not_B hf hab)
      | tail h1 h2 => exact ⟨_, h2, key _ _ h1⟩
    obtain ⟨L, h1, h2⟩ := last
    obtain ⟨a, b, hab, rfl, rfl⟩ := (mem_contract_arcs hf he).1 h1
    exact up_acyclic hf hab (h2 b (mem_component.2 ⟨(he a b hab.1).2, .refl⟩) a (mem_component.2 ⟨(he a b hab.1).1, .refl⟩))

/-- C167. For a DAG without v-structures, the `residuals` are nonempty sets of nodes that cover all nodes, and they are pairwise
disjoint if no node of the contracted tree has two predecessors. Missing: they are always pairwise disjoint. -/
theorem C167_residuals_partial (tie : Finset α → Finset α → Bool) (G : DAG α) (hG : G.Valid) (hv : ∀ a c b, ¬ VStruct G.E a c b)
    (cl : List (Finset α)) (hcl : ∀ c, c ∈ cl ↔ MaxClique G.nodes G.E c) (T : Finset (Finset α × Finset α))
    (hT : DAG.directedCliqueTree tie G cl = some T) (on : SetOrder Unit (Finset (Finset α)))
    (op : SetOrder (Finset (Finset α)) (Finset (Finset α))) :
    (∀ R ∈ DAG.residuals on op (DAG.contract cl T), R.Nonempty ∧ R ⊆ G.nodes) ∧
    (∀ x ∈ G.nodes, ∃ R ∈ DAG.residuals on op (DAG.contract cl T), x ∈ R) ∧
    ((∀ K P P', (P, K) ∈ (DAG.contract cl T).arcs → (P', K) ∈ (DAG.contract cl T).arcs → P = P') →
      (DAG.residuals on op (DAG.contract cl T)).Pairwise Disjoint) := by
  obtain ⟨T', h1, h2, hj, hcon⟩ := moral_loop tie hG (moral_of hv) hcl
  rw [hT] at h1
  cases h1
  have hf := h2.forest
  have he : ∀ a b, (a, b) ∈ T → a ∈ cl ∧ b ∈ cl := fun a b h => ⟨(h2.ends a b h).1, (h2.ends a b h).2.1⟩
  refine ⟨fun R hR => ?_, fun x hx => ?_, fun hone => ?_⟩
  · obtain ⟨K, hK, rfl⟩ := mem_residuals.1 hR
    obtain ⟨c, hc, rfl⟩ := mem_contract_nodes.1 hK
    constructor
    · rcases parentUnion_cases op (DAG.contract cl T) (DAG.cliqueComponent cl T c) with ⟨e, -⟩ | ⟨P, hP, e⟩
      · obtain ⟨z, hz⟩ := ((hcl c).1 hc).nonempty
        refine ⟨z, ?_⟩
        rw [DAG.residual, e, Finset.sdiff_empty, mem_sup_component]
        exact ⟨c, hc, .refl, hz⟩
      · obtain ⟨a, b, hab, rfl, hb⟩ := (mem_contract_arcs hf he).1 hP
        obtain ⟨ha, hb'⟩ := he a b hab.1
        have : ∃ z ∈ b, z ∉ a := by
          by_contra hno
          push Not at hno
          have := ((hcl b).1 hb').max a ((hcl a).1 ha).sub ((hcl a).1 ha).clique hno
          rw [this] at hab
          exact hab.2 hab.1
        obtain ⟨z, hzb, hza⟩ := this
        refine ⟨z, ?_⟩
        rw [DAG.residual, Finset.mem_sdiff, e, mem_sup_component, mem_sup_component]
        exact ⟨⟨b, hb', (component_eq hb').1 hb, hzb⟩, fun ⟨d, _, h3, h4⟩ => fresh hf hj hab h3 hzb hza h4⟩
    · intro x hx
      rw [DAG.residual, Finset.mem_sdiff, mem_sup_component] at hx
      obtain ⟨⟨d, hd, -, hxd⟩, -⟩ := hx
      exact ((hcl d).1 hd).sub hxd
  · obtain ⟨c, hc, hxc⟩ := exists_maxClique (V := G.nodes) (E := G.E) (c := {x}) ⟨x, by simp⟩ (by simpa using hx) (by
      intro a ha b hb hab
      rw [Finset.mem_singleton] at ha hb
      exact absurd (ha.trans hb.symm) hab)
    obtain ⟨k, hk, ht⟩ := exists_top hf ((hcl c).2 hc) (hxc (Finset.mem_singleton_self x))
    exact ⟨_, mem_residuals.2 ⟨_, mem_contract_nodes.2 ⟨k, hk, rfl⟩, rfl⟩, ht.mem_residual hf he op⟩
  · rw [DAG.residuals, List.pairwise_map]
    refine (on.nodup () _).imp_of_mem fun {K L} hK hL hne => ?_
    rw [on.mem_iff] at hK hL
    obtain ⟨c, hc, rfl⟩ := mem_contract_nodes.1 hK
    obtain ⟨d, hd, rfl⟩ := mem_contract_nodes.1 hL
    rw [Finset.disjoint_left]
    intro x hx hx'
    exact hne ((component_eq hd).2 ((top_of_residual hf he hone hx).unique hf he hj hcon hone (top_of_residual hf he hone hx')))

/-- C168. For a DAG without v-structures whose contracted tree has no node with two predecessors, `residual_essential_graph` directs the
arcs between different residuals and no other ones. Missing: so it is for all DAGs without v-structures. -/
theorem C168_residual_essential_partial (tie : Finset α → Finset α → Bool) (G : DAG α) (hG : G.Valid) (hv : ∀ a c b, ¬ VStruct G.E a c b)
    (cl : List (Finset α)) (hcl : ∀ c, c ∈ cl ↔ MaxClique G.nodes G.E c) (T : Finset (Finset α × Finset α))
    (hT : DAG.directedCliqueTree tie G cl = some T)
    (hone : ∀ K P P', (P, K) ∈ (DAG.contract cl T).arcs → (P', K) ∈ (DAG.contract cl T).arcs → P = P')
    (on : SetOrder Unit (Finset (Finset α))) (op : SetOrder (Finset (Finset α)) (Finset (Finset α))) (x y : α) :
    ((x, y) ∈ (DAG.residualEssential op G (DAG.contract cl T)).1 ↔
      (x, y) ∈ G.arcs ∧ ∀ R ∈ DAG.residuals on op (DAG.contract cl T), ¬ (x ∈ R ∧ y ∈ R)) ∧
    ((x, y) ∈ (DAG.residualEssential op G (DAG.contract cl T)).2 ↔
      (x, y) ∈ G.arcs ∧ ∃ R ∈ DAG.residuals on op (DAG.contract cl T), x ∈ R ∧ y ∈ R) := by
  obtain ⟨T', h1, h2, hj, hcon⟩ := moral_loop tie hG (moral_of hv) hcl
  rw [hT] at h1
  cases h1
  have hf := h2.forest
  have he : ∀ a b, (a, b) ∈ T → a ∈ cl ∧ b ∈ cl := fun a b h => ⟨(h2.ends a b h).1, (h2.ends a b h).2.1⟩
  have hV : ∀ a b, G.E a b → a ∈ G.nodes ∧ b ∈ G.nodes := fun a b h => ⟨hG.fst_mem a b h, hG.snd_mem a b h⟩
  obtain ⟨r, -, hr, -⟩ := exists_rank hG.acyclic _ G.nodes rfl
  replace hr : ∀ a b, G.E a b → r a < r b := fun a b h => hr a (hV a b h).1 b (hV a b h).2 h
  have key : (x, y) ∈ G.arcs → ((x, y) ∈ DAG.residualArcs op (DAG.contract cl T) ↔
      ∀ R ∈ DAG.residuals on op (DAG.contract cl T), ¬ (x ∈ R ∧ y ∈ R)) := by
    intro hxy
    constructor
    · rw [DAG.residualArcs, Finset.mem_biUnion]
      rintro ⟨K, hK, h3⟩ R hR ⟨hx, hy⟩
      obtain ⟨c, hc, rfl⟩ := mem_contract_nodes.1 hK
      obtain ⟨L, hL, rfl⟩ := mem_residuals.1 hR
      obtain ⟨d, hd, rfl⟩ := mem_contract_nodes.1 hL
      rw [Finset.mem_product, Finset.mem_inter] at h3
      have e := (component_eq hd).2 ((top_of_residual hf he hone h3.2).unique hf he hj hcon hone (top_of_residual hf he hone hy))
      rw [← e, DAG.residual, Finset.mem_sdiff] at hx
      exact hx.2 h3.1.1
    · intro hno
      obtain ⟨c, hc, hyc⟩ := exists_maxClique (V := G.nodes) (E := G.E) (c := {y}) ⟨y, by simp⟩ (by simpa using (hV _ _ hxy).2) (by
        intro a ha b hb hab
        rw [Finset.mem_singleton] at ha hb
        exact absurd (ha.trans hb.symm) hab)
      obtain ⟨k, hk, ht⟩ := exists_top hf ((hcl c).2 hc) (hyc (Finset.mem_singleton_self y))
      have hyR := ht.mem_residual hf he op
      have hnode := mem_contract_nodes (T := T).2 ⟨k, hk, rfl⟩
      have hxK : x ∈ (DAG.cliqueComponent cl T k).sup id :=
        mem_sup_component.2 (ht.parent hf he hj hcon hone hr hV hcl h2.into hxy)
      have hxP : x ∈ DAG.parentUnion op (DAG.contract cl T) (DAG.cliqueComponent cl T k) := by
        by_contra hxP
        exact hno _ (mem_residuals.2 ⟨_, hnode, rfl⟩) ⟨by rw [DAG.residual, Finset.mem_sdiff]; exact ⟨hxK, hxP⟩, hyR⟩
      rw [DAG.residualArcs, Finset.mem_biUnion]
      refine ⟨_, hnode, ?_⟩
      rw [Finset.mem_product, Finset.mem_inter]
      exact ⟨⟨hxP, hxK⟩, hyR⟩
  rw [DAG.residualEssential]
  dsimp only
  rw [Finset.mem_inter, Finset.mem_sdiff]
  refine ⟨and_comm.trans (and_congr_right key), and_congr_right fun hxy => ?_⟩
  rw [key hxy]
  push Not
  rfl

end Props

namespace Sample.Tree

open Spec Model Relation Proof Proof.CT

/-- The graph of the docstring of `residuals`, with other labels. -/
def small : DAG (Fin 5) := graph {(0, 1), (1, 2), (1, 3), (1, 4), (2, 3), (2, 4)}

def smallCl : List (Finset (Fin 5)) := [{1, 2, 3}, {0, 1}, {1, 2, 4}]

def smallTree : Finset (Finset (Fin 5) × Finset (Fin 5)) := {({1, 2, 3}, {1, 2, 4}), ({1, 2, 4}, {1, 2, 3}), ({0, 1}, {1, 2, 3})}

theorem small_valid : small.Valid := graph_valid (by decide)

theorem small_moral : ∀ a c b, ¬ VStruct small.E a c b := by
  unfold VStruct Adj DAG.E
  decide

theorem small_cliques : ∀ c, c ∈ smallCl ↔ MaxClique small.nodes small.E c := by
  refine maxCliques_of_families (r := Fin.val) ?_ ?_ ?_ ?_
  · unfold DAG.E; decide
  · unfold Clique Adj DAG.E; decide
  · decide
  · unfold DAG.E; decide

theorem small_run : DAG.directedCliqueTree (fun _ _ => true) small smallCl = some smallTree :=
  DAG.run_ok (n := 10) rfl (by decide +kernel)

theorem small_one : ∀ K P P', (P, K) ∈ (DAG.contract smallCl smallTree).arcs → (P', K) ∈ (DAG.contract smallCl smallTree).arcs → P = P' := by
  obtain ⟨hf, he⟩ := Props.tree_basic small_run
  intro K P P' h h'
  obtain ⟨a, b, hab, rfl, -⟩ := (mem_contract_arcs hf he).1 h
  obtain ⟨a', b', hab', rfl, -⟩ := (mem_contract_arcs hf he).1 h'
  have key : ∀ e ∈ smallTree, (e.2, e.1) ∉ smallTree → e.1 = {0, 1} := by decide
  have e1 := key _ hab.1 hab.2
  have e2 := key _ hab'.1 hab'.2
  dsimp only at e1 e2
  rw [e1, e2]

/-- Ten nodes; 0 points to all others. -/
def large : DAG (Fin 10) := graph
  {(0, 1), (0, 2), (0, 3), (0, 4), (0, 5), (0, 6), (0, 7), (0, 8), (0, 9), (1, 2), (2, 3), (2, 4), (7, 8), (8, 9)}

def largeCl : List (Finset (Fin 10)) := [{0, 5}, {0, 6}, {0, 2, 3}, {0, 2, 4}, {0, 1, 2}, {0, 8, 9}, {0, 7, 8}]

def largeTie (a _b : Finset (Fin 10)) : Bool := decide (a = {0, 5})

def largeTree : Finset (Finset (Fin 10) × Finset (Fin 10)) :=
  {({0, 2, 3}, {0, 2, 4}), ({0, 2, 4}, {0, 2, 3}), ({0, 1, 2}, {0, 2, 3}), ({0, 7, 8}, {0, 8, 9}), ({0, 5}, {0, 6}), ({0, 6}, {0, 5}),
    ({0, 5}, {0, 2, 3}), ({0, 2, 3}, {0, 5}), ({0, 5}, {0, 8, 9}), ({0, 8, 9}, {0, 5})}

theorem large_valid : large.Valid := graph_valid (by decide)

theorem large_moral : ∀ a c b, ¬ VStruct large.E a c b := by
  unfold VStruct Adj DAG.E
  decide +kernel

theorem large_cliques : ∀ c, c ∈ largeCl ↔ MaxClique large.nodes large.E c := by
  refine maxCliques_of_families (r := Fin.val) ?_ ?_ ?_ ?_
  · unfold DAG.E; decide +kernel
  · unfold Clique Adj DAG.E; decide +kernel
  · decide +kernel
  · unfold DAG.E; decide +kernel

theorem large_run : DAG.directedCliqueTree largeTie large largeCl = some largeTree :=
  DAG.run_ok (n := 10) rfl (by decide +kernel)

theorem large_forest : Forest largeTree ∧ ∀ a b, (a, b) ∈ largeTree → a ∈ largeCl ∧ b ∈ largeCl := Props.tree_basic large_run

/-- The two one-way arcs enter the same component. -/
theorem large_up : Up largeTree {0, 1, 2} {0, 2, 3} ∧ Up largeTree {0, 7, 8} {0, 8, 9} ∧ B largeTree {0, 2, 3} {0, 8, 9} :=
  ⟨⟨by decide +kernel, by decide +kernel⟩, ⟨by decide +kernel, by decide +kernel⟩,
    .tail (.single (⟨by decide +kernel, by decide +kernel⟩ : (_, ({0, 5} : Finset (Fin 10))) ∈ _ ∧ _)) ⟨by decide +kernel, by decide +kernel⟩⟩

/-- A clique without entering arcs is a component. -/
theorem large_alone {c : Finset (Fin 10)} (hc : ∀ e ∈ largeTree, e.2 ≠ c) {d : Finset (Fin 10)} (h : B largeTree c d) : d = c := by
  rcases ReflTransGen.cases_head h with rfl | ⟨e, hs, -⟩
  · rfl
  · exact absurd rfl (hc _ hs.2)

theorem large_residual {c : Finset (Fin 10)} (hcl : c ∈ largeCl) (hc : ∀ e ∈ largeTree, e.2 ≠ c)
    (op : SetOrder (Finset (Finset (Fin 10))) (Finset (Finset (Fin 10)))) :
    DAG.residual op (DAG.contract largeCl largeTree) (DAG.cliqueComponent largeCl largeTree c) = c := by
  ext x
  constructor
  · intro h
    rw [DAG.residual, Finset.mem_sdiff, mem_sup_component] at h
    obtain ⟨⟨d, -, h2, h3⟩, -⟩ := h
    rw [large_alone hc h2] at h3
    exact h3
  · intro h
    refine Top.mem_residual large_forest.1 large_forest.2 ⟨⟨c, hcl, .refl, h⟩, fun c0 c' d h1 h2 _ _ _ => ?_⟩ op
    rw [large_alone hc h1] at h2
    exact hc _ h2.1 rfl

end Sample.Tree

namespace Props

open Spec Model Relation Proof Proof.CT Sample.Tree

/-- C166. In the contracted tree of a DAG without v-structures a node can have two predecessors: the sources of a component are looked for
among the keys of the union-find structure whose pointer is the root, and the pointers of some of its members lead there in two steps. -/
theorem C166_violated : ∃ (tie : Finset (Fin 10) → Finset (Fin 10) → Bool) (G : DAG (Fin 10)) (cl : List (Finset (Fin 10)))
    (T : Finset (Finset (Fin 10) × Finset (Fin 10))), G.Valid ∧ (∀ a c b, ¬ VStruct G.E a c b) ∧
    (∀ c, c ∈ cl ↔ MaxClique G.nodes G.E c) ∧ cl.Nodup ∧ DAG.directedCliqueTree tie G cl = some T ∧
    ∃ K P P', (P, K) ∈ (DAG.contract cl T).arcs ∧ (P', K) ∈ (DAG.contract cl T).arcs ∧ P ≠ P' := by
  refine ⟨largeTie, large, largeCl, largeTree, large_valid, large_moral, large_cliques, by decide +kernel, large_run,
    DAG.cliqueComponent largeCl largeTree {0, 8, 9}, DAG.cliqueComponent largeCl largeTree {0, 1, 2},
    DAG.cliqueComponent largeCl largeTree {0, 7, 8}, ?_, ?_, ?_⟩
  · refine (mem_contract_arcs large_forest.1 large_forest.2).2 ⟨_, _, large_up.1, rfl, ?_⟩
    exact (component_eq (by decide +kernel)).2 large_up.2.2.symm
  · exact (mem_contract_arcs large_forest.1 large_forest.2).2 ⟨_, _, large_up.2.1, rfl, rfl⟩
  · intro h
    have := large_alone (by decide +kernel) ((component_eq (by decide +kernel)).1 h)
    revert this
    decide +kernel

/-- C167. The `residuals` of a DAG without v-structures need not be disjoint. -/
theorem C167_violated : ∃ (tie : Finset (Fin 10) → Finset (Fin 10) → Bool) (G : DAG (Fin 10)) (cl : List (Finset (Fin 10)))
    (T : Finset (Finset (Fin 10) × Finset (Fin 10))), G.Valid ∧ (∀ a c b, ¬ VStruct G.E a c b) ∧
    (∀ c, c ∈ cl ↔ MaxClique G.nodes G.E c) ∧ cl.Nodup ∧ DAG.directedCliqueTree tie G cl = some T ∧
    ∀ on op, {0, 1, 2} ∈ DAG.residuals on op (DAG.contract cl T) ∧ {0, 7, 8} ∈ DAG.residuals on op (DAG.contract cl T) ∧
      ¬ (DAG.residuals on op (DAG.contract cl T)).Pairwise Disjoint := by
  refine ⟨largeTie, large, largeCl, largeTree, large_valid, large_moral, large_cliques, by decide +kernel, large_run, fun on op => ?_⟩
  have h1 : {0, 1, 2} ∈ DAG.residuals on op (DAG.contract largeCl largeTree) :=
    mem_residuals.2 ⟨_, mem_contract_nodes.2 ⟨{0, 1, 2}, by decide +kernel, rfl⟩,
      (large_residual (by decide +kernel) (by decide +kernel) op).symm⟩
  have h2 : {0, 7, 8} ∈ DAG.residuals on op (DAG.contract largeCl largeTree) :=
    mem_residuals.2 ⟨_, mem_contract_nodes.2 ⟨{0, 7, 8}, by decide +kernel, rfl⟩,
      (large_residual (by decide +kernel) (by decide +kernel) op).symm⟩
  refine ⟨h1, h2, fun h => ?_⟩
  have := h.forall h1 h2 (by decide +kernel)
  revert this
  decide +kernel

/-- C168. `residual_essential_graph` of a DAG without v-structures can direct an arc between two members of a residual. -/
theorem C168_violated : ∃ (tie : Finset (Fin 10) → Finset (Fin 10) → Bool) (G : DAG (Fin 10)) (cl : List (Finset (Fin 10)))
    (T : Finset (Finset (Fin 10) × Finset (Fin 10))), G.Valid ∧ (∀ a c b, ¬ VStruct G.E a c b) ∧
    (∀ c, c ∈ cl ↔ MaxClique G.nodes G.E c) ∧ cl.Nodup ∧ DAG.directedCliqueTree tie G cl = some T ∧
    ∀ on op, ∃ x y, (x, y) ∈ (DAG.residualEssential op G (DAG.contract cl T)).1 ∧
      ∃ R ∈ DAG.residuals on op (DAG.contract cl T), x ∈ R ∧ y ∈ R := by
  refine ⟨largeTie, large, largeCl, largeTree, large_valid, large_moral, large_cliques, by decide +kernel, large_run, fun on op => ?_⟩
  have hX : {0, 1, 2} ∈ DAG.residuals on op (DAG.contract largeCl largeTree) :=
    mem_residuals.2 ⟨_, mem_contract_nodes.2 ⟨{0, 1, 2}, by decide +kernel, rfl⟩,
      (large_residual (by decide +kernel) (by decide +kernel) op).symm⟩
  have hV : {0, 7, 8} ∈ DAG.residuals on op (DAG.contract largeCl largeTree) :=
    mem_residuals.2 ⟨_, mem_contract_nodes.2 ⟨{0, 7, 8}, by decide +kernel, rfl⟩,
      (large_residual (by decide +kernel) (by decide +kernel) op).symm⟩
  have hnode : DAG.cliqueComponent largeCl largeTree {0, 8, 9} ∈ (DAG.contract largeCl largeTree).nodes :=
    mem_contract_nodes.2 ⟨{0, 8, 9}, by decide +kernel, rfl⟩
  have hW : ∀ z ∈ ({0, 8, 9} : Finset (Fin 10)), z ∈ (DAG.cliqueComponent largeCl largeTree {0, 8, 9}).sup id := fun z hz =>
    mem_sup_component.2 ⟨{0, 8, 9}, by decide +kernel, .refl, hz⟩
  have hY : ∀ z ∈ ({0, 2, 3} : Finset (Fin 10)), z ∈ (DAG.cliqueComponent largeCl largeTree {0, 8, 9}).sup id := fun z hz =>
    mem_sup_component.2 ⟨{0, 2, 3}, by decide +kernel, large_up.2.2.symm, hz⟩
  have alone : ∀ c ∈ largeCl, (∀ e ∈ largeTree, e.2 ≠ c) → (DAG.cliqueComponent largeCl largeTree c).sup id = c := by
    intro c hcl hc
    ext z
    rw [mem_sup_component]
    exact ⟨fun ⟨d, _, h2, h3⟩ => large_alone hc h2 ▸ h3, fun h => ⟨c, hcl, .refl, h⟩⟩
  have arc : ∀ x y, (x, y) ∈ large.arcs → ∀ p : Finset (Fin 10),
      DAG.parentUnion op (DAG.contract largeCl largeTree) (DAG.cliqueComponent largeCl largeTree {0, 8, 9}) = p → x ∈ p → y ∉ p →
      x ∈ (DAG.cliqueComponent largeCl largeTree {0, 8, 9}).sup id → y ∈ (DAG.cliqueComponent largeCl largeTree {0, 8, 9}).sup id →
      (x, y) ∈ (DAG.residualEssential op large (DAG.contract largeCl largeTree)).1 := by
    intro x y hxy p hp hx hy hx' hy'
    rw [DAG.residualEssential]
    dsimp only
    rw [Finset.mem_inter, DAG.residualArcs, Finset.mem_biUnion]
    refine ⟨⟨_, hnode, ?_⟩, hxy⟩
    rw [Finset.mem_product, Finset.mem_inter, DAG.residual, Finset.mem_sdiff, hp]
    exact ⟨⟨hx, hx'⟩, hy', hy⟩
  rcases parentUnion_cases op (DAG.contract largeCl largeTree) (DAG.cliqueComponent largeCl largeTree {0, 8, 9}) with ⟨-, e⟩ | ⟨P, hP, e⟩
  · exact absurd ((mem_contract_arcs large_forest.1 large_forest.2).2 ⟨_, _, large_up.2.1, rfl, rfl⟩) (e _)
  · obtain ⟨a, b, hab, rfl, -⟩ := (mem_contract_arcs large_forest.1 large_forest.2).1 hP
    have key : ∀ e ∈ largeTree, (e.2, e.1) ∉ largeTree → e.1 = {0, 1, 2} ∨ e.1 = {0, 7, 8} := by decide +kernel
    rcases key _ hab.1 hab.2 with h | h
    · dsimp only at h
      rw [h, alone _ (by decide +kernel) (by decide +kernel)] at e
      exact ⟨0, 8, arc 0 8 (by decide +kernel) _ e (by decide +kernel) (by decide +kernel) (hW 0 (by decide +kernel)) (hW 8 (by decide +kernel)),
        _, hV, by decide +kernel, by decide +kernel⟩
    · dsimp only at h
      rw [h, alone _ (by decide +kernel) (by decide +kernel)] at e
      exact ⟨0, 2, arc 0 2 (by decide +kernel) _ e (by decide +kernel) (by decide +kernel) (hY 0 (by decide +kernel)) (hY 2 (by decide +kernel)),
        _, hX, by decide +kernel, by decide +kernel⟩

/-- The graph of the docstring meets the hypotheses of C165: the clique `{0, 1}` precedes the other two, which are joined in both
directions. -/
example : ∃ T, DAG.directedCliqueTree (fun _ _ => true) small smallCl = some T ∧ CliqueForest smallCl T ∧
    ({0, 1}, {1, 2, 3}) ∈ T ∧ ({1, 2, 3}, {0, 1}) ∉ T ∧ ({1, 2, 3}, {1, 2, 4}) ∈ T ∧ ({1, 2, 4}, {1, 2, 3}) ∈ T := by
  obtain ⟨T, h1, h2, -⟩ := C165_directed_clique_tree (fun _ _ => true) small small_valid small_moral smallCl small_cliques
  refine ⟨T, h1, h2, ?_⟩
  rw [small_run] at h1
  cases h1
  decide

/-- Its contracted tree: the run is a hypothesis of C166. -/
example : Acyclic fun K L => (K, L) ∈ (DAG.contract smallCl smallTree).arcs :=
  (C166_contracted_partial (fun _ _ => true) small smallCl smallTree small_run).2.2.2

/-- It meets those of C167 and C168 too. -/
example (on : SetOrder Unit (Finset (Finset (Fin 5)))) (op : SetOrder (Finset (Finset (Fin 5))) (Finset (Finset (Fin 5)))) :
    (DAG.residuals on op (DAG.contract smallCl smallTree)).Pairwise Disjoint ∧
    (1, 3) ∈ (DAG.residualEssential op small (DAG.contract smallCl smallTree)).1 ∧
    (2, 3) ∈ (DAG.residualEssential op small (DAG.contract smallCl smallTree)).2 := by
  obtain ⟨-, h2, h3⟩ := C167_residuals_partial (fun _ _ => true) small small_valid small_moral smallCl small_cliques smallTree small_run on op
  refine ⟨h3 small_one, ?_, ?_⟩
  · obtain ⟨hf, he⟩ := tree_basic small_run
    refine ((C168_residual_essential_partial (fun _ _ => true) small small_valid small_moral smallCl small_cliques smallTree small_run small_one
      on op 1 3).1).2 ⟨by decide, ?_⟩
    rintro R hR ⟨hx, hy⟩
    obtain ⟨K, hK, rfl⟩ := mem_residuals.1 hR
    obtain ⟨c, hc, rfl⟩ := mem_contract_nodes.1 hK
    have t := top_of_residual hf he small_one hx
    obtain ⟨d, hd, h4, h5⟩ := (top_of_residual hf he small_one hy).1
    have key : ∀ d ∈ smallCl, 3 ∈ d → d = {1, 2, 3} := by decide
    have := key d hd h5
    subst this
    exact t.2 {0, 1} {1, 2, 3} {0, 1} h4 (by unfold Up; decide) (by decide) .refl (by decide)
  · obtain ⟨hf, he⟩ := tree_basic small_run
    refine ((C168_residual_essential_partial (fun _ _ => true) small small_valid small_moral smallCl small_cliques smallTree small_run small_one
      on op 2 3).2).2 ⟨by decide, _, mem_residuals.2 ⟨_, mem_contract_nodes.2 ⟨{1, 2, 3}, by decide, rfl⟩, rfl⟩, ?_, ?_⟩
    all_goals
      refine Top.mem_residual hf he ⟨⟨{1, 2, 3}, by decide, .refl, by decide⟩, fun c0 c' d _ h2 hd h3 => ?_⟩ op
      have k0 : ∀ e ∈ smallTree, (e.2, e.1) ∉ smallTree → e.1 = {0, 1} := by decide
      have e0 := k0 _ h2.1 h2.2
      dsimp only at e0
      subst e0
      rcases ReflTransGen.cases_head h3 with rfl | ⟨e, hs, -⟩
      · decide
      · have k1 : ∀ e ∈ smallTree, e.2 ≠ {0, 1} := by decide
        exact absurd rfl (k1 _ hs.2)

end Props
