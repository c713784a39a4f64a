import Mathlib.Tactic.NormNum
import Verif.Proof.SemiMarkovian
import Verif.Proof.FormulaProduct

/-! # `SemiMarkovian` and its formulas (properties C149 to C154) -/

namespace Props

open Model Spec Relation

universe u v
variable {α : Type u} [DecidableEq α]

/-! ## C149 -/

/-- C149. The constructor stores the arcs and bidirected edges it is given, adds their ends to the nodes, and all its views agree. -/
theorem C149_constructor (od ob : SetOrder Unit (α × α)) (nodes : Finset α) (directed bidirected : Finset (α × α)) :
    (SemiMarkovian.new od ob nodes directed bidirected).Consistent ∧
    (SemiMarkovian.new od ob nodes directed bidirected).directed = directed ∧
    (∀ e, e ∈ (SemiMarkovian.new od ob nodes directed bidirected).bidirected ↔ ∃ p ∈ bidirected, e = {p.1, p.2}) ∧
    ∀ v, v ∈ (SemiMarkovian.new od ob nodes directed bidirected).nodes ↔ v ∈ nodes ∨ ∃ e ∈ directed ∪ bidirected, v = e.1 ∨ v = e.2 :=
  SemiMarkovian.new_spec od ob nodes directed bidirected

/-- C149. For all iteration and pop orders `c_components()` terminates and returns pairwise disjoint sets; every node is in one of
them; two nodes are in the same one exactly when they are joined by a path of bidirected edges. -/
theorem C149_c_components {A : SemiMarkovian α} (h : A.Consistent) (o : SetOrder (α × Finset α) α) (pk : Pick α) :
    ∃ cs, A.cComponents o pk = some cs ∧ cs.Pairwise Disjoint ∧ (∀ v, (∃ c ∈ cs, v ∈ c) ↔ v ∈ A.nodes) ∧
      ∀ v ∈ A.nodes, ∀ w, (∃ c ∈ cs, v ∈ c ∧ w ∈ c) ↔ ReflTransGen (fun a b => {a, b} ∈ A.bidirected) v w :=
  SemiMarkovian.cComponents_spec h o pk

/-- The graph `0 → 1`, `1 ↔ 2` is consistent and loopless, and has two components. -/
example (od ob : SetOrder Unit (Fin 3 × Fin 3)) :
    ∃ A : SemiMarkovian (Fin 3), A = SemiMarkovian.new od ob {0} {(0, 1)} {(1, 2)} ∧ A.Consistent ∧ A.Loopless ∧
      (0, 1) ∈ A.directed ∧ {1, 2} ∈ A.bidirected := by
  obtain ⟨h1, h2, h3, -⟩ := C149_constructor od ob {0} {((0 : Fin 3), (1 : Fin 3))} {(1, 2)}
  refine ⟨_, rfl, h1, ?_, by rw [h2]; simp, by rw [h3]; simp⟩
  intro i hi
  rw [h3] at hi
  revert hi
  revert i
  decide

/-! ## C150 -/

/-- C150. `topological_sort()` always terminates; it returns a linear extension if the arcs are acyclic, and raises otherwise. -/
theorem C150_topological_sort {A : SemiMarkovian α} (h : A.Consistent) (o : SetOrder (Option α) α) :
    (Acyclic (fun i j => (i, j) ∈ A.directed) ∧ ∃ l, A.topologicalSort o = some (.ok l) ∧
      LinearExtension (A.nodes : Set α) (fun i j => (i, j) ∈ A.directed) l) ∨
    (¬ Acyclic (fun i j => (i, j) ∈ A.directed) ∧ A.topologicalSort o = some (.error .plain)) :=
  SemiMarkovian.topologicalSort_spec h o

/-! ## C151 -/

/-- C151, what holds. When `_add_ancestors` ends, the set it was filling holds the right nodes: the ancestors of `S`, together with
`S` if the set started as `S`. Missing: `ancestors_of` never returns it. -/
theorem C151_collected_partial {A : SemiMarkovian α} (h : A.Consistent) (S : Finset α) :
    (∃ R e, A.addAncestors ∅ S = some (R, e) ∧ ∀ x, x ∈ R ↔ ∃ s ∈ S, Path (fun i j => (i, j) ∈ A.directed) x s) ∧
    ∃ R e, A.addAncestors S S = some (R, e) ∧ ∀ x, x ∈ R ↔ x ∈ S ∨ ∃ s ∈ S, Path (fun i j => (i, j) ∈ A.directed) x s := by
  obtain ⟨R, h1, h2⟩ := SemiMarkovian.addAncestors_empty h S
  obtain ⟨R', h3, h4⟩ := SemiMarkovian.addAncestors_self h S
  exact ⟨⟨R, _, h1, h2⟩, R', _, h3, h4⟩

/-- C151 is violated for every graph and every argument: `ancestors_of(S)` raises `TypeError`, and with `include_argument=True`
(the default) the caller's set `S` has been enlarged by its ancestors. -/
theorem C151_violated {A : SemiMarkovian α} (h : A.Consistent) (S : Finset α) :
    A.ancestorsOf S false = some (.error .type, S) ∧
    ∃ R, A.ancestorsOf S true = some (.error .type, R) ∧
      ∀ x, x ∈ R ↔ x ∈ S ∨ ∃ s ∈ S, Path (fun i j => (i, j) ∈ A.directed) x s := by
  obtain ⟨R, h1, h2⟩ := SemiMarkovian.addAncestors_empty h S
  obtain ⟨R', h3, h4⟩ := SemiMarkovian.addAncestors_self h S
  refine ⟨?_, R', ?_, h4⟩
  · simp [SemiMarkovian.ancestorsOf, h1]
  · simp [SemiMarkovian.ancestorsOf, h3]

/-! ## C152 -/

/-- C152, what holds. If the first experiment `e` whose restriction to the nodes is `x` is not empty, `general_identification`
returns the distribution of `y` in that experiment. If `x` is empty, `sub_identification` marginalises. Missing: everything else. -/
theorem C152_matching_partial (rest : Finset α → Option (Except (Exn α) (Formula α))) (A : SemiMarkovian α) (y x : Finset α) :
    (∀ es e, es.find? (fun e => x = e ∩ A.nodes) = some e → e.Nonempty →
      A.generalIdentification rest y x es = some (.ok (.term y ∅ e))) ∧
    ∀ f, A.subIdentification rest y ∅ f = some (f.marginalizeOut (A.nodes \ y)) := by
  refine ⟨?_, fun f => by simp [SemiMarkovian.subIdentification]⟩
  intro es e he hne
  simp [SemiMarkovian.generalIdentification, he, hne.ne_empty]

/-- C152 is violated for every graph: in all other cases `TypeError` is raised. In particular the observational distribution, the
experiment `frozenset()`, is never used: with it alone, every query raises. -/
theorem C152_violated (rest : Finset α → Option (Except (Exn α) (Formula α))) {A : SemiMarkovian α} (h : A.Consistent)
    (y x : Finset α) :
    (∀ es, (∀ e, es.find? (fun e => x = e ∩ A.nodes) = some e → e = ∅) →
      A.generalIdentification rest y x es = some (.error .type)) ∧
    A.generalIdentification rest y x [∅] = some (.error .type) ∧
    (x.Nonempty → ∀ f, A.subIdentification rest y x f = some (.error .type)) := by
  obtain ⟨-, R, hR, -⟩ := C151_violated h y
  have key : ∀ es, (∀ e, es.find? (fun e => x = e ∩ A.nodes) = some e → e = ∅) →
      A.generalIdentification rest y x es = some (.error .type) := by
    intro es he
    unfold SemiMarkovian.generalIdentification
    cases hf : es.find? (fun e => x = e ∩ A.nodes) with
    | none => simp [hR]
    | some e => simp [hR, he e hf]
  refine ⟨key, key [∅] ?_, ?_⟩
  · intro e he
    have := List.mem_of_find?_eq_some he
    simpa using this
  · intro hx f
    simp [SemiMarkovian.subIdentification, hx.ne_empty, hR]

/-- The first of two experiments matches. -/
example : ([{0, 7}, ∅] : List (Finset ℕ)).find? (fun e => ({0} : Finset ℕ) = e ∩ {0, 1}) = some {0, 7} := by decide

/-! ## C153 -/

section

variable [Fintype α] {β : Type v} [DecidableEq β] [Fintype β]

/-- C153, what holds. For a formula made of one conditional probability, with variables summed out any number of times,
`get_conditional(m, d)` with `m` not empty denotes the conditional distribution of `m` given `d`. -/
theorem C153_conditional_partial (P : Finset α → (α → β) → ℝ) {f : Formula α} (hf : Single f) {m d : Finset α} (hm : m ⊆ f.active)
    (hd : d ⊆ f.active) (hmd : Disjoint m d) (hne : m ≠ ∅) :
    ∃ g, f.getConditional m d = .ok g ∧ Single g ∧ g.active = m ∧ IsConditional (meaning P f) f.active m d (meaning P g) :=
  Formula.single_conditional P hf hm hd hmd hne

/-- C153, what holds. `get_conditional(cond_set=d)` with `d` not empty denotes the conditional distribution of all other variables. -/
theorem C153_all_others_partial (P : Finset α → (α → β) → ℝ) {f : Formula α} (hf : Single f) {d : Finset α} (hd : d ⊆ f.active)
    (hne : d ≠ ∅) :
    ∃ g, f.getConditional ∅ d = .ok g ∧ Single g ∧ g.active = f.active \ d ∧
      IsConditional (meaning P f) f.active (f.active \ d) d (meaning P g) :=
  Formula.single_all P hf hd hne

/-- C153, what holds. `marginalize_out(w)` sums out the variables in `w`: for one conditional probability if some variable remains,
for a product always. -/
theorem C153_marginalize_partial (P : Finset α → (α → β) → ℝ) (w : Finset α) :
    (∀ f : Formula α, Single f → f.active \ w ≠ ∅ → ∃ g, f.marginalizeOut w = .ok g ∧ g.active = f.active \ w ∧
      ∀ x, sumOut f.active (meaning P f) x ≠ 0 → meaning P g x = sumOut (f.active ∩ w) (meaning P f) x) ∧
    ∀ a ts, ∃ g, (Formula.prod a ts).marginalizeOut w = .ok g ∧ g.active = a \ w ∧
      ∀ x, meaning P g x = sumOut (a ∩ w) (meaning P (.prod a ts)) x := by
  constructor
  · intro f hf hne
    obtain ⟨g, h1, -, h3, h4⟩ := Formula.single_conditional P hf (m := f.active \ w) (d := ∅) Finset.sdiff_subset (by simp) (by simp) hne
    refine ⟨g, h1, h3, fun x hx => ?_⟩
    have h0 : f.active \ ∅ = f.active := by simp
    have := h4 x (by rwa [h0])
    rw [h0] at this
    rw [this]
    rcases Formula.single_total P hf x with h | h
    · exact absurd h hx
    · rw [h]; simp
  · intro a ts
    refine ⟨.marginal (a \ w) (a \ (a \ w)) (.prod a ts), ?_, rfl, fun x => ?_⟩
    · simp only [Formula.marginalizeOut, Formula.active]
      rw [Formula.getConditional, if_pos (by rw [Formula.check_iff]; exact ⟨by simp, Finset.sdiff_subset, by simp⟩), if_pos rfl]
      simp [Formula.marginalDistribution, Formula.active]
    · rw [meaning, sdiff_sdiff_right_self]
      rfl

/-- C153, what holds for products. `Product(ts)` has the variables of all factors. If all factors have all variables in `d`, which is not
empty, `get_conditional(m, d)` returns a formula for the variables `m` (all but `d`, if `m` is empty); it denotes the conditional distribution
if the factors share no other variables and do not depend on those of each other. -/
theorem C153_product_partial (P : Finset α → (α → β) → ℝ) {ts : List (Formula α)} (h0 : ts ≠ []) :
    ∃ f, Formula.product ts = .ok f ∧ (∀ v, v ∈ f.active ↔ ∃ t ∈ ts, v ∈ t.active) ∧ (∀ x, meaning P f x = (ts.map (meaning P · x)).prod) ∧
      ∀ d, d ≠ ∅ → (∀ t ∈ ts, Single t ∧ d ⊆ t.active) → ∀ m, m ⊆ f.active → Disjoint m d →
        ∃ g, f.getConditional m d = .ok g ∧ g.active = (if m = ∅ then f.active \ d else m) ∧
          (ts.Pairwise (Separate P d) → IsConditional (meaning P f) f.active (if m = ∅ then f.active \ d else m) d (meaning P g)) := by
  refine ⟨_, product_eq h0, fun v => mem_allActive, fun x => ?_, fun d hne h m hm hmd => product_conditional P hne h0 h hm hmd rfl⟩
  rw [meaning]
  clear h0
  induction ts with
  | nil => simp [meanings]
  | cons t ts ih => rw [meanings, ih, List.map_cons, List.prod_cons]

/-- `P(0, 2) P(1, 2)` meets the hypotheses for `d = {2}`. -/
example (P : Finset (Fin 3) → (Fin 3 → Bool) → ℝ) : (∀ t ∈ ([.term {0, 2} ∅ ∅, .term {1, 2} ∅ ∅] : List (Formula (Fin 3))),
    Single t ∧ ({2} : Finset (Fin 3)) ⊆ t.active) ∧
    ([.term {0, 2} ∅ ∅, .term {1, 2} ∅ ∅] : List (Formula (Fin 3))).Pairwise (Separate P {2}) := by
  have key : ∀ (a b : Finset (Fin 3)), Disjoint a (b \ {2}) → FreeOf (meaning P (.term a ∅ ∅)) (b \ {2}) := by
    intro a b hab w x hw
    rw [meaning, meaning, marginalPr_congr (S := a ∪ ∅) (w := w) (x := x) fun v hv => hw v ?_,
      marginalPr_congr (S := ∅) (w := w) (x := x) (by simp)]
    exact Finset.disjoint_left.1 hab (by simpa using hv)
  constructor
  · intro t ht
    simp only [List.mem_cons, List.not_mem_nil, or_false] at ht
    rcases ht with rfl | rfl
    · exact ⟨.term (by decide), by decide⟩
    · exact ⟨.term (by decide), by decide⟩
  · refine List.pairwise_pair.2 ⟨?_, key _ _ ?_, key _ _ ?_⟩ <;> decide

end

/-- C153 is violated: a product of terms can not be conditioned. Whenever two factors have no variable in common,
`get_conditional` with any nonempty `cond_set` raises. -/
theorem C153_violated_product {a m d : Finset α} {ts : List (Formula α)} {t s : Formula α} (ht : t ∈ ts) (hs : s ∈ ts)
    (hts : Disjoint t.active s.active) (hd : d ≠ ∅) : ∃ e, (Formula.prod a ts).getConditional m d = .error e := by
  by_cases h : d ⊆ t.active
  · refine Formula.prod_error hs (fun h' => hd ?_) hd
    have := Finset.disjoint_of_subset_left h (Finset.disjoint_of_subset_right h' hts)
    simpa using this
  · exact Formula.prod_error ht h hd

/-- `Σ_2 P(0, 1, 2 | 3)` meets the hypotheses of `C153_conditional_partial` for `m = {0}`, `d = {1}`. -/
example : Single (.marginal {0, 1} ({0, 1, 2} \ {0, 1}) (.term {0, 1, 2} {3} ∅) : Formula (Fin 4)) ∧
    ({0} : Finset (Fin 4)) ⊆ {0, 1} ∧ ({1} : Finset (Fin 4)) ⊆ {0, 1} ∧ Disjoint ({0} : Finset (Fin 4)) {1} :=
  ⟨.marginal (f := .term {0, 1, 2} {3} ∅) (.term (by decide)) (by decide), by decide, by decide, by decide⟩

/-- P(y | x) P(x), the joint distribution of two variables. -/
def Sample.chainRule : Formula (Fin 2) := .prod {0, 1} [.term {1} {0} ∅, .term {0} ∅ ∅]

/-- Two fair coins. -/
noncomputable def Sample.coins : Finset (Fin 2) → (Fin 2 → Bool) → ℝ := fun _ _ => 1 / 4

/-- C153 is violated: `P(x) P(y | x)` raises when it is conditioned on `x`; and `P(x).marginalize_out({x})` is `P(x)`, which is not the
sum over `x`. -/
theorem C153_violated :
    Sample.chainRule.getConditional {1} {0} = .error .assertion ∧
    (Formula.term ({0} : Finset (Fin 2)) ∅ ∅).marginalizeOut {0} = .ok (.term {0} ∅ ∅) ∧
    ∀ x, meaning Sample.coins (.term {0} ∅ ∅) x ≠ sumOut {0} (meaning Sample.coins (.term {0} ∅ ∅)) x := by
  refine ⟨?_, ?_, fun x => ?_⟩
  · have h : ¬ ({0} : Finset (Fin 2)) ⊆ {1} := by decide
    have hc : Formula.check (.prod {0, 1} [.term {1} {0} ∅, .term {0} ∅ ∅]) ({1} : Finset (Fin 2)) {0} = true := by decide
    rw [Sample.chainRule, Formula.getConditional, if_pos hc, if_neg (by decide), Formula.conditionals,
      Formula.getConditional_error (f := .term {1} {0} ∅) h]
  · have hc : Formula.check (.term {0} ∅ ∅) (∅ : Finset (Fin 2)) ∅ = true := by decide
    have e : ({0} : Finset (Fin 2)) \ {0} = ∅ := by decide
    simp only [Formula.marginalizeOut, Formula.active, e]
    rw [Formula.getConditional, if_pos hc]
    simp
  rw [sumOut_term Sample.coins (by simp) (by simp)]
  have h1 : ({w | ∀ v ∈ ({0} : Finset (Fin 2)), w v = x v} : Finset (Fin 2 → Bool)).card = 2 := by
    revert x; decide
  have h3 : (({0} : Finset (Fin 2)) ∪ ∅) \ {0} = ∅ := by decide
  have h4 : ({0} : Finset (Fin 2)) ∪ ∅ = {0} := by decide
  rw [h3]
  simp only [meaning, h4, marginalPr, Sample.coins, Finset.sum_const, h1]
  norm_num

/-! ## C154 -/

/-- C154, what holds. Without bidirected loops, `induced_subgraph(nodes)` keeps exactly the edges between these nodes, and
`induced_subgraph(removed_nodes=r)` is the graph on the nodes not in `r`. -/
theorem C154_induced_subgraph_partial (od ob : SetOrder Unit (α × α)) (up : Unpack α) {A : SemiMarkovian α} (h : A.Consistent)
    (hl : A.Loopless) :
    (∀ nodes, ∃ B, A.inducedSubgraph od ob up nodes none = .ok B ∧ B.Consistent ∧ B.nodes = nodes ∧
      (∀ i j, (i, j) ∈ B.directed ↔ (i, j) ∈ A.directed ∧ i ∈ nodes ∧ j ∈ nodes) ∧
      ∀ e, e ∈ B.bidirected ↔ e ∈ A.bidirected ∧ e ⊆ nodes) ∧
    ∀ nodes r, ∃ B, A.inducedSubgraph od ob up nodes (some r) = .ok B ∧ B.Consistent ∧ B.nodes = A.nodes \ r ∧
      (∀ i j, (i, j) ∈ B.directed ↔ (i, j) ∈ A.directed ∧ i ∉ r ∧ j ∉ r) ∧
      ∀ e, e ∈ B.bidirected ↔ e ∈ A.bidirected ∧ Disjoint e r := by
  refine ⟨SemiMarkovian.inducedSubgraph_spec od ob up h hl, fun nodes r => ?_⟩
  obtain ⟨B, h1, h2, h3, h4, h5⟩ := SemiMarkovian.inducedSubgraph_spec od ob up h hl (A.nodes \ r)
  refine ⟨B, h1, h2, h3, fun i j => ?_, fun e => ?_⟩
  · rw [h4]
    simp only [Finset.mem_sdiff]
    refine and_congr_right fun hij => ?_
    have := h.dir_mem i j hij
    tauto
  · rw [h5, Finset.subset_sdiff]
    refine and_congr_right fun he => ?_
    have := h.bi_mem e he
    tauto

/-- C154, what holds. Without bidirected loops, `mutilated_graph(out, inc)` keeps the arcs that leave no node of `out` and enter no node
of `inc`, and all nodes and bidirected edges. -/
theorem C154_mutilated_graph_partial (od ob : SetOrder Unit (α × α)) (up : Unpack α) {A : SemiMarkovian α} (h : A.Consistent)
    (hl : A.Loopless) (out inc : Finset α) :
    ∃ B, A.mutilatedGraph od ob up (some out) (some inc) = .ok B ∧ B.Consistent ∧ B.nodes = A.nodes ∧
      (∀ i j, (i, j) ∈ B.directed ↔ (i, j) ∈ A.directed ∧ i ∉ out ∧ j ∉ inc) ∧ B.bidirected = A.bidirected :=
  SemiMarkovian.mutilatedGraph_spec od ob up h hl out inc

/-- C154 is violated: leaving out one of the two optional arguments of `mutilated_graph` raises `TypeError` as soon as an arc is
examined; and a graph accepted by the constructor, with a bidirected loop, has no induced subgraph. -/
theorem C154_violated (od ob : SetOrder Unit (α × α)) (up : Unpack α) {A : SemiMarkovian α} :
    (A.directed.Nonempty → ∀ inc, A.mutilatedGraph od ob up none inc = .error .type) ∧
    (∀ i j out, (i, j) ∈ A.directed → i ∉ out → A.mutilatedGraph od ob up (some out) none = .error .type) ∧
    ∀ i nodes removed, {i} ∈ A.bidirected → A.inducedSubgraph od ob up nodes removed = .error .value := by
  refine ⟨fun hd inc => SemiMarkovian.mutilatedGraph_none_out od ob up inc hd,
    fun i j out hd hi => SemiMarkovian.mutilatedGraph_none_in od ob up hd hi, fun i nodes removed hi => ?_⟩
  have : ∃ e ∈ A.bidirected, e.card ≠ 2 := ⟨{i}, hi, by simp⟩
  cases removed <;> simp only [SemiMarkovian.inducedSubgraph, if_pos this]

end Props
