import Verif.Model.AGQueries
import Verif.Proof.AGNew
import Verif.Proof.Queries
import Verif.Proof.Reach

/-! # Queries, copies and adjacency matrices of `AncestralGraph` -/

namespace Model.AG

universe u
variable {α : Type u} [DecidableEq α] {A : AG α}
open Relation Spec

/-! ## Copies -/

theorem up_pair (up : Unpack α) {S : Finset (Finset α)} (hS : ∀ e ∈ S, ∃ i j, i ≠ j ∧ e = {i, j}) {e : Finset α}
    (he : e ∈ S) : ({(up.fn e).1, (up.fn e).2} : Finset α) = e ∧ (up.fn e).1 ≠ (up.fn e).2 := by
  obtain ⟨i, j, hij, rfl⟩ := hS e he
  rcases up.spec i j hij with h | h <;> rw [h]
  · exact ⟨rfl, hij⟩
  · exact ⟨Finset.pair_comm _ _, hij.symm⟩

theorem image_up (up : Unpack α) {S : Finset (Finset α)} (hS : ∀ e ∈ S, ∃ i j, i ≠ j ∧ e = {i, j}) :
    (S.image up.fn).image (fun e => ({e.1, e.2} : Finset α)) = S := by
  rw [Finset.image_image]
  ext e
  simp only [Finset.mem_image, Function.comp_apply]
  constructor
  · rintro ⟨x, hx, rfl⟩; rw [(up_pair up hS hx).1]; exact hx
  · intro he; exact ⟨e, he, (up_pair up hS he).1⟩

theorem copy_spec (hA : A.Good) (o : SetOrder (Fin 3) (α × α)) (up : Unpack α) : A.copy o up = (A, none) :=
  new_ok hA o _ _ (image_up up hA.1.bi_pair) (image_up up hA.1.un_pair)

/-- The object an induced subgraph should be. -/
def restrict (A : AG α) (S : Finset α) : AG α where
  nodes := S
  directed := A.directed.filter fun e => e.1 ∈ S ∧ e.2 ∈ S
  bidirected := A.bidirected.filter fun e => e ⊆ S
  undirected := A.undirected.filter fun e => e ⊆ S
  parents v := if v ∈ S then A.parents v ∩ S else ∅
  children v := if v ∈ S then A.children v ∩ S else ∅
  spouses v := if v ∈ S then A.spouses v ∩ S else ∅
  neighbors v := if v ∈ S then A.neighbors v ∩ S else ∅
  adjacent v := if v ∈ S then A.adjacent v ∩ S else ∅

theorem mem_ite_inter {S T : Finset α} {v x : α} : (x ∈ if v ∈ S then T ∩ S else ∅) ↔ x ∈ T ∧ x ∈ S ∧ v ∈ S := by
  split_ifs with h <;> simp [h]

theorem pair_subset {S : Finset α} {i j : α} : ({i, j} : Finset α) ⊆ S ↔ i ∈ S ∧ j ∈ S := by
  simp [Finset.insert_subset_iff]

theorem restrict_good (hA : A.Good) (S : Finset α) : (A.restrict S).Good := by
  obtain ⟨h, hs⟩ := hA
  refine ⟨⟨?_, ?_, ?_, ?_, ?_, ?_, ?_, ?_, ?_, ?_, ?_⟩, ⟨?_, ?_, ?_, ?_, ?_⟩⟩
  · intro i j; simp only [restrict, mem_ite_inter, Finset.mem_filter, h.parents_iff]
  · intro i j; simp only [restrict, mem_ite_inter, Finset.mem_filter, h.children_iff]; tauto
  · intro i j; simp only [restrict, mem_ite_inter, Finset.mem_filter, h.spouses_iff, pair_subset]
  · intro i j; simp only [restrict, mem_ite_inter, Finset.mem_filter, h.neighbors_iff, pair_subset]
  · intro i j; simp only [restrict, mem_ite_inter, Finset.mem_filter, h.adjacent_iff, pair_subset]; tauto
  · intro i hi; exact h.dir_ne i (Finset.mem_filter.1 hi).1
  · intro e he; exact h.bi_pair e (Finset.mem_filter.1 he).1
  · intro e he; exact h.un_pair e (Finset.mem_filter.1 he).1
  · intro i j hij; exact (Finset.mem_filter.1 hij).2
  · intro e he; exact (Finset.mem_filter.1 he).2
  · intro e he; exact (Finset.mem_filter.1 he).2
  · intro i j hij hji; exact hs.dir_dir i j (Finset.mem_filter.1 hij).1 (Finset.mem_filter.1 hji).1
  · intro i j hij hji; exact hs.dir_bi i j (Finset.mem_filter.1 hij).1 (Finset.mem_filter.1 hji).1
  · intro i j hij hji; exact hs.dir_un i j (Finset.mem_filter.1 hij).1 (Finset.mem_filter.1 hji).1
  · intro e he he'; exact hs.bi_un e (Finset.mem_filter.1 he).1 (Finset.mem_filter.1 he').1
  · intro i j k hij
    have := hs.tails i j k (Finset.mem_filter.1 hij).1
    exact ⟨fun hk => this.1 (Finset.mem_filter.1 hk).1, fun hk => this.2 (Finset.mem_filter.1 hk).1⟩

theorem inducedSubgraph_spec (hA : A.Good) (o : SetOrder (Fin 3) (α × α)) (up : Unpack α) (S : Finset α) :
    A.inducedSubgraph o up S = (A.restrict S, none) := by
  have key : ∀ (T : Finset (Finset α)), (∀ e ∈ T, ∃ i j, i ≠ j ∧ e = {i, j}) →
      ((T.image up.fn).filter fun e => e.1 ∈ S ∧ e.2 ∈ S).image (fun e => ({e.1, e.2} : Finset α)) =
        T.filter fun e => e ⊆ S := by
    intro T hT
    ext e
    simp only [Finset.mem_image, Finset.mem_filter]
    constructor
    · rintro ⟨_, ⟨⟨x, hx, rfl⟩, h1⟩, rfl⟩
      rw [(up_pair up hT hx).1]
      refine ⟨hx, ?_⟩
      rw [← (up_pair up hT hx).1, pair_subset]; exact h1
    · rintro ⟨he, hs⟩
      refine ⟨up.fn e, ⟨⟨e, he, rfl⟩, ?_⟩, (up_pair up hT he).1⟩
      rwa [← (up_pair up hT he).1, pair_subset] at hs
  exact new_ok (restrict_good hA S) o _ _ (key _ hA.1.bi_pair) (key _ hA.1.un_pair)

/-! ## Ancestors -/

/-- Skipping elements inside a loop is the same as looping over the others. -/
theorem foldlM_filter {β : Type u} {γ : Type u} (p : β → Prop) [DecidablePred p] (f : γ → β → Option γ) :
    ∀ (l : List β) (s : γ), l.foldlM (fun s x => if p x then f s x else some s) s = (l.filter (fun x => decide (p x))).foldlM f s := by
  intro l
  induction l with
  | nil => intro s; rfl
  | cons x l ih =>
    intro s
    by_cases hx : p x
    · simp only [List.foldlM_cons, hx, if_true, decide_true, List.filter_cons_of_pos]
      congr 1
      funext s'; exact ih s'
    · simp [hx, ih]

/-- An iteration order in which the loop skips what is outside `next`. -/
def skipOrder (full : α → Finset α) (o : SetOrder (α × Finset α) α) : SetOrder (α × Finset α) α where
  ord k s := if s ⊆ full k.1 then (o.ord k (full k.1)).filter fun x => decide (x ∈ s) else o.ord k s
  nodup k s := by
    split_ifs
    · exact (o.nodup _ _).filter _
    · exact o.nodup _ _
  mem_iff k s x := by
    split_ifs with h
    · rw [List.mem_filter, o.mem_iff, decide_eq_true_eq]; exact ⟨And.right, fun hx => ⟨h hx, hx⟩⟩
    · exact o.mem_iff _ _ _

theorem ancestorsOf_spec (hA : A.Good) (o : SetOrder (α × Finset α) α) (ex : Finset (α × α)) (v : α) :
    ∃ s, A.ancestorsOf o ex v = some s ∧ ∀ x, x ∈ s ↔ Path (fun i j => (i, j) ∈ A.directed ∧ (i, j) ∉ ex) x v := by
  obtain ⟨s, hs, h⟩ := collect_empty (fun n => (A.parents n).filter fun p => (p, n) ∉ ex) (skipOrder A.parents o)
    (A.addAncestors o ex) (by
      intro acc node
      rw [addAncestors]
      have : (skipOrder A.parents o).ord (node, acc) ((A.parents node).filter fun p => (p, node) ∉ ex) =
          (o.ord (node, acc) (A.parents node)).filter fun p => decide ((p, node) ∉ ex) := by
        unfold skipOrder
        dsimp only
        rw [if_pos (Finset.filter_subset _ _)]
        refine List.filter_congr ?_
        intro x hx
        rw [o.mem_iff] at hx
        simp [hx]
      rw [this, ← foldlM_filter]
      congr 1
      funext acc p
      by_cases h1 : p ∈ acc <;> by_cases h2 : (p, node) ∈ ex <;> simp [h1, h2])
    (insert v A.nodes) (fun x _ => by
      intro y hy
      have := (hA.1.parents_iff _ _).1 (Finset.mem_filter.1 hy).1
      exact Finset.mem_insert_of_mem (hA.1.dir_mem _ _ this).1) v (Finset.mem_insert_self _ _)
  refine ⟨s, hs, fun x => ?_⟩
  rw [h, ← transGen_swap]
  have : Function.swap (fun a b => b ∈ (A.parents a).filter fun p => (p, a) ∉ ex) =
      fun i j => (i, j) ∈ A.directed ∧ (i, j) ∉ ex := by
    funext i j; simp [Function.swap, hA.1.parents_iff]
  rw [this]

theorem descendantsOf_spec (hA : A.Good) (o : SetOrder (α × Finset α) α) (ex : Finset (α × α)) (v : α) :
    ∃ s, A.descendantsOf o ex v = some s ∧ ∀ x, x ∈ s ↔ Path (fun i j => (i, j) ∈ A.directed ∧ (j, i) ∉ ex) v x := by
  obtain ⟨s, hs, h⟩ := collect_empty (fun n => (A.children n).filter fun p => (p, n) ∉ ex) (skipOrder A.children o)
    (A.addDescendants o ex) (by
      intro acc node
      rw [addDescendants]
      have : (skipOrder A.children o).ord (node, acc) ((A.children node).filter fun p => (p, node) ∉ ex) =
          (o.ord (node, acc) (A.children node)).filter fun p => decide ((p, node) ∉ ex) := by
        unfold skipOrder
        dsimp only
        rw [if_pos (Finset.filter_subset _ _)]
        refine List.filter_congr ?_
        intro x hx
        rw [o.mem_iff] at hx
        simp [hx]
      rw [this, ← foldlM_filter]
      congr 1
      funext acc p
      by_cases h1 : p ∈ acc <;> by_cases h2 : (p, node) ∈ ex <;> simp [h1, h2])
    (insert v A.nodes) (fun x _ => by
      intro y hy
      have := (hA.1.children_iff _ _).1 (Finset.mem_filter.1 hy).1
      exact Finset.mem_insert_of_mem (hA.1.dir_mem _ _ this).2) v (Finset.mem_insert_self _ _)
  refine ⟨s, hs, fun x => ?_⟩
  rw [h]
  have : (fun a b => b ∈ (A.children a).filter fun p => (p, a) ∉ ex) =
      fun i j => (i, j) ∈ A.directed ∧ (j, i) ∉ ex := by
    funext i j; simp [hA.1.children_iff]
  rw [this]

omit [DecidableEq α] in
theorem mapM_lift {β : Type u} (f : α → Option β) (g : α → β) : ∀ l : List α, (∀ x ∈ l, f x = some (g x)) →
    (l.mapM fun v => (liftM (f v) : Run α β)).run = some (.ok (l.map g)) := by
  intro l
  induction l with
  | nil => intro _; rfl
  | cons x l ih =>
    intro h
    have h1 := ih fun y hy => h y (List.mem_cons_of_mem _ hy)
    have h2 := h x List.mem_cons_self
    have h3 : (liftM (f x) : Run α β).run = some (.ok (g x)) := by
      rw [h2]; rfl
    rw [List.mapM_cons]
    simp only [ExceptT.run_bind, h3, h1]
    rfl

theorem mem_foldl_union : ∀ (l : List (Finset α)) (s : Finset α) (x : α),
    x ∈ l.foldl (· ∪ ·) s ↔ x ∈ s ∨ ∃ t ∈ l, x ∈ t := by
  intro l
  induction l with
  | nil => simp
  | cons t l ih => intro s x; rw [List.foldl_cons, ih]; simp [or_assoc]

theorem ancestorsOfSet_spec (hA : A.Good) (o : SetOrder (α × Finset α) α) (on : SetOrder Unit α) (ex : Finset (α × α))
    (S : Finset α) :
    (S = ∅ → (A.ancestorsOfSet o on ex S).run = some (.error .type)) ∧
    (S ≠ ∅ → ∃ s, (A.ancestorsOfSet o on ex S).run = some (.ok s) ∧
      ∀ x, x ∈ s ↔ ∃ v ∈ S, Path (fun i j => (i, j) ∈ A.directed) x v) := by
  constructor
  · intro h; rw [ancestorsOfSet, if_pos h]; rfl
  · intro h
    choose g hg hg' using fun v => ancestorsOf_spec hA o ∅ v
    have := mapM_lift (fun v => A.ancestorsOf o ∅ v) g (on.ord () S) fun x _ => hg x
    refine ⟨((on.ord () S).map g).foldl (· ∪ ·) ∅, ?_, ?_⟩
    · rw [ancestorsOfSet, if_neg h]
      simp only [ExceptT.run_bind]
      change (do
        let r ← ((on.ord () S).mapM fun v => (liftM (A.ancestorsOf o ∅ v) : Run α (Finset α))).run
        _) = _
      rw [this]; rfl
    · intro x
      rw [mem_foldl_union]
      simp [on.mem_iff, hg']

theorem descendantsOfSet_spec (hA : A.Good) (o : SetOrder (α × Finset α) α) (on : SetOrder Unit α) (ex : Finset (α × α))
    (S : Finset α) :
    (S = ∅ → (A.descendantsOfSet o on ex S).run = some (.error .type)) ∧
    (S ≠ ∅ → ∃ s, (A.descendantsOfSet o on ex S).run = some (.ok s) ∧
      ∀ x, x ∈ s ↔ ∃ v ∈ S, Path (fun i j => (i, j) ∈ A.directed) v x) := by
  constructor
  · intro h; rw [descendantsOfSet, if_pos h]; rfl
  · intro h
    choose g hg hg' using fun v => descendantsOf_spec hA o ∅ v
    have := mapM_lift (fun v => A.descendantsOf o ∅ v) g (on.ord () S) fun x _ => hg x
    refine ⟨((on.ord () S).map g).foldl (· ∪ ·) ∅, ?_, ?_⟩
    · rw [descendantsOfSet, if_neg h]
      simp only [ExceptT.run_bind]
      change (do
        let r ← ((on.ord () S).mapM fun v => (liftM (A.descendantsOf o ∅ v) : Run α (Finset α))).run
        _) = _
      rw [this]; rfl
    · intro x
      rw [mem_foldl_union]
      simp [on.mem_iff, hg']

/-- On an ancestral graph `topological_sort` succeeds. -/
theorem topologicalSort_ok (hA : A.Good) (hanc : A.mixed.Ancestral) (o os : SetOrder (Option α) α) :
    ∃ l, (topologicalSort A o os).run = some (.ok l) ∧
      LinearExtension (A.nodes : Set α) (fun i j => (i, j) ∈ A.directed) l := by
  rcases topologicalSort_cases A o os hA.1 with h | ⟨e, he, ⟨l, rfl, hl⟩ | ⟨a, b, rfl, hb, hp⟩⟩
  · exact h
  · obtain ⟨v, hv⟩ := DAG.isClosingWalk_cycle hl
    exact absurd hv (hanc.acyclic v)
  · exact absurd hp (hanc.almost b a hb)

theorem ancestorDict_spec (hA : A.Good) (hanc : A.mixed.Ancestral) (ot os : SetOrder (Option α) α) (o : SetOrder α α) :
    ∃ d, (ancestorDict A ot os o).run = some (.ok d) ∧ ∀ v ∈ A.nodes, ∀ x, x ∈ d v ↔ Path A.mixed.dir x v := by
  obtain ⟨l, hl, hle⟩ := topologicalSort_ok hA hanc ot os
  have key := DAG.prop_spec A.children o A.mixed.dir hA.1.children_iff l hle.nodup hle.before
  refine ⟨fun v => if v ∈ A.nodes then ((l.foldl (ancestorStep A o) fun _ => ∅) v).erase v
    else (l.foldl (ancestorStep A o) fun _ => ∅) v, ?_, ?_⟩
  · simp only [ancestorDict, ExceptT.run_bind, hl]; rfl
  · intro v hv x
    simp only [hv, if_true, Finset.mem_erase]
    rw [← DAG.path0_ne_iff hanc.acyclic, ← key v ((hle.mem_iff v).2 hv)]
    rfl

theorem descendantDict_spec (hA : A.Good) (hanc : A.mixed.Ancestral) (ot os : SetOrder (Option α) α) (o : SetOrder α α) :
    ∃ d, (descendantDict A ot os o).run = some (.ok d) ∧ ∀ v ∈ A.nodes, ∀ x, x ∈ d v ↔ Path A.mixed.dir v x := by
  obtain ⟨l, hl, hle⟩ := topologicalSort_ok hA hanc ot os
  have key := DAG.prop_spec A.parents o (Function.swap A.mixed.dir) (fun a b => hA.1.parents_iff b a) l.reverse
    (List.nodup_reverse.2 hle.nodup) (fun a b h => DAG.sublist_pair_reverse (hle.before _ _ h))
  refine ⟨fun v => if v ∈ A.nodes then ((l.reverse.foldl (descendantStep A o) fun _ => ∅) v).erase v
    else (l.reverse.foldl (descendantStep A o) fun _ => ∅) v, ?_, ?_⟩
  · simp only [descendantDict, ExceptT.run_bind, hl]; rfl
  · intro v hv x
    simp only [hv, if_true, Finset.mem_erase]
    have h2 : Path0 (Function.swap A.mixed.dir) x v ↔ Path0 A.mixed.dir v x := reflTransGen_swap
    rw [← DAG.path0_ne_iff hanc.acyclic, ← h2, ← key v (by simpa using (hle.mem_iff v).2 hv), ne_comm]
    rfl

theorem hasAnyEdge_iff {i j : α} : A.hasAnyEdge i j = true ↔ A.mixed.Adj i j := by
  unfold hasAnyEdge Mixed.Adj mixed
  simp [or_assoc]

/-! ## Adjacency matrices -/

theorem setPairs_spec (x y : ℤ) : ∀ (l : List (ℕ × ℕ)) (M : Amat), (∀ p ∈ l, p.1 < M.n ∧ p.2 < M.n) →
    ∃ M', setPairs x y l M = .ok M' ∧ M'.n = M.n ∧
      (∀ a b, (a, b) ∉ l → (b, a) ∉ l → M'.entry a b = M.entry a b) ∧
      (∀ a b, (a, b) ∈ l → ((b, a) ∉ l ∨ x = y) → M'.entry a b = x ∧ M'.entry b a = y) := by
  intro l
  induction l with
  | nil => intro M _; exact ⟨M, rfl, rfl, fun _ _ _ _ => rfl, by simp⟩
  | cons p ps ih =>
    intro M hM
    obtain ⟨i, j⟩ := p
    obtain ⟨hi, hj⟩ := hM (i, j) (by simp)
    dsimp only at hi hj
    obtain ⟨M', h1, h2, h3, h4⟩ := ih { n := M.n, entry := fun a b => if a = j ∧ b = i then y else
        if a = i ∧ b = j then x else M.entry a b } (fun p hp => hM p (by simp [hp]))
    refine ⟨M', ?_, h2, ?_, ?_⟩
    · rw [setPairs]
      have s1 : ∀ (N : Amat) (a b : ℕ) (z : ℤ), a < N.n → b < N.n → Amat.set (α := ℕ) a b z N =
          .ok { N with entry := fun c d => if c = a ∧ d = b then z else N.entry c d } := by
        intro N a b z ha hb; rw [Amat.set, if_pos ⟨ha, hb⟩]
      dsimp only
      rw [s1 M i j x hi hj]
      change Except.bind (Amat.set j i y _) _ = _
      rw [s1 { n := M.n, entry := fun c d => if c = i ∧ d = j then x else M.entry c d } j i y hj hi]
      exact h1
    · intro a b hab hba
      simp only [List.mem_cons, not_or, Prod.mk.injEq] at hab hba
      rw [h3 a b hab.2 hba.2]
      dsimp only
      rw [if_neg (by tauto), if_neg (by tauto)]
    · intro a b hab hor
      by_cases c1 : (a, b) ∈ ps
      · refine h4 a b c1 (hor.imp_left fun h h' => h (by simp [h']))
      · have he : (a, b) = (i, j) := by simpa [c1] using hab
        simp only [Prod.mk.injEq] at he
        obtain ⟨rfl, rfl⟩ := he
        by_cases c2 : (b, a) ∈ ps
        · rcases hor with h | rfl
          · exact absurd (by simp [c2]) h
          · exact (h4 b a c2 (Or.inr rfl)).symm
        · rw [h3 a b c1 c2, h3 b a c2 c1]
          dsimp only
          by_cases hab' : a = b
          · subst hab'
            rcases hor with h | rfl
            · exact absurd (by simp) h
            · simp
          · simp [hab', Ne.symm hab']

theorem amat_round_trip {A : AG ℕ} (hA : A.Good) (n : ℕ) (hn : A.nodes = Finset.range n) (o : SetOrder Unit (ℕ × ℕ))
    (ob : SetOrder Bool (Finset ℕ)) (up : Unpack ℕ) (oc : SetOrder (Fin 3) (ℕ × ℕ)) :
    ∃ M, A.toAmat o ob up = .ok M ∧ M.n = n ∧
      (∀ i j, (i, j) ∈ A.directed → M.entry i j = 2 ∧ M.entry j i = 3) ∧
      (∀ i j, {i, j} ∈ A.bidirected → M.entry i j = 2 ∧ M.entry j i = 2) ∧
      (∀ i j, {i, j} ∈ A.undirected → M.entry i j = 3 ∧ M.entry j i = 3) ∧
      (∀ i j, ¬ A.mixed.Adj i j → M.entry i j = 0) ∧
      fromAmat oc M = (A, none) := by
  have hd : ∀ {i j}, (i, j) ∈ A.directed → i < n ∧ j < n := fun h => by
    have := hA.1.dir_mem _ _ h; simpa [hn] using this
  have hb : ∀ {i j}, ({i, j} : Finset ℕ) ∈ A.bidirected → i < n ∧ j < n := fun {i j} h => by
    have h := hA.1.bi_mem _ h
    have h1 := h (show i ∈ _ by simp)
    have h2 := h (show j ∈ _ by simp)
    simpa [hn] using And.intro h1 h2
  have hu : ∀ {i j}, ({i, j} : Finset ℕ) ∈ A.undirected → i < n ∧ j < n := fun {i j} h => by
    have h := hA.1.un_mem _ h
    have h1 := h (show i ∈ _ by simp)
    have h2 := h (show j ∈ _ by simp)
    simpa [hn] using And.intro h1 h2
  have hcard : A.nodes.card = n := by simp [hn]
  -- the lists of unpacked pairs
  have hlist : ∀ (b : Bool) (S : Finset (Finset ℕ)) (_ : ∀ e ∈ S, ∃ i j, i ≠ j ∧ e = {i, j}) (i j : ℕ),
      ((i, j) ∈ (ob.ord b S).map up.fn → {i, j} ∈ S) ∧
      ({i, j} ∈ S → (i, j) ∈ (ob.ord b S).map up.fn ∨ (j, i) ∈ (ob.ord b S).map up.fn) := by
    intro b S hS i j
    simp only [List.mem_map, ob.mem_iff]
    constructor
    · rintro ⟨e, he, h⟩
      have := (up_pair up hS he).1
      rw [h] at this
      dsimp only at this
      rwa [this]
    · intro he
      have hne : i ≠ j := by
        rintro rfl
        obtain ⟨a, b, hab, h⟩ := hS _ he
        have := congrArg Finset.card h
        simp [Finset.card_pair hab] at this
      rcases up.spec i j hne with h | h
      · exact Or.inl ⟨_, he, h⟩
      · exact Or.inr ⟨_, he, h⟩
  obtain ⟨M1, a1, a2, a3, a4⟩ := setPairs_spec 2 3 (o.ord () A.directed) (.zeros A.nodes.card) (by
    intro p hp; rw [o.mem_iff] at hp; rw [hcard]; exact hd hp)
  obtain ⟨M2, b1, b2, b3, b4⟩ := setPairs_spec 2 2 ((ob.ord false A.bidirected).map up.fn) M1 (by
    intro p hp; rw [a2, hcard]; exact hb ((hlist _ _ hA.1.bi_pair p.1 p.2).1 hp))
  obtain ⟨M, c1, c2, c3, c4⟩ := setPairs_spec 3 3 ((ob.ord true A.undirected).map up.fn) M2 (by
    intro p hp; rw [b2, a2, hcard]; exact hu ((hlist _ _ hA.1.un_pair p.1 p.2).1 hp))
  simp only [o.mem_iff] at a3 a4
  have hMn : M.n = n := by rw [c2, b2, a2]; exact hcard
  -- not listed
  have nb : ∀ {i j}, ({i, j} : Finset ℕ) ∉ A.bidirected → (i, j) ∉ (ob.ord false A.bidirected).map up.fn ∧
      (j, i) ∉ (ob.ord false A.bidirected).map up.fn := fun {i j} h =>
    ⟨fun h' => h ((hlist _ _ hA.1.bi_pair i j).1 h'), fun h' => h (by
      rw [Finset.pair_comm]; exact (hlist _ _ hA.1.bi_pair j i).1 h')⟩
  have nu : ∀ {i j}, ({i, j} : Finset ℕ) ∉ A.undirected → (i, j) ∉ (ob.ord true A.undirected).map up.fn ∧
      (j, i) ∉ (ob.ord true A.undirected).map up.fn := fun {i j} h =>
    ⟨fun h' => h ((hlist _ _ hA.1.un_pair i j).1 h'), fun h' => h (by
      rw [Finset.pair_comm]; exact (hlist _ _ hA.1.un_pair j i).1 h')⟩
  have eu : ∀ i j, ({i, j} : Finset ℕ) ∈ A.undirected → M.entry i j = 3 ∧ M.entry j i = 3 := by
    intro i j h
    rcases (hlist true _ hA.1.un_pair i j).2 h with h | h
    · exact c4 i j h (Or.inr rfl)
    · exact (c4 j i h (Or.inr rfl)).symm
  have eb : ∀ i j, ({i, j} : Finset ℕ) ∈ A.bidirected → M.entry i j = 2 ∧ M.entry j i = 2 := by
    intro i j h
    obtain ⟨n1, n2⟩ := nu (hA.2.bi_un _ h)
    rw [c3 i j n1 n2, c3 j i n2 n1]
    rcases (hlist false _ hA.1.bi_pair i j).2 h with h | h
    · exact b4 i j h (Or.inr rfl)
    · exact (b4 j i h (Or.inr rfl)).symm
  have ed : ∀ i j, (i, j) ∈ A.directed → M.entry i j = 2 ∧ M.entry j i = 3 := by
    intro i j h
    obtain ⟨n1, n2⟩ := nu (hA.2.dir_un _ _ h)
    obtain ⟨n3, n4⟩ := nb (hA.2.dir_bi _ _ h)
    rw [c3 i j n1 n2, c3 j i n2 n1, b3 i j n3 n4, b3 j i n4 n3]
    exact a4 i j h (Or.inl (hA.2.dir_dir _ _ h))
  have e0 : ∀ i j, ¬ A.mixed.Adj i j → M.entry i j = 0 := by
    intro i j h
    unfold Mixed.Adj mixed at h
    push Not at h
    obtain ⟨h1, h2, h3, h4⟩ := h
    obtain ⟨n1, n2⟩ := nu h4
    obtain ⟨n3, n4⟩ := nb h3
    rw [c3 i j n1 n2, b3 i j n3 n4, a3 i j h1 h2]
    rfl
  refine ⟨M, ?_, hMn, ed, eb, eu, e0, ?_⟩
  · unfold toAmat
    rw [a1]
    change (setPairs 2 2 _ M1).bind _ = _
    rw [b1]
    exact c1
  have adj_cases : ∀ i j, M.entry i j ≠ 0 → (i, j) ∈ A.directed ∨ (j, i) ∈ A.directed ∨ {i, j} ∈ A.bidirected ∨
      {i, j} ∈ A.undirected := by
    intro i j h
    by_contra hc
    exact h (e0 i j hc)
  have rd : ∀ i j, M.entry i j = 2 → M.entry j i = 3 → (i, j) ∈ A.directed := by
    intro i j h1 h2
    rcases adj_cases i j (by rw [h1]; decide) with h | h | h | h
    · exact h
    · have := ed _ _ h; omega
    · have := eb _ _ h; omega
    · have := eu _ _ h; omega
  have rb : ∀ i j, M.entry i j = 2 → M.entry j i = 2 → {i, j} ∈ A.bidirected := by
    intro i j h1 h2
    rcases adj_cases i j (by rw [h1]; decide) with h | h | h | h
    · have := ed _ _ h; omega
    · have := ed _ _ h; omega
    · exact h
    · have := eu _ _ h; omega
  have ru : ∀ i j, M.entry i j = 3 → M.entry j i = 3 → {i, j} ∈ A.undirected := by
    intro i j h1 h2
    rcases adj_cases i j (by rw [h1]; decide) with h | h | h | h
    · have := ed _ _ h; omega
    · have := ed _ _ h; omega
    · have := eb _ _ h; omega
    · exact h
  unfold fromAmat
  have hdir : ∀ (ps : Finset (ℕ × ℕ)), (∀ e, e ∈ ps ↔ e.1 < n ∧ e.2 < n ∧ e.1 < e.2) →
      (ps.filter fun e => M.entry e.1 e.2 = 2 ∧ M.entry e.2 e.1 = 3) ∪
      (ps.filter fun e => M.entry e.1 e.2 = 3 ∧ M.entry e.2 e.1 = 2).image Prod.swap = A.directed := by
    intro ps hps
    ext ⟨i, j⟩
    simp only [Finset.mem_union, Finset.mem_filter, hps, Finset.mem_image, Prod.exists, Prod.swap_prod_mk, Prod.mk.injEq]
    constructor
    · rintro (⟨-, h1, h2⟩ | ⟨a, b, ⟨-, h1, h2⟩, rfl, rfl⟩)
      · exact rd i j h1 h2
      · exact rd _ _ h2 h1
    · intro h
      have he := ed i j h
      have hlt := hd h
      have hne : i ≠ j := by rintro rfl; exact hA.1.dir_ne _ h
      rcases lt_or_gt_of_ne hne with hl | hl
      · exact Or.inl ⟨⟨hlt.1, hlt.2, hl⟩, he⟩
      · exact Or.inr ⟨j, i, ⟨⟨hlt.2, hlt.1, hl⟩, he.2, he.1⟩, rfl, rfl⟩
  have hpair : ∀ (ps : Finset (ℕ × ℕ)) (x : ℤ) (S : Finset (Finset ℕ)), (∀ e, e ∈ ps ↔ e.1 < n ∧ e.2 < n ∧ e.1 < e.2) →
      (∀ e ∈ S, ∃ i j, i ≠ j ∧ e = {i, j}) → (∀ i j, M.entry i j = x → M.entry j i = x → {i, j} ∈ S) →
      (∀ i j, {i, j} ∈ S → M.entry i j = x ∧ M.entry j i = x) → (∀ i j, {i, j} ∈ S → i < n ∧ j < n) →
      (ps.filter fun e => M.entry e.1 e.2 = x ∧ M.entry e.2 e.1 = x).image (fun e => ({e.1, e.2} : Finset ℕ)) = S := by
    intro ps x S hps hS h1 h2 h3
    ext e
    simp only [Finset.mem_image, Finset.mem_filter, hps]
    constructor
    · rintro ⟨p, ⟨-, k1, k2⟩, rfl⟩; exact h1 _ _ k1 k2
    · intro he
      obtain ⟨i, j, hij, rfl⟩ := hS e he
      have k1 := h2 i j he
      have k2 := h3 i j he
      rcases lt_or_gt_of_ne hij with hl | hl
      · exact ⟨(i, j), ⟨⟨k2.1, k2.2, hl⟩, k1⟩, rfl⟩
      · exact ⟨(j, i), ⟨⟨k2.2, k2.1, hl⟩, k1.2, k1.1⟩, Finset.pair_comm _ _⟩
  have hps : ∀ e, e ∈ ((Finset.range M.n ×ˢ Finset.range M.n).filter fun e => e.1 < e.2) ↔ e.1 < n ∧ e.2 < n ∧ e.1 < e.2 := by
    intro e; rw [hMn]; simp [and_assoc]
  dsimp only
  rw [hdir _ hps]
  have hnodes : Finset.range M.n = A.nodes := by rw [hMn, hn]
  have key := new_ok hA oc _ _ (hpair _ 2 _ hps hA.1.bi_pair rb eb (fun i j h => hb h))
    (hpair _ 3 _ hps hA.1.un_pair ru eu (fun i j h => hu h))
  rw [← hnodes] at key
  exact key

end Model.AG
