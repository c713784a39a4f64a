import Verif.Model.Queries
import Verif.Proof.Mutators
import Verif.Proof.Separation

/-! # Proofs about the read-only queries -/

namespace Model.DAG

set_option linter.unusedSectionVars false
set_option linter.unusedVariables false
set_option linter.unusedSimpArgs false
universe u
variable {α : Type u} [DecidableEq α] {G : DAG α}
open Relation Spec

/-! ## `ancestor_dict` / `descendant_dict` -/

/-- Common shape of the two loops. -/
def propStep (next : α → Finset α) (o : SetOrder α α) (d : α → Finset α) (node : α) : α → Finset α :=
  (o.ord node (next node)).foldl (fun d c => Function.update d c (d c ∪ d node))
    (Function.update d node (insert node (d node)))

theorem prop_inner (node : α) : ∀ (l : List α) (d : α → Finset α), node ∉ l →
    (∀ v x, x ∈ (l.foldl (fun d c => Function.update d c (d c ∪ d node)) d) v ↔
      x ∈ d v ∨ (v ∈ l ∧ x ∈ d node)) := by
  intro l
  induction l with
  | nil => intro d _ v x; simp
  | cons c l ih =>
    intro d hn v x
    have hc : node ≠ c := by rintro rfl; simp at hn
    have hl : node ∉ l := fun h => hn (by simp [h])
    rw [List.foldl_cons, ih _ hl, Function.update_of_ne hc]
    by_cases hv : v = c
    · subst hv; simp; tauto
    · rw [Function.update_of_ne hv]; simp [hv]

theorem prop_spec (next : α → Finset α) (o : SetOrder α α) (R : α → α → Prop)
    (hR : ∀ a b, b ∈ next a ↔ R a b) (l : List α) (hl : l.Nodup)
    (hb : ∀ a b, R a b → List.Sublist [a, b] l) :
    ∀ v, v ∈ l → ∀ x, x ∈ (l.foldl (propStep next o) (fun _ => ∅)) v ↔ Path0 R x v := by
  have hac : Acyclic R := fun v hv => by
    have h : LinearExtension {x | x ∈ l} R l := ⟨hl, fun _ => Iff.rfl, hb⟩
    exact linearExtension_acyclic h v hv
  suffices H : ∀ (post pre : List α) (d : α → Finset α), l = pre ++ post →
      (∀ v x, x ∈ d v ↔ (v ∈ pre ∧ Path0 R x v) ∨ ∃ p ∈ pre, R p v ∧ Path0 R x p) →
      (∀ v x, x ∈ (post.foldl (propStep next o) d) v ↔ (v ∈ l ∧ Path0 R x v) ∨ ∃ p ∈ l, R p v ∧ Path0 R x p) by
    intro v hv x
    rw [H l [] _ rfl (by simp) v x]
    constructor
    · rintro (h | ⟨p, _, h1, h2⟩)
      · exact h.2
      · exact ReflTransGen.tail h2 h1
    · intro h; exact Or.inl ⟨hv, h⟩
  intro post
  induction post with
  | nil =>
    intro pre d hd hI v x
    rw [List.append_nil] at hd; subst hd
    exact hI v x
  | cons n post ih =>
    intro pre d hd hI
    refine ih (pre ++ [n]) _ (by simp [hd]) ?_
    have hnp : ∀ p, R p n → p ∈ pre := by
      intro p hp
      have h1 := idxOf_lt_of_sublist hl (hb _ _ hp)
      rw [hd] at hl
      have hn : n ∉ pre := fun h => (List.nodup_append.1 hl).2.2 n h n (by simp) rfl
      rw [hd, List.idxOf_append_of_notMem hn] at h1
      simp at h1
      by_contra hc
      rw [List.idxOf_append_of_notMem hc] at h1
      omega
    have hnn : n ∉ o.ord n (next n) := by
      rw [o.mem_iff, hR]; exact fun h => hac n (.single h)
    have hself : ∀ x, x ∈ insert n (d n) ↔ Path0 R x n := by
      intro x
      rw [Finset.mem_insert, hI]
      constructor
      · rintro (rfl | h | ⟨p, _, h1, h2⟩)
        · exact .refl
        · exact h.2
        · exact h2.tail h1
      · intro h
        rcases ReflTransGen.cases_tail h with h | ⟨p, h1, h2⟩
        · exact Or.inl h.symm
        · exact Or.inr (Or.inr ⟨p, hnp p h2, h2, h1⟩)
    intro v x
    rw [propStep, prop_inner _ _ _ hnn, o.mem_iff, hR, Function.update_self, hself]
    by_cases hv : v = n
    · subst hv
      rw [Function.update_self, hself]
      constructor
      · rintro (h | ⟨h, _⟩)
        · exact Or.inl ⟨by simp, h⟩
        · exact absurd (.single h) (hac v)
      · rintro (h | ⟨p, _, h1, h2⟩)
        · exact Or.inl h.2
        · exact Or.inl (h2.tail h1)
    · rw [Function.update_of_ne hv, hI]
      simp only [List.mem_append, List.mem_singleton, hv, or_false]
      constructor
      · rintro ((h | ⟨p, h1, h2, h3⟩) | ⟨h1, h2⟩)
        · exact Or.inl h
        · exact Or.inr ⟨p, Or.inl h1, h2, h3⟩
        · exact Or.inr ⟨n, Or.inr rfl, h1, h2⟩
      · rintro (h | ⟨p, h1 | rfl, h2, h3⟩)
        · exact Or.inl (Or.inl h)
        · exact Or.inl (Or.inr ⟨p, h1, h2, h3⟩)
        · exact Or.inr ⟨h2, h3⟩

theorem path0_ne_iff {E : α → α → Prop} (hE : Acyclic E) (x v : α) :
    (x ≠ v ∧ Path0 E x v) ↔ Path E x v := by
  constructor
  · rintro ⟨h1, h2⟩
    rcases reflTransGen_iff_eq_or_transGen.1 h2 with h | h
    · exact absurd h.symm h1
    · exact h
  · intro h
    refine ⟨?_, h.to_reflTransGen⟩
    rintro rfl; exact hE _ h

theorem sublist_pair_reverse {l : List α} {a b : α} (h : List.Sublist [a, b] l) :
    List.Sublist [b, a] l.reverse := by
  have := List.reverse_sublist.2 h
  simpa using this

theorem ancestorDict_spec (hG : G.Valid) (ot : SetOrder (Option α) α) (o : SetOrder α α) :
    ∃ d, (ancestorDict G ot o).run = some (.ok d) ∧ ∀ v ∈ G.nodes, ∀ x, x ∈ d v ↔ Path G.E x v := by
  obtain ⟨l, hl, hle⟩ := topologicalSort_ok G ot hG
  have key := prop_spec G.children o G.E hG.children_iff l hle.nodup hle.before
  refine ⟨fun v => if v ∈ G.nodes then ((l.foldl (ancestorStep G o) fun _ => ∅) v).erase v
    else (l.foldl (ancestorStep G o) fun _ => ∅) v, ?_, ?_⟩
  · simp only [ancestorDict, ExceptT.run_bind, hl]; rfl
  · intro v hv x
    simp only [hv, if_true, Finset.mem_erase]
    rw [← path0_ne_iff hG.acyclic, ← key v ((hle.mem_iff v).2 hv)]
    rfl

theorem descendantDict_spec (hG : G.Valid) (ot : SetOrder (Option α) α) (o : SetOrder α α) :
    ∃ d, (descendantDict G ot o).run = some (.ok d) ∧ ∀ v ∈ G.nodes, ∀ x, x ∈ d v ↔ Path G.E v x := by
  obtain ⟨l, hl, hle⟩ := topologicalSort_ok G ot hG
  have key := prop_spec G.parents o (Function.swap G.E) (fun a b => hG.parents_iff b a) l.reverse
    (List.nodup_reverse.2 hle.nodup) (fun a b h => sublist_pair_reverse (hle.before _ _ h))
  refine ⟨fun v => if v ∈ G.nodes then ((l.reverse.foldl (descendantStep G o) fun _ => ∅) v).erase v
    else (l.reverse.foldl (descendantStep G o) fun _ => ∅) v, ?_, ?_⟩
  · simp only [descendantDict, ExceptT.run_bind, hl]; rfl
  · intro v hv x
    simp only [hv, if_true, Finset.mem_erase]
    have h2 : Path0 (Function.swap G.E) x v ↔ Path0 G.E v x := reflTransGen_swap
    rw [← path0_ne_iff hG.acyclic, ← h2, ← key v (by simpa using (hle.mem_iff v).2 hv), ne_comm]
    rfl

/-! ## Markov blanket -/

theorem mem_markovBlanketOf (hG : G.Consistent) (v x : α) :
    x ∈ markovBlanketOf G v ↔ G.E x v ∨ G.E v x ∨ (x ≠ v ∧ ∃ c, G.E v c ∧ G.E x c) := by
  simp only [markovBlanketOf, Finset.mem_union, Finset.mem_sdiff, Finset.mem_singleton, hG.parents_iff,
    hG.children_iff, E]
  split_ifs with h
  · simp only [Finset.notMem_empty, false_and, or_false]
    constructor
    · rintro (h | h) <;> tauto
    · rintro (h1 | h1 | ⟨_, c, h1, _⟩)
      · tauto
      · tauto
      · have := (hG.children_iff _ _).2 h1; rw [h] at this; simp at this
  · simp only [Finset.mem_biUnion, hG.parents_iff, hG.children_iff]
    tauto

/-! ## Extremal nodes -/

/-- A nonempty finite set has an element that is not preceded by another one in an acyclic relation. -/
theorem exists_minimal {R : α → α → Prop} (hR : Acyclic R) (s : Finset α) (hs : s.Nonempty) :
    ∃ v ∈ s, ∀ u ∈ s, ¬ Path R u v := by
  classical
  by_contra hc
  push Not at hc
  -- pick the element with the fewest predecessors in `s`
  obtain ⟨v, hv, hmin⟩ := s.exists_min_image (fun v => (s.filter fun u => Path R u v).card) hs
  obtain ⟨u, hu, huv⟩ := hc v hv
  have : (s.filter fun w => Path R w u).card < (s.filter fun w => Path R w v).card := by
    apply Finset.card_lt_card
    refine Finset.ssubset_iff_subset_ne.2 ⟨?_, ?_⟩
    · intro w hw
      rw [Finset.mem_filter] at hw ⊢
      exact ⟨hw.1, hw.2.trans huv⟩
    · intro heq
      have h1 : u ∈ s.filter fun w => Path R w v := Finset.mem_filter.2 ⟨hu, huv⟩
      rw [← heq, Finset.mem_filter] at h1
      exact hR u h1.2
  exact absurd (hmin u hu) (by omega)

theorem upstreamMost_spec (hG : G.Consistent) (o : SetOrder (α × Finset α) α) (l : List α) :
    ∃ s, upstreamMost G o l = some s ∧ ∀ v, v ∈ s ↔ v ∈ l ∧ ∀ u ∈ l, ¬ Path G.E u v := by
  refine foldlM_option (fun pre s => ∀ v, v ∈ s ↔ v ∈ pre ∧ ∀ u ∈ l, ¬ Path G.E u v) l ∅
    (fun v => by simp) ?_
  · intro pre x post s hl hs
    obtain ⟨a, ha, ha'⟩ := ancestorsOf_spec hG o x
    refine ⟨if a ∩ l.toFinset = ∅ then insert x s else s, by simp [ha], fun v => ?_⟩
    have key : a ∩ l.toFinset = ∅ ↔ ∀ u ∈ l, ¬ Path G.E u x := by
      rw [Finset.eq_empty_iff_forall_notMem]
      constructor
      · intro h u hu hp; exact h u (by simp [ha', hp, hu])
      · intro h u hu; simp [ha'] at hu; exact h u hu.2 hu.1
    by_cases hk : a ∩ l.toFinset = ∅
    · rw [if_pos hk, Finset.mem_insert, hs]
      rw [key] at hk
      simp only [List.mem_append, List.mem_singleton]
      constructor
      · rintro (rfl | h)
        · exact ⟨Or.inr rfl, hk⟩
        · exact ⟨Or.inl h.1, h.2⟩
      · rintro ⟨h1 | rfl, h2⟩
        · exact Or.inr ⟨h1, h2⟩
        · exact Or.inl rfl
    · rw [if_neg hk, hs]
      rw [key] at hk
      simp only [List.mem_append, List.mem_singleton]
      constructor
      · rintro h; exact ⟨Or.inl h.1, h.2⟩
      · rintro ⟨h1 | rfl, h2⟩
        · exact ⟨h1, h2⟩
        · exact absurd h2 hk

/-! ## New graphs -/

theorem ofOrd_toFinset {β : Type*} [DecidableEq β] {κ : Type*} (o : SetOrder κ β) (k : κ) (s : Finset β) :
    (o.ord k s).toFinset = s := by
  ext x; simp [o.mem_iff]

theorem new_ok (o : SetOrder (Option α) α) (oa : SetOrder Bool (α × α)) (nodes : Finset α)
    (arcs : Finset (α × α)) (h : Acyclic fun a b => (a, b) ∈ arcs) :
    ∃ G, new o oa nodes arcs = some (G, none) ∧ G.Valid ∧ G.arcs = arcs ∧
      G.nodes = nodes ∪ arcs.image Prod.fst ∪ arcs.image Prod.snd := by
  by_cases hne : arcs.card = 0
  · refine ⟨empty nodes, by simp [new, addArcsFrom, hne], ⟨empty_consistent nodes, ?_⟩, ?_, ?_⟩
    · rw [Finset.card_eq_zero] at hne; subst hne
      intro v hv; exact h v hv
    · rw [Finset.card_eq_zero] at hne; simp [hne, empty]
    · rw [Finset.card_eq_zero] at hne; simp [hne, empty]
  · obtain ⟨h1, h2, h3⟩ := addArcsUnchecked_spec (empty_consistent nodes) (oa.ord false arcs)
    have h2' : (addArcsUnchecked (empty nodes) (oa.ord false arcs)).arcs = arcs := by
      rw [h2, ofOrd_toFinset]; simp [empty]
    rcases addArcsFrom_cases (empty_consistent nodes) o oa arcs hne with ⟨ha, he⟩ | ⟨ha, _⟩
    · refine ⟨_, he, ⟨h1, ha⟩, h2', ?_⟩
      rw [h3]; ext x; simp [oa.mem_iff, empty]
    · exfalso; apply ha
      have : (addArcsUnchecked (empty nodes) (oa.ord false arcs)).E = fun a b => (a, b) ∈ arcs := by
        funext a b; simp only [E, h2']
      rw [this]; exact h

theorem new_error (o : SetOrder (Option α) α) (oa : SetOrder Bool (α × α)) (nodes : Finset α)
    (arcs : Finset (α × α)) (h : ¬ Acyclic fun a b => (a, b) ∈ arcs) :
    ∃ G e, new o oa nodes arcs = some (G, some e) := by
  have hne : arcs.card ≠ 0 := by
    intro hc; rw [Finset.card_eq_zero] at hc; subst hc
    apply h; intro v hv
    rcases TransGen.head'_iff.1 hv with ⟨c, hc, _⟩
    simp at hc
  obtain ⟨h1, h2, h3⟩ := addArcsUnchecked_spec (empty_consistent nodes) (oa.ord false arcs)
  have h2' : (addArcsUnchecked (empty nodes) (oa.ord false arcs)).arcs = arcs := by
    rw [h2, ofOrd_toFinset]; simp [empty]
  rcases addArcsFrom_cases (empty_consistent nodes) o oa arcs hne with ⟨ha, he⟩ | ⟨ha, l, he⟩
  · exfalso; apply h
    have : (addArcsUnchecked (empty nodes) (oa.ord false arcs)).E = fun a b => (a, b) ∈ arcs := by
      funext a b; simp only [E, h2']
    rw [← this]; exact ha
  · rcases hr : forEach (fun G (a : α × α) => removeArc false G a.1 a.2) (oa.ord true arcs)
        (addArcsUnchecked (empty nodes) (oa.ord false arcs)) with ⟨G1, _ | e⟩
    · rw [hr] at he; exact ⟨_, _, he⟩
    · rw [hr] at he; exact ⟨_, _, he⟩

end Model.DAG

namespace Model.DAG

universe u
variable {α : Type u} [DecidableEq α] {G : DAG α}
open Relation Spec

theorem mapM_option {β γ : Type u} {f : β → Option γ} {Q : β → γ → Prop} (l : List β)
    (h : ∀ x ∈ l, ∃ y, f x = some y ∧ Q x y) :
    ∃ r, l.mapM f = some r ∧ List.Forall₂ Q l r := by
  induction l with
  | nil => exact ⟨[], rfl, .nil⟩
  | cons x l ih =>
    obtain ⟨y, hy, hq⟩ := h x (by simp)
    obtain ⟨r, hr, hf⟩ := ih fun z hz => h z (by simp [hz])
    exact ⟨y :: r, by simp [List.mapM_cons, hy, hr], .cons hq hf⟩

theorem localMarkovStatements_spec (hG : G.Consistent) (on : SetOrder Unit α) (o : SetOrder (α × Finset α) α) :
    ∃ l, localMarkovStatements G on o = some l ∧ l.map Prod.fst = on.ord () G.nodes ∧
      ∀ v N P, (v, N, P) ∈ l →
        (∀ x, x ∈ N ↔ x ∈ G.nodes ∧ x ≠ v ∧ ¬ Path G.E v x ∧ ¬ G.E x v) ∧ (∀ x, x ∈ P ↔ G.E x v) := by
  let Q : α → α × Finset α × Finset α → Prop := fun v s => s.1 = v ∧
    (∀ x, x ∈ s.2.1 ↔ x ∈ G.nodes ∧ x ≠ v ∧ ¬ Path G.E v x ∧ ¬ G.E x v) ∧ (∀ x, x ∈ s.2.2 ↔ G.E x v)
  obtain ⟨r, hr, hf⟩ := mapM_option (Q := Q) (f := fun v => do
    let d ← descendantsOf G o v
    return (v, ((G.nodes \ {v}) \ d) \ G.parents v, G.parents v)) (on.ord () G.nodes) (by
    intro v _
    obtain ⟨d, hd, hd'⟩ := descendantsOf_spec hG o v
    refine ⟨(v, ((G.nodes \ {v}) \ d) \ G.parents v, G.parents v), by simp [hd], rfl, fun x => ?_, fun x => ?_⟩
    · simp [hd', hG.parents_iff, E, and_assoc]
    · exact hG.parents_iff _ _)
  refine ⟨r, hr, ?_, ?_⟩
  · clear hr
    generalize on.ord () G.nodes = l0 at hf ⊢
    induction hf with
    | nil => rfl
    | cons h _ ih => simp [ih, h.1]
  · intro v N P hm
    clear hr
    generalize on.ord () G.nodes = l0 at hf
    induction hf with
    | nil => simp at hm
    | cons h _ ih =>
      rcases List.mem_cons.1 hm with rfl | hm
      · obtain ⟨h1, h2, h3⟩ := h
        simp only at h1 h2 h3
        subst h1; exact ⟨h2, h3⟩
      · exact ih hm

theorem inducedSubgraph_spec (hG : G.Valid) (o : SetOrder (Option α) α) (oa : SetOrder Bool (α × α))
    (nodes : Finset α) : ∃ H, inducedSubgraph o oa G nodes = some (H, none) ∧ H.Valid ∧ H.nodes = nodes ∧
      H.E = Restrict G.E (nodes : Set α) := by
  obtain ⟨H, h1, h2, h3, h4⟩ := new_ok o oa nodes (G.arcs.filter fun a => a.1 ∈ nodes ∧ a.2 ∈ nodes)
    (acyclic_mono (fun a b h => (Finset.mem_filter.1 h).1) hG.acyclic)
  refine ⟨H, h1, h2, ?_, ?_⟩
  · rw [h4]; ext x; simp
    rintro (⟨y, _, h, _⟩ | ⟨y, _, _, h⟩) <;> exact h
  · funext a b; simp [E, h3, Restrict]

theorem ancestralSubgraph_spec (hG : G.Valid) (o : SetOrder (Option α) α) (oa : SetOrder Bool (α × α))
    (os : SetOrder (α × Finset α) α) (l : List α) :
    ∃ H, ancestralSubgraph o oa os G l = some (H, none) ∧ H.Valid ∧
      (∀ v, v ∈ H.nodes ↔ ∃ s ∈ l, Path0 G.E v s) ∧
      H.E = Restrict G.E {v | ∃ s ∈ l, Path0 G.E v s} := by
  obtain ⟨a, ha, ha'⟩ := foldlM_union (P := fun v x => Path G.E x v) (ancestorsOf_spec hG.toConsistent os) l
  have hm : ∀ v, v ∈ a ∪ l.toFinset ↔ ∃ s ∈ l, Path0 G.E v s := by
    intro v
    rw [Finset.mem_union, ha', List.mem_toFinset]
    constructor
    · rintro (⟨s, hs, h⟩ | h)
      · exact ⟨s, hs, h.to_reflTransGen⟩
      · exact ⟨v, h, .refl⟩
    · rintro ⟨s, hs, h⟩
      rcases reflTransGen_iff_eq_or_transGen.1 h with h | h
      · exact Or.inr (h ▸ hs)
      · exact Or.inl ⟨s, hs, h⟩
  obtain ⟨H, h1, h2, h3, h4⟩ := inducedSubgraph_spec hG o oa (a ∪ l.toFinset)
  refine ⟨H, by rw [ancestralSubgraph, ancestorsOfSet, ha]; exact h1, h2, fun v => by rw [h3, hm], ?_⟩
  rw [h4]; congr 1; ext v; rw [Finset.mem_coe, hm]; rfl

end Model.DAG
