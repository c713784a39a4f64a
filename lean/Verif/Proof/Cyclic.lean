import Verif.Spec.CyclicViews
import Verif.Proof.AGEquiv
import Verif.Proof.AGMarks
import Verif.Proof.AGQueries
import Mathlib.Data.List.TakeWhile

/-! # Lemmas about the objects of `cyclic_graph.py` -/

namespace Model

universe u
variable {α : Type u} [DecidableEq α]
open Relation Spec

namespace CyclicG

variable {C : CyclicG α}

/-! ## The state is that of `AG` -/

omit [DecidableEq α] in
theorem andThen_base {r : Step α} {r' : AG.Step α} {f : CyclicG α → Step α} {g : AG α → AG.Step α}
    (h : (r.1.base, r.2) = r') (hf : ∀ C, ((f C).1.base, (f C).2) = g C.base) :
    ((r.andThen f).1.base, (r.andThen f).2) = r'.andThen g := by
  subst h
  unfold Step.andThen AG.Step.andThen
  cases r.2 with
  | none => exact hf _
  | some e => rfl

omit [DecidableEq α] in
theorem forEach_base {β : Type u} {body : CyclicG α → β → Step α} {body' : AG α → β → AG.Step α}
    (h : ∀ C x, ((body C x).1.base, (body C x).2) = body' C.base x) :
    ∀ (l : List β) (C : CyclicG α), ((forEach body l C).1.base, (forEach body l C).2) = AG.forEach body' l C.base
  | [], _ => rfl
  | x :: l, C => andThen_base (h C x) (forEach_base h l)

theorem new_base (o : SetOrder (Fin 3) (α × α)) (nodes : Finset α) (d b u : Finset (α × α)) :
    ((CyclicG.new o nodes d b u).1.base, (CyclicG.new o nodes d b u).2) = AG.new o nodes d b u :=
  andThen_base (andThen_base (forEach_base (fun _ _ => rfl) _ _) (forEach_base (fun _ _ => rfl) _))
    (forEach_base (fun _ _ => rfl) _)

theorem exec_base (w : AG.Orders α) (C : CyclicG α) (op : Op α) {C' : CyclicG α} {e : Option (Exn α)}
    (h : op.exec w C = some (C', e)) :
    C'.base = C.base ∧ e = none ∨ ∃ op' : AG.Op α, (op.Distinct → op'.Distinct) ∧ op'.exec w C.base = some (C'.base, e) := by
  cases op with
  | read l => cases h; exact Or.inl ⟨rfl, rfl⟩
  | addNode v => cases h; exact Or.inr ⟨.addNode v, fun _ => trivial, rfl⟩
  | addDirected i j =>
    refine Or.inr ⟨.addDirected i j, id, ?_⟩
    unfold Op.exec addDirected at h
    obtain ⟨r, hr, h⟩ := Option.map_eq_some_iff.1 h
    cases h
    exact hr
  | addBidirected i j => cases h; exact Or.inr ⟨.addBidirected i j, id, rfl⟩
  | addUndirected i j => cases h; exact Or.inr ⟨.addUndirected i j, id, rfl⟩
  | removeDirected ig i j => cases h; exact Or.inr ⟨.removeDirected ig i j, fun _ => trivial, rfl⟩
  | removeBidirected ig i j => cases h; exact Or.inr ⟨.removeBidirected ig i j, fun _ => trivial, rfl⟩
  | removeUndirected ig i j => cases h; exact Or.inr ⟨.removeUndirected ig i j, fun _ => trivial, rfl⟩
  | removeNode ig v => cases h; exact Or.inr ⟨.removeNode ig v, fun _ => trivial, rfl⟩

theorem Reachable.base (h : Reachable C) : AG.Reachable C.base := by
  induction h with
  | new o nodes d b u C hne hC =>
    refine .new o nodes d b u C.base hne ?_
    rw [← new_base, hC]
  | call C w op C' e _ hd hx ih =>
    rcases exec_base w C op hx with ⟨h, -⟩ | ⟨op', h1, h2⟩
    · rw [h]; exact ih
    · exact .call _ w op' _ e ih (h1 hd) h2

theorem Built.reachable (h : Built C) : Reachable C := by
  induction h with
  | new o nodes d b u C hne hC => exact .new o nodes d b u C hne hC
  | read C l _ ih =>
    refine .call C ⟨⟨fun _ s => s.toList, fun _ s => s.nodup_toList, fun _ _ _ => Finset.mem_toList⟩,
      ⟨fun _ s => s.toList, fun _ s => s.nodup_toList, fun _ _ _ => Finset.mem_toList⟩,
      ⟨fun _ s => s.toList, fun _ s => s.nodup_toList, fun _ _ _ => Finset.mem_toList⟩, true⟩ (.read l) _ none ih trivial rfl

/-! ## The order of the keys -/

theorem mem_touch {keys : List α} {v x : α} : x ∈ touch keys v ↔ x ∈ keys ∨ x = v := by
  unfold touch
  split_ifs with h
  · exact ⟨Or.inl, fun k => k.elim id fun e => e ▸ h⟩
  · simp

theorem mem_foldl_touch (l : List α) : ∀ {keys : List α} {x : α}, x ∈ l.foldl touch keys ↔ x ∈ keys ∨ x ∈ l := by
  induction l with
  | nil => intro keys x; simp
  | cons v l ih => intro keys x; rw [List.foldl_cons, ih, mem_touch, List.mem_cons, or_assoc]

/-- Those with `P` come first, and all of them are there. -/
def Front (P : α → Prop) (keys : List α) : Prop :=
  ∃ l1 l2, keys = l1 ++ l2 ∧ (∀ v, P v ↔ v ∈ l1) ∧ ∀ v ∈ l2, ¬ P v

theorem Front.touch {P : α → Prop} {keys : List α} (h : Front P keys) (v : α) : Front P (touch keys v) := by
  unfold CyclicG.touch
  split_ifs with hv
  · exact h
  · obtain ⟨l1, l2, rfl, h1, h2⟩ := h
    refine ⟨l1, l2 ++ [v], by simp, h1, fun x hx => ?_⟩
    rcases List.mem_append.1 hx with hx | hx
    · exact h2 x hx
    · obtain rfl := List.mem_singleton.1 hx
      intro hp
      exact hv (List.mem_append_left _ ((h1 _).1 hp))

theorem Front.foldl {P : α → Prop} (l : List α) : ∀ {keys : List α}, Front P keys → Front P (l.foldl CyclicG.touch keys) := by
  induction l with
  | nil => exact fun h => h
  | cons v l ih => exact fun h => ih (h.touch v)

omit [DecidableEq α] in
/-- A loop keeps `I` as long as it raises nothing. -/
theorem forEach_inv {β : Type u} {body : CyclicG α → β → Step α} {I : CyclicG α → Prop} : ∀ (l : List β) (C : CyclicG α),
    (∀ x ∈ l, ∀ C, I C → (body C x).2 = none → I (body C x).1) → I C → (forEach body l C).2 = none → I (forEach body l C).1
  | [], _, _, h, _ => h
  | x :: l, C, hb, h, hn => by
    unfold forEach Step.andThen at hn ⊢
    cases hx : (body C x).2 with
    | some e => rw [hx] at hn; simp at hn
    | none =>
      rw [hx] at hn
      exact forEach_inv l _ (fun y hy => hb y (List.mem_cons_of_mem _ hy)) (hb x (by simp) C h hx) hn

omit [DecidableEq α] in
theorem andThen_none {r : Step α} {f : CyclicG α → Step α} (h : (r.andThen f).2 = none) :
    r.2 = none ∧ r.andThen f = f r.1 := by
  unfold Step.andThen at h ⊢
  cases hr : r.2 with
  | none => exact ⟨rfl, rfl⟩
  | some e => rw [hr] at h; simp at h

/-- In an object right after the constructor, the keys of `_parents` with parents come first. -/
theorem new_front (o : SetOrder (Fin 3) (α × α)) (nodes : Finset α) (d b u : Finset (α × α))
    (h : (CyclicG.new o nodes d b u).2 = none) :
    Front (fun v => (CyclicG.new o nodes d b u).1.base.parents v ≠ ∅) (CyclicG.new o nodes d b u).1.keys := by
  unfold CyclicG.new at h ⊢
  obtain ⟨h12, e⟩ := andThen_none h
  rw [e] at h ⊢
  obtain ⟨h1, e'⟩ := andThen_none h12
  rw [e'] at h12 h ⊢
  refine forEach_inv (I := fun C => Front (fun v => C.base.parents v ≠ ∅) C.keys) _ _ ?_
    (forEach_inv (I := fun C => Front (fun v => C.base.parents v ≠ ∅) C.keys) _ _ ?_ ?_ h12) h
  · intro x _ C hC hx
    have hp : (C.addUndirected x.1 x.2).1.base.parents = C.base.parents := by
      change (C.base.addUndirected x.1 x.2).1.parents = _
      unfold AG.addUndirected
      split_ifs <;> rfl
    simp only [hp]
    change Front _ (C.undirectedKeys x.1 x.2)
    unfold undirectedKeys
    split_ifs
    · exact hC
    · exact hC.touch _
    · exact (hC.touch _).touch _
  · intro x _ C hC hx
    have hp : (C.addBidirectedRaw x.1 x.2).1.base.parents = C.base.parents := by
      change (C.base.addBidirectedRaw x.1 x.2).1.parents = _
      unfold AG.addBidirectedRaw
      split_ifs <;> rfl
    simp only [hp]
    exact hC
  · suffices H : ∃ l, (forEach (fun C e => C.addDirectedRaw e.1 e.2) (o.ord 0 d) (⟨AG.empty nodes, []⟩ : CyclicG α)).1.keys = l ∧
        ∀ v, (forEach (fun C e => C.addDirectedRaw e.1 e.2) (o.ord 0 d) (⟨AG.empty nodes, []⟩ : CyclicG α)).1.base.parents v ≠ ∅ ↔
          v ∈ l by
      obtain ⟨l, hl, hl'⟩ := H
      exact ⟨l, [], by simp [hl], hl', by simp⟩
    · refine forEach_inv (I := fun C : CyclicG α => ∃ l, C.keys = l ∧ ∀ v, C.base.parents v ≠ ∅ ↔ v ∈ l)
        (o.ord 0 d) ⟨AG.empty nodes, []⟩ ?_ ⟨[], rfl, by simp [AG.empty]⟩ h1
      rintro ⟨i, j⟩ _ C ⟨l, hl, hl'⟩ hx
      have hx : (C.base.addDirectedRaw i j).2 = none := hx
      refine ⟨_, rfl, ?_⟩
      change ∀ v, (C.base.addDirectedRaw i j).1.parents v ≠ ∅ ↔
        v ∈ if (i, j) ∉ C.base.directed ∧ (C.base.addDirectedRaw i j).2 = none then touch C.keys j else C.keys
      by_cases hd : (i, j) ∈ C.base.directed
      · have : (C.base.addDirectedRaw i j).1 = C.base := by unfold AG.addDirectedRaw; rw [if_pos hd]
        rw [this, if_neg (by simp [hd]), hl]
        exact hl'
      · rw [if_pos ⟨hd, hx⟩, hl]
        unfold AG.addDirectedRaw at hx ⊢
        rw [if_neg hd] at hx ⊢
        split_ifs at hx ⊢
        intro v
        rw [mem_touch, ← hl']
        change addAt C.base.parents j i v ≠ ∅ ↔ _
        unfold addAt
        by_cases hv : v = j
        · subst hv; simp
        · rw [Function.update_of_ne hv]; simp [hv]

theorem Built.front (h : Built C) : Front (fun v => C.base.parents v ≠ ∅) C.keys := by
  induction h with
  | new o nodes d b u C hne hC =>
    have := new_front o nodes d b u (by rw [hC])
    rwa [hC] at this
  | read C l _ ih => exact ih.foldl l

theorem Built.mem_targets (h : Built C) (o : SetOrder Unit α) (c : α) : c ∈ C.targets o ↔ C.base.parents c ≠ ∅ := by
  obtain ⟨l1, l2, e, h1, h2⟩ := (h.read C (o.ord () C.base.nodes)).front
  have h2 : ∀ v ∈ l2, ¬ C.base.parents v ≠ ∅ := h2
  have h1 : ∀ v, C.base.parents v ≠ ∅ ↔ v ∈ l1 := h1
  unfold targets
  rw [e, List.takeWhile_append]
  have hall : l1.takeWhile (fun j => decide (C.base.parents j ≠ ∅)) = l1 :=
    List.takeWhile_eq_self_iff.2 fun x hx => by simpa using (h1 x).2 hx
  have hnil : l2.takeWhile (fun j => decide (C.base.parents j ≠ ∅)) = [] := by
    cases l2 with
    | nil => rfl
    | cons y l2 =>
      rw [List.takeWhile_cons_of_neg]
      simpa using h2 y (by simp)
  rw [hall, if_pos rfl, hnil, List.append_nil]
  exact (h1 c).symm

theorem mem_targets (o : SetOrder Unit α) (c : α) (hc : c ∈ C.base.nodes) (hp : C.base.parents c ≠ ∅) :
    c ∈ C.targets o ↔ ∃ pre post, (C.read (o.ord () C.base.nodes)).keys = pre ++ c :: post ∧
      ∀ k ∈ pre, C.base.parents k ≠ ∅ := by
  have hmem : c ∈ (C.read (o.ord () C.base.nodes)).keys :=
    (mem_foldl_touch _).2 (Or.inr ((o.mem_iff _ _ _).2 hc))
  unfold targets
  constructor
  · intro h
    obtain ⟨pre, post, e⟩ := List.append_of_mem h
    refine ⟨pre, post ++ (C.read (o.ord () C.base.nodes)).keys.dropWhile (fun j => decide (C.base.parents j ≠ ∅)), ?_, ?_⟩
    · conv_lhs => rw [← List.takeWhile_append_dropWhile (p := fun j => decide (C.base.parents j ≠ ∅))
        (l := (C.read (o.ord () C.base.nodes)).keys)]
      rw [e]; simp
    · intro k hk
      have : k ∈ (C.read (o.ord () C.base.nodes)).keys.takeWhile (fun j => decide (C.base.parents j ≠ ∅)) := by
        rw [e]; exact List.mem_append_left _ hk
      simpa using List.mem_takeWhile_imp this
  · rintro ⟨pre, post, e, h⟩
    rw [e, List.takeWhile_append]
    have : pre.takeWhile (fun j => decide (C.base.parents j ≠ ∅)) = pre :=
      List.takeWhile_eq_self_iff.2 fun x hx => by simpa using h x hx
    rw [this, if_pos rfl, List.takeWhile_cons_of_pos (by simpa using hp)]
    simp

/-! ## Discriminating paths -/

omit [DecidableEq α] in
theorem _root_.Model.AG.Ext.last {A : AG α} {cols : Finset α} {j : α} {p l : List α} (h : A.Ext cols j p l) :
    l.getLast? = some j := by
  induction h with
  | done => simp
  | step _ _ _ _ _ _ ih => exact ih

theorem discriminatingPaths_ok (hC : C.base.Good) (o : DiscOracle α) :
    Wp (C.discriminatingPaths o) (fun e => C.base.DOk e {l | ∃ j ∈ C.targets o.targets, ∃ i, C.base.Found j i l})
      (fun _ => False) := by
  unfold discriminatingPaths
  refine (Wp.foldlM (fun pre e => C.base.DOk e {l | ∃ j ∈ pre, ∃ i, C.base.Found j i l}) _ [] ?_ ?_)
  · intro l; simp
  · intro pre j post e hl he
    refine (AG.discTarget_ok hC o j he).mono (fun e' he' => he'.congr fun l => ?_) (fun _ k => k)
    simp only [Set.mem_union, Set.mem_ofPred_eq, List.mem_append, List.mem_singleton]
    constructor
    · rintro (⟨j', h1, h2⟩ | h)
      · exact ⟨j', Or.inl h1, h2⟩
      · exact ⟨j, Or.inr rfl, h⟩
    · rintro ⟨j', h1 | rfl, h2⟩
      · exact Or.inl ⟨j', h1, h2⟩
      · exact Or.inr h2

theorem found_last {A : AG α} {j i : α} {l : List α} (h : A.Found j i l) : l.getLast? = some j := by
  obtain ⟨-, -, -, -, -, -, k, -, -, -, h⟩ := h
  exact h.last

theorem discriminatingPaths_spec (hC : C.base.Good) (ha : C.base.mixed.Ancestral) (o : DiscOracle α) :
    ∃ d, C.discriminatingPaths o = pure d ∧
      (∀ l, d.lookup l ≠ none ↔ ∃ x qs q b c, l = x :: (qs ++ [q, b, c]) ∧
        C.base.mixed.Discriminating x (qs ++ [q]) b c ∧ c ∈ C.targets o.targets) ∧
      ∀ x qs q b c, C.base.mixed.Discriminating x (qs ++ [q]) b c → c ∈ C.targets o.targets →
        (d.lookup (x :: (qs ++ [q, b, c])) = some true ↔ C.base.mixed.Collider q b c) := by
  have key : ∀ l, (∃ j ∈ C.targets o.targets, ∃ i, C.base.Found j i l) ↔ ∃ x qs q b c, l = x :: (qs ++ [q, b, c]) ∧
      C.base.mixed.Discriminating x (qs ++ [q]) b c ∧ c ∈ C.targets o.targets := by
    intro l
    have last : ∀ (x : α) (qs : List α) (q b c : α), (x :: (qs ++ [q, b, c])).getLast? = some c := by
      intro x qs q b c
      rw [show x :: (qs ++ [q, b, c]) = (x :: (qs ++ [q, b])) ++ [c] by simp, List.getLast?_append]; simp
    constructor
    · rintro ⟨j, hj, i, hf⟩
      obtain ⟨x, qs, q, b, c, rfl, hd⟩ := (AG.found_iff hC ha l).1 ⟨j, i, hf⟩
      have := found_last hf
      rw [last] at this
      cases this
      exact ⟨x, qs, q, b, j, rfl, hd, hj⟩
    · rintro ⟨x, qs, q, b, c, rfl, hd, hc⟩
      obtain ⟨j, i, hf⟩ := (AG.found_iff hC ha _).2 ⟨x, qs, q, b, c, rfl, hd⟩
      have := found_last hf
      rw [last] at this
      cases this
      exact ⟨c, hc, i, hf⟩
  rcases discriminatingPaths_ok hC o with ⟨d, hd, hk⟩ | ⟨_, _, hk⟩
  swap
  · exact hk.elim
  refine ⟨d, hd, fun l => ?_, ?_⟩
  · rw [← key]
    by_cases hl : ∃ j ∈ C.targets o.targets, ∃ i, C.base.Found j i l
    · rw [(hk l).1 hl]; simpa using hl
    · rw [(hk l).2 hl]; simpa using hl
  · intro x qs q b c hdisc hc
    rw [← AG.lab_iff (hC.anc ha) hC.1 hdisc, (hk _).1 ((key _).2 ⟨x, qs, q, b, c, rfl, hdisc, hc⟩), Option.some_inj]

/-- A discriminating path ends in a node with parents. -/
theorem disc_parents (hC : C.base.Good) {x b c : α} {qs : List α} (h : C.base.mixed.Discriminating x qs b c) :
    C.base.parents c ≠ ∅ := by
  obtain ⟨q, hq⟩ := List.exists_mem_of_ne_nil _ h.nonempty
  have := h.parent q hq
  exact Finset.nonempty_iff_ne_empty.1 ⟨q, (hC.1.parents_iff _ _).2 this⟩

theorem Built.discriminatingPaths (h : Built C) (ha : C.base.mixed.Ancestral) (o : DiscOracle α) :
    ∃ d, C.discriminatingPaths o = pure d ∧
      (∀ l, d.lookup l ≠ none ↔
        ∃ x qs q b c, l = x :: (qs ++ [q, b, c]) ∧ C.base.mixed.Discriminating x (qs ++ [q]) b c) ∧
      ∀ x qs q b c, C.base.mixed.Discriminating x (qs ++ [q]) b c →
        (d.lookup (x :: (qs ++ [q, b, c])) = some true ↔ C.base.mixed.Collider q b c) := by
  have hg := h.reachable.base.good
  obtain ⟨d, h1, h2, h3⟩ := discriminatingPaths_spec hg ha o
  refine ⟨d, h1, fun l => (h2 l).trans ?_, fun x qs q b c hd => h3 x qs q b c hd ((h.mem_targets _ _).2 (disc_parents hg hd))⟩
  constructor
  · rintro ⟨x, qs, q, b, c, e, hd, -⟩; exact ⟨x, qs, q, b, c, e, hd⟩
  · rintro ⟨x, qs, q, b, c, e, hd⟩
    exact ⟨x, qs, q, b, c, e, hd, (h.mem_targets _ _).2 (disc_parents hg hd)⟩

/-! ## `vstructures` and `markov_equivalent` -/

theorem mem_vstructures (h : C.base.Good) (o : SetOrder α α) (srt : Unpack α) (a v c : α) :
    (a, v, c) ∈ C.vstructures o srt ↔ ∃ p, (p, c) ∈ DAG.pairs (o.ord v (C.base.parents v ∪ C.base.spouses v)) ∧
      C.base.mixed.VStruct p v c ∧ (srt.fn {p, c}).1 = a := by
  simp only [vstructures, Finset.mem_biUnion, List.mem_toFinset, List.mem_map, List.mem_filter, Prod.mk.injEq,
    Bool.not_eq_true', Bool.eq_false_iff, ne_eq, AG.hasAnyEdge_iff]
  constructor
  · rintro ⟨v', hv, ⟨p, q⟩, ⟨h1, h2⟩, h3, rfl, rfl⟩
    obtain ⟨k1, k2, k3⟩ := (mem_pairs (o.nodup _ _)).1 (Or.inl h1)
    rw [o.mem_iff, AG.into_iff h.1] at k1 k2
    exact ⟨p, h1, ⟨k3, ⟨k1, k2⟩, h2⟩, h3⟩
  · rintro ⟨p, h1, ⟨k1, ⟨k2, k3⟩, k4⟩, h3⟩
    exact ⟨v, (h.adj_mem (h.proper.ok.into_adj _ _ k2)).2, (p, c), ⟨h1, k4⟩, h3, rfl, rfl⟩

theorem vstructures_eq {o : SetOrder α α} {srt : Unpack α} (hi : C.Increasing o srt) :
    C.vstructures o srt = C.base.vstructures o srt := by
  unfold vstructures AG.vstructures
  congr 1
  funext v
  congr 1
  refine List.map_congr_left fun p hp => ?_
  rw [hi v p (List.mem_of_mem_filter hp)]

theorem markovEquivalent_spec {D : CyclicG α} (hC : Built C) (hD : Built D) (aC : C.base.mixed.Ancestral)
    (aD : D.base.mixed.Ancestral) (o1 o2 : DiscOracle α) (srt : Unpack α) (iC : C.Increasing o1.vstruct srt)
    (iD : D.Increasing o2.vstruct srt) :
    ∃ r, C.markovEquivalent o1 o2 srt D = pure ⟨r⟩ ∧ C.base.markovEquivalent o1 o2 srt D.base = pure ⟨r⟩ := by
  have gC := hC.reachable.base.good
  have gD := hD.reachable.base.good
  obtain ⟨d, d1, d2, d3⟩ := hC.discriminatingPaths aC o1
  obtain ⟨e, e1, e2, e3⟩ := hD.discriminatingPaths aD o2
  obtain ⟨d', d1', d2', d3'⟩ := AG.discriminatingPaths_spec gC aC o1
  obtain ⟨e', e1', e2', e3'⟩ := AG.discriminatingPaths_spec gD aD o2
  have same : ∀ {M : Mixed α} {d d' : AG.PathDict α},
      (∀ l, d.lookup l ≠ none ↔ ∃ x qs q b c, l = x :: (qs ++ [q, b, c]) ∧ M.Discriminating x (qs ++ [q]) b c) →
      (∀ x qs q b c, M.Discriminating x (qs ++ [q]) b c → (d.lookup (x :: (qs ++ [q, b, c])) = some true ↔ M.Collider q b c)) →
      (∀ l, d'.lookup l ≠ none ↔ ∃ x qs q b c, l = x :: (qs ++ [q, b, c]) ∧ M.Discriminating x (qs ++ [q]) b c) →
      (∀ x qs q b c, M.Discriminating x (qs ++ [q]) b c → (d'.lookup (x :: (qs ++ [q, b, c])) = some true ↔ M.Collider q b c)) →
      ∀ l, d.lookup l = d'.lookup l := by
    intro M d d' k1 k2 k3 k4 l
    by_cases hl : d.lookup l = none
    · rw [hl]
      by_contra hne
      exact (k1 l).2 ((k3 l).1 (fun h => hne h.symm)) hl
    · obtain ⟨x, qs, q, b, c, rfl, hM⟩ := (k1 l).1 hl
      obtain ⟨y, hy⟩ := Option.ne_none_iff_exists'.1 hl
      obtain ⟨z, hz⟩ := Option.ne_none_iff_exists'.1 ((k3 _).2 ((k1 _).1 hl))
      have := (k2 _ _ _ _ _ hM).trans (k4 _ _ _ _ _ hM).symm
      rw [hy, hz] at this ⊢
      simp only [Option.some_inj] at this ⊢
      exact Bool.eq_iff_iff.2 this
  have hd := same d2 d3 d2' d3'
  have he := same e2 e3 e2' e3'
  refine ⟨_, by unfold markovEquivalent; rw [d1, e1]; rfl, ?_⟩
  have hs : AG.sameDiscriminating d e = AG.sameDiscriminating d' e' := by
    rw [Bool.eq_iff_iff, AG.sameDiscriminating_iff, AG.sameDiscriminating_iff]
    simp only [hd, he]
  rw [vstructures_eq iC, vstructures_eq iD, hs]
  unfold AG.markovEquivalent
  rw [d1', e1']
  rfl

/-! ## `legitimate_mark_changes` -/

/-- The four tests of an edge as a proposition; `X` are the excluded arcs. -/
structure Passes (M : Mixed α) (d : AG.PathDict α) (X : Finset (α × α)) (i j : α) : Prop where
  par : ∀ c, M.dir c i → M.dir c j
  sp : ∀ s, s ≠ j → M.bi s i → M.Adj s j
  disc : AG.discBlocked d i j = false
  path : ¬ Path (fun a b => M.dir a b ∧ (a, b) ∉ X) i j

theorem dirOk_spec (h : C.base.Good) (o : SetOrder (α × Finset α) α) (d : AG.PathDict α) (i j : α) (hij : C.base.mixed.dir i j) :
    ∃ r, C.dirOk o d (i, j) = some r ∧ (r = true ↔ Passes C.base.mixed d {(i, j)} i j) := by
  unfold dirOk
  have hsp : (∀ s ∈ C.base.spouses i, C.base.hasAnyEdge s j = true) ↔ ∀ s, s ≠ j → C.base.mixed.bi s i → C.base.mixed.Adj s j := by
    simp only [h.1.spouses_iff, AG.hasAnyEdge_iff]
    constructor
    · intro k s _ hs; exact k s hs
    · intro k s hs
      refine k s ?_ hs
      rintro rfl
      exact h.2.dir_bi _ _ hij (by rw [Finset.pair_comm]; exact hs)
  have hpar : (∀ p ∈ C.base.parents i, (p, j) ∈ C.base.directed) ↔ ∀ c, C.base.mixed.dir c i → C.base.mixed.dir c j := by
    simp only [h.1.parents_iff]; exact Iff.rfl
  split_ifs with h1 h2 h3
  · exact ⟨false, rfl, by simp only [Bool.false_eq_true, false_iff]; intro k; rw [k.disc] at h3; simp at h3⟩
  · obtain ⟨a, ha, ha'⟩ := AG.ancestorsOf_spec h o {(i, j)} j
    refine ⟨_, by rw [ha]; rfl, ?_⟩
    rw [decide_eq_true_iff, ha']
    exact ⟨fun k => ⟨hpar.1 h1, hsp.1 h2, by simpa using h3, k⟩, fun k => k.path⟩
  · exact ⟨false, rfl, by simp only [Bool.false_eq_true, false_iff]; exact fun k => h2 (hsp.2 k.sp)⟩
  · exact ⟨false, rfl, by simp only [Bool.false_eq_true, false_iff]; exact fun k => h1 (hpar.2 k.par)⟩

theorem bidirOk_spec (h : C.base.Good) (o : SetOrder (α × Finset α) α) (d : AG.PathDict α) (i j : α) :
    ∃ r, C.bidirOk o d (i, j) = some r ∧ (r = true ↔ Passes C.base.mixed d ∅ i j) := by
  unfold bidirOk
  have hsp : (∀ s ∈ C.base.spouses i, s ≠ j → C.base.hasAnyEdge s j = true) ↔
      ∀ s, s ≠ j → C.base.mixed.bi s i → C.base.mixed.Adj s j := by
    simp only [h.1.spouses_iff, AG.hasAnyEdge_iff]
    exact ⟨fun k s h1 h2 => k s h2 h1, fun k s h1 h2 => k s h2 h1⟩
  have hpar : (∀ p ∈ C.base.parents i, (p, j) ∈ C.base.directed) ↔ ∀ c, C.base.mixed.dir c i → C.base.mixed.dir c j := by
    simp only [h.1.parents_iff]; exact Iff.rfl
  split_ifs with h1 h2 h3
  · exact ⟨false, rfl, by simp only [Bool.false_eq_true, false_iff]; intro k; rw [k.disc] at h3; simp at h3⟩
  · obtain ⟨a, ha, ha'⟩ := AG.ancestorsOf_spec h o ∅ j
    refine ⟨_, by rw [ha]; rfl, ?_⟩
    rw [decide_eq_true_iff, ha']
    exact ⟨fun k => ⟨hpar.1 h1, hsp.1 h2, by simpa using h3, k⟩, fun k => k.path⟩
  · exact ⟨false, rfl, by simp only [Bool.false_eq_true, false_iff]; exact fun k => h2 (hsp.2 k.sp)⟩
  · exact ⟨false, rfl, by simp only [Bool.false_eq_true, false_iff]; exact fun k => h1 (hpar.2 k.par)⟩

theorem selectM_mem {β : Type u} [DecidableEq β] {f : β → Option Bool} {P : β → Prop} (l : List β)
    (h : ∀ x ∈ l, ∃ r, f x = some r ∧ (r = true ↔ P x)) :
    ∃ r, selectM f l = some r ∧ ∀ x, x ∈ r ↔ x ∈ l ∧ P x := by
  induction l with
  | nil => exact ⟨[], rfl, by simp⟩
  | cons y l ih =>
    obtain ⟨r, h1, h2⟩ := ih fun x hx => h x (List.mem_cons_of_mem _ hx)
    obtain ⟨b, h3, h4⟩ := h y (by simp)
    refine ⟨if b then y :: r else r, by rw [selectM, h1, h3]; rfl, fun x => ?_⟩
    cases b with
    | true =>
      simp only [if_true, List.mem_cons, h2]
      constructor
      · rintro (rfl | k)
        · exact ⟨Or.inl rfl, h4.1 rfl⟩
        · exact ⟨Or.inr k.1, k.2⟩
      · rintro ⟨rfl | k, k'⟩
        · exact Or.inl rfl
        · exact Or.inr ⟨k, k'⟩
    | false =>
      simp only [Bool.false_eq_true, if_false, h2, List.mem_cons]
      constructor
      · rintro k; exact ⟨Or.inr k.1, k.2⟩
      · rintro ⟨rfl | k, k'⟩
        · exact absurd (h4.2 k') (by simp)
        · exact ⟨k, k'⟩

theorem legitimateMarkChanges_passes (h : C.base.Good) (ha : C.base.mixed.Ancestral) (hun : C.base.undirected = ∅)
    (w : DiscOracle α) (o : SetOrder (α × Finset α) α) (oe : SetOrder Bool (α × α)) :
    ∃ d D B, C.discriminatingPaths w = pure d ∧ C.legitimateMarkChanges w o oe = pure (D, B) ∧
      (∀ i j, (i, j) ∈ D ↔ C.base.mixed.dir i j ∧ Passes C.base.mixed d {(i, j)} i j) ∧
      ∀ i j, (i, j) ∈ B ↔ C.base.mixed.bi i j ∧ Passes C.base.mixed d ∅ i j := by
  obtain ⟨d, hd, -⟩ := discriminatingPaths_spec h ha w
  obtain ⟨D, h1, h2⟩ := selectM_mem (f := C.dirOk o d) (P := fun e => Passes C.base.mixed d {(e.1, e.2)} e.1 e.2)
    (oe.ord false C.base.directed) fun x hx => by
      obtain ⟨i, j⟩ := x
      exact dirOk_spec h o d i j ((oe.mem_iff _ _ _).1 hx)
  obtain ⟨B, h3, h4⟩ := selectM_mem (f := C.bidirOk o d) (P := fun e => Passes C.base.mixed d ∅ e.1 e.2)
    (oe.ord true C.base.bothOrientations) fun x _ => bidirOk_spec h o d x.1 x.2
  refine ⟨d, D.toFinset, B.toFinset, hd, ?_, fun i j => ?_, fun i j => ?_⟩
  · unfold legitimateMarkChanges
    rw [if_neg (by simp [hun]), hd, pure_bind, h1, h3]
    rfl
  · rw [List.mem_toFinset, h2, oe.mem_iff]; exact Iff.rfl
  · rw [List.mem_toFinset, h4, oe.mem_iff, AG.mem_bothOrientations h.1]

/-- The directed edges passed are the legitimate ones. -/
theorem passes_dir (_h : C.base.Good) (ha : C.base.mixed.Ancestral) (hun : ∀ u v, ¬ C.base.mixed.un u v) {d : AG.PathDict α}
    (hk : ∀ l, d.lookup l ≠ none ↔
        ∃ x qs q b c, l = x :: (qs ++ [q, b, c]) ∧ C.base.mixed.Discriminating x (qs ++ [q]) b c)
    {i j : α} (hij : C.base.mixed.dir i j) :
    Passes C.base.mixed d {(i, j)} i j ↔ C.base.mixed.Legit i j := by
  have hdisc : AG.discBlocked d i j = false ↔ ∀ x qs, ¬ C.base.mixed.Discriminating x qs i j := by
    rw [← Bool.not_eq_true, AG.discBlocked_iff hk]; push Not; rfl
  constructor
  · rintro ⟨h1, h2, h3, h4⟩
    refine ⟨⟨h1, fun s hs hb => ?_, fun c hc hcj hp => h4 ?_⟩, hdisc.1 h3⟩
    · rcases h2 s hs hb with k | k | k | k
      · exact Or.inl k
      · exfalso
        have hb' : C.base.mixed.bi i s := by change _ ∈ C.base.bidirected; rw [Finset.pair_comm]; exact hb
        exact ha.almost i s hb' (.tail (.single hij) k)
      · exact Or.inr k
      · exact absurd k (hun _ _)
    · refine .head (b := c) ⟨hc, by simp [hcj]⟩ ?_
      have : ∀ a b, TransGen C.base.mixed.dir a b → Path0 C.base.mixed.dir c a →
          TransGen (fun a b => C.base.mixed.dir a b ∧ (a, b) ∉ ({(i, j)} : Finset (α × α))) a b := by
        intro a b hab
        induction hab using TransGen.head_induction_on with
        | single hab =>
          intro hca
          refine .single ⟨hab, ?_⟩
          intro e
          simp only [Finset.mem_singleton, Prod.mk.injEq] at e
          rw [e.1] at hca
          exact ha.acyclic i (TransGen.head' hc hca)
        | head hab _ ih =>
          intro hca
          refine .head ⟨hab, ?_⟩ (ih (hca.tail hab))
          intro e
          simp only [Finset.mem_singleton, Prod.mk.injEq] at e
          rw [e.1] at hca
          exact ha.acyclic i (TransGen.head' hc hca)
      exact this c j hp .refl
  · intro k
    refine ⟨k.par, fun s hs hb => ?_, hdisc.2 k.disc, fun hp => ?_⟩
    · rcases k.sp s hs hb with g | g
      · exact Or.inl g
      · exact Or.inr (Or.inr (Or.inl g))
    · obtain ⟨c, ⟨hc, hne⟩, hcj⟩ := TransGen.head'_iff.1 hp
      have hcj' : c ≠ j := by rintro rfl; simp at hne
      rcases reflTransGen_iff_eq_or_transGen.1 hcj with e | hcj
      · exact hcj' e.symm
      · exact k.path c hc hcj' (path_mono (fun _ _ g => g.1) hcj)

/-- The bidirected edges passed are the legitimate ones and some whose change gives a graph that is not ancestral. -/
theorem passes_bi (h : C.base.Good) (ha : C.base.mixed.Ancestral) (hun : ∀ u v, ¬ C.base.mixed.un u v) {d : AG.PathDict α}
    (hk : ∀ l, d.lookup l ≠ none ↔
        ∃ x qs q b c, l = x :: (qs ++ [q, b, c]) ∧ C.base.mixed.Discriminating x (qs ++ [q]) b c)
    {i j : α} (hij : C.base.mixed.bi i j) :
    (C.base.mixed.Legit i j → Passes C.base.mixed d ∅ i j) ∧
    (Passes C.base.mixed d ∅ i j → (C.base.mixed.toDir i j).Ancestral → C.base.mixed.Legit i j) := by
  have hdisc : AG.discBlocked d i j = false ↔ ∀ x qs, ¬ C.base.mixed.Discriminating x qs i j := by
    rw [← Bool.not_eq_true, AG.discBlocked_iff hk]; push Not; rfl
  constructor
  · intro k
    refine ⟨k.par, fun s hs hb => ?_, hdisc.2 k.disc, fun hp => ?_⟩
    · rcases k.sp s hs hb with g | g
      · exact Or.inl g
      · exact Or.inr (Or.inr (Or.inl g))
    · exact ha.almost i j hij (path_mono (fun _ _ g => g.1) hp)
  · rintro ⟨h1, h2, h3, h4⟩ hn
    refine ⟨⟨h1, fun s hs hb => ?_, fun c hc hcj hp => ha.almost i j hij (.head hc hp)⟩, hdisc.1 h3⟩
    rcases h2 s hs hb with k | k | k | k
    · exact Or.inl k
    · exfalso
      have hb' : C.base.mixed.bi i s := by change _ ∈ C.base.bidirected; rw [Finset.pair_comm]; exact hb
      have hne : i ≠ j := h.1.bi_ne hij
      refine hn.almost i s ⟨hb', fun e => hs e.2, fun e => hne e.1⟩ (.tail (.single (Or.inr ⟨rfl, rfl⟩)) (Or.inl k))
    · exact Or.inr k
    · exact absurd k (hun _ _)

end CyclicG

end Model
