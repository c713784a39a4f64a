import Verif.Proof.GaussSample
import Verif.Proof.Mutators

/-! # `GaussDAG.set_arc_weight`, `set_arc_weights` and the constructor -/

namespace Model

set_option linter.unusedSectionVars false
open Relation Spec

namespace DAG

variable {α : Type} [DecidableEq α] {G : DAG α}

/-- `Sortable` without acyclicity. -/
structure Views (G : DAG α) : Prop where
  parents_iff : ∀ i j, i ∈ G.parents j ↔ (i, j) ∈ G.arcs
  children_iff : ∀ i j, j ∈ G.children i ↔ (i, j) ∈ G.arcs
  fst_mem : ∀ i j, (i, j) ∈ G.arcs → i ∈ G.nodes
  snd_mem : ∀ i j, (i, j) ∈ G.arcs → j ∈ G.nodes

theorem Sortable.views (h : G.Sortable) : G.Views := ⟨h.parents_iff, h.children_iff, h.fst_mem, h.snd_mem⟩

theorem Views.sortable (h : G.Views) (ha : Acyclic G.E) : G.Sortable :=
  ⟨h.parents_iff, h.children_iff, h.fst_mem, h.snd_mem, ha⟩

theorem Views.kids (h : G.Views) : G.Kids := ⟨h.children_iff, h.fst_mem, h.snd_mem⟩

theorem Views.add (h : G.Views) (i j : α) : (addArcUnchecked G i j).Views where
  parents_iff a b := by
    simp [addArcUnchecked, link_parents, h.parents_iff]; tauto
  children_iff a b := by
    simp [addArcUnchecked, link_children, h.children_iff]; tauto
  fst_mem a b hab := by
    simp [addArcUnchecked] at hab ⊢
    rcases hab with ⟨rfl, _⟩ | hab
    · simp
    · simp [h.fst_mem _ _ hab]
  snd_mem a b hab := by
    simp [addArcUnchecked] at hab ⊢
    rcases hab with ⟨_, rfl⟩ | hab
    · simp
    · simp [h.snd_mem _ _ hab]

/-- Removal of a present arc, whatever the stored neighbors are. -/
theorem Views.remove (h : G.Views) {i j : α} (hm : (i, j) ∈ G.arcs) :
    ∃ d e, removeArc false G i j = (d, e) ∧ d.Views ∧ d.nodes = G.nodes ∧ d.arcs = G.arcs.erase (i, j) ∧
      (i ∈ G.neighbors j → j ∈ G.neighbors i → i ≠ j → e = none) := by
  have hp : i ∈ G.parents j := (h.parents_iff _ _).2 hm
  have hc : j ∈ G.children i := (h.children_iff _ _).2 hm
  have key : ∀ d : DAG α, d.nodes = G.nodes → d.arcs = G.arcs.erase (i, j) →
      d.parents = Function.update G.parents j ((G.parents j).erase i) →
      d.children = Function.update G.children i ((G.children i).erase j) → d.Views := by
    intro d h1 h2 h3 h4
    refine ⟨fun a b => ?_, fun a b => ?_, fun a b hab => ?_, fun a b hab => ?_⟩
    · rw [h2, h3]
      simp only [Function.update_apply, Finset.mem_erase, ne_eq, Prod.mk.injEq, not_and]
      split_ifs with hb
      · subst hb; simp [h.parents_iff]
      · simp [h.parents_iff, hb]
    · rw [h2, h4]
      simp only [Function.update_apply, Finset.mem_erase, ne_eq, Prod.mk.injEq, not_and]
      split_ifs with hb
      · subst hb; simp [h.children_iff]
      · simp [h.children_iff, hb]
    · rw [h1]; rw [h2] at hab; exact h.fst_mem _ _ (Finset.mem_of_mem_erase hab)
    · rw [h1]; rw [h2] at hab; exact h.snd_mem _ _ (Finset.mem_of_mem_erase hab)
  by_cases h1 : i ∈ G.neighbors j
  · by_cases h2 : j ∈ Function.update G.neighbors j ((G.neighbors j).erase i) i
    · refine ⟨⟨G.nodes, G.arcs.erase (i, j), Function.update (Function.update G.neighbors j ((G.neighbors j).erase i)) i
        ((Function.update G.neighbors j ((G.neighbors j).erase i) i).erase j),
        Function.update G.parents j ((G.parents j).erase i), Function.update G.children i ((G.children i).erase j)⟩, none,
        by simp [removeArc, delArc, delParent, delChild, delNbr, Step.andThen, hm, hp, hc, h1, h2],
        key _ rfl rfl rfl rfl, rfl, rfl, fun _ _ _ => rfl⟩
    · refine ⟨⟨G.nodes, G.arcs.erase (i, j), Function.update G.neighbors j ((G.neighbors j).erase i),
        Function.update G.parents j ((G.parents j).erase i), Function.update G.children i ((G.children i).erase j)⟩, some .key,
        by simp [removeArc, delArc, delParent, delChild, delNbr, Step.andThen, hm, hp, hc, h1, h2],
        key _ rfl rfl rfl rfl, rfl, rfl, fun _ h3 hne => ?_⟩
      rw [Function.update_of_ne hne] at h2
      exact absurd h3 h2
  · refine ⟨⟨G.nodes, G.arcs.erase (i, j), G.neighbors,
      Function.update G.parents j ((G.parents j).erase i), Function.update G.children i ((G.children i).erase j)⟩, some .key,
      by simp [removeArc, delArc, delParent, delChild, delNbr, Step.andThen, hm, hp, hc, h1],
      key _ rfl rfl rfl rfl, rfl, rfl, fun h3 => absurd h3 h1⟩

end DAG

namespace Gauss

variable {n : ℕ} {K : Type} [Field K] [DecidableEq K]

/-- `Sound` without acyclicity. -/
structure Linked (G : Gauss n K) : Prop where
  views : G.dag.Views
  inj : Function.Injective G.names
  range : ∀ v, v ∈ G.dag.nodes ↔ ∃ a, G.names a = v
  arcs_iff : ∀ a b : Fin n, (G.names a, G.names b) ∈ G.dag.arcs ↔ G.weight a b ≠ 0

theorem Sound.linked {G : Gauss n K} (h : G.Sound) : G.Linked :=
  ⟨h.listed.valid.views, h.listed.inj, h.listed.range, h.arcs_iff⟩

theorem Linked.sound {G : Gauss n K} (h : G.Linked) (ha : Acyclic G.dag.E) : G.Sound :=
  ⟨⟨h.views.sortable ha, h.inj, h.range⟩, h.arcs_iff⟩

/-- What a change of the weight at `a, b` leaves alone. -/
structure Rest (G G' : Gauss n K) : Prop where
  names : G'.names = G.names
  nodes : G'.dag.nodes = G.dag.nodes
  variances : G'.variances = G.variances
  biases : G'.biases = G.biases
  precision : G'.precision = G.precision
  covariance : G'.covariance = G.covariance

theorem setEntry_apply (W : Matrix (Fin n) (Fin n) K) (a b : Fin n) (v : K) (x y : Fin n) :
    setEntry W a b v x y = if x = a ∧ y = b then v else W x y := rfl

theorem setEntry_same (W : Matrix (Fin n) (Fin n) K) (a b : Fin n) : setEntry W a b (W a b) = W := by
  ext x y; rw [setEntry_apply]; split_ifs with h
  · rw [h.1, h.2]
  · rfl

theorem setEntry_twice (W : Matrix (Fin n) (Fin n) K) (a b : Fin n) (v w : K) :
    setEntry (setEntry W a b v) a b w = setEntry W a b w := by
  ext x y; simp only [setEntry_apply]; split_ifs <;> rfl

/-- The arcs and weights after a change at one pair. -/
theorem linked_set {G G' : Gauss n K} (h : G.Linked) (hr : Rest G G') (hv : G'.dag.Views) {a b : Fin n} {val : K}
    (hw : G'.weight = setEntry G.weight a b val)
    (ha : ∀ i j, (i, j) ∈ G'.dag.arcs ↔ if i = G.names a ∧ j = G.names b then val ≠ 0 else (i, j) ∈ G.dag.arcs) :
    G'.Linked := by
  refine ⟨hv, by rw [hr.names]; exact h.inj, by rw [hr.names, hr.nodes]; exact h.range, fun x y => ?_⟩
  rw [hr.names, ha, hw, setEntry_apply]
  by_cases hxy : x = a ∧ y = b
  · rw [if_pos hxy, if_pos ⟨by rw [hxy.1], by rw [hxy.2]⟩]
  · rw [if_neg hxy, if_neg fun hc => hxy ⟨h.inj hc.1, h.inj hc.2⟩]
    exact h.arcs_iff x y

/-- `remove_arc` on known nodes, for an object whose weights agree with its arcs except perhaps at `a, b`. -/
theorem removeArc_wp {G : Gauss n K} (hv : G.dag.Views) (hi : Function.Injective G.names) (a b : Fin n) :
    ∃ G' e, G.removeArc (G.names a) (G.names b) = (G', e) ∧ Rest G G' ∧ G'.dag.Views ∧
      G'.weight = setEntry G.weight a b 0 ∧ G'.dag.arcs = G.dag.arcs.erase (G.names a, G.names b) ∧
      (G.names a ∈ G.dag.neighbors (G.names b) → G.names b ∈ G.dag.neighbors (G.names a) → a ≠ b → e = none) ∧
      ((G.names a, G.names b) ∉ G.dag.arcs → e = none) := by
  unfold removeArc ix
  rw [lastIx_names hi, lastIx_names hi]
  dsimp only
  by_cases hm : (G.names a, G.names b) ∈ G.dag.arcs
  · rw [if_pos hm]
    obtain ⟨d, e, h1, h2, h3, h4, h5⟩ := hv.remove hm
    rw [h1]
    exact ⟨_, e, rfl, ⟨rfl, h3, rfl, rfl, rfl, rfl⟩, h2, rfl, h4, fun p q hne => h5 p q fun e => hne (hi e),
      fun h => absurd hm h⟩
  · rw [if_neg hm]
    exact ⟨_, none, rfl, ⟨rfl, rfl, rfl, rfl, rfl, rfl⟩, hv, rfl, (Finset.erase_eq_of_notMem hm).symm,
      fun _ _ _ => rfl, fun _ => rfl⟩

theorem ix_none {G : Gauss n K} {v : ℕ} (h : ∀ a, G.names a ≠ v) : G.ix v = none := by
  cases hv : G.ix v with
  | none => rfl
  | some a => exact absurd (lastIx_eq hv) (h a)

theorem setArcWeight_unknown {G : Gauss n K} {o : SetOrder (Option ℕ) ℕ} {i j : ℕ} {val : K}
    (h : (∀ a, G.names a ≠ i) ∨ ∀ a, G.names a ≠ j) : G.setArcWeight o i j val = some (G, some .key) := by
  unfold setArcWeight removeArc
  rcases h with h | h
  · rw [ix_none h]; simp
  · rw [ix_none h]
    cases G.ix i <;> simp

/-- The three outcomes of `set_arc_weight` on known nodes. -/
theorem setArcWeight_spec {G : Gauss n K} (h : G.Sound) (o : SetOrder (Option ℕ) ℕ) (a b : Fin n) (val : K) :
    ∃ G' e, G.setArcWeight o (G.names a) (G.names b) val = some (G', e) ∧ Rest G G' ∧ G'.Sound ∧
      (val = 0 → G'.weight = setEntry G.weight a b 0 ∧ G'.dag.arcs = G.dag.arcs.erase (G.names a, G.names b)) ∧
      (val ≠ 0 → Acyclic (fun x y => G.dag.E x y ∨ (x = G.names a ∧ y = G.names b)) →
        e = none ∧ G'.weight = setEntry G.weight a b val ∧
          G'.dag.arcs = insert (G.names a, G.names b) G.dag.arcs) ∧
      (val ≠ 0 → ¬ Acyclic (fun x y => G.dag.E x y ∨ (x = G.names a ∧ y = G.names b)) →
        e ≠ none ∧ G'.weight = G.weight ∧ G'.dag.arcs = G.dag.arcs ∧ (a ≠ b → ∃ l, e = some (.cycle l))) := by
  have hL := h.linked
  by_cases h0 : val = 0
  · obtain ⟨G', e, h1, h2, h3, h4, h5, -, -⟩ := removeArc_wp hL.views hL.inj a b
    have hl : G'.Linked := linked_set hL h2 h3 h4 fun i j => by
      rw [h5, Finset.mem_erase]
      by_cases hc : i = G.names a ∧ j = G.names b
      · rw [if_pos hc, hc.1, hc.2]; simp
      · rw [if_neg hc, Ne, Prod.mk.injEq]; simp [hc]
    refine ⟨G', e, by unfold setArcWeight; rw [if_pos h0, h1], h2, hl.sound ?_, fun _ => ⟨h4, h5⟩, fun hv => absurd h0 hv,
      fun hv => absurd h0 hv⟩
    intro v hv
    refine h.listed.valid.acyclic v (TransGen.mono (fun x y hxy => ?_) _ _ hv)
    change (x, y) ∈ G'.dag.arcs at hxy
    rw [h5] at hxy
    exact Finset.mem_of_mem_erase hxy
  · unfold setArcWeight
    rw [if_neg h0]
    unfold ix
    rw [lastIx_names hL.inj, lastIx_names hL.inj]
    dsimp only
    by_cases hm : (G.names a, G.names b) ∈ G.dag.arcs
    · rw [if_neg (not_not.2 hm)]
      have hE : (fun x y => G.dag.E x y ∨ (x = G.names a ∧ y = G.names b)) = G.dag.E := by
        funext x y
        refine propext ⟨?_, Or.inl⟩
        rintro (hxy | ⟨rfl, rfl⟩)
        · exact hxy
        · exact hm
      rw [hE]
      refine ⟨{ G with weight := setEntry G.weight a b val }, none, rfl, ⟨rfl, rfl, rfl, rfl, rfl, rfl⟩, ?_,
        fun h => absurd h h0, fun _ _ => ⟨rfl, rfl, ?_⟩,
        fun _ hc => absurd h.listed.valid.acyclic hc⟩
      · refine (linked_set (G' := { G with weight := setEntry G.weight a b val }) (a := a) (b := b) (val := val) hL
          ⟨rfl, rfl, rfl, rfl, rfl, rfl⟩ hL.views rfl fun i j => ?_).sound
          h.listed.valid.acyclic
        dsimp only
        by_cases hc : i = G.names a ∧ j = G.names b
        · rw [if_pos hc, hc.1, hc.2]; simp [hm, h0]
        · rw [if_neg hc]
      · exact (Finset.insert_eq_of_mem hm).symm
    · rw [if_pos hm]
      have hE : (DAG.addArcUnchecked G.dag (G.names a) (G.names b)).E =
          fun x y => G.dag.E x y ∨ (x = G.names a ∧ y = G.names b) := DAG.addArcUnchecked_E _ _ _
      have hV := hL.views.add (G.names a) (G.names b)
      have hN : (DAG.addArcUnchecked G.dag (G.names a) (G.names b)).nodes = G.dag.nodes := by
        rw [DAG.addArcUnchecked_nodes, Finset.insert_eq_of_mem (a := G.names a) ((hL.range _).2 ⟨a, rfl⟩),
          Finset.insert_eq_of_mem ((hL.range _).2 ⟨b, rfl⟩)]
      rw [← hE]
      rcases DAG.topologicalSort_wp _ o hV.kids with ⟨l, hl, hl'⟩ | ⟨e, he, l, rfl, hl⟩
      · have hac := DAG.linearExtension_acyclic hl'
        rw [hl]
        refine ⟨_, none, rfl, ⟨rfl, hN, rfl, rfl, rfl, rfl⟩, ?_, fun h => absurd h h0, fun _ _ => ⟨rfl, rfl, rfl⟩,
          fun _ hc => absurd hac hc⟩
        refine (linked_set (G' := { G with
            weight := setEntry G.weight a b val
            dag := DAG.addArcUnchecked G.dag (G.names a) (G.names b) }) (a := a) (b := b) (val := val) hL
          ⟨rfl, hN, rfl, rfl, rfl, rfl⟩ hV rfl fun i j => ?_).sound hac
        dsimp only
        rw [DAG.addArcUnchecked_arcs, Finset.mem_insert, Prod.mk.injEq]
        by_cases hc : i = G.names a ∧ j = G.names b
        · simp [hc, h0]
        · simp [hc]
      · have hac : ¬ Acyclic (DAG.addArcUnchecked G.dag (G.names a) (G.names b)).E := by
          obtain ⟨v, hv⟩ := DAG.isClosingWalk_cycle hl
          exact fun hc => hc v hv
        rw [he]
        dsimp only
        obtain ⟨G', e, h1, h2, h3, h4, h5, h6, -⟩ := removeArc_wp (G := { G with
          weight := setEntry G.weight a b val
          dag := DAG.addArcUnchecked G.dag (G.names a) (G.names b) }) hV hL.inj a b
        dsimp only at h1 h4 h5 h6
        rw [h1]
        have hw0 : G.weight a b = 0 := by
          by_contra hc
          exact hm ((hL.arcs_iff a b).2 hc)
        have hw : G'.weight = G.weight := by
          rw [h4, setEntry_twice, ← hw0, setEntry_same]
        have hA : G'.dag.arcs = G.dag.arcs := by
          rw [h5, DAG.addArcUnchecked_arcs, Finset.erase_insert hm]
        have hR : Rest G G' := ⟨h2.names, h2.nodes.trans hN, h2.variances, h2.biases, h2.precision, h2.covariance⟩
        have hS : G'.Sound := by
          refine Linked.sound ⟨h3, by rw [hR.names]; exact hL.inj, by rw [hR.names, hR.nodes]; exact hL.range, ?_⟩ ?_
          · intro x y; rw [hR.names, hA, hw]; exact hL.arcs_iff x y
          · have : G'.dag.E = G.dag.E := by funext x y; simp only [DAG.E, hA]
            rw [this]; exact h.listed.valid.acyclic
        have hnb : a ≠ b → e = none := by
          intro hne
          have hne' : G.names a ≠ G.names b := fun e => hne (hL.inj e)
          refine h6 ?_ ?_ hne
          · unfold DAG.addArcUnchecked; rw [DAG.link_neighbors]; simp
          · unfold DAG.addArcUnchecked; rw [DAG.link_neighbors]; simp
        cases e with
        | none =>
          exact ⟨G', _, rfl, hR, hS, fun h => absurd h h0, fun _ hc => absurd hc hac,
            fun _ _ => ⟨by simp, hw, hA, fun _ => ⟨l, rfl⟩⟩⟩
        | some e =>
          exact ⟨G', _, rfl, hR, hS, fun h => absurd h h0, fun _ hc => absurd hc hac,
            fun _ _ => ⟨by simp, hw, hA, fun hne => absurd (hnb hne) (by simp)⟩⟩

/-! ## The constructor -/

theorem putWeights_spec {G : Gauss n K} (hi : Function.Injective G.names) (l : List ((ℕ × ℕ) × K))
    (hk : ∀ e ∈ l, (∃ a, G.names a = e.1.1) ∧ ∃ b, G.names b = e.1.2) (hn : (l.map Prod.fst).Nodup)
    (W : Matrix (Fin n) (Fin n) K) :
    ∃ W', putWeights G l W = some W' ∧ (∀ a b, ∀ v, ((G.names a, G.names b), v) ∈ l → W' a b = v) ∧
      ∀ a b, (∀ v, ((G.names a, G.names b), v) ∉ l) → W' a b = W a b := by
  induction l generalizing W with
  | nil => exact ⟨W, rfl, by simp, fun _ _ _ => rfl⟩
  | cons x l ih =>
    obtain ⟨⟨i, j⟩, w⟩ := x
    obtain ⟨⟨a, ha⟩, b, hb⟩ := hk _ (List.mem_cons_self ..)
    dsimp only at ha hb
    subst ha; subst hb
    rw [List.map_cons, List.nodup_cons] at hn
    obtain ⟨W', h1, h2, h3⟩ := ih (fun e he => hk e (List.mem_cons_of_mem _ he)) hn.2 (setEntry W a b w)
    refine ⟨W', ?_, ?_, ?_⟩
    · rw [putWeights]
      dsimp only
      unfold ix
      rw [lastIx_names hi, lastIx_names hi]
      exact h1
    · intro a' b' v hv
      rcases List.mem_cons.1 hv with hv | hv
      · rw [Prod.mk.injEq, Prod.mk.injEq] at hv
        obtain ⟨⟨e1, e2⟩, rfl⟩ := hv
        have e1 := hi e1; have e2 := hi e2
        subst e1; subst e2
        rw [h3, setEntry_apply, if_pos ⟨rfl, rfl⟩]
        intro v' hv'
        exact hn.1 (List.mem_map.2 ⟨_, hv', rfl⟩)
      · exact h2 a' b' v hv
    · intro a' b' hv
      rw [h3 a' b' fun v hv' => hv v (List.mem_cons_of_mem _ hv'), setEntry_apply, if_neg]
      rintro ⟨rfl, rfl⟩
      exact hv w (List.mem_cons_self ..)

theorem putWeights_same {G : Gauss n K} (hi : Function.Injective G.names) (l : List ((ℕ × ℕ) × K))
    (hk : ∀ e ∈ l, (∃ a, G.names a = e.1.1) ∧ ∃ b, G.names b = e.1.2) (hn : (l.map Prod.fst).Nodup)
    {W : Matrix (Fin n) (Fin n) K} (hW : ∀ a b, ∀ v, ((G.names a, G.names b), v) ∈ l → W a b = v) :
    putWeights G l W = some W := by
  obtain ⟨W', h1, h2, h3⟩ := putWeights_spec hi l hk hn W
  rw [h1]
  congr 1
  ext a b
  by_cases h : ∃ v, ((G.names a, G.names b), v) ∈ l
  · obtain ⟨v, hv⟩ := h
    rw [h2 a b v hv, hW a b v hv]
  · exact h3 a b fun v hv => h ⟨v, hv⟩

theorem removeZeros (l : List ((ℕ × ℕ) × K)) (G : Gauss n K) (hi : Function.Injective G.names) (hd : G.dag.arcs = ∅)
    (hk : ∀ e ∈ l, (∃ a, G.names a = e.1.1) ∧ ∃ b, G.names b = e.1.2)
    (hW : ∀ a b, ∀ v, ((G.names a, G.names b), v) ∈ l → G.weight a b = 0) :
    forEach (fun G (e : (ℕ × ℕ) × K) => G.removeArc e.1.1 e.1.2) l G = (G, none) := by
  induction l with
  | nil => rfl
  | cons x l ih =>
    obtain ⟨⟨i, j⟩, w⟩ := x
    obtain ⟨⟨a, ha⟩, b, hb⟩ := hk _ (List.mem_cons_self ..)
    dsimp only at ha hb
    subst ha; subst hb
    have : G.removeArc (G.names a) (G.names b) = (G, none) := by
      unfold removeArc ix
      rw [lastIx_names hi, lastIx_names hi]
      dsimp only
      rw [hd, if_neg (by simp)]
      have hw := hW a b w (List.mem_cons_self ..)
      rw [← hw, setEntry_same]
    rw [forEach]
    dsimp only
    rw [this]
    exact ih (fun e he => hk e (List.mem_cons_of_mem _ he)) fun a b v hv => hW a b v (List.mem_cons_of_mem _ hv)

theorem new_spec (oa : SetOrder Bool (ℕ × ℕ)) {names : Fin n → ℕ} (hi : Function.Injective names)
    {arcs : List ((ℕ × ℕ) × K)} (hk : ∀ e ∈ arcs, (∃ a, names a = e.1.1) ∧ ∃ b, names b = e.1.2)
    (hn : (arcs.map Prod.fst).Nodup) (biases variances : Fin n → K) :
    ∃ G : Gauss n K, new oa names arcs biases variances = (G, none) ∧ G.Linked ∧ G.names = names ∧
      G.biases = biases ∧ G.variances = variances ∧ G.precision = none ∧ G.covariance = none ∧
      (∀ a b v, ((names a, names b), v) ∈ arcs → G.weight a b = v) ∧
      (∀ a b, (∀ v, ((names a, names b), v) ∉ arcs) → G.weight a b = 0) := by
  let G0 : Gauss n K :=
    { dag := DAG.empty (Finset.univ.image names), names := names, weight := 0, variances := variances, biases := biases
      precision := none, covariance := none, correlation := none }
  have hE : (DAG.empty (Finset.univ.image names)).Consistent := by
    constructor <;> simp [DAG.empty]
  by_cases hl : arcs.length = 0
  · have : arcs = [] := List.length_eq_zero_iff.1 hl
    subst this
    refine ⟨G0, rfl, ⟨⟨hE.parents_iff, hE.children_iff, hE.fst_mem, hE.snd_mem⟩, hi, by simp [G0, DAG.empty],
      by simp [G0, DAG.empty]⟩, rfl, rfl, rfl, rfl, rfl, by simp, by simp [G0]⟩
  obtain ⟨W, h1, h2, h3⟩ := putWeights_spec (G := G0) hi arcs hk hn 0
  have hrm := removeZeros (arcs.filter fun e => e.2 = 0) { G0 with weight := W } hi rfl
    (fun e he => hk e (List.mem_of_mem_filter he))
    (fun a b v hv => by
      rw [List.mem_filter] at hv
      have := h2 a b v hv.1
      simp only [decide_eq_true_eq] at hv
      rw [← hv.2]; exact this)
  let add := ((arcs.filter fun e => e.2 ≠ 0).map Prod.fst).toFinset
  have hadd : ∀ p, p ∈ add ↔ ∃ v, (p, v) ∈ arcs ∧ v ≠ 0 := by
    intro p
    simp only [add, List.mem_toFinset, List.mem_map, List.mem_filter]
    constructor
    · rintro ⟨⟨q, v⟩, ⟨he, hv⟩, rfl⟩
      exact ⟨v, he, by simpa using hv⟩
    · rintro ⟨v, he, hv⟩
      exact ⟨(p, v), ⟨he, by simpa using hv⟩, rfl⟩
  have hne : ∀ a b, (names a, names b) ∈ add ↔ W a b ≠ 0 := by
    intro a b
    rw [hadd]
    constructor
    · rintro ⟨v, hv, h0⟩
      rw [h2 a b v hv]; exact h0
    · intro h0
      by_cases hc : ∃ v, ((names a, names b), v) ∈ arcs
      · obtain ⟨v, hv⟩ := hc
        exact ⟨v, hv, by rw [← h2 a b v hv]; exact h0⟩
      · exact absurd (h3 a b fun v hv => hc ⟨v, hv⟩) h0
  have hset : ∃ d : DAG ℕ, setArcWeights oa G0 arcs = ({ G0 with weight := W, dag := d }, none) ∧ d.Views ∧
      d.nodes = Finset.univ.image names ∧ d.arcs = add := by
    unfold setArcWeights
    rw [if_neg hl, h1]
    dsimp only
    rw [hrm]
    dsimp only
    change ∃ d, (if add.card = 0 then _ else _) = _ ∧ _
    by_cases hc : add.card = 0
    · rw [if_pos hc]
      refine ⟨_, rfl, ⟨hE.parents_iff, hE.children_iff, hE.fst_mem, hE.snd_mem⟩, rfl, ?_⟩
      rw [Finset.card_eq_zero.1 hc]; rfl
    · rw [if_neg hc]
      obtain ⟨g1, g2, g3⟩ := DAG.addArcsUnchecked_spec hE (oa.ord false add)
      refine ⟨_, rfl, ⟨g1.parents_iff, g1.children_iff, g1.fst_mem, g1.snd_mem⟩, ?_, ?_⟩
      · refine g3.trans ?_
        ext v
        have hfst : ∀ p ∈ add, (∃ a, names a = p.1) ∧ ∃ b, names b = p.2 := fun p hp => by
          obtain ⟨v, hv, -⟩ := (hadd p).1 hp
          exact hk _ hv
        simp only [DAG.empty, Finset.mem_union, Finset.mem_image, Finset.mem_univ, true_and, List.mem_toFinset,
          List.mem_map, oa.mem_iff]
        constructor
        · rintro ((h | ⟨p, hp, rfl⟩) | ⟨p, hp, rfl⟩)
          · exact h
          · exact (hfst p hp).1
          · exact (hfst p hp).2
        · exact fun h => Or.inl (Or.inl h)
      · refine g2.trans ?_
        ext p
        simp [DAG.empty, oa.mem_iff]
  obtain ⟨d, e1, e2, e3, e4⟩ := hset
  refine ⟨{ G0 with weight := W, dag := d }, ?_, ⟨e2, hi, ?_, ?_⟩, rfl, rfl, rfl, rfl, rfl, h2, h3⟩
  · unfold new
    dsimp only
    rw [e1]
    dsimp only
    rw [putWeights_same (G := { G0 with weight := W, dag := d }) hi arcs hk hn h2]
  · dsimp only
    rw [e3]; simp [G0]
  · dsimp only
    rw [e4]; exact hne

end Gauss

end Model
