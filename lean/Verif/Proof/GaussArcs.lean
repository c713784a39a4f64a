import Verif.Model.GaussArcs
import Verif.Proof.GaussSet
import Verif.Proof.IMap

/-! # `set_arc_weights` on an object with arcs -/

namespace Model.Gauss

open Spec

variable {n : ℕ} {K : Type} [Field K] [DecidableEq K]

/-- The removal loop. -/
theorem removeAll (l : List ((ℕ × ℕ) × K)) (G : Gauss n K) (hi : Function.Injective G.names) (hd : G.dag.Valid)
    (hk : ∀ e ∈ l, (∃ a, G.names a = e.1.1) ∧ ∃ b, G.names b = e.1.2)
    (hW : ∀ a b, ∀ v, ((G.names a, G.names b), v) ∈ l → G.weight a b = 0) :
    ∃ d : DAG ℕ, forEach (fun G (e : (ℕ × ℕ) × K) => G.removeArc e.1.1 e.1.2) l G = ({ G with dag := d }, none) ∧ d.Valid ∧
      d.nodes = G.dag.nodes ∧ ∀ p, p ∈ d.arcs ↔ p ∈ G.dag.arcs ∧ p ∉ l.map Prod.fst := by
  induction l generalizing G with
  | nil => exact ⟨G.dag, rfl, hd, rfl, by simp⟩
  | cons x l ih =>
    obtain ⟨⟨i, j⟩, w⟩ := x
    obtain ⟨⟨a, ha⟩, b, hb⟩ := hk _ (List.mem_cons_self ..)
    dsimp only at ha hb
    subst ha; subst hb
    have hw := hW a b w (List.mem_cons_self ..)
    have step : ∃ d : DAG ℕ, G.removeArc (G.names a) (G.names b) = ({ G with dag := d }, none) ∧ d.Valid ∧ d.nodes = G.dag.nodes ∧
        d.arcs = G.dag.arcs.erase (G.names a, G.names b) := by
      unfold removeArc ix
      rw [lastIx_names hi, lastIx_names hi]
      dsimp only
      have hs : setEntry G.weight a b 0 = G.weight := by rw [← hw, setEntry_same]
      rw [hs]
      by_cases hm : (G.names a, G.names b) ∈ G.dag.arcs
      · rw [if_pos hm]
        obtain ⟨d, h1, h2, h3, h4⟩ := DAG.removeArc_spec hd.toConsistent hm (hd.acyclic.asymm hm) false
        rw [h1]
        refine ⟨d, rfl, ⟨h2, fun v hv => hd.acyclic v (Relation.TransGen.mono (fun x y hxy => ?_) _ _ hv)⟩, h3, h4⟩
        change (x, y) ∈ d.arcs at hxy
        rw [h4] at hxy
        exact Finset.mem_of_mem_erase hxy
      · rw [if_neg hm]
        exact ⟨G.dag, rfl, hd, rfl, (Finset.erase_eq_of_notMem hm).symm⟩
    obtain ⟨d, h1, h2, h3, h4⟩ := step
    obtain ⟨d', g1, g2, g3, g4⟩ := ih { G with dag := d } hi h2 (fun e he => hk e (List.mem_cons_of_mem _ he))
      fun a b v hv => hW a b v (List.mem_cons_of_mem _ hv)
    refine ⟨d', ?_, g2, g3.trans h3, fun p => ?_⟩
    · rw [forEach]
      dsimp only
      rw [h1]
      exact g1
    · rw [g4]
      dsimp only
      rw [h4, Finset.mem_erase, List.map_cons, List.mem_cons]
      tauto

theorem setArcWeights_spec {G : Gauss n K} (h : G.Sound) (hv : G.dag.Valid) (oa : SetOrder Bool (ℕ × ℕ)) {arcs : List ((ℕ × ℕ) × K)}
    (hk : ∀ e ∈ arcs, (∃ a, G.names a = e.1.1) ∧ ∃ b, G.names b = e.1.2) (hn : (arcs.map Prod.fst).Nodup) :
    ∃ (W : Matrix (Fin n) (Fin n) K) (d : DAG ℕ), G.setArcWeights oa arcs = ({ G with weight := W, dag := d }, none) ∧
      (∀ a b v, ((G.names a, G.names b), v) ∈ arcs → W a b = v) ∧
      (∀ a b, (∀ v, ((G.names a, G.names b), v) ∉ arcs) → W a b = G.weight a b) ∧ d.Consistent ∧ d.nodes = G.dag.nodes ∧
      ∀ a b, (G.names a, G.names b) ∈ d.arcs ↔ W a b ≠ 0 := by
  have hi := h.listed.inj
  by_cases hl : arcs.length = 0
  · refine ⟨G.weight, G.dag, by rw [setArcWeights, if_pos hl], ?_, fun _ _ _ => rfl, hv.toConsistent, rfl, h.arcs_iff⟩
    rw [List.length_eq_zero_iff.1 hl]; simp
  obtain ⟨W, h1, h2, h3⟩ := putWeights_spec hi arcs hk hn G.weight
  obtain ⟨d, r1, r2, r3, r4⟩ := removeAll (arcs.filter fun e => e.2 = 0) { G with weight := W } hi hv
    (fun e he => hk e (List.mem_of_mem_filter he)) (fun a b v hv => by
      rw [List.mem_filter] at hv
      have := h2 a b v hv.1
      simp only [decide_eq_true_eq] at hv
      rw [← hv.2]; exact this)
  dsimp only at r3 r4
  let add := ((arcs.filter fun e => e.2 ≠ 0).map Prod.fst).toFinset
  have hadd : ∀ p, p ∈ add ↔ ∃ v, (p, v) ∈ arcs ∧ v ≠ 0 := by
    intro p
    simp only [add, List.mem_toFinset, List.mem_map, List.mem_filter]
    constructor
    · rintro ⟨⟨q, v⟩, ⟨he, hv⟩, rfl⟩
      exact ⟨v, he, by simpa using hv⟩
    · rintro ⟨v, he, hv⟩
      exact ⟨(p, v), ⟨he, by simpa using hv⟩, rfl⟩
  have hdel : ∀ p, p ∈ (arcs.filter fun e => e.2 = 0).map Prod.fst ↔ (p, 0) ∈ arcs := by
    intro p
    simp only [List.mem_map, List.mem_filter, decide_eq_true_eq]
    constructor
    · rintro ⟨⟨q, v⟩, ⟨he, hv⟩, rfl⟩
      dsimp only at hv
      subst hv
      exact he
    · exact fun he => ⟨_, ⟨he, rfl⟩, rfl⟩
  have key : ∀ a b, ((G.names a, G.names b) ∈ d.arcs ∨ (G.names a, G.names b) ∈ add) ↔ W a b ≠ 0 := by
    intro a b
    rw [r4, hadd, hdel, h.arcs_iff]
    by_cases hc : ∃ v, ((G.names a, G.names b), v) ∈ arcs
    · obtain ⟨v, hv⟩ := hc
      have e := h2 a b v hv
      constructor
      · rintro (⟨-, h0⟩ | ⟨v', hv', h0⟩)
        · rintro h'
          rw [h'] at e
          rw [← e] at hv
          exact h0 hv
        · rw [h2 a b v' hv']; exact h0
      · exact fun h0 => Or.inr ⟨v, hv, by rw [← e]; exact h0⟩
    · rw [h3 a b fun v hv => hc ⟨v, hv⟩]
      constructor
      · rintro (⟨h0, -⟩ | ⟨v, hv, -⟩)
        · exact h0
        · exact absurd ⟨v, hv⟩ hc
      · exact fun h0 => Or.inl ⟨h0, fun hv => hc ⟨_, hv⟩⟩
  have hset : G.setArcWeights oa arcs = (if add.card = 0 then (({ G with weight := W, dag := d } : Gauss n K), none)
      else ({ G with weight := W, dag := DAG.addArcsUnchecked d (oa.ord false add) }, none)) := by
    unfold setArcWeights
    rw [if_neg hl, h1]
    dsimp only
    rw [r1]
  by_cases hc : add.card = 0
  · rw [if_pos hc] at hset
    refine ⟨W, d, hset, h2, h3, r2.toConsistent, r3, fun a b => ?_⟩
    rw [← key, Finset.card_eq_zero.1 hc]
    simp
  · rw [if_neg hc] at hset
    obtain ⟨g1, g2, g3⟩ := DAG.addArcsUnchecked_spec r2.toConsistent (oa.ord false add)
    refine ⟨W, _, hset, h2, h3, g1, ?_, fun a b => ?_⟩
    · rw [g3, Finset.union_assoc, r3]
      refine Finset.union_eq_left.2 fun v hv => ?_
      simp only [Finset.mem_union, List.mem_toFinset, List.mem_map, oa.mem_iff] at hv
      rw [h.listed.range]
      rcases hv with ⟨p, hp, rfl⟩ | ⟨p, hp, rfl⟩
      · obtain ⟨v, hv, -⟩ := (hadd p).1 hp
        exact (hk _ hv).1
      · obtain ⟨v, hv, -⟩ := (hadd p).1 hp
        exact (hk _ hv).2
    · rw [g2, Finset.mem_union, List.mem_toFinset, oa.mem_iff]
      exact key a b

theorem putWeights_unknown {G : Gauss n K} (l : List ((ℕ × ℕ) × K)) (W : Matrix (Fin n) (Fin n) K)
    (h : ∃ e ∈ l, (∀ a, G.names a ≠ e.1.1) ∨ ∀ a, G.names a ≠ e.1.2) : putWeights G l W = none := by
  induction l generalizing W with
  | nil => simp at h
  | cons x l ih =>
    rw [putWeights]
    obtain ⟨e, he, h'⟩ := h
    rcases List.mem_cons.1 he with rfl | he
    · rcases h' with h' | h'
      · rw [ix_none h']
      · rw [ix_none h']
        cases G.ix e.1.1 <;> rfl
    · split
      · exact ih _ ⟨e, he, h'⟩
      · rfl

end Model.Gauss
