import Verif.Proof.ChickStep
import Verif.Proof.Between
import Verif.Proof.Reversals
import Verif.Model.Chickering

/-! # `apply_edge_operation` and `chickering_sequence` -/

namespace Model.DAG

set_option linter.unusedSectionVars false
universe u
variable {α : Type u} [DecidableEq α] {G H : DAG α}
open Spec Relation

/-- What the subgraph without a set `R` closed under children looks like. -/
structure Cut (G : DAG α) (R : Finset α) (G1 : DAG α) : Prop where
  valid : G1.Valid
  nodes : G1.nodes = G.nodes \ R
  parents : ∀ v, v ∉ R → G1.parents v = G.parents v
  children : ∀ v, v ∉ R → G1.children v = G.children v \ R
  E : ∀ a b, G1.E a b ↔ G.E a b ∧ b ∉ R

theorem cut_spec (hG : G.Valid) {R : Finset α} (hR : ∀ v ∈ R, G.children v ⊆ R) (o : SetOrder (Option α) α)
    (oa : SetOrder Bool (α × α)) : ∃ G1, inducedSubgraph o oa G (G.nodes \ R) = some (G1, none) ∧ Cut G R G1 := by
  have hac : Acyclic fun a b => (a, b) ∈ G.arcs.filter fun e => e.1 ∈ G.nodes \ R ∧ e.2 ∈ G.nodes \ R :=
    acyclic_mono (fun a b h => (Finset.mem_filter.1 h).1) hG.acyclic
  obtain ⟨G1, h1, h2, h3, h4⟩ := new_ok o oa (G.nodes \ R) _ hac
  have hE : ∀ a b, G1.E a b ↔ G.E a b ∧ b ∉ R := by
    intro a b
    simp only [DAG.E, h3, Finset.mem_filter, Finset.mem_sdiff]
    constructor
    · exact fun h => ⟨h.1, h.2.2.2⟩
    · exact fun h => ⟨h.1, ⟨hG.fst_mem _ _ h.1, fun ha => h.2 (hR a ha ((hG.children_iff _ _).2 h.1))⟩, hG.snd_mem _ _ h.1, h.2⟩
  refine ⟨G1, h1, h2, ?_, ?_, ?_, hE⟩
  · rw [h4]
    ext v
    simp only [Finset.mem_union, Finset.mem_image, Finset.mem_filter]
    constructor
    · rintro ((h | ⟨e, he, rfl⟩) | ⟨e, he, rfl⟩)
      exacts [h, he.2.1, he.2.2]
    · exact fun h => Or.inl (Or.inl h)
  · intro v hv
    ext p
    rw [h2.parents_iff, hG.parents_iff]
    exact (hE p v).trans ⟨fun h => h.1, fun h => ⟨h, hv⟩⟩
  · intro v hv
    ext c
    rw [h2.children_iff, Finset.mem_sdiff, hG.children_iff]
    exact hE v c

namespace Cut
variable {R : Finset α} {G1 : DAG α}

theorem path (h : Cut G R G1) (hG : G.Valid) (hR : ∀ v ∈ R, G.children v ⊆ R) {a b : α} : Path G1.E a b ↔ Path G.E a b ∧ b ∉ R := by
  constructor
  · intro hp
    refine ⟨path_mono (fun _ _ h' => ((h.E _ _).1 h').1) hp, ?_⟩
    obtain ⟨c, _, hc⟩ := TransGen.tail'_iff.1 hp
    exact ((h.E _ _).1 hc).2
  · rintro ⟨hp, hb⟩
    induction hp with
    | single h' => exact .single ((h.E _ _).2 ⟨h', hb⟩)
    | tail _ h' ih => exact (ih fun hm => hb (hR _ hm ((hG.children_iff _ _).2 h'))).tail ((h.E _ _).2 ⟨h', hb⟩)

theorem mem_sinks (h : Cut G R G1) {v : α} : v ∈ G1.sinks ↔ v ∈ G.nodes ∧ v ∉ R ∧ G.children v ⊆ R := by
  rw [sinks, Finset.mem_filter, h.nodes, Finset.mem_sdiff, Finset.card_eq_zero]
  constructor
  · rintro ⟨⟨h1, h2⟩, h3⟩
    rw [h.children v h2, Finset.sdiff_eq_empty_iff_subset] at h3
    exact ⟨h1, h2, h3⟩
  · rintro ⟨h1, h2, h3⟩
    exact ⟨⟨h1, h2⟩, by rw [h.children v h2, Finset.sdiff_eq_empty_iff_subset]; exact h3⟩

end Cut

theorem choice_ok (p : Pick α) (n : ℕ) {s : Finset α} (h : s.Nonempty) : ∃ x ∈ s, choice p n s = pure x :=
  ⟨p.pick n s h, p.mem n s h, by rw [choice, dif_pos h]⟩

theorem addArc_withArc (hG : G.Valid) (o : SetOrder (Option α) α) {x t : α} (hx : x ∈ G.nodes) (ht : t ∈ G.nodes)
    (hac : Acyclic (WithArc G.E x t)) : ∃ G', addArc true o G x t = some (G', none) ∧ G'.Valid ∧ G'.nodes = G.nodes ∧
      G'.arcs = insert (x, t) G.arcs ∧ G'.E = WithArc G.E x t := by
  have hE := addArcUnchecked_E G x t
  rcases addArc_cases hG.toConsistent o x t with ⟨h1, h2⟩ | ⟨h1, _⟩
  · refine ⟨_, h2, ⟨addArcUnchecked_consistent hG.toConsistent x t, h1⟩, ?_, rfl, hE⟩
    rw [addArcUnchecked_nodes, Finset.insert_eq_of_mem (Finset.mem_insert_of_mem ht), Finset.insert_eq_of_mem hx]
  · rw [hE] at h1; exact absurd hac h1

/-- The result of one step, with what is needed to go on. -/
structure StepOk (G H G' : DAG α) (m : ChickMove α) : Prop where
  valid : G'.Valid
  nodes : G'.nodes = G.nodes
  imap : SubModel H.E G'.E (G.nodes : Set α)
  step : ((m.move = 4 ∨ m.move = 7) ∧ ∃ x, ¬ Adj G.E x m.sink ∧ x ∈ G.nodes ∧ m.sink ∈ G.nodes ∧ G'.arcs = insert (x, m.sink) G.arcs ∧
      G'.E = WithArc G.E x m.sink) ∨
    (m.move = 8 ∧ ∃ x z, G.E x m.sink ∧ G.E m.sink z ∧ ¬ Adj G.E x z ∧ G'.arcs = insert (x, z) G.arcs ∧ G'.E = WithArc G.E x z) ∨
    (m.move = 6 ∧ ∃ z, Covered G.E m.sink z ∧ H.E z m.sink ∧ G'.arcs = insert (z, m.sink) (G.arcs.erase (m.sink, z)) ∧
      G'.E = Reverse G.E m.sink z)

theorem ofStep_ok (G : DAG α) : ofStep (some (G, none)) = pure G := rfl

theorem liftM_some {β : Type u} (b : β) : (liftM (some b) : Run α β) = pure b := rfl

theorem applyEdgeOperation_spec (w : ChickOracle α) (seed : Option α) (hG : G.Valid) (hH : H.Valid) (hn : G.nodes = H.nodes)
    (him : SubModel H.E G.E (G.nodes : Set α)) (hne : G.arcs ≠ H.arcs) :
    ∃ G' m, applyEdgeOperation w seed G H = pure (G', m) ∧ StepOk G H G' m ∧
      (∀ s R, seed = some s → resolvedSinks G H = some R → s ∈ G.nodes \ R → H.children s ⊆ R → m.sink = s) := by
  obtain ⟨R, hR, hres, hmax⟩ := resolvedSinks_spec hG hH.toConsistent
  obtain ⟨G1, hG1, cG⟩ := cut_spec hG hres.left (w.top 0) (w.arcs 0)
  obtain ⟨H1, hH1, cH⟩ := cut_spec hH hres.right (w.top 1) (w.arcs 1)
  -- a sink of the I-map outside `R`
  have hsinks : H1.sinks.Nonempty := by
    have hnon : (H.nodes \ R).Nonempty := by
      rw [Finset.sdiff_nonempty]
      intro hall
      apply hne
      ext ⟨a, b⟩
      rw [← hG.parents_iff, ← hH.parents_iff]
      by_cases hb : b ∈ R
      · rw [hres.parents b hb]
      · constructor
        · intro h
          exact absurd (hall (hn ▸ hG.snd_mem _ _ ((hG.parents_iff _ _).1 h))) hb
        · intro h
          exact absurd (hall (hH.snd_mem _ _ ((hH.parents_iff _ _).1 h))) hb
    obtain ⟨v, hv, hmin⟩ := exists_minimal (R := Function.swap H.E)
      (fun v hv => hH.acyclic v (by rw [Path, ← transGen_swap]; exact hv)) _ hnon
    refine ⟨v, cH.mem_sinks.2 ⟨(Finset.mem_sdiff.1 hv).1, (Finset.mem_sdiff.1 hv).2, fun c hc => ?_⟩⟩
    by_contra hcR
    have hvc := (hH.children_iff _ _).1 hc
    exact hmin c (Finset.mem_sdiff.2 ⟨hH.snd_mem _ _ hvc, hcR⟩) (.single hvc)
  obtain ⟨y, hy, hpick, hseed⟩ : ∃ y ∈ H1.sinks, pickSink w.pick seed H1.sinks = (pure y : Run α α) ∧
      (∀ s, seed = some s → s ∈ H1.sinks → y = s) := by
    obtain ⟨x, hx, hx'⟩ := choice_ok w.pick 0 hsinks
    cases seed with
    | none => exact ⟨x, hx, hx', by simp⟩
    | some s =>
      by_cases hs : s ∈ H1.sinks
      · exact ⟨s, hs, by simp [pickSink, hs], by simp⟩
      · exact ⟨x, hx, by simp [pickSink, hs, hx'], by intro t ht hts; cases ht; exact absurd hts hs⟩
  have hy' := cH.mem_sinks.1 hy
  have sc : Scene G.nodes G.E H.E (R : Set α) y :=
    { hE := hG.acyclic, hF := hH.acyclic
      hVE := fun a b h => ⟨hG.fst_mem _ _ h, hG.snd_mem _ _ h⟩
      hVF := fun a b h => hn ▸ ⟨hH.fst_mem _ _ h, hH.snd_mem _ _ h⟩
      imap := him
      downE := fun a b h ha => hres.left a ha ((hG.children_iff _ _).2 h)
      downF := fun a b h ha => hres.right a ha ((hH.children_iff _ _).2 h)
      par := fun v hv p => by
        have := hres.parents v hv
        rw [← show p ∈ G.parents v ↔ G.E p v from hG.parents_iff p v, this]; exact hH.parents_iff p v
      mem := hn ▸ hy'.1
      out := hy'.2.1
      sink := fun c h => hy'.2.2 ((hH.children_iff _ _).2 h) }
  have hyV : y ∈ G.nodes := sc.mem
  have hsd : ∀ m : ChickMove α, m.sink = y → ∀ s R, seed = some s → resolvedSinks G H = some R → s ∈ G.nodes \ R → H.children s ⊆ R →
      m.sink = s := by
    intro m hm s R' hs hR' hsR hsc
    rw [hR] at hR'
    cases hR'
    rw [hm]
    have := Finset.mem_sdiff.1 hsR
    exact hseed s hs (cH.mem_sinks.2 ⟨hn ▸ this.1, this.2, hsc⟩)
  have hpre : applyEdgeOperation w seed G H = (if y ∈ G1.sinks then do
      let x ← choice w.pick 1 (H1.parents y \ G1.parents y)
      let G' ← ofStep (addArc true (w.top 2) G x y)
      return (G', ⟨y, 4, none⟩)
    else do
      let desc ← (liftM (descendantsOf G1 (w.reach 0) y) : Run α (Finset α))
      let up ← (liftM (upstreamMost H1 (w.reach 1) (w.sets.ord false desc)) : Run α (Finset α))
      let d ← choice w.pick 2 up
      let upc ← (liftM (upstreamMost G1 (w.reach 2) (w.sets.ord true (G1.children y))) : Run α (Finset α))
      let anc ← (liftM (ancestorsOf G1 (w.reach 3) d) : Run α (Finset α))
      let z ← choice w.pick 3 (upc ∩ (anc ∪ {d}))
      if isReversible G1 y z then
        let G' ← ofStep (reverseArc false false (w.top 2) G y z)
        return (G', ⟨y, 6, some d⟩)
      else
        let parZ := (G1.parents z \ G1.parents y) \ {y}
        if parZ ≠ ∅ then
          let x ← choice w.pick 4 parZ
          let G' ← ofStep (addArc true (w.top 2) G x y)
          return (G', ⟨y, 7, some d⟩)
        else
          let x ← choice w.pick 5 (G1.parents y \ G1.parents z)
          let G' ← ofStep (addArc true (w.top 2) G x z)
          return (G', ⟨y, 8, some d⟩)) := by
    unfold applyEdgeOperation
    rw [hR, liftM_some, pure_bind, hG1, ofStep_ok, pure_bind, hH1, ofStep_ok, pure_bind, hpick, pure_bind]
  rw [hpre]
  clear hpre
  by_cases hys : y ∈ G1.sinks
  · -- step 4
    rw [if_pos hys]
    have hs := (cG.mem_sinks.1 hys).2.2
    have hex : (H1.parents y \ G1.parents y).Nonempty := by
      rw [cH.parents y sc.out, cG.parents y sc.out, Finset.sdiff_nonempty]
      intro hsub
      have heq : G.parents y = H.parents y := by
        refine Finset.Subset.antisymm (fun p hp => ?_) hsub
        exact (hH.parents_iff _ _).2 (sc.par_y ((hG.parents_iff _ _).1 hp))
      have : Resolved G H (insert y R) := by
        refine ⟨?_, ?_, ?_, ?_⟩
        · exact Finset.insert_subset hyV hres.sub
        · intro v hv
          rcases Finset.mem_insert.1 hv with rfl | hv
          exacts [heq, hres.parents v hv]
        · intro v hv
          rcases Finset.mem_insert.1 hv with rfl | hv
          exacts [hs.trans (Finset.subset_insert _ _), (hres.left v hv).trans (Finset.subset_insert _ _)]
        · intro v hv
          rcases Finset.mem_insert.1 hv with rfl | hv
          exacts [hy'.2.2.trans (Finset.subset_insert _ _), (hres.right v hv).trans (Finset.subset_insert _ _)]
      exact sc.out (hmax _ this (Finset.mem_insert_self _ _))
    obtain ⟨x, hx, hx'⟩ := choice_ok w.pick 1 hex
    rw [cH.parents y sc.out, cG.parents y sc.out, Finset.mem_sdiff, hH.parents_iff, hG.parents_iff] at hx
    have hsE : ∀ c, G.E y c → c ∈ (R : Set α) := fun c hc => hs ((hG.children_iff _ _).2 hc)
    obtain ⟨hac, him'⟩ := sc.step4 hsE hx.1
    have hxV : x ∈ G.nodes := hn ▸ hH.fst_mem _ _ hx.1
    obtain ⟨G', a1, a2, a3, a4, a5⟩ := addArc_withArc hG (w.top 2) hxV hyV hac
    refine ⟨G', ⟨y, 4, none⟩, ?_, ⟨a2, a3, a5 ▸ him', Or.inl ⟨Or.inl rfl, x, ?_, hxV, hyV, a4, a5⟩⟩, hsd _ rfl⟩
    · rw [hx', pure_bind, a1, ofStep_ok, pure_bind]
    · rintro (h | h)
      · exact hx.2 h
      · exact sc.out (sc.downF _ _ hx.1 (hsE x h))
  · -- steps 5 to 8
    rw [if_neg hys]
    obtain ⟨desc, hd1, hd2⟩ := descendantsOf_spec cG.valid.toConsistent (w.reach 0) y
    obtain ⟨up, hu1, hu2⟩ := upstreamMost_spec cH.valid.toConsistent (w.reach 1) (w.sets.ord false desc)
    have hdesc : ∀ v, v ∈ desc ↔ Path G.E y v ∧ v ∉ R := fun v => (hd2 v).trans (cG.path hG hres.left)
    have hup : ∀ v, v ∈ up ↔ v ∈ desc ∧ ∀ u ∈ desc, ¬ Path H1.E u v := by
      intro v
      rw [hu2, w.sets.mem_iff]
      exact and_congr_right fun _ => forall_congr' fun u => by rw [w.sets.mem_iff]
    have hkid : ∃ c, G.E y c ∧ c ∉ R := by
      by_contra hno
      push Not at hno
      exact hys (cG.mem_sinks.2 ⟨hyV, sc.out, fun c hc => hno c ((hG.children_iff _ _).1 hc)⟩)
    have hupne : up.Nonempty := by
      obtain ⟨c, hc, hcR⟩ := hkid
      obtain ⟨v, hv, hmin⟩ := exists_minimal cH.valid.acyclic desc ⟨c, (hdesc c).2 ⟨.single hc, hcR⟩⟩
      exact ⟨v, (hup v).2 ⟨hv, hmin⟩⟩
    obtain ⟨d, hd, hd'⟩ := choice_ok w.pick 2 hupne
    obtain ⟨hdd, hdmin⟩ := (hup d).1 hd
    obtain ⟨hyd, hdR⟩ := (hdesc d).1 hdd
    have hdF : ∀ u, Path G.E y u → u ∉ (R : Set α) → ¬ Path H.E u d := fun u hu huR hp =>
      hdmin u ((hdesc u).2 ⟨hu, huR⟩) ((cH.path hH hres.right).2 ⟨hp, hdR⟩)
    obtain ⟨upc, hc1, hc2⟩ := upstreamMost_spec cG.valid.toConsistent (w.reach 2) (w.sets.ord true (G1.children y))
    have hkids : ∀ c, c ∈ G1.children y ↔ G.E y c ∧ c ∉ R := fun c => by
      rw [cG.children y sc.out, Finset.mem_sdiff, hG.children_iff]; exact Iff.rfl
    have hupc : ∀ v, v ∈ upc ↔ v ∈ G1.children y ∧ ∀ u ∈ G1.children y, ¬ Path G1.E u v := by
      intro v
      rw [hc2, w.sets.mem_iff]
      exact and_congr_right fun _ => forall_congr' fun u => by rw [w.sets.mem_iff]
    obtain ⟨anc, ha1, ha2⟩ := ancestorsOf_spec cG.valid.toConsistent (w.reach 3) d
    have hanc : ∀ v, v ∈ anc ∪ {d} ↔ Path0 G1.E v d := by
      intro v
      rw [Finset.mem_union, Finset.mem_singleton, ha2, Path0, reflTransGen_iff_eq_or_transGen, or_comm, eq_comm]
    have hvalid : (upc ∩ (anc ∪ {d})).Nonempty := by
      have hp : Path G1.E y d := (cG.path hG hres.left).2 ⟨hyd, hdR⟩
      obtain ⟨c, hc, hcd⟩ := TransGen.head'_iff.1 hp
      obtain ⟨v, hv, hmin⟩ := exists_minimal cG.valid.acyclic ((G1.children y).filter fun c => c ∈ anc ∪ {d})
        ⟨c, Finset.mem_filter.2 ⟨(cG.valid.children_iff _ _).2 hc, (hanc c).2 hcd⟩⟩
      obtain ⟨hv1, hv2⟩ := Finset.mem_filter.1 hv
      refine ⟨v, Finset.mem_inter.2 ⟨(hupc v).2 ⟨hv1, fun u hu huv => ?_⟩, hv2⟩⟩
      exact hmin u (Finset.mem_filter.2 ⟨hu, (hanc u).2 (huv.to_reflTransGen.trans ((hanc v).1 hv2))⟩) huv
    obtain ⟨z, hz, hz'⟩ := choice_ok w.pick 3 hvalid
    obtain ⟨hz1, hz2⟩ := Finset.mem_inter.1 hz
    obtain ⟨hz3, hzmin⟩ := (hupc z).1 hz1
    obtain ⟨hyz, hzR⟩ := (hkids z).1 hz3
    have hzd : Path0 G.E z d := path0_mono (fun _ _ h => ((cG.E _ _).1 h).1) ((hanc z).1 hz2)
    simp only [hd1, hu1, liftM_some, pure_bind, hd', hc1, ha1, hz']
    rw [isReversible, cG.parents y sc.out, cG.parents z hzR]
    by_cases hrev : G.parents y = G.parents z \ {y}
    · -- step 6
      rw [if_pos (by simpa using hrev)]
      have hcov : Covered G.E y z := by
        refine ⟨hyz, fun p => ?_⟩
        have : p ∈ G.parents y ↔ p ∈ G.parents z \ {y} := by rw [hrev]
        rwa [Finset.mem_sdiff, Finset.mem_singleton, hG.parents_iff, hG.parents_iff] at this
      obtain ⟨G', a1, a2, a3, a4, a5⟩ := reverseArc_covered hG hcov false (w.top 2)
      have hs := (covered_subModels hG.acyclic G.nodes sc.hVE hcov).1
      refine ⟨G', ⟨y, 6, some d⟩, ?_, ⟨a2, a3, a5 ▸ him.trans hs, Or.inr (Or.inr ⟨rfl, z, hcov, sc.child_y hyz hzR, a4, a5⟩)⟩, hsd _ rfl⟩
      rw [a1, ofStep_ok, pure_bind]
    · rw [if_neg (by simpa using hrev)]
      by_cases hpz : (G.parents z \ G.parents y) \ {y} = ∅
      · -- step 8
        rw [if_neg (not_not.2 hpz)]
        have hex : (G.parents y \ G.parents z).Nonempty := by
          rw [Finset.sdiff_nonempty]
          intro hsub
          apply hrev
          ext p
          rw [Finset.mem_sdiff, Finset.mem_singleton]
          constructor
          · intro hp
            refine ⟨hsub hp, ?_⟩
            rintro rfl
            exact hG.acyclic.irrefl ((hG.parents_iff _ _).1 hp)
          · rintro ⟨hp, hpy⟩
            by_contra hn'
            have : p ∈ (G.parents z \ G.parents y) \ {y} := by simp [hp, hn', hpy]
            rw [hpz] at this
            exact absurd this (Finset.notMem_empty _)
        obtain ⟨x, hx, hx'⟩ := choice_ok w.pick 5 hex
        rw [Finset.mem_sdiff, hG.parents_iff, hG.parents_iff] at hx
        obtain ⟨hac, him'⟩ := sc.step8 hyz hzR hx.1
        obtain ⟨G', a1, a2, a3, a4, a5⟩ := addArc_withArc hG (w.top 2) (hG.fst_mem _ _ hx.1) (hG.snd_mem _ _ hyz) hac
        refine ⟨G', ⟨y, 8, some d⟩, ?_, ⟨a2, a3, a5 ▸ him', Or.inr (Or.inl ⟨rfl, x, z, hx.1, hyz, ?_, a4, a5⟩)⟩, hsd _ rfl⟩
        · rw [hx', pure_bind, a1, ofStep_ok, pure_bind]
        · rintro (h | h)
          · exact hx.2 h
          · exact hG.acyclic _ (((TransGen.single h).tail hx.1).tail hyz)
      · -- step 7
        rw [if_pos hpz]
        obtain ⟨x, hx, hx'⟩ := choice_ok w.pick 4 (Finset.nonempty_iff_ne_empty.2 hpz)
        simp only [Finset.mem_sdiff, Finset.mem_singleton, hG.parents_iff] at hx
        obtain ⟨⟨hxz, hxy⟩, hne'⟩ := hx
        have hxR : x ∉ R := fun h => hzR (hres.left x h ((hG.children_iff _ _).2 hxz))
        have hnp : ¬ Path G.E y x := by
          intro hp
          obtain ⟨c, hc, hcx⟩ := TransGen.head'_iff.1 hp
          have hcz : Path G.E c z := TransGen.tail' hcx hxz
          have hcR : c ∉ R := sc.path_outE hcx hxR
          exact hzmin c ((hkids c).2 ⟨hc, hcR⟩) ((cG.path hG hres.left).2 ⟨hcz, hzR⟩)
        obtain ⟨hac, him'⟩ := sc.step7 hyz hxz hne' hnp hzd hdR hdF
        have hxV := hG.fst_mem _ _ hxz
        obtain ⟨G', a1, a2, a3, a4, a5⟩ := addArc_withArc hG (w.top 2) hxV hyV hac
        refine ⟨G', ⟨y, 7, some d⟩, ?_, ⟨a2, a3, a5 ▸ him', Or.inl ⟨Or.inr rfl, x, ?_, hxV, hyV, a4, a5⟩⟩, hsd _ rfl⟩
        · rw [hx', pure_bind, a1, ofStep_ok, pure_bind]
        · rintro (h | h)
          · exact hxy h
          · exact hnp (.single h)

end Model.DAG
