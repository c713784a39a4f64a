import Verif.Model.AGImap2
import Verif.Proof.AGImap
import Verif.Proof.RemoveEdge

/-! # `is_minimal_imap2` of ancestral graphs -/

namespace Model.AG

universe u
variable {α : Type u} [DecidableEq α] {G H : AG α}
open Relation Spec

theorem withoutEdge2_eq (hG : G.Good) (w : MinImapOracle α) {e : α × α}
    (he : e ∈ G.directed ∨ ({e.1, e.2} : Finset α) ∈ G.bidirected) : G.withoutEdge2 w e = G.withoutEdge w e := by
  unfold withoutEdge2 withoutEdge
  rw [copy_spec hG]
  by_cases hb : ({e.1, e.2} : Finset α) ∈ G.bidirected
  · have hd : e ∉ G.directed := fun q => hG.2.dir_bi _ _ q hb
    have h6 := (removeBidirected_spec hG false e.1 e.2).2.2.2.2.2
    rw [if_pos (Or.inl hb)] at h6
    simp only [Step.andThen, hb, hd, if_true, if_false]
    generalize hq : G.removeBidirected false e.1 e.2 = q at *
    obtain ⟨B, o⟩ := q
    simp only at h6; subst h6; rfl
  · have hd := he.resolve_right hb
    simp only [Step.andThen, hb, hd, if_true, if_false]

/-- The ends of an edge are not ancestors of each other, but for the tail of a directed edge. -/
theorem edge_anc (hG : G.Good) (hanc : G.mixed.Ancestral) {e : α × α}
    (he : e ∈ G.directed ∨ ({e.1, e.2} : Finset α) ∈ G.bidirected) : ¬ Path G.mixed.dir e.2 e.1 := by
  rcases he with k | k
  · intro q
    exact hanc.acyclic _ (TransGen.head (show G.mixed.dir e.1 e.2 from k) q)
  · exact hanc.almost _ _ (hG.proper.bi_symm _ _ k)

theorem edgeTest_spec (hG : G.Good) (hanc : G.mixed.Ancestral) (hH : H.Good) (w : MinImap2Oracle α) {e : α × α}
    (he : e ∈ G.directed ∨ ({e.1, e.2} : Finset α) ∈ G.bidirected) :
    ∃ b, ∃ S : Finset α, edgeTest w G H e = some b ∧ (b = true ↔ H.mixed.MSep {e.1} {e.2} (S : Set α)) ∧
      ∀ x, x ∈ S ↔ x ≠ e.1 ∧ x ≠ e.2 ∧ G.mixed.Anc2 e.1 e.2 x := by
  obtain ⟨ai, hai, hai'⟩ := ancestorsOf_spec hG w.anc ∅ e.1
  obtain ⟨aj, haj, haj'⟩ := ancestorsOf_spec hG w.anc ∅ e.2
  have hi : ∀ x, x ∈ ai ↔ Path G.mixed.dir x e.1 := by intro x; have := hai' x; simp only [Finset.notMem_empty, not_false_iff, and_true] at this; exact this
  have hj : ∀ x, x ∈ aj ↔ Path G.mixed.dir x e.2 := by intro x; have := haj' x; simp only [Finset.notMem_empty, not_false_iff, and_true] at this; exact this
  have hS : ∀ x, x ∈ ai ∪ aj \ {e.1, e.2} ↔ x ≠ e.1 ∧ x ≠ e.2 ∧ G.mixed.Anc2 e.1 e.2 x := by
    intro x
    simp only [Finset.mem_union, Finset.mem_sdiff, hi, hj, Finset.mem_insert, Finset.mem_singleton, not_or, Mixed.Anc2]
    constructor
    · rintro (k | k)
      · exact ⟨anc_ne hanc k, fun q => edge_anc hG hanc he (q ▸ k), Or.inl k⟩
      · exact ⟨k.2.1, k.2.2, Or.inr k.1⟩
    · rintro ⟨h1, h2, k | k⟩
      · exact Or.inl k
      · exact Or.inr ⟨k, h1, h2⟩
  obtain ⟨q, hq, hq'⟩ := msep_decides hH (w.sep e) {e.1} {e.2} (ai ∪ aj \ {e.1, e.2}) (by
    rw [Finset.disjoint_singleton_left, hS]; exact fun k => k.1 rfl)
  refine ⟨q, _, ?_, by simpa using hq', hS⟩
  simp only [edgeTest, hai, haj, Option.bind_some, hq]

theorem closed_nodes (hG : G.Good) : G.mixed.Closed G.nodes := fun _ _ k _ => (hG.adj_mem (Or.inl k)).1

/-- The pairwise statements hold in every graph of which this one is an I-map. -/
theorem imap_pairwise (hG : G.Good) (hun : G.undirected = ∅) (hm : G.mixed.Maximal {v | v ∈ G.nodes})
    (hi : G.mixed.Imap H.mixed {v | v ∈ G.nodes}) {v w : α} (hv : v ∈ G.nodes) (hw : w ∈ G.nodes) (hvw : v ≠ w)
    (hadj : ¬ G.mixed.Adj v w) (S : Finset α) (hS : ∀ x, x ∈ S ↔ x ≠ v ∧ x ≠ w ∧ G.mixed.Anc2 v w x) :
    H.mixed.MSep {v} {w} (S : Set α) := by
  refine hi {v} {w} S (by rintro x rfl; exact hv) (by rintro x rfl; exact hw) ?_ (by simpa using hvw) ?_ ?_
    (msep_ancestors hG hm hun hv hw hvw hadj fun x => Finset.mem_coe.trans (hS x))
  · intro x hx
    rcases ((hS x).1 hx).2.2 with k | k
    · exact Mixed.closed_path (closed_nodes hG) k.to_reflTransGen hv
    · exact Mixed.closed_path (closed_nodes hG) k.to_reflTransGen hw
  · simp [hS]
  · simp [hS]

/-- The test of `is_minimal_imap2` tells whether the graph without the edge is an I-map, provided that it is maximal. -/
theorem test_iff (hG : G.Good) (hanc : G.mixed.Ancestral) (hun : G.undirected = ∅) (hH : H.Good)
    (hm : G.mixed.Maximal {v | v ∈ G.nodes}) (hi : G.mixed.Imap H.mixed {v | v ∈ G.nodes}) {e : α × α} {B : AG α}
    (he : e ∈ G.directed ∨ ({e.1, e.2} : Finset α) ∈ G.bidirected) (hB : Without G e B)
    (hBm : B.mixed.Maximal {v | v ∈ B.nodes}) {S : Finset α} (hS : ∀ x, x ∈ S ↔ x ≠ e.1 ∧ x ≠ e.2 ∧ G.mixed.Anc2 e.1 e.2 x) :
    H.mixed.MSep {e.1} {e.2} (S : Set α) ↔ B.mixed.Imap H.mixed {v | v ∈ B.nodes} := by
  have hBun : B.undirected = ∅ := hB.un.trans hun
  have hGun : ∀ x y, ¬ G.mixed.un x y := fun x y k => absurd (show ({x, y} : Finset α) ∈ G.undirected from k) (by simp [hun])
  have hBun' : ∀ x y, ¬ B.mixed.un x y := fun x y k => absurd (show ({x, y} : Finset α) ∈ B.undirected from k) (by simp [hBun])
  have hends : e.1 ∈ G.nodes ∧ e.2 ∈ G.nodes := by
    rcases he with k | k
    · exact hG.adj_mem (Or.inl k)
    · exact hG.adj_mem (Or.inr (Or.inr (Or.inl k)))
  have hne : e.1 ≠ e.2 := by
    rcases he with k | k
    · exact anc_ne hanc (.single k)
    · exact hG.1.bi_ne k
  constructor
  · intro hs
    suffices hp : ∀ v ∈ B.nodes, ∀ w ∈ B.nodes, v ≠ w → ¬ B.mixed.Adj v w → ∀ S : Finset α,
        (∀ x, x ∈ S ↔ x ≠ v ∧ x ≠ w ∧ B.mixed.Anc2 v w x) → H.mixed.MSep (({v} : Finset α) : Set α) (({w} : Finset α) : Set α) (S : Set α) by
      refine imap_finset fun X Y Z hX hY hZ _ hXZ hYZ k => ?_
      exact Mixed.global_of_pairwise hB.good.proper (hB.sub.ancestral hanc).acyclic hBun' hH.proper.graphoid B.nodes
        (closed_nodes hB.good) hp X Y Z hX hY hZ hXZ hYZ k
    rcases he with k | k
    · have c : Mixed.Cut G.mixed B.mixed e.1 e.2 := by
        refine ⟨k, fun x y => ?_, fun x y => ?_, hGun⟩
        · change _ ∈ B.directed ↔ _ ∈ G.directed ∧ _
          rw [hB.dir, Finset.mem_erase, and_comm]
          exact and_congr_right fun _ => not_congr Prod.ext_iff
        · change _ ∈ B.bidirected ↔ _ ∈ G.bidirected
          rw [hB.bi, Finset.erase_eq_of_notMem (hG.2.dir_bi _ _ k)]
      rw [hB.nodes]
      refine Mixed.pairwise_of_cut hG.proper hB.good.proper hanc.acyclic c hH.proper.graphoid G.nodes (closed_nodes hG)
        (hG.maximal_iff.1 hm) (fun v hv w hw => hB.good.maximal_iff.1 hBm v (hB.nodes ▸ hv) w (hB.nodes ▸ hw)) ?_
      rintro v hv w hw hvw (q | ⟨rfl, rfl⟩) S' hS'
      · simpa using imap_pairwise hG hun hm hi hv hw hvw q S' hS'
      · have : S' = S := by ext x; rw [hS, hS']
        subst this
        simpa using hs
    · have hd : ∀ x y, B.mixed.dir x y ↔ G.mixed.dir x y := by
        intro x y
        change _ ∈ B.directed ↔ _ ∈ G.directed
        rw [hB.dir, Finset.erase_eq_of_notMem fun q => hG.2.dir_bi _ _ q k]
      have hd' : B.mixed.dir = G.mixed.dir := by funext x y; exact propext (hd x y)
      intro v hv w hw hvw hadj S' hS'
      simp only [Mixed.Anc2, hd'] at hS'
      simp only [Finset.coe_singleton]
      by_cases hadj' : G.mixed.Adj v w
      · have : ({v, w} : Finset α) = {e.1, e.2} := by
          by_contra hn
          apply hadj
          rcases hadj' with q | q | q | q
          · exact Or.inl ((hd _ _).2 q)
          · exact Or.inr (Or.inl ((hd _ _).2 q))
          · refine Or.inr (Or.inr (Or.inl ?_))
            change _ ∈ B.bidirected
            rw [hB.bi]
            exact Finset.mem_erase.2 ⟨hn, q⟩
          · exact absurd q (hGun _ _)
        rw [UG.pair_eq] at this
        rcases this with ⟨rfl, rfl⟩ | ⟨rfl, rfl⟩
        · have : S' = S := by ext x; rw [hS, hS']; rfl
          rwa [this]
        · have : S' = S := by ext x; rw [hS, hS', Mixed.Anc2]; tauto
          rw [this]
          exact Mixed.msep_comm hH.proper hs
      · exact imap_pairwise hG hun hm hi (hB.nodes ▸ hv) (hB.nodes ▸ hw) hvw hadj' S' hS'
  · intro hi'
    refine imap_pairwise hB.good hBun hBm hi' (hB.nodes ▸ hends.1) (hB.nodes ▸ hends.2) hne ?_ S ?_
    · rintro (k | k | k | k)
      · have : _ ∈ B.directed := k
        rw [hB.dir] at this; simp at this
      · exact edge_anc hG hanc he (.single (hB.sub.dir _ _ k))
      · have : _ ∈ B.bidirected := k
        rw [hB.bi] at this; simp at this
      · exact hBun' _ _ k
    · intro x
      rw [hS]
      refine and_congr_right fun h1 => and_congr_right fun h2 => ?_
      constructor
      · have keep : ∀ {a b}, G.mixed.dir a b → (a, b) ≠ e → B.mixed.dir a b := by
          intro a b q r
          change _ ∈ B.directed
          rw [hB.dir]; exact Finset.mem_erase.2 ⟨r, q⟩
        have cut : ∀ {y}, Path G.mixed.dir x y → Path B.mixed.dir x y ∨ Path B.mixed.dir x e.1 := by
          intro y hp
          induction hp with
          | @single b q =>
            exact Or.inl (.single (keep q fun r => h1 (by rw [← r])))
          | @tail b d _ q ih =>
            rcases ih with ih | ih
            · by_cases hbe : (b, d) = e
              · right; rw [← hbe]; exact ih
              · exact Or.inl (ih.tail (keep q hbe))
            · exact Or.inr ih
        rintro (q | q)
        · exact (cut q).elim Or.inl Or.inl
        · exact (cut q).elim Or.inr Or.inl
      · exact Or.imp (TransGen.mono hB.sub.dir _ _) (TransGen.mono hB.sub.dir _ _)

theorem minImapLoop2_spec (hG : G.Good) (hanc : G.mixed.Ancestral) (hun : G.undirected = ∅) (hH : H.Good)
    (hm : G.mixed.Maximal {v | v ∈ G.nodes}) (hi : G.mixed.Imap H.mixed {v | v ∈ G.nodes}) (w : MinImap2Oracle α)
    (certify validate : Bool) :
    ∀ l : List (α × α), (∀ e ∈ l, e ∈ G.directed ∨ ({e.1, e.2} : Finset α) ∈ G.bidirected) →
    ∃ c : Option (α × α), minImapLoop2 w certify validate G H l = some (.ok (if certify then .tuple c.isNone c else .bool c.isNone)) ∧
      (c = none → ∀ e ∈ l, ∃ B, Without G e B ∧ ¬ (B.mixed.Maximal {v | v ∈ B.nodes} ∧ B.mixed.Imap H.mixed {v | v ∈ B.nodes})) ∧
      ∀ e, c = some e → e ∈ l ∧ ∃ B, Without G e B ∧ B.mixed.Maximal {v | v ∈ B.nodes} ∧ B.mixed.Imap H.mixed {v | v ∈ B.nodes} := by
  intro l
  induction l with
  | nil => intro _; exact ⟨none, by cases certify <;> rfl, by simp, by simp⟩
  | cons e l ih =>
    intro hl
    obtain ⟨c, hc, h1, h2⟩ := ih fun x hx => hl x (List.mem_cons_of_mem _ hx)
    have he := hl e List.mem_cons_self
    obtain ⟨B, hB, g1, g2, g3, g4, g5⟩ := withoutEdge_spec hG w.toMinImapOracle he
    rw [← withoutEdge2_eq hG _ he] at hB
    have hW : Without G e B := ⟨g1, g2, g3, g4, g5⟩
    have ganc := hW.sub.ancestral hanc
    obtain ⟨r, hr, hr'⟩ := isMaximal_spec g1 ganc (w.imap e).copy (w.imap e).unpack (w.max e)
    obtain ⟨b, S, hb, hb', hS⟩ := edgeTest_spec hG hanc hH w he
    have later : ∀ (_ : ¬ (B.mixed.Maximal {v | v ∈ B.nodes} ∧ B.mixed.Imap H.mixed {v | v ∈ B.nodes})),
        minImapLoop2 w certify validate G H (e :: l) = minImapLoop2 w certify validate G H l →
        ∃ c : Option (α × α), minImapLoop2 w certify validate G H (e :: l) =
            some (.ok (if certify then .tuple c.isNone c else .bool c.isNone)) ∧
          (c = none → ∀ e' ∈ e :: l, ∃ B, Without G e' B ∧ ¬ (B.mixed.Maximal {v | v ∈ B.nodes} ∧ B.mixed.Imap H.mixed {v | v ∈ B.nodes})) ∧
          ∀ e', c = some e' → e' ∈ e :: l ∧ ∃ B, Without G e' B ∧ B.mixed.Maximal {v | v ∈ B.nodes} ∧ B.mixed.Imap H.mixed {v | v ∈ B.nodes} := by
      intro hn hrun
      refine ⟨c, hrun.trans hc, ?_, fun e' he' => ⟨List.mem_cons_of_mem _ (h2 e' he').1, (h2 e' he').2⟩⟩
      intro hc' e' he'
      rcases List.mem_cons.1 he' with rfl | he'
      · exact ⟨B, hW, hn⟩
      · exact h1 hc' e' he'
    cases b with
    | false =>
      refine later (fun k => ?_) (by rw [minImapLoop2, hb]; rfl)
      exact absurd (hb'.2 ((test_iff hG hanc hun hH hm hi he hW k.1 hS).2 k.2)) (by simp)
    | true =>
      cases r with
      | false =>
        refine later (fun k => absurd (hr'.2 k.1) (by simp)) ?_
        rw [minImapLoop2, hb]; simp [hr, hB]
      | true =>
        have hmax := hr'.1 rfl
        have himap := (test_iff hG hanc hun hH hm hi he hW hmax hS).1 (hb'.1 rfl)
        obtain ⟨c', hc', k1, -⟩ := isImap_spec (H := H) g1 ganc (g3.trans hun) hH (w.imap e) hmax
        obtain rfl := k1.2 himap
        refine ⟨some e, ?_, by simp, ?_⟩
        · rw [minImapLoop2, hb]; simp [hr, hB, hc']
        · rintro e' he'
          obtain rfl := Option.some.inj he'
          exact ⟨List.mem_cons_self, B, hW, hmax, himap⟩

theorem isMinimalImap2_spec (hG : G.Good) (hanc : G.mixed.Ancestral) (hun : G.undirected = ∅) (hH : H.Good)
    (hm : G.mixed.Maximal {v | v ∈ G.nodes}) (hi : G.mixed.Imap H.mixed {v | v ∈ G.nodes}) (w : MinImap2Oracle α)
    (certify checkImap validate : Bool) :
    ∃ c : Option (α × α), isMinimalImap2 w certify checkImap validate G H =
        some (.ok (if certify then .tuple c.isNone c else .bool c.isNone)) ∧
      (c = none ↔ ∀ P : Mixed α, P.Sub G.mixed → P.Maximal {v | v ∈ G.nodes} →
        P.Imap H.mixed {v | v ∈ G.nodes} → G.mixed.Sub P) ∧
      ∀ e, c = some e → (e ∈ G.directed ∨ ({e.1, e.2} : Finset α) ∈ G.bidirected) ∧
        ∃ B, Without G e B ∧ B.mixed.Maximal {v | v ∈ B.nodes} ∧ B.mixed.Imap H.mixed {v | v ∈ B.nodes} := by
  obtain ⟨hl, -⟩ := edges_spec hG w.toMinImapOracle
  obtain ⟨c, hc, h1, h2⟩ := minImapLoop2_spec hG hanc hun hH hm hi w certify validate _ hl
  obtain ⟨r, hr, hr', -⟩ := isImap_spec hG hanc hun hH w.self hm
  obtain rfl := hr'.2 hi
  refine ⟨c, ?_, verdict_iff hG hanc hm w.toMinImapOracle h1 h2, fun e he => ⟨hl e (h2 e he).1, (h2 e he).2⟩⟩
  cases checkImap
  · simp [isMinimalImap2, hc]
  · simp [isMinimalImap2, hr, hc]

theorem isMinimalImap2_not (hG : G.Good) (hanc : G.mixed.Ancestral) (hun : G.undirected = ∅) (hH : H.Good)
    (hm : G.mixed.Maximal {v | v ∈ G.nodes}) (hi : ¬ G.mixed.Imap H.mixed {v | v ∈ G.nodes}) (w : MinImap2Oracle α)
    (certify validate : Bool) : isMinimalImap2 w certify true validate G H = some (.ok (.tuple false none)) := by
  obtain ⟨r, hr, hr', -⟩ := isImap_spec hG hanc hun hH w.self hm
  cases r with
  | none => exact absurd (hr'.1 rfl) hi
  | some s => simp [isMinimalImap2, hr]

end Model.AG
