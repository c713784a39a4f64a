import Verif.Model.AGImap
import Verif.Proof.PairwiseGlobal
import Verif.Proof.MinimalSub
import Verif.Proof.Maximal
import Verif.Proof.IMap
import Verif.Spec.Imap

/-! # `is_imap` and `is_minimal_imap` of ancestral graphs -/

namespace Model.AG

universe u
variable {α : Type u} [DecidableEq α] {G H : AG α}
open Relation Spec

omit [DecidableEq α] in
/-- For the nodes of a graph it is enough to look at finite sets. -/
theorem imap_finset {M N : Mixed α} {V : Finset α} (h : ∀ X Y Z : Finset α, X ⊆ V → Y ⊆ V → Z ⊆ V →
    Disjoint X Y → Disjoint X Z → Disjoint Y Z → M.MSep ↑X ↑Y ↑Z → N.MSep ↑X ↑Y ↑Z) : M.Imap N {v | v ∈ V} := by
  have hf : ∀ {X : Set α}, X ⊆ {v | v ∈ V} → ∃ X' : Finset α, (X' : Set α) = X := by
    intro X hX
    classical
    refine ⟨V.filter (· ∈ X), ?_⟩
    ext x; simp only [Finset.coe_filter, Set.mem_ofPred_eq]
    exact ⟨fun h => h.2, fun h => ⟨hX h, h⟩⟩
  intro A B C hA hB hC hAB hAC hBC hs
  obtain ⟨A, rfl⟩ := hf hA
  obtain ⟨B, rfl⟩ := hf hB
  obtain ⟨C, rfl⟩ := hf hC
  exact h A B C (fun x hx => hA hx) (fun x hx => hB hx) (fun x hx => hC hx) (Finset.disjoint_coe.1 hAB)
    (Finset.disjoint_coe.1 hAC) (Finset.disjoint_coe.1 hBC) hs

/-- Whether the second node is in the conditioning set of a pairwise statement makes no difference. -/
theorem stmt_iff {M : Mixed α} (hM : M.Proper) {i j : α} {S : Finset α} (hi : i ∉ S) (hij : i ≠ j) :
    M.MSep {i} {j} (S : Set α) ↔ M.MSep {i} {j} (S.erase j : Finset α) := by
  by_cases hj : j ∈ S
  · have : (S : Set α) = insert j ((S.erase j : Finset α) : Set α) := by
      rw [← Finset.coe_insert, Finset.insert_erase hj]
    rw [this]
    exact Mixed.msep_insert hM (by simp [hi]) hij
  · rw [Finset.erase_eq_of_notMem hj]

theorem anc_ne (h : G.mixed.Ancestral) {x y : α} (k : Path G.mixed.dir x y) : x ≠ y := by
  rintro rfl; exact h.acyclic _ k

theorem isImap_error (hG : G.Good) (hanc : G.mixed.Ancestral) (w : ImapOracle α) (hn : ¬ G.mixed.Maximal {v | v ∈ G.nodes}) :
    isImap w G H = some (.error .plain) := by
  obtain ⟨r, hr, hr'⟩ := isMaximal_spec hG hanc w.copy w.unpack w.max
  have : r = false := by
    cases r
    · rfl
    · exact absurd (hr'.1 rfl) hn
  subst this
  simp [isImap, hr]

theorem isImap_run (hG : G.Good) (hanc : G.mixed.Ancestral) (hH : H.Good) (w : ImapOracle α) (hm : G.mixed.Maximal {v | v ∈ G.nodes}) :
    ∃ l c, isImap w G H = some (.ok (c.isNone, c)) ∧ G.pairwiseMarkov w.nodes w.anc = some l ∧
      (c = none ↔ ∀ s ∈ l, H.mixed.MSep {s.1} {s.2.1} (s.2.2 : Set α)) ∧
      ∀ s, c = some s → s ∈ l ∧ ¬ H.mixed.MSep {s.1} {s.2.1} (s.2.2 : Set α) := by
  obtain ⟨r, hr, hr'⟩ := isMaximal_spec hG hanc w.copy w.unpack w.max
  obtain rfl : r = true := hr'.2 hm
  obtain ⟨l, hl, -, hl2⟩ := pairwiseMarkov_spec hG w.nodes w.anc
  have hi : ∀ s ∈ l, s.1 ∉ s.2.2 := by
    rintro ⟨i, j, S⟩ hs
    obtain ⟨-, -, -, -, h5, -⟩ := hl2 i j S hs
    rw [h5]
    rintro (k | k)
    · exact anc_ne hanc k rfl
    · exact k.2.1 rfl
  obtain ⟨c, hc, h1, h2⟩ := firstM_spec (f := fun s : α × α × Finset α => (H.msep (w.sep s) {s.1} {s.2.1} s.2.2).map (!·))
    (P := fun s => ¬ H.mixed.MSep {s.1} {s.2.1} (s.2.2 : Set α)) (w.stmts.ord () l.toFinset) (by
      intro s hs
      have hs' : s ∈ l := by simpa [w.stmts.mem_iff] using hs
      obtain ⟨q, hq, hq'⟩ := msep_decides hH (w.sep s) {s.1} {s.2.1} s.2.2 (by simpa using hi s hs')
      refine ⟨!q, by rw [hq]; rfl, ?_⟩
      simp only [Finset.coe_singleton] at hq'
      rw [← hq']; simp)
  refine ⟨l, c, ?_, hl, ?_, ?_⟩
  · simp [isImap, hr, hl, hc]
  · rw [h1]
    constructor
    · intro k s hs; exact not_not.1 (k s (by simpa [w.stmts.mem_iff] using hs))
    · intro k s hs; exact not_not.2 (k s (by simpa [w.stmts.mem_iff] using hs))
  · intro s hs
    obtain ⟨k1, k2⟩ := h2 s hs
    exact ⟨by simpa [w.stmts.mem_iff] using k1, k2⟩

theorem isImap_spec (hG : G.Good) (hanc : G.mixed.Ancestral) (hun : G.undirected = ∅) (hH : H.Good) (w : ImapOracle α)
    (hm : G.mixed.Maximal {v | v ∈ G.nodes}) :
    ∃ c, isImap w G H = some (.ok (c.isNone, c)) ∧ (c = none ↔ G.mixed.Imap H.mixed {v | v ∈ G.nodes}) ∧
      ∀ i j S, c = some (i, j, S) → i ∈ G.nodes ∧ j ∈ G.nodes ∧ i ≠ j ∧ S ⊆ G.nodes ∧ i ∉ S ∧
        G.mixed.MSep {i} {j} (S : Set α) ∧ ¬ H.mixed.MSep {i} {j} (S : Set α) := by
  obtain ⟨l, c, h1, h2, h3, h4⟩ := isImap_run hG hanc hH w hm
  obtain ⟨l', hl, hl1, hl2⟩ := pairwiseMarkov_spec hG w.nodes w.anc
  obtain rfl : l = l' := by rw [h2] at hl; exact Option.some.inj hl
  have stmt : ∀ i j S, (i, j, S) ∈ l → i ∉ S ∧ S ⊆ G.nodes ∧ G.mixed.MSep {i} {j} ((S.erase j : Finset α) : Set α) ∧
      ∀ x, x ∈ S.erase j ↔ x ≠ i ∧ x ≠ j ∧ G.mixed.Anc2 i j x := by
    intro i j S hs
    obtain ⟨k1, k2, k3, k4, k5, -⟩ := hl2 i j S hs
    have hi : i ∉ S := by
      rw [k5]
      rintro (k | k)
      · exact anc_ne hanc k rfl
      · exact k.2.1 rfl
    have hx : ∀ x, x ∈ S.erase j ↔ x ≠ i ∧ x ≠ j ∧ G.mixed.Anc2 i j x := by
      intro x
      rw [Finset.mem_erase, k5]
      constructor
      · rintro ⟨a, b | b⟩
        · exact ⟨anc_ne hanc b, a, Or.inl b⟩
        · exact ⟨b.2.1, a, Or.inr b.1⟩
      · rintro ⟨a, b, e | e⟩
        · exact ⟨b, Or.inl e⟩
        · exact ⟨b, Or.inr ⟨e, a, b⟩⟩
    refine ⟨hi, ?_, msep_ancestors hG hm hun k1 k2 k3 k4 (fun x => Finset.mem_coe.trans (hx x)), hx⟩
    have hmem : ∀ {x y}, Path G.mixed.dir x y → x ∈ G.nodes := by
      intro x y hp
      obtain ⟨z, hz, -⟩ := TransGen.head'_iff.1 hp
      exact (hG.adj_mem (Or.inl hz)).1
    intro x hxS
    rw [k5] at hxS
    exact hxS.elim hmem fun k => hmem k.1
  refine ⟨c, h1, ?_, ?_⟩
  · rw [h3]
    constructor
    · intro hall
      refine imap_finset fun X Y Z hX hY hZ _ hXZ hYZ hs => ?_
      refine Mixed.global_of_pairwise hG.proper hanc.acyclic ?_ hH.proper.graphoid G.nodes
        (fun a b k _ => (hG.adj_mem (Or.inl k)).1) ?_ X Y Z hX hY hZ hXZ hYZ hs
      · intro u v k
        exact absurd (show ({u, v} : Finset α) ∈ G.undirected from k) (by simp [hun])
      · intro i hi j hj hij hadj S hS
        obtain ⟨S', hS' | hS'⟩ := hl1 i hi j hj hij hadj
        · obtain ⟨q1, -, -, q2⟩ := stmt _ _ _ hS'
          have := (stmt_iff hH.proper q1 hij).1 (hall _ hS')
          rw [show S = S'.erase j by ext x; rw [hS, q2]]
          simpa using this
        · obtain ⟨q1, -, -, q2⟩ := stmt _ _ _ hS'
          have := (stmt_iff hH.proper q1 hij.symm).1 (hall _ hS')
          rw [show S = S'.erase i by ext x; rw [hS, q2]; simp only [Mixed.Anc2]; tauto]
          exact Mixed.msep_comm hH.proper (by simpa using this)
    · rintro him ⟨i, j, S⟩ hs
      obtain ⟨q1, q2, q3, -⟩ := stmt i j S hs
      obtain ⟨k1, k2, k3, -⟩ := hl2 i j S hs
      refine (stmt_iff hH.proper q1 k3).2 ?_
      exact him {i} {j} (S.erase j : Finset α) (by rintro x rfl; exact k1) (by rintro x rfl; exact k2)
        (fun x hx => q2 (Finset.mem_of_mem_erase hx)) (by simpa using k3) (by simp [q1]) (by simp) q3
  · intro i j S hc
    obtain ⟨k1, k2⟩ := h4 _ hc
    obtain ⟨q1, q2, q3, -⟩ := stmt i j S k1
    obtain ⟨r1, r2, r3, -⟩ := hl2 i j S k1
    exact ⟨r1, r2, r3, q2, q1, (stmt_iff hG.proper q1 r3).2 q3, k2⟩

/-! ## Minimality -/

omit [DecidableEq α] in
theorem _root_.Spec.Mixed.Sub.proper {M N : Mixed α} (h : N.Sub M) (hM : M.Proper) : N.Proper :=
  hM.sub h.dir h.bi h.bi_symm h.un

omit [DecidableEq α] in
theorem _root_.Spec.Mixed.Sub.imap {M N : Mixed α} (hs : N.Sub M) (hM : M.Proper) {H : Mixed α} {V : Set α}
    (h : N.Imap H V) : M.Imap H V := fun X Y Z hX hY hZ h1 h2 h3 hsep =>
  h X Y Z hX hY hZ h1 h2 h3 (Mixed.msep_sub hM (hs.proper hM) hs.dir hs.bi (fun _ _ k => (hs.un _ _).1 k) hsep)

omit [DecidableEq α] in
theorem _root_.Spec.Mixed.Sub.ancestral {M N : Mixed α} (h : N.Sub M) (hanc : M.Ancestral) : N.Ancestral where
  acyclic v k := hanc.acyclic v (TransGen.mono h.dir _ _ k)
  almost u v k q := hanc.almost u v (h.bi _ _ k) (TransGen.mono h.dir _ _ q)
  tails u v x k q := hanc.tails u v x ((h.un _ _).1 k) (q.imp (h.dir _ _) (h.bi _ _))

theorem withoutEdge_spec (hG : G.Good) (w : MinImapOracle α) {e : α × α}
    (he : e ∈ G.directed ∨ ({e.1, e.2} : Finset α) ∈ G.bidirected) :
    ∃ B, G.withoutEdge w e = (B, none) ∧ B.Good ∧ B.nodes = G.nodes ∧ B.undirected = G.undirected ∧
      B.directed = G.directed.erase e ∧ B.bidirected = G.bidirected.erase {e.1, e.2} := by
  have hexcl : e ∈ G.directed → ({e.1, e.2} : Finset α) ∉ G.bidirected := fun k => hG.2.dir_bi _ _ k
  unfold withoutEdge
  rw [copy_spec hG]
  rcases he with k | k
  · have hb := hexcl k
    obtain ⟨h1, h2, h3, h4, h5, h6⟩ := removeDirected_spec hG false e.1 e.2
    refine ⟨(G.removeDirected false e.1 e.2).1, ?_, h1, h2, h5, h3, ?_⟩
    · simp only [Step.andThen, hb, k, if_true, if_false]
      rw [if_pos (Or.inl k)] at h6
      exact Prod.ext rfl h6
    · rw [h4, Finset.erase_eq_of_notMem hb]
  · have hd : e ∉ G.directed := fun q => hexcl q k
    obtain ⟨h1, h2, h3, h4, h5, h6⟩ := removeBidirected_spec hG false e.1 e.2
    rw [if_pos (Or.inl k)] at h6
    refine ⟨(G.removeBidirected false e.1 e.2).1, ?_, h1, h2, h5, ?_, h3⟩
    · simp only [Step.andThen, k, hd, if_true, if_false]
      generalize hq : G.removeBidirected false e.1 e.2 = q at *
      obtain ⟨B, o⟩ := q
      simp only at h6; subst h6; rfl
    · rw [h4, Finset.erase_eq_of_notMem hd]

/-- `B` is `G` without the edge `e`. -/
structure Without (G : AG α) (e : α × α) (B : AG α) : Prop where
  good : B.Good
  nodes : B.nodes = G.nodes
  un : B.undirected = G.undirected
  dir : B.directed = G.directed.erase e
  bi : B.bidirected = G.bidirected.erase {e.1, e.2}

theorem Without.sub {e : α × α} {B : AG α} (hB : Without G e B) : B.mixed.Sub G.mixed where
  dir x y k := Finset.mem_of_mem_erase (hB.dir ▸ k : (x, y) ∈ G.directed.erase e)
  bi x y k := Finset.mem_of_mem_erase (hB.bi ▸ k : {x, y} ∈ G.bidirected.erase {e.1, e.2})
  un x y := by change _ ∈ _ ↔ _ ∈ _; rw [hB.un]
  bi_symm := hB.good.proper.bi_symm

theorem Without.not_sub {e : α × α} {B : AG α} (hB : Without G e B)
    (he : e ∈ G.directed ∨ ({e.1, e.2} : Finset α) ∈ G.bidirected) : ¬ G.mixed.Sub B.mixed := by
  intro k
  rcases he with q | q
  · have : _ ∈ B.directed := k.dir e.1 e.2 q
    rw [hB.dir] at this; simp at this
  · have : _ ∈ B.bidirected := k.bi e.1 e.2 q
    rw [hB.bi] at this; simp at this

theorem minImapLoop_spec (hG : G.Good) (hanc : G.mixed.Ancestral) (hun : G.undirected = ∅) (hH : H.Good) (w : MinImapOracle α) (certify : Bool) :
    ∀ l : List (α × α), (∀ e ∈ l, e ∈ G.directed ∨ ({e.1, e.2} : Finset α) ∈ G.bidirected) →
    ∃ c : Option (α × α), minImapLoop w certify G H l = some (.ok (if certify then .tuple c.isNone c else .bool c.isNone)) ∧
      (c = none → ∀ e ∈ l, ∃ B, Without G e B ∧ ¬ (B.mixed.Maximal {v | v ∈ B.nodes} ∧ B.mixed.Imap H.mixed {v | v ∈ B.nodes})) ∧
      ∀ e, c = some e → e ∈ l ∧ ∃ B, Without G e B ∧ B.mixed.Maximal {v | v ∈ B.nodes} ∧ B.mixed.Imap H.mixed {v | v ∈ B.nodes} := by
  intro l
  induction l with
  | nil => intro _; exact ⟨none, by cases certify <;> rfl, by simp, by simp⟩
  | cons e l ih =>
    intro hl
    obtain ⟨c, hc, h1, h2⟩ := ih fun x hx => hl x (List.mem_cons_of_mem _ hx)
    obtain ⟨B, hB, g1, g2, g3, g4, g5⟩ := withoutEdge_spec hG w (hl e List.mem_cons_self)
    have hW : Without G e B := ⟨g1, g2, g3, g4, g5⟩
    have ganc := hW.sub.ancestral hanc
    obtain ⟨r, hr, hr'⟩ := isMaximal_spec g1 ganc (w.imap e).copy (w.imap e).unpack (w.max e)
    have later : ∀ (_ : ¬ (B.mixed.Maximal {v | v ∈ B.nodes} ∧ B.mixed.Imap H.mixed {v | v ∈ B.nodes})),
        minImapLoop w certify G H (e :: l) = minImapLoop w certify G H l →
        ∃ c : Option (α × α), minImapLoop w certify G H (e :: l) =
            some (.ok (if certify then .tuple c.isNone c else .bool c.isNone)) ∧
          (c = none → ∀ e' ∈ e :: l, ∃ B, Without G e' B ∧ ¬ (B.mixed.Maximal {v | v ∈ B.nodes} ∧ B.mixed.Imap H.mixed {v | v ∈ B.nodes})) ∧
          ∀ e', c = some e' → e' ∈ e :: l ∧ ∃ B, Without G e' B ∧ B.mixed.Maximal {v | v ∈ B.nodes} ∧ B.mixed.Imap H.mixed {v | v ∈ B.nodes} := by
      intro hn hrun
      refine ⟨c, hrun.trans hc, ?_, fun e' he' => ⟨List.mem_cons_of_mem _ (h2 e' he').1, (h2 e' he').2⟩⟩
      intro hc' e' he'
      rcases List.mem_cons.1 he' with rfl | he'
      · exact ⟨B, hW, hn⟩
      · exact h1 hc' e' he'
    cases r with
    | false =>
      refine later (fun k => absurd (hr'.2 k.1) (by simp)) ?_
      rw [minImapLoop, hB]; simp [hr]
    | true =>
      have hmax := hr'.1 rfl
      obtain ⟨c', hc', k1, -⟩ := isImap_spec (H := H) g1 ganc (g3.trans hun) hH (w.imap e) hmax
      cases c' with
      | none =>
        refine ⟨some e, ?_, by simp, ?_⟩
        · rw [minImapLoop, hB]; simp [hr, hc']
        · rintro e' he'
          obtain rfl := Option.some.inj he'
          exact ⟨List.mem_cons_self, B, hW, hmax, k1.1 rfl⟩
      | some s =>
        refine later (fun k => absurd (k1.2 k.2) (by simp)) ?_
        rw [minImapLoop, hB]; simp [hr, hc']

/-- If some graph with fewer edges is a maximal I-map then so is one with just one edge less. -/
theorem exists_without (hG : G.Good) (hanc : G.mixed.Ancestral) (hm : G.mixed.Maximal {v | v ∈ G.nodes}) {P : Mixed α}
    (hs : P.Sub G.mixed) (hns : ¬ G.mixed.Sub P) (hPm : P.Maximal {v | v ∈ G.nodes})
    (hPi : P.Imap H.mixed {v | v ∈ G.nodes}) :
    ∃ e, (e ∈ G.directed ∨ ({e.1, e.2} : Finset α) ∈ G.bidirected) ∧ ∀ B, Without G e B →
      B.mixed.Maximal {v | v ∈ B.nodes} ∧ B.mixed.Imap H.mixed {v | v ∈ B.nodes} := by
  have hGadj : ∀ x y, G.mixed.Adj x y → x ∈ {v | v ∈ G.nodes} := hV hG
  by_cases hd : ∀ x y, G.mixed.dir x y → P.dir x y
  · have hbi : ∃ x y, G.mixed.bi x y ∧ ¬ P.bi x y := by
      by_contra k
      push Not at k
      exact hns ⟨hd, k, fun x y => (hs.un x y).symm, hG.proper.bi_symm⟩
    obtain ⟨p, q, h1, h2, h3⟩ := Mixed.maximal_del_bi hanc hG.proper (V := {v | v ∈ G.nodes}) (Finset.finite_toSet G.nodes)
      hGadj hm (hs.proper hG.proper) hPm (fun x y => ⟨hs.dir x y, hd x y⟩) hs.bi hs.un hbi (fun x k => hG.1.bi_ne k rfl)
    refine ⟨(p, q), Or.inr h1, fun B hB => ?_⟩
    have hd' : ∀ x y, B.mixed.dir x y ↔ G.mixed.dir x y := by
      intro x y
      change _ ∈ B.directed ↔ _ ∈ G.directed
      rw [hB.dir, Finset.erase_eq_of_notMem fun k => hG.2.dir_bi _ _ k h1]
    have hb' : ∀ x y, B.mixed.bi x y ↔ G.mixed.bi x y ∧ ¬ ((x = p ∧ y = q) ∨ (x = q ∧ y = p)) := by
      intro x y
      change _ ∈ B.bidirected ↔ _ ∈ G.bidirected ∧ _
      rw [hB.bi, Finset.mem_erase, and_comm, ne_eq, UG.pair_eq]
    rw [hB.nodes]
    refine ⟨h3 B.mixed hd' hb' hB.sub.un, Mixed.Sub.imap (N := P) ⟨fun x y k => (hd' _ _).2 (hs.dir x y k), ?_, ?_, hs.bi_symm⟩
      hB.good.proper hPi⟩
    · intro x y k
      refine (hb' _ _).2 ⟨hs.bi x y k, ?_⟩
      rintro (⟨rfl, rfl⟩ | ⟨rfl, rfl⟩)
      · exact h2 k
      · exact h2 (hs.bi_symm _ _ k)
    · intro x y; rw [hs.un, hB.sub.un]
  · push Not at hd
    obtain ⟨a, b, he, he'⟩ := hd
    refine ⟨(a, b), Or.inl he, fun B hB => ?_⟩
    have hd' : ∀ x y, B.mixed.dir x y ↔ G.mixed.dir x y ∧ ¬ (x = a ∧ y = b) := by
      intro x y
      change _ ∈ B.directed ↔ _ ∈ G.directed ∧ _
      rw [hB.dir, Finset.mem_erase, and_comm]
      refine and_congr_right fun _ => not_congr ?_
      rw [Prod.ext_iff]
    have hb' : ∀ x y, B.mixed.bi x y ↔ G.mixed.bi x y := by
      intro x y
      change _ ∈ B.bidirected ↔ _ ∈ G.bidirected
      rw [hB.bi, Finset.erase_eq_of_notMem (hG.2.dir_bi _ _ he)]
    rw [hB.nodes]
    refine ⟨Mixed.maximal_del_dir hanc hG.proper hGadj hm hd' hb' hB.sub.un,
      Mixed.Sub.imap (N := P) ⟨?_, fun x y k => (hb' _ _).2 (hs.bi x y k), ?_, hs.bi_symm⟩ hB.good.proper hPi⟩
    · intro x y k
      refine (hd' _ _).2 ⟨hs.dir x y k, ?_⟩
      rintro ⟨rfl, rfl⟩
      exact he' k
    · intro x y; rw [hs.un, hB.sub.un]

/-- The edges in the order of the loop, and each as a pair. -/
theorem edges_spec (hG : G.Good) (w : MinImapOracle α) :
    (∀ e, e ∈ (w.edges.ord () (G.directed.disjSum G.bidirected)).map (Sum.elim id w.unpack.fn) →
      e ∈ G.directed ∨ ({e.1, e.2} : Finset α) ∈ G.bidirected) ∧
    ∀ e, (e ∈ G.directed ∨ ({e.1, e.2} : Finset α) ∈ G.bidirected) →
      ∃ f ∈ (w.edges.ord () (G.directed.disjSum G.bidirected)).map (Sum.elim id w.unpack.fn),
        f = e ∨ e ∉ G.directed ∧ f ∉ G.directed ∧ ({f.1, f.2} : Finset α) = {e.1, e.2} := by
  constructor
  · intro e he
    obtain ⟨x, hx, rfl⟩ := List.mem_map.1 he
    rw [w.edges.mem_iff] at hx
    rcases x with x | x
    · exact Or.inl (Finset.inl_mem_disjSum.1 hx)
    · have hx := Finset.inr_mem_disjSum.1 hx
      obtain ⟨i, j, hij, rfl⟩ := hG.1.bi_pair x hx
      right
      rcases w.unpack.spec i j hij with k | k
      · simpa [k] using hx
      · rw [Sum.elim_inr, k, Finset.pair_comm]; exact hx
  · rintro e (k | k)
    · exact ⟨e, List.mem_map.2 ⟨.inl e, (w.edges.mem_iff _ _ _).2 (Finset.inl_mem_disjSum.2 k), rfl⟩, Or.inl rfl⟩
    · refine ⟨_, List.mem_map.2 ⟨.inr {e.1, e.2}, (w.edges.mem_iff _ _ _).2 (Finset.inr_mem_disjSum.2 k), rfl⟩, Or.inr ?_⟩
      have hp : ({(w.unpack.fn {e.1, e.2}).1, (w.unpack.fn {e.1, e.2}).2} : Finset α) = {e.1, e.2} := by
        rcases w.unpack.spec e.1 e.2 (hG.1.bi_ne k) with q | q <;> rw [q]
        exact Finset.pair_comm _ _
      have hk : ({(w.unpack.fn {e.1, e.2}).1, (w.unpack.fn {e.1, e.2}).2} : Finset α) ∈ G.bidirected := by rw [hp]; exact k
      exact ⟨fun q => hG.2.dir_bi _ _ q k, fun q => hG.2.dir_bi _ _ q hk, hp⟩

/-- What the absence of a superfluous edge means. -/
theorem verdict_iff (hG : G.Good) (hanc : G.mixed.Ancestral) (hm : G.mixed.Maximal {v | v ∈ G.nodes}) (w : MinImapOracle α)
    {c : Option (α × α)}
    (h1 : c = none → ∀ e ∈ (w.edges.ord () (G.directed.disjSum G.bidirected)).map (Sum.elim id w.unpack.fn),
      ∃ B, Without G e B ∧ ¬ (B.mixed.Maximal {v | v ∈ B.nodes} ∧ B.mixed.Imap H.mixed {v | v ∈ B.nodes}))
    (h2 : ∀ e, c = some e → e ∈ (w.edges.ord () (G.directed.disjSum G.bidirected)).map (Sum.elim id w.unpack.fn) ∧
      ∃ B, Without G e B ∧ B.mixed.Maximal {v | v ∈ B.nodes} ∧ B.mixed.Imap H.mixed {v | v ∈ B.nodes}) :
    c = none ↔ ∀ P : Mixed α, P.Sub G.mixed → P.Maximal {v | v ∈ G.nodes} → P.Imap H.mixed {v | v ∈ G.nodes} → G.mixed.Sub P := by
  obtain ⟨hl, hl'⟩ := edges_spec hG w
  constructor
  · intro hn P hs hPm hPi
    by_contra hns
    obtain ⟨e, he, hB⟩ := exists_without hG hanc hm hs hns hPm hPi
    obtain ⟨f, hf, hfe⟩ := hl' e he
    obtain ⟨B, hW, hno⟩ := h1 hn f hf
    refine hno (hB B ?_)
    rcases hfe with rfl | ⟨k1, k2, k3⟩
    · exact hW
    · refine ⟨hW.good, hW.nodes, hW.un, ?_, ?_⟩
      · rw [hW.dir, Finset.erase_eq_of_notMem k1, Finset.erase_eq_of_notMem k2]
      · rw [hW.bi, k3]
  · intro hall
    by_contra hc'
    obtain ⟨e, he⟩ := Option.ne_none_iff_exists'.1 hc'
    obtain ⟨k1, B, k2, k3, k4⟩ := h2 e he
    exact k2.not_sub (hl e k1) (hall _ k2.sub (k2.nodes ▸ k3) (k2.nodes ▸ k4))

theorem isMinimalImap_spec (hG : G.Good) (hanc : G.mixed.Ancestral) (hun : G.undirected = ∅) (hH : H.Good)
    (hm : G.mixed.Maximal {v | v ∈ G.nodes}) (w : MinImapOracle α) (certify : Bool) :
    ∃ c : Option (α × α), (¬ G.mixed.Imap H.mixed {v | v ∈ G.nodes} → isMinimalImap w certify true G H = some (.ok (.tuple false none))) ∧
      (G.mixed.Imap H.mixed {v | v ∈ G.nodes} → isMinimalImap w certify true G H =
        some (.ok (if certify then .tuple c.isNone c else .bool c.isNone))) ∧
      (c = none ↔ ∀ P : Mixed α, P.Sub G.mixed → P.Maximal {v | v ∈ G.nodes} →
        P.Imap H.mixed {v | v ∈ G.nodes} → G.mixed.Sub P) ∧
      ∀ e, c = some e → (e ∈ G.directed ∨ ({e.1, e.2} : Finset α) ∈ G.bidirected) ∧
        ∃ B, Without G e B ∧ B.mixed.Maximal {v | v ∈ B.nodes} ∧ B.mixed.Imap H.mixed {v | v ∈ B.nodes} := by
  obtain ⟨hl, -⟩ := edges_spec hG w
  obtain ⟨c, hc, h1, h2⟩ := minImapLoop_spec hG hanc hun hH w certify _ hl
  obtain ⟨r, hr, hr', -⟩ := isImap_spec hG hanc hun hH w.self hm
  refine ⟨c, ?_, ?_, verdict_iff hG hanc hm w h1 h2, fun e he => ⟨hl e (h2 e he).1, (h2 e he).2⟩⟩
  · intro hn
    cases r with
    | none => exact absurd (hr'.1 rfl) hn
    | some s => simp [isMinimalImap, hr]
  · intro hi
    obtain rfl := hr'.2 hi
    simp [isMinimalImap, hr, hc]

end Model.AG
