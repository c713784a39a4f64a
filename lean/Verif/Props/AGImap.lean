import Verif.Proof.AGImap
import Verif.Props.AGEquiv

/-! # C103 – C106: `is_imap` and `is_minimal_imap` of `AncestralGraph` -/

namespace Props

open Model Model.AG Relation Spec

universe u
variable {α : Type u} [DecidableEq α]

/-- All separation statements that `g.msep` affirms are affirmed by `h.msep`. -/
def Affirmed (o o' : SepOracle α) (G H : AG α) : Prop := ∀ X Y Z : Finset α, X ⊆ G.nodes → Y ⊆ G.nodes → Z ⊆ G.nodes →
  Disjoint X Y → Disjoint X Z → Disjoint Y Z → G.msep o X Y Z = some true → H.msep o' X Y Z = some true

theorem affirmed_iff {G H : AG α} (hG : G.Good) (hH : H.Good) (o o' : SepOracle α) :
    Affirmed o o' G H ↔ G.mixed.Imap H.mixed {v | v ∈ G.nodes} := by
  have hd : ∀ {K : AG α} (hK : K.Good) (o : SepOracle α) (A B C : Finset α), Disjoint A C →
      (K.msep o A B C = some true ↔ K.mixed.MSep (A : Set α) B C) := by
    intro K hK o A B C hAC
    obtain ⟨q, hq, hq'⟩ := msep_decides hK o A B C hAC
    rw [hq, ← hq']; simp
  constructor
  · intro h
    refine imap_finset fun X Y Z hX hY hZ h1 h2 h3 hs => ?_
    rw [← hd hH o' X Y Z h2]
    exact h X Y Z hX hY hZ h1 h2 h3 ((hd hG o X Y Z h2).2 hs)
  · intro h X Y Z hX hY hZ h1 h2 h3 hs
    rw [hd hH o' X Y Z h2]
    exact h X Y Z (fun x hx => hX hx) (fun x hx => hY hx) (fun x hx => hZ hx) (Finset.disjoint_coe.2 h1)
      (Finset.disjoint_coe.2 h2) (Finset.disjoint_coe.2 h3) ((hd hG o X Y Z h2).1 hs)

/-! ## C103 -/

/-- C103. For an ancestral graph `g` without undirected edges, `g.is_imap(h, certify=True)` raises if `g` is not maximal.
Otherwise it terminates; the answer is `True` iff every separation statement that `msep` affirms in `g` is affirmed in
`h`; and a certificate `(i, j, S)` comes with the answer `False`, and is a statement that `msep` affirms in `g` and denies
in `h`. -/
theorem C103_is_imap (w : ImapOracle α) (G H : AG α) (hG : Reachable G) (hH : Reachable H) (ha : G.mixed.Ancestral)
    (hu : G.undirected = ∅) (o o' : SepOracle α) :
    (¬ G.mixed.Maximal {v | v ∈ G.nodes} → isImap w G H = some (.error .plain)) ∧
    (G.mixed.Maximal {v | v ∈ G.nodes} → ∃ b c, isImap w G H = some (.ok (b, c)) ∧ (b = true ↔ Affirmed o o' G H) ∧
      (b = true ↔ c = none) ∧ ∀ i j S, c = some (i, j, S) → i ∈ G.nodes ∧ j ∈ G.nodes ∧ i ≠ j ∧ S ⊆ G.nodes ∧
        G.msep o {i} {j} S = some true ∧ H.msep o' {i} {j} S = some false) := by
  refine ⟨isImap_error hG.good ha w, fun hm => ?_⟩
  obtain ⟨c, h1, h2, h3⟩ := isImap_spec hG.good ha hu hH.good w hm
  refine ⟨_, c, h1, ?_, by cases c <;> simp, fun i j S hc => ?_⟩
  · rw [affirmed_iff hG.good hH.good, ← h2]; cases c <;> simp
  · obtain ⟨k1, k2, k3, k4, k5, k6, k7⟩ := h3 i j S hc
    obtain ⟨q, hq, hq'⟩ := msep_decides hG.good o {i} {j} S (by simpa using k5)
    obtain ⟨r, hr, hr'⟩ := msep_decides hH.good o' {i} {j} S (by simpa using k5)
    simp only [Finset.coe_singleton] at hq' hr'
    refine ⟨k1, k2, k3, k4, by rw [hq, hq'.2 k6], ?_⟩
    rw [hr]
    cases r
    · rfl
    · exact absurd (hr'.1 rfl) k7

/-! ## C104 -/

namespace Sample

/-- `0 − 1 − 2`. -/
def line3 : AG (Fin 3) := _root_.Sample.mixed ∅ ∅ {{0, 1}, {1, 2}}

theorem line3_good : line3.Good := _root_.Sample.mixed_good (by decide) (by decide) (by decide) (by decide) (by decide)

theorem line3_reachable : Reachable line3 :=
  _root_.Sample.mixed_reachable line3_good _root_.Sample.order ∅ {(0, 1), (1, 2)} rfl (by decide)

theorem line3_into (x y : Fin 3) : ¬ line3.mixed.Into x y := by
  rintro (h | h) <;> simp [AG.mixed, line3, _root_.Sample.mixed] at h

theorem line3_path (x y : Fin 3) : ¬ Path line3.mixed.dir x y := by
  intro h
  obtain ⟨c, hc, -⟩ := TransGen.head'_iff.1 h
  exact line3_into _ _ (Or.inl hc)

theorem line3_ancestral : line3.mixed.Ancestral :=
  ⟨fun _ h => line3_path _ _ h, fun _ _ _ h => line3_path _ _ h, fun _ _ _ _ h => line3_into _ _ h⟩

theorem line3_maximal : line3.mixed.Maximal {v | v ∈ line3.nodes} := by
  rw [line3_good.maximal_iff]
  rintro i - j - - - ⟨v, w, h1, -⟩
  exact line3_into _ _ h1

end Sample

/-- C104 is violated: for the maximal ancestral graph `0 − 1 − 2`, `g.is_imap(g)` is `False`, whatever the iteration
orders. -/
theorem C104_violated : ∃ G : AG (Fin 3), Reachable G ∧ G.mixed.Ancestral ∧ G.mixed.Maximal {v | v ∈ G.nodes} ∧
    ∀ w, ∃ c, isImap w G G = some (.ok (false, c)) := by
  refine ⟨Sample.line3, Sample.line3_reachable, Sample.line3_ancestral, Sample.line3_maximal, fun w => ?_⟩
  obtain ⟨l, c, h1, h2, h3, -⟩ := isImap_run Sample.line3_good Sample.line3_ancestral Sample.line3_good w
    Sample.line3_maximal
  obtain ⟨l', hl, hl1, hl2⟩ := pairwiseMarkov_spec Sample.line3_good w.nodes w.anc
  obtain rfl : l = l' := by rw [h2] at hl; exact Option.some.inj hl
  have hc : c ≠ none := by
    intro hc
    have hall := h3.1 hc
    have hadj : ∀ u v, [u, v] <:+: [(0 : Fin 3), 1, 2] ∨ [u, v] <:+: [(2 : Fin 3), 1, 0] → Sample.line3.mixed.Adj u v := by
      decide
    obtain ⟨S, hS⟩ := hl1 0 (by decide) 2 (by decide) (by decide) (by decide)
    have hemp : ∀ i j, (i, j, S) ∈ l → ∀ x, x ∉ (S : Set (Fin 3)) := by
      intro i j hm x hx
      rcases ((hl2 i j S hm).2.2.2.2.1 x).1 hx with k | k
      · exact Sample.line3_path _ _ k
      · exact Sample.line3_path _ _ k.1
    rcases hS with hS | hS
    · refine hall _ hS 0 rfl 2 rfl [0, 1, 2] ⟨rfl, rfl, by decide, fun u v h => hadj u v (Or.inl h), ?_⟩
      exact fun u v w _ => ⟨fun h => absurd h.1 (Sample.line3_into _ _), fun _ => hemp _ _ hS _⟩
    · refine hall _ hS 2 rfl 0 rfl [2, 1, 0] ⟨rfl, rfl, by decide, fun u v h => hadj u v (Or.inr h), ?_⟩
      exact fun u v w _ => ⟨fun h => absurd h.1 (Sample.line3_into _ _), fun _ => hemp _ _ hS _⟩
  cases c with
  | none => exact absurd rfl hc
  | some s => exact ⟨_, h1⟩

/-- What holds of C104: without undirected edges `g.is_imap(g)` is `True` for every maximal ancestral graph. Missing:
undirected edges, where the code is wrong. -/
theorem C104_is_imap_self_partial (w : ImapOracle α) (G : AG α) (hG : Reachable G) (ha : G.mixed.Ancestral)
    (hm : G.mixed.Maximal {v | v ∈ G.nodes}) (hu : G.undirected = ∅) : isImap w G G = some (.ok (true, none)) := by
  obtain ⟨c, h1, h2, -⟩ := isImap_spec hG.good ha hu hG.good w hm
  obtain rfl := h2.2 fun _ _ _ _ _ _ _ _ _ h => h
  exact h1

/-! ## C105 -/

/-- C105. For a maximal ancestral graph `g` without undirected edges, `g.is_minimal_imap(h, certify=True)` terminates. The
answer is `True` iff `g` is an I-map of `h` and no maximal graph that has some of the directed and bidirected edges of
`g`, but not all, is an I-map of `h`. A certificate `(i, j)` is an edge of `g` such that the graph without this edge is
a maximal I-map of `h`. -/
theorem C105_is_minimal_imap (w : MinImapOracle α) (G H : AG α) (hG : Reachable G) (hH : Reachable H)
    (ha : G.mixed.Ancestral) (hm : G.mixed.Maximal {v | v ∈ G.nodes}) (hu : G.undirected = ∅) :
    ∃ b c, isMinimalImap w true true G H = some (.ok (.tuple b c)) ∧
      (b = true ↔ G.mixed.Imap H.mixed {v | v ∈ G.nodes} ∧ ∀ P : Mixed α, P.Sub G.mixed → ¬ G.mixed.Sub P →
        P.Maximal {v | v ∈ G.nodes} → ¬ P.Imap H.mixed {v | v ∈ G.nodes}) ∧
      ∀ e, c = some e → b = false ∧ G.mixed.Imap H.mixed {v | v ∈ G.nodes} ∧
        (G.mixed.dir e.1 e.2 ∨ G.mixed.bi e.1 e.2) ∧ ∃ P : Mixed α, P.Maximal {v | v ∈ G.nodes} ∧
        P.Imap H.mixed {v | v ∈ G.nodes} ∧ (∀ x y, P.dir x y ↔ G.mixed.dir x y ∧ (x, y) ≠ e) ∧
        (∀ x y, P.bi x y ↔ G.mixed.bi x y ∧ (x, y) ≠ e ∧ (y, x) ≠ e) ∧ ∀ x y, ¬ P.un x y := by
  obtain ⟨c, h1, h2, h3, h4⟩ := isMinimalImap_spec hG.good ha hu hH.good hm w true
  by_cases hi : G.mixed.Imap H.mixed {v | v ∈ G.nodes}
  · refine ⟨_, c, h2 hi, ?_, ?_⟩
    · have : c.isNone = true ↔ c = none := by cases c <;> simp
      rw [this, h3]
      exact ⟨fun k => ⟨hi, fun P p1 p2 p3 p4 => p2 (k P p1 p3 p4)⟩,
        fun k P p1 p2 p3 => by_contra fun n => k.2 P p1 n p2 p3⟩
    · rintro e rfl
      obtain ⟨k1, B, k2, k3, k4⟩ := h4 e rfl
      refine ⟨rfl, hi, k1, B.mixed, k2.nodes ▸ k3, k2.nodes ▸ k4, ?_, ?_, ?_⟩
      · intro x y
        change _ ∈ B.directed ↔ _ ∈ G.directed ∧ _
        rw [k2.dir, Finset.mem_erase, and_comm]
      · intro x y
        change _ ∈ B.bidirected ↔ _ ∈ G.bidirected ∧ _
        rw [k2.bi, Finset.mem_erase, and_comm, ne_eq, UG.pair_eq, not_or, ne_eq, ne_eq, Prod.ext_iff, Prod.ext_iff,
          and_comm (a := (y, x).1 = e.1)]
      · intro x y k
        have : _ ∈ B.undirected := k
        rw [k2.un, hu] at this; simp at this
  · exact ⟨_, none, h1 hi, ⟨fun k => absurd k (by simp), fun k => absurd k.1 hi⟩, by simp⟩

/-! ## C106 -/

namespace Sample

/-- Two nodes without edge, and `0 → 1`. -/
def none2 : AG (Fin 2) := _root_.Sample.mixed ∅ ∅ ∅
def arc2 : AG (Fin 2) := _root_.Sample.mixed {(0, 1)} ∅ ∅

theorem none2_good : none2.Good := _root_.Sample.mixed_good (by decide) (by decide) (by decide) (by decide) (by decide)
theorem arc2_good : arc2.Good := _root_.Sample.mixed_good (by decide) (by decide) (by decide) (by decide) (by decide)
theorem none2_reachable : Reachable none2 := _root_.Sample.mixed_reachable none2_good _root_.Sample.order ∅ ∅ rfl rfl
theorem arc2_reachable : Reachable arc2 := _root_.Sample.mixed_reachable arc2_good _root_.Sample.order ∅ ∅ rfl rfl
theorem none2_ancestral : none2.mixed.Ancestral :=
  _root_.Sample.mixed_ancestral ∅ (by decide) (by decide) (by decide) (by decide)
theorem arc2_ancestral : arc2.mixed.Ancestral :=
  _root_.Sample.mixed_ancestral {(0, 1)} (by decide) (by decide) (by decide) (by decide)
theorem none2_maximal : none2.mixed.Maximal {v | v ∈ none2.nodes} :=
  _root_.Sample.mixed_maximal none2_good ∅ ∅ (by decide) (by decide) (by decide) (by decide) (by decide)
theorem arc2_maximal : arc2.mixed.Maximal {v | v ∈ arc2.nodes} :=
  _root_.Sample.mixed_maximal arc2_good {(0, 1)} ∅ (by decide) (by decide) (by decide) (by decide) (by decide)

theorem none2_sep (X Y Z : Set (Fin 2)) (h : Disjoint X Y) : none2.mixed.MSep X Y Z := by
  intro a ha b hb l hl
  match l, hl with
  | [], hl => simpa using hl.head
  | [x], hl =>
    have h1 := hl.head; have h2 := hl.last
    simp at h1 h2
    exact Set.disjoint_left.1 h ha (h1 ▸ h2 ▸ hb)
  | x :: y :: l, hl =>
    have := hl.adj x y ⟨[], l, rfl⟩
    revert this
    clear * -
    revert x y
    decide

theorem arc2_not_imap : ¬ none2.mixed.Imap arc2.mixed {v | v ∈ none2.nodes} := by
  intro h
  have := h {0} {1} ∅ (by intro x _; simp [none2, _root_.Sample.mixed]) (by intro x _; simp [none2, _root_.Sample.mixed])
    (by simp) (by simp) (by simp) (by simp) (none2_sep _ _ _ (by simp))
  refine this 0 rfl 1 rfl [0, 1] ⟨rfl, rfl, by decide, ?_, ?_⟩
  · intro u v hi
    have e := hi.eq_of_length rfl
    simp at e
    obtain ⟨rfl, rfl⟩ := e
    decide
  · intro u v w hi
    have := hi.length_le
    simp at this

theorem none2_imap : arc2.mixed.Imap none2.mixed {v | v ∈ arc2.nodes} := fun _ _ _ _ _ _ h _ _ _ => none2_sep _ _ _ h

end Sample

/-- C106 is violated: the graph with nodes `0`, `1` and no edge is not an I-map of `0 → 1`, yet `g.is_minimal_imap(h)`
counts as true in a condition, because it is the pair `(False, None)`. -/
theorem C106_violated : ∃ G H : AG (Fin 2), Reachable G ∧ Reachable H ∧ G.mixed.Ancestral ∧ H.mixed.Ancestral ∧
    G.mixed.Maximal {v | v ∈ G.nodes} ∧ H.mixed.Maximal {v | v ∈ H.nodes} ∧ G.undirected = ∅ ∧
    ¬ G.mixed.Imap H.mixed {v | v ∈ G.nodes} ∧
    ∀ w, ∃ r, isMinimalImap w false true G H = some (.ok r) ∧ r.truthy = true := by
  refine ⟨Sample.none2, Sample.arc2, Sample.none2_reachable, Sample.arc2_reachable, Sample.none2_ancestral,
    Sample.arc2_ancestral, Sample.none2_maximal, Sample.arc2_maximal, rfl, Sample.arc2_not_imap, fun w => ?_⟩
  obtain ⟨c, h1, -⟩ := isMinimalImap_spec Sample.none2_good Sample.none2_ancestral rfl Sample.arc2_good Sample.none2_maximal
    w false
  exact ⟨_, h1 Sample.arc2_not_imap, rfl⟩

/-- What holds of C106: if `g` is an I-map of `h`, then `g.is_minimal_imap(h)` is a boolean, `True` iff no maximal graph
that has some of the edges of `g`, but not all, is an I-map of `h`. Missing: graphs that are no I-maps, where the code is
wrong. -/
theorem C106_is_minimal_imap_partial (w : MinImapOracle α) (G H : AG α) (hG : Reachable G) (hH : Reachable H)
    (ha : G.mixed.Ancestral) (hm : G.mixed.Maximal {v | v ∈ G.nodes}) (hu : G.undirected = ∅)
    (hi : G.mixed.Imap H.mixed {v | v ∈ G.nodes}) :
    ∃ b, isMinimalImap w false true G H = some (.ok (.bool b)) ∧
      (b = true ↔ ∀ P : Mixed α, P.Sub G.mixed → ¬ G.mixed.Sub P → P.Maximal {v | v ∈ G.nodes} →
        ¬ P.Imap H.mixed {v | v ∈ G.nodes}) := by
  obtain ⟨c, -, h2, h3, -⟩ := isMinimalImap_spec hG.good ha hu hH.good hm w false
  refine ⟨_, h2 hi, ?_⟩
  have : c.isNone = true ↔ c = none := by cases c <;> simp
  rw [this, h3]
  exact ⟨fun k P p1 p2 p3 p4 => p2 (k P p1 p3 p4), fun k P p1 p2 p3 => by_contra fun n => k P p1 n p2 p3⟩

/-! ## Examples -/

/-- `0 → 1 ↔ 2 ↔ 3`, `1 → 3` and the same with `2 → 3` instead of `2 ↔ 3` meet the hypotheses of C103 – C106. -/
example : Reachable Sample.discCol ∧ Reachable Sample.discNon ∧ Sample.discCol.mixed.Ancestral ∧
    Sample.discCol.mixed.Maximal {v | v ∈ Sample.discCol.nodes} ∧ Sample.discCol.undirected = ∅ :=
  ⟨Sample.discCol_reachable, Sample.discNon_reachable, Sample.discCol_ancestral, Sample.discCol_maximal, rfl⟩

/-- `0 → 1` is an I-map of the graph without edges, and not a minimal one; the graph without edges is no I-map of it. -/
example : Sample.arc2.mixed.Imap Sample.none2.mixed {v | v ∈ Sample.arc2.nodes} ∧
    (∃ P : Mixed (Fin 2), P.Sub Sample.arc2.mixed ∧ ¬ Sample.arc2.mixed.Sub P ∧ P.Maximal {v | v ∈ Sample.arc2.nodes} ∧
      P.Imap Sample.none2.mixed {v | v ∈ Sample.arc2.nodes}) ∧
    ¬ Sample.none2.mixed.Imap Sample.arc2.mixed {v | v ∈ Sample.none2.nodes} := by
  refine ⟨Sample.none2_imap, ⟨Sample.none2.mixed, ⟨by decide, by decide, by decide, by decide⟩, fun h => ?_,
    Sample.none2_maximal, fun _ _ _ _ _ _ _ _ _ h => h⟩, Sample.arc2_not_imap⟩
  exact absurd (h.dir 0 1 (by decide)) (by decide)

/-- The hypothesis of the first part of C103 is met as well. -/
example : Reachable Sample.nonMax ∧ Sample.nonMax.mixed.Ancestral ∧ Sample.nonMax.undirected = ∅ ∧
    ¬ Sample.nonMax.mixed.Maximal {v | v ∈ Sample.nonMax.nodes} := by
  refine ⟨Sample.nonMax_reachable, Sample.nonMax_ancestral, rfl, fun h => ?_⟩
  rw [Sample.nonMax_good.maximal_iff] at h
  exact h 2 (by decide) 3 (by decide) (by decide) Sample.nonMax_adj Sample.nonMax_ind

end Props
