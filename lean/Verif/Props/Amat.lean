import Verif.Props.Complete
import Verif.Proof.Amat

/-! # C29, C30, C71: adjacency matrices -/

namespace Props

open Model Spec
universe u
variable {α : Type u} [DecidableEq α]

/-- C29, entries. For a node list with every node once, `to_amat(node_list)` returns the list and a matrix of the right
size whose entry `[a, b]` is 1 iff `(node_list[a], node_list[b])` is an arc and 0 otherwise. A label missing from the list
raises `KeyError`. -/
theorem C29_to_amat [LinearOrder α] (G : DAG α) (hG : G.Valid) (o : SetOrder Unit (α × α)) (x : α) (l : List α)
    (hn : (x :: l).Nodup) :
    ((∀ v, v ∈ x :: l ↔ v ∈ G.nodes) → ∃ A, G.toAmat o (some (x :: l)) = .ok (A, x :: l) ∧ A.n = (x :: l).length ∧
      ∀ a b i j, (x :: l)[a]? = some i → (x :: l)[b]? = some j → A.entry a b = if (i, j) ∈ G.arcs then 1 else 0) ∧
    ((x :: l).length ≤ G.nodes.card → (∃ i j, (i, j) ∈ G.arcs ∧ (i ∉ x :: l ∨ j ∉ x :: l)) →
      G.toAmat o (some (x :: l)) = .error .key) := by
  constructor
  · intro hs
    obtain ⟨A, h1, h2, h3, h4⟩ := DAG.toAmat_spec (fun i j h => ⟨hG.fst_mem i j h, hG.snd_mem i j h⟩) o
      (some (x :: l)) (x :: l) rfl hn hs
    exact ⟨A, h1, h2.trans h3.symm, h4⟩
  · exact DAG.toAmat_error o x l hn

/-- C29, round trip. For a DAG on `0..n-1`, `from_amat(to_amat()[0])` succeeds and has the same nodes and arcs. -/
theorem C29_round_trip (G : DAG ℕ) (hG : G.Valid) (n : ℕ) (hn : G.nodes = Finset.range n) (o : SetOrder Unit (ℕ × ℕ))
    (ot : SetOrder (Option ℕ) ℕ) (oa : SetOrder Bool (ℕ × ℕ)) :
    ∃ A G', G.toAmat o none = .ok (A, List.range n) ∧ DAG.fromAmat ot oa A = some (G', none) ∧ G'.Valid ∧
      G'.nodes = G.nodes ∧ G'.arcs = G.arcs := by
  obtain ⟨A, h1, h2, h3, h4⟩ := DAG.toAmat_spec (fun i j h => ⟨hG.fst_mem i j h, hG.snd_mem i j h⟩) o
    none (List.range n) (by unfold DAG.orSorted; rw [hn, sort_range]) List.nodup_range (by simp [hn])
  have hA : ∀ a b, a < n → b < n → A.entry a b = if (a, b) ∈ G.arcs then 1 else 0 := by
    intro a b ha hb
    exact h4 a b a b (by simp [ha]) (by simp [hb])
  have hAn : A.n = n := by rw [h2, hn]; simp
  have hmem : ∀ a b, (a < A.n ∧ b < A.n ∧ a ≠ b ∧ A.entry a b ≠ 0) ↔ G.E a b := by
    intro a b
    unfold DAG.E
    rw [hAn]
    constructor
    · rintro ⟨ha, hb, _, h⟩
      rw [hA a b ha hb] at h
      by_contra hc
      simp [hc] at h
    · intro h
      have ha := hG.fst_mem a b h
      have hb := hG.snd_mem a b h
      rw [hn, Finset.mem_range] at ha hb
      refine ⟨ha, hb, ?_, ?_⟩
      · rintro rfl; exact hG.acyclic a (.single h)
      · rw [hA a b ha hb, if_pos h]; simp
  obtain ⟨G', g1, g2, g3, g4⟩ := DAG.fromAmat_spec ot oa A (by simpa only [hmem] using hG.acyclic)
  refine ⟨A, G', h1, g1, g2, by rw [g3, hAn, hn], ?_⟩
  ext ⟨a, b⟩
  rw [g4, hmem]; rfl

namespace Sample

/-- `0 → 1 → 2`, `0 → 2` over the natural numbers -/
def natGraph : DAG ℕ :=
  { nodes := Finset.range 3
    arcs := {(0, 1), (1, 2), (0, 2)}
    neighbors := fun v => (Finset.range 3).filter fun u => (u, v) ∈ ({(0, 1), (1, 2), (0, 2)} : Finset (ℕ × ℕ)) ∨ (v, u) ∈ ({(0, 1), (1, 2), (0, 2)} : Finset (ℕ × ℕ))
    parents := fun v => (Finset.range 3).filter fun u => (u, v) ∈ ({(0, 1), (1, 2), (0, 2)} : Finset (ℕ × ℕ))
    children := fun v => (Finset.range 3).filter fun u => (v, u) ∈ ({(0, 1), (1, 2), (0, 2)} : Finset (ℕ × ℕ)) }

theorem natGraph_lt {i j : ℕ} (h : (i, j) ∈ natGraph.arcs) : i < j ∧ j < 3 := by
  simp only [natGraph, Finset.mem_insert, Finset.mem_singleton, Prod.mk.injEq] at h
  omega

theorem natGraph_valid : natGraph.Valid := by
  have hlt : ∀ i j : ℕ, (i, j) ∈ ({(0, 1), (1, 2), (0, 2)} : Finset (ℕ × ℕ)) → i < j ∧ j < 3 := fun i j h => natGraph_lt h
  refine ⟨⟨?_, ?_, ?_, ?_, ?_⟩, ?_⟩
  · intro i j
    simp only [natGraph, Finset.mem_filter, Finset.mem_range]
    exact ⟨fun h => h.2, fun h => ⟨by have := hlt _ _ h; omega, h⟩⟩
  · intro i j
    simp only [natGraph, Finset.mem_filter, Finset.mem_range]
    exact ⟨fun h => h.2, fun h => ⟨by have := hlt _ _ h; omega, h⟩⟩
  · intro i j
    simp only [natGraph, Finset.mem_filter, Finset.mem_range]
    refine ⟨fun h => h.2, fun h => ⟨?_, h⟩⟩
    rcases h with h | h <;> have := hlt _ _ h <;> omega
  · intro i j h
    have := natGraph_lt h
    simp only [natGraph, Finset.mem_range]; omega
  · intro i j h
    have := natGraph_lt h
    simp only [natGraph, Finset.mem_range]; omega
  · intro v hv
    have : ∀ a b, Path natGraph.E a b → a < b := by
      intro a b hab
      induction hab with
      | single h => exact (natGraph_lt h).1
      | tail _ h ih => exact ih.trans (natGraph_lt h).1
    exact lt_irrefl _ (this v v hv)

end Sample

example : ∃ A G', Sample.natGraph.toAmat _root_.Sample.order none = .ok (A, [0, 1, 2]) ∧
    DAG.fromAmat _root_.Sample.order _root_.Sample.order A = some (G', none) ∧ (0, 2) ∈ G'.arcs := by
  obtain ⟨A, G', h1, h2, _, _, h5⟩ := C29_round_trip Sample.natGraph Sample.natGraph_valid 3 rfl
    _root_.Sample.order _root_.Sample.order _root_.Sample.order
  exact ⟨A, G', h1, h2, by rw [h5]; decide⟩

example : ∃ A, Sample.natGraph.toAmat _root_.Sample.order (some [2, 0, 1]) = .ok (A, [2, 0, 1]) ∧ A.entry 1 0 = 1 := by
  obtain ⟨A, h1, _, h2⟩ := (C29_to_amat Sample.natGraph Sample.natGraph_valid _root_.Sample.order 2 [0, 1] (by decide)).1
    (by intro v; simp [Sample.natGraph]; omega)
  exact ⟨A, h1, (h2 1 0 0 2 rfl rfl).trans (by decide)⟩

/-- C30 for `source_axis=0`. The matrix determines the PDAG: the round trip has the same nodes, arcs and edges. Missing:
`source_axis=1` (false, see `C30_violated`). -/
theorem C30_round_trip_partial (P : PDAG ℕ) (hP : P.Consistent) (hS : P.Simple) (n : ℕ) (hn : P.nodes = Finset.range n)
    (o : SetOrder Unit (ℕ × ℕ)) (oe : SetOrder Unit (Finset ℕ)) (up : Unpack ℕ) (ra re : SetOrder Unit (ℕ × ℕ)) :
    ∃ A, P.toAmat o oe up none true = .ok (A, List.range n) ∧ (PDAG.fromAmat ra re A true).Consistent ∧
      (PDAG.fromAmat ra re A true).nodes = P.nodes ∧ (PDAG.fromAmat ra re A true).arcs = P.arcs ∧
      (PDAG.fromAmat ra re A true).edges = P.edges := by
  obtain ⟨A, h1, h2, h3, h4⟩ := PDAG.toAmat_spec hP o oe up none true (List.range n)
    (by rw [hn]; exact (sort_range n).symm) List.nodup_range (by simp [hn])
  have hAn : A.n = n := by rw [h2, hn]; simp
  have hA : ∀ a b, a < n → b < n → (A.entry a b ≠ 0 ↔ {a, b} ∈ P.edges ∨ (a, b) ∈ P.arcs) := by
    intro a b ha hb
    rw [h4 a b a b (by simp [ha]) (by simp [hb])]
    simp only [↓reduceIte]
    by_cases h : {a, b} ∈ P.edges ∨ (a, b) ∈ P.arcs
    · simp only [if_pos h]
      exact ⟨fun _ => h, fun _ => one_ne_zero⟩
    · simp only [if_neg h]
      exact ⟨fun h' => absurd rfl h', fun h' => absurd h' h⟩
  have hne : ∀ a b, (a, b) ∈ P.arcs → a ≠ b := by
    rintro a _ h rfl; exact hS.one_arc a a h h
  have hne' : ∀ a b : ℕ, ({a, b} : Finset ℕ) ∈ P.edges → a ≠ b := by
    rintro a _ h rfl
    obtain ⟨x, y, hxy, he⟩ := hP.edge_pair _ h
    have := congrArg Finset.card he
    rw [Finset.card_pair hxy] at this
    simp at this
  obtain ⟨f1, f2, f3, f4⟩ := PDAG.fromAmat_spec ra re A
  refine ⟨A, h1, f1, by rw [f2, hAn, hn], ?_, ?_⟩
  · ext ⟨a, b⟩
    rw [f3, hAn]
    constructor
    · rintro ⟨ha, hb, _, k1, k2⟩
      rw [hA a b ha hb] at k1
      rw [← not_not (a := A.entry b a = 0), ← ne_eq, hA b a hb ha, Finset.pair_comm] at k2
      tauto
    · intro h
      have hm := hP.arc_mem a b h
      rw [hn, Finset.mem_range, Finset.mem_range] at hm
      refine ⟨hm.1, hm.2, hne a b h, (hA a b hm.1 hm.2).2 (Or.inr h), ?_⟩
      rw [← not_not (a := A.entry b a = 0), ← ne_eq, hA b a hm.2 hm.1, Finset.pair_comm]
      rintro (h' | h')
      · exact hS.no_edge a b h h'
      · exact hS.one_arc a b h h'
  · have hpair : ∀ a b : ℕ, {a, b} ∈ (PDAG.fromAmat ra re A true).edges ↔ {a, b} ∈ P.edges := by
      intro a b
      rw [f4, hAn]
      constructor
      · rintro ⟨ha, hb, _, k1, k2⟩
        rw [hA a b ha hb] at k1
        rw [hA b a hb ha, Finset.pair_comm] at k2
        rcases k1 with k1 | k1
        · exact k1
        · rcases k2 with k2 | k2
          · exact k2
          · exact absurd k2 (hS.one_arc a b k1)
      · intro h
        have hm := hP.edge_mem _ h
        have ha := hm (show a ∈ ({a, b} : Finset ℕ) by simp)
        have hb := hm (show b ∈ ({a, b} : Finset ℕ) by simp)
        rw [hn, Finset.mem_range] at ha hb
        exact ⟨ha, hb, hne' a b h, (hA a b ha hb).2 (Or.inl h), (hA b a hb ha).2 (Or.inl (by rwa [Finset.pair_comm]))⟩
    ext e
    constructor
    · intro he
      obtain ⟨a, b, _, rfl⟩ := f1.edge_pair e he
      exact (hpair a b).1 he
    · intro he
      obtain ⟨a, b, _, rfl⟩ := hP.edge_pair e he
      exact (hpair a b).2 he

namespace Sample

/-- `0 → 1 - 2` over the natural numbers -/
noncomputable def natPartly : PDAG ℕ := PDAG.new _root_.Sample.order _root_.Sample.order (Finset.range 3) {(0, 1)} {(1, 2)} ∅

theorem natPartly_spec : natPartly.Consistent ∧ natPartly.Simple ∧ natPartly.nodes = Finset.range 3 ∧
    natPartly.arcs = {(0, 1)} ∧ natPartly.edges = {{1, 2}} := by
  obtain ⟨h1, h2, h3, _, h5⟩ := PDAG.new_spec _root_.Sample.order _root_.Sample.order (Finset.range 3)
    {((0 : ℕ), (1 : ℕ))} {(1, 2)} ∅ (by simp)
  have h3' : natPartly.edges = {{1, 2}} := h3.trans (by simp)
  refine ⟨h1, ⟨?_, ?_⟩, ?_, h2, h3'⟩
  · intro i j hij
    have : natPartly.arcs = {(0, 1)} := h2
    rw [this] at hij ⊢
    simp at hij ⊢
    omega
  · intro i j hij
    have : natPartly.arcs = {(0, 1)} := h2
    rw [this] at hij
    rw [h3']
    simp at hij
    obtain ⟨rfl, rfl⟩ := hij
    decide
  · ext v
    refine (h5 v).trans ?_
    simp only [Finset.mem_range, Finset.mem_singleton, exists_eq_left]
    omega

/-- The order of unpacking that puts the smaller number first. -/
noncomputable def natUnpack : Unpack ℕ :=
  ⟨fun e => if h : e.Nonempty then (e.min' h, e.max' h) else (0, 0), by
    intro i j hij
    have h : ({i, j} : Finset ℕ).Nonempty := ⟨i, by simp⟩
    rw [dif_pos h]
    rcases Nat.lt_or_gt_of_ne hij with h' | h'
    · left
      rw [Prod.mk.injEq]
      constructor
      · refine (Finset.min'_eq_iff _ _ _).2 ⟨by simp, ?_⟩
        intro b hb; simp at hb; omega
      · refine (Finset.max'_eq_iff _ _ _).2 ⟨by simp, ?_⟩
        intro b hb; simp at hb; omega
    · right
      rw [Prod.mk.injEq]
      constructor
      · refine (Finset.min'_eq_iff _ _ _).2 ⟨by simp, ?_⟩
        intro b hb; simp at hb; omega
      · refine (Finset.max'_eq_iff _ _ _).2 ⟨by simp, ?_⟩
        intro b hb; simp at hb; omega⟩

end Sample

example : ∃ A, Sample.natPartly.toAmat _root_.Sample.order _root_.Sample.order Sample.natUnpack none true = .ok (A, [0, 1, 2]) ∧
    (PDAG.fromAmat _root_.Sample.order _root_.Sample.order A true).arcs = {(0, 1)} := by
  obtain ⟨h1, h2, h3, h4, _⟩ := Sample.natPartly_spec
  obtain ⟨A, a1, _, _, a4, _⟩ := C30_round_trip_partial Sample.natPartly h1 h2 3 h3 _root_.Sample.order
    _root_.Sample.order Sample.natUnpack _root_.Sample.order _root_.Sample.order
  exact ⟨A, a1, a4.trans h4⟩

/-- C30 is violated for `source_axis=1`: the arc `0 → 1` comes back as `1 → 0`. -/
theorem C30_violated (o : SetOrder Unit (ℕ × ℕ)) (oe : SetOrder Unit (Finset ℕ)) (up : Unpack ℕ)
    (ra re : SetOrder Unit (ℕ × ℕ)) :
    ∃ P : PDAG ℕ, P.Consistent ∧ P.Simple ∧ P.nodes = Finset.range 3 ∧ ∃ A,
      P.toAmat o oe up none false = .ok (A, [0, 1, 2]) ∧ (0, 1) ∈ P.arcs ∧
      (0, 1) ∉ (PDAG.fromAmat ra re A false).arcs ∧ (1, 0) ∈ (PDAG.fromAmat ra re A false).arcs := by
  obtain ⟨h1, h2, h3, h4, h5⟩ := Sample.natPartly_spec
  obtain ⟨A, a1, a2, a3, a4⟩ := PDAG.toAmat_spec h1 o oe up none false [0, 1, 2]
    (by rw [h3]; exact (sort_range 3).symm) (by decide) (by intro v; rw [h3]; simp; omega)
  refine ⟨Sample.natPartly, h1, h2, h3, A, a1, by rw [h4]; decide, ?_⟩
  have hAn : A.n = 3 := by rw [a2, h3]; rfl
  have e01 : A.entry 0 1 = 0 := (a4 0 1 0 1 rfl rfl).trans (by rw [h4, h5]; decide)
  have e10 : A.entry 1 0 = 1 := (a4 1 0 1 0 rfl rfl).trans (by rw [h4, h5]; decide)
  obtain ⟨-, b2, -⟩ := PDAG.new_spec ra re (Finset.range A.n)
    (((PDAG.triu A.n).filter fun a => A.entry a.1 a.2 ≠ 0 ∧ A.entry a.2 a.1 = 0).image (fun a => (a.2, a.1)) ∪
      ((PDAG.triu A.n).filter fun a => A.entry a.1 a.2 = 0 ∧ A.entry a.2 a.1 ≠ 0).image fun a => (a.2, a.1))
    ((PDAG.triu A.n).filter fun a => A.entry a.1 a.2 ≠ 0 ∧ A.entry a.2 a.1 ≠ 0) ∅
    (by rintro ⟨i, j⟩ h; exact (PDAG.mem_triu.1 (Finset.mem_filter.1 h).1).1.ne)
  have b2 : (PDAG.fromAmat ra re A false).arcs = _ := b2
  rw [b2]
  simp only [Finset.mem_union, Finset.mem_image, Finset.mem_filter, Prod.exists, Prod.mk.injEq, PDAG.mem_triu, hAn]
  constructor
  · rintro (⟨a, b, ⟨⟨h, _⟩, _⟩, rfl, rfl⟩ | ⟨a, b, ⟨⟨h, _⟩, _⟩, rfl, rfl⟩) <;> omega
  · exact Or.inr ⟨0, 1, ⟨⟨by omega, by omega⟩, e01, by rw [e10]; decide⟩, rfl, rfl⟩

/-- C71. For PDAGs with arbitrary labels, any list with every node once, and both values of `source_axis`,
`from_df(to_df(node_list, source_axis), source_axis)` has the same nodes, arcs and edges. -/
theorem C71_dataframe_round_trip [LinearOrder α] [Inhabited α] (P : PDAG α) (hP : P.Consistent) (hS : P.Simple)
    (l : List α) (hn : l.Nodup) (hs : ∀ v, v ∈ l ↔ v ∈ P.nodes) (axis0 : Bool)
    (o : SetOrder Unit (α × α)) (oe : SetOrder Unit (Finset α)) (up : Unpack α) (ra re : SetOrder Unit (α × α)) :
    ∃ A, P.toAmat o oe up (some l) axis0 = .ok (A, l) ∧ (PDAG.fromDf ra re A l axis0).Consistent ∧
      (PDAG.fromDf ra re A l axis0).nodes = P.nodes ∧ (PDAG.fromDf ra re A l axis0).arcs = P.arcs ∧
      (PDAG.fromDf ra re A l axis0).edges = P.edges := by
  obtain ⟨A, h1, h2, h3, h4⟩ := PDAG.toAmat_spec hP o oe up (some l) axis0 l rfl hn hs
  obtain ⟨f1, f2, f3⟩ := PDAG.fromDf_spec ra re A l hn (h3.trans h2.symm) axis0 _ rfl
  set e := if axis0 then A.entry else fun a b => A.entry b a with he
  have hE : ∀ a b i j, l[a]? = some i → l[b]? = some j → (e a b ≠ 0 ↔ {i, j} ∈ P.edges ∨ (i, j) ∈ P.arcs) := by
    intro a b i j hi hj
    rw [he]
    have k1 := h4 a b i j hi hj
    have k2 := h4 b a j i hj hi
    rw [Finset.pair_comm] at k2
    cases axis0 <;> simp_all <;> tauto
  have hne : ∀ i j, (i, j) ∈ P.arcs → i ≠ j := by
    rintro i _ h rfl; exact hS.one_arc i i h h
  have hne' : ∀ i j : α, ({i, j} : Finset α) ∈ P.edges → i ≠ j := by
    rintro i _ h rfl
    obtain ⟨x, y, hxy, he⟩ := hP.edge_pair _ h
    have := congrArg Finset.card he
    rw [Finset.card_pair hxy] at this
    simp at this
  have hpos : ∀ i, i ∈ P.nodes → ∃ a : ℕ, l[a]? = some i := fun i hi =>
    List.mem_iff_getElem?.1 ((hs i).2 hi)
  have hnodes : (PDAG.fromDf ra re A l axis0).nodes = P.nodes := by
    ext v; rw [f2, hs]
  have hinj : ∀ {a b : ℕ} {i j : α}, l[a]? = some i → l[b]? = some j → i ≠ j → a ≠ b := by
    rintro a _ i j hi hj hij rfl
    exact hij (Option.some.inj (hi.symm.trans hj))
  refine ⟨A, h1, f1, hnodes, ?_, ?_⟩
  · ext ⟨i, j⟩
    constructor
    · intro h
      have hm := f1.arc_mem i j h
      rw [hnodes] at hm
      obtain ⟨a, ha⟩ := hpos i hm.1
      obtain ⟨b, hb⟩ := hpos j hm.2
      obtain ⟨_, k1, k2⟩ := ((f3 a b i j ha hb).1).1 h
      rw [hE a b i j ha hb] at k1
      rw [← not_not (a := e b a = 0), ← ne_eq, hE b a j i hb ha, Finset.pair_comm] at k2
      tauto
    · intro h
      have hm := hP.arc_mem i j h
      obtain ⟨a, ha⟩ := hpos i hm.1
      obtain ⟨b, hb⟩ := hpos j hm.2
      refine ((f3 a b i j ha hb).1).2 ⟨hinj ha hb (hne i j h), (hE a b i j ha hb).2 (Or.inr h), ?_⟩
      rw [← not_not (a := e b a = 0), ← ne_eq, hE b a j i hb ha, Finset.pair_comm]
      rintro (h' | h')
      · exact hS.no_edge i j h h'
      · exact hS.one_arc i j h h'
  · have hpair : ∀ i j : α, i ∈ P.nodes → j ∈ P.nodes →
        ({i, j} ∈ (PDAG.fromDf ra re A l axis0).edges ↔ {i, j} ∈ P.edges) := by
      intro i j hi hj
      obtain ⟨a, ha⟩ := hpos i hi
      obtain ⟨b, hb⟩ := hpos j hj
      rw [(f3 a b i j ha hb).2, hE a b i j ha hb, hE b a j i hb ha, Finset.pair_comm j i]
      constructor
      · rintro ⟨_, k1, k2⟩
        rcases k1 with k1 | k1
        · exact k1
        · rcases k2 with k2 | k2
          · exact k2
          · exact absurd k2 (hS.one_arc i j k1)
      · intro h
        exact ⟨hinj ha hb (hne' i j h), Or.inl h, Or.inl h⟩
    ext e
    constructor
    · intro he
      have hm := f1.edge_mem e he
      obtain ⟨i, j, _, rfl⟩ := f1.edge_pair e he
      rw [hnodes] at hm
      exact (hpair i j (hm (by simp)) (hm (by simp))).1 he
    · intro he
      have hm := hP.edge_mem e he
      obtain ⟨i, j, _, rfl⟩ := hP.edge_pair e he
      exact (hpair i j (hm (by simp)) (hm (by simp))).2 he

/-- With the axis for which `from_amat` fails, `from_df` reads `0 → 1 - 2` back correctly. -/
example : ∃ A, Sample.natPartly.toAmat _root_.Sample.order _root_.Sample.order Sample.natUnpack (some [2, 0, 1]) false
      = .ok (A, [2, 0, 1]) ∧
    (PDAG.fromDf _root_.Sample.order _root_.Sample.order A [2, 0, 1] false).arcs = {(0, 1)} := by
  obtain ⟨h1, h2, h3, h4, _⟩ := Sample.natPartly_spec
  obtain ⟨A, a1, _, _, a4, _⟩ := C71_dataframe_round_trip Sample.natPartly h1 h2 [2, 0, 1] (by decide)
    (by intro v; rw [h3]; simp; omega) false _root_.Sample.order
    _root_.Sample.order Sample.natUnpack _root_.Sample.order _root_.Sample.order
  exact ⟨A, a1, a4.trans h4⟩

end Props
