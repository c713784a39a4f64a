import Verif.Model.GaussIv
import Verif.Proof.GaussPdf
import Verif.Proof.GaussFactor

/-! # Copies and interventional graphs of `GaussDAG` -/

namespace Model.Gauss

set_option linter.unusedSectionVars false

open Spec

variable {n : ℕ} {K : Type} [Field K] [DecidableEq K]

theorem mapM_some {α β : Type} {f : α → Option β} {g : α → β} {l : List α} (h : ∀ e ∈ l, f e = some (g e)) :
    l.mapM f = some (l.map g) := by
  induction l with
  | nil => rfl
  | cons a l ih =>
    rw [List.mapM_cons, h a List.mem_cons_self, ih fun e he => h e (List.mem_cons_of_mem _ he)]
    rfl

theorem mapM_ok {α β ε : Type} {f : α → Except ε β} {g : α → β} {l : List α} (h : ∀ e ∈ l, f e = .ok (g e)) :
    l.mapM f = .ok (l.map g) := by
  induction l with
  | nil => rfl
  | cons a l ih =>
    rw [List.mapM_cons, h a List.mem_cons_self, ih fun e he => h e (List.mem_cons_of_mem _ he)]
    rfl

/-- The entry of the matrix at two labels. -/
def entry (G : Gauss n K) (i j : ℕ) : K := if h : i < n ∧ j < n then G.weight ⟨i, h.1⟩ ⟨j, h.2⟩ else 0

theorem entry_val (G : Gauss n K) (a b : Fin n) : G.entry a.val b.val = G.weight a b := by simp [entry]

/-- The entry of an array at a label. -/
def item (b : Fin n → K) (i : ℕ) : K := if h : i < n then b ⟨i, h⟩ else 0

theorem item_val (b : Fin n → K) (a : Fin n) : item b a.val = b a := by simp [item]

namespace Plain

variable {G : Gauss n K} (h : Plain G)
include h

theorem nodes_eq : G.dag.nodes = Finset.range n := by
  ext v; rw [h.nodes, Finset.mem_range]

theorem arc_lt {i j : ℕ} (hij : (i, j) ∈ G.dag.arcs) : i < n ∧ j < n :=
  ⟨(h.nodes _).1 (h.valid.fst_mem _ _ hij), (h.nodes _).1 (h.valid.snd_mem _ _ hij)⟩

theorem order_length (on : SetOrder Unit ℕ) : (on.ord () G.dag.nodes).length = n := by
  have h1 : (on.ord () G.dag.nodes).toFinset = Finset.range n := by
    ext v; rw [List.mem_toFinset, on.mem_iff, h.nodes_eq]
  rw [← List.toFinset_card_of_nodup (on.nodup () _), h1, Finset.card_range]

theorem arcWeights_eq (oe : SetOrder Unit (ℕ × ℕ)) :
    G.arcWeights oe = .ok ((oe.ord () G.dag.arcs).map fun e => (e, G.entry e.1 e.2)) := by
  unfold arcWeights
  rw [mapM_some (g := fun e => (e, G.entry e.1 e.2))]
  rintro ⟨i, j⟩ he
  obtain ⟨hi, hj⟩ := h.arc_lt ((oe.mem_iff () _ _).1 he)
  simp [at?, hi, hj, entry]

/-- A new graph on the same set of nodes with some of the arcs. -/
theorem rebuild_spec (on : SetOrder Unit ℕ) (oa : SetOrder Bool (ℕ × ℕ)) {arcs : List ((ℕ × ℕ) × K)}
    (hk : ∀ e ∈ arcs, e.1 ∈ G.dag.arcs) (hn : (arcs.map Prod.fst).Nodup) (b v : Fin n → K) :
    ∃ H : Gauss n K, G.rebuild on oa arcs b v = some (.ok H) ∧ H.Sound ∧ H.biases = b ∧ H.variances = v ∧ H.precision = none ∧
      H.covariance = none ∧ (∀ a : Fin n, (on.ord () G.dag.nodes)[a.val]? = some (H.names a)) ∧
      (∀ c d w, ((H.names c, H.names d), w) ∈ arcs → H.weight c d = w) ∧
      (∀ c d, (∀ w, ((H.names c, H.names d), w) ∉ arcs) → H.weight c d = 0) := by
  have hl := h.order_length on
  set names : Fin n → ℕ := fun a => (on.ord () G.dag.nodes).get (a.cast hl.symm) with hnames
  have hinj : Function.Injective names := by
    intro a b hab
    have := List.nodup_iff_injective_get.1 (on.nodup () G.dag.nodes) hab
    exact Fin.ext (by simpa using congrArg Fin.val this)
  have hsurj : ∀ x, x ∈ G.dag.nodes → ∃ a, names a = x := by
    intro x hx
    obtain ⟨i, hi⟩ := List.mem_iff_get.1 ((on.mem_iff () _ _).2 hx)
    exact ⟨i.cast hl, hi⟩
  obtain ⟨H, h1, h2, h3, h4, h5, h6, h7, h8, h9⟩ := new_spec oa hinj (arcs := arcs)
    (fun e he => ⟨hsurj _ (h.valid.fst_mem _ _ (hk e he)), hsurj _ (h.valid.snd_mem _ _ (hk e he))⟩) hn b v
  have hsub : ∀ i j, (i, j) ∈ H.dag.arcs → (i, j) ∈ G.dag.arcs := by
    intro i j hij
    obtain ⟨c, rfl⟩ := (h2.range _).1 (h2.views.fst_mem _ _ hij)
    obtain ⟨d, rfl⟩ := (h2.range _).1 (h2.views.snd_mem _ _ hij)
    have hw := (h2.arcs_iff c d).1 hij
    by_contra hc
    refine hw (h9 c d fun w hm => hc ?_)
    have := hk _ hm
    rw [h3]
    exact this
  refine ⟨H, ?_, h2.sound ?_, h4, h5, h6, h7, fun a => ?_, ?_, ?_⟩
  · unfold rebuild
    rw [dif_pos hl]
    rw [show new oa (fun a => (on.ord () G.dag.nodes).get (a.cast hl.symm)) arcs b v = (H, none) from h1]
  · intro x hx
    have : ∀ y, Path H.dag.E x y → Path G.dag.E x y := by
      intro y hy
      induction hy with
      | single h' => exact .single (hsub _ _ h')
      | tail _ h' ih => exact ih.tail (hsub _ _ h')
    exact h.valid.acyclic x (this x hx)
  · rw [h3, hnames]
    simp
  · rw [h3]; exact h8
  · rw [h3]; exact h9

/-- If the set of nodes is iterated in ascending order. -/
theorem names_ascending {on : SetOrder Unit ℕ} (ha : on.ord () (Finset.range n) = List.range n) {H : Gauss n K}
    (hH : ∀ a : Fin n, (on.ord () G.dag.nodes)[a.val]? = some (H.names a)) (a : Fin n) : H.names a = a.val := by
  have := hH a
  rw [h.nodes_eq, ha] at this
  simpa [a.2] using this.symm

theorem copy_spec (on : SetOrder Unit ℕ) (oe : SetOrder Unit (ℕ × ℕ)) (oa : SetOrder Bool (ℕ × ℕ)) :
    ∃ H : Gauss n K, G.copy on oe oa = some (.ok H) ∧ H.Sound ∧ H.biases = G.biases ∧ H.variances = G.variances ∧
      H.precision = none ∧ H.covariance = none ∧ (∀ a : Fin n, (on.ord () G.dag.nodes)[a.val]? = some (H.names a)) ∧
      ∀ c d, H.weight c d = G.entry (H.names c) (H.names d) := by
  have hmem : ∀ e w, (e, w) ∈ ((oe.ord () G.dag.arcs).map fun e => (e, G.entry e.1 e.2)) ↔ e ∈ G.dag.arcs ∧ w = G.entry e.1 e.2 := by
    intro e w
    simp only [List.mem_map, Prod.mk.injEq, oe.mem_iff]
    constructor
    · rintro ⟨e', h1, rfl, rfl⟩; exact ⟨h1, rfl⟩
    · rintro ⟨h1, rfl⟩; exact ⟨e, h1, rfl, rfl⟩
  obtain ⟨H, h1, h2, h3, h4, h5, h6, h7, h8, h9⟩ := h.rebuild_spec on oa
    (arcs := (oe.ord () G.dag.arcs).map fun e => (e, G.entry e.1 e.2)) (fun e he => ((hmem e.1 e.2).1 he).1)
    (by rw [List.map_map]; simpa [Function.comp_def] using oe.nodup () _) G.biases G.variances
  refine ⟨H, ?_, h2, h3, h4, h5, h6, h7, fun c d => ?_⟩
  · unfold copy
    rw [h.arcWeights_eq]
    exact h1
  · by_cases hm : (H.names c, H.names d) ∈ G.dag.arcs
    · exact h8 c d _ ((hmem _ _).2 ⟨hm, rfl⟩)
    · rw [h9 c d fun w hw => hm ((hmem _ _).1 hw).1]
      unfold entry
      split_ifs with hlt
      · by_contra hc
        exact hm ((h.arcs _ _).2 (Ne.symm hc))
      · rfl

theorem replaced_eq (on : SetOrder Unit ℕ) (arr : Fin n → K) (iv : ℕ → Option K) :
    replaced (on.ord () G.dag.nodes) arr iv = .ok ((on.ord () G.dag.nodes).map fun v => (iv v).getD (item arr v)) := by
  unfold replaced
  rw [mapM_some (g := fun v => (iv v).getD (item arr v))]
  intro v hv
  have hv := (h.nodes v).1 ((on.mem_iff () _ _).1 hv)
  cases hiv : iv v with
  | none => simp [at?, hv, item]
  | some x => simp

theorem rebuildWith_eq (on : SetOrder Unit ℕ) (oa : SetOrder Bool (ℕ × ℕ)) (arcs : List ((ℕ × ℕ) × K)) (bias variance : ℕ → Option K) :
    ∃ b v : Fin n → K, G.rebuildWith on oa arcs bias variance = G.rebuild on oa arcs b v ∧
      ∀ (a : Fin n) x, (on.ord () G.dag.nodes)[a.val]? = some x →
        b a = (bias x).getD (item G.biases x) ∧ v a = (variance x).getD (item G.variances x) := by
  have hl := h.order_length on
  unfold rebuildWith
  rw [h.replaced_eq, h.replaced_eq]
  dsimp only
  rw [dif_pos ⟨by rw [List.length_map, hl], by rw [List.length_map, hl]⟩]
  refine ⟨_, _, rfl, fun a x hx => ?_⟩
  have hx' : (on.ord () G.dag.nodes)[a.val]'(by rw [hl]; exact a.2) = x := by
    rw [List.getElem?_eq_getElem (by rw [hl]; exact a.2)] at hx
    exact Option.some.inj hx
  simp [hx']

/-- `interventional_dag` when the set of nodes is iterated in ascending order. -/
theorem interventionalDag_spec {on : SetOrder Unit ℕ} (ha : on.ord () (Finset.range n) = List.range n)
    (oe : SetOrder Unit (ℕ × ℕ)) (oa : SetOrder Bool (ℕ × ℕ)) (iv : ℕ → Option (K × K)) :
    ∃ H : Gauss n K, G.interventionalDag on oe oa iv = some (.ok H) ∧ H.Plain ∧ H.precision = none ∧ H.covariance = none ∧
      (∀ i j : Fin n, H.weight i j = if (iv j.val).isSome then 0 else G.weight i j) ∧
      ∀ j : Fin n, (H.biases j, H.variances j) = (iv j.val).getD (G.biases j, G.variances j) := by
  unfold interventionalDag
  rw [h.arcWeights_eq]
  dsimp only
  have hmem : ∀ e w, (e, w) ∈ ((oe.ord () G.dag.arcs).map fun e => (e, G.entry e.1 e.2)).filter (fun e => (iv e.1.2).isNone) ↔
      e ∈ G.dag.arcs ∧ w = G.entry e.1 e.2 ∧ iv e.2 = none := by
    intro e w
    simp only [List.mem_filter, List.mem_map, Prod.mk.injEq, oe.mem_iff, Option.isNone_iff_eq_none]
    constructor
    · rintro ⟨⟨e', h1, rfl, rfl⟩, h2⟩; exact ⟨h1, rfl, h2⟩
    · rintro ⟨h1, rfl, h2⟩; exact ⟨⟨e, h1, rfl, rfl⟩, h2⟩
  obtain ⟨b, v, h1, h2⟩ := h.rebuildWith_eq on oa (((oe.ord () G.dag.arcs).map fun e => (e, G.entry e.1 e.2)).filter fun e =>
    (iv e.1.2).isNone) (fun v => (iv v).map Prod.fst) (fun v => (iv v).map Prod.snd)
  have hnd : ((((oe.ord () G.dag.arcs).map fun e => (e, G.entry e.1 e.2)).filter fun e => (iv e.1.2).isNone).map Prod.fst).Nodup := by
    refine List.Nodup.sublist (List.Sublist.map _ List.filter_sublist) ?_
    rw [List.map_map]; simpa [Function.comp_def] using oe.nodup () _
  obtain ⟨H, g1, g2, g3, g4, g5, g6, g7, g8, g9⟩ := h.rebuild_spec on oa (fun e he => ((hmem e.1 e.2).1 he).1) hnd b v
  have hnames := h.names_ascending ha g7
  refine ⟨H, h1.trans g1, ⟨g2, hnames⟩, g5, g6, fun i j => ?_, fun j => ?_⟩
  · rw [← G.entry_val, ← hnames i, ← hnames j]
    by_cases hiv : iv (H.names j) = none
    · rw [hiv]
      simp only [Option.isSome_none, Bool.false_eq_true, if_false]
      by_cases hm : (H.names i, H.names j) ∈ G.dag.arcs
      · exact g8 i j _ ((hmem _ _).2 ⟨hm, rfl, hiv⟩)
      · rw [g9 i j fun w hw => hm ((hmem _ _).1 hw).1, hnames i, hnames j, G.entry_val]
        by_contra hc
        rw [hnames i, hnames j] at hm
        exact hm ((h.arcs _ _).2 (Ne.symm hc))
    · rw [if_pos (Option.isSome_iff_ne_none.2 hiv)]
      exact g9 i j fun w hw => hiv ((hmem _ _).1 hw).2.2
  · obtain ⟨k1, k2⟩ := h2 j _ (g7 j)
    rw [g3, g4, k1, k2, hnames j, item_val, item_val]
    cases iv j.val <;> simp

theorem doMeansLoop_eq (op : SetOrder ℕ ℕ) (iv : ℕ → Option K) (t : List (Fin n)) (x : Fin n → K) :
    G.doMeansLoop op iv t x =
      .ok (steps id (fun j x => match iv j.val with | some c => c | none => ∑ i, G.weight i j • x i + G.biases j) t x) := by
  induction t generalizing x with
  | nil => rfl
  | cons j t ih =>
    rw [doMeansLoop, steps]
    cases hj : iv j.val with
    | some c =>
      simp only [id]
      rw [← ih]
    | none =>
      obtain ⟨ps, h1, h2, h3⟩ := h.parents_pos op j
      simp only [id]
      rw [h1]
      dsimp only
      rw [← ih, ← h.parents_sum h2 h3]
      rfl

theorem doMeans_spec (hlt : ∀ i j : Fin n, (i.val, j.val) ∈ G.dag.arcs → i < j) (op : SetOrder ℕ ℕ) (iv : ℕ → Option K) :
    ∃ m, G.doMeans op iv = .ok m ∧
      ∀ j : Fin n, m j = match iv j.val with | some c => c | none => ∑ i, G.weight i j • m i + G.biases j := by
  have hs : (List.finRange n).Pairwise (· < ·) := by
    rw [List.pairwise_iff_getElem]
    intro i j hi hj hij
    simpa using hij
  have hl : LinearExtension Set.univ (fun i j => G.weight i j ≠ 0) (List.finRange n) := by
    refine ⟨List.nodup_finRange n, by simp, fun i j hij => ?_⟩
    have hij := hlt i j ((h.arcs i j).2 hij)
    obtain ⟨p, r, hp⟩ := List.append_of_mem (List.mem_finRange i)
    have hj : j ∈ r := by
      have hj := List.mem_finRange j
      rw [hp, List.mem_append, List.mem_cons] at hj
      rcases hj with hj | hj | hj
      · rw [hp, List.pairwise_append] at hs
        exact absurd (hs.2.2 j hj i List.mem_cons_self) (not_lt.2 hij.le)
      · exact absurd hj.symm hij.ne
      · exact hj
    rw [hp]
    exact List.Sublist.trans (List.cons_sublist_cons.2 (List.singleton_sublist.2 hj)) (List.sublist_append_right _ _)
  refine ⟨_, h.doMeansLoop_eq op iv _ _, fun j => ?_⟩
  exact h.steps_solve hl (F := fun j x => match iv j.val with | some c => c | none => ∑ i, G.weight i j • x i + G.biases j)
    (fun j x y hxy => by rw [h.sum_local j x y hxy]) _ j

end Plain

end Model.Gauss
