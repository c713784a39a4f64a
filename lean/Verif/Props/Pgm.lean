import Verif.Proof.Pgm
import Verif.Props.Sample
import Verif.Spec.DiscreteSample

/-! # `to_pgm` and `from_pgm` (properties C208 and C209) -/

namespace Props

set_option linter.unusedSectionVars false
open Model Spec DiscreteDAG
open scoped NNReal

variable {α β : Type} [DecidableEq α] [DecidableEq β]

/-- C208. `to_pgm()` returns a network with the nodes and arcs of the graph (renamed by `lab`) and a table for each node, of the right shape
and with its parents as evidence. The distribution is the same. -/
theorem C208_to_pgm {D : DiscreteDAG α} (h : D.Shaped) (hK : ∀ v ∈ D.dag.nodes, 0 < D.dims v) {lab : α → β}
    (hinj : Set.InjOn lab D.dag.nodes) (on : SetOrder Unit α) {card : β → ℕ} (hcard : ∀ v ∈ D.dag.nodes, card (lab v) = D.dims v) :
    ∃ M, D.toPgm on lab = .ok M ∧ (∀ b, b ∈ M.nodes ↔ ∃ v ∈ D.dag.nodes, lab v = b) ∧
      (∀ u v, u ∈ D.dag.nodes → v ∈ D.dag.nodes → ((lab u, lab v) ∈ M.arcs ↔ (u, v) ∈ D.dag.arcs)) ∧ PgmFits M card ∧
      ∀ x : β → ℕ, (∀ v ∈ D.dag.nodes, x (lab v) < D.dims v) → pgmLaw M x = D.law (x ∘ lab) := by
  obtain ⟨M, m1, m2, m3, m4, -, m5⟩ := toPgm_spec h hK hinj on hcard
  refine ⟨M, m1, fun b => by rw [m2, Finset.mem_image], fun u v hu hv => ?_, m4, m5⟩
  rw [m3, Finset.mem_image]
  constructor
  · rintro ⟨⟨a, b⟩, hab, e⟩
    rw [Prod.mk.injEq] at e
    obtain rfl := hinj (h.valid.fst_mem _ _ hab) hu e.1
    obtain rfl := hinj (h.valid.snd_mem _ _ hab) hv e.2
    exact hab
  · exact fun huv => ⟨(u, v), huv, rfl⟩

/-- C209 (partial: only if `get_parents` lists the parents of each node in the order of the evidence of its table). For a network with a fitting
table for each node, `from_pgm` returns a `DiscreteDAG` on the numbers of the nodes in `node_order` with the same arcs, alphabets
`0, 1, …` and the same distribution. -/
theorem C209_from_pgm_partial {M : Pgm β} {card : β → ℕ} {on : SetOrder Unit β} {op : SetOrder β β} (h : PgmFits M card)
    (hord : ∀ v ∈ M.nodes, ∀ ev t, M.cpd v = some (ev, t) → op.ord v (M.nodes.filter fun u => (u, v) ∈ M.arcs) = ev)
    (o : SetOrder (Option ℕ) ℕ) (oa : SetOrder Bool (ℕ × ℕ)) :
    ∃ D order, fromPgm M on op o oa = some (.ok (D, order)) ∧ order.Nodup ∧ (∀ v, v ∈ order ↔ v ∈ M.nodes) ∧
      D.Shaped ∧ D.Counting ∧ D.dag.nodes = Finset.range order.length ∧
      (∀ u v, u ∈ M.nodes → v ∈ M.nodes → ((order.idxOf u, order.idxOf v) ∈ D.dag.arcs ↔ (u, v) ∈ M.arcs)) ∧
      (∀ v ∈ M.nodes, D.dims (order.idxOf v) = card v) ∧
      ∀ x : β → ℕ, ∀ y : ℕ → ℕ, (∀ v ∈ M.nodes, y (order.idxOf v) = x v) → D.law y = pgmLaw M x := by
  obtain ⟨D, d1, d2, d3, d4, d5, d6⟩ := fromPgm_spec (on := on) h hord o oa
  have hd : ∀ v ∈ M.nodes, D.dims ((on.ord () M.nodes).idxOf v) = card v := fun v hv => by
    rw [dims, d5 v hv]; simp
  refine ⟨D, _, d1, on.nodup _ _, fun v => on.mem_iff _ _ _, d2, fun i hi => ?_, d3, d4, hd, d6⟩
  rw [d3, Finset.mem_range] at hi
  have hv := (on.mem_iff () M.nodes _).1 (List.getElem_mem hi)
  have e := (on.nodup () M.nodes).idxOf_getElem i hi
  have h1 := d5 _ hv
  have h2 := hd _ hv
  rw [e] at h1 h2
  rw [h1, h2]
  rfl

/-- C209: the round trip, if `get_parents` lists the parents as in `node2parents`. -/
theorem C209_round_trip_partial {D : DiscreteDAG α} (h : D.Shaped) (hK : ∀ v ∈ D.dag.nodes, 0 < D.dims v) (on on' : SetOrder Unit α)
    {op : SetOrder α α} (hord : ∀ v ∈ D.dag.nodes, op.ord v (D.dag.nodes.filter fun u => (u, v) ∈ D.dag.arcs) = D.pars v)
    (o : SetOrder (Option ℕ) ℕ) (oa : SetOrder Bool (ℕ × ℕ)) :
    ∃ M D' order, D.toPgm on id = .ok M ∧ fromPgm M on' op o oa = some (.ok (D', order)) ∧ order.Nodup ∧
      (∀ v, v ∈ order ↔ v ∈ D.dag.nodes) ∧ D'.Shaped ∧
      (∀ u v, u ∈ D.dag.nodes → v ∈ D.dag.nodes → ((order.idxOf u, order.idxOf v) ∈ D'.dag.arcs ↔ (u, v) ∈ D.dag.arcs)) ∧
      ∀ y : ℕ → ℕ, (∀ v ∈ D.dag.nodes, y (order.idxOf v) < D.dims v) → D'.law y = D.law (y ∘ order.idxOf) := by
  obtain ⟨M, m1, m2, m3, m4, m5, m6⟩ := toPgm_spec (lab := id) h hK Function.injective_id.injOn on (card := D.dims) fun _ _ => rfl
  rw [Finset.image_id] at m2
  have m3' : M.arcs = D.dag.arcs := by rw [m3]; simp
  obtain ⟨D', order, d1, d2, d3, d4, -, -, d5, -, d6⟩ := C209_from_pgm_partial (on := on') (op := op) m4 (fun v hv ev t e => by
    rw [m2] at hv
    obtain ⟨t', e', -⟩ := m5 v hv
    rw [id, e, List.map_id] at e'
    rw [m2, m3', hord v hv]
    cases e'; rfl) o oa
  rw [m2] at d3 d5 d6
  refine ⟨M, D', order, m1, d1, d2, d3, d4, fun u v hu hv => by rw [d5 u v hu hv, m3'], fun y hy => ?_⟩
  rw [d6 (y ∘ order.idxOf) y fun _ _ => rfl, m6 _ hy]
  rfl

/-- The network as `from_pgm` reads it: the axes of the tables belong to the parents in the order of `get_parents`. -/
def reread (M : Pgm β) (op : SetOrder β β) : Pgm β :=
  { M with cpd := fun v => (M.cpd v).map fun c => (op.ord v (M.nodes.filter fun u => (u, v) ∈ M.arcs), c.2) }

theorem fromPgm_reread (M : Pgm β) (on : SetOrder Unit β) (op : SetOrder β β) (o : SetOrder (Option ℕ) ℕ) (oa : SetOrder Bool (ℕ × ℕ)) :
    fromPgm (reread M op) on op o oa = fromPgm M on op o oa := by
  have h1 : ∀ v, (reread M op).cpd v = none ↔ M.cpd v = none := fun v => by simp [reread]
  have h2 : ∀ i : ℕ, (((on.ord () M.nodes)[i]?.bind (reread M op).cpd).map Prod.snd) = (((on.ord () M.nodes)[i]?.bind M.cpd).map Prod.snd) := by
    intro i
    cases (on.ord () M.nodes)[i]? with
    | none => rfl
    | some v =>
      simp only [Option.bind_some, reread]
      cases M.cpd v <;> rfl
  have e1 : (reread M op).nodes = M.nodes := rfl
  have e2 : (reread M op).arcs = M.arcs := rfl
  unfold fromPgm
  simp only [e1, e2, h1, h2]

/-- C209: if all variables have equally many states, `from_pgm` always returns, with the distribution in which the axes of each table belong
to the parents in the order of `get_parents`. -/
theorem C209_reread {M : Pgm β} {card : β → ℕ} {on : SetOrder Unit β} {op : SetOrder β β} (h : PgmFits M card)
    (hcard : ∀ u ∈ M.nodes, ∀ v ∈ M.nodes, card u = card v) (o : SetOrder (Option ℕ) ℕ) (oa : SetOrder Bool (ℕ × ℕ)) :
    ∃ D, fromPgm M on op o oa = some (.ok (D, on.ord () M.nodes)) ∧
      ∀ x : β → ℕ, ∀ y : ℕ → ℕ, (∀ v ∈ M.nodes, y ((on.ord () M.nodes).idxOf v) = x v) → D.law y = pgmLaw (reread M op) x := by
  have hp : PgmFits (reread M op) card := by
    refine ⟨h.fst_mem, h.snd_mem, h.acyclic, fun v hv => ?_⟩
    obtain ⟨ev, t, h1, h2, h3, h4⟩ := h.table v hv
    refine ⟨_, t, by simp only [reread, h1]; rfl, op.nodup _ _, fun u => ?_, ?_⟩
    · rw [op.mem_iff, Finset.mem_filter]
      exact ⟨fun hu => hu.2, fun hu => ⟨h.fst_mem _ hu, hu⟩⟩
    · rw [h4, List.map_cons, List.map_cons]
      congr 1
      apply List.ext_getElem
      · rw [List.length_map, List.length_map]
        exact ((List.perm_ext_iff_of_nodup h2 (op.nodup _ _)).2 fun u => by
          rw [op.mem_iff, Finset.mem_filter, h3]
          exact ⟨fun hu => ⟨h.fst_mem _ hu, hu⟩, fun hu => hu.2⟩).length_eq
      · intro i h5 h6
        rw [List.getElem_map, List.getElem_map]
        refine hcard _ (h.fst_mem _ ((h3 _).1 (List.getElem_mem _))) _ ?_
        exact (Finset.mem_filter.1 ((op.mem_iff _ _ _).1 (List.getElem_mem _))).1
  obtain ⟨D, d1, -, -, -, -, d6⟩ := fromPgm_spec (on := on) (op := op) hp (fun v hv ev t e => by
    simp only [reread, Option.map_eq_some_iff] at e
    obtain ⟨c, -, e⟩ := e
    rw [Prod.mk.injEq] at e
    exact e.1) o oa
  rw [fromPgm_reread] at d1
  exact ⟨D, d1, d6⟩

namespace PgmSample

/-- 0 → 2 ← 1, all variables binary. Nodes 0 and 1 are fair coins, node 2 has the value of node 0. -/
noncomputable def model : DiscreteDAG (Fin 3) where
  dag := _root_.Sample.graph {(0, 2), (1, 2)}
  cond v := if v = 2 then ⟨[2, 2, 2], fun i => if i.getD 2 0 = i.getD 0 0 then 1 else 0⟩ else ⟨[2], fun _ => 1 / 2⟩
  pars v := if v = 2 then [0, 1] else []
  alph _ := [0, 1]

theorem dims_two (v : Fin 3) : model.dims v = 2 := rfl

theorem shaped : model.Shaped := by
  refine ⟨_root_.Sample.graph_valid (by decide), ?_, ?_, ?_⟩
  · intro v _; fin_cases v <;> decide
  · intro v _ u
    change u ∈ (if v = 2 then [0, 1] else []) ↔ (u, v) ∈ ({(0, 2), (1, 2)} : Finset (Fin 3 × Fin 3))
    revert u v; decide
  · intro v _; fin_cases v <;> rfl

/-- Orders in which the parents come increasing or decreasing. -/
def order (up : Bool) : SetOrder (Fin 3) (Fin 3) :=
  ⟨fun _ s => (if up then List.finRange 3 else (List.finRange 3).reverse).filter (· ∈ s),
    fun _ _ => List.Nodup.filter _ (by cases up <;> decide), fun _ s v => by cases up <;> simp⟩

end PgmSample

open PgmSample in
example (on on' o oa) : ∃ M D' order, model.toPgm on id = .ok M ∧ fromPgm M on' (PgmSample.order true) o oa = some (.ok (D', order)) ∧
    order.Nodup ∧ (∀ v, v ∈ order ↔ v ∈ model.dag.nodes) ∧ D'.Shaped ∧
      (∀ u v, u ∈ model.dag.nodes → v ∈ model.dag.nodes → ((order.idxOf u, order.idxOf v) ∈ D'.dag.arcs ↔ (u, v) ∈ model.dag.arcs)) ∧
      ∀ y : ℕ → ℕ, (∀ v ∈ model.dag.nodes, y (order.idxOf v) < model.dims v) → D'.law y = model.law (y ∘ order.idxOf) :=
  C209_round_trip_partial shaped (fun _ _ => by rw [dims_two]; decide) on on' (by
    have : ∀ v : Fin 3, (PgmSample.order true).ord v (Finset.univ.filter fun u => (u, v) ∈ ({(0, 2), (1, 2)} : Finset (Fin 3 × Fin 3))) =
      if v = 2 then [0, 1] else [] := by decide
    exact fun v _ => this v) o oa

open PgmSample in
/-- C209 is violated. For the sample network and a network whose predecessors of 2 come in the other order (`networkx` lists them in the order in
which the arcs, a set, were added), the round trip makes node 2 a copy of node 1: the assignment 0, 1, 0 has probability 1/4 before and
0 after. -/
theorem C209_violated (on on' : SetOrder Unit (Fin 3)) (o : SetOrder (Option ℕ) ℕ) (oa : SetOrder Bool (ℕ × ℕ)) :
    ∃ M D' ord, model.toPgm on id = .ok M ∧ fromPgm M on' (PgmSample.order false) o oa = some (.ok (D', ord)) ∧
      ∀ y : ℕ → ℕ, y (ord.idxOf 0) = 0 → y (ord.idxOf 1) = 1 → y (ord.idxOf 2) = 0 →
        model.law (y ∘ ord.idxOf) = 1 / 4 ∧ pgmLaw M (y ∘ ord.idxOf) = 1 / 4 ∧ D'.law y = 0 := by
  obtain ⟨M, m1, m2, m3, m4, m5, m6⟩ := toPgm_spec (D := model) (lab := id) shaped (fun _ _ => by rw [dims_two]; decide)
    Function.injective_id.injOn on (card := fun _ => 2) fun _ _ => rfl
  obtain ⟨D', d1, d2⟩ := C209_reread (on := on') (op := PgmSample.order false) m4 (fun _ _ _ _ => rfl) o oa
  refine ⟨M, D', _, m1, d1, fun y y0 y1 y2 => ?_⟩
  have hn : model.dag.nodes = {0, 1, 2} := by decide
  have hM : M.nodes = {0, 1, 2} := by rw [m2, Finset.image_id, hn]
  have hr : ∀ v : Fin 3, y ((on'.ord () M.nodes).idxOf v) < 2 := by
    intro v; fin_cases v
    · exact y0 ▸ (by decide)
    · exact y1 ▸ (by decide)
    · exact y2 ▸ (by decide)
  have hlaw : model.law (y ∘ fun v => (on'.ord () M.nodes).idxOf v) = 1 / 4 := by
    rw [law, joint, hn, Finset.prod_insert (by decide), Finset.prod_insert (by decide), Finset.prod_singleton]
    have c0 : model.cond 0 = ⟨[2], fun _ => 1 / 2⟩ := rfl
    have c1 : model.cond 1 = ⟨[2], fun _ => 1 / 2⟩ := rfl
    have c2 : model.cond 2 = ⟨[2, 2, 2], fun i => if i.getD 2 0 = i.getD 0 0 then 1 else 0⟩ := rfl
    have p2 : model.pars 2 = [0, 1] := rfl
    rw [c0, c1, c2, p2]
    simp only [List.cons_append, List.nil_append, List.map_cons, List.map_nil, Function.comp, y0, y1, y2, List.getD_cons_zero,
      List.getD_cons_succ, if_true]
    norm_num
  refine ⟨hlaw, ?_, ?_⟩
  · rw [m6 _ fun v _ => hr v]; exact hlaw
  · rw [d2 (fun v => y ((on'.ord () M.nodes).idxOf v)) y fun _ _ => rfl, pgmLaw]
    refine Finset.prod_eq_zero (i := 2) (by rw [show (reread M _).nodes = M.nodes from rfl, hM]; decide) ?_
    obtain ⟨t, t1, t2⟩ := m5 2 (by rw [hn]; decide)
    have hp : (PgmSample.order false).ord 2 (M.nodes.filter fun u => (u, 2) ∈ M.arcs) = [1, 0] := by
      have e : M.arcs = {(0, 2), (1, 2)} := by
        rw [m3]
        change ({(0, 2), (1, 2)} : Finset (Fin 3 × Fin 3)).image _ = _
        decide
      rw [e, hM]; decide
    have t1' : M.cpd 2 = some ([0, 1], t) := t1
    have e := t2 ![1, 0, 0] (by intro u _; rw [dims_two]; fin_cases u <;> decide)
    simp only [reread, t1', Option.map_some, hp, List.map_cons, List.map_nil, y0, y1, y2]
    have e1 : ((2 : Fin 3) :: model.pars 2).map ![1, 0, 0] = [0, 1, 0] := rfl
    have e2 : (model.pars 2 ++ [2]).map ![1, 0, 0] = [1, 0, 0] := rfl
    rw [e1, e2] at e
    rw [e]
    have c2 : model.cond 2 = ⟨[2, 2, 2], fun i => if i.getD 2 0 = i.getD 0 0 then 1 else 0⟩ := rfl
    rw [c2]
    rfl

end Props
