import Verif.Props.Covered
import Verif.Proof.ChickSeq

/-! # C63, C85, C86, C87: `apply_edge_operation` and `chickering_sequence` -/

namespace Props

open Model Model.DAG Spec Relation
universe u
variable {α : Type u} [DecidableEq α]

/-- C63. If `imap` is an I-map of `g` (every separation of `imap` holds in `g`), with the same nodes and other arcs, then
`g.apply_edge_operation(imap)` raises nothing, whatever the random choices, and returns an acyclic graph that differs
from `g` by one added arc or by one covered arc that is reversed, and is closer to `imap` in `chickering_distance`. -/
theorem C63_apply_edge_operation (w : ChickOracle α) (seed : Option α) (G H : DAG α) (hG : G.Valid) (hH : H.Valid)
    (hn : G.nodes = H.nodes) (him : SubModel H.E G.E (G.nodes : Set α)) (hne : G.arcs ≠ H.arcs) :
    ∃ G' m, (applyEdgeOperation w seed G H).run = some (.ok (G', m)) ∧ G'.Valid ∧ G'.nodes = G.nodes ∧
      EdgeOperation (G.nodes : Set α) G.E G'.E ∧ chickeringDistance G' H < chickeringDistance G H := by
  obtain ⟨G', m, h1, h2, _⟩ := applyEdgeOperation_spec w seed hG hH hn him hne
  exact ⟨G', m, by rw [h1]; rfl, h2.valid, h2.nodes, h2.operation hG, h2.distance hG hH hn him⟩

/-- C85. The graph returned by `g.apply_edge_operation(imap)` lies between `g` and `imap`: `imap` is still an I-map of it,
and it is an I-map of `g`. -/
theorem C85_between (w : ChickOracle α) (seed : Option α) (G H : DAG α) (hG : G.Valid) (hH : H.Valid)
    (hn : G.nodes = H.nodes) (him : SubModel H.E G.E (G.nodes : Set α)) (hne : G.arcs ≠ H.arcs) (G' : DAG α) (m : ChickMove α)
    (h : (applyEdgeOperation w seed G H).run = some (.ok (G', m))) :
    SubModel H.E G'.E (G.nodes : Set α) ∧ SubModel G'.E G.E (G.nodes : Set α) := by
  obtain ⟨K, l, h1, h2, _⟩ := applyEdgeOperation_spec w seed hG hH hn him hne
  rw [h1] at h
  obtain ⟨rfl, rfl⟩ : K = G' ∧ l = m := by
    have : (some (Except.ok (K, l)) : Option (Except (Exn α) _)) = some (.ok (G', m)) := h
    simpa using this
  exact ⟨h2.imap, h2.above hG⟩

/-- C86. `g.chickering_sequence(imap)` on an I-map with the same nodes terminates without an exception, whatever the random
choices. The sequence starts at `g` and ends at `imap`, consecutive graphs differ by one added arc or one reversed
covered arc, all graphs are acyclic and are I-maps of `g`, `imap` is an I-map of each, one move is reported per step, and
there are at most `g.chickering_distance(imap)` steps. -/
theorem C86_chickering_sequence (w : ℕ → ChickOracle α) (G H : DAG α) (hG : G.Valid) (hH : H.Valid) (hn : G.nodes = H.nodes)
    (him : SubModel H.E G.E (G.nodes : Set α)) :
    ∃ seq moves, (chickeringSequence w G H).run = some (.ok (seq, moves)) ∧
      (∃ K rest, seq = K :: rest ∧ K.nodes = G.nodes ∧ K.arcs = G.arcs) ∧ seq.getLast? = some H ∧
      seq.IsChain (fun A B => EdgeOperation (G.nodes : Set α) A.E B.E) ∧
      (∀ K ∈ seq, K.Valid ∧ K.nodes = G.nodes ∧ SubModel K.E G.E (G.nodes : Set α) ∧ SubModel H.E K.E (G.nodes : Set α)) ∧
      seq.length = moves.length + 1 ∧ moves.length ≤ chickeringDistance G H := by
  obtain ⟨seq, moves, h1, h2⟩ := chickeringLoop_spec w hH _ 0 G [] [] le_rfl hG hn him
  refine ⟨seq, moves, ?_, h2.head, h2.last, h2.chain, h2.all, h2.count, h2.bound⟩
  rw [chickeringSequence, h1]; rfl

/-- C87. The dictionary returned with the graph describes the step: moves 4 and 7 add an arc into `sink`, move 8 adds an
arc from a parent of `sink` to a child of it, move 6 reverses a covered arc that leaves `sink` into the direction it has
in `imap`. A `seed_sink` that is not resolved and all of whose children in `imap` are resolved is the one picked. -/
theorem C87_moves (w : ChickOracle α) (seed : Option α) (G H : DAG α) (hG : G.Valid) (hH : H.Valid)
    (hn : G.nodes = H.nodes) (him : SubModel H.E G.E (G.nodes : Set α)) (hne : G.arcs ≠ H.arcs) (G' : DAG α) (m : ChickMove α)
    (h : (applyEdgeOperation w seed G H).run = some (.ok (G', m))) :
    (((m.move = 4 ∨ m.move = 7) ∧ ∃ x, ¬ Adj G.E x m.sink ∧ G'.arcs = insert (x, m.sink) G.arcs) ∨
      (m.move = 8 ∧ ∃ x z, G.E x m.sink ∧ G.E m.sink z ∧ ¬ Adj G.E x z ∧ G'.arcs = insert (x, z) G.arcs) ∨
      (m.move = 6 ∧ ∃ z, Covered G.E m.sink z ∧ H.E z m.sink ∧ G'.arcs = insert (z, m.sink) (G.arcs.erase (m.sink, z)))) ∧
    (∀ s R, seed = some s → resolvedSinks G H = some R → s ∈ G.nodes \ R → H.children s ⊆ R → m.sink = s) := by
  obtain ⟨K, l, h1, h2, h3⟩ := applyEdgeOperation_spec w seed hG hH hn him hne
  rw [h1] at h
  obtain ⟨rfl, rfl⟩ : K = G' ∧ l = m := by
    have : (some (Except.ok (K, l)) : Option (Except (Exn α) _)) = some (.ok (G', m)) := h
    simpa using this
  refine ⟨?_, h3⟩
  rcases h2.step with ⟨a, x, b, _, _, c, _⟩ | ⟨a, x, z, b, c, d, e, _⟩ | ⟨a, z, b, c, d, _⟩
  · exact Or.inl ⟨a, x, b, c⟩
  · exact Or.inr (Or.inl ⟨a, x, z, b, c, d, e⟩)
  · exact Or.inr (Or.inr ⟨a, z, b, c, d⟩)

/-! The graphs of the docstring: `0 → 1 → 2` and its I-map `2 → 0`, `2 → 1`, `1 → 0`. -/

def Sample.docImap : DAG (Fin 3) := _root_.Sample.graph {(2, 0), (2, 1), (1, 0)}

theorem Sample.docImap_valid : Sample.docImap.Valid := by
  refine ⟨_root_.Sample.graph_consistent _, ?_⟩
  intro v hv
  have h1 : ∀ a b, Sample.docImap.E a b → b < a := by decide
  have hlt : ∀ a b, Path Sample.docImap.E a b → b < a := by
    intro a b hab
    induction hab with
    | single h => exact h1 _ _ h
    | tail _ h ih => exact lt_trans (h1 _ _ h) ih
  exact lt_irrefl _ (hlt v v hv)

theorem Sample.docImap_subModel : SubModel Sample.docImap.E Sample.right.E (Sample.right.nodes : Set (Fin 3)) :=
  (subModel_of_sub (E := Sample.left.E) Sample.left_valid.acyclic Sample.docImap_valid.acyclic (by decide) _).trans
    ((sameSkelV_iff Sample.right_valid.acyclic Sample.left_valid.acyclic Finset.univ (by simp) (by simp)).1
      Sample.left_right).2

noncomputable def Sample.chick : ChickOracle (Fin 3) :=
  ⟨fun _ => _root_.Sample.order, fun _ => _root_.Sample.order, fun _ => _root_.Sample.order, _root_.Sample.order, _root_.Sample.pick⟩

example : ∃ G' m, (applyEdgeOperation Sample.chick none Sample.right Sample.docImap).run = some (.ok (G', m)) ∧
    SubModel Sample.docImap.E G'.E (Sample.right.nodes : Set (Fin 3)) := by
  obtain ⟨G', m, h, _⟩ := C63_apply_edge_operation Sample.chick none Sample.right Sample.docImap Sample.right_valid
    Sample.docImap_valid rfl Sample.docImap_subModel (by decide)
  exact ⟨G', m, h, (C85_between Sample.chick none Sample.right Sample.docImap Sample.right_valid
    Sample.docImap_valid rfl Sample.docImap_subModel (by decide) G' m h).1⟩

/-- The docstring's sequence has three steps; the bound is 4. -/
example : chickeringDistance Sample.right Sample.docImap = 4 := by decide

example : ∃ seq moves, (chickeringSequence (fun _ => Sample.chick) Sample.right Sample.docImap).run = some (.ok (seq, moves)) ∧
    moves.length ≤ 4 := by
  obtain ⟨seq, moves, h, _, _, _, _, _, hb⟩ := C86_chickering_sequence (fun _ => Sample.chick) Sample.right Sample.docImap
    Sample.right_valid Sample.docImap_valid rfl Sample.docImap_subModel
  exact ⟨seq, moves, h, hb.trans (by decide)⟩

end Props
