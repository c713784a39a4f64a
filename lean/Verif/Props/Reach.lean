import Verif.Props.Sample

/-! # C09, C10, C58: reachability queries -/

namespace Props

open Model Model.DAG Spec Relation
universe u
variable {α : Type u} [DecidableEq α]

/-- C09. `descendants_of` / `ancestors_of` terminate on every finite graph, cyclic or not, and return the
transitive closure; the set versions are unions (`descendants_of(set())` raises `TypeError`, `ancestors_of(set())`
is empty); `is_ancestor_of` decides reachability; the two are dual. `l` lists the argument set in its iteration
order. -/
theorem C09_reachability (G : DAG α) (hG : G.Consistent) (o : SetOrder (α × Finset α) α) :
    (∀ v, ∃ s, descendantsOf G o v = some s ∧ ∀ x, x ∈ s ↔ Path G.E v x) ∧
    (∀ v, ∃ s, ancestorsOf G o v = some s ∧ ∀ x, x ∈ s ↔ Path G.E x v) ∧
    (∀ l : List α, ∃ s, ancestorsOfSet G o l = some s ∧ ∀ x, x ∈ s ↔ ∃ v ∈ l, Path G.E x v) ∧
    (∀ l : List α, l ≠ [] → ∃ s, (descendantsOfSet G o l).run = some (.ok s) ∧
      ∀ x, x ∈ s ↔ ∃ v ∈ l, Path G.E v x) ∧
    (∀ a d, ∃ r, isAncestorOf G o a d = some r ∧ (r = true ↔ Path G.E a d)) ∧
    (∀ a d sa sd, ancestorsOf G o d = some sa → descendantsOf G o a = some sd → (a ∈ sa ↔ d ∈ sd)) := by
  refine ⟨descendantsOf_spec hG o, ancestorsOf_spec hG o, fun l => ?_, fun l hl => ?_, fun a d => ?_, ?_⟩
  · exact foldlM_union (P := fun v x => Path G.E x v) (ancestorsOf_spec hG o) l
  · obtain ⟨s, hs, h⟩ := foldlM_union (P := fun v x => Path G.E v x) (descendantsOf_spec hG o) l
    refine ⟨s, ?_, h⟩
    simp [descendantsOfSet, hl, hs]
  · obtain ⟨s, hs, h⟩ := descendantsOf_spec hG o a
    unfold isAncestorOf
    split_ifs with hc
    · exact ⟨true, rfl, iff_of_true rfl (.single ((hG.children_iff _ _).1 hc))⟩
    · exact ⟨decide (d ∈ s), by simp [hs], by simp [h]⟩
  · intro a d sa sd h1 h2
    obtain ⟨s1, e1, f1⟩ := ancestorsOf_spec hG o d
    obtain ⟨s2, e2, f2⟩ := descendantsOf_spec hG o a
    rw [h1] at e1; rw [h2] at e2
    simp at e1 e2; subst e1; subst e2
    rw [f1, f2]

example : ∃ s, descendantsOf Sample.triangle Sample.order 0 = some s ∧ 0 ∈ s := by
  obtain ⟨s, hs, h⟩ := (C09_reachability _ Sample.triangle_consistent Sample.order).1 0
  refine ⟨s, hs, (h 0).2 ?_⟩
  have h1 : Sample.triangle.E 0 1 := by decide
  have h2 : Sample.triangle.E 1 2 := by decide
  have h3 : Sample.triangle.E 2 0 := by decide
  exact ((TransGen.single h1).tail h2).tail h3

/-- C10. On an acyclic graph `ancestor_dict()` and `descendant_dict()` agree with the single-node queries. -/
theorem C10_dicts (G : DAG α) (hG : G.Valid) (ot : SetOrder (Option α) α) (o : SetOrder α α)
    (os : SetOrder (α × Finset α) α) :
    (∃ d, (ancestorDict G ot o).run = some (.ok d) ∧ ∀ v ∈ G.nodes, ancestorsOf G os v = some (d v)) ∧
    (∃ d, (descendantDict G ot o).run = some (.ok d) ∧ ∀ v ∈ G.nodes, descendantsOf G os v = some (d v)) := by
  constructor
  · obtain ⟨d, h, hd⟩ := ancestorDict_spec hG ot o
    refine ⟨d, h, fun v hv => ?_⟩
    obtain ⟨s, hs, hs'⟩ := ancestorsOf_spec hG.toConsistent os v
    rw [hs]; congr 1; ext x; rw [hs', hd v hv]
  · obtain ⟨d, h, hd⟩ := descendantDict_spec hG ot o
    refine ⟨d, h, fun v hv => ?_⟩
    obtain ⟨s, hs, hs'⟩ := descendantsOf_spec hG.toConsistent os v
    rw [hs]; congr 1; ext x; rw [hs', hd v hv]

example : ∃ d, (ancestorDict Sample.diamond Sample.order Sample.order).run = some (.ok d) ∧ (0 : Fin 5) ∈ d 4 := by
  obtain ⟨d, h, hd⟩ := (C10_dicts Sample.diamond Sample.diamond_valid Sample.order Sample.order Sample.order).1
  refine ⟨d, h, ?_⟩
  obtain ⟨s, hs, hs'⟩ := ancestorsOf_spec Sample.diamond_valid.toConsistent Sample.order 4
  rw [hd 4 (by decide)] at hs; simp at hs; rw [hs, hs']
  have h1 : Sample.diamond.E 0 1 := by decide
  have h2 : Sample.diamond.E 1 3 := by decide
  have h3 : Sample.diamond.E 3 4 := by decide
  exact ((TransGen.single h1).tail h2).tail h3

/-- C58. Sources, sinks and `upstream_most` of an acyclic graph. -/
theorem C58_extremal (G : DAG α) (hG : G.Valid) (o : SetOrder (α × Finset α) α) :
    (∀ v, v ∈ sources G ↔ v ∈ G.nodes ∧ ∀ u, ¬ G.E u v) ∧
    (∀ v, v ∈ sinks G ↔ v ∈ G.nodes ∧ ∀ w, ¬ G.E v w) ∧
    (G.nodes.Nonempty → (sources G).Nonempty ∧ (sinks G).Nonempty) ∧
    (∀ l : List α, ∃ s, upstreamMost G o l = some s ∧
      (∀ v, v ∈ s ↔ v ∈ l ∧ ∀ u ∈ l, ¬ Path G.E u v) ∧ (l ≠ [] → s.Nonempty)) := by
  have h1 : ∀ v, v ∈ sources G ↔ v ∈ G.nodes ∧ ∀ u, ¬ G.E u v := by
    intro v
    simp only [sources, Finset.mem_filter, Finset.card_eq_zero, Finset.eq_empty_iff_forall_notMem,
      hG.parents_iff, E]
  have h2 : ∀ v, v ∈ sinks G ↔ v ∈ G.nodes ∧ ∀ w, ¬ G.E v w := by
    intro v
    simp only [sinks, Finset.mem_filter, Finset.card_eq_zero, Finset.eq_empty_iff_forall_notMem,
      hG.children_iff, E]
  refine ⟨h1, h2, fun hne => ⟨?_, ?_⟩, fun l => ?_⟩
  · obtain ⟨v, hv, hmin⟩ := exists_minimal hG.acyclic G.nodes hne
    exact ⟨v, (h1 v).2 ⟨hv, fun u hu => hmin u (hG.fst_mem _ _ hu) (.single hu)⟩⟩
  · have hac : Acyclic (Function.swap G.E) := fun v hv => hG.acyclic v (transGen_swap.1 hv)
    obtain ⟨v, hv, hmin⟩ := exists_minimal hac G.nodes hne
    exact ⟨v, (h2 v).2 ⟨hv, fun u hu => hmin u (hG.snd_mem _ _ hu) (.single hu)⟩⟩
  · obtain ⟨s, hs, hs'⟩ := upstreamMost_spec hG.toConsistent o l
    refine ⟨s, hs, hs', fun hl => ?_⟩
    obtain ⟨v, hv, hmin⟩ := exists_minimal hG.acyclic l.toFinset (by
      rw [Finset.nonempty_iff_ne_empty]; simpa using hl)
    exact ⟨v, (hs' v).2 ⟨by simpa using hv, fun u hu => hmin u (by simpa using hu)⟩⟩

example : (0 : Fin 5) ∈ sources Sample.diamond ∧ (4 : Fin 5) ∈ sinks Sample.diamond := by
  obtain ⟨h1, h2, _⟩ := C58_extremal Sample.diamond Sample.diamond_valid Sample.order
  exact ⟨(h1 0).2 (by decide), (h2 4).2 (by decide)⟩

end Props
