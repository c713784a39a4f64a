import Verif.Spec.DiscreteInherited
import Verif.Proof.Mutators

/-! # Objects with further arcs -/

namespace Model.DiscreteDAG

open Spec

variable {α : Type} [DecidableEq α] {D D' : DiscreteDAG α}

theorem Tabled.more (hD : D.Tabled) {G : DAG α} (hG : G.Valid) (hn : G.nodes = D.dag.nodes) (ha : D.dag.arcs ⊆ G.arcs) :
    ({ D with dag := G } : DiscreteDAG α).Tabled :=
  ⟨⟨hG, fun v hv => hD.nodup v (hn ▸ hv), fun v hv u hu => ha (hD.pars_sub v (hn ▸ hv) u hu), fun v hv => hD.shape v (hn ▸ hv)⟩,
    fun v hv => hD.total v (hn ▸ hv)⟩

theorem removeArc_after (G : DAG α) (i j : α) (l : List α) :
    ∃ e, ((DAG.removeArc false G i j).andThen fun G2 => (G2, some (.cycle l))).2 = some e := by
  unfold Step.andThen
  split
  · exact ⟨_, rfl⟩
  · exact ⟨_, rfl⟩

/-- What the calls leave as it is. -/
structure Kept (D D' : DiscreteDAG α) : Prop where
  tabled : D'.Tabled
  nodes : D'.dag.nodes = D.dag.nodes
  arcs : D.dag.arcs ⊆ D'.dag.arcs
  cond : D'.cond = D.cond
  pars : D'.pars = D.pars
  alph : D'.alph = D.alph

theorem Grown.kept (hD : D.Tabled) (h : D.Grown D') : D.Kept D' := by
  induction h with
  | refl => exact ⟨hD, rfl, subset_rfl, rfl, rfl, rfl⟩
  | @addArc D₁ D₂ o i j _ hi hj hr ih =>
    rcases DAG.addArc_cases ih.tabled.valid.toConsistent o i j with ⟨h1, h2⟩ | ⟨_, l, h2⟩
    · rw [DiscreteDAG.addArc, h2] at hr
      obtain ⟨rfl, -⟩ := Prod.mk.inj (Option.some.inj hr)
      have hn : (DAG.addArcUnchecked D₁.dag i j).nodes = D₁.dag.nodes := by
        rw [DAG.addArcUnchecked_nodes, Finset.insert_eq_of_mem (Finset.mem_insert_of_mem (ih.nodes ▸ hj)),
          Finset.insert_eq_of_mem (ih.nodes ▸ hi)]
      exact ⟨ih.tabled.more ⟨DAG.addArcUnchecked_consistent ih.tabled.valid.toConsistent i j, h1⟩ hn (Finset.subset_insert _ _),
        hn.trans ih.nodes, ih.arcs.trans (Finset.subset_insert _ _), ih.cond, ih.pars, ih.alph⟩
    · rw [DiscreteDAG.addArc, h2] at hr
      obtain ⟨e, he⟩ := removeArc_after (DAG.addArcUnchecked D₁.dag i j) i j l
      have := congrArg Prod.snd (Option.some.inj hr)
      rw [he] at this
      cases this
  | @addArcsFrom D₁ D₂ o oa arcs _ ha hr ih =>
    by_cases h0 : arcs.card = 0
    · rw [DiscreteDAG.addArcsFrom, DAG.addArcsFrom, if_pos h0] at hr
      obtain ⟨rfl, -⟩ := Prod.mk.inj (Option.some.inj hr)
      exact ih
    rcases DAG.addArcsFrom_cases ih.tabled.valid.toConsistent o oa arcs h0 with ⟨h1, h2⟩ | ⟨_, l, h2⟩
    · rw [DiscreteDAG.addArcsFrom, h2] at hr
      obtain ⟨rfl, -⟩ := Prod.mk.inj (Option.some.inj hr)
      obtain ⟨g1, g2, g3⟩ := DAG.addArcsUnchecked_spec ih.tabled.valid.toConsistent (oa.ord false arcs)
      have hsub : D₁.dag.arcs ⊆ (DAG.addArcsUnchecked D₁.dag (oa.ord false arcs)).arcs := by
        rw [g2]; exact Finset.subset_union_left
      have hn : (DAG.addArcsUnchecked D₁.dag (oa.ord false arcs)).nodes = D₁.dag.nodes := by
        rw [g3, Finset.union_assoc]
        refine Finset.union_eq_left.2 fun v hv => ?_
        rw [ih.nodes]
        simp only [Finset.mem_union, List.mem_toFinset, List.mem_map, oa.mem_iff] at hv
        rcases hv with ⟨a, h, rfl⟩ | ⟨a, h, rfl⟩
        · exact (ha a h).1
        · exact (ha a h).2
      exact ⟨ih.tabled.more ⟨g1, h1⟩ hn hsub, hn.trans ih.nodes, ih.arcs.trans hsub, ih.cond, ih.pars, ih.alph⟩
    · rw [DiscreteDAG.addArcsFrom, h2] at hr
      have := congrArg Prod.snd (Option.some.inj hr)
      unfold Step.andThen at this
      dsimp only at this
      split at this <;> simp at this

theorem Kept.law (h : D.Kept D') : D'.law = D.law := by
  unfold DiscreteDAG.law
  rw [h.nodes, h.pars, h.cond]

theorem Kept.dims (h : D.Kept D') : D'.dims = D.dims := by
  funext v
  rw [DiscreteDAG.dims, DiscreteDAG.dims, h.alph]

theorem Kept.pr (h : D.Kept D') : D'.pr = D.pr := by
  funext S x
  rw [DiscreteDAG.pr, DiscreteDAG.pr, h.nodes, h.dims, h.law]

end Model.DiscreteDAG
