import Verif.Proof.Loops
import Verif.Model.History
import Verif.Spec.AGViews
import Verif.Spec.CyclicViews
import Verif.Spec.DAGValues
import Verif.Spec.GaussCacheValues
import Mathlib.Data.Finset.Card

/-! # The topological sort ends on every state, also on inconsistent ones -/

namespace Model.DAG

universe u
variable {α : Type u} [DecidableEq α]

theorem mark_total (G : DAG α) (o : SetOrder (Option α) α) : ∀ (k : ℕ) (node : α) (st : SortState α),
    (G.nodes \ insert node st.anyVisited).card < k →
    Wp (markChildrenVisited G o node st) (fun st' => insert node st.anyVisited ⊆ st'.anyVisited) (fun _ => True) := by
  intro k
  induction k with
  | zero => intro node st hk; omega
  | succ k ih =>
    intro node st hk
    rw [markChildrenVisited]
    refine Wp.bind (P := fun s => insert node st.anyVisited ⊆ s.anyVisited)
      (Wp.foldlM (fun _ (s : SortState α) => insert node st.anyVisited ⊆ s.anyVisited) _ _ (Finset.Subset.refl _) ?_) (fun s hs => Wp.pure hs)
    intro _ child _ s _ hs
    by_cases hc : child ∉ G.nodes
    · rw [if_pos hc]; exact Wp.throw trivial
    rw [if_neg hc]
    by_cases hv : child ∉ s.anyVisited
    · rw [if_pos hv]
      refine (ih child s ?_).mono (fun s' h' => hs.trans ((Finset.subset_insert _ _).trans h')) (fun _ _ => trivial)
      have hm : child ∈ G.nodes \ insert node st.anyVisited := Finset.mem_sdiff.2 ⟨not_not.1 hc, fun h => hv (hs h)⟩
      have hlt : (G.nodes \ insert child s.anyVisited).card < (G.nodes \ insert node st.anyVisited).card := by
        refine Finset.card_lt_card (Finset.ssubset_iff_subset_ne.2 ⟨?_, ?_⟩)
        · exact Finset.sdiff_subset_sdiff (Finset.Subset.refl _) (hs.trans (Finset.subset_insert _ _))
        · intro h
          rw [← h] at hm
          simp at hm
      omega
    rw [if_neg hv]
    split
    · exact Wp.throw trivial
    · exact Wp.pure hs

theorem topologicalSort_total (G : DAG α) (o : SetOrder (Option α) α) : ∃ r, (topologicalSort G o).run = some r := by
  have : Wp (topologicalSort G o) (fun _ => True) (fun _ => True) := by
    rw [topologicalSort]
    refine Wp.bind (P := fun _ => True) (Wp.foldlM (fun _ _ => True) _ _ trivial ?_) (fun s _ => Wp.pure trivial)
    intro _ v _ s _ _
    split
    · exact (mark_total G o _ v s (Nat.lt_succ_self _)).mono (fun _ _ => trivial) (fun _ _ => trivial)
    · exact Wp.pure trivial
  rcases this with ⟨b, h, _⟩ | ⟨e, h, _⟩
  · exact ⟨_, h⟩
  · exact ⟨_, h⟩

theorem addArc_total (check : Bool) (o : SetOrder (Option α) α) (G : DAG α) (i j : α) : ∃ r, addArc check o G i j = some r := by
  unfold addArc
  obtain ⟨r, hr⟩ := topologicalSort_total (addArcUnchecked G i j) o
  cases check
  · exact ⟨_, rfl⟩
  · simp only [hr, if_true]
    rcases r with e | l
    · cases e <;> exact ⟨_, rfl⟩
    · exact ⟨_, rfl⟩

theorem addArcsFrom_total (check : Bool) (o : SetOrder (Option α) α) (oa : SetOrder Bool (α × α)) (G : DAG α) (arcs : Finset (α × α)) :
    ∃ r, addArcsFrom check o oa G arcs = some r := by
  unfold addArcsFrom
  obtain ⟨r, hr⟩ := topologicalSort_total (addArcsUnchecked G (oa.ord false arcs)) o
  by_cases h0 : arcs.card = 0
  · rw [if_pos h0]; exact ⟨_, rfl⟩
  rw [if_neg h0]
  cases check
  · exact ⟨_, rfl⟩
  · simp only [hr, if_true]
    rcases r with e | l
    · cases e <;> exact ⟨_, rfl⟩
    · exact ⟨_, rfl⟩

theorem exec_total (w : Orders α) (G : DAG α) (op : Op α) : ∃ r, op.exec w G = some r := by
  cases op with
  | addArc c i j => exact addArc_total _ _ _ _ _
  | addArcsFrom c a => exact addArcsFrom_total _ _ _ _ _
  | reverseArc ig c i j =>
    simp only [Op.exec, reverseArc]
    rcases removeArc ig G i j with ⟨G1, _ | e⟩
    · exact addArc_total _ _ _ _ _
    · exact ⟨_, rfl⟩
  | _ => exact ⟨_, rfl⟩

end Model.DAG

namespace Model.AG

universe u
variable {α : Type u} [DecidableEq α]

theorem mark_total (A : AG α) (o os : SetOrder (Option α) α) : ∀ (k : ℕ) (node : α) (st : DAG.SortState α),
    (A.nodes \ insert node st.anyVisited).card < k →
    Wp (markChildrenVisited A o os node st) (fun st' => insert node st.anyVisited ⊆ st'.anyVisited) (fun _ => True) := by
  intro k
  induction k with
  | zero => intro node st hk; omega
  | succ k ih =>
    intro node st hk
    rw [markChildrenVisited]
    refine Wp.bind (P := fun s => insert node st.anyVisited ⊆ s.anyVisited)
      (Wp.foldlM (fun _ (s : DAG.SortState α) => insert node st.anyVisited ⊆ s.anyVisited) _ _ (Finset.Subset.refl _) ?_)
      (fun s hs => Wp.bind (P := fun s => insert node st.anyVisited ⊆ s.anyVisited)
        (Wp.foldlM (fun _ (s : DAG.SortState α) => insert node st.anyVisited ⊆ s.anyVisited) _ _ hs ?_) (fun s hs => Wp.pure hs))
    · intro _ child _ s _ hs
      by_cases hc : child ∉ A.nodes
      · rw [if_pos hc]; exact Wp.throw trivial
      rw [if_neg hc]
      by_cases hv : child ∉ s.anyVisited
      · rw [if_pos hv]
        refine (ih child s ?_).mono (fun s' h' => hs.trans ((Finset.subset_insert _ _).trans h')) (fun _ _ => trivial)
        have hm : child ∈ A.nodes \ insert node st.anyVisited := Finset.mem_sdiff.2 ⟨not_not.1 hc, fun h => hv (hs h)⟩
        have hlt : (A.nodes \ insert child s.anyVisited).card < (A.nodes \ insert node st.anyVisited).card := by
          refine Finset.card_lt_card (Finset.ssubset_iff_subset_ne.2 ⟨?_, ?_⟩)
          · exact Finset.sdiff_subset_sdiff (Finset.Subset.refl _) (hs.trans (Finset.subset_insert _ _))
          · intro h
            rw [← h] at hm
            simp at hm
        omega
      rw [if_neg hv]
      split
      · exact Wp.throw trivial
      · exact Wp.pure hs
    · intro _ b _ s _ hs
      split
      · exact Wp.throw trivial
      · split
        · exact Wp.throw trivial
        · exact Wp.pure hs

theorem topologicalSort_total (A : AG α) (o os : SetOrder (Option α) α) : ∃ r, (topologicalSort A o os).run = some r := by
  have : Wp (topologicalSort A o os) (fun _ => True) (fun _ => True) := by
    rw [topologicalSort]
    refine Wp.bind (P := fun _ => True) (Wp.foldlM (fun _ _ => True) _ _ trivial ?_) (fun s _ => Wp.pure trivial)
    intro _ v _ s _ _
    split
    · exact (mark_total A o os _ v s (Nat.lt_succ_self _)).mono (fun _ _ => trivial) (fun _ _ => trivial)
    · exact Wp.pure trivial
  rcases this with ⟨b, h, _⟩ | ⟨e, h, _⟩
  · exact ⟨_, h⟩
  · exact ⟨_, h⟩

theorem addDirected_total (o os : SetOrder (Option α) α) (A : AG α) (i j : α) : ∃ r, addDirected o os A i j = some r := by
  unfold addDirected
  rcases A.addDirectedRaw i j with ⟨A1, _ | e⟩
  · obtain ⟨r, hr⟩ := topologicalSort_total A1 o os
    simp only [hr]
    rcases r with e | l
    · cases e <;> exact ⟨_, rfl⟩
    · exact ⟨_, rfl⟩
  · exact ⟨_, rfl⟩

theorem exec_total (w : Orders α) (A : AG α) (op : Op α) : ∃ r, op.exec w A = some r := by
  cases op with
  | addDirected i j => exact addDirected_total _ _ _ _ _
  | _ => exact ⟨_, rfl⟩

end Model.AG

namespace Model.CyclicG

universe u
variable {α : Type u} [DecidableEq α]

theorem exec_total (w : AG.Orders α) (C : CyclicG α) (op : Op α) : ∃ r, op.exec w C = some r := by
  cases op with
  | addDirected i j =>
    obtain ⟨r, hr⟩ := AG.addDirected_total w.children w.spouses C.base i j
    exact ⟨_, by simp only [Op.exec, addDirected, hr, Option.map_some]; rfl⟩
  | _ => exact ⟨_, rfl⟩

end Model.CyclicG

namespace Model.DHeap

universe u
variable {α : Type u} [DecidableEq α]

omit [DecidableEq α] in
theorem onVal_total (k : ℕ) (P : List (DAG α)) (f : DAG α → Option (List (DAG α) × Out α)) (hf : ∀ G, ∃ r, f G = some r) :
    ∃ r, onVal k P f = some r := by
  unfold onVal
  split
  · exact hf _
  · exact ⟨_, rfl⟩

theorem stepV_total (w : DAG.Orders α) (P : List (DAG α)) (a : Act α) : ∃ r, stepV w P a = some r := by
  cases a with
  | new nodes arcs =>
    obtain ⟨⟨G, e⟩, h⟩ := DAG.addArcsFrom_total true w.top w.arcs (DAG.empty nodes) arcs
    have h' : DAG.new w.top w.arcs nodes arcs = some (G, e) := h
    simp only [stepV, h']
    cases e <;> exact ⟨_, rfl⟩
  | call k op =>
    refine onVal_total _ _ _ fun G => ?_
    obtain ⟨⟨G', e⟩, h⟩ := DAG.exec_total w G op
    simp only [h]
    exact ⟨_, rfl⟩
  | change => exact ⟨_, rfl⟩
  | changeArcs => exact ⟨_, rfl⟩
  | _ => exact onVal_total _ _ _ fun _ => ⟨_, rfl⟩

theorem runV_total (l : List (DAG.Orders α × Act α)) : ∀ P, ∃ r, runV l P = some r := by
  induction l with
  | nil => exact fun P => ⟨_, rfl⟩
  | cons x l ih =>
    intro P
    obtain ⟨⟨P', y⟩, h⟩ := stepV_total x.1 P x.2
    obtain ⟨r, hr⟩ := ih P'
    refine ⟨(r.1, y :: r.2), ?_⟩
    obtain ⟨w, a⟩ := x
    simp only [runV]
    rw [h]
    simp only [hr, Option.map_some]

end Model.DHeap

namespace Model.GaussCache

variable {n : ℕ}

theorem change_total (w : Orders) (G : Gauss n ℝ) (c : Change) : ∃ r, c.run w G = some r := by
  cases c with
  | setArcWeight i j v =>
    simp only [Change.run, Gauss.setArcWeight]
    by_cases hv : v = 0
    · rw [if_pos hv]; exact ⟨_, rfl⟩
    rw [if_neg hv]
    rcases G.ix i with _ | a
    · exact ⟨_, rfl⟩
    rcases G.ix j with _ | b
    · exact ⟨_, rfl⟩
    dsimp only
    split
    · obtain ⟨r, hr⟩ := DAG.topologicalSort_total (DAG.addArcUnchecked G.dag i j) w.top
      rw [hr]
      rcases r with e | l
      · cases e <;> first | exact ⟨_, rfl⟩ | skip
        dsimp only
        split <;> exact ⟨_, rfl⟩
      · exact ⟨_, rfl⟩
    · exact ⟨_, rfl⟩
  | _ => exact ⟨_, rfl⟩

theorem Val.exec_total (w : Orders) (V : Val n) (op : Op n) : ∃ r, V.exec w op = some r := by
  cases op with
  | array m => exact ⟨_, rfl⟩
  | write x m => exact ⟨_, rfl⟩
  | new names arcs b v =>
    simp only [Val.exec]
    rcases Gauss.new w.arcs names arcs b v with ⟨G, _ | e⟩ <;> exact ⟨_, rfl⟩
  | change k c =>
    simp only [Val.exec]
    rcases V.objs[k]? with _ | G
    · exact ⟨_, rfl⟩
    obtain ⟨⟨G1, e⟩, h⟩ := change_total w G c
    simp only [h]
    cases e <;> exact ⟨_, rfl⟩
  | read k c =>
    simp only [Val.exec]
    rcases V.objs[k]? with _ | G
    · exact ⟨_, rfl⟩
    rcases h : c.run G with e | ⟨m, G1⟩ <;> simp only [h] <;> exact ⟨_, rfl⟩
  | correlation k =>
    simp only [Val.exec]
    rcases V.objs[k]? with _ | G
    · exact ⟨_, rfl⟩
    rcases h : G.readCorrelation with e | ⟨m, G1⟩ <;> simp only [h] <;> exact ⟨_, rfl⟩
  | partialCorrelation k i j cond =>
    simp only [Val.exec]
    rcases V.objs[k]? with _ | G <;> exact ⟨_, rfl⟩

theorem Val.run_total (w : Orders) (l : List (Op n)) : ∀ V : Val n, ∃ r, V.run w l = some r := by
  induction l with
  | nil => exact fun V => ⟨_, rfl⟩
  | cons op l ih =>
    intro V
    obtain ⟨r, h⟩ := Val.exec_total w V op
    obtain ⟨s, hs⟩ := ih r.1
    exact ⟨(s.1, r.2 :: s.2), by simp [Val.run, h, hs]⟩

end Model.GaussCache
