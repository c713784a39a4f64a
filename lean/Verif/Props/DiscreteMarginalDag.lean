import Verif.Proof.DiscreteMarginalLoop
import Verif.Props.DiscreteSample

/-! # `DiscreteDAG.get_marginal_dag` (property C136) -/

namespace Props

open Model Spec
open scoped NNReal

variable {α : Type} [DecidableEq α]

theorem marginalDag_spec {D : DiscreteDAG α} (hD : D.Proper) (o : SetOrder (Option α) α) (oa : SetOrder Bool (α × α)) {l : List α}
    (hl : l.Nodup) (hln : ∀ v ∈ l, v ∈ D.dag.nodes) :
    ∃ D', D.getMarginalDag o oa l = some (.ok (D', fun v => if v ∈ D.dag.nodes \ l.toFinset then some v else none)) ∧
      D'.Proper ∧ D'.dag.nodes = D.dag.nodes \ l.toFinset ∧ (∀ v ∈ D'.dag.nodes, D'.alph v = D.alph v) ∧
      ((∀ m ∈ l, (D.dag.children m).card ≤ 1) → ∀ M : List α, (∀ v ∈ M, v ∈ D'.dag.nodes) → ∀ x, D'.pr M x = D.pr M x) := by
  obtain ⟨D', h1, h2, -, h4, h5, h6⟩ := DiscreteDAG.marginalLoop_spec (step := fun D m => D.marginalNode o oa m) (lab := fun _ v => v)
    (fun D hD m hm => DiscreteDAG.marginalNode_step hD o oa hm) l.reverse (List.nodup_reverse.2 hl) D.dag.nodes
    (fun v hv => hln v (List.mem_reverse.1 hv)) D hD (fun v => v) (fun _ _ _ _ h => h) (by simp)
  rw [DiscreteDAG.labels_id] at h1 h4 h5 h6
  simp only [List.toFinset_reverse, Finset.image_id', List.map_id'] at h1 h4 h5 h6
  refine ⟨D', h1, h2, h4, fun v hv => h5 v (h4 ▸ hv), fun hc M hM x => h6 (fun v hv a b ha hb => ?_) M (fun v hv => h4 ▸ hM v hv) x x
    fun _ _ => rfl⟩
  exact Finset.card_le_one.1 (hc v (List.mem_reverse.1 hv)) a ((hD.valid.children_iff _ _).2 ha) b ((hD.valid.children_iff _ _).2 hb)

/-- C136. `get_marginal_dag(nodes)` raises nothing, keeps the other nodes with their labels and alphabets, and its tables are
conditional probability tables of its graph. -/
theorem C136_marginal_dag_proper {D : DiscreteDAG α} (hD : D.Proper) (o : SetOrder (Option α) α) (oa : SetOrder Bool (α × α))
    {l : List α} (hl : l.Nodup) (hln : ∀ v ∈ l, v ∈ D.dag.nodes) :
    ∃ D', D.getMarginalDag o oa l = some (.ok (D', fun v => if v ∈ D.dag.nodes \ l.toFinset then some v else none)) ∧
      D'.Proper ∧ D'.dag.nodes = D.dag.nodes \ l.toFinset ∧ ∀ v ∈ D'.dag.nodes, D'.alph v = D.alph v := by
  obtain ⟨D', h1, h2, h3, h4, -⟩ := marginalDag_spec hD o oa hl hln
  exact ⟨D', h1, h2, h3, h4⟩

/-- C136. If each node that is removed has at most one child, the distribution of the remaining nodes is kept. -/
theorem C136_marginal_dag_partial {D : DiscreteDAG α} (hD : D.Proper) (o : SetOrder (Option α) α) (oa : SetOrder Bool (α × α))
    {l : List α} (hl : l.Nodup) (hln : ∀ v ∈ l, v ∈ D.dag.nodes) (hc : ∀ m ∈ l, (D.dag.children m).card ≤ 1) :
    ∃ D' f, D.getMarginalDag o oa l = some (.ok (D', f)) ∧
      ∀ M : List α, (∀ v ∈ M, v ∈ D'.dag.nodes) → ∀ x, D'.pr M x = D.pr M x := by
  obtain ⟨D', h1, -, -, -, h5⟩ := marginalDag_spec hD o oa hl hln
  exact ⟨D', _, h1, h5 hc⟩

/-- C136. With `relabel=True` the labels move down past those of the removed nodes; if each node that is removed has at most one child,
the distribution of the remaining nodes is kept. -/
theorem C136_marginal_dag_relabel_partial {D : DiscreteDAG ℕ} (hD : D.Proper) (o : SetOrder (Option ℕ) ℕ) (oa : SetOrder Bool (ℕ × ℕ))
    {l : List ℕ} (hl : l.Nodup) (hln : ∀ v ∈ l, v ∈ D.dag.nodes) (hc : ∀ m ∈ l, (D.dag.children m).card ≤ 1) :
    ∃ D' f, D.getMarginalDagRelabel o oa l = some (.ok (D', f)) ∧ D'.Proper ∧
      (∀ v, f v = if v ∈ D.dag.nodes \ l.toFinset then some (v - (l.toFinset.filter (· < v)).card) else none) ∧
      D'.dag.nodes = (D.dag.nodes \ l.toFinset).image (fun v => v - (l.toFinset.filter (· < v)).card) ∧
      ∀ M : List ℕ, (∀ v ∈ M, v ∈ D.dag.nodes \ l.toFinset) → ∀ x,
        D'.pr (M.map fun v => v - (l.toFinset.filter (· < v)).card) x = D.pr M fun v => x (v - (l.toFinset.filter (· < v)).card) := by
  obtain ⟨D', h1, h2, -, h4, -, h6⟩ := DiscreteDAG.marginalLoop_spec (step := fun D m => D.marginalNodeRelabel o oa m)
    (lab := DiscreteDAG.shiftDown) (fun D hD m hm => DiscreteDAG.marginalNodeRelabel_step hD o oa hm) l.reverse
    (List.nodup_reverse.2 hl) D.dag.nodes (fun v hv => hln v (List.mem_reverse.1 hv)) D hD (fun v => v) (fun _ _ _ _ h => h) (by simp)
  have hlab : ∀ v ∈ D.dag.nodes \ l.toFinset,
      DiscreteDAG.labels DiscreteDAG.shiftDown l.reverse (fun v => v) v = v - (l.toFinset.filter (· < v)).card := fun v hv => by
    rw [Finset.mem_sdiff, List.mem_toFinset] at hv
    rw [DiscreteDAG.labels_shift l.reverse (List.nodup_reverse.2 hl) D.dag.nodes (fun v hv => hln v (List.mem_reverse.1 hv)) _
      (fun a _ b _ h => h) hv.1 (fun h => hv.2 (List.mem_reverse.1 h)), List.countP_reverse, List.countP_eq_length_filter]
    congr 1
    rw [← List.toFinset_card_of_nodup (hl.filter _)]
    congr 1
    ext w
    simp
  simp only [List.toFinset_reverse] at h1 h4 h6
  refine ⟨D', _, h1, h2, fun v => ?_, ?_, fun M hM x => ?_⟩
  · split_ifs with h
    · rw [hlab v h]
    · rfl
  · rw [h4]
    exact Finset.image_congr fun v hv => hlab v hv
  · rw [List.map_congr_left fun v hv => (hlab v (hM v hv)).symm]
    refine (h6 (fun v hv a b ha hb => ?_) M hM x (fun v => x (v - (l.toFinset.filter (· < v)).card)) fun v hv => ?_).trans (by simp)
    · exact Finset.card_le_one.1 (hc v (List.mem_reverse.1 hv)) a ((hD.valid.children_iff _ _).2 ha) b
        ((hD.valid.children_iff _ _).2 hb)
    · rw [hlab v (hM v hv)]

/-- C136, violated: on `1 ← 0 → 2` the children are independent once `0` has been removed. -/
theorem C136_violated : ∃ D : DiscreteDAG (Fin 3), D.Proper ∧ ∀ o oa, ∃ D' f, D.getMarginalDag o oa [0] = some (.ok (D', f)) ∧
    D.pr [1, 2] (fun _ => 0) = 7 / 16 ∧ D'.pr [1, 2] (fun _ => 0) = 25 / 64 := by
  have hP := Sample.parity_proper (arcs := {((0 : Fin 3), 1), (0, 2)}) (by decide)
  refine ⟨_, hP, fun o oa => ?_⟩
  set D := Sample.parity {((0 : Fin 3), 1), (0, 2)} with hDdef
  have hS := hP.toShaped
  obtain ⟨G, h1, h2, h3, h4⟩ := DiscreteDAG.new_ok o oa (DiscreteDAG.mArcs_acyclic (m := 0) hS) (fun a ha => DiscreteDAG.mArcs_nodes hS ha)
    (cond := D.mCond 0) (pars := D.mPars 0) (alph := D.alph) fun v hv => DiscreteDAG.mShape hS (Finset.mem_of_mem_erase hv)
  have h5 : D.marginalNode o oa 0 = some (.ok ⟨G, D.mCond 0, D.mPars 0, D.alph⟩) := (if_pos (DiscreteDAG.mOk hS 0)).trans h1
  have hp0 : D.pars 0 = [] := by decide
  have hp1 : D.pars 1 = [0] := by decide
  have hp2 : D.pars 2 = [0] := by decide
  have hn : ∀ v, v ∈ D.dag.nodes := fun v => Finset.mem_univ v
  have e1 : ((0 : Fin 3), (1 : Fin 3)) ∈ D.dag.arcs := (hP.pars_iff 1 (hn 1) 0).1 (by rw [hp1]; simp)
  have e2 : ((0 : Fin 3), (2 : Fin 3)) ∈ D.dag.arcs := (hP.pars_iff 2 (hn 2) 0).1 (by rw [hp2]; simp)
  have hk : ∀ v x, D.kern v x = Sample.noisy ((D.pars v ++ [v]).map x) := fun _ _ => rfl
  have hd : ∀ v, D.dims v = 2 := fun _ => rfl
  have hq : (fun v : Fin 3 => if v ∈ (D.dag.nodes.erase 0).toList then 0 else 0) = fun _ => 0 := by funext v; split_ifs <;> rfl
  have hev : ∀ y : Fin 3 → ℕ, (∃ v ∈ (D.dag.nodes.erase 0).toList, y v ≠ 0) → ¬ ∀ v ∈ [(1 : Fin 3), 2], y v = 0 := by
    rintro y ⟨v, hv, hne⟩ h
    have : v ≠ 0 := Finset.ne_of_mem_erase (Finset.mem_toList.1 hv)
    exact hne (h v (by fin_cases v <;> simp_all))
  have hsum : ∀ (F : (Fin 3 → ℕ) → ℝ≥0) (inst : ∀ y : Fin 3 → ℕ, Decidable (∀ v ∈ [(1 : Fin 3), 2], y v = 0)),
      sumL D.dims (D.dag.nodes.erase 0).toList (fun y => @ite _ _ (inst y) (F y) 0) (fun _ => 0) = F fun _ => 0 := fun F inst => by
    rw [sumL_fixed (x := fun _ => 0) (Finset.nodup_toList _) (fun v _ => by rw [hd]; simp) (fun y hy => if_neg (hev y hy)), hq,
      if_pos (fun _ _ => rfl)]
  refine ⟨_, _, by simp only [DiscreteDAG.getMarginalDag, List.reverse_singleton, DiscreteDAG.marginalLoop, if_pos (hn 0), h5]; rfl, ?_, ?_⟩
  · rw [DiscreteDAG.pr_erase (hn 0) (by decide)]
    refine (hsum _ _).trans ?_
    simp only [hd, Finset.sum_range_succ, Finset.sum_range_zero, DiscreteDAG.law_eq]
    change 0 + (∏ v : Fin 3, _) + (∏ v : Fin 3, _) = _
    simp only [Fin.prod_univ_three, hk, hp0, hp1, hp2]
    simp [Sample.noisy]
    norm_num
  · rw [DiscreteDAG.pr, prob_eq_sumL]
    dsimp only
    rw [h3]
    change sumL D.dims _ _ _ = _
    refine (hsum _ _).trans ?_
    rw [DiscreteDAG.law, joint]
    dsimp only
    rw [h3, show D.dag.nodes.erase 0 = {1, 2} by decide, Finset.prod_pair (by decide)]
    have m1 := DiscreteDAG.mCond_val hP e1 (y := fun _ => 0) fun u _ => by rw [hd]; simp
    have m2 := DiscreteDAG.mCond_val hP e2 (y := fun _ => 0) fun u _ => by rw [hd]; simp
    refine (congrArg₂ (· * ·) m1 m2).trans ?_
    simp only [hd, Finset.sum_range_succ, Finset.sum_range_zero, hk, hp0, hp1, hp2]
    simp [Sample.noisy]
    norm_num

example : ∃ D' f, (Sample.parity {((0 : Fin 4), 1), (1, 3), (2, 3)}).getMarginalDag Sample.order Sample.order [1, 2] = some (.ok (D', f)) ∧
    D'.pr [0, 3] (fun _ => 0) = (Sample.parity {((0 : Fin 4), 1), (1, 3), (2, 3)}).pr [0, 3] fun _ => 0 := by
  obtain ⟨D', f, h1, h2⟩ := C136_marginal_dag_partial (Sample.parity_proper (arcs := {((0 : Fin 4), 1), (1, 3), (2, 3)}) (by decide))
    Sample.order Sample.order (l := [1, 2]) (by decide) (fun v _ => Finset.mem_univ v) (by decide)
  obtain ⟨D'', h3, -, h4, -⟩ := C136_marginal_dag_proper (Sample.parity_proper (arcs := {((0 : Fin 4), 1), (1, 3), (2, 3)}) (by decide))
    Sample.order Sample.order (l := [1, 2]) (by decide) (fun v _ => Finset.mem_univ v)
  have e : D' = D'' := congrArg Prod.fst (Except.ok.inj (Option.some.inj (h1.symm.trans h3)))
  refine ⟨D', f, h1, h2 _ (fun v hv => ?_) _⟩
  rw [e, h4]
  revert v
  decide

example : ∃ D' f, (Sample.natParity {0, 1, 2, 3} {(0, 1), (1, 2), (2, 3)}).getMarginalDagRelabel Sample.order Sample.order [0, 2] =
    some (.ok (D', f)) ∧ D'.dag.nodes = {0, 1} ∧ f 3 = some 1 := by
  obtain ⟨D', f, h1, -, h2, h3, -⟩ := C136_marginal_dag_relabel_partial
    (Sample.natParity_proper (nodes := {0, 1, 2, 3}) (arcs := {(0, 1), (1, 2), (2, 3)}) (by decide))
    Sample.order Sample.order (l := [0, 2]) (by decide) (by simp [Sample.natParity, Sample.natGraph])
    (by simp only [Sample.natParity, Sample.natGraph]; decide)
  refine ⟨D', f, h1, ?_, ?_⟩
  · rw [h3]; simp only [Sample.natParity, Sample.natGraph]; decide
  · rw [h2]; simp only [Sample.natParity, Sample.natGraph]; decide

end Props
