import Verif.Proof.DiscreteLearn
import Verif.Props.DiscreteSample

/-! # `DiscreteDAG.fit` with a classifier, and `predict_from_parents` (properties C210 and C211) -/

namespace Props

open Model Spec
open scoped NNReal

variable {N n : ℕ}

/-- C210. `fit(dag, data, node_alphabets=..., method="random_forest")`, for alphabets `0..k-1` that contain the data: the tables are
conditional probability tables for the graph. A node without parents has the relative frequencies of its values, a constant column gives
its value probability one, and any other table has the predictions of the classifier trained on the columns of the parents. -/
theorem C210_fit_learned_partial (o ot : SetOrder (Option ℕ) ℕ) (oa : SetOrder Bool (ℕ × ℕ)) (op : SetOrder ℕ ℕ)
    (oz : SetOrder ℕ (List ℕ)) {train : Trainer N} (htr : Trains train) {G : DAG ℕ} (hG : G.Valid) (hn : ∀ v ∈ G.nodes, v < n) (hN : N ≠ 0)
    (data : Fin N → ℕ → ℕ) {k : ℕ → ℕ} (hd : ∀ j, ∀ v ∈ G.nodes, data j v < k v) :
    ∃ D, (fitLearned o ot oa op oz train G n data (some fun v => (List.range (k v)).map fun i : ℕ => (i : ℤ))).run = some (.ok D) ∧
      D.Proper ∧ D.dag.nodes = G.nodes ∧ D.dag.arcs = G.arcs ∧ (∀ v ∈ G.nodes, D.dims v = k v) ∧
      ∀ v ∈ G.nodes, ∀ y : ℕ → ℕ, (∀ u ∈ G.nodes, y u < k u) →
        ((∀ u, (u, v) ∉ G.arcs) →
          (D.cond v).val ((D.pars v ++ [v]).map y) = ((Finset.univ.filter fun j => data j v = y v).card : ℝ≥0) / N) ∧
        ((∃ u, (u, v) ∈ G.arcs) → ∀ c, (∀ j, data j v = c) → (D.cond v).val ((D.pars v ++ [v]).map y) = if y v = c then 1 else 0) ∧
        ((∃ u, (u, v) ∈ G.arcs) → (∃ i j, data i v ≠ data j v) →
          ∃ m, train (fun j => (D.pars v).map (data j)) (fun j => data j v) = .ok m ∧
            (D.cond v).val ((D.pars v ++ [v]).map y) = m.prob ((D.pars v).map fun p => (y p : ℤ)) (y v)) := by
  obtain ⟨D, h1, h2, h3, h4, h5, h6⟩ := fitLearned_ok o ot oa op oz htr (data := data) hG hn hN
    (alphabets := some fun v => (List.range (k v)).map fun i : ℕ => (i : ℤ)) rfl hd
  have hpi : ∀ v ∈ G.nodes, ∀ u, u ∈ D.pars v ↔ (u, v) ∈ G.arcs := fun v hv u => by rw [h2.pars_iff v (h3 ▸ hv), h4]
  have hne : ∀ v ∈ G.nodes, (∃ u, (u, v) ∈ G.arcs) → D.pars v ≠ [] := fun v hv ⟨u, hu⟩ =>
    List.ne_nil_of_mem ((hpi v hv u).2 hu)
  refine ⟨D, h1, h2, h3, h4, fun v _ => by simp [DiscreteDAG.dims, h5], fun v hv y hy => ⟨fun h => ?_, fun h c hc => ?_, fun h hij => ?_⟩⟩
  · have hnil : D.pars v = [] := List.eq_nil_iff_forall_not_mem.2 fun u hu => h u ((hpi v hv u).1 hu)
    have := (h6 v hv).root hnil (y v) (hy v hv)
    rw [hnil]
    exact this
  · exact (h6 v hv).const (hne v hv h) c hc y
  · obtain ⟨m, hm, -⟩ := htr (fun j => (D.pars v).map (data j)) (fun j => data j v) hij
    refine ⟨m, hm, (h6 v hv).model (hne v hv h) hij m hm y fun u hu => ?_⟩
    rcases List.mem_append.1 hu with hu | hu
    · exact hy u (hG.fst_mem _ _ ((hpi v hv u).1 hu))
    · exact hy u (by rwa [List.mem_singleton.1 hu])

/-- C210. Without `node_alphabets` the same holds for the alphabets `0..max`. -/
theorem C210_default (o ot : SetOrder (Option ℕ) ℕ) (oa : SetOrder Bool (ℕ × ℕ)) (op : SetOrder ℕ ℕ)
    (oz : SetOrder ℕ (List ℕ)) {train : Trainer N} (htr : Trains train) {G : DAG ℕ} (hG : G.Valid) (hn : ∀ v ∈ G.nodes, v < n) (hN : N ≠ 0)
    (data : Fin N → ℕ → ℕ) :
    ∃ D, (fitLearned o ot oa op oz train G n data none).run = some (.ok D) ∧ D.Proper ∧
      (fitLearned o ot oa op oz train G n data
        (some fun v => (List.range (Finset.univ.sup (fun j => data j v) + 1)).map fun i : ℕ => (i : ℤ))).run = some (.ok D) := by
  obtain ⟨a, h1, h2, h3⟩ := defaultAlphabets_ok (n := n) (data := data) hn hN
  obtain rfl : a = fun v => (List.range (Finset.univ.sup (fun j => data j v) + 1)).map fun i : ℕ => (i : ℤ) := funext h2
  obtain ⟨D, g1, g2, -⟩ := fitLearned_ok o ot oa op oz htr (n := n) (data := data) hG hn hN (alphabets := none) h1
    fun j v _ => by simpa using h3 j v
  refine ⟨D, g1, g2, ?_⟩
  rw [← g1, fitLearned, fitLearned]
  have e : (ExceptT.mk (some (defaultAlphabets n data G.nodes)) : Run ℕ (ℕ → List ℤ)) =
      pure fun v => (List.range (Finset.univ.sup (fun j => data j v) + 1)).map fun i : ℕ => (i : ℤ) := by
    rw [h1]; rfl
  dsimp only
  rw [e]

namespace LearnSample

/-- A classifier that always predicts the smallest class. -/
noncomputable def smallest (N : ℕ) : Trainer N := fun _ y =>
  .ok ⟨(List.range (Finset.univ.sup y + 1)).filter fun c => ∃ j, y j = c, fun _ i => if i = 0 then 1 else 0⟩

theorem smallest_trains (N : ℕ) : Trains (smallest N) := by
  rintro X y ⟨i, -, -⟩
  have hmem : ∀ c, c ∈ (List.range (Finset.univ.sup y + 1)).filter (fun c => ∃ j, y j = c) ↔ ∃ j, y j = c := fun c => by
    simp only [List.mem_filter, List.mem_range, decide_eq_true_eq, and_iff_right_iff_imp]
    rintro ⟨j, rfl⟩
    exact Nat.lt_succ_of_le (Finset.le_sup (f := y) (Finset.mem_univ j))
  refine ⟨_, rfl, List.pairwise_lt_range.filter _, hmem, fun z => ?_⟩
  have hpos : 0 < ((List.range (Finset.univ.sup y + 1)).filter fun c => ∃ j, y j = c).length :=
    List.length_pos_of_mem ((hmem (y i)).2 ⟨i, rfl⟩)
  dsimp only
  rw [Finset.sum_ite_eq' (Finset.range _) 0, if_pos (Finset.mem_range.2 hpos)]

/-- Two rows: 0, 1 and 1, 3. -/
def data : Fin 2 → ℕ → ℕ := fun j v => if v = 0 then j else 2 * j + 1

end LearnSample

open LearnSample in
example : ∃ D, (fitLearned Sample.order Sample.order Sample.order Sample.order Sample.order (smallest 2) (Sample.natGraph {0, 1} {(0, 1)}) 2
    data none).run = some (.ok D) ∧ D.Proper := by
  obtain ⟨D, h1, h2, -⟩ := C210_default Sample.order Sample.order Sample.order Sample.order Sample.order (smallest_trains 2) (n := 2)
    (Sample.natGraph_valid (nodes := {0, 1}) (arcs := {(0, 1)}) (by decide)) (by decide) (by decide) data
  exact ⟨D, h1, h2⟩

open LearnSample in
example : ∃ D, (fitLearned Sample.order Sample.order Sample.order Sample.order Sample.order (smallest 2) (Sample.natGraph {0, 1} {(0, 1)}) 2
    data (some fun _ => (List.range 5).map fun i : ℕ => (i : ℤ))).run = some (.ok D) ∧ D.Proper := by
  obtain ⟨D, h1, h2, -⟩ := C210_fit_learned_partial Sample.order Sample.order Sample.order Sample.order Sample.order (smallest_trains 2)
    (n := 2) (Sample.natGraph_valid (nodes := {0, 1}) (arcs := {(0, 1)}) (by decide)) (by decide) (by decide) data (k := fun _ => 5) (by decide)
  exact ⟨D, h1, h2⟩

open LearnSample in
/-- C210 is violated for other alphabets: the classes are used as positions. For the alphabet 1, 2, 3, 4 and data with the values 1 and 3 only,
the classifier predicts 1 and the table says 2. -/
theorem C210_violated : ∃ (G : DAG ℕ) (data : Fin 2 → ℕ → ℕ) (alph : ℕ → List ℤ) (train : Trainer 2), G.Valid ∧ (∀ v ∈ G.nodes, v < 2) ∧
    (∀ j, ∀ v ∈ G.nodes, (data j v : ℤ) ∈ alph v) ∧ (∀ v, (alph v).Nodup) ∧ Trains train ∧ alph 1 = [1, 2, 3, 4] ∧
    ∀ o ot oa op oz, ∃ D m, (fitLearned o ot oa op oz train G 2 data (some alph)).run = some (.ok D) ∧ D.pars 1 = [0] ∧
      train (fun j => [data j 0]) (fun j => data j 1) = .ok m ∧ m.prob [0] 1 = 1 ∧ m.prob [0] 2 = 0 ∧
      (D.cond 1).val [0, 0] = 0 ∧ (D.cond 1).val [0, 1] = 1 := by
  have hG := Sample.natGraph_valid (nodes := {0, 1}) (arcs := {(0, 1)}) (by decide)
  refine ⟨Sample.natGraph {0, 1} {(0, 1)}, data, fun v => if v = 0 then [0, 1] else [1, 2, 3, 4], smallest 2, hG, by decide, by decide,
    fun v => by dsimp only; split_ifs <;> decide, smallest_trains 2, rfl, fun o ot oa op oz => ?_⟩
  have hp0 : op.ord 0 ((Sample.natGraph {0, 1} {(0, 1)}).parents 0) = [] := by
    refine List.eq_nil_iff_forall_not_mem.2 fun u hu => ?_
    rw [op.mem_iff] at hu
    simp [Sample.natGraph] at hu
  have hp1 : op.ord 1 ((Sample.natGraph {0, 1} {(0, 1)}).parents 1) = [0] := by
    refine List.perm_singleton.1 ((List.perm_ext_iff_of_nodup (op.nodup _ _) (by simp)).2 fun u => ?_)
    rw [op.mem_iff]
    simp only [Sample.natGraph]
    constructor
    · intro h
      simp at h
      simp [h.2]
    · intro h
      simp at h
      simp [h]
  have hcl : ((List.range (Finset.univ.sup (fun j => data j 1) + 1)).filter fun c => ∃ j, data j 1 = c) = [1, 3] := by decide
  let m : Classifier := ⟨[1, 3], fun _ i => if i = 0 then 1 else 0⟩
  have hm : smallest 2 (fun j => [data j 0]) (fun j => data j 1) = .ok m := by
    change (Except.ok (Classifier.mk _ _) : Except (Exn ℕ) Classifier) = _
    rw [hcl]
  obtain ⟨t, t1, t2, t3⟩ := extractConditional_ok (m := m) (L := [[0, 1]]) (vals := [1, 2, 3, 4]) (by decide) (by decide)
  obtain ⟨t0, e0, s0⟩ : ∃ t, fitConditional oz 2 data 0 [0, 1] [] [] 0 = .ok t ∧ t.shape = [2] := ⟨_, rfl, rfl⟩
  obtain ⟨D, d1, -, -, -, -, d6, d7⟩ := fitLearned_run o ot oa op oz (smallest 2) (n := 2) (data := data)
    (alphabets := some fun v => if v = 0 then [0, 1] else [1, 2, 3, 4]) hG rfl (T := fun v => if v = 0 then t0 else t) (by
      have hv0 : ∀ v ∈ (Sample.natGraph {0, 1} {(0, 1)}).nodes, v = 0 ∨ v = 1 := by decide
      intro v hv
      rcases hv0 v hv with rfl | rfl
      · rw [hp0]
        exact ⟨e0, s0⟩
      · rw [hp1]
        refine ⟨?_, t2⟩
        rw [learnTable, if_neg (by decide), if_neg (by decide), dif_neg (by decide), if_neg (by decide)]
        change ((match smallest 2 (fun j => [data j 0]) (fun j => data j 1) with
          | .error e => .error e
          | .ok m => extractConditional m [[0, 1]] [1, 2, 3, 4]) : Except (Exn ℕ) (Tensor ℝ≥0)) = _
        rw [hm]
        exact t1)
  have p1 : m.prob [0] 1 = 1 := by simp [Classifier.prob, m]
  have p0 : m.prob [0] 0 = 0 := by simp [Classifier.prob, m]
  have p2 : m.prob [0] 2 = 0 := by simp [Classifier.prob, m]
  have hF : List.Forall₂ (· < ·) [0] ([[(0 : ℤ), 1]].map List.length) := .cons (by decide) .nil
  refine ⟨D, m, d1, by rw [d6]; exact hp1, hm, p1, p2, ?_, ?_⟩
  · rw [d7 1 (by decide)]
    exact (t3 [0] 0 hF (by decide)).trans p0
  · rw [d7 1 (by decide)]
    exact (t3 [0] 1 hF (by decide)).trans p1

/-- C211. `predict_from_parents(node, vals)` for a node with parents: entry `i` of row `j` is the conditional probability that the node has its
`i`-th value given that the parents have the values in row `j`. -/
theorem C211_predict_partial {D : DiscreteDAG ℕ} (hD : D.Proper) (hA : D.Counting) {v : ℕ} (hv : v ∈ D.dag.nodes) (hp : D.pars v ≠ [])
    {x : Fin N → ℕ → ℕ} (hx : ∀ j, ∀ p ∈ D.pars v, x j p < D.dims p) {vals : Fin N → ℕ → ℤ}
    (hvals : ∀ j c, ∀ h : c < (D.pars v).length, vals j c = (D.alph (D.pars v)[c]).getD (x j (D.pars v)[c]) 0) :
    ∃ t, D.predictFromParents v (D.pars v).length vals = .ok t ∧ t.shape = [N, D.dims v] ∧
      ∀ (j : Fin N) (i : ℕ), i < D.dims v → D.pr (D.pars v) (x j) ≠ 0 →
        t.val [j.val, i] = D.pr (D.pars v ++ [v]) (Function.update (x j) v i) / D.pr (D.pars v) (x j) := by
  have hpn : ∀ p ∈ D.pars v, p ∈ D.dag.nodes := fun p h => hD.valid.fst_mem _ _ ((hD.pars_iff v hv p).1 h)
  obtain ⟨t, h1, h2, h3⟩ := DiscreteDAG.predict_ok hD.toShaped hv hp hx (vals := vals) fun j c h => by
    have hm := List.getElem_mem h
    refine Or.inl ?_
    rw [hvals j c h, hA _ (hpn _ hm), List.getD_eq_getElem?_getD]
    simp [hx j _ hm]
  refine ⟨t, h1, h2, fun j i hi h0 => ?_⟩
  rw [h3, DiscreteDAG.pr_row hD _root_.Sample.order hv hi, mul_div_cancel_right₀ _ h0]

/-- C211. For a node without parents the answer is the table of the node, with one axis, whatever the number of rows. -/
theorem C211_roots {D : DiscreteDAG ℕ} (hD : D.Shaped) {v : ℕ} (hv : v ∈ D.dag.nodes) (hp : D.pars v = []) (vals : Fin N → ℕ → ℤ) :
    ∃ t, D.predictFromParents v (D.pars v).length vals = .ok t ∧ t.shape = [D.dims v] := by
  refine ⟨D.cond v, ?_, by rw [hD.shape v hv, hp]; rfl⟩
  rw [hp]
  rfl

/-- Two binary nodes with an arc and the alphabet 1, 2. -/
noncomputable def shiftedPair : DiscreteDAG ℕ := { Sample.natParity {0, 1} {(0, 1)} with alph := fun _ => [1, 2] }

theorem shiftedPair_proper : shiftedPair.Proper := by
  have h := Sample.natParity_proper (nodes := {0, 1}) (arcs := {(0, 1)}) (by decide)
  exact ⟨⟨h.valid, h.nodup, h.pars_iff, h.shape⟩, h.total⟩

theorem natParity_pars : (Sample.natParity {0, 1} {(0, 1)}).pars 1 = [0] ∧ (Sample.natParity {0, 1} {(0, 1)}).pars 0 = [] := by
  have h := Sample.natParity_proper (nodes := {0, 1}) (arcs := {(0, 1)}) (by decide)
  constructor
  · refine List.perm_singleton.1 ((List.perm_ext_iff_of_nodup (h.nodup 1 (by decide)) (by simp)).2 fun u => ?_)
    rw [h.pars_iff 1 (by decide)]
    simp [Sample.natParity, Sample.natGraph]
  · refine List.eq_nil_iff_forall_not_mem.2 fun u hu => ?_
    rw [h.pars_iff 0 (by decide)] at hu
    simp [Sample.natParity, Sample.natGraph] at hu

example : ∃ t, (Sample.natParity {0, 1} {(0, 1)}).predictFromParents 1 ((Sample.natParity {0, 1} {(0, 1)}).pars 1).length
    (fun (j : Fin 2) _ => (j.val : ℤ)) = .ok t ∧ t.shape = [2, 2] := by
  have hp := natParity_pars.1
  obtain ⟨t, h1, h2, -⟩ := C211_predict_partial (D := Sample.natParity {0, 1} {(0, 1)}) (v := 1) (Sample.natParity_proper (by decide))
    (fun v _ => rfl) (by decide) (by rw [hp]; decide) (x := fun (j : Fin 2) _ => j.val) (fun j p _ => j.2)
    (vals := fun (j : Fin 2) _ => (j.val : ℤ)) fun j c h => by
      fin_cases j <;> rfl
  exact ⟨t, h1, h2⟩

example : ∃ t, (Sample.natParity {0, 1} {(0, 1)}).predictFromParents 0 ((Sample.natParity {0, 1} {(0, 1)}).pars 0).length
    (fun (_ : Fin 7) _ => 0) = .ok t ∧ t.shape = [2] :=
  C211_roots (Sample.natParity_proper (by decide)).toShaped (by decide) natParity_pars.2 _

/-- C211. Negative entries count from the end: `-k` is the `k`-th value of the parent from the end. -/
theorem C211_negative {D : DiscreteDAG ℕ} (hD : D.Proper) {v : ℕ} (hv : v ∈ D.dag.nodes) (hp : D.pars v ≠ [])
    {x : Fin N → ℕ → ℕ} (hx : ∀ j, ∀ p ∈ D.pars v, x j p < D.dims p) {vals : Fin N → ℕ → ℤ}
    (hvals : ∀ j c, ∀ h : c < (D.pars v).length, vals j c = (x j (D.pars v)[c] : ℤ) - (D.alph (D.pars v)[c]).length) :
    ∃ t, D.predictFromParents v (D.pars v).length vals = .ok t ∧ t.shape = [N, D.dims v] ∧
      ∀ (j : Fin N) (i : ℕ), i < D.dims v → D.pr (D.pars v) (x j) ≠ 0 →
        t.val [j.val, i] = D.pr (D.pars v ++ [v]) (Function.update (x j) v i) / D.pr (D.pars v) (x j) := by
  obtain ⟨t, h1, h2, h3⟩ := DiscreteDAG.predict_ok hD.toShaped hv hp hx (vals := vals) fun j c h => Or.inr (hvals j c h)
  refine ⟨t, h1, h2, fun j i hi h0 => ?_⟩
  rw [h3, DiscreteDAG.pr_row hD _root_.Sample.order hv hi, mul_div_cancel_right₀ _ h0]

example : ∃ t, shiftedPair.predictFromParents 1 (shiftedPair.pars 1).length (fun (j : Fin 2) _ => (j.val : ℤ) - 2) = .ok t ∧
    t.shape = [2, 2] := by
  have hp : shiftedPair.pars 1 = [0] := natParity_pars.1
  obtain ⟨t, h1, h2, -⟩ := C211_negative (D := shiftedPair) (v := 1) shiftedPair_proper (by decide) (by rw [hp]; decide)
    (x := fun (j : Fin 2) _ => j.val) (fun j p _ => j.2) (vals := fun (j : Fin 2) _ => (j.val : ℤ) - 2) fun j c h => by
      fin_cases j <;> rfl
  exact ⟨t, h1, h2⟩

/-- C211 is violated for other alphabets, since the values are used as positions: `IndexError` for the value 2 of the alphabet 1, 2. -/
theorem C211_violated : ∃ D : DiscreteDAG ℕ, D.Proper ∧ D.pars 1 = [0] ∧ D.alph 0 = [1, 2] ∧ 1 ∈ D.dag.nodes ∧
    D.predictFromParents 1 1 (fun (_ : Fin 1) _ => 2) = .error .index := by
  have hp : shiftedPair.pars 1 = [0] := natParity_pars.1
  refine ⟨shiftedPair, shiftedPair_proper, hp, rfl, by decide, ?_⟩
  have hs := shiftedPair_proper.shape 1 (by decide)
  rw [hp] at hs
  rw [DiscreteDAG.predictFromParents]
  rw [if_neg (by decide), if_neg (by rw [hs]; decide), if_pos]
  rw [hs]
  exact ⟨0, 0, by decide, by decide⟩

end Props
