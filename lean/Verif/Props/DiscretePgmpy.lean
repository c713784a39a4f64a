import Verif.Proof.DiscretePgmpy
import Verif.Props.Influence
import Verif.Props.DiscreteLearn

/-! # Conditional distributions from `pgmpy` (properties C213 and C214) -/

namespace Props

open Model Spec
open scoped NNReal

variable {D : DiscreteDAG ℕ}

/-- C213. `get_conditional_pgmpy(marginal_nodes, cond_nodes)`, with at most one node in both lists and alphabets `0..k-1`: entry `y, x` is the
probability of `marginal_nodes = y` given `cond_nodes = x`, if that exists. -/
theorem C213_conditional_partial (hA : D.Counting) {q : Query} (hq : D.ExactQuery q) (hr : D.Responds q) {M C : List ℕ} (hM : M.Nodup)
    (hC : C.Nodup) (hn : ∀ v ∈ M ++ C, v ∈ D.dag.nodes) (hne : ∃ v ∈ M, v ∉ C) (hone : ∀ u ∈ M, ∀ v ∈ M, u ∈ C → v ∈ C → u = v) :
    ∃ t, D.conditionalTable q M C = .ok t ∧ t.shape = (M ++ C).map D.dims ∧
      ∀ y x : ℕ → ℕ, (∀ v ∈ M, y v < D.dims v) → (∀ v ∈ C, x v < D.dims v) → D.pr C x ≠ 0 →
        t.val (M.map y ++ C.map x) =
          (prob D.dag.nodes D.dims D.law (fun z => (∀ v ∈ M, z v = y v) ∧ ∀ v ∈ C, z v = x v) / D.pr C x : ℝ≥0) :=
  DiscreteDAG.conditionalTable_ok hA hq hr hM hC hn hne hone

/-- C213. With two nodes in both lists the function raises. -/
theorem C213_raises (D : DiscreteDAG ℕ) (q : Query) {M C : List ℕ} {u v : ℕ} (huv : u ≠ v) (hu : u ∈ M ∧ u ∈ C) (hv : v ∈ M ∧ v ∈ C) :
    ∃ e, D.conditionalTable q M C = .error e :=
  DiscreteDAG.conditionalTable_raises q huv hu hv

theorem exactly_responds (D : DiscreteDAG ℕ) : D.Responds (exactly D) := fun _ _ _ _ _ _ _ => ⟨_, rfl, rfl⟩

example : ∃ t, chain3.conditionalTable (exactly chain3) [0, 2] [1, 2] = .ok t ∧ t.shape = [2, 2, 2, 2] := by
  obtain ⟨t, h1, h2, -⟩ := C213_conditional_partial (D := chain3) (fun _ _ => rfl) (exactly_exact _) (exactly_responds _) (M := [0, 2])
    (C := [1, 2]) (by decide) (by decide) (by decide) (by decide) (by decide)
  exact ⟨t, h1, h2⟩

/-- Two binary nodes with an arc and the alphabet 1, 0. -/
noncomputable def swappedPair : DiscreteDAG ℕ := { Sample.natParity {0, 1} {(0, 1)} with alph := fun _ => [1, 0] }

theorem swappedPair_proper : swappedPair.Proper := by
  have h := Sample.natParity_proper (nodes := {0, 1}) (arcs := {(0, 1)}) (by decide)
  exact ⟨⟨h.valid, h.nodup, h.pars_iff, h.shape⟩, h.total⟩

theorem swappedPair_cond (i j : ℕ) (hi : i < 2) (hj : j < 2) (y : ℕ → ℕ) (h0 : y 0 = i) (h1 : y 1 = j) :
    swappedPair.pr [1, 0] y / swappedPair.pr [0] y = if i = j then 3 / 4 else 1 / 4 := by
  have hp : swappedPair.pars 1 = [0] := natParity_pars.1
  have hnz : swappedPair.pr [0] y ≠ 0 := by
    have := DiscreteDAG.pr_ne_zero swappedPair_proper (x := fun v => if v = 0 then i else 0) (L := [0])
      (fun v _ => by
        change (if v = 0 then i else 0) < 2
        split_ifs <;> omega) (Sample.natParity_law {0, 1} {(0, 1)} _) (by decide)
    rw [DiscreteDAG.pr] at this ⊢
    simpa [h0] using this
  have hrow := DiscreteDAG.pr_row swappedPair_proper _root_.Sample.order (v := 1) (by decide) (x := y) (i := j) hj
  rw [hp] at hrow
  have e : swappedPair.pr ([0] ++ [1]) (Function.update y 1 j) = swappedPair.pr [1, 0] y := by
    rw [DiscreteDAG.pr, DiscreteDAG.pr]
    congr 1
    funext z
    simp [h1, and_comm]
  rw [e] at hrow
  rw [hrow, mul_div_cancel_right₀ _ hnz]
  change Sample.noisy ([0].map y ++ [j]) = _
  rw [Sample.noisy]
  simp only [List.map_cons, List.map_nil, h0, List.cons_append, List.nil_append, List.sum_cons, List.sum_nil]
  interval_cases i <;> interval_cases j <;> simp

/-- C213 is violated for other alphabets, since the values go to `pgmpy` as state numbers: with the alphabet 1, 0 the entry for the first
values of both nodes is 1/4 although that probability is 3/4. -/
theorem C213_violated : ∃ (D : DiscreteDAG ℕ) (q : Query), D.Proper ∧ D.ExactQuery q ∧ D.Responds q ∧ D.dag.nodes = {0, 1} ∧
    (∀ v, D.alph v = [1, 0]) ∧ (D.pr [1, 0] fun _ => 0) / (D.pr [0] fun _ => 0) = 3 / 4 ∧
    ∃ t, D.conditionalTable q [1] [0] = .ok t ∧ t.val [0, 0] = 1 / 4 := by
  refine ⟨swappedPair, exactly swappedPair, swappedPair_proper, exactly_exact _, exactly_responds _, rfl, fun _ => rfl,
    (swappedPair_cond 0 0 (by decide) (by decide) _ rfl rfl).trans (if_pos rfl), ?_⟩
  have hcol : ∀ z, ∃ u, swappedPair.pgmpyColumn (exactly swappedPair) [1] [0] [z] = .ok u ∧
      u.val [0] = (swappedPair.pr [1, 0] (fun v => if v = 1 then 0 else z) / swappedPair.pr [0] (fun v => if v = 1 then 0 else z) : ℝ≥0) := by
    intro z
    refine ⟨_, by rw [DiscreteDAG.pgmpyColumn, exactly]; exact if_pos rfl, ?_⟩
    simp only [List.zip_cons_cons, List.zip_nil_right, List.map_cons, List.map_nil]
    have hpr : ∀ L : List ℕ, (∀ v ∈ L, v = 0 ∨ v = 1) →
        swappedPair.pr L (fun v => if v ∈ [1] then [0].getD ([1].idxOf v) 0 else [z].getD ([0].idxOf v) 0) =
          swappedPair.pr L (fun v => if v = 1 then 0 else z) := by
      intro L hL
      rw [DiscreteDAG.pr, DiscreteDAG.pr]
      congr 1
      funext w
      refine propext (forall₂_congr fun v hv => ?_)
      rcases hL v hv with rfl | rfl <;> simp
    rw [← hpr [1, 0] (by simp), ← hpr [0] (by simp)]
    rfl
  obtain ⟨u1, a1, b1⟩ := hcol 1
  obtain ⟨u0, a0, -⟩ := hcol 0
  have hm : (products ([0].map fun c => (swappedPair.alph c).map Int.toNat)).mapM (swappedPair.pgmpyColumn (exactly swappedPair) [1] [0]) =
      .ok [u1, u0] := by
    change [[1], [0]].mapM (swappedPair.pgmpyColumn (exactly swappedPair) [1] [0]) = _
    rw [List.mapM_cons, a1, List.mapM_cons, a0]
    rfl
  have hf : [1].filter (· ∉ [0]) = [1] := rfl
  rw [DiscreteDAG.conditionalTable]
  simp only [hf, hm]
  refine ⟨_, rfl, ?_⟩
  have : u1.val [0] = 1 / 4 := by
    rw [b1, swappedPair_cond 1 0 (by decide) (by decide) _ (by simp) (by simp)]
    simp
  exact this

/-- C214. `get_efficient_influence_function_conditionals(target, cond, value)`, if no set of `get_standard_imset` contains both nodes: one
entry for each of these sets, with its coefficient and the array whose entry `x` is the expectation of `1{cond = value} * target` given that
the nodes of the set have the values `x`. -/
theorem C214_conditionals_partial (hD : D.Proper) (hc : D.Cut) (hA : D.Counting) (o ot : SetOrder (Option ℕ) ℕ)
    (oa : SetOrder Bool (ℕ × ℕ)) (os : SetOrder (ℕ × Finset ℕ) ℕ) (on : SetOrder Unit ℕ) (op : SetOrder (Finset ℕ) ℕ)
    (ok : SetOrder Unit (Finset ℕ)) {q : Query} (hq : D.ExactQuery q) (hr : D.Responds q) {T Y : ℕ} (hTY : T ≠ Y)
    (hT : T ∈ D.dag.nodes) (hY : Y ∈ D.dag.nodes) (c : ℕ) {ignored : Finset ℕ}
    (hsep : ∀ s, D.dag.standardImset ignored s ≠ 0 → ¬ (T ∈ s ∧ Y ∈ s)) :
    ∃ r, (D.influenceConditionals o ot oa os on op ok q T Y c ignored).run = some (.ok r) ∧
      (r.map fun m => m.key.toFinset).Nodup ∧
      (∀ s, D.dag.standardImset ignored s ≠ 0 ↔ ∃ m ∈ r, m.key.toFinset = s) ∧
      ∀ m ∈ r, m.key.Nodup ∧ m.count = D.dag.standardImset ignored m.key.toFinset ∧ m.mean.shape = m.key.map D.dims ∧
        ∀ x : ℕ → ℕ, (∀ v ∈ m.key, x v < D.dims v) → D.pr m.key x ≠ 0 →
          m.mean.val (m.key.map x) = D.condMean (fun y => if y T = c then (y Y : ℝ) else 0) m.key.toFinset x := by
  obtain ⟨r, h1, h2⟩ := DiscreteDAG.influenceConditionals_ok o ot oa os on op ok hD hc hA hq hr hTY hT hY c hsep
  have hkey : r.map (fun m => m.key.toFinset) = ok.ord () (DiscreteDAG.imsetKeys D.dag ignored) := by
    refine (List.forall₂_eq_eq_eq ▸ (List.forall₂_map_left_iff.2 ?_) : r.map _ = _)
    refine h2.flip.imp fun m s h => Finset.ext fun v => ?_
    rw [List.mem_toFinset, h.mem]
  have hmem : ∀ s, D.dag.standardImset ignored s ≠ 0 ↔ ∃ m ∈ r, m.key.toFinset = s := fun s => by
    rw [← DiscreteDAG.mem_imsetKeys, ← ok.mem_iff () _ s, ← hkey, List.mem_map]
  refine ⟨r, h1, hkey ▸ ok.nodup _ _, hmem, fun m hm => ?_⟩
  obtain ⟨s, -, h⟩ : ∃ s ∈ ok.ord () (DiscreteDAG.imsetKeys D.dag ignored),
      DiscreteDAG.GoodMean D ignored (DiscreteDAG.payoff T Y c) s m := by
    clear h1 hkey hmem
    generalize ok.ord () (DiscreteDAG.imsetKeys D.dag ignored) = l at h2 ⊢
    induction h2 with
    | nil => simp at hm
    | cons a b ih =>
      rcases List.mem_cons.1 hm with rfl | hm
      · exact ⟨_, List.mem_cons_self, a⟩
      · obtain ⟨s, e1, e2⟩ := ih hm
        exact ⟨s, List.mem_cons_of_mem _ e1, e2⟩
  have hs : m.key.toFinset = s := Finset.ext fun v => by rw [List.mem_toFinset, h.mem]
  rw [hs]
  refine ⟨h.nodup, h.count, h.shape, fun x hx h0 => h.val x (fun v hv => hx v ((h.mem v).2 hv)) ?_⟩
  rw [DiscreteDAG.pr] at h0
  have e : (fun y : ℕ → ℕ => ∀ v ∈ s, y v = x v) = fun y => ∀ v ∈ m.key, y v = x v := by
    funext y
    simp only [h.mem]
  rwa [e]

/-- C214. The function raises whenever one of the sets contains both nodes. -/
theorem C214_raises (hD : D.Proper) (hc : D.Cut) (o ot : SetOrder (Option ℕ) ℕ)
    (oa : SetOrder Bool (ℕ × ℕ)) (os : SetOrder (ℕ × Finset ℕ) ℕ) (on : SetOrder Unit ℕ) (op : SetOrder (Finset ℕ) ℕ)
    (ok : SetOrder Unit (Finset ℕ)) (q : Query) {T Y : ℕ} (hTY : T ≠ Y) (hT : T ∈ D.dag.nodes) (hY : Y ∈ D.dag.nodes) (c : ℤ)
    {ignored s : Finset ℕ} (hs : D.dag.standardImset ignored s ≠ 0) (hTs : T ∈ s) (hYs : Y ∈ s) :
    ∃ e, (D.influenceConditionals o ot oa os on op ok q T Y c ignored).run = some (.error e) :=
  DiscreteDAG.influenceConditionals_raises o ot oa os on op ok hD hc q hTY hT hY c hs hTs hYs

example : ∃ r, (chain3.influenceConditionals Sample.order Sample.order Sample.order Sample.order Sample.order Sample.order Sample.order
    (exactly chain3) 0 2 1 ∅).run = some (.ok r) ∧ ∃ m ∈ r, m.key.toFinset = {0, 1} := by
  obtain ⟨r, h1, -, h2, -⟩ := C214_conditionals_partial (Sample.natParity_proper (by decide)) (Sample.natParity_cut _ _) (fun v _ => rfl)
    Sample.order Sample.order Sample.order Sample.order Sample.order Sample.order Sample.order
    (exactly_exact chain3) (exactly_responds _) (T := 0) (Y := 2) (by decide) (by decide) (by decide) 1 chain3_imset
  refine ⟨r, h1, (h2 {0, 1}).1 ?_⟩
  rw [← DiscreteDAG.mem_imsetKeys]
  change ({0, 1} : Finset ℕ) ∈ DiscreteDAG.imsetKeys (Sample.natGraph {0, 1, 2} {(0, 1), (1, 2)}) ∅
  decide

/-- C214 is violated: with an arc from the condition to the target nothing is returned. -/
theorem C214_violated : ∃ (D : DiscreteDAG ℕ) (q : Query), D.Proper ∧ D.Cut ∧ D.Counting ∧ D.ExactQuery q ∧ D.Responds q ∧
    D.dag.nodes = {0, 1} ∧ D.dag.arcs = {(0, 1)} ∧ (∀ x, D.law x ≠ 0) ∧
    ∀ o ot oa os on op ok (c : ℤ), ∃ e, (D.influenceConditionals o ot oa os on op ok q 0 1 c ∅).run = some (.error e) := by
  refine ⟨pair2, exactly pair2, Sample.natParity_proper (by decide), Sample.natParity_cut _ _, fun v _ => rfl, exactly_exact _,
    exactly_responds _, rfl, rfl, Sample.natParity_law _ _, fun o ot oa os on op ok c => ?_⟩
  refine C214_raises (Sample.natParity_proper (by decide)) (Sample.natParity_cut _ _) o ot oa os on op ok _ (by decide)
    (by decide) (by decide) c (s := {0, 1}) ?_ (by decide) (by decide)
  rw [← DiscreteDAG.mem_imsetKeys]
  change ({0, 1} : Finset ℕ) ∈ DiscreteDAG.imsetKeys (Sample.natGraph {0, 1} {(0, 1)}) ∅
  decide

end Props
