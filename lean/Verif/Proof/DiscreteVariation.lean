import Verif.Proof.DiscreteFaithful
import Verif.Proof.DiscreteInvariant

/-! # Two networks that differ wherever the graph allows it

A network on the graph with the additional node that has no other independences than those of the graph gives two networks on the graph
itself, one for each value of the additional node. -/

namespace Model.DiscreteDAG

open Spec Model Model.DAG
open scoped NNReal

set_option linter.unusedSectionVars false

variable {α : Type} [DecidableEq α] {G : DAG α} {W : α → α → ℝ} {b : α → ℝ}

/-- The network on `G` with two values for each node, the weights `W` and the constants `b`. -/
noncomputable def biased (G : DAG α) (W : α → α → ℝ) (b : α → ℝ) : DiscreteDAG α :=
  { dag := G
    pars := fun v => (G.parents v).toList
    alph := fun _ => [0, 1]
    cond := fun v => ⟨((G.parents v).toList ++ [v]).map fun _ => 2, fun idx =>
      Real.toNNReal ((1 + sg (idx.getD (((G.parents v).toList ++ [v]).idxOf v) 0) *
        (lean G.nodes W v (fun u => idx.getD (((G.parents v).toList ++ [v]).idxOf u) 0) + b v)) / 2)⟩ }

theorem biased_cond (hG : G.Valid) (hW : ∀ p v, W p v ≠ 0 → G.E p v) (v : α) (x : α → ℕ) :
    ((biased G W b).cond v).val (((biased G W b).pars v ++ [v]).map x) = Real.toNNReal ((1 + sg (x v) * (lean G.nodes W v x + b v)) / 2) := by
  change Real.toNNReal ((1 + sg ((((G.parents v).toList ++ [v]).map x).getD (((G.parents v).toList ++ [v]).idxOf v) 0) *
        (lean G.nodes W v (fun u => (((G.parents v).toList ++ [v]).map x).getD (((G.parents v).toList ++ [v]).idxOf u) 0) + b v)) / 2) = _
  rw [getD_map_idxOf (by simp) x]
  congr 5
  show lean G.nodes W v _ = lean G.nodes W v x
  unfold Spec.lean
  refine Finset.sum_congr rfl fun p _ => ?_
  by_cases h : W p v = 0
  · rw [h, zero_mul, zero_mul]
  · beta_reduce
    rw [getD_map_idxOf _ x]
    rw [List.mem_append, Finset.mem_toList]
    exact Or.inl ((hG.parents_iff p v).2 (hW p v h))

theorem biased_shaped (hG : G.Valid) : (biased G W b).Shaped :=
  ⟨hG, fun v _ => Finset.nodup_toList _, fun v _ u => by
    change u ∈ (G.parents v).toList ↔ _
    rw [Finset.mem_toList]
    exact hG.parents_iff u v, fun v _ => rfl⟩

theorem biased_proper (hG : G.Valid) (hW : ∀ p v, W p v ≠ 0 → G.E p v) (hs : ∀ v x, |lean G.nodes W v x + b v| ≤ 1 / 2) :
    (biased G W b).Proper := by
  refine ⟨biased_shaped hG, fun v hv x _ => ?_⟩
  have hvp : v ∉ (biased G W b).pars v := fun h => hG.acyclic.irrefl (((biased_shaped hG).pars_iff v hv v).1 h)
  have e : ∀ i, ((biased G W b).cond v).val (((biased G W b).pars v).map x ++ [i]) =
      Real.toNNReal ((1 + sg i * (lean G.nodes W v x + b v)) / 2) := by
    intro i
    have e1 : ((biased G W b).pars v).map x ++ [i] = ((biased G W b).pars v ++ [v]).map (Function.update x v i) := by
      rw [List.map_append, List.map_singleton, Function.update_self]
      congr 1
      exact List.map_congr_left fun u hu => (Function.update_of_ne (ne_of_mem_of_not_mem hu hvp) _ _).symm
    rw [e1, biased_cond hG hW, Function.update_self]
    congr 5
    refine Finset.sum_congr rfl fun p _ => ?_
    by_cases h : p = v
    · subst h
      have : W p p = 0 := by by_contra h; exact hG.acyclic.irrefl (hW _ _ h)
      rw [this, zero_mul, zero_mul]
    · rw [Function.update_of_ne h]
  have hd : (biased G W b).dims v = 2 := rfl
  have h2 := neg_le_of_abs_le (hs v x)
  have h3 := le_of_abs_le (hs v x)
  simp only [hd, e]
  rw [Finset.sum_range_succ, Finset.sum_range_one, ← Real.toNNReal_add]
  · rw [← Real.toNNReal_one]
    congr 1
    simp [sg]
    ring
  · simp only [sg, if_true]
    linarith
  · simp [sg]
    linarith

theorem biased_factor (hs : ∀ v x, |lean G.nodes W v x + b v| ≤ 1 / 2) (v : α) (x : α → ℕ) :
    1 / 4 ≤ (1 + sg (x v) * (lean G.nodes W v x + b v)) / 2 := by
  have h1 : |sg (x v) * (lean G.nodes W v x + b v)| ≤ 1 / 2 := by rw [abs_mul, sg_abs, one_mul]; exact hs v x
  have h2 := neg_le_of_abs_le h1
  linarith

theorem biased_cut (hG : G.Valid) (hW : ∀ p v, W p v ≠ 0 → G.E p v) (hs : ∀ v x, |lean G.nodes W v x + b v| ≤ 1 / 2) :
    (biased G W b).Cut := by
  intro v hv x _
  right
  rw [biased_cond hG hW, ← NNReal.coe_lt_coe, Real.coe_toNNReal _ (le_trans (by norm_num) (biased_factor hs v x))]
  refine lt_of_lt_of_le ?_ (biased_factor hs v x)
  norm_num

theorem biased_pos (hG : G.Valid) (hW : ∀ p v, W p v ≠ 0 → G.E p v) (hs : ∀ v x, |lean G.nodes W v x + b v| ≤ 1 / 2) {S : List α}
    (hS : ∀ v ∈ S, v ∈ G.nodes) {x : α → ℕ} (hx : ∀ v ∈ S, x v < 2) : (biased G W b).pr S x ≠ 0 := by
  classical
  refine (Finset.sum_pos' (fun _ _ => zero_le) ⟨fun v => if v ∈ S then x v else 0, ?_, ?_⟩).ne'
  · refine (@Finset.mem_filter _ _ (_) _ _).2 ⟨mem_assignments.2 ⟨fun v _ => ?_, fun v hv => ?_⟩, fun v hv => if_pos hv⟩
    · change _ < 2
      split_ifs with h
      · exact hx v h
      · norm_num
    · exact if_neg fun h => hv (hS v h)
  · change 0 < ∏ v ∈ G.nodes, (biased G W b).kern v fun v => if v ∈ S then x v else 0
    refine Finset.prod_pos fun v _ => ?_
    have e : (biased G W b).kern v (fun v => if v ∈ S then x v else 0) = _ := biased_cond hG hW v _
    rw [e, Real.toNNReal_pos]
    exact lt_of_lt_of_le (by norm_num : (0 : ℝ) < 1 / 4) (biased_factor hs v fun v => if v ∈ S then x v else 0)

/-- On every graph there are two networks with the same tables outside `I` such that P(a | C) agrees only if `a` is separated from an
additional node that points at `I`. -/
theorem exists_variation (hG : G.Valid) {I : Finset α} (hI : ∀ i ∈ I, i ∈ G.nodes) : ∃ D D' : DiscreteDAG α, D.dag = G ∧ D'.dag = G ∧
    D.Proper ∧ D'.Proper ∧ D.Cut ∧ D'.Cut ∧ (∀ v, D.alph v = [0, 1]) ∧ (∀ v, D'.alph v = [0, 1]) ∧
    (∀ v, v ∉ I → D'.pars v = D.pars v ∧ D'.cond v = D.cond v) ∧
    (∀ (S : List α) (x : α → ℕ), (∀ v ∈ S, v ∈ G.nodes) → (∀ v ∈ S, x v < 2) → D.pr S x ≠ 0 ∧ D'.pr S x ≠ 0) ∧
    ∀ (a : α) (C : List α), (a :: C).Nodup → (∀ v ∈ a :: C, v ∈ G.nodes) →
      D.pr (a :: C) (fun _ => 1) * D'.pr C (fun _ => 1) = D'.pr (a :: C) (fun _ => 1) * D.pr C (fun _ => 1) →
      DSep (Augment G.E {i | i ∈ I}) {some a} {none} (some '' {v | v ∈ C}) := by
  have hA := augDag_valid hG hI
  obtain ⟨W, h1, h2, h3⟩ := exists_weights hA
  set W' : α → α → ℝ := fun p v => W (some p) (some v) with hW'
  have hWE : ∀ p v, W' p v ≠ 0 → G.E p v := fun p v h => by
    cases (augDag_arc _ _ _ _).1 (h1 _ _ h) with
    | old k => exact k
  have hnone : ∀ p, W p none = 0 := fun p => by
    by_contra h
    cases (augDag_arc _ _ _ _).1 (h1 _ _ h)
  have hout : ∀ v, v ∉ I → W none (some v) = 0 := fun v hv => by
    by_contra h
    cases (augDag_arc _ _ _ _).1 (h1 _ _ h) with
    | target k => exact hv k
  have hlean : ∀ v y, lean (augDag G I).nodes W (some v) y = lean G.nodes W' v (y ∘ some) + W none (some v) * sg (y none) := by
    intro v y
    change ∑ p ∈ insert none (G.nodes.image some), _ = _
    rw [Finset.sum_insert (by simp), Finset.sum_image (by simp), add_comm]
    rfl
  have hs : ∀ (c : ℕ) v x, |lean G.nodes W' v x + W none (some v) * sg c| ≤ 1 / 2 := by
    intro c v x
    have := h2.lean_le (some v) fun u => u.elim c x
    rw [hlean] at this
    exact this
  set D := biased G W' fun v => W none (some v) * sg 0 with hD
  set D' := biased G W' fun v => W none (some v) * sg 1 with hD'
  have pD := biased_proper hG hWE (hs 0)
  have pD' := biased_proper hG hWE (hs 1)
  have hkern : ∀ c v (x : α → ℕ), (biased G W' fun v => W none (some v) * sg c).kern v x =
      Real.toNNReal ((1 + sg (x v) * (lean G.nodes W' v x + W none (some v) * sg c)) / 2) := fun c v x => biased_cond hG hWE v x
  have hV : Varies D D' I := ⟨rfl, rfl, fun a h => h, fun v _ hv y _ => by
    rw [hD, hD', hkern, hkern, hout v hv, zero_mul, zero_mul]⟩
  have hsg : ∀ k, k ≠ 0 → sg k = sg 1 := fun k hk => by simp [sg, hk]
  have hpr : ∀ S x, (mix D D' I).pr S x = (binary (augDag G I) W).pr S x := by
    have hd : (mix D D' I).dims = (binary (augDag G I) W).dims := by
      funext v
      cases v <;> rfl
    intro S x
    unfold pr
    rw [hd]
    change prob (augDag G I).nodes _ _ _ = prob (augDag G I).nodes _ _ _
    congr 1
    funext y
    rw [law_eq, law_eq]
    refine Finset.prod_congr rfl fun v hv => ?_
    have hb := binary_cond hA h1 v y
    change (binary (augDag G I) W).kern v y = _ at hb
    rw [hb]
    rcases v with _ | v
    · rw [mix_kern_none]
      have : lean (augDag G I).nodes W none y = 0 := Finset.sum_eq_zero fun p _ => by rw [hnone, zero_mul]
      rw [this, mul_zero, add_zero, Real.toNNReal_div zero_le_one, Real.toNNReal_one]
      simp
    · have hv' : v ∈ D.dag.nodes := by
        have : some v ∈ insert none (G.nodes.image some) := hv
        have h : v ∈ G.nodes := by simpa using this
        exact h
      rw [mix_kern (D := D) (D' := D') (fun v _ u hu => hu) I hv', hlean, hD, hD', hkern, hkern]
      by_cases hvI : v ∈ I
      · by_cases h0 : y none = 0
        · rw [if_neg (fun k => k.2 h0), h0]; rfl
        · rw [if_pos ⟨hvI, h0⟩, hsg _ h0]; rfl
      · rw [if_neg (fun k => hvI k.1), hout v hvI, zero_mul, zero_mul]; rfl
  refine ⟨D, D', rfl, rfl, pD, pD', biased_cut hG hWE (hs 0), biased_cut hG hWE (hs 1), fun _ => rfl, fun _ => rfl, fun v hv => ⟨rfl, ?_⟩,
    fun S x hS hx => ⟨biased_pos hG hWE (hs 0) hS hx, biased_pos hG hWE (hs 1) hS hx⟩, fun a C hnd hn h => ?_⟩
  · simp only [hD, hD', biased, hout v hv, zero_mul]
  · have hnC : ∀ v ∈ C, v ∈ D.dag.nodes := fun v hv => hn v (by simp [hv])
    have hndC := (List.nodup_cons.1 hnd).2
    by_contra hd
    have hE : (augDag G I).E = Augment G.E {i | i ∈ I} := by
      funext u v
      exact propext (augDag_arc _ _ _ _)
    have hnd' : (some a :: none :: C.map some).Nodup := by
      have h1 := hnd.map (Option.some_injective α)
      rw [List.map_cons, List.nodup_cons] at h1
      simp only [List.nodup_cons, List.mem_cons, h1.2, and_true]
      simpa using h1.1
    have hn' : ∀ v ∈ some a :: none :: C.map some, v ∈ (augDag G I).nodes := by
      intro v hv
      change v ∈ insert none (G.nodes.image some)
      rcases v with _ | v
      · simp
      · have : v ∈ a :: C := by simpa using hv
        simpa using hn v this
    refine h3 (some a) none (C.map some).toFinset (hn' _ (by simp)) (hn' _ (by simp)) (fun v hv => hn' v (by
      have : v ∈ C.map some := by simpa using hv
      simp [this])) (by simp) ?_ (by simp) ?_ ?_
    · have := (List.nodup_cons.1 hnd').1
      simpa using this
    · rw [hE]
      have e : (((C.map some).toFinset : Finset (Option α)) : Set (Option α)) = some '' {v | v ∈ C} := by ext v; simp
      rw [e]
      exact hd
    · rw [← binary_dep hA h1 h2 hnd' hn']
      simp only [← hpr]
      have ex : (fun _ : Option α => 1) = fun v : Option α => v.elim 1 fun _ => 1 := by funext v; cases v <;> rfl
      have m1 : (mix D D' I).pr (some a :: none :: C.map some) (fun _ => 1) = 1 / 2 * D'.pr (a :: C) fun _ => 1 := by
        rw [pr_congr (T := none :: (a :: C).map some) (fun v => by simp only [List.mem_cons, List.map_cons]; tauto),
          mix_pr pD pD' hI hV hnd hn (fun _ _ => Nat.one_lt_two) Nat.one_lt_two]
        rfl
      have m2 : (mix D D' I).pr (none :: C.map some) (fun _ => 1) = 1 / 2 * D'.pr C fun _ => 1 := by
        rw [mix_pr pD pD' hI hV hndC hnC (fun _ _ => Nat.one_lt_two) Nat.one_lt_two]
        rfl
      have m3 : ∀ S : List α, S.Nodup → (∀ v ∈ S, v ∈ G.nodes) →
          (mix D D' I).pr (S.map some) (fun _ => 1) = 1 / 2 * D.pr S (fun _ => 1) + 1 / 2 * D'.pr S fun _ => 1 := by
        intro S k1 k2
        rw [← mix_total pD pD' hI hV k1 k2 (fun _ _ => Nat.one_lt_two)]
        refine pr_base fun v hv => ?_
        rcases v with _ | v
        · simp at hv
        · rfl
      have m4 := m3 (a :: C) hnd hn
      rw [List.map_cons] at m4
      rw [m1, m2, m3 C hndC hnC, m4]
      have h' := congrArg (fun r : ℝ≥0 => (r : ℝ)) h
      push_cast at h' ⊢
      linarith

end Model.DiscreteDAG
