import Verif.Proof.DiscreteVariation
import Verif.Props.DiscreteInvariant

/-! # `is_invariant` decides whether conditional distributions are invariant (property C230) -/

namespace Props

open Model Model.DAG Spec
open scoped NNReal ENNReal

variable {α : Type} [DecidableEq α] {G : DAG α}

/-- C230. `is_invariant(A, I, C)` answers `True` exactly if P(A | C) is the same in every two networks on the graph with the same tables
at the nodes outside `I`, wherever the condition has positive probability in both. -/
theorem C230_is_invariant (hG : G.Valid) {I : Finset α} (hI : I ⊆ G.nodes) (w : SepOracle α) {A C : List α} (hnd : (A ++ C).Nodup)
    (hAC : ∀ v ∈ A ++ C, v ∈ G.nodes) :
    ∃ r, isInvariant G w A.toFinset I C.toFinset = some r ∧
      (r = true ↔ ∀ D D' : DiscreteDAG α, D.dag = G → D'.dag = G → D.Proper → D'.Proper → D'.alph = D.alph →
        (∀ v ∈ G.nodes, v ∉ I → D'.pars v = D.pars v ∧ D'.cond v = D.cond v) →
        ∀ x : α → ℕ, (∀ v ∈ A ++ C, x v < D.dims v) → D.pr C x ≠ 0 → D'.pr C x ≠ 0 → D'.condPr A C x = D.condPr A C x) := by
  have hdis : ∀ v ∈ A, v ∉ C := fun v h1 h2 => List.disjoint_of_nodup_append hnd h1 h2
  obtain ⟨r, h1, h2⟩ := C17_is_invariant G hG w A.toFinset I C.toFinset (by
    rw [Finset.disjoint_left]
    intro v h1 h2
    exact hdis v (List.mem_toFinset.1 h1) (List.mem_toFinset.1 h2))
  refine ⟨r, h1, fun hr D D' e e' hD hD' ha hs x hx hp hp' => ?_, fun h => h2.2 ?_⟩
  · subst e hr
    exact C222_tables hD hD' hI (by rw [e']) ha (by rw [e']) hs w hnd hAC h1 hx hp hp'
  · obtain ⟨D, D', e, e', hD, hD', -, -, ha, ha', hs, hpos, hf⟩ := DiscreteDAG.exists_variation hG fun i hi => hI hi
    have hd : ∀ v, D.dims v = 2 := fun v => by rw [DiscreteDAG.dims, ha]; rfl
    have hd' : ∀ v, D'.dims v = 2 := fun v => by rw [DiscreteDAG.dims, ha']; rfl
    have hCn : ∀ v ∈ C, v ∈ G.nodes := fun v hv => hAC v (by simp [hv])
    have key : ∀ x : α → ℕ, (∀ v ∈ A ++ C, x v < 2) → D.pr (A ++ C) x * D'.pr C x = D'.pr (A ++ C) x * D.pr C x := by
      intro x hx
      obtain ⟨p1, p2⟩ := hpos C x hCn fun v hv => hx v (by simp [hv])
      have := h D D' e e' hD hD' (funext fun v => by rw [ha, ha']) (fun v _ hv => hs v hv) x (fun v hv => by rw [hd]; exact hx v hv) p1 p2
      rw [DiscreteDAG.condPr, DiscreteDAG.condPr, if_neg p1, if_neg p2, div_eq_div_iff p2 p1] at this
      exact this.symm
    have hset : {v | v ∈ C.toFinset} = {v | v ∈ C} := Set.ext fun v => List.mem_toFinset
    rw [hset]
    rintro _ ⟨a, ha0, rfl⟩ _ rfl
    have haA : a ∈ A := by simpa using ha0
    have haC := hdis a haA
    have hnda : (a :: C).Nodup := List.nodup_cons.2 ⟨haC, hnd.of_append_right⟩
    have hna : ∀ v ∈ a :: C, v ∈ G.nodes := by
      intro v hv
      rcases List.mem_cons.1 hv with rfl | hv
      · exact hAC _ (List.mem_append_left _ haA)
      · exact hCn v hv
    have hmem : ∀ v, v ∈ (a :: C) ++ A.erase a ↔ v ∈ A ++ C := fun v => by
      have := (List.perm_cons_erase haA).mem_iff (a := v)
      simp only [List.mem_append, List.mem_cons, this]
      tauto
    have hndE : ((a :: C) ++ A.erase a).Nodup := by
      refine (List.Perm.nodup_iff ?_).1 hnd
      refine ((List.perm_cons_erase haA).append_right C).trans ?_
      exact (List.perm_append_comm (l₁ := A.erase a) (l₂ := C)).cons a
    have hsum : ∀ B : DiscreteDAG α, B.dag = G → B.Proper → (∀ v, B.dims v = 2) →
        B.pr (a :: C) (fun _ => 1) = sumL (fun _ => 2) (A.erase a) (B.pr (A ++ C)) fun _ => 1 := by
      intro B hB hp hb
      rw [DiscreteDAG.pr_sum hp.toShaped (M := a :: C) (l := A.erase a) hndE (fun v hv => by rw [hB]; exact hAC v ((hmem v).1 hv)) _
        fun v _ => by rw [hb]; norm_num]
      have : B.dims = fun _ => 2 := funext hb
      rw [this]
      exact sumL_congr fun y _ _ => DiscreteDAG.pr_congr hmem y
    have hlook : ∀ B : DiscreteDAG α, LooksAt (B.pr C) {v | v ∈ C} := fun B x y h => DiscreteDAG.pr_base h
    have hout : ∀ v ∈ A.erase a, v ∉ ({v | v ∈ C} : Set α) := fun v hv => hdis v (List.mem_of_mem_erase hv)
    refine hf a C hnda hna ?_ _ rfl _ rfl
    rw [hsum D e hD hd, hsum D' e' hD' hd', ← sumL_mul (hlook D') hout, ← sumL_mul (hlook D) hout]
    refine sumL_congr fun y h1 h2 => key y fun v hv => ?_
    by_cases hve : v ∈ A.erase a
    · exact h1 v hve
    · rw [h2 v hve]; norm_num

/-- An intervention on the last node of the chain is visible there: two networks on the chain that differ at 2 only. -/
example : ∃ D D' : DiscreteDAG (Fin 3), D.dag = Sample.chain ∧ D'.dag = Sample.chain ∧ D.Proper ∧ D'.Proper ∧
    (∀ v ≠ 2, D'.cond v = D.cond v) ∧ ∃ x : Fin 3 → ℕ, D'.condPr [0] [2] x ≠ D.condPr [0] [2] x := by
  obtain ⟨r, h1, h2⟩ := C230_is_invariant Sample.chain_valid (I := {2}) (by decide) Sample.sep (A := [0]) (C := [2]) (by decide) (by decide)
  have hr : r ≠ true := by
    intro hr
    obtain ⟨r', k1, k2⟩ := C17_is_invariant Sample.chain Sample.chain_valid Sample.sep {0} {2} {2} (by decide)
    have e1 : ([0] : List (Fin 3)).toFinset = {0} := rfl
    have e2 : ([2] : List (Fin 3)).toFinset = {2} := rfl
    rw [e1, e2, k1] at h1
    have hd := k2.1 (by rw [Option.some.inj h1, hr])
    have hE : ∀ a b : Fin 3, Sample.chain.E a b ↔ (a = 0 ∧ b = 1) ∨ (a = 1 ∧ b = 2) := by decide
    refine hd (some 0) ⟨0, by simp, rfl⟩ none rfl [some 0, some 1, some 2, none] ⟨rfl, rfl, by decide, fun u v huv => ?_, fun u v w huvw => ?_⟩
    · obtain ⟨s, t, e⟩ := huv
      have : (u, v) = (some 0, some 1) ∨ (u, v) = (some 1, some 2) ∨ (u, v) = (some 2, none) := by
        rcases s with _ | ⟨a, _ | ⟨b, _ | ⟨c, s⟩⟩⟩
        · simp at e; simp [e]
        · simp at e; simp [e]
        · simp at e; simp [e]
        · have := congrArg List.length e
          simp at this
          omega
      rcases this with h | h | h <;> cases h
      · exact Or.inl (.old ((hE _ _).2 (by simp)))
      · exact Or.inl (.old ((hE _ _).2 (by simp)))
      · exact Or.inr (.target (by simp))
    · obtain ⟨s, t, e⟩ := huvw
      have : (u, v, w) = (some 0, some 1, some 2) ∨ (u, v, w) = (some 1, some 2, none) := by
        rcases s with _ | ⟨a, _ | ⟨b, s⟩⟩
        · simp at e; simp [e]
        · simp at e; simp [e]
        · have := congrArg List.length e
          simp at this
          omega
      rcases this with h | h <;> cases h
      · refine ⟨fun h => ?_, fun _ h => by simp at h⟩
        cases h.2 with
        | old k => exact absurd ((hE _ _).1 k) (by decide)
      · refine ⟨fun _ => ⟨some 2, ⟨2, by simp, rfl⟩, .refl⟩, fun h => ?_⟩
        exact absurd ⟨.old ((hE _ _).2 (by simp)), .target (by simp)⟩ h
  have hn := mt h2.2 hr
  push Not at hn
  obtain ⟨D, D', e, e', hD, hD', -, hs, x, -, -, -, hx⟩ := hn
  exact ⟨D, D', e, e', hD, hD', fun v hv => (hs v (Finset.mem_univ _) (by simpa using hv)).2, x, hx⟩

end Props
