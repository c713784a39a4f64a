import Verif.Proof.DiscreteMarginals
import Verif.Proof.Moral
import Verif.Proof.IMap

/-! # The global Markov property of a discrete network -/

namespace Model.DiscreteDAG

open Spec Relation
open scoped NNReal

variable {α : Type} [DecidableEq α] {D : DiscreteDAG α}

omit [DecidableEq α] in
theorem pr_congr {S T : List α} (h : ∀ v, v ∈ S ↔ v ∈ T) (x : α → ℕ) : D.pr S x = D.pr T x := by
  unfold pr
  congr 1
  funext y
  simp only [h]

omit [DecidableEq α] in
theorem pr_base {S : List α} {x x' : α → ℕ} (h : ∀ v ∈ S, x v = x' v) : D.pr S x = D.pr S x' := by
  unfold pr
  congr 1
  funext y
  exact propext ⟨fun k v hv => (k v hv).trans (h v hv), fun k v hv => (k v hv).trans (h v hv).symm⟩

/-- A probability is a sum of entries of the joint distribution. -/
theorem pr_eq_sumL (hD : D.Fits) {M rest : List α} (hV : (M ++ rest).Perm D.dag.nodes.toList) (x : α → ℕ)
    (hx : ∀ v ∈ M, x v < D.dims v) : D.pr M x = sumL D.dims rest D.law x := by
  have h := prob_marginal (d := D.dims) (p := D.kern) (pars := fun v => {u | u ∈ D.pars v}) (kern_depends D) (V := D.dag.nodes)
    (A := D.dag.nodes.toList) (l := []) (M := M) (gone := rest) (by simp) hV
    (fun u hu w hw => by
      rw [Finset.mem_toList] at hu ⊢
      exact hD.valid.fst_mem _ _ (hD.pars_sub u hu w hw)) (by simp) (by simp) (by simp) x hx
  rw [pr, law_eq, h]
  refine sumL_congr fun y _ _ => ?_
  rw [← Finset.prod_map_toList]

/-- Summing over further variables. -/
theorem pr_sum (hD : D.Fits) {M l : List α} (hnd : (M ++ l).Nodup) (hn : ∀ v ∈ M ++ l, v ∈ D.dag.nodes) (x : α → ℕ)
    (hx : ∀ v ∈ M, x v < D.dims v) : D.pr M x = sumL D.dims l (D.pr (M ++ l)) x := by
  set rest := D.dag.nodes.toList.filter (· ∉ M ++ l) with hrest
  have hV : ((M ++ l) ++ rest).Perm D.dag.nodes.toList := by
    refine (List.perm_ext_iff_of_nodup ?_ (Finset.nodup_toList _)).2 fun v => ?_
    · refine List.nodup_append'.2 ⟨hnd, (Finset.nodup_toList _).filter _, fun v h1 h2 => ?_⟩
      rw [hrest, List.mem_filter, decide_eq_true_iff] at h2
      exact h2.2 h1
    · rw [List.mem_append, hrest, List.mem_filter, decide_eq_true_iff, Finset.mem_toList]
      constructor
      · rintro (h | h)
        · exact hn v h
        · exact h.1
      · intro h
        by_cases hv : v ∈ M ++ l
        · exact Or.inl hv
        · exact Or.inr ⟨h, hv⟩
  rw [pr_eq_sumL hD (M := M) (rest := l ++ rest) (by rw [← List.append_assoc]; exact hV) x hx, sumL_append]
  refine sumL_congr fun y hy1 hy2 => ?_
  rw [pr_eq_sumL hD hV y]
  intro v hv
  rcases List.mem_append.1 hv with h | h
  · rw [hy2 v (fun hl => List.disjoint_of_nodup_append hnd h hl)]
    exact hx v h
  · exact hy1 v h

/-- d-separation splits the marginal distribution into two factors. -/
theorem pr_split (hD : D.Tabled) {A B C : List α} (hnd : (A ++ B ++ C).Nodup) (hn : ∀ v ∈ A ++ B ++ C, v ∈ D.dag.nodes)
    (hs : DSep D.dag.E {v | v ∈ A} {v | v ∈ B} {v | v ∈ C}) :
    ∃ F G : (α → ℕ) → ℝ≥0, LooksAt F {v | v ∈ A ∨ v ∈ C} ∧ LooksAt G {v | v ∈ B ∨ v ∈ C} ∧
      ∀ x : α → ℕ, (∀ v ∈ A ++ B ++ C, x v < D.dims v) → D.pr (A ++ B ++ C) x = F x * G x := by
  classical
  obtain ⟨P, -, hP⟩ := ancestral_spec hD.valid (SetOrder.any _ _) (SetOrder.any _ _) (SetOrder.any _ _) (A ++ B ++ C) (A ++ B ++ C) hn
    (fun _ => Iff.rfl)
  obtain ⟨t, -, ht⟩ := DAG.topologicalSort_ok P (SetOrder.any _ _) hP.valid
  have hAB : ∀ v ∈ A, v ∉ B := fun v h1 h2 => List.disjoint_of_nodup_append hnd.of_append_left h1 h2
  have hAC : ∀ v ∈ A, v ∉ C := fun v h1 h2 => List.disjoint_of_nodup_append hnd (List.mem_append_left _ h1) h2
  have hBC : ∀ v ∈ B, v ∉ C := fun v h1 h2 => List.disjoint_of_nodup_append hnd (List.mem_append_right _ h1) h2
  have hT : ∀ v, v ∈ {v | v ∈ P.nodes} ↔ ∃ s ∈ {v | v ∈ A} ∪ {v | v ∈ B} ∪ {v | v ∈ C}, Path0 D.dag.E v s := by
    intro v
    rw [Set.mem_ofPred_eq, hP.nodes_iff]
    simp [or_assoc]
  have hAC' : Disjoint {v | v ∈ A} {v | v ∈ C} := Set.disjoint_left.2 hAC
  have hBC' : Disjoint {v | v ∈ B} {v | v ∈ C} := Set.disjoint_left.2 hBC
  rw [dsep_iff_moral hD.valid.acyclic hAC' hBC' hT, usep_iff hAC'] at hs
  set adj := fun u v => MAdj (Restrict D.dag.E {v | v ∈ P.nodes}) u v ∧ v ∉ {v | v ∈ C} with hadj
  let near : α → Prop := fun v => ∃ a ∈ A, ReflTransGen adj a v
  have near_step : ∀ u v, near u → MAdj (Restrict D.dag.E {v | v ∈ P.nodes}) u v → v ∉ C → near v :=
    fun u v ⟨a, ha, h⟩ hm hv => ⟨a, ha, h.tail ⟨hm, hv⟩⟩
  have clique : ∀ v ∈ P.nodes, ∀ u w, u ∈ insert v {u | u ∈ D.pars v} → w ∈ insert v {u | u ∈ D.pars v} → u = w ∨
      MAdj (Restrict D.dag.E {v | v ∈ P.nodes}) u w := by
    intro v hv u w hu hw
    have par : ∀ p, p ∈ D.pars v → Restrict D.dag.E {v | v ∈ P.nodes} p v := fun p hp =>
      have he := hD.pars_sub v (hP.sub v hv) p hp
      ⟨he, hP.closed he hv, hv⟩
    rcases hu with rfl | hu <;> rcases hw with rfl | hw
    · exact Or.inl rfl
    · exact Or.inr (Or.inl (Or.inr (par w hw)))
    · exact Or.inr (Or.inl (Or.inl (par u hu)))
    · by_cases h : u = w
      · exact Or.inl h
      · exact Or.inr (Or.inr ⟨h, v, par u hu, par w hw⟩)
  let left : α → Prop := fun v => ∀ u ∈ insert v {u | u ∈ D.pars v}, near u ∨ u ∈ C
  have right : ∀ v ∈ P.nodes, ¬ left v → ∀ u ∈ insert v {u | u ∈ D.pars v}, ¬ near u ∨ u ∈ C := by
    intro v hv hl u hu
    by_contra hc
    push Not at hc
    simp only [left, not_forall, not_or] at hl
    obtain ⟨w, hw, h1, h2⟩ := hl
    rcases clique v hv u w hu hw with rfl | h
    · exact h1 hc.1
    · exact h1 (near_step u w hc.1 h h2)
  let f : (α → ℕ) → ℝ≥0 := fun y => ∏ v ∈ P.nodes with left v, D.kern v y
  let g : (α → ℕ) → ℝ≥0 := fun y => ∏ v ∈ P.nodes with ¬ left v, D.kern v y
  have family : ∀ v ∈ P.nodes, ∀ u ∈ insert v {u | u ∈ D.pars v}, u ∈ P.nodes := by
    rintro v hv u (rfl | hu)
    · exact hv
    · exact hP.closed (hD.pars_sub v (hP.sub v hv) u hu) hv
  have hf : LooksAt f {v | v ∈ P.nodes ∧ (near v ∨ v ∈ C)} := by
    intro x y h
    refine Finset.prod_congr rfl fun v hv => kern_depends D v x y fun u hu => h u ?_
    have := Finset.mem_filter.1 hv
    exact ⟨family v this.1 u hu, this.2 u hu⟩
  have hg : LooksAt g {v | v ∈ P.nodes ∧ (¬ near v ∨ v ∈ C)} := by
    intro x y h
    refine Finset.prod_congr rfl fun v hv => kern_depends D v x y fun u hu => h u ?_
    have := Finset.mem_filter.1 hv
    exact ⟨family v this.1 u hu, right v this.1 this.2 u hu⟩
  have hAnear : ∀ v ∈ A, near v := fun v hv => ⟨v, hv, .refl⟩
  have hBnear : ∀ v ∈ B, ¬ near v := fun v hv ⟨a, ha, h⟩ => hs a ha v hv h
  set goneA := t.filter (fun v => v ∉ A ++ B ++ C ∧ near v) with hgA
  set goneB := t.filter (fun v => v ∉ A ++ B ++ C ∧ ¬ near v) with hgB
  have mA : ∀ v, v ∈ goneA ↔ v ∈ P.nodes ∧ v ∉ A ++ B ++ C ∧ near v := fun v => by
    rw [hgA, List.mem_filter, decide_eq_true_iff]; exact and_congr_left fun _ => ht.mem_iff v
  have mB : ∀ v, v ∈ goneB ↔ v ∈ P.nodes ∧ v ∉ A ++ B ++ C ∧ ¬ near v := fun v => by
    rw [hgB, List.mem_filter, decide_eq_true_iff]; exact and_congr_left fun _ => ht.mem_iff v
  refine ⟨sumL D.dims goneA f, sumL D.dims goneB g, ?_, ?_, fun x hx => ?_⟩
  · refine fun x y h => sumL_base hf fun v hv hg => h v ?_
    rcases hv.2 with hv' | hv'
    · by_contra hc
      rw [Set.mem_ofPred_eq, not_or] at hc
      refine hg ((mA v).2 ⟨hv.1, ?_, hv'⟩)
      simp only [List.mem_append, not_or]
      exact ⟨⟨hc.1, fun h => hBnear v h hv'⟩, hc.2⟩
    · exact Or.inr hv'
  · refine fun x y h => sumL_base hg fun v hv hg => h v ?_
    rcases hv.2 with hv' | hv'
    · by_contra hc
      rw [Set.mem_ofPred_eq, not_or] at hc
      refine hg ((mB v).2 ⟨hv.1, ?_, hv'⟩)
      simp only [List.mem_append, not_or]
      exact ⟨⟨fun h => hv' (hAnear v h), hc.1⟩, hc.2⟩
    · exact Or.inr hv'
  · have hperm : ((A ++ B ++ C) ++ (goneA ++ goneB)).Perm t := by
      refine (List.perm_ext_iff_of_nodup ?_ ht.nodup).2 fun v => ?_
      · refine List.nodup_append'.2 ⟨hnd, List.nodup_append'.2 ⟨ht.nodup.filter _, ht.nodup.filter _, fun v h1 h2 => ?_⟩, fun v h1 h2 => ?_⟩
        · exact ((mB v).1 h2).2.2 ((mA v).1 h1).2.2
        · rcases List.mem_append.1 h2 with h2 | h2
          · exact ((mA v).1 h2).2.1 h1
          · exact ((mB v).1 h2).2.1 h1
      · rw [List.mem_append, List.mem_append (s := goneA), mA, mB]
        have h1 : v ∈ t ↔ v ∈ P.nodes := ht.mem_iff v
        have h2 := hP.mem v
        rw [h1]
        by_cases h3 : v ∈ A ++ B ++ C
        · simp only [h3, h2 h3, true_or]
        · by_cases h4 : near v <;> simp only [h3, h4, false_or, or_false, not_true, not_false_iff, and_true, and_false]
    rw [pr, ← hP.prob hD ht hperm (SetOrder.any _ _) x hx, sumL_append]
    have hfg : (fun y => (t.map fun v => D.kern v y).prod) = fun y => g y * f y := by
      funext y
      rw [mul_comm, Finset.prod_filter_mul_prod_filter_not, ← List.prod_toFinset _ ht.nodup]
      refine Finset.prod_congr ?_ fun _ _ => rfl
      ext v
      rw [List.mem_toFinset]
      exact ht.mem_iff v
    rw [hfg, ← sumL_mul (f := f) (g := sumL D.dims goneB g) (dependsOn_sumL hg)]
    · refine sumL_congr fun y _ _ => ?_
      rw [sumL_mul hf, mul_comm]
      rintro v hv ⟨-, h | h⟩
      · exact ((mB v).1 hv).2.2 h
      · exact ((mB v).1 hv).2.1 (by simp [h])
    · rintro v hv ⟨⟨-, h | h⟩, -⟩
      · exact h ((mA v).1 hv).2.2
      · exact ((mA v).1 hv).2.1 (by simp [h])

/-- The global Markov property. -/
theorem pr_dsep (hD : D.Tabled) {A B C : List α} (hnd : (A ++ B ++ C).Nodup) (hn : ∀ v ∈ A ++ B ++ C, v ∈ D.dag.nodes)
    (hs : DSep D.dag.E {v | v ∈ A} {v | v ∈ B} {v | v ∈ C}) {x : α → ℕ} (hx : ∀ v ∈ A ++ B ++ C, x v < D.dims v) :
    D.pr (A ++ B ++ C) x * D.pr C x = D.pr (A ++ C) x * D.pr (B ++ C) x := by
  obtain ⟨F, G, hF, hG, h⟩ := pr_split hD hnd hn hs
  have hAB : ∀ v ∈ A, v ∉ B := fun v h1 h2 => List.disjoint_of_nodup_append hnd.of_append_left h1 h2
  have hAC : ∀ v ∈ A, v ∉ C := fun v h1 h2 => List.disjoint_of_nodup_append hnd (List.mem_append_left _ h1) h2
  have hBC : ∀ v ∈ B, v ∉ C := fun v h1 h2 => List.disjoint_of_nodup_append hnd (List.mem_append_right _ h1) h2
  have hxC : ∀ v ∈ C, x v < D.dims v := fun v hv => hx v (by simp [hv])
  have hn' : ∀ {l : List α}, l.Perm (A ++ B ++ C) → ∀ v ∈ l, v ∈ D.dag.nodes := fun hl v hv => hn v (hl.mem_iff.1 hv)
  have p1 : ((A ++ C) ++ B).Perm (A ++ B ++ C) := by
    rw [List.append_assoc, List.append_assoc]; exact List.perm_append_comm.append_left A
  have p2 : ((B ++ C) ++ A).Perm (A ++ B ++ C) := by
    rw [List.append_assoc A]; exact List.perm_append_comm
  have p3 : (C ++ (A ++ B)).Perm (A ++ B ++ C) := List.perm_append_comm
  have e1 : D.pr (A ++ C) x = F x * sumL D.dims B G x := by
    rw [pr_sum hD.toFits (p1.nodup_iff.2 hnd) (hn' p1) x (fun v hv => hx v (p1.mem_iff.1 (List.mem_append_left _ hv))), mul_comm,
      ← sumL_mul hF (fun v hv h => h.elim (fun h => hAB v h hv) (hBC v hv))]
    refine sumL_congr fun y hy1 hy2 => ?_
    rw [pr_congr (fun v => p1.mem_iff), h y, mul_comm]
    intro v hv
    by_cases hB : v ∈ B
    · exact hy1 v hB
    · rw [hy2 v hB]; exact hx v hv
  have e2 : D.pr (B ++ C) x = sumL D.dims A F x * G x := by
    rw [pr_sum hD.toFits (p2.nodup_iff.2 hnd) (hn' p2) x (fun v hv => hx v (p2.mem_iff.1 (List.mem_append_left _ hv))),
      ← sumL_mul hG (fun v hv h => h.elim (hAB v hv) (hAC v hv))]
    refine sumL_congr fun y hy1 hy2 => ?_
    rw [pr_congr (fun v => p2.mem_iff), h y]
    intro v hv
    by_cases hA : v ∈ A
    · exact hy1 v hA
    · rw [hy2 v hA]; exact hx v hv
  have e3 : D.pr C x = sumL D.dims A F x * sumL D.dims B G x := by
    rw [pr_sum hD.toFits (p3.nodup_iff.2 hnd) (hn' p3) x hxC, sumL_append,
      ← sumL_mul (dependsOn_sumL hG) (fun v hv h => h.1.elim (hAB v hv) (hAC v hv))]
    refine sumL_congr fun y hy1 hy2 => ?_
    rw [mul_comm, ← sumL_mul hF (fun v hv h => h.elim (fun h => hAB v h hv) (hBC v hv))]
    refine sumL_congr fun z hz1 hz2 => ?_
    rw [pr_congr (fun v => p3.mem_iff), h z, mul_comm]
    intro v hv
    by_cases hB : v ∈ B
    · exact hz1 v hB
    · rw [hz2 v hB]
      by_cases hA : v ∈ A
      · exact hy1 v hA
      · rw [hy2 v hA]; exact hx v hv
  rw [h x hx, e1, e2, e3]
  ring

end Model.DiscreteDAG
