import Verif.Proof.PossibleEffects
import Verif.Props.PDAGRest

/-! # C244: the total effects that a Markov equivalence class leaves possible -/

namespace Props

open Model Model.DAG Spec Relation

variable {n : ℕ}

/-- The estimate `e` of the effect of `i` on `j` for the parents `Z` of `i`: zero if `j` is a parent, and otherwise the first coefficient of
`G.regression_coefficients([j], [i, *Z])`. -/
def RegressionEffect (G : Gauss n ℝ) (i j : Fin n) (Z : Finset ℕ) (e : ℝ) : Prop :=
  (j.val ∈ Z ∧ e = 0) ∨ (j.val ∉ Z ∧ ∃ (k : ℕ) (z : Fin k → Fin n) (M : Matrix (Fin (k + 1)) (Fin 1) ℝ), Function.Injective z ∧
    (Finset.univ.image fun a => (z a).val) = Z ∧
    G.regressionCoefs (fun _ : Fin 1 => j.val) (fun a => (Matrix.vecCons i z a).val) = .ok M ∧ M 0 0 = e)

/-- A list of the elements of a set of nodes. -/
private theorem exists_list {Z : Finset ℕ} (hZ : ∀ x ∈ Z, x < n) :
    ∃ (k : ℕ) (z : Fin k → Fin n), Function.Injective z ∧ (Finset.univ.image fun a => (z a).val) = Z := by
  refine ⟨Z.card, fun a => ⟨Z.equivFin.symm a, hZ _ (Z.equivFin.symm a).2⟩, fun a b h => ?_, ?_⟩
  · exact Z.equivFin.symm.injective (Subtype.ext (Fin.mk.inj h))
  · ext x
    simp only [Finset.mem_image, Finset.mem_univ, true_and]
    exact ⟨fun ⟨a, ha⟩ => ha ▸ (Z.equivFin.symm a).2, fun hx => ⟨Z.equivFin ⟨x, hx⟩, by simp⟩⟩

/-- In every graph that the covariance matrix can come from, the parents of `i` give the effect of `i`. -/
private theorem regressionEffect_iff {G : Gauss n ℝ} (h : G.Plain) (hv : ∀ x, 0 < G.variances x) (hc : G.Current) {H : DAG ℕ} (hH : H.Valid)
    {A : Matrix (Fin n) (Fin n) ℝ} (hA : ∀ a b, A a b ≠ 0 → H.E a.val b.val) {v : Fin n → ℝ} (hv' : ∀ x, 0 < v x)
    (hS : semCov A v = semCov G.weight G.variances) {i j : Fin n} (hij : i ≠ j) {Z : Finset ℕ} (hZ : ∀ x, x ∈ Z ↔ H.E x i.val)
    (hZn : ∀ x ∈ Z, x < n) (e : ℝ) : RegressionEffect G i j Z e ↔ e = (1 - A)⁻¹ i j := by
  have key : ∀ {k : ℕ} {z : Fin k → Fin n} {M : Matrix (Fin (k + 1)) (Fin 1) ℝ}, Function.Injective z → j.val ∉ Z →
      (Finset.univ.image fun a => (z a).val) = Z → (∃ M, G.regressionCoefs (fun _ : Fin 1 => j.val)
        (fun a => (Matrix.vecCons i z a).val) = .ok M ∧ M 0 0 = (1 - A)⁻¹ i j) := by
    intro k z _ hz hj hzZ
    have hzi : ∀ a, z a ≠ i := fun a ha => hH.acyclic i.val (.single ((hZ _).1 (by
      rw [← hzZ, Finset.mem_image]; exact ⟨a, Finset.mem_univ _, by rw [ha]⟩)))
    have hp : Function.Injective (Matrix.vecCons i z) := by
      intro a b hab
      induction a using Fin.cases with
      | zero =>
        induction b using Fin.cases with
        | zero => rfl
        | succ b => exact absurd hab.symm (hzi b)
      | succ a =>
        induction b using Fin.cases with
        | zero => exact absurd hab (hzi a)
        | succ b => exact congrArg Fin.succ (hz hab)
    obtain ⟨M, m1, m2⟩ := Gauss.regressionCoefs_run h.acyclic hv hc (tg := fun _ : Fin 1 => j) hp
    rw [← hS] at m2
    refine ⟨M, m1, effect_of_parents hH hA hv' hij (z := z) (fun x => ?_) (fun hj' => hj ((hZ _).2 hj')) (β := fun a => M a 0)
      fun a => congrFun (congrFun m2 a) 0⟩
    rw [← hZ, ← hzZ, Finset.mem_image]
    exact ⟨fun ⟨a, _, ha⟩ => ⟨a, Fin.ext ha⟩, fun ⟨a, ha⟩ => ⟨a, Finset.mem_univ _, by rw [ha]⟩⟩
  by_cases hj : j.val ∈ Z
  · have h0 : (1 - A)⁻¹ i j = 0 := (sem_row hH hA i).2.2 j (Ne.symm hij) fun hp => hH.acyclic i.val (hp.tail ((hZ _).1 hj))
    rw [h0]
    exact ⟨fun h => h.elim (fun h => h.2) fun h => absurd hj h.1, fun h => .inl ⟨hj, h⟩⟩
  · constructor
    · rintro (h | ⟨-, k, z, M, hz, hzZ, hM, rfl⟩)
      · exact absurd h.1 hj
      · obtain ⟨M', m1, m2⟩ := key (M := M) hz hj hzZ
        rw [hM] at m1
        obtain rfl : M = M' := Except.ok.inj m1
        exact m2
    · rintro rfl
      obtain ⟨k, z, hz, hzZ⟩ := exists_list hZn
      obtain ⟨M, m1, m2⟩ := key (M := 0) hz hj hzZ
      exact .inr ⟨hj, k, z, M, hz, hzZ, m1, m2⟩

/-- C244. Let `G` have its arcs in the DAG `D`, and let `P` be the result of `D.cpdag()`. The regressions of `j` on `i`, the parents of `i` in `P`
and a member of `P.possible_parents(i)` give exactly the entries `i, j` of `direct_effects()` of the linear models on the Markov equivalent
graphs that have the covariance matrix of `G`. -/
theorem C244_possible_effects {D : DAG ℕ} (hD : D.Valid) (hn : D.nodes = Finset.range n) (oa : SetOrder Unit (ℕ × ℕ)) (o : PDAG.OrientOracle ℕ)
    (om om' : SetOrder Unit (ℕ × ℕ)) (ox ox' : PDAG.OrientOracle ℕ) {G : Gauss n ℝ} (h : G.Plain) (hv : ∀ x, 0 < G.variances x)
    (hc : G.Current) (hG : G.dag.arcs ⊆ D.arcs) {i j : Fin n} (hij : i ≠ j) :
    ∃ P, (D.cpdag oa o).run = some (.ok P) ∧ ∀ (o' : SetOrder Unit ℕ) (e : ℝ),
      (∃ s ∈ P.possibleParents o' i.val, RegressionEffect G i j (P.parents i.val ∪ s) e) ↔
      ∃ (H : DAG ℕ) (G' : Gauss n ℝ) (S : Matrix (Fin n) (Fin n) ℝ) (G1 G1' : Gauss n ℝ), H.Valid ∧ H.nodes = Finset.range n ∧
        (D.markovEquivalent om om' ox ox' H none).run = some (.ok ⟨true⟩) ∧ G'.Plain ∧ G'.dag.arcs ⊆ H.arcs ∧ (∀ x, 0 < G'.variances x) ∧
        G'.Current ∧ G.readCovariance = .ok (S, G1) ∧ G'.readCovariance = .ok (S, G1') ∧ G'.directEffects i j = e := by
  have harc : ∀ {G : Gauss n ℝ}, G.Plain → ∀ x y : Fin n, G.weight x y ≠ 0 ↔ (x.val, y.val) ∈ G.dag.arcs := fun h x y => by
    rw [← h.arcs_iff x y, h.names, h.names]
  obtain ⟨P, h1, h2, h3, h4, h5⟩ := cpdag_represents D hD oa o
  refine ⟨P, h1, fun o' e => ?_⟩
  have hpp := fun s => C155_possible_parents D hD ∅ P h2 h3 h4 h5 o' i.val s
  simp only [equivalentCut_empty] at hpp
  have hpar : ∀ {F : ℕ → ℕ → Prop} {s : Finset ℕ}, Equivalent D.E F → ParentsAre (fun i j => {i, j} ∈ P.edges) F i.val s →
      ∀ x, x ∈ P.parents i.val ∪ s ↔ F x i.val := by
    intro F s hF hs x
    rw [Finset.mem_union, h2.parents_iff, hs x]
    have h6 := h5.1 x i.val
    have h7 := h5.2 x i.val
    simp only [equivalentCut_empty] at h6 h7
    constructor
    · rintro (hx | hx)
      · exact h6.1 hx F hF
      · exact hx.2
    · intro hx
      by_cases hall : ∀ F', Equivalent D.E F' → F' x i.val
      · exact .inl (h6.2 hall)
      · push Not at hall
        obtain ⟨F', hF', hne⟩ := hall
        refine .inr ⟨h7.2 ⟨⟨F, hF, hx⟩, F', hF', ?_⟩, hx⟩
        have := (hF'.2.1 x i.val).1 ((hF.2.1 x i.val).2 (.inl hx))
        exact this.resolve_left hne
  have hmeq : ∀ {H : DAG ℕ}, H.Valid → H.nodes = Finset.range n → (SameSkelV D.E H.E ↔
      (D.markovEquivalent om om' ox ox' H none).run = some (.ok ⟨true⟩)) := by
    intro H hH hnH
    obtain ⟨r, r1, r2⟩ := markovEquivalent_spec D H hD hH om om' ox ox'
    rw [and_iff_right (hn.trans hnH.symm)] at r2
    rw [← r2, r1]
    simp
  obtain ⟨G1, hcov, -⟩ := hc.readCovariance h.acyclic
  constructor
  · rintro ⟨s, hs, he⟩
    obtain ⟨F, hF, hsF⟩ := (hpp s).1 hs
    obtain ⟨H, hH, hnH, rfl⟩ := exists_dag (N := Finset.range n) hF.1 (fun a b hab => by
      rw [← hn]
      rcases (hF.2.1 a b).2 (.inl hab) with hab | hab
      · exact nodes_of_valid hD a b hab
      · exact (nodes_of_valid hD b a hab).symm)
    have hsub := ((sameSkelV_iff hD.acyclic hH.acyclic D.nodes (nodes_of_valid hD) (by rw [hn, ← hnH]; exact nodes_of_valid hH)).1 hF.2).2
    rw [hn, coe_range] at hsub
    obtain ⟨A, b, v, hA, hv', hS, -⟩ := gaussOn_mono hD hH hnH hsub (S := semCov G.weight G.variances) (m := 0)
      ⟨G.weight, 0, G.variances, fun x y hxy => hG ((harc h x y).1 hxy), hv, rfl, fun x => by simp⟩
    obtain ⟨G', G1', g1, g2, g3, rfl, rfl, g6, -, g8⟩ := read_amat hH hA b v (SetOrder.any _ _)
    refine ⟨H, G', _, G1, G1', hH, hnH, (hmeq hH hnH).1 hF.2, g2, fun a ha => g6 a.1 a.2 ha, hv', g3.toCurrent, hcov, hS ▸ g8, ?_⟩
    rw [(regressionEffect_iff h hv hc hH hA hv' hS.symm hij (hpar hF hsF) (fun x hx => by
      have := hH.fst_mem _ _ ((hpar hF hsF x).1 hx)
      rwa [hnH, Finset.mem_range] at this) e).1 he, (effects_row g2 i).2 j (Ne.symm hij)]
  · rintro ⟨H, G', S, G2, G2', hH, hnH, hm, g2, g6, hv', hc', k1, k2, rfl⟩
    have hF := (hmeq hH hnH).2 hm
    obtain ⟨G1', hcov', -⟩ := hc'.readCovariance g2.acyclic
    rw [hcov] at k1
    rw [hcov'] at k2
    have hS : semCov G'.weight G'.variances = semCov G.weight G.variances :=
      (congrArg Prod.fst (Except.ok.inj k2)).trans (congrArg Prod.fst (Except.ok.inj k1)).symm
    classical
    have hEq : Equivalent D.E H.E := ⟨hH.acyclic, hF⟩
    have hsF : ParentsAre (fun i j => {i, j} ∈ P.edges) H.E i.val ((Finset.range n).filter fun x => {x, i.val} ∈ P.edges ∧ H.E x i.val) := by
      intro x
      rw [Finset.mem_filter, Finset.mem_range]
      refine ⟨fun h => h.2, fun h => ⟨?_, h⟩⟩
      have := hH.fst_mem _ _ h.2
      rwa [hnH, Finset.mem_range] at this
    refine ⟨_, (hpp _).2 ⟨H.E, hEq, hsF⟩, ?_⟩
    rw [regressionEffect_iff h hv hc hH (fun a b hab => g6 ((harc g2 a b).1 hab)) hv' hS hij (hpar hEq hsF) (fun x hx => by
      have := hH.fst_mem _ _ ((hpar hEq hsF x).1 hx)
      rwa [hnH, Finset.mem_range] at this), (effects_row g2 i).2 j (Ne.symm hij)]

/-- The graph `0 → 1` with weight 1: the data also fit `1 → 0`, where the effect of `0` on `1` is zero. -/
example (oa om om' : SetOrder Unit (ℕ × ℕ)) (o ox ox' : PDAG.OrientOracle ℕ) (o' : SetOrder Unit ℕ) :
    ∃ (G : Gauss 2 ℝ) (P : PDAG ℕ), G.weight = !![0, 1; 0, 0] ∧ ((Sample.natGraph (Finset.range 2) {(0, 1)}).cpdag oa o).run = some (.ok P) ∧
      ∀ e, (∃ s ∈ P.possibleParents o' 0, RegressionEffect G 0 1 (P.parents 0 ∪ s) e) ↔
        ∃ (H : DAG ℕ) (G' : Gauss 2 ℝ) (S : Matrix (Fin 2) (Fin 2) ℝ) (G1 G1' : Gauss 2 ℝ), H.Valid ∧ H.nodes = Finset.range 2 ∧
          ((Sample.natGraph (Finset.range 2) {(0, 1)}).markovEquivalent om om' ox ox' H none).run = some (.ok ⟨true⟩) ∧ G'.Plain ∧
          G'.dag.arcs ⊆ H.arcs ∧ (∀ x, 0 < G'.variances x) ∧ G'.Current ∧ G.readCovariance = .ok (S, G1) ∧
          G'.readCovariance = .ok (S, G1') ∧ G'.directEffects 0 1 = e := by
  have hD := Sample.natGraph_valid (nodes := Finset.range 2) (arcs := {(0, 1)}) (by decide)
  obtain ⟨G, G1, g1, g2, g3, g4, g5, g6, g7, -⟩ := read_amat (n := 2) hD (A := !![0, 1; 0, 0]) (by
      intro i j
      fin_cases i <;> fin_cases j <;> simp [DAG.E, Sample.natGraph]) 0 1 (SetOrder.any _ _)
  obtain ⟨P, h1, h2⟩ := C244_possible_effects hD rfl oa o om om' ox ox' g2 (by rw [g5]; simp) g3.toCurrent (fun a ha => g6 a.1 a.2 ha)
    (i := 0) (j := 1) (by decide)
  exact ⟨G, P, g4, h1, h2 o'⟩

end Props
