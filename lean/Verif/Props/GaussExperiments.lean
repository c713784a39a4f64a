import Verif.Proof.GaussExperiments
import Verif.Props.GaussImap
import Verif.Spec.GaussExperiments

/-! # Interventional equivalence and Gaussian distributions (property C246) -/

namespace Props

open Model Model.DAG Spec Relation

variable {n : ℕ} {G H : DAG ℕ} {κ : Type} {perfect : Prop}

theorem gaussOn_of_explains {E : ℕ → ℕ → Prop} {J : κ → Finset ℕ} {S : Matrix (Fin n) (Fin n) ℝ} {m : Fin n → ℝ}
    {T : κ → Matrix (Fin n) (Fin n) ℝ} {μ : κ → Fin n → ℝ} (h : GaussExplains perfect E J S m T μ) : GaussOn E S m := by
  obtain ⟨A, b, v, h, -⟩ := h
  exact ⟨A, b, v, h.arcs, h.pos, h.cov, h.mean⟩

/-- Equations with the weights of the targets set to zero. -/
noncomputable def cutWeights (A : Matrix (Fin n) (Fin n) ℝ) (I : Finset ℕ) : Matrix (Fin n) (Fin n) ℝ := fun i j => if j.val ∈ I then 0 else A i j

theorem cutWeights_arcs {E : ℕ → ℕ → Prop} {A : Matrix (Fin n) (Fin n) ℝ} (hA : ∀ i j, A i j ≠ 0 → E i.val j.val) (I : Finset ℕ) (i j : Fin n)
    (h : cutWeights A I i j ≠ 0) : E i.val j.val := by
  by_cases hj : j.val ∈ I
  · exact absurd (if_pos hj) h
  · exact hA i j fun h0 => h (by rw [cutWeights, if_neg hj, h0])

/-- Every distribution of the graph can be observed before some experiments. -/
theorem explains_of_gaussOn (hG : G.Valid) (J : κ → Finset ℕ) {A : Matrix (Fin n) (Fin n) ℝ} {b v m : Fin n → ℝ}
    (hA : ∀ i j, A i j ≠ 0 → G.E i.val j.val) (hv : ∀ i, 0 < v i) (hm : LinearSEM A b m) :
    ∃ μ, GaussExplains perfect G.E J (semCov A v) m (fun k => semCov (cutWeights A (J k)) v) μ := by
  have hA' := fun k : κ => cutWeights_arcs hA (J k)
  choose μ hμ using fun k : κ => sem_exists (acyclic_mono (hA' k) (fin_acyclic hG)) b
  refine ⟨μ, A, b, v, ⟨hA, hv, rfl, hm⟩, fun k => ⟨_, b, v, ⟨hA' k, hv, rfl, hμ k⟩, fun j hj => ⟨fun i => if_neg hj, rfl, rfl⟩,
    fun _ j hj i => if_pos hj⟩⟩

/-- An arc out of a target cannot be reversed. -/
theorem arc_of_gaussExplains {J : κ → Finset ℕ} (hG : G.Valid) (hH : H.Valid) (hnG : G.nodes = Finset.range n)
    (h : ∀ (S : Matrix (Fin n) (Fin n) ℝ) m T μ, GaussExplains perfect H.E J S m T μ → GaussExplains perfect G.E J S m T μ) {k : κ} {a b : ℕ}
    (ha : a ∈ J k) (hb : b ∉ J k) (hab : G.E a b) : ¬ H.E b a := by
  intro hba
  obtain ⟨a, rfl⟩ : ∃ i : Fin n, i.val = a := ⟨⟨a, by have := hG.fst_mem _ _ hab; rwa [hnG, Finset.mem_range] at this⟩, rfl⟩
  obtain ⟨b, rfl⟩ : ∃ i : Fin n, i.val = b := ⟨⟨b, by have := hG.snd_mem _ _ hab; rwa [hnG, Finset.mem_range] at this⟩, rfl⟩
  have hne : a ≠ b := by rintro rfl; exact hG.acyclic.irrefl hab
  let A : Matrix (Fin n) (Fin n) ℝ := fun i j => if i = b ∧ j = a then 1 else 0
  have hR : ∀ i j, A i j ≠ 0 → i = b ∧ j = a := by
    intro i j hij
    by_contra hc
    exact hij (if_neg hc)
  have hA : ∀ i j, A i j ≠ 0 → H.E i.val j.val := by
    intro i j hij
    obtain ⟨rfl, rfl⟩ := hR i j hij
    exact hba
  have hS := semCov_posDef (acyclic_mono hA (fin_acyclic hH)) (v := 1) fun _ => one_pos
  -- `a` is `b` plus an error
  have h1 : semCov A 1 b a ≠ 0 := by
    have hcyc : Acyclic fun i j : Fin n => i = b ∧ j = a := acyclic_mono (by rintro i j ⟨rfl, rfl⟩; exact hba) (fin_acyclic hH)
    have := ((equation_residual hcyc hR 1 a).1).uncorrelated b ⟨rfl, rfl⟩
    rw [lcov_single, Matrix.mulVec, dotProduct] at this
    have e : ∑ i, semCov A 1 b i * equation A a i = semCov A 1 b a - semCov A 1 b b := by
      have e1 : ∀ i, equation A a i = (if i = a then 1 else 0) - if i = b then 1 else 0 := by
        intro i
        rw [equation, Matrix.sub_apply, Matrix.one_apply]
        simp [A]
      simp [e1, mul_sub, Finset.sum_sub_distrib]
    rw [e] at this
    have hp := hS.diag_pos (i := b)
    intro h0
    rw [h0] at this
    linarith
  obtain ⟨μ, hμ⟩ := explains_of_gaussOn (perfect := perfect) hH J hA (v := 1) (b := 0) (m := 0) (fun _ => one_pos) (fun j => by simp)
  obtain ⟨B, c, w, hB, hk⟩ := h _ _ _ _ hμ
  obtain ⟨B', c', w', hB', hs, -⟩ := hk k
  have hcut : cutWeights A (J k) = 0 := by
    ext i j
    by_cases hj : j.val ∈ J k
    · exact if_pos hj
    · rw [cutWeights, if_neg hj]
      by_contra h0
      exact hj ((hR i j h0).2 ▸ ha)
  have hE := fin_acyclic (n := n) hG
  obtain ⟨r1, -⟩ := equation_residual hE hB.arcs w b
  obtain ⟨r2, -⟩ := equation_residual hE hB'.arcs w' b
  rw [← hB.cov] at r1
  rw [← hB'.cov] at r2
  beta_reduce at r2
  rw [hcut] at r2
  have he : equation B' b = equation B b := by
    ext i
    simp only [equation, Matrix.sub_apply, (hs b hb).1 i]
  have hone : semCov (0 : Matrix (Fin n) (Fin n) ℝ) 1 = 1 := by simp [semCov]
  have hz : ∀ i, i ≠ b → equation B b i = 0 := by
    intro i hi
    by_cases hp : G.E i.val b.val
    · have := r2.uncorrelated i hp
      rwa [hone, lcov_single, Matrix.one_mulVec, he] at this
    · exact r1.support i hi hp
  have := r1.uncorrelated a hab
  rw [lcov_single, Matrix.mulVec, dotProduct, Finset.sum_eq_single b (fun i _ hi => by rw [hz i hi, mul_zero]) (by simp), r1.self, mul_one] at this
  have hsym := congrFun (congrFun (semCov_symm A 1) a) b
  rw [Matrix.transpose_apply, this] at hsym
  exact h1 hsym

/-- Equivalent graphs with the same arcs between targets and other nodes explain the same observations. -/
theorem gaussExplains_of_equivalent {J : κ → Finset ℕ} (hG : G.Valid) (hH : H.Valid) (hnG : G.nodes = Finset.range n) (hnH : H.nodes = Finset.range n)
    (hs : SameSkelV H.E G.E) (hc : ∀ k a b, a ∈ J k → b ∉ J k → (H.E a b ↔ G.E a b) ∧ (H.E b a ↔ G.E b a))
    {S : Matrix (Fin n) (Fin n) ℝ} {m : Fin n → ℝ} {T : κ → Matrix (Fin n) (Fin n) ℝ} {μ : κ → Fin n → ℝ}
    (h : GaussExplains perfect G.E J S m T μ) : GaussExplains perfect H.E J S m T μ := by
  obtain ⟨A, b, v, hA, hk⟩ := h
  obtain ⟨order, ho⟩ := fin_order hH hnH
  have hHn : ∀ a b, H.E a b → a < n := fun a b h => by
    have := hH.fst_mem _ _ h
    rwa [hnH, Finset.mem_range] at this
  have inG : ∀ a b, G.E a b → a ∈ G.nodes ∧ b ∈ G.nodes := fun a b h => ⟨hG.fst_mem _ _ h, hG.snd_mem _ _ h⟩
  have inH : ∀ a b, H.E a b → a ∈ G.nodes ∧ b ∈ G.nodes := fun a b h => by
    rw [hnG, ← hnH]; exact ⟨hH.fst_mem _ _ h, hH.snd_mem _ _ h⟩
  have refit : ∀ {A : Matrix (Fin n) (Fin n) ℝ} {v : Fin n → ℝ} {E F : ℕ → ℕ → Prop}, (∀ a b, E a b → G.E a b) → (∀ a b, F a b → H.E a b) →
      SameSkelV F E → (∀ i j, A i j ≠ 0 → E i.val j.val) → (∀ i, 0 < v i) →
      ∃ (B : Matrix (Fin n) (Fin n) ℝ) (w : Fin n → ℝ), (∀ i, 0 < w i) ∧ (∀ i j, B i j ≠ 0 → F i.val j.val) ∧ semCov B w = semCov A v := by
    intro A v E F hE hF hs hA hv
    have aE := acyclic_mono hE hG.acyclic
    have aF := acyclic_mono hF hH.acyclic
    have hsub := ((sameSkelV_iff aF aE G.nodes (fun a b h => inH a b (hF a b h)) (fun a b h => inG a b (hE a b h))).1 hs).1
    rw [hnG, coe_range] at hsub
    obtain ⟨B, w, -, h1, h2, h3⟩ := sem_on_imap aE aF hsub (fun i j h => ho i j (hF _ _ h)) (fun a b h => hHn a b (hF _ _ h)) hA hv
    exact ⟨B, w, h1, h2, h3⟩
  obtain ⟨B, w, hw, hB, hcov⟩ := refit (fun _ _ h => h) (fun _ _ h => h) hs hA.arcs hA.pos
  have center : ∀ (B : Matrix (Fin n) (Fin n) ℝ) (m : Fin n → ℝ), LinearSEM B (fun j => m j - ∑ i, B i j • m i) m := fun B m j => by
    ring
  refine ⟨B, _, w, ⟨hB, hw, hA.cov.trans hcov.symm, center B m⟩, fun k => ?_⟩
  obtain ⟨A', b', v', hA', hsame, hperf⟩ := hk k
  have hB' : ∃ (B' : Matrix (Fin n) (Fin n) ℝ) (w' : Fin n → ℝ), (∀ i, 0 < w' i) ∧ (∀ i j, B' i j ≠ 0 → H.E i.val j.val) ∧
      semCov B' w' = semCov A' v' ∧ (perfect → ∀ j, j.val ∈ J k → ∀ i, B' i j = 0) := by
    by_cases hp : perfect
    · obtain ⟨B', w', h1, h2, h3⟩ := refit (E := Mutilated G.E (J k)) (F := Mutilated H.E (J k)) (fun _ _ h => h.1) (fun _ _ h => h.1)
        (sameSkelV_mutilated hH.acyclic hG.acyclic hs (hc k)) (fun i j hij => ⟨hA'.arcs i j hij, fun hj => hij (hperf hp j hj i)⟩) hA'.pos
      refine ⟨B', w', h1, fun i j hij => (h2 i j hij).1, h3, fun _ j hj i => ?_⟩
      by_contra h0
      exact (h2 i j h0).2 hj
    · obtain ⟨B', w', h1, h2, h3⟩ := refit (fun _ _ h => h) (fun _ _ h => h) hs hA'.arcs hA'.pos
      exact ⟨B', w', h1, h2, h3, fun h => absurd h hp⟩
  obtain ⟨B', w', hw', hB', hcov', hz⟩ := hB'
  refine ⟨B', _, w', ⟨hB', hw', hA'.cov.trans hcov'.symm, center B' (μ k)⟩, fun j hj => ?_, hz⟩
  have hs' : SameSkelV (fun i j : Fin n => H.E i.val j.val) fun i j => G.E i.val j.val :=
    ⟨fun i j => hs.skel i.val j.val, fun i c j => by
      have := hs.vstr i.val c.val j.val
      simp only [VStruct, Adj, Ne, Fin.val_inj] at this ⊢
      exact this⟩
  exact equations_transfer (fin_acyclic hG) (fin_acyclic hH) (I := {i : Fin n | i.val ∈ J k})
    (sameSkelV_augment hs' fun i j hi hj => hc k i.val j.val hi hj)
    hA.arcs hA'.arcs hB hB' hA.pos hA'.pos (fun j hj => hsame j hj) hcov hcov' hA.mean hA'.mean (center B m) (center B' (μ k)) hj

/-- C246. `markov_equivalent(other, interventions)` answers `True` exactly if both graphs explain the same Gaussian distributions before and
after interventions that change the equations of the targets; the same holds for perfect interventions. -/
theorem C246_gaussian_interventional (perfect : Prop) (hG : G.Valid) (hH : H.Valid) (hnG : G.nodes = Finset.range n) (hnH : H.nodes = Finset.range n)
    (oa oa' : SetOrder Unit (ℕ × ℕ)) (o o' : PDAG.OrientOracle ℕ) (iv : List (Finset ℕ)) :
    ∃ r : Bool, (G.markovEquivalent oa oa' o o' H (some iv)).run = some (.ok ⟨r⟩) ∧
      (r = true ↔ ∀ (S : Matrix (Fin n) (Fin n) ℝ) (m : Fin n → ℝ) (T : Fin iv.length → Matrix (Fin n) (Fin n) ℝ) (μ : Fin iv.length → Fin n → ℝ),
        GaussExplains perfect G.E (fun k => iv[k]) S m T μ ↔ GaussExplains perfect H.E (fun k => iv[k]) S m T μ) := by
  obtain ⟨r, h1, h2⟩ := C65_interventional_equivalence G H hG hH oa oa' o o' iv
  refine ⟨r, h1, h2.trans ?_⟩
  rw [and_iff_right (hnG.trans hnH.symm)]
  constructor
  · rintro ⟨hs, hm⟩ S m T μ
    have cut : ∀ k : Fin iv.length, ∀ a b, a ∈ iv[k] → b ∉ iv[k] → (G.E a b ↔ H.E a b) ∧ (G.E b a ↔ H.E b a) := by
      intro k a b ha hb
      have out : ∀ {E F : ℕ → ℕ → Prop}, (∀ a b, Adj (Mutilated E iv[k]) a b → Adj (Mutilated F iv[k]) a b) → E a b → F a b := by
        intro E F hm h
        rcases hm a b (Or.inl ⟨h, hb⟩) with h | h
        · exact h.1
        · exact absurd ha h.2
      have hk : iv[k] ∈ iv := List.getElem_mem k.2
      have h1 : G.E a b ↔ H.E a b := ⟨out fun a b => (hm _ hk a b).1, out fun a b => (hm _ hk a b).2⟩
      have h2 := hs.skel b a
      refine ⟨h1, fun h => ?_, fun h => ?_⟩
      · rcases h2.1 (Or.inl h) with h' | h'
        · exact h'
        · exact absurd (h1.2 h') (hG.acyclic.asymm h)
      · rcases h2.2 (Or.inl h) with h' | h'
        · exact h'
        · exact absurd (h1.1 h') (hH.acyclic.asymm h)
    exact ⟨gaussExplains_of_equivalent hG hH hnG hnH ⟨fun a b => (hs.skel a b).symm, fun a c b => (hs.vstr a c b).symm⟩
        fun k a b ha hb => ⟨(cut k a b ha hb).1.symm, (cut k a b ha hb).2.symm⟩,
      gaussExplains_of_equivalent hH hG hnH hnG hs cut⟩
  · intro h
    have sub : ∀ {G H : DAG ℕ}, G.Valid → (∀ (S : Matrix (Fin n) (Fin n) ℝ) m (T : Fin iv.length → Matrix (Fin n) (Fin n) ℝ) μ,
        GaussExplains perfect G.E (fun k => iv[k]) S m T μ → GaussExplains perfect H.E (fun k => iv[k]) S m T μ) →
        ∀ (S : Matrix (Fin n) (Fin n) ℝ) m, GaussOn G.E S m → GaussOn H.E S m := by
      rintro G H hG h S m ⟨A, b, v, hA, hv, rfl, hm⟩
      obtain ⟨μ, hμ⟩ := explains_of_gaussOn (perfect := perfect) hG (fun k : Fin iv.length => iv[k]) hA hv hm
      exact gaussOn_of_explains (h _ _ _ _ hμ)
    have hs : SameSkelV G.E H.E := by
      rw [sameSkelV_iff hG.acyclic hH.acyclic G.nodes (nodes_of_valid hG) (by rw [hnG, ← hnH]; exact nodes_of_valid hH), hnG, coe_range]
      exact ⟨subModel_of_family hH hG hnH (sub hH fun S m T μ => (h S m T μ).2),
        subModel_of_family hG hH hnG (sub hG fun S m T μ => (h S m T μ).1)⟩
    refine ⟨hs, fun I hI a b => ?_⟩
    obtain ⟨l, hk, rfl⟩ := List.getElem_of_mem hI
    have half : ∀ {E F : ℕ → ℕ → Prop}, (∀ a b, Adj E a b ↔ Adj F a b) → (∀ a b, a ∈ iv[l] → b ∉ iv[l] → E a b → ¬ F b a) →
        ∀ a b, Mutilated E iv[l] a b → Adj (Mutilated F iv[l]) a b := by
      rintro E F hs hr a b ⟨h1, h2⟩
      by_cases ha : a ∈ iv[l]
      · exact Or.inl ⟨((hs a b).1 (Or.inl h1)).resolve_right (hr a b ha h2 h1), h2⟩
      · exact ((hs a b).1 (Or.inl h1)).imp (fun h => ⟨h, h2⟩) fun h => ⟨h, ha⟩
    have r1 : ∀ a b, a ∈ iv[l] → b ∉ iv[l] → G.E a b → ¬ H.E b a := fun a b ha hb =>
      arc_of_gaussExplains hG hH hnG (fun S m T μ => (h S m T μ).2) (k := ⟨l, hk⟩) ha hb
    have r2 : ∀ a b, a ∈ iv[l] → b ∉ iv[l] → H.E a b → ¬ G.E b a := fun a b ha hb =>
      arc_of_gaussExplains hH hG hnH (fun S m T μ => (h S m T μ).1) (k := ⟨l, hk⟩) ha hb
    have hs' : ∀ a b, Adj H.E a b ↔ Adj G.E a b := fun a b => (hs.skel a b).symm
    exact ⟨fun hh => hh.elim (half hs.skel r1 a b) fun hh => (half hs.skel r1 b a hh).symm,
      fun hh => hh.elim (half hs' r2 a b) fun hh => (half hs' r2 b a hh).symm⟩

/-- The arc `1 → 0`. -/
def Sample.back2 : DAG ℕ := Sample.natGraph (Finset.range 2) {(1, 0)}

theorem Sample.back2_valid : Sample.back2.Valid := by
  have h : ∀ i j : ℕ, (i, j) ∈ ({(1, 0)} : Finset (ℕ × ℕ)) ↔ i = 1 ∧ j = 0 := fun i j => by simp
  refine ⟨⟨?_, ?_, ?_, ?_, ?_⟩, fun v hv => ?_⟩
  · intro i j
    simp only [Sample.back2, Sample.natGraph, Finset.mem_filter, Finset.mem_range, h]
    omega
  · intro i j
    simp only [Sample.back2, Sample.natGraph, Finset.mem_filter, Finset.mem_range, h]
    omega
  · intro i j
    simp only [Sample.back2, Sample.natGraph, Finset.mem_filter, Finset.mem_range, h]
    omega
  · intro i j
    simp only [Sample.back2, Sample.natGraph, Finset.mem_range, h]
    omega
  · intro i j
    simp only [Sample.back2, Sample.natGraph, Finset.mem_range, h]
    omega
  · have : ∀ a b, Path Sample.back2.E a b → b < a := fun a b hab => by
      induction hab with
      | single e => have := (h _ _).1 e; omega
      | tail _ e ih => have := (h _ _).1 e; omega
    exact lt_irrefl _ (this v v hv)

/-- A perfect intervention on 0 tells `0 → 1` from `0 ← 1`, an intervention on both variables does not. -/
example : (∃ S m T μ, ¬ (GaussExplains (n := 2) True (Sample.natGraph (Finset.range 2) {(0, 1)}).E (fun _ : Fin 1 => {0}) S m T μ ↔
      GaussExplains True Sample.back2.E (fun _ : Fin 1 => {0}) S m T μ)) ∧
    ∀ S m T μ, GaussExplains (n := 2) True (Sample.natGraph (Finset.range 2) {(0, 1)}).E (fun _ : Fin 1 => {0, 1}) S m T μ ↔
      GaussExplains True Sample.back2.E (fun _ : Fin 1 => {0, 1}) S m T μ := by
  have hv : (Sample.natGraph (Finset.range 2) {(0, 1)}).Valid := Sample.natGraph_valid (by decide)
  have e : ∀ I : Finset ℕ, (fun k : Fin [I].length => [I][k]) = fun _ => I := by intro I; funext k; fin_cases k; rfl
  have key : ∀ I : Finset ℕ, (∀ S m T μ, GaussExplains (n := 2) True (Sample.natGraph (Finset.range 2) {(0, 1)}).E (fun _ : Fin 1 => I) S m T μ ↔
      GaussExplains True Sample.back2.E (fun _ : Fin 1 => I) S m T μ) ↔
      SameSkelV (Sample.natGraph (Finset.range 2) {(0, 1)}).E Sample.back2.E ∧
        ∀ a b, Adj (Mutilated (Sample.natGraph (Finset.range 2) {(0, 1)}).E I) a b ↔ Adj (Mutilated Sample.back2.E I) a b := by
    intro I
    obtain ⟨r, h1, h2⟩ := C246_gaussian_interventional (n := 2) True hv Sample.back2_valid rfl rfl Sample.order Sample.order
      ⟨Sample.order, Sample.order⟩ ⟨Sample.order, Sample.order⟩ [I]
    obtain ⟨r', h3, h4⟩ := C65_interventional_equivalence _ _ hv Sample.back2_valid Sample.order Sample.order
      ⟨Sample.order, Sample.order⟩ ⟨Sample.order, Sample.order⟩ [I]
    rw [h1] at h3
    cases h3
    rw [e] at h2
    refine h2.symm.trans (h4.trans ?_)
    simp only [List.mem_singleton, forall_eq]
    exact and_iff_right rfl
  have a1 : ∀ a b, (Sample.natGraph (Finset.range 2) {(0, 1)}).E a b ↔ a = 0 ∧ b = 1 := fun a b => by simp [Sample.natGraph, DAG.E]
  have a2 : ∀ a b, Sample.back2.E a b ↔ a = 1 ∧ b = 0 := fun a b => by simp [Sample.back2, Sample.natGraph, DAG.E]
  constructor
  · by_contra hc
    push Not at hc
    have := (((key {0}).1 fun S m T μ => hc S m T μ).2 0 1).1 (Or.inl ⟨(a1 _ _).2 ⟨rfl, rfl⟩, by decide⟩)
    rcases this with h | h
    · have := (a2 _ _).1 h.1; omega
    · exact h.2 (by decide)
  · refine (key {0, 1}).2 ⟨⟨fun a b => ?_, fun a c b => ?_⟩, fun a b => ?_⟩
    · unfold Adj; rw [a1, a1, a2, a2]; tauto
    · unfold VStruct; rw [a1, a1, a2, a2]; omega
    · unfold Adj Mutilated
      rw [a1, a1, a2, a2]
      simp only [Finset.mem_insert, Finset.mem_singleton]
      omega

end Props
