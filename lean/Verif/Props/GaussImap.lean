import Verif.Proof.Faithful
import Verif.Proof.Rename
import Verif.Props.CPDAG
import Verif.Props.Covered
import Verif.Props.DiscreteMarkov
import Verif.Props.DiscreteSample
import Verif.Spec.GaussFamily

/-! # d-separation, I-maps and Markov equivalence in terms of Gaussian distributions (properties C223–C226) -/

namespace Props

open Model Model.DAG Spec Relation

variable {n : ℕ}

/-- The positions of the nodes in a topological order. -/
theorem fin_order {D : DAG ℕ} (hD : D.Valid) (hn : D.nodes = Finset.range n) :
    ∃ order : Fin n ≃ Fin n, ∀ i j : Fin n, D.E i.val j.val → order.symm i < order.symm j := by
  obtain ⟨l, -, hl⟩ := topologicalSort_ok D (SetOrder.any _ _) hD
  have hmem : ∀ k : Fin n, k.val ∈ l := fun k => (hl.mem_iff _).2 (by rw [hn]; simp)
  have hlen : l.length = n := by
    have h1 : l.toFinset = Finset.range n := by
      ext x
      rw [List.mem_toFinset, hl.mem_iff, hn]; simp
    have h2 := List.toFinset_card_of_nodup hl.nodup
    rw [h1, Finset.card_range] at h2
    exact h2.symm
  let f : Fin n → Fin n := fun k => ⟨l.idxOf k.val, hlen ▸ List.idxOf_lt_length_iff.2 (hmem k)⟩
  have hf : Function.Injective f := by
    intro a b hab
    have h : l.idxOf a.val = l.idxOf b.val := congrArg Fin.val hab
    exact Fin.ext ((List.idxOf_inj (hmem a)).1 h)
  refine ⟨(Equiv.ofBijective f (Finite.injective_iff_bijective.1 hf)).symm, fun i j hij => ?_⟩
  exact idxOf_lt_of_sublist hl.nodup (hl.before _ _ hij)

theorem fin_iso {D : DAG ℕ} (hD : D.Valid) (hn : D.nodes = Finset.range n) :
    Iso (Set.univ : Set (Fin n)) (fun i j => D.E i.val j.val) D.E Fin.val where
  inj := Fin.val_injective.injOn
  nodes _ _ _ := ⟨trivial, trivial⟩
  arcs x y := by
    constructor
    · intro h
      have h1 := hD.fst_mem _ _ h
      have h2 := hD.snd_mem _ _ h
      rw [hn, Finset.mem_range] at h1 h2
      exact ⟨⟨x, h1⟩, ⟨y, h2⟩, h, rfl, rfl⟩
    · rintro ⟨a, b, h, rfl, rfl⟩
      exact h

theorem fin_dsep {D : DAG ℕ} (hD : D.Valid) (hn : D.nodes = Finset.range n) (i j : Fin n) (C : Set (Fin n)) :
    DSep D.E {i.val} {j.val} (Fin.val '' C) ↔ DSep (fun i j : Fin n => D.E i.val j.val) {i} {j} C := by
  rw [← (fin_iso hD hn).dsep (Set.subset_univ _) (Set.subset_univ _) (Set.subset_univ _), Set.image_singleton, Set.image_singleton]

theorem fin_acyclic {D : DAG ℕ} (hD : D.Valid) : Acyclic fun i j : Fin n => D.E i.val j.val := by
  intro x hx
  exact hD.acyclic _ (TransGen.lift Fin.val (fun i j h => h) _ _ hx)

theorem sem_exists {A : Matrix (Fin n) (Fin n) ℝ} (hA : AcyclicWeights A) (b : Fin n → ℝ) : ∃ m, LinearSEM A b m := by
  have hu : IsUnit (1 - A).det := isUnit_iff_ne_zero.2 (det_ne_zero hA)
  refine ⟨Matrix.vecMul b (1 - A)⁻¹, fun j => ?_⟩
  have h : Matrix.vecMul (Matrix.vecMul b (1 - A)⁻¹) (1 - A) = b := by
    rw [Matrix.vecMul_vecMul, Matrix.nonsing_inv_mul _ hu, Matrix.vecMul_one]
  have hj := congrFun h j
  rw [Matrix.vecMul_sub, Matrix.vecMul_one, Pi.sub_apply] at hj
  rw [← hj]
  simp only [Matrix.vecMul, dotProduct, smul_eq_mul]
  rw [Finset.sum_congr rfl fun i _ => mul_comm (A i j) _]
  ring

/-- Reading a weight matrix on a graph. -/
theorem read_amat {D : DAG ℕ} (hD : D.Valid) {A : Matrix (Fin n) (Fin n) ℝ} (hA : ∀ i j, A i j ≠ 0 → D.E i.val j.val)
    (b v : Fin n → ℝ) (oa : SetOrder Bool (ℕ × ℕ)) :
    ∃ G G1 : Gauss n ℝ, Gauss.fromAmat oa Fin.val A b v = (G, none) ∧ G.Plain ∧ G.CurrentR ∧ G.weight = A ∧ G.variances = v ∧
      (∀ i j, (i, j) ∈ G.dag.arcs → (i, j) ∈ D.arcs) ∧ (∀ i j : Fin n, A i j ≠ 0 → (i.val, j.val) ∈ G.dag.arcs) ∧
      G.readCovariance = .ok (semCov A v, G1) := by
  have hAa : AcyclicWeights A := acyclic_mono hA (fin_acyclic hD)
  obtain ⟨G, g1, g2, g3, g4, g5, g6, g7, g8, g9⟩ := Gauss.fromAmat_spec oa A b v
  have hp := Linked.plain g2 g3 (g4 ▸ hAa)
  have hc := currentR_of_fresh g8 g7 g9
  obtain ⟨G1, k1, -⟩ := hc.toCurrent.readCovariance hp.acyclic
  refine ⟨G, G1, g1, hp, hc, g4, g6, fun i j hij => ?_, fun i j hij => ?_, by rw [k1, g4, g6]⟩
  · obtain ⟨a, rfl⟩ := (g2.range _).1 (g2.views.fst_mem _ _ hij)
    obtain ⟨c, rfl⟩ := (g2.range _).1 (g2.views.snd_mem _ _ hij)
    have := (g2.arcs_iff a c).1 hij
    rw [g4] at this
    rw [g3]
    exact hA _ _ this
  · have := (g2.arcs_iff i j).2 (by rwa [g4])
    rwa [g3] at this

/-! ## C223 -/

/-- C223, the `GaussDAG`s on a graph: a weight matrix on the arcs of `D` is accepted by `from_amat`, the arcs of the result are arcs of
`D`, and `covariance` together with the mean is a distribution of the graph `D`. -/
theorem C223_covariance {D : DAG ℕ} (hD : D.Valid) {A : Matrix (Fin n) (Fin n) ℝ} (hA : ∀ i j, A i j ≠ 0 → D.E i.val j.val)
    (b : Fin n → ℝ) {v : Fin n → ℝ} (hv : ∀ i, 0 < v i) (oa : SetOrder Bool (ℕ × ℕ)) :
    ∃ (G G1 : Gauss n ℝ) (S : Matrix (Fin n) (Fin n) ℝ) (m : Fin n → ℝ), Gauss.fromAmat oa Fin.val A b v = (G, none) ∧
      G.dag.arcs ⊆ D.arcs ∧ G.readCovariance = .ok (S, G1) ∧ LinearSEM A b m ∧ GaussOn D.E S m := by
  obtain ⟨G, G1, h1, -, -, -, -, h2, -, h3⟩ := read_amat hD hA b v oa
  obtain ⟨m, hm⟩ := sem_exists (acyclic_mono hA (fin_acyclic hD)) b
  exact ⟨G, G1, _, m, h1, fun e he => h2 _ _ he, h3, hm, A, b, v, hA, hv, rfl, hm⟩

/-- C223, conversely: every distribution of the graph `D` is that of a `GaussDAG` with arcs among those of `D`. -/
theorem C223_realised {D : DAG ℕ} (hD : D.Valid) {S : Matrix (Fin n) (Fin n) ℝ} {m : Fin n → ℝ} (hS : GaussOn D.E S m)
    (oa : SetOrder Bool (ℕ × ℕ)) :
    ∃ (A : Matrix (Fin n) (Fin n) ℝ) (b v : Fin n → ℝ) (G G1 : Gauss n ℝ), Gauss.fromAmat oa Fin.val A b v = (G, none) ∧
      G.dag.arcs ⊆ D.arcs ∧ (∀ i, 0 < v i) ∧ G.readCovariance = .ok (S, G1) ∧ LinearSEM A b m := by
  obtain ⟨A, b, v, hA, hv, rfl, hm⟩ := hS
  obtain ⟨G, G1, h1, -, -, -, -, h2, -, h3⟩ := read_amat hD hA b v oa
  exact ⟨A, b, v, G, G1, h1, fun e he => h2 _ _ he, hv, h3, hm⟩

theorem gaussOn_mono {D H : DAG ℕ} (hD : D.Valid) (hH : H.Valid) (hnH : H.nodes = Finset.range n)
    (hsub : SubModel H.E D.E {k | k < n}) {S : Matrix (Fin n) (Fin n) ℝ} {m : Fin n → ℝ} (hS : GaussOn D.E S m) : GaussOn H.E S m := by
  obtain ⟨A, b, v, hA, hv, rfl, hm⟩ := hS
  obtain ⟨order, ho⟩ := fin_order hH hnH
  obtain ⟨A', v', -, hv', hF, hcov⟩ := sem_on_imap hD.acyclic hH.acyclic hsub ho (fun a b h => by
    have := hH.fst_mem _ _ h
    rwa [hnH, Finset.mem_range] at this) hA hv
  refine ⟨A', fun j => m j - ∑ i, A' i j • m i, v', hF, hv', hcov.symm, fun j => ?_⟩
  ring

/-- Weights on a graph for which no other partial correlations vanish than those of d-separated pairs. -/
theorem faithful_weights {D : DAG ℕ} (hD : D.Valid) (hn : D.nodes = Finset.range n) :
    ∃ A : Matrix (Fin n) (Fin n) ℝ, (∀ i j, A i j ≠ 0 ↔ D.E i.val j.val) ∧
      ∀ (i j : Fin n) (C : Set (Fin n)) (ρ : ℝ), i ≠ j → i ∉ C → j ∉ C → PartialCorr (semCov A 1) i j C ρ →
        (ρ = 0 ↔ DSep D.E {i.val} {j.val} (Fin.val '' C)) := by
  obtain ⟨order, ho⟩ := fin_order hD hn
  have hE := fin_acyclic (n := n) hD
  obtain ⟨A, hA, hf⟩ := exists_faithful hE (r := fun k => (order.symm k).val)
    (fun a b h => order.symm.injective (Fin.ext h)) (fun i j h => ho i j h)
  have hAa : AcyclicWeights A := acyclic_mono hA hE
  have hpd := semCov_posDef hAa (v := 1) fun _ => one_pos
  have h2 : ∀ (i j : Fin n) (C : Set (Fin n)) (ρ : ℝ), i ≠ j → i ∉ C → j ∉ C → PartialCorr (semCov A 1) i j C ρ →
        (ρ = 0 ↔ DSep D.E {i.val} {j.val} (Fin.val '' C)) := by
    intro i j C ρ hij hi hj hρ
    constructor
    · intro h0
      exact (fin_dsep hD hn i j C).2 (hf.partialCorr hE hA hij hi hj hρ h0)
    · intro hd
      exact partialCorr_dsep hAa (fun _ => one_pos) hij hi hj (dsep_fin hD.acyclic hA hd) hρ
  refine ⟨A, fun i j => ⟨hA i j, fun hij h0 => ?_⟩, h2⟩
  have hlt := ho i j hij
  have hne : i ≠ j := fun e => hlt.ne (by rw [e])
  set M : Set (Fin n) := {k | order.symm k < order.symm j ∧ k ≠ i} with hM
  have hiM : i ∉ M := fun h => h.2 rfl
  have hjM : j ∉ M := fun h => lt_irrefl _ h.1
  obtain ⟨ρ, hρ⟩ := partialCorr_exists hpd.inv hne hiM hjM
  rw [Matrix.nonsing_inv_nonsing_inv _ ((Matrix.isUnit_iff_isUnit_det _).1 hpd.isUnit)] at hρ
  have hz := (partialCorr_blanket hAa (v := 1) (fun _ => one_pos) (r := fun a => (order.symm a).val) (fun a b hab => ho a b (hA a b hab))
    hlt (fun g hg => hg) (fun g h1 h2 _ => ⟨h2, h1⟩) hρ).2 h0
  have hd := (h2 i j M ρ hne hiM hjM hρ).1 hz
  refine hd i.val rfl j.val rfl [i.val, j.val] ⟨rfl, rfl, ?_, ?_, ?_⟩
  · simpa using fun e => hne (Fin.ext e)
  · intro u v huv
    have := huv.eq_of_length rfl
    cases this
    exact Or.inl hij
  · intro u v w huvw
    have := huvw.length_le
    simp at this

theorem subModel_of_family {D H : DAG ℕ} (hD : D.Valid) (hH : H.Valid) (hnD : D.nodes = Finset.range n)
    (h : ∀ (S : Matrix (Fin n) (Fin n) ℝ) (m : Fin n → ℝ), GaussOn D.E S m → GaussOn H.E S m) : SubModel H.E D.E {k | k < n} := by
  obtain ⟨A, hA, hf⟩ := faithful_weights hD hnD
  obtain ⟨A', b', v', hA', hv', hcov, -⟩ := h (semCov A 1) 0 ⟨A, 0, 1, fun i j hij => (hA i j).1 hij, fun _ => one_pos, rfl, fun j => by simp⟩
  have hAa' : AcyclicWeights A' := acyclic_mono hA' (fin_acyclic hH)
  have hpd := semCov_posDef hAa' hv'
  intro X Y C hX hY hC hXY hXC hYC hd x hx y hy
  obtain ⟨i, rfl⟩ : ∃ i : Fin n, i.val = x := ⟨⟨x, hX hx⟩, rfl⟩
  obtain ⟨j, rfl⟩ : ∃ j : Fin n, j.val = y := ⟨⟨y, hY hy⟩, rfl⟩
  obtain ⟨C, rfl⟩ : ∃ C' : Set (Fin n), Fin.val '' C' = C := ⟨{k | k.val ∈ C}, by
    ext k
    constructor
    · rintro ⟨k, hk, rfl⟩; exact hk
    · intro hk; exact ⟨⟨k, hC hk⟩, hk, rfl⟩⟩
  have hij : i ≠ j := by rintro rfl; exact Set.disjoint_left.1 hXY hx hy
  have hi : i ∉ C := fun h => Set.disjoint_left.1 hXC hx ⟨i, h, rfl⟩
  have hj : j ∉ C := fun h => Set.disjoint_left.1 hYC hy ⟨j, h, rfl⟩
  obtain ⟨ρ, hρ⟩ := partialCorr_exists hpd.inv hij hi hj
  rw [Matrix.nonsing_inv_nonsing_inv _ ((Matrix.isUnit_iff_isUnit_det _).1 hpd.isUnit)] at hρ
  have h0 := partialCorr_dsep hAa' hv' hij hi hj (dsep_fin hH.acyclic hA' (dsep_mono (by simpa using hx) (by simpa using hy) hd)) hρ
  rw [← hcov] at hρ
  exact (hf i j C ρ hij hi hj hρ).1 h0 i.val rfl j.val rfl

theorem coe_range : ((Finset.range n : Finset ℕ) : Set ℕ) = {k | k < n} := by
  ext k; simp

/-- C223. `H.is_imap(D)` answers `True` exactly if every Gaussian distribution of linear structural equations on `D` is one on `H`. -/
theorem C223_is_imap {D H : DAG ℕ} (hD : D.Valid) (hH : H.Valid) (hnD : D.nodes = Finset.range n) (hnH : H.nodes = Finset.range n)
    (w : ImapOracle ℕ) :
    ∃ r, isImap w H D = some r ∧
      (r = true ↔ ∀ (S : Matrix (Fin n) (Fin n) ℝ) (m : Fin n → ℝ), GaussOn D.E S m → GaussOn H.E S m) := by
  obtain ⟨r, h1, h2⟩ := isImap_spec w hH hD
  rw [hnH, coe_range] at h2
  exact ⟨r, h1, h2.trans ⟨fun h S m hS => gaussOn_mono hD hH hnH h hS, subModel_of_family hD hH hnD⟩⟩

/-! ## C224 -/

/-- C224. On every graph there is a `GaussDAG` whose arcs are exactly the arcs of the graph and whose `partial_correlation(i, j, C)` is zero
exactly if `dsep(i, j, C)` answers `True`. -/
theorem C224_faithful {D : DAG ℕ} (hD : D.Valid) (hn : D.nodes = Finset.range n) :
    ∃ A : Matrix (Fin n) (Fin n) ℝ, ∀ (b : Fin n → ℝ) (oa : SetOrder Bool (ℕ × ℕ)), ∃ G : Gauss n ℝ,
      Gauss.fromAmat oa Fin.val A b 1 = (G, none) ∧ G.dag.arcs = D.arcs ∧
      ∀ (oc : SetOrder Unit ℕ) (w : SepOracle ℕ) (i j : Fin n) (C : Finset (Fin n)), i ≠ j → i ∉ C → j ∉ C →
        ∃ ρ G1 r, G.partialCorrelation oc i j (C.image Fin.val) = .ok (ρ, G1) ∧
          dsep D w {i.val} {j.val} (C.image Fin.val) = some r ∧ (ρ = 0 ↔ r = true) := by
  obtain ⟨A, hA, hf⟩ := faithful_weights hD hn
  refine ⟨A, fun b oa => ?_⟩
  obtain ⟨G, G1, h1, h2, h3, h4, h5, h6, h7, -⟩ := read_amat hD (fun i j h => (hA i j).1 h) b 1 oa
  refine ⟨G, h1, ?_, fun oc w i j C hij hi hj => ?_⟩
  · ext ⟨x, y⟩
    refine ⟨h6 x y, fun h => ?_⟩
    have g1 := hD.fst_mem _ _ h
    have g2 := hD.snd_mem _ _ h
    rw [hn, Finset.mem_range] at g1 g2
    exact h7 ⟨x, g1⟩ ⟨y, g2⟩ ((hA _ _).2 h)
  · obtain ⟨ρ, G2, k1, k2, -⟩ := Gauss.partialCorrelation_spec h2.acyclic (by rw [h5]; exact fun _ => one_pos) h3 oc hij hi hj
    obtain ⟨r, k3, k4⟩ := dsep_decides hD w {i.val} {j.val} (C.image Fin.val) (by
      rw [Finset.disjoint_singleton_left]
      intro hm
      obtain ⟨x, hx, he⟩ := Finset.mem_image.1 hm
      rw [Fin.val_injective he] at hx
      exact hi hx)
    refine ⟨ρ, G2, r, k1, k3, ?_⟩
    rw [h4, h5] at k2
    rw [hf i j C ρ hij (by simpa using hi) (by simpa using hj) k2, k4]
    simp

/-! ## C225 -/

/-- C225. `markov_equivalent` answers `True` exactly if the graphs have the same Gaussian distributions. -/
theorem C225_gaussian {D H : DAG ℕ} (hD : D.Valid) (hH : H.Valid) (hnD : D.nodes = Finset.range n) (hnH : H.nodes = Finset.range n)
    (oa oa' : SetOrder Unit (ℕ × ℕ)) (o o' : PDAG.OrientOracle ℕ) :
    ∃ r : Bool, (D.markovEquivalent oa oa' o o' H none).run = some (.ok ⟨r⟩) ∧
      (r = true ↔ ∀ (S : Matrix (Fin n) (Fin n) ℝ) (m : Fin n → ℝ), GaussOn D.E S m ↔ GaussOn H.E S m) := by
  obtain ⟨r, h1, h2⟩ := markovEquivalent_spec D H hD hH oa oa' o o'
  refine ⟨r, h1, h2.trans ?_⟩
  rw [and_iff_right (hnD.trans hnH.symm),
    sameSkelV_iff hD.acyclic hH.acyclic D.nodes (nodes_of_valid hD) (by rw [hnD, ← hnH]; exact nodes_of_valid hH), hnD, coe_range]
  exact ⟨fun h S m => ⟨gaussOn_mono hD hH hnH h.2, gaussOn_mono hH hD hnD h.1⟩,
    fun h => ⟨subModel_of_family hH hD hnH fun S m => (h S m).2, subModel_of_family hD hH hnD fun S m => (h S m).1⟩⟩

/-! ## C226 -/

/-- C226. If `markov_equivalent` answers `True` then every distribution given by tables on one graph is given by tables on the other. -/
theorem C226_discrete {α : Type} [DecidableEq α] {D : DiscreteDAG α} (hD : D.Proper) {H : DAG α} (hH : H.Valid)
    (oa oa' : SetOrder Unit (α × α)) (o o' : PDAG.OrientOracle α)
    (hr : (D.dag.markovEquivalent oa oa' o o' H none).run = some (.ok ⟨true⟩)) :
    ∃ D' : DiscreteDAG α, D'.dag = H ∧ D'.alph = D.alph ∧ D'.Proper ∧ ∀ S x, D'.pr S x = D.pr S x := by
  obtain ⟨r, h1, h2⟩ := markovEquivalent_spec D.dag H hD.valid hH oa oa' o o'
  rw [hr] at h1
  obtain ⟨hn, hs⟩ := h2.1 (by simpa using h1.symm)
  have hsub := ((sameSkelV_iff hD.valid.acyclic hH.acyclic D.dag.nodes (nodes_of_valid hD.valid) (by rw [hn]; exact nodes_of_valid hH)).1 hs).2
  have hsh : (D.refit H fun v => (H.parents v).toList).Shaped :=
    ⟨hH, fun v _ => Finset.nodup_toList _, fun v _ u => by
      change u ∈ (H.parents v).toList ↔ _
      rw [Finset.mem_toList]
      exact hH.parents_iff u v, fun v _ => rfl⟩
  exact ⟨D.refit H fun v => (H.parents v).toList, rfl, rfl,
    DiscreteDAG.same_of_imap hD hsh hn.symm rfl (hn ▸ hsub) fun v _ x _ => DiscreteDAG.refit_cond D H _ v x⟩

/-! ## Examples -/

/-- `0 → 1 → 2`. -/
def Sample.path3 : DAG ℕ := Sample.natGraph (Finset.range 3) {(0, 1), (1, 2)}

/-- `0 → 2 ← 1`. -/
def Sample.vee3 : DAG ℕ := Sample.natGraph (Finset.range 3) {(0, 2), (1, 2)}

theorem Sample.path3_valid : Sample.path3.Valid := Sample.natGraph_valid (by decide)

theorem Sample.vee3_valid : Sample.vee3.Valid := Sample.natGraph_valid (by decide)

/-- The distributions of `0 → 1 → 2` and of `0 → 2 ← 1` differ. -/
example : ∃ (S : Matrix (Fin 3) (Fin 3) ℝ) (m : Fin 3 → ℝ), ¬ (GaussOn Sample.path3.E S m ↔ GaussOn Sample.vee3.E S m) := by
  obtain ⟨r, h1, h2⟩ := C225_gaussian (n := 3) Sample.path3_valid Sample.vee3_valid rfl rfl Sample.order Sample.order
    ⟨Sample.order, Sample.order⟩ ⟨Sample.order, Sample.order⟩
  obtain ⟨r', h3, h4⟩ := markovEquivalent_spec Sample.path3 Sample.vee3 Sample.path3_valid Sample.vee3_valid Sample.order Sample.order
    ⟨Sample.order, Sample.order⟩ ⟨Sample.order, Sample.order⟩
  rw [h1] at h3
  by_contra hn
  push Not at hn
  have hr := h2.2 hn
  have hr' : r' = true := by
    have : r = r' := by simpa using h3
    rw [← this, hr]
  have h := ((h4.1 hr').2.1 0 1).1 (Or.inl (by decide))
  revert h
  unfold Adj
  decide

/-- Every distribution of `0 → 1 → 2` is one of the complete graph. -/
example (w : ImapOracle ℕ) : ∃ r, isImap w (Sample.natGraph (Finset.range 3) {(0, 1), (0, 2), (1, 2)}) Sample.path3 = some r ∧
    (r = true ↔ ∀ (S : Matrix (Fin 3) (Fin 3) ℝ) (m : Fin 3 → ℝ), GaussOn Sample.path3.E S m →
      GaussOn (Sample.natGraph (Finset.range 3) {(0, 1), (0, 2), (1, 2)}).E S m) :=
  C223_is_imap Sample.path3_valid (Sample.natGraph_valid (by decide)) rfl rfl w

example (oa : SetOrder Bool (ℕ × ℕ)) : ∃ (A : Matrix (Fin 3) (Fin 3) ℝ) (b v : Fin 3 → ℝ) (G G1 : Gauss 3 ℝ) (S : Matrix (Fin 3) (Fin 3) ℝ),
    Gauss.fromAmat oa Fin.val A b v = (G, none) ∧ G.dag.arcs ⊆ Sample.path3.arcs ∧ G.readCovariance = .ok (S, G1) := by
  obtain ⟨-, -, S, m, -, -, -, -, h⟩ := C223_covariance (A := !![0, 2, 0; 0, 0, 3; 0, 0, 0]) Sample.path3_valid (fun i j h => by
    fin_cases i <;> fin_cases j <;> simp at h ⊢ <;> decide) ![1, 0, 5] (v := ![1, 4, 9]) (fun i => by fin_cases i <;> simp) oa
  obtain ⟨A, b, v, G, G1, h1, h2, -, h3, -⟩ := C223_realised Sample.path3_valid h oa
  exact ⟨A, b, v, G, G1, S, h1, h2, h3⟩

/-- On `0 → 2 ← 1` a distribution in which 0 and 1 are uncorrelated, but not given 2. -/
example (oa : SetOrder Bool (ℕ × ℕ)) (oc : SetOrder Unit ℕ) (w : SepOracle ℕ) : ∃ (A : Matrix (Fin 3) (Fin 3) ℝ) (G : Gauss 3 ℝ),
    Gauss.fromAmat oa Fin.val A 0 1 = (G, none) ∧ G.dag.arcs = Sample.vee3.arcs ∧
      ∃ ρ G1 r, G.partialCorrelation oc 0 1 (({2} : Finset (Fin 3)).image Fin.val) = .ok (ρ, G1) ∧
        dsep Sample.vee3 w {0} {1} (({2} : Finset (Fin 3)).image Fin.val) = some r ∧ (ρ = 0 ↔ r = true) := by
  obtain ⟨A, hA⟩ := C224_faithful (n := 3) Sample.vee3_valid rfl
  obtain ⟨G, h1, h2, h3⟩ := hA 0 oa
  exact ⟨A, G, h1, h2, h3 oc w 0 1 {2} (by decide) (by decide) (by decide)⟩

example : ∃ D' : DiscreteDAG (Fin 3), D'.dag = Sample.left ∧ D'.alph = Sample.walk.alph ∧ D'.Proper ∧
    ∀ S x, D'.pr S x = Sample.walk.pr S x := by
  obtain ⟨r, h1, h2⟩ := markovEquivalent_spec Sample.right Sample.left Sample.right_valid Sample.left_valid Sample.order Sample.order
    ⟨Sample.order, Sample.order⟩ ⟨Sample.order, Sample.order⟩
  have hr := h2.2 ⟨rfl, Sample.left_right⟩
  subst hr
  exact C226_discrete Sample.walk_proper Sample.left_valid Sample.order Sample.order ⟨Sample.order, Sample.order⟩ ⟨Sample.order, Sample.order⟩ h1

end Props
