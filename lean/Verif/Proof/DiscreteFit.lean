import Verif.Model.DiscreteFit
import Verif.Proof.DiscreteMarginalDag
import Mathlib.Analysis.MeanInequalities

/-! # Fitting the tables of `DiscreteDAG` -/

set_option linter.unusedSectionVars false

namespace Model

open Spec
open scoped NNReal

/-- The relative frequencies maximise the likelihood. -/
theorem gibbs {ι : Type} (S : Finset ι) (s : ι → ℕ) {k : ℕ} (hs : ∀ j ∈ S, s j < k) {q : ℕ → ℝ≥0} (hq : ∑ i ∈ Finset.range k, q i ≤ 1) :
    ∏ j ∈ S, q (s j) ≤ ∏ j ∈ S, (((S.filter fun l => s l = s j).card : ℝ≥0) / (S.card : ℝ≥0)) := by
  classical
  rcases S.eq_empty_or_nonempty with rfl | hne
  · simp
  have hn : (S.card : ℝ≥0) ≠ 0 := by simpa using hne.ne_empty
  set c : ℕ → ℝ≥0 := fun i => ((S.filter fun l => s l = i).card : ℝ≥0) with hc
  have hcj : ∀ j ∈ S, c (s j) ≠ 0 := fun j hj => by
    rw [hc]
    simp only [ne_eq, Nat.cast_eq_zero, Finset.card_eq_zero]
    exact Finset.ne_empty_of_mem (Finset.mem_filter.2 ⟨hj, rfl⟩)
  set z : ι → ℝ≥0 := fun j => q (s j) * S.card / c (s j) with hz
  have hsum : ∑ j ∈ S, (1 / (S.card : ℝ≥0)) * z j ≤ 1 := by
    have h1 : ∀ j ∈ S, (1 / (S.card : ℝ≥0)) * z j = q (s j) / c (s j) := fun j _ => by
      rw [hz]
      dsimp only
      field_simp
    rw [Finset.sum_congr rfl h1]
    rw [← Finset.sum_fiberwise_of_maps_to (t := Finset.range k) (g := s) (fun j hj => Finset.mem_range.2 (hs j hj))]
    refine le_trans (Finset.sum_le_sum fun i _ => ?_) hq
    rw [Finset.sum_congr rfl (g := fun _ => q i / c i) fun j hj => by rw [(Finset.mem_filter.1 hj).2]]
    rw [Finset.sum_const, nsmul_eq_mul]
    change c i * (q i / c i) ≤ q i
    rcases eq_or_ne (c i) 0 with h | h
    · rw [h]; simp
    · rw [mul_div_cancel₀ _ h]
  have hgm := NNReal.geom_mean_le_arith_mean_weighted S (fun _ => 1 / (S.card : ℝ≥0)) z (by
    rw [Finset.sum_const, nsmul_eq_mul, mul_one_div, div_self hn])
  have hz1 : ∏ j ∈ S, z j ≤ 1 := by
    rw [NNReal.finsetProd_rpow] at hgm
    have h2 := pow_le_pow_left₀ zero_le (hgm.trans hsum) S.card
    rw [one_pow] at h2
    rwa [one_div, NNReal.coe_inv, NNReal.coe_natCast, NNReal.rpow_inv_natCast_pow _ (by simpa using hne.ne_empty)] at h2
  calc ∏ j ∈ S, q (s j) = (∏ j ∈ S, z j) * ∏ j ∈ S, (c (s j) / S.card) := by
        rw [← Finset.prod_mul_distrib]
        refine Finset.prod_congr rfl fun j hj => ?_
        have := hcj j hj
        rw [hz]
        dsimp only
        field_simp
    _ ≤ 1 * ∏ j ∈ S, (c (s j) / S.card) := mul_le_mul_left hz1 _
    _ = _ := one_mul _

variable {N n : ℕ} {data : Fin N → ℕ → ℕ}

theorem frequencies_eq {S : Finset (Fin N)} {node k i : ℕ} {vals : List ℤ} (hv : vals = (List.range k).map fun i : ℕ => (i : ℤ))
    (hS : ∀ j ∈ S, data j node < k) (hi : i < k) (add : ℝ≥0) :
    frequencies data S node vals add i = (((S.filter fun j => data j node = i).card : ℝ≥0) + add) / ((S.card : ℝ≥0) + k * add) := by
  subst hv
  rw [frequencies]
  dsimp only
  have h1 : ((List.range k).map fun i : ℕ => (i : ℤ)).getD i 0 = i := by
    rw [List.getD_eq_getElem?_getD, List.getElem?_eq_getElem (by simpa using hi)]
    simp
  rw [h1, List.map_map]
  congr 1
  · simp
  · have h2 : ((List.range k).map ((fun x : ℤ => ((S.filter fun j => (data j node : ℤ) = x).card : ℝ≥0) + add) ∘ fun i : ℕ => (i : ℤ))).sum =
        ∑ i ∈ Finset.range k, (((S.filter fun j => data j node = i).card : ℝ≥0) + add) := by
      rw [← List.toFinset_range, List.sum_toFinset _ List.nodup_range]
      simp [Function.comp_def]
    rw [h2, Finset.sum_add_distrib, Finset.sum_const, Finset.card_range, nsmul_eq_mul]
    congr 1
    rw [← Nat.cast_sum, ← Finset.card_eq_sum_card_fiberwise fun j hj => Finset.mem_coe.2 (Finset.mem_range.2 (hS j hj))]

theorem sum_frequencies {S : Finset (Fin N)} {node k : ℕ} {vals : List ℤ} (hv : vals = (List.range k).map fun i : ℕ => (i : ℤ))
    (hS : ∀ j ∈ S, data j node < k) {add : ℝ≥0} (h : (S.card : ℝ≥0) + k * add ≠ 0) :
    ∑ i ∈ Finset.range k, frequencies data S node vals add i = 1 := by
  rw [Finset.sum_congr rfl fun i hi => frequencies_eq hv hS (Finset.mem_range.1 hi) add, ← Finset.sum_div, Finset.sum_add_distrib,
    Finset.sum_const, Finset.card_range, nsmul_eq_mul, ← Nat.cast_sum,
    ← Finset.card_eq_sum_card_fiberwise fun j hj => Finset.mem_coe.2 (Finset.mem_range.2 (hS j hj)), div_self h]

/-- The rows with the values `y` of the parents. -/
def matching (data : Fin N → ℕ → ℕ) (ps : List ℕ) (y : ℕ → ℕ) : Finset (Fin N) := Finset.univ.filter fun j => ∀ p ∈ ps, data j p = y p

/-- The entries of a fitted table. -/
noncomputable def fitted (data : Fin N → ℕ → ℕ) (node : ℕ) (vals : List ℤ) (ps : List ℕ) (add : ℝ≥0) (y : ℕ → ℕ) (i : ℕ) : ℝ≥0 :=
  if (matching data ps y).Nonempty then frequencies data (matching data ps y) node vals add i else 1 / (vals.length : ℝ≥0)

theorem fitConditional_ok (oz : SetOrder ℕ (List ℕ)) (hN : N ≠ 0) {node : ℕ} (hnode : node < n) {vals : List ℤ} {ps : List ℕ}
    (hps : ∀ p ∈ ps, p < n) {dims : ℕ → ℕ} (hd : ∀ j, ∀ p ∈ ps, data j p < dims p) (add : ℝ≥0) :
    ∃ t, fitConditional oz n data node vals ps (ps.map dims) add = .ok t ∧ t.shape = ps.map dims ++ [vals.length] ∧
      ∀ (y : ℕ → ℕ) (i : ℕ), t.val (ps.map y ++ [i]) = fitted data node vals ps add y i := by
  rw [fitConditional, if_neg (not_le.2 hnode)]
  by_cases h0 : ps = []
  · subst h0
    refine ⟨_, if_pos rfl, rfl, fun y i => ?_⟩
    have : matching data [] y = Finset.univ := by simp [matching]
    rw [fitted, this, if_pos ⟨⟨0, Nat.pos_of_ne_zero hN⟩, Finset.mem_univ _⟩]
    rfl
  rw [if_neg h0, if_neg (by push Not; exact hps)]
  set F : List ℕ → ℕ → ℝ≥0 := fun z i => frequencies data (Finset.univ.filter fun j => ps.map (data j) = z) node vals add i with hF
  have fold : ∀ (L : List (List ℕ)), (∀ z ∈ L, ∃ j, z = ps.map (data j)) → ∀ t : Tensor ℝ≥0, ∃ t',
      L.foldlM (fun (t : Tensor ℝ≥0) z =>
        if ∀ p ∈ z.zip (ps.map dims), p.1 < p.2 then
          (.ok ⟨t.shape, fun idx => if idx.dropLast = z then F z (idx.getLastD 0) else t.val idx⟩ : Except (Exn ℕ) (Tensor ℝ≥0))
        else .error .index) t = .ok t' ∧ t'.shape = t.shape ∧
      ∀ z i, t'.val (z ++ [i]) = if z ∈ L then F z i else t.val (z ++ [i]) := by
    intro L
    induction L with
    | nil => exact fun _ t => ⟨t, rfl, rfl, fun z i => by simp⟩
    | cons z L ih =>
        intro hL t
        have hz : ∀ p ∈ z.zip (ps.map dims), p.1 < p.2 := by
          obtain ⟨j, rfl⟩ := hL z (by simp)
          intro p hp
          rw [List.zip_map'] at hp
          obtain ⟨a, ha, rfl⟩ := List.mem_map.1 hp
          exact hd j a ha
        obtain ⟨t', h1, h2, h3⟩ := ih (fun w hw => hL w (by simp [hw])) ⟨t.shape, fun idx => if idx.dropLast = z then F z (idx.getLastD 0) else t.val idx⟩
        refine ⟨t', ?_, h2, fun w i => ?_⟩
        · rw [List.foldlM_cons, if_pos hz]
          exact h1
        · rw [h3]
          by_cases hw : w ∈ L
          · rw [if_pos hw, if_pos (by simp [hw])]
          · rw [if_neg hw]
            by_cases hwz : w = z
            · subst hwz; simp
            · simp [hw, hwz]
  obtain ⟨t', h1, h2, h3⟩ := fold (oz.ord node (Finset.univ.image fun j => ps.map (data j))) (fun z hz => by
    rw [oz.mem_iff, Finset.mem_image] at hz
    obtain ⟨j, -, h⟩ := hz
    exact ⟨j, h.symm⟩) ⟨ps.map dims ++ [vals.length], fun _ => 1 / (vals.length : ℝ≥0)⟩
  refine ⟨t', h1, h2, fun y i => ?_⟩
  rw [h3, fitted]
  have hm : (Finset.univ.filter fun j => ps.map (data j) = ps.map y) = matching data ps y := by
    ext j
    simp [matching, List.map_inj_left]
  have hiff : ps.map y ∈ oz.ord node (Finset.univ.image fun j => ps.map (data j)) ↔ (matching data ps y).Nonempty := by
    rw [oz.mem_iff, ← hm]
    simp [Finset.Nonempty]
  refine if_congr hiff ?_ rfl
  rw [hF]
  dsimp only
  rw [hm]

/-- The counts give the result of `fit`. -/
structure Fitted (G : DAG ℕ) (data : Fin N → ℕ → ℕ) (alph : ℕ → List ℤ) (add : ℝ≥0) (D : DiscreteDAG ℕ) : Prop where
  valid : D.dag.Valid
  nodes : D.dag.nodes = G.nodes
  arcs : D.dag.arcs = G.arcs
  alph_eq : D.alph = alph
  nodup : ∀ v, (D.pars v).Nodup
  pars_iff : ∀ v u, u ∈ D.pars v ↔ (u, v) ∈ G.arcs
  shape : ∀ v ∈ G.nodes, (D.cond v).shape = (D.pars v ++ [v]).map D.dims
  val : ∀ v ∈ G.nodes, ∀ (y : ℕ → ℕ) (i : ℕ), (D.cond v).val ((D.pars v).map y ++ [i]) = fitted data v (alph v) (D.pars v) add y i

theorem fitCounts_run (o ot : SetOrder (Option ℕ) ℕ) (oa : SetOrder Bool (ℕ × ℕ)) (op : SetOrder ℕ ℕ) (oz : SetOrder ℕ (List ℕ))
    {G : DAG ℕ} (hG : G.Valid) (hn : ∀ v ∈ G.nodes, v < n) (hN : N ≠ 0) {alphabets : Option (ℕ → List ℤ)} {alph : ℕ → List ℤ}
    (ha : (match alphabets with
      | some a => Except.ok a
      | none => defaultAlphabets n data G.nodes) = .ok alph)
    (hd : ∀ j, ∀ v ∈ G.nodes, data j v < (alph v).length) (add : ℝ≥0) :
    ∃ D, (fitCounts o ot oa op oz G n data alphabets add).run = some (.ok D) ∧ Fitted G data alph add D := by
  obtain ⟨t, ht1, ht⟩ := DAG.topologicalSort_ok G ot hG
  set pars : ℕ → List ℕ := fun v => op.ord v (G.parents v) with hpars
  have hpi : ∀ v u, u ∈ pars v ↔ (u, v) ∈ G.arcs := fun v u => by
    rw [hpars]
    dsimp only
    rw [op.mem_iff, hG.parents_iff]
  have hpn : ∀ v, ∀ p ∈ pars v, p ∈ G.nodes := fun v p hp => hG.fst_mem _ _ ((hpi v p).1 hp)
  have hex := fun v (hv : v ∈ G.nodes) => fitConditional_ok oz (data := data) (n := n) hN (hn v hv) (vals := alph v) (ps := pars v)
    (fun p hp => hn p (hpn v p hp)) (dims := fun p => (alph p).length) (fun j p hp => hd j p (hpn v p hp)) add
  have fold : ∀ (L : List ℕ), (∀ v ∈ L, v ∈ G.nodes) → ∀ c : ℕ → Tensor ℝ≥0, ∃ c' : ℕ → Tensor ℝ≥0,
      (L.foldlM (fun (c : ℕ → Tensor ℝ≥0) v => do
        let x ← (ExceptT.mk (some (fitConditional oz n data v (alph v) (pars v) ((pars v).map fun p => (alph p).length) add)) :
          Run ℕ (Tensor ℝ≥0))
        return Function.update c v x) c : Run ℕ (ℕ → Tensor ℝ≥0)).run = some (.ok c') ∧ (∀ v, v ∉ L → c' v = c v) ∧
      ∀ v ∈ L, (c' v).shape = (pars v).map (fun p => (alph p).length) ++ [(alph v).length] ∧
        ∀ (y : ℕ → ℕ) (i : ℕ), (c' v).val ((pars v).map y ++ [i]) = fitted data v (alph v) (pars v) add y i := by
    intro L
    induction L with
    | nil => exact fun _ c => ⟨c, rfl, fun _ _ => rfl, by simp⟩
    | cons v L ih =>
        intro hL c
        obtain ⟨x, hx, hx1, hx2⟩ := hex v (hL v (by simp))
        obtain ⟨c', h1, h2, h3⟩ := ih (fun w hw => hL w (by simp [hw])) (Function.update c v x)
        refine ⟨c', ?_, fun w hw => ?_, fun w hw => ?_⟩
        · rw [List.foldlM_cons]
          refine Eq.trans (DiscreteDAG.run_bind_ok (b := Function.update c v x) ?_ _) h1
          rw [hx]
          rfl
        · rw [h2 w (fun h => hw (by simp [h])), Function.update_of_ne]
          rintro rfl
          simp at hw
        · by_cases hwL : w ∈ L
          · exact h3 w hwL
          · have hwv : w = v := by simpa [hwL] using hw
            subst hwv
            rw [h2 w hwL, Function.update_self]
            exact ⟨hx1, hx2⟩
  obtain ⟨c', h1, -, h3⟩ := fold t (fun v hv => (ht.mem_iff v).1 hv) fun _ => ⟨[], fun _ => 0⟩
  have h3' : ∀ v ∈ G.nodes, _ := fun v hv => h3 v ((ht.mem_iff v).2 hv)
  obtain ⟨G', g1, g2, g3, g4⟩ := DiscreteDAG.new_ok o oa (nodes := G.nodes) (arcs := G.arcs) hG.acyclic
    (fun a ha => ⟨hG.fst_mem _ _ ha, hG.snd_mem _ _ ha⟩) (cond := c') (pars := pars) (alph := alph) fun v hv => by
      rw [(h3' v hv).1, List.map_append, List.map_singleton]
  refine ⟨⟨G', c', pars, alph⟩, ?_, g2, g3, g4, rfl, fun v => op.nodup v _, hpi, fun v hv => ?_, fun v hv => (h3' v hv).2⟩
  · have tail : ((do
        let t ← G.topologicalSort ot
        let cond ← t.foldlM (fun (c : ℕ → Tensor ℝ≥0) v => do
          let x ← (ExceptT.mk (some (fitConditional oz n data v (alph v) (pars v) ((pars v).map fun p => (alph p).length) add)) :
            Run ℕ (Tensor ℝ≥0))
          return Function.update c v x) fun _ => ⟨[], fun _ => 0⟩
        ExceptT.mk (DiscreteDAG.new o oa G.nodes G.arcs cond pars alph)) : Run ℕ (DiscreteDAG ℕ)).run =
        some (.ok ⟨G', c', pars, alph⟩) := by
      rw [DiscreteDAG.run_bind_ok ht1, DiscreteDAG.run_bind_ok h1]
      exact g1
    unfold fitCounts
    cases alphabets with
    | some a =>
        cases ha
        exact tail
    | none =>
        refine Eq.trans (DiscreteDAG.run_bind_ok (b := alph) ?_ _) tail
        exact congrArg some ha
  · rw [List.map_append]
    exact (h3' v hv).1

namespace Fitted

variable {G : DAG ℕ} {alph : ℕ → List ℤ} {add : ℝ≥0} {D : DiscreteDAG ℕ}

theorem proper (h : Fitted G data alph add D) (hC : ∀ v ∈ G.nodes, alph v = (List.range (alph v).length).map fun i : ℕ => (i : ℤ))
    (hd : ∀ j, ∀ v ∈ G.nodes, data j v < (alph v).length) (hN : N ≠ 0) : D.Proper := by
  refine ⟨⟨h.valid, fun v _ => h.nodup v, fun v _ u => by rw [h.pars_iff, h.arcs], fun v hv => h.shape v (h.nodes ▸ hv)⟩,
    fun v hv x _ => ?_⟩
  have hv' : v ∈ G.nodes := h.nodes ▸ hv
  simp only [h.val v hv', fitted]
  rw [DiscreteDAG.dims, h.alph_eq]
  split_ifs with hm
  · refine sum_frequencies (hC v hv') (fun j _ => hd j v hv') ?_
    have : 0 < ((matching data (D.pars v) x).card : ℝ≥0) := by simpa using hm
    exact (add_pos_of_pos_of_nonneg this zero_le).ne'
  · have hpos : 0 < (alph v).length := lt_of_le_of_lt (Nat.zero_le _) (hd ⟨0, Nat.pos_of_ne_zero hN⟩ v hv')
    rw [Finset.sum_const, Finset.card_range, nsmul_eq_mul, mul_one_div, div_self (by simpa using hpos.ne')]

/-- No tables for the graph give the data a larger likelihood. -/
theorem likelihood_le (h : Fitted G data alph 0 D)
    (hC : ∀ v ∈ G.nodes, alph v = (List.range (alph v).length).map fun i : ℕ => (i : ℤ))
    (hd : ∀ j, ∀ v ∈ G.nodes, data j v < (alph v).length) {E : DiscreteDAG ℕ} (hE : E.Proper) (hEn : E.dag.nodes = G.nodes)
    (hEa : E.dag.arcs = G.arcs) (hEd : ∀ v ∈ G.nodes, E.dims v = (alph v).length) :
    ∏ j, E.law (data j) ≤ ∏ j, D.law (data j) := by
  classical
  simp only [DiscreteDAG.law_eq]
  rw [hEn, h.nodes, Finset.prod_comm, Finset.prod_comm (s := Finset.univ) (t := G.nodes)]
  refine Finset.prod_le_prod' fun v hv => ?_
  have hv' := hv
  rw [← Finset.prod_fiberwise_of_maps_to (t := Finset.univ.image fun j => (D.pars v).map (data j))
      (g := fun j => (D.pars v).map (data j)) (fun j _ => Finset.mem_image_of_mem _ (Finset.mem_univ j)),
    ← Finset.prod_fiberwise_of_maps_to (t := Finset.univ.image fun j => (D.pars v).map (data j))
      (g := fun j => (D.pars v).map (data j)) (fun j _ => Finset.mem_image_of_mem _ (Finset.mem_univ j))]
  refine Finset.prod_le_prod' fun z hz => ?_
  obtain ⟨j0, -, rfl⟩ := Finset.mem_image.1 hz
  have hS : (Finset.univ.filter fun j => (D.pars v).map (data j) = (D.pars v).map (data j0)) = matching data (D.pars v) (data j0) := by
    ext j
    simp [matching, List.map_inj_left]
  rw [hS]
  set S := matching data (D.pars v) (data j0) with hSdef
  have hmem : ∀ j ∈ S, ∀ p ∈ D.pars v, data j p = data j0 p := fun j hj => by
    rw [hSdef, matching, Finset.mem_filter] at hj
    exact hj.2
  have hEp : ∀ u, u ∈ E.pars v ↔ u ∈ D.pars v := fun u => by
    rw [hE.pars_iff v (hEn ▸ hv), hEa, h.pars_iff]
  have hvE : v ∉ E.pars v := hE.toShaped.not_mem_pars (hEn ▸ hv)
  have e1 : ∀ j ∈ S, E.kern v (data j) = (E.cond v).val ((E.pars v).map (data j0) ++ [data j v]) := fun j hj => by
    rw [DiscreteDAG.kern, List.map_append, List.map_singleton]
    congr 2
    exact List.map_congr_left fun u hu => hmem j hj u ((hEp u).1 hu)
  have e2 : ∀ j ∈ S, D.kern v (data j) = ((S.filter fun l => data l v = data j v).card : ℝ≥0) / (S.card : ℝ≥0) := fun j hj => by
    rw [DiscreteDAG.kern, List.map_append, List.map_singleton, h.val v hv]
    have hm : matching data (D.pars v) (data j) = S := by
      rw [hSdef]
      ext l
      simp only [matching, Finset.mem_filter, Finset.mem_univ, true_and]
      exact forall₂_congr fun p hp => by rw [hmem j hj p hp]
    rw [fitted, hm, if_pos ⟨j, hj⟩, frequencies_eq (hC v hv) (fun l _ => hd l v hv) (hd j v hv)]
    simp
  rw [Finset.prod_congr rfl e1, Finset.prod_congr rfl e2]
  refine gibbs S (fun j => data j v) (fun j _ => hd j v hv) (q := fun i => (E.cond v).val ((E.pars v).map (data j0) ++ [i])) ?_
  rw [← hEd v hv]
  exact (hE.total v (hEn ▸ hv) (data j0) fun u hu => by
    have hun : u ∈ G.nodes := hEn ▸ hE.valid.fst_mem _ _ ((hE.pars_iff v (hEn ▸ hv) u).1 hu)
    rw [hEd u hun]
    exact hd j0 u hun).le

end Fitted

theorem defaultAlphabets_ok {nodes : Finset ℕ} (hn : ∀ v ∈ nodes, v < n) (hN : N ≠ 0) :
    ∃ a, defaultAlphabets n data nodes = .ok a ∧
      (∀ v, a v = (List.range (Finset.univ.sup (fun j => data j v) + 1)).map fun i : ℕ => (i : ℤ)) ∧
      ∀ j v, data j v < (a v).length := by
  refine ⟨_, by rw [defaultAlphabets, if_neg (by push Not; exact hn), if_neg (by simp [hN])], fun _ => rfl, fun j v => ?_⟩
  simp only [List.length_map, List.length_range]
  exact Nat.lt_succ_of_le (Finset.le_sup (f := fun j => data j v) (Finset.mem_univ j))

end Model
