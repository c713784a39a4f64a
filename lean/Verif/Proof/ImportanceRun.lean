import Verif.Proof.Importance
import Verif.Proof.DiscretePgmpy

/-! # What `get_conditional_importance_sampling` returns -/

namespace Model.DiscreteDAG

open scoped NNReal

theorem mapM_run {β γ : Type} (f : β → Run ℕ γ) (g : β → γ) : ∀ l : List β, (∀ x ∈ l, (f x).run = some (.ok (g x))) →
    (l.mapM f).run = some (.ok (l.map g)) := by
  intro l
  induction l with
  | nil => intro _; rfl
  | cons x l ih =>
    intro h
    have h1 : f x = ExceptT.mk (some (.ok (g x))) := h x List.mem_cons_self
    have h2 : l.mapM f = ExceptT.mk (some (.ok (l.map g))) := ih fun y hy => h y (List.mem_cons_of_mem _ hy)
    rw [List.mapM_cons, h1, h2]
    rfl

theorem zipIdx_replicate (c : List ℕ) (np s : ℕ) : (List.replicate np c).zipIdx s = (List.range np).map fun r => (c, s + r) := by
  refine List.ext_getElem? fun i => ?_
  rw [List.getElem?_zipIdx, List.getElem?_map]
  rcases lt_or_ge i np with h | h
  · simp [h]
  · simp [Nat.not_lt.2 h]

/-- The rows of one tuple of values. -/
theorem block_eq (np : ℕ) : ∀ (L : List (List ℕ)) (s k : ℕ) (c : List ℕ), L[k]? = some c →
    (((L.flatMap (List.replicate np)).zipIdx s).drop (np * k)).take np = (List.range np).map fun r => (c, s + (np * k + r)) := by
  intro L
  induction L with
  | nil => simp
  | cons c0 L ih =>
    intro s k c hk
    rw [List.flatMap_cons, List.zipIdx_append, zipIdx_replicate, List.length_replicate]
    cases k with
    | zero =>
      simp only [List.getElem?_cons_zero, Option.some.injEq] at hk
      subst hk
      rw [Nat.mul_zero, List.drop_zero, List.take_append_of_le_length (by simp), List.take_of_length_le (by simp)]
      simp
    | succ k =>
      rw [List.getElem?_cons_succ] at hk
      rw [List.drop_append, List.drop_of_length_le (by simp [Nat.mul_succ]), List.nil_append, List.length_map, List.length_range,
        show np * (k + 1) - np = np * k by rw [Nat.mul_succ]; omega, ih _ k c hk]
      refine List.map_congr_left fun r _ => ?_
      rw [Nat.mul_succ]
      congr 1
      omega

theorem sum_range_map (f : ℕ → ℝ≥0) (n : ℕ) : ((List.range n).map f).sum = ∑ r ∈ Finset.range n, f r := by
  induction n with
  | zero => simp
  | succ n ih => rw [List.range_succ, List.map_append, List.sum_append, ih, Finset.sum_range_succ]; simp

theorem sum_flatMap_zipIdx (np : ℕ) (f : List ℕ × ℕ → ℝ≥0) : ∀ (L : List (List ℕ)) (s : ℕ),
    (((L.flatMap (List.replicate np)).zipIdx s).map f).sum =
      (L.zipIdx.map fun p => ∑ r ∈ Finset.range np, f (p.1, s + (np * p.2 + r))).sum := by
  intro L
  induction L with
  | nil => simp
  | cons c0 L ih =>
    intro s
    rw [List.flatMap_cons, List.zipIdx_append, zipIdx_replicate, List.length_replicate, List.map_append, List.sum_append, ih,
      List.zipIdx_cons', List.map_cons, List.sum_cons, List.map_map, List.map_map, sum_range_map]
    congr 1
    · simp
    · congr 1
      refine List.map_congr_left fun p _ => ?_
      simp only [Function.comp, Prod.map]
      refine Finset.sum_congr rfl fun r _ => ?_
      simp only [id]
      congr 2
      rw [Nat.mul_succ]
      omega

theorem sum_filter_map {β : Type} (p : β → Prop) [DecidablePred p] (f : β → ℝ≥0) (l : List β) :
    ((l.filter fun x => p x).map f).sum = (l.map fun x => if p x then f x else 0).sum := by
  induction l with
  | nil => rfl
  | cons x l ih => by_cases h : p x <;> simp [h, ih]

theorem sum_keys {β κ : Type} [DecidableEq κ] (key : β → κ) (f : β → ℝ≥0) {K : List κ} (hK : K.Nodup) (l : List β)
    (h : ∀ x ∈ l, key x ∈ K) : (K.map fun k => ((l.filter fun x => key x = k).map f).sum).sum = (l.map f).sum := by
  induction l with
  | nil => simp
  | cons x l ih =>
    rw [List.map_cons, List.sum_cons, ← ih fun y hy => h y (List.mem_cons_of_mem _ hy)]
    have h1 : ∀ k, (((x :: l).filter fun x => key x = k).map f).sum = (if key x = k then f x else 0) +
        ((l.filter fun x => key x = k).map f).sum := fun k => by by_cases hk : key x = k <;> simp [hk]
    simp only [h1]
    rw [List.sum_map_add]
    congr 1
    have h2 : ∀ K : List κ, (K.map fun k => if key x = k then f x else 0).sum = K.count (key x) • f x := fun K => by
      induction K with
      | nil => simp
      | cons k K ih2 =>
        by_cases hk : key x = k
        · subst hk; simp [ih2, add_mul, add_comm]
        · simp [ih2, hk, Ne.symm hk]
    rw [h2, List.count_eq_one_of_mem hK (h x List.mem_cons_self), one_smul]

theorem nodup_products {β : Type} : ∀ {L : List (List β)}, (∀ l ∈ L, l.Nodup) → (products L).Nodup := by
  intro L
  induction L with
  | nil => intro _; simp [products]
  | cons l L ih =>
    intro h
    rw [products, List.nodup_flatMap]
    refine ⟨fun a _ => (ih fun l' hl' => h l' (List.mem_cons_of_mem _ hl')).map fun x y hxy => (List.cons.inj hxy).2, ?_⟩
    refine (h l List.mem_cons_self).imp fun {a b} hab => ?_
    rw [Function.onFun, List.disjoint_left]
    rintro m hm hm'
    obtain ⟨x, -, rfl⟩ := List.mem_map.1 hm
    obtain ⟨y, -, hy⟩ := List.mem_map.1 hm'
    exact hab (List.cons.inj hy).1.symm

/-- The weight of row `i` for the tuple `c`. -/
noncomputable def weightAt (D : DiscreteDAG ℕ) (ot : SetOrder (Option ℕ) ℕ) (n : ℕ) (ix : ℕ → ℕ) (cond : List ℕ) (u : ℕ → ℕ → ℝ) (c : List ℕ)
    (i : ℕ) : ℝ≥0 := (D.weightedRow ot n ix cond c (u i)).2.prod

/-- The weight of row `i` for the tuple `c` if the marginal nodes have the values `m`, zero otherwise. -/
noncomputable def weightIf (D : DiscreteDAG ℕ) (ot : SetOrder (Option ℕ) ℕ) (n : ℕ) (ix : ℕ → ℕ) (cond : List ℕ) (u : ℕ → ℕ → ℝ) (marg m : List ℕ)
    (c : List ℕ) (i : ℕ) : ℝ≥0 := (D.weightedRow ot n ix cond c (u i)).2.prod *
      if (marg.map fun v => ((D.weightedRow ot n ix cond c (u i)).1 (ix v)).toNat) = m then 1 else 0

theorem getD_of_forall₂ {D : DiscreteDAG ℕ} : ∀ {N c : List ℕ}, List.Forall₂ (fun v i => i < D.dims v) N c →
    N.length = c.length ∧ ∀ v ∈ N, c.getD (N.idxOf v) 0 < D.dims v := by
  intro N c h
  induction h with
  | nil => simp
  | @cons v i N c hv h ih =>
    refine ⟨by simp [ih.1], fun w hw => ?_⟩
    by_cases hvw : w = v
    · subst hvw; simpa using hv
    · rw [List.idxOf_cons_ne _ (Ne.symm hvw), List.getD_cons_succ]
      exact ih.2 w ((List.mem_cons.1 hw).resolve_left hvw)

theorem importanceSampling_run {D : DiscreteDAG ℕ} (hD : D.Tabled) (hA : D.Counting) (ot : SetOrder (Option ℕ) ℕ) {n : ℕ}
    {ix : ℕ → ℕ} (hn : ∀ v ∈ D.dag.nodes, v < n) (hix : ∀ v ∈ D.dag.nodes, ix v = v) {marg cond : List ℕ} (hN : cond.Nodup)
    (hNn : ∀ v ∈ cond, v ∈ D.dag.nodes) (hM : ∀ v ∈ marg, v ∈ D.dag.nodes) {values : List (List ℕ)}
    (hval : ∀ c ∈ values, List.Forall₂ (fun v i => i < D.dims v) cond c) {u : ℕ → ℕ → ℝ} (hu : ∀ i v, u i v ∈ Set.Ico (0 : ℝ) 1) (np : ℕ) :
    (D.importanceSampling ot n ix u marg cond (some values) np).run = some (.ok (values.zipIdx.map fun p => (p.1,
      fun m => npDiv (∑ r ∈ Finset.range np, D.weightIf ot n ix cond u marg m p.1 (np * p.2 + r))
        (∑ r ∈ Finset.range np, D.weightAt ot n ix cond u p.1 (np * p.2 + r)),
      npDiv (∑ r ∈ Finset.range np, D.weightAt ot n ix cond u p.1 (np * p.2 + r))
        (values.zipIdx.map fun q => ∑ r ∈ Finset.range np, D.weightAt ot n ix cond u q.1 (np * q.2 + r)).sum))) := by
  have hspec := fun c (hc : c ∈ values) i => weightedRow_spec hD hA ot hn hix hN hNn (getD_of_forall₂ (hval c hc)).1
    (getD_of_forall₂ (hval c hc)).2 (hu i)
  have hrows := mapM_run (fun p : List ℕ × ℕ => D.weightedSamples ot n ix (u p.2) cond p.1)
    (fun p => D.weightedRow ot n ix cond p.1 (u p.2)) (values.flatMap (List.replicate np)).zipIdx (by
      intro p hp
      have h1 := List.fst_mem_of_mem_zipIdx hp
      obtain ⟨c, hc, h2⟩ := List.mem_flatMap.1 h1
      rw [List.eq_of_mem_replicate h2]
      exact (hspec c hc p.2).1)
  rw [importanceSampling]
  simp only [pure_bind]
  rw [run_bind_ok hrows, if_neg (by rintro ⟨v, hv, h⟩; exact absurd (hn v (hM v hv)) (by omega))]
  refine congrArg (fun l => some (Except.ok l)) (List.map_congr_left fun p hp => ?_)
  have hk : values[p.2]? = some p.1 := by
    have := List.mk_mem_zipIdx_iff_getElem?.1 hp
    exact this
  have hc : p.1 ∈ values := List.mem_of_getElem? hk
  have hsub : ((((values.flatMap (List.replicate np)).zipIdx.map fun p => D.weightedRow ot n ix cond p.1 (u p.2)).map
      fun r => (r.1, r.2.prod)).drop (np * p.2)).take np = (List.range np).map fun r =>
        ((D.weightedRow ot n ix cond p.1 (u (np * p.2 + r))).1, (D.weightedRow ot n ix cond p.1 (u (np * p.2 + r))).2.prod) := by
    rw [← List.map_drop, ← List.map_drop, ← List.map_take, ← List.map_take, block_eq np values 0 p.2 p.1 hk, List.map_map, List.map_map]
    refine List.map_congr_left fun r _ => ?_
    simp
  have hall : ((((values.flatMap (List.replicate np)).zipIdx.map fun p => D.weightedRow ot n ix cond p.1 (u p.2)).map
      fun r => (r.1, r.2.prod)).map Prod.snd).sum =
        (values.zipIdx.map fun q => ∑ r ∈ Finset.range np, D.weightAt ot n ix cond u q.1 (np * q.2 + r)).sum := by
    rw [List.map_map, List.map_map, sum_flatMap_zipIdx]
    simp [weightAt]
  have hun : ∀ m : List ℕ, ((((List.range np).map fun r =>
        ((D.weightedRow ot n ix cond p.1 (u (np * p.2 + r))).1, (D.weightedRow ot n ix cond p.1 (u (np * p.2 + r))).2.prod)).filter
          fun r => marg.map r.1 = m.map Int.ofNat).map Prod.snd).sum =
        ∑ r ∈ Finset.range np, D.weightIf ot n ix cond u marg m p.1 (np * p.2 + r) := by
    intro m
    rw [sum_filter_map, List.map_map, sum_range_map]
    refine Finset.sum_congr rfl fun r _ => ?_
    simp only [Function.comp, weightIf, mul_ite, mul_one, mul_zero]
    refine if_congr ?_ rfl rfl
    have hF := (hspec p.1 hc (np * p.2 + r)).2.1
    have : marg.map (D.weightedRow ot n ix cond p.1 (u (np * p.2 + r))).1 =
        (marg.map fun v => ((D.weightedRow ot n ix cond p.1 (u (np * p.2 + r))).1 (ix v)).toNat).map Int.ofNat := by
      rw [List.map_map]
      refine List.map_congr_left fun v hv => ?_
      have := (hF v (hM v hv)).1
      rw [hix v (hM v hv)] at this
      simp only [Function.comp, hix v (hM v hv)]
      exact this
    rw [this]
    exact (List.map_injective_iff.2 fun a b h => Int.ofNat.inj h).eq_iff
  have hden : ((products (marg.map fun v => List.range (D.dims v))).map fun m =>
      ∑ r ∈ Finset.range np, D.weightIf ot n ix cond u marg m p.1 (np * p.2 + r)).sum =
        ∑ r ∈ Finset.range np, D.weightAt ot n ix cond u p.1 (np * p.2 + r) := by
    have h1 := sum_keys (fun r => marg.map fun v => ((D.weightedRow ot n ix cond p.1 (u (np * p.2 + r))).1 (ix v)).toNat)
      (fun r => D.weightAt ot n ix cond u p.1 (np * p.2 + r))
      (K := products (marg.map fun v => List.range (D.dims v)))
      (nodup_products (by
        intro l hl
        obtain ⟨v, -, rfl⟩ := List.mem_map.1 hl
        exact List.nodup_range)) (List.range np) (by
        intro r _
        rw [mem_products, List.forall₂_map_left_iff, List.forall₂_map_right_iff, List.forall₂_same]
        intro v hv
        exact List.mem_range.2 ((hspec p.1 hc (np * p.2 + r)).2.1 v (hM v hv)).2.1)
    rw [sum_range_map] at h1
    rw [← h1]
    congr 1
    refine List.map_congr_left fun m _ => ?_
    rw [sum_filter_map, sum_range_map]
    refine Finset.sum_congr rfl fun r _ => ?_
    simp only [weightIf, weightAt, mul_ite, mul_one, mul_zero]
  simp only [hsub, hall, hun, hden]
  congr 2
  rw [List.map_map, sum_range_map]
  rfl

/-- Rows with values of probability zero have weight zero. -/
theorem weightAt_zero {D : DiscreteDAG ℕ} (hD : D.Tabled) (hA : D.Counting) (ot : SetOrder (Option ℕ) ℕ) {n : ℕ}
    {ix : ℕ → ℕ} (hn : ∀ v ∈ D.dag.nodes, v < n) (hix : ∀ v ∈ D.dag.nodes, ix v = v) {cond : List ℕ} (hN : cond.Nodup)
    (hNn : ∀ v ∈ cond, v ∈ D.dag.nodes) {c : List ℕ} (hc : List.Forall₂ (fun v i => i < D.dims v) cond c) {u : ℕ → ℕ → ℝ}
    (hu : ∀ i v, u i v ∈ Set.Ico (0 : ℝ) 1)
    (h0 : Spec.prob D.dag.nodes D.dims D.law (fun y => ∀ v ∈ cond, y v = c.getD (cond.idxOf v) 0) = 0) (i : ℕ) :
    D.weightAt ot n ix cond u c i = 0 := by
  classical
  obtain ⟨hlen, hval⟩ := getD_of_forall₂ hc
  obtain ⟨-, hF, hw⟩ := weightedRow_spec hD hA ot hn hix hN hNn hlen hval (hu i)
  set row := (D.weightedRow ot n ix cond c (u i)).1 with hrow
  set y : ℕ → ℕ := fun v => if v ∈ D.dag.nodes then (row (ix v)).toNat else 0 with hy
  have hyv : ∀ v ∈ D.dag.nodes, (row (ix v)).toNat = y v := fun v hv => by rw [hy]; simp [hv]
  have hpar : ∀ v ∈ D.dag.nodes, ∀ p ∈ D.pars v, (row (ix p)).toNat = y p := fun v hv p hp =>
    hyv p (hD.valid.fst_mem _ _ (hD.pars_sub v hv p hp))
  have hd : ∀ v ∈ D.dag.nodes, D.Draws (fixAt cond.toFinset fun v => c.getD (cond.idxOf v) 0) (u i) y v := fun v hv =>
    (hF v hv).2.2.congr (hyv v hv) (hpar v hv)
  have hyc : ∀ v ∈ cond, y v = c.getD (cond.idxOf v) 0 := fun v hv => (hd v (hNn v hv)).1 _ (by simp [fixAt, hv])
  have hmem : y ∈ Spec.assignments D.dag.nodes D.dims :=
    Spec.mem_assignments.2 ⟨fun v hv => by rw [← hyv v hv]; exact (hF v hv).2.1, fun v hv => by rw [hy]; simp [hv]⟩
  have hlaw : D.law y = 0 := by
    rw [Spec.prob, Finset.sum_filter, Finset.sum_eq_zero_iff] at h0
    simpa only [if_pos hyc] using h0 y hmem
  rw [law, Spec.joint, Finset.prod_eq_zero_iff] at hlaw
  obtain ⟨v, hv, hz⟩ := hlaw
  have hz' : D.rowAt v y (y v) = 0 := by rw [rowAt, ← hz, List.map_append, List.map_singleton]
  have hvc : v ∈ cond := by
    by_contra hvc
    have h1 := (hd v hv).2 (by simp [fixAt, hvc])
    rw [Drawn, Finset.sum_range_succ, hz'] at h1
    simp only [NNReal.coe_zero, add_zero] at h1
    exact absurd h1.1 (not_le.2 h1.2)
  rw [weightAt, hw]
  refine List.prod_eq_zero (List.mem_map.2 ⟨v, hvc, ?_⟩)
  rw [← hyc v hvc, ← hz']
  exact congrFun (rowAt_congr (hpar v hv)) _

end Model.DiscreteDAG
