import Verif.Model.DiscreteMarginalDag
import Verif.Proof.DiscreteIv

/-! # Marginal graphs of `DiscreteDAG` -/

set_option linter.unusedSectionVars false

namespace Model.DiscreteDAG

open Spec
open scoped NNReal

variable {α : Type} [DecidableEq α] {D : DiscreteDAG α} {m : α}

theorem Shaped.not_mem_pars (hD : D.Shaped) {v : α} (hv : v ∈ D.dag.nodes) : v ∉ D.pars v := fun h =>
  hD.valid.acyclic v (.single ((hD.pars_iff v hv v).1 h))

theorem Shaped.nodup_axes (hD : D.Shaped) {v : α} (hv : v ∈ D.dag.nodes) : (D.pars v ++ [v]).Nodup := by
  rw [List.nodup_append]
  refine ⟨hD.nodup v hv, by simp, ?_⟩
  rintro a ha b hb rfl
  rw [List.mem_singleton] at hb
  exact hD.not_mem_pars hv (hb ▸ ha)

section child

variable (hD : D.Shaped) {v : α} (hv : (m, v) ∈ D.dag.arcs)
include hD hv

theorem child_mem : v ∈ D.dag.children m := (hD.valid.children_iff m v).2 hv

theorem mPars_child : D.mPars m v = (D.pars v).filter (· ≠ m) ++ (D.pars m).filter (· ∉ D.pars v) :=
  if_pos (child_mem hD hv)

theorem mem_mPars_child (u : α) : u ∈ D.mPars m v ↔ (u ∈ D.pars v ∧ u ≠ m) ∨ u ∈ D.pars m := by
  have hm := hD.valid.fst_mem _ _ hv
  have h0 : u ∈ D.pars m → u ≠ m := fun h e => hD.not_mem_pars hm (e ▸ h)
  rw [mPars_child hD hv]
  simp only [List.mem_append, List.mem_filter, ne_eq, decide_not, Bool.not_eq_eq_eq_not, Bool.not_true, decide_eq_false_iff_not]
  tauto

theorem nodup_out : (D.mPars m v ++ [v]).Nodup := by
  have hm := hD.valid.fst_mem _ _ hv
  have hvn := hD.valid.snd_mem _ _ hv
  rw [List.nodup_append]
  refine ⟨?_, by simp, ?_⟩
  · rw [mPars_child hD hv, List.nodup_append]
    refine ⟨(hD.nodup v hvn).filter _, (hD.nodup m hm).filter _, ?_⟩
    rintro a ha b hb rfl
    simp only [List.mem_filter, decide_eq_true_eq] at ha hb
    exact hb.2 ha.1
  · rintro a ha b hb rfl
    rw [List.mem_singleton] at hb
    subst hb
    rcases (mem_mPars_child hD hv a).1 ha with h | h
    · exact hD.not_mem_pars hvn h.1
    · exact hD.valid.acyclic a (.tail (.single ((hD.pars_iff m hm a).1 h)) hv)

theorem mem_out (u : α) : u ∈ D.mPars m v ++ [v] ↔ u ∈ (D.pars v ++ [v]) ++ (D.pars m ++ [m]) ∧ u ≠ m := by
  have hm := hD.valid.fst_mem _ _ hv
  have h0 : u ∈ D.pars m → u ≠ m := fun h e => hD.not_mem_pars hm (e ▸ h)
  have h1 : v ≠ m := fun e => hD.valid.acyclic v (.single (by rw [e] at hv ⊢; exact hv))
  rw [List.mem_append, mem_mPars_child hD hv]
  simp only [List.mem_append, List.mem_singleton]
  constructor
  · rintro ((h | h) | rfl)
    · exact ⟨.inl (.inl h.1), h.2⟩
    · exact ⟨.inr (.inl h), h0 h⟩
    · exact ⟨.inl (.inr rfl), h1⟩
  · tauto

theorem einsumSize_eq {u : α} (hu : u ∈ (D.pars v ++ [v]) ++ (D.pars m ++ [m])) :
    einsumSize (D.cond v) (D.cond m) (D.pars v ++ [v]) (D.pars m ++ [m]) u = D.dims u := by
  have hm := hD.valid.fst_mem _ _ hv
  have hvn := hD.valid.snd_mem _ _ hv
  rw [einsumSize, hD.shape v hvn, hD.shape m hm]
  split_ifs with h
  · exact getD_map_idxOf h _
  · exact getD_map_idxOf ((List.mem_append.1 hu).resolve_left h) _

theorem einsum_ok : EinsumOk (D.cond v) (D.cond m) (D.pars v ++ [v]) (D.pars m ++ [m]) (D.mPars m v ++ [v]) := by
  have hm := hD.valid.fst_mem _ _ hv
  have hvn := hD.valid.snd_mem _ _ hv
  refine ⟨hD.nodup_axes hvn, hD.nodup_axes hm, nodup_out hD hv, ?_, ?_, fun d hd => ((mem_out hD hv d).1 hd).1, fun d h1 h2 => ?_⟩
  · rw [hD.shape v hvn, List.length_map]
  · rw [hD.shape m hm, List.length_map]
  · rw [hD.shape v hvn, hD.shape m hm, getD_map_idxOf h1, getD_map_idxOf h2]

theorem einsum_val (y : α → ℕ) :
    (einsum (D.cond v) (D.cond m) (D.pars v ++ [v]) (D.pars m ++ [m]) (D.mPars m v ++ [v])).val ((D.mPars m v ++ [v]).map y) =
      ∑ i ∈ Finset.range (D.dims m), D.kern v (Function.update y m i) * D.kern m (Function.update y m i) := by
  have hl : ((D.pars v ++ [v]) ++ (D.pars m ++ [m])).dedup.filter (· ∉ D.mPars m v ++ [v]) = [m] := by
    refine List.perm_singleton.1 ((List.perm_ext_iff_of_nodup ((List.nodup_dedup _).filter _) (by simp)).2 fun u => ?_)
    rw [List.mem_filter, List.mem_dedup, decide_eq_true_eq, mem_out hD hv, List.mem_singleton]
    constructor
    · rintro ⟨h1, h2⟩
      by_contra h
      exact h2 ⟨h1, h⟩
    · rintro rfl
      simp
  rw [einsum]
  dsimp only
  rw [hl, Tensor.sumNames, einsumSize_eq hD hv (by simp)]
  refine Finset.sum_congr rfl fun i _ => ?_
  rw [Tensor.sumNames]
  have key : ∀ u ∈ (D.pars v ++ [v]) ++ (D.pars m ++ [m]),
      Function.update (fun d => ((D.mPars m v ++ [v]).map y).getD ((D.mPars m v ++ [v]).idxOf d) 0) m i u = Function.update y m i u := by
    intro u hu
    by_cases h : u = m
    · subst h; simp
    · rw [Function.update_of_ne h, Function.update_of_ne h, getD_map_idxOf ((mem_out hD hv u).2 ⟨hu, h⟩)]
  rw [kern, kern, List.map_congr_left fun u hu => key u (List.mem_append_left _ hu),
    List.map_congr_left fun u hu => key u (List.mem_append_right _ hu)]

theorem mCond_shape : (D.mCond m v).shape = (D.mPars m v ++ [v]).map D.dims := by
  rw [mCond, if_pos (child_mem hD hv)]
  exact List.map_congr_left fun u hu => einsumSize_eq hD hv ((mem_out hD hv u).1 hu).1

end child

theorem sum_einsum (hD : D.Proper) {v : α} (hv : (m, v) ∈ D.dag.arcs) {x : α → ℕ} (hx : ∀ u ∈ D.mPars m v, x u < D.dims u) :
    ∑ j ∈ Finset.range (D.dims v), ∑ i ∈ Finset.range (D.dims m),
      D.kern v (Function.update (Function.update x v j) m i) * D.kern m (Function.update (Function.update x v j) m i) = 1 := by
  have hS := hD.toShaped
  have hm := hD.valid.fst_mem _ _ hv
  have hvn := hD.valid.snd_mem _ _ hv
  have hvm : v ≠ m := fun e => hD.valid.acyclic v (.single (by rw [e] at hv ⊢; exact hv))
  have hvp : v ∉ D.pars m := fun h => hD.valid.acyclic v (.tail (.single ((hD.pars_iff m hm v).1 h)) hv)
  rw [Finset.sum_comm, ← hD.sum_kern hm x fun u hu => hx u ((mem_mPars_child hS hv u).2 (.inr hu))]
  refine Finset.sum_congr rfl fun i hi => ?_
  have h1 : ∀ j, D.kern m (Function.update (Function.update x v j) m i) = D.kern m (Function.update x m i) := fun j => by
    rw [Function.update_comm hvm]
    refine (D.kern_depends m).update ?_ _ _
    simp [hvm, hvp]
  simp only [h1]
  rw [← Finset.sum_mul]
  have h2 : ∑ j ∈ Finset.range (D.dims v), D.kern v (Function.update (Function.update x v j) m i) = 1 := by
    rw [← hD.sum_kern hvn (Function.update x m i) fun u hu => ?_]
    · exact Finset.sum_congr rfl fun j _ => by rw [Function.update_comm hvm]
    · by_cases h : u = m
      · subst h; simpa using hi
      · rw [Function.update_of_ne h]
        exact hx u ((mem_mPars_child hS hv u).2 (.inl ⟨hu, h⟩))
  rw [h2, one_mul]

theorem mCond_val (hD : D.Proper) {v : α} (hv : (m, v) ∈ D.dag.arcs) {y : α → ℕ} (hy : ∀ u ∈ D.mPars m v, y u < D.dims u) :
    (D.mCond m v).val ((D.mPars m v ++ [v]).map y) =
      ∑ i ∈ Finset.range (D.dims m), D.kern v (Function.update y m i) * D.kern m (Function.update y m i) := by
  have hS := hD.toShaped
  have hsh := mCond_shape hS hv
  rw [mCond, if_pos (child_mem hS hv)] at hsh ⊢
  have h1 : ∀ j, ((D.mPars m v ++ [v]).map y).dropLast ++ [j] = (D.mPars m v ++ [v]).map (Function.update y v j) := fun j => by
    have : v ∉ D.mPars m v := fun h => by
      have := nodup_out hS hv
      rw [List.nodup_append] at this
      exact this.2.2 v h v (by simp) rfl
    rw [List.map_append, List.map_append, List.map_singleton, List.dropLast_concat, List.map_singleton, Function.update_self]
    congr 1
    refine List.map_congr_left fun u hu => (Function.update_of_ne ?_ _ _).symm
    rintro rfl
    exact this hu
  change _ / ∑ i ∈ Finset.range ((einsum _ _ _ _ _).shape.getLastD 0), _ = _
  change (einsum _ _ _ _ _).shape = _ at hsh
  rw [einsum_val hS hv, hsh]
  simp only [h1, einsum_val hS hv]
  rw [show ((D.mPars m v ++ [v]).map D.dims).getLastD 0 = D.dims v by simp, sum_einsum hD hv hy, div_one]

theorem mPars_other (hD : D.Shaped) {v : α} (hv : (m, v) ∉ D.dag.arcs) : D.mPars m v = D.pars v :=
  if_neg fun h => hv ((hD.valid.children_iff m v).1 h)

theorem mCond_other (hD : D.Shaped) {v : α} (hv : (m, v) ∉ D.dag.arcs) : D.mCond m v = D.cond v :=
  if_neg fun h => hv ((hD.valid.children_iff m v).1 h)

theorem mOk (hD : D.Shaped) (m : α) : D.MOk m := fun v hv => einsum_ok hD ((hD.valid.children_iff m v).1 hv)

theorem mem_mArcs (hD : D.Shaped) (u v : α) :
    (u, v) ∈ D.mArcs m ↔ ((u, v) ∈ D.dag.arcs ∧ u ≠ m ∧ v ≠ m) ∨ ((u, m) ∈ D.dag.arcs ∧ (m, v) ∈ D.dag.arcs) := by
  simp only [mArcs, Finset.mem_union, Finset.mem_filter, Finset.mem_biUnion, Finset.mem_image, List.mem_toFinset, Prod.mk.injEq]
  constructor
  · rintro (h | ⟨c, hc, p, hp, rfl, rfl⟩)
    · exact .inl ⟨h.1, h.2.2, h.2.1⟩
    · have hc' := (hD.valid.children_iff m c).1 hc
      rcases (mem_mPars_child hD hc' p).1 hp with h | h
      · refine .inl ⟨(hD.pars_iff c (hD.valid.snd_mem _ _ hc') p).1 h.1, h.2, fun e => ?_⟩
        rw [e] at hc'
        exact hD.valid.acyclic m (.single hc')
      · exact .inr ⟨(hD.pars_iff m (hD.valid.fst_mem _ _ hc') p).1 h, hc'⟩
  · rintro (h | ⟨h1, h2⟩)
    · exact .inl ⟨h.1, h.2.2, h.2.1⟩
    · exact .inr ⟨v, child_mem hD h2, u, (mem_mPars_child hD h2 u).2 (.inr ((hD.pars_iff m (hD.valid.snd_mem _ _ h1) u).2 h1)), rfl, rfl⟩

theorem mArcs_acyclic (hD : D.Shaped) : Acyclic fun a b => (a, b) ∈ D.mArcs m := fun v hv => by
  refine hD.valid.acyclic v ?_
  have : ∀ a b, Relation.TransGen (fun a b => (a, b) ∈ D.mArcs m) a b → Relation.TransGen D.dag.E a b := fun a b h => by
    induction h with
    | single e =>
        rcases (mem_mArcs hD _ _).1 e with h | ⟨h1, h2⟩
        · exact .single h.1
        · exact .tail (.single h1) h2
    | tail _ e ih =>
        rcases (mem_mArcs hD _ _).1 e with h | ⟨h1, h2⟩
        · exact .tail ih h.1
        · exact .tail (.tail ih h1) h2
  exact this v v hv

theorem mArcs_nodes (hD : D.Shaped) {a : α × α} (ha : a ∈ D.mArcs m) : a.1 ∈ D.dag.nodes.erase m ∧ a.2 ∈ D.dag.nodes.erase m := by
  obtain ⟨u, v⟩ := a
  have hne : ∀ w, (m, w) ∈ D.dag.arcs ∨ (w, m) ∈ D.dag.arcs → w ≠ m := by
    rintro w h rfl
    exact hD.valid.acyclic w (.single (h.elim id id))
  simp only [Finset.mem_erase]
  rcases (mem_mArcs hD _ _).1 ha with h | ⟨h1, h2⟩
  · exact ⟨⟨h.2.1, hD.valid.fst_mem _ _ h.1⟩, h.2.2, hD.valid.snd_mem _ _ h.1⟩
  · exact ⟨⟨hne u (.inr h1), hD.valid.fst_mem _ _ h1⟩, hne v (.inl h2), hD.valid.snd_mem _ _ h2⟩

theorem mShape (hD : D.Shaped) {v : α} (hv : v ∈ D.dag.nodes) : (D.mCond m v).shape = (D.mPars m v ++ [v]).map D.dims := by
  by_cases h : (m, v) ∈ D.dag.arcs
  · exact mCond_shape hD h
  · rw [mCond_other hD h, mPars_other hD h, hD.shape v hv]

/-- The graph without `m`, with the tables of the method. -/
theorem mProper (hD : D.Proper) {G : DAG α} (hG : G.Valid) (hn : G.nodes = D.dag.nodes.erase m) (ha : G.arcs = D.mArcs m) :
    (⟨G, D.mCond m, D.mPars m, D.alph⟩ : DiscreteDAG α).Proper := by
  have hS := hD.toShaped
  refine ⟨⟨hG, fun v hv => ?_, fun v hv u => ?_, fun v hv => ?_⟩, fun v hv x hx => ?_⟩
  · have hv' := (Finset.mem_erase.1 (hn ▸ hv)).2
    by_cases h : (m, v) ∈ D.dag.arcs
    · exact (List.nodup_append.1 (nodup_out hS h)).1
    · change (D.mPars m v).Nodup
      rw [mPars_other hS h]; exact hD.nodup v hv'
  · have hv' := Finset.mem_erase.1 (hn ▸ hv)
    change u ∈ D.mPars m v ↔ (u, v) ∈ G.arcs
    rw [ha, mem_mArcs hS]
    by_cases h : (m, v) ∈ D.dag.arcs
    · rw [mem_mPars_child hS h, hD.pars_iff v hv'.2, hD.pars_iff m (hD.valid.fst_mem _ _ h)]
      have := hv'.1
      tauto
    · rw [mPars_other hS h, hD.pars_iff v hv'.2]
      have := hv'.1
      have h2 : (u, v) ∈ D.dag.arcs → u ≠ m := fun e e' => h (e' ▸ e)
      tauto
  · exact mShape hS (Finset.mem_erase.1 (hn ▸ hv)).2
  · have hv' := Finset.mem_erase.1 (hn ▸ hv)
    change ∑ i ∈ Finset.range (D.dims v), (D.mCond m v).val ((D.mPars m v).map x ++ [i]) = 1
    by_cases h : (m, v) ∈ D.dag.arcs
    · rw [← sum_einsum hD h hx]
      have hvp : v ∉ D.mPars m v := fun h' => (List.nodup_append.1 (nodup_out hS h)).2.2 v h' v (by simp) rfl
      refine Finset.sum_congr rfl fun j _ => ?_
      rw [← mCond_val hD h]
      · congr 1
        rw [List.map_append, List.map_singleton, Function.update_self]
        congr 1
        refine List.map_congr_left fun u hu => (Function.update_of_ne ?_ _ _).symm
        rintro rfl
        exact hvp hu
      · intro u hu
        rw [Function.update_of_ne]
        · exact hx u hu
        · rintro rfl
          exact hvp hu
    · rw [mCond_other hS h, mPars_other hS h]
      refine hD.total v hv'.2 x fun u hu => hx u ?_
      change u ∈ D.mPars m v
      rw [mPars_other hS h]; exact hu

/-- If `m` has at most one child, the tables give the marginal distribution. -/
theorem mLaw (hD : D.Proper) (hm : m ∈ D.dag.nodes) (h1 : (D.dag.children m).card ≤ 1) {G : DAG α} (hn : G.nodes = D.dag.nodes.erase m)
    {y : α → ℕ} (hy : ∀ v ∈ D.dag.nodes.erase m, y v < D.dims v) :
    (⟨G, D.mCond m, D.mPars m, D.alph⟩ : DiscreteDAG α).law y = ∑ i ∈ Finset.range (D.dims m), D.law (Function.update y m i) := by
  have hS := hD.toShaped
  have hlaw : ∀ z, D.law z = D.kern m z * ∏ v ∈ D.dag.nodes.erase m, D.kern v z := fun z => by
    rw [law_eq]
    exact (Finset.mul_prod_erase _ (fun v => D.kern v z) hm).symm
  have hl' : (⟨G, D.mCond m, D.mPars m, D.alph⟩ : DiscreteDAG α).law y =
      ∏ v ∈ D.dag.nodes.erase m, (D.mCond m v).val ((D.mPars m v ++ [v]).map y) := by
    rw [law, joint]; dsimp only; rw [hn]
  have hoth : ∀ v, (m, v) ∉ D.dag.arcs → v ∈ D.dag.nodes.erase m → ∀ i, D.kern v (Function.update y m i) = D.kern v y := by
    intro v hv hvn i
    refine (D.kern_depends v).update ?_ _ _
    rw [Finset.mem_erase] at hvn
    rintro (h | h)
    · exact hvn.1 h.symm
    · exact hv ((hD.pars_iff v hvn.2 m).1 h)
  have hcond : ∀ v, (m, v) ∉ D.dag.arcs → (D.mCond m v).val ((D.mPars m v ++ [v]).map y) = D.kern v y := fun v hv => by
    rw [mCond_other hS hv, mPars_other hS hv]; rfl
  have hpm : ∀ u ∈ D.pars m, u ∈ D.dag.nodes.erase m := fun u hu => by
    have e := (hD.pars_iff m hm u).1 hu
    exact Finset.mem_erase.2 ⟨fun h => hS.not_mem_pars hm (h ▸ hu), hD.valid.fst_mem _ _ e⟩
  rw [hl']
  simp only [hlaw]
  have : Nonempty α := ⟨m⟩
  rcases Finset.card_le_one_iff_subset_singleton.1 h1 with ⟨c, hc⟩
  by_cases hcm : (m, c) ∈ D.dag.arcs
  · have hcn : c ∈ D.dag.nodes.erase m := Finset.mem_erase.2
      ⟨fun e => hD.valid.acyclic m (.single (by rw [e] at hcm; exact hcm)), hD.valid.snd_mem _ _ hcm⟩
    have hne : ∀ v ∈ (D.dag.nodes.erase m).erase c, (m, v) ∉ D.dag.arcs := fun v hv e => by
      have := hc ((hD.valid.children_iff m v).2 e)
      exact (Finset.mem_erase.1 hv).1 (Finset.mem_singleton.1 this)
    rw [← Finset.mul_prod_erase _ _ hcn, Finset.prod_congr rfl fun v hv => hcond v (hne v hv)]
    rw [mCond_val hD hcm fun u hu => hy u ?_, Finset.sum_mul]
    · refine Finset.sum_congr rfl fun i _ => ?_
      rw [← Finset.mul_prod_erase _ _ hcn,
        Finset.prod_congr rfl fun v hv => (hoth v (hne v hv) (Finset.mem_of_mem_erase hv) i).symm]
      ring
    · rcases (mem_mPars_child hS hcm u).1 hu with h | h
      · exact Finset.mem_erase.2 ⟨h.2, hD.valid.fst_mem _ _ ((hD.pars_iff c (Finset.mem_of_mem_erase hcn) u).1 h.1)⟩
      · exact hpm u h
  · have hne : ∀ v, (m, v) ∉ D.dag.arcs := fun v e => by
      have := Finset.mem_singleton.1 (hc ((hD.valid.children_iff m v).2 e))
      exact hcm (this ▸ e)
    rw [Finset.prod_congr rfl fun v hv => hcond v (hne v)]
    rw [Finset.sum_congr rfl fun i _ => by rw [Finset.prod_congr rfl fun v hv => hoth v (hne v) hv i]]
    rw [← Finset.sum_mul, hD.sum_kern hm y fun u hu => hy u (hpm u hu), one_mul]

/-- The probability of an event that does not look at `m`: sum over `m` first. -/
theorem pr_erase (hm : m ∈ D.dag.nodes) {M : List α} (hM : m ∉ M) (x : α → ℕ) :
    D.pr M x = sumL D.dims (D.dag.nodes.erase m).toList
      (fun y => if ∀ v ∈ M, y v = x v then ∑ i ∈ Finset.range (D.dims m), D.law (Function.update y m i) else 0) fun _ => 0 := by
  classical
  have hp : D.dag.nodes.toList.Perm ((D.dag.nodes.erase m).toList ++ [m]) := by
    refine (List.perm_ext_iff_of_nodup (Finset.nodup_toList _) ?_).2 fun u => ?_
    · rw [List.nodup_append]
      refine ⟨Finset.nodup_toList _, by simp, ?_⟩
      rintro a ha b hb rfl
      simp only [List.mem_singleton, Finset.mem_toList, Finset.mem_erase] at ha hb
      exact ha.1 hb
    · simp only [List.mem_append, List.mem_singleton, Finset.mem_toList, Finset.mem_erase]
      by_cases h : u = m
      · simp [h, hm]
      · simp [h]
  rw [pr, prob_eq_sumL, sumL_perm hp, sumL_append]
  refine sumL_congr fun y _ _ => ?_
  rw [sumL]
  simp only [sumL]
  have : ∀ i, (∀ v ∈ M, Function.update y m i v = x v) ↔ ∀ v ∈ M, y v = x v := fun i =>
    forall₂_congr fun v hv => by rw [Function.update_of_ne]; rintro rfl; exact hM hv
  by_cases h : ∀ v ∈ M, y v = x v
  · rw [if_pos h]
    exact Finset.sum_congr rfl fun i _ => if_pos ((this i).2 h)
  · rw [if_neg h]
    exact Finset.sum_eq_zero fun i _ => if_neg fun h' => h ((this i).1 h')

theorem mPr (hD : D.Proper) (hm : m ∈ D.dag.nodes) (h1 : (D.dag.children m).card ≤ 1) {G : DAG α} (hn : G.nodes = D.dag.nodes.erase m)
    {M : List α} (hM : m ∉ M) (x : α → ℕ) : (⟨G, D.mCond m, D.mPars m, D.alph⟩ : DiscreteDAG α).pr M x = D.pr M x := by
  classical
  rw [pr_erase hm hM, pr, prob_eq_sumL]
  dsimp only
  rw [hn]
  change sumL D.dims _ _ _ = _
  refine sumL_congr fun y hy _ => ?_
  by_cases h : ∀ v ∈ M, y v = x v
  · rw [if_pos h, if_pos h]
    exact mLaw hD hm h1 hn fun v hv => hy v (Finset.mem_toList.2 hv)
  · rw [if_neg h, if_neg h]

/-- `D'` is `D` with new names for the nodes. -/
structure Relabels (D D' : DiscreteDAG α) (f : α → α) : Prop where
  inj : Set.InjOn f D.dag.nodes
  nodes : D'.dag.nodes = D.dag.nodes.image f
  arcs : D'.dag.arcs = D.dag.arcs.image fun a => (f a.1, f a.2)
  pars : ∀ v ∈ D.dag.nodes, D'.pars (f v) = (D.pars v).map f
  cond : ∀ v ∈ D.dag.nodes, D'.cond (f v) = D.cond v
  alph : ∀ v ∈ D.dag.nodes, D'.alph (f v) = D.alph v

namespace Relabels

variable {D' : DiscreteDAG α} {f : α → α}

theorem dims (h : Relabels D D' f) {v : α} (hv : v ∈ D.dag.nodes) : D'.dims (f v) = D.dims v := by
  rw [DiscreteDAG.dims, h.alph v hv, DiscreteDAG.dims]

theorem arc_iff (h : Relabels D D' f) (hD : D.dag.Valid) {u v : α} (hu : u ∈ D.dag.nodes) (hv : v ∈ D.dag.nodes) :
    (f u, f v) ∈ D'.dag.arcs ↔ (u, v) ∈ D.dag.arcs := by
  rw [h.arcs, Finset.mem_image]
  constructor
  · rintro ⟨⟨a, b⟩, hab, e⟩
    rw [Prod.mk.injEq] at e
    rw [← h.inj (hD.fst_mem _ _ hab) hu e.1, ← h.inj (hD.snd_mem _ _ hab) hv e.2]
    exact hab
  · exact fun e => ⟨(u, v), e, rfl⟩

theorem proper (h : Relabels D D' f) (hD : D.Proper) (hG : D'.dag.Valid) : D'.Proper := by
  have hpn : ∀ v ∈ D.dag.nodes, ∀ u ∈ D.pars v, u ∈ D.dag.nodes := fun v hv u hu => hD.valid.fst_mem _ _ ((hD.pars_iff v hv u).1 hu)
  refine ⟨⟨hG, fun w hw => ?_, fun w hw u => ?_, fun w hw => ?_⟩, fun w hw x hx => ?_⟩ <;>
    rw [h.nodes, Finset.mem_image] at hw <;> obtain ⟨v, hv, rfl⟩ := hw
  · rw [h.pars v hv]
    exact (hD.nodup v hv).map_on fun a ha b hb e => h.inj (hpn v hv a ha) (hpn v hv b hb) e
  · rw [h.pars v hv, List.mem_map]
    constructor
    · rintro ⟨a, ha, rfl⟩
      exact (h.arc_iff hD.valid (hpn v hv a ha) hv).2 ((hD.pars_iff v hv a).1 ha)
    · intro e
      have hu := hG.fst_mem _ _ e
      rw [h.nodes, Finset.mem_image] at hu
      obtain ⟨a, ha, rfl⟩ := hu
      exact ⟨a, (hD.pars_iff v hv a).2 ((h.arc_iff hD.valid ha hv).1 e), rfl⟩
  · rw [h.cond v hv, h.pars v hv, hD.shape v hv]
    simp only [List.map_append, List.map_singleton, List.map_map, h.dims hv]
    congr 1
    exact List.map_congr_left fun u hu => (h.dims (hpn v hv u hu)).symm
  · rw [h.cond v hv, h.pars v hv, h.dims hv, ← hD.total v hv (x ∘ f)]
    · simp only [List.map_map]
    · intro u hu
      rw [← h.dims (hpn v hv u hu)]
      exact hx _ (by rw [h.pars v hv]; exact List.mem_map_of_mem hu)

theorem law_eq (h : Relabels D D' f) (y : α → ℕ) : D'.law y = D.law (y ∘ f) := by
  rw [law, law, joint, joint, h.nodes, Finset.prod_image h.inj]
  refine Finset.prod_congr rfl fun v hv => ?_
  rw [h.cond v hv, h.pars v hv]
  simp

theorem pr_eq (h : Relabels D D' f) (hD : D.Proper) {M : List α} (hM : ∀ v ∈ M, v ∈ D.dag.nodes) (x : α → ℕ) :
    D'.pr (M.map f) x = D.pr M (x ∘ f) := by
  classical
  rw [pr, pr, prob, prob]
  have hlk : ∀ y z : α → ℕ, (∀ v ∈ D.dag.nodes, y v = z v) → D.law y = D.law z := fun y z e => by
    rw [law, joint, joint]
    refine Finset.prod_congr rfl fun v hv => congrArg _ (List.map_congr_left fun u hu => e u ?_)
    rcases List.mem_append.1 hu with hu | hu
    · exact hD.valid.fst_mem _ _ ((hD.pars_iff v hv u).1 hu)
    · rw [List.mem_singleton.1 hu]; exact hv
  refine Finset.sum_bij' (fun y _ => fun v => if v ∈ D.dag.nodes then y (f v) else 0)
    (fun y _ => fun w => if hw : ∃ v ∈ D.dag.nodes, f v = w then y hw.choose else 0) ?_ ?_ ?_ ?_ ?_
  · intro y hy
    simp only [Finset.mem_filter, mem_assignments] at hy ⊢
    refine ⟨⟨fun v hv => ?_, fun v hv => if_neg hv⟩, fun v hv => ?_⟩
    · rw [if_pos hv, ← h.dims hv]
      exact hy.1.1 _ (by rw [h.nodes]; exact Finset.mem_image_of_mem _ hv)
    · rw [if_pos (hM v hv)]
      exact hy.2 _ (List.mem_map_of_mem hv)
  · intro y hy
    simp only [Finset.mem_filter, mem_assignments] at hy ⊢
    have key : ∀ v ∈ D.dag.nodes, (if hw : ∃ v' ∈ D.dag.nodes, f v' = f v then y hw.choose else 0) = y v := fun v hv => by
      have hw : ∃ v' ∈ D.dag.nodes, f v' = f v := ⟨v, hv, rfl⟩
      rw [dif_pos hw, h.inj hw.choose_spec.1 hv hw.choose_spec.2]
    refine ⟨⟨fun w hw => ?_, fun w hw => ?_⟩, fun w hw => ?_⟩
    · rw [h.nodes, Finset.mem_image] at hw
      obtain ⟨v, hv, rfl⟩ := hw
      rw [key v hv, h.dims hv]
      exact hy.1.1 v hv
    · rw [h.nodes, Finset.mem_image] at hw
      exact dif_neg hw
    · obtain ⟨v, hv, rfl⟩ := List.mem_map.1 hw
      rw [key v (hM v hv)]
      exact hy.2 v hv
  · intro y hy
    simp only [Finset.mem_filter, mem_assignments] at hy
    funext w
    dsimp only
    by_cases hw : ∃ v ∈ D.dag.nodes, f v = w
    · rw [dif_pos hw, if_pos hw.choose_spec.1, hw.choose_spec.2]
    · rw [dif_neg hw, hy.1.2 w (by rw [h.nodes, Finset.mem_image]; exact hw)]
  · intro y hy
    simp only [Finset.mem_filter, mem_assignments] at hy
    funext v
    dsimp only
    by_cases hv : v ∈ D.dag.nodes
    · have hw : ∃ v' ∈ D.dag.nodes, f v' = f v := ⟨v, hv, rfl⟩
      rw [if_pos hv, dif_pos hw, h.inj hw.choose_spec.1 hv hw.choose_spec.2]
    · rw [if_neg hv, hy.1.2 v hv]
  · intro y _
    rw [h.law_eq]
    exact hlk _ _ fun v hv => by simp [hv]

end Relabels

end Model.DiscreteDAG
