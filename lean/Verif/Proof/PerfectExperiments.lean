import Verif.Proof.Experiments

/-! # Perfect interventions on equivalent graphs -/

namespace Spec

variable {α : Type} {E F : α → α → Prop}

/-- Equivalent graphs that agree on the arcs cut by `I` stay equivalent without the arcs into `I`. -/
theorem sameSkelV_mutilated {I : Finset α} (hE : Acyclic E) (hF : Acyclic F) (h : SameSkelV E F)
    (hc : ∀ a b, a ∈ I → b ∉ I → (E a b ↔ F a b) ∧ (E b a ↔ F b a)) : SameSkelV (Mutilated E I) (Mutilated F I) := by
  have half : ∀ {E F : α → α → Prop}, Acyclic F → SameSkelV E F → (∀ a b, a ∈ I → b ∉ I → (E a b ↔ F a b) ∧ (E b a ↔ F b a)) →
      (∀ a b, Adj (Mutilated E I) a b → Adj (Mutilated F I) a b) ∧
        ∀ a c b, VStruct (Mutilated E I) a c b → Mutilated F I a c ∧ Mutilated F I b c := by
    intro E F hF h hc
    have adj : ∀ a b, Mutilated E I a b → Adj (Mutilated F I) a b := by
      rintro a b ⟨h1, h2⟩
      by_cases ha : a ∈ I
      · exact Or.inl ⟨(hc a b ha h2).1.1 h1, h2⟩
      · exact ((h.skel a b).1 (Or.inl h1)).imp (fun k => ⟨k, h2⟩) fun k => ⟨k, ha⟩
    refine ⟨fun a b hab => hab.elim (adj a b) fun k => (adj b a k).symm, ?_⟩
    -- an arc `a → b` into `I` between the parents
    have side : ∀ {a b c : α}, c ∉ I → E a c → E b c → E a b → b ∈ I → F a c ∧ F b c := by
      intro a b c hcI hac hbc hab hb
      have h1 : F b c := (hc b c hb hcI).1.1 hbc
      refine ⟨?_, h1⟩
      by_cases ha : a ∈ I
      · exact (hc a c ha hcI).1.1 hac
      · have h2 : F a b := (hc b a hb ha).2.1 hab
        rcases (h.skel a c).1 (Or.inl hac) with k | k
        · exact k
        · exact absurd (((Relation.TransGen.single h2).tail h1).tail k) (hF a)
    rintro a c b ⟨hab, ⟨h1, hcI⟩, ⟨h2, -⟩, hn⟩
    by_cases hadj : Adj E a b
    · rcases hadj with k | k
      · have hb : b ∈ I := by by_contra hb; exact hn (Or.inl ⟨k, hb⟩)
        obtain ⟨s1, s2⟩ := side hcI h1 h2 k hb
        exact ⟨⟨s1, hcI⟩, ⟨s2, hcI⟩⟩
      · have ha : a ∈ I := by by_contra ha; exact hn (Or.inr ⟨k, ha⟩)
        obtain ⟨s1, s2⟩ := side hcI h2 h1 k ha
        exact ⟨⟨s2, hcI⟩, ⟨s1, hcI⟩⟩
    · have := (h.vstr a c b).1 ⟨hab, h1, h2, hadj⟩
      exact ⟨⟨this.2.1, hcI⟩, ⟨this.2.2.1, hcI⟩⟩
  have h' : SameSkelV F E := ⟨fun a b => (h.skel a b).symm, fun a c b => (h.vstr a c b).symm⟩
  obtain ⟨a1, a2⟩ := half hF h hc
  obtain ⟨b1, b2⟩ := half hE h' fun a b ha hb => ⟨(hc a b ha hb).1.symm, (hc a b ha hb).2.symm⟩
  exact ⟨fun a b => ⟨a1 a b, b1 a b⟩, fun a c b => ⟨fun k => ⟨k.1, (a2 a c b k).1, (a2 a c b k).2, fun n => k.2.2.2 (b1 a b n)⟩,
    fun k => ⟨k.1, (b2 a c b k).1, (b2 a c b k).2, fun n => k.2.2.2 (a1 a b n)⟩⟩⟩

theorem mutilated_acyclic {I : Finset α} (hE : Acyclic E) : Acyclic (Mutilated E I) :=
  fun v h => hE v (Relation.TransGen.mono (fun _ _ k => k.1) _ _ h)

/-- Without the arcs into `v`, its former parents are independent of it. -/
theorem target_shield {I : Finset α} (hE : Acyclic E) {v : α} (hv : v ∈ I) : DSep (Mutilated E I) {v} {p | E p v} ∅ := by
  have := local_markov (mutilated_acyclic (I := I) hE) v
  have e : {p | Mutilated E I p v} = ∅ := Set.eq_empty_of_forall_notMem fun p h => h.2 hv
  rw [e] at this
  refine dsep_mono Set.Subset.rfl ?_ this
  intro p hp
  refine ⟨?_, fun h => ?_, fun h => h.2 hv⟩
  · rintro rfl
    exact hE.irrefl hp
  · exact hE v ((Relation.TransGen.mono (fun _ _ k => k.1) _ _ h : Relation.TransGen E v p).tail hp)

end Spec

namespace Model.DiscreteDAG

open Spec
open scoped NNReal

set_option linter.unusedSectionVars false

variable {α ι : Type} [DecidableEq α] {G H : DAG α} {D : DiscreteDAG α}

/-- The graph without the arcs into `I`. -/
def cutDag (G : DAG α) (I : Finset α) : DAG α :=
  { nodes := G.nodes
    arcs := G.arcs.filter fun a => a.2 ∉ I
    neighbors := fun v => (G.neighbors v).filter fun u => ((u, v) ∈ G.arcs ∧ v ∉ I) ∨ ((v, u) ∈ G.arcs ∧ u ∉ I)
    parents := fun v => if v ∈ I then ∅ else G.parents v
    children := fun v => (G.children v).filter fun u => u ∉ I }

theorem cutDag_E (G : DAG α) (I : Finset α) : (cutDag G I).E = Mutilated G.E I := by
  funext a b
  simp [cutDag, DAG.E, Mutilated]

theorem cutDag_valid (hG : G.Valid) (I : Finset α) : (cutDag G I).Valid where
  parents_iff u v := by
    by_cases h : v ∈ I <;> simp [cutDag, h, hG.parents_iff]
  children_iff u v := by simp [cutDag, hG.children_iff]
  neighbors_iff u v := by
    simp only [cutDag, Finset.mem_filter, hG.neighbors_iff]
    tauto
  fst_mem u v h := hG.fst_mem u v (Finset.mem_filter.1 h).1
  snd_mem u v h := hG.snd_mem u v (Finset.mem_filter.1 h).1
  acyclic := by rw [cutDag_E]; exact mutilated_acyclic hG.acyclic

/-- The network without the arcs into `I`. -/
noncomputable def cutNet (D : DiscreteDAG α) (I : Finset α) : DiscreteDAG α :=
  { dag := cutDag D.dag I
    pars := fun v => if v ∈ I then [] else D.pars v
    alph := D.alph
    cond := fun v => if v ∈ I then ⟨[D.dims v], fun idx => (D.cond v).val ((D.pars v).map (fun _ => 0) ++ idx)⟩ else D.cond v }

/-- If the tables of `I` do not depend on the parents, the arcs into `I` can be left out. -/
theorem cutNet_spec (hD : D.Proper) {I : Finset α} (hp : ∀ v ∈ I, ∀ x y : α → ℕ, (∀ u ∈ D.pars v, x u < D.dims u ∧ y u < D.dims u) →
    ∀ i < D.dims v, (D.cond v).val ((D.pars v).map x ++ [i]) = (D.cond v).val ((D.pars v).map y ++ [i])) :
    (cutNet D I).Proper ∧ (cutNet D I).pr = D.pr := by
  have hd : (cutNet D I).dims = D.dims := rfl
  have p_in : ∀ v ∈ I, (cutNet D I).pars v = [] := fun v hv => if_pos hv
  have p_out : ∀ v, v ∉ I → (cutNet D I).pars v = D.pars v := fun v hv => if_neg hv
  have c_in : ∀ v ∈ I, (cutNet D I).cond v = ⟨[D.dims v], fun idx => (D.cond v).val ((D.pars v).map (fun _ => 0) ++ idx)⟩ := fun v hv => if_pos hv
  have c_out : ∀ v, v ∉ I → (cutNet D I).cond v = D.cond v := fun v hv => if_neg hv
  have h0 : ∀ v ∈ D.dag.nodes, ∀ u ∈ D.pars v, 0 < D.dims u := fun v hv u hu =>
    hD.dims_pos (hD.valid.fst_mem _ _ ((hD.pars_iff v hv u).1 hu))
  have hsh : (cutNet D I).Shaped := by
    refine ⟨cutDag_valid hD.valid I, fun v hv => ?_, fun v hv u => ?_, fun v hv => ?_⟩
    · by_cases h : v ∈ I
      · rw [p_in v h]; exact List.nodup_nil
      · rw [p_out v h]; exact hD.nodup v hv
    · change _ ↔ (u, v) ∈ D.dag.arcs.filter fun a => a.2 ∉ I
      rw [Finset.mem_filter]
      by_cases h : v ∈ I
      · rw [p_in v h]; simp [h]
      · rw [p_out v h, hD.pars_iff v hv]; simp [h]
    · by_cases h : v ∈ I
      · rw [p_in v h, c_in v h]; rfl
      · rw [p_out v h, c_out v h]; exact hD.shape v hv
  refine ⟨⟨hsh, fun v hv x hx => ?_⟩, ?_⟩
  · rw [hd] at hx ⊢
    by_cases h : v ∈ I
    · rw [p_in v h, c_in v h]
      exact hD.total v hv (fun _ => 0) (h0 v hv)
    · rw [p_out v h] at hx ⊢
      rw [c_out v h]
      exact hD.total v hv x hx
  · funext S x
    unfold pr prob
    rw [hd]
    refine Finset.sum_congr rfl fun y hy => ?_
    have hy' := (mem_assignments.1 ((@Finset.mem_filter _ _ (_) _ _).1 hy).1).1
    refine Finset.prod_congr rfl fun v hv => ?_
    have hv : v ∈ D.dag.nodes := hv
    beta_reduce
    by_cases h : v ∈ I
    · rw [p_in v h, c_in v h, List.map_append (l₁ := D.pars v)]
      exact hp v h _ _ (fun u hu => ⟨h0 v hv u hu, hy' u (hD.valid.fst_mem _ _ ((hD.pars_iff v hv u).1 hu))⟩) _ (hy' v hv)
    · rw [p_out v h, c_out v h]

/-- What the tables of `G` explain with perfect interventions, the tables of an equivalent graph explain. -/
theorem explainsPerfect_of_equivalent {J : ι → Finset α} (hG : G.Valid) (hH : H.Valid) (hn : H.nodes = G.nodes) (hJ : ∀ k, J k ⊆ G.nodes)
    (hs : SameSkelV H.E G.E) (hc : ∀ k a b, a ∈ J k → b ∉ J k → (G.E a b ↔ H.E a b) ∧ (G.E b a ↔ H.E b a)) {a : α → List ℤ}
    {p : List α → (α → ℕ) → ℝ≥0} {q : ι → List α → (α → ℕ) → ℝ≥0} (h : ExplainsPerfect G J a p q) : ExplainsPerfect H J a p q := by
  obtain ⟨D, X, hX, hP, rfl, rfl, hq⟩ := h
  have hd : ∀ k, (X k).dims = D.dims := fun k => funext fun v => by rw [dims, dims, hX.alph']
  have mpa : ∀ u v, u ∈ (H.parents v).toList ↔ H.E u v := fun u v => by rw [Finset.mem_toList]; exact hH.parents_iff u v
  have vpa : ∀ v, v ∉ (H.parents v).toList := fun v h => hH.acyclic.irrefl ((mpa v v).1 h)
  have npa : ∀ v ∈ G.nodes, ∀ u ∈ v :: (H.parents v).toList, u ∈ G.nodes := fun v hv u hu => by
    rcases List.mem_cons.1 hu with rfl | hu
    · exact hv
    · rw [← hn]; exact hH.fst_mem _ _ ((mpa u v).1 hu)
  have hcond : ∀ k, ∀ v ∈ J k, ∀ x : α → ℕ, (∀ u ∈ v :: (H.parents v).toList, x u < D.dims u) → (X k).pr (H.parents v).toList x ≠ 0 →
      (X k).pr [v] x = (X k).condPr [v] (H.parents v).toList x := by
    intro k v hv x hx h0
    obtain ⟨c1, c2⟩ := cutNet_spec (hX.proper' k) (hP k)
    have hE : (cutNet (X k) (J k)).dag.E = Mutilated G.E (J k) := by
      change (cutDag (X k).dag (J k)).E = _
      rw [cutDag_E, hX.dag']
    have hnm : ∀ {F : α → α → Prop}, (∀ a b, F a b → a ∈ G.nodes ∧ b ∈ G.nodes) → ∀ a b, Mutilated F (J k) a b → a ∈ G.nodes ∧ b ∈ G.nodes :=
      fun h a b k => h a b k.1
    have hsm := ((sameSkelV_iff (mutilated_acyclic hH.acyclic) (mutilated_acyclic hG.acyclic) G.nodes
      (hnm fun a b h => ⟨hn ▸ hH.fst_mem a b h, hn ▸ hH.snd_mem a b h⟩) (hnm fun a b h => ⟨hG.fst_mem a b h, hG.snd_mem a b h⟩)).1
      (sameSkelV_mutilated (I := J k) hH.acyclic hG.acyclic hs fun a b ha hb => ⟨(hc k a b ha hb).1.symm, (hc k a b ha hb).2.symm⟩)).1
    have hset : {p | H.E p v} = {p | p ∈ (H.parents v).toList} := Set.ext fun p => (mpa p v).symm
    have hsh := target_shield (I := J k) hH.acyclic hv
    rw [hset] at hsh
    have hdg : DSep (Mutilated G.E (J k)) {v} {p | p ∈ (H.parents v).toList} ∅ := by
      refine hsm _ _ _ ?_ ?_ ?_ ?_ ?_ ?_ hsh
      · simpa using hJ k hv
      · exact fun u hu => npa v (hJ k hv) u (List.mem_cons_of_mem _ hu)
      · simp
      · rw [Set.disjoint_left]
        rintro u rfl hu
        exact vpa u hu
      · simp
      · simp
    have hnod : (cutNet (X k) (J k)).dag.nodes = G.nodes := by
      change (X k).dag.nodes = _
      rw [hX.dag']
    have key := pr_dsep c1 (A := [v]) (B := (H.parents v).toList) (C := []) (x := x) (by simpa [vpa v] using Finset.nodup_toList _)
      (by rw [hnod]; simpa using npa v (hJ k hv)) (by rw [hE]; simpa using hdg) (by
        have : (cutNet (X k) (J k)).dims = D.dims := hd k
        rw [this]
        simpa using hx)
    rw [c2, pr_nil (hX.proper' k), mul_one, List.append_nil, List.append_nil, List.append_nil] at key
    rw [condPr, if_neg h0, key, mul_div_assoc, div_self h0, mul_one]
  obtain ⟨Y, Z, h1, h2, h3, h4, h5⟩ := exists_experiment hG hH hn hJ hs hc hX (T := fun k v x => (X k).pr [v] x)
    (fun k v _ x y hxy => pr_base fun u hu => hxy u (by simp at hu; simp [hu])) (fun k v hv x hx => by
      have := condPr_total (hX.proper' k) (v := v) (pa := []) (by simp) List.nodup_nil (x := x) (by
        rw [hX.dag']
        simpa using hJ k hv) (by simp)
      rw [hd] at this
      rw [← this]
      refine Finset.sum_congr rfl fun i _ => ?_
      rw [condPr, pr_nil (hX.proper' k), if_neg one_ne_zero, div_one]
      rfl) hcond
  refine ⟨Y, Z, h1, fun k v hv x y hxy i hi => ?_, h2, h3, fun k => (h4 k).trans (hq k)⟩
  obtain ⟨e1, e2⟩ := h5 k v hv
  have e : ∀ x : α → ℕ, (H.parents v).toList.map x ++ [i] = ((H.parents v).toList ++ [v]).map (Function.update x v i) := fun x => by
    rw [List.map_append, List.map_singleton, Function.update_self]
    congr 1
    exact List.map_congr_left fun u hu => (Function.update_of_ne (ne_of_mem_of_not_mem hu (vpa v)) _ _).symm
  rw [e1, e, e, e2, e2]
  exact pr_base fun u hu => by
    rw [List.mem_singleton] at hu
    subst hu
    rw [Function.update_self, Function.update_self]

/-- The network in which the tables of `I` use the same row for all values of the parents. -/
noncomputable def levelNet (D : DiscreteDAG α) (I : Finset α) : DiscreteDAG α :=
  { D with
    cond := fun v => if v ∈ I then ⟨(D.cond v).shape, fun idx => (D.cond v).val ((D.pars v).map (fun _ => 0) ++ idx.drop (D.pars v).length)⟩
      else D.cond v }

theorem levelNet_val (D : DiscreteDAG α) {I : Finset α} {v : α} (hv : v ∈ I) (x : α → ℕ) (i : ℕ) :
    ((levelNet D I).cond v).val ((D.pars v).map x ++ [i]) = (D.cond v).val ((D.pars v).map (fun _ => 0) ++ [i]) := by
  have : (levelNet D I).cond v = ⟨(D.cond v).shape, fun idx => (D.cond v).val ((D.pars v).map (fun _ => 0) ++ idx.drop (D.pars v).length)⟩ :=
    if_pos hv
  rw [this]
  dsimp only
  rw [List.drop_left' (by rw [List.length_map])]

theorem levelNet_proper (hD : D.Proper) (I : Finset α) : (levelNet D I).Proper := by
  refine ⟨⟨hD.valid, hD.nodup, hD.pars_iff, fun v hv => ?_⟩, fun v hv x hx => ?_⟩
  · refine Eq.trans ?_ (hD.shape v hv)
    simp only [levelNet]
    split_ifs <;> rfl
  · have hv : v ∈ D.dag.nodes := hv
    by_cases h : v ∈ I
    · rw [← hD.total v hv (fun _ => 0) fun u hu => hD.dims_pos (hD.valid.fst_mem _ _ ((hD.pars_iff v hv u).1 hu))]
      exact Finset.sum_congr rfl fun i _ => levelNet_val D h x i
    · have : (levelNet D I).cond v = D.cond v := if_neg h
      rw [this]
      exact hD.total v hv x hx

/-- Every network can be combined with perfect interventions. -/
theorem levelNet_experiment (hD : D.Proper) (J : ι → Finset α) :
    Experiment D.dag J D (fun k => levelNet D (J k)) ∧ Perfect J fun k => levelNet D (J k) :=
  ⟨⟨rfl, hD, fun _ => rfl, fun k => levelNet_proper hD (J k), fun _ => rfl, fun _ _ _ h => ⟨rfl, if_neg h⟩⟩,
    fun _ _ hv x y _ i _ => (levelNet_val D hv x i).trans (levelNet_val D hv y i).symm⟩

/-- Weights on one arc only, unless its target is in `S`. -/
noncomputable def oneArc (b a : α) (S : Finset α) (p v : α) : ℝ := if p = b ∧ v = a ∧ a ∉ S then 1 / 2 else 0

/-- An arc `b → a` into the target of a perfect intervention: P(b | C) changes for every `C` that contains `a` but not `b`. -/
theorem perfect_variation {J : ι → Finset α} (hH : H.Valid) {k : ι} {a b : α} (ha : a ∈ J k) (hba : H.E b a) :
    ∃ D X, Experiment H J D X ∧ Perfect J X ∧ (∀ v, D.alph v = [0, 1]) ∧
      ∀ C : List α, a ∈ C → (b :: C).Nodup → (∀ v ∈ b :: C, v ∈ H.nodes) →
        ¬ ∀ i < 2, D.pr (b :: C) (Function.update (fun _ => 1) b i) * (X k).pr C (Function.update (fun _ => 1) b i) =
          (X k).pr (b :: C) (Function.update (fun _ => 1) b i) * D.pr C (Function.update (fun _ => 1) b i) := by
  have hab : b ≠ a := by rintro rfl; exact hH.acyclic.irrefl hba
  have hW : ∀ S p v, oneArc b a S p v ≠ 0 → H.E p v := by
    intro S p v h
    simp only [oneArc, ne_eq, ite_eq_right_iff, not_forall] at h
    obtain ⟨⟨rfl, rfl, -⟩, -⟩ := h
    exact hba
  have hlean : ∀ S v x, lean H.nodes (oneArc b a S) v x = if v = a ∧ a ∉ S then sg (x b) / 2 else 0 := by
    intro S v x
    rw [Spec.lean]
    split_ifs with h
    · rw [Finset.sum_eq_single b]
      · simp [oneArc, h]; ring
      · intro p _ hp
        simp [oneArc, hp]
      · exact fun h' => absurd (hH.fst_mem _ _ hba) h'
    · refine Finset.sum_eq_zero fun p _ => ?_
      have : ¬ (p = b ∧ v = a ∧ a ∉ S) := fun k => h k.2
      simp [oneArc, this]
  have hsm : ∀ S v x, |lean H.nodes (oneArc b a S) v x + (fun _ => (0 : ℝ)) v| ≤ 1 / 2 := by
    intro S v x
    rw [hlean]
    split_ifs
    · rw [add_zero, abs_div, sg_abs, abs_two]
    · norm_num
  set U : Finset α → DiscreteDAG α := fun S => biased H (oneArc b a S) fun _ => 0 with hU
  have uprop : ∀ S, (U S).Proper := fun S => biased_proper hH (hW S) (hsm S)
  have ucond : ∀ S v x, (U S).kern v x = Real.toNNReal ((1 + sg (x v) * (if v = a ∧ a ∉ S then sg (x b) / 2 else 0)) / 2) := by
    intro S v x
    have := biased_cond (b := fun _ => 0) hH (hW S) v x
    rw [hlean, add_zero] at this
    exact this
  have upos : ∀ S T x, (∀ v ∈ T, v ∈ H.nodes) → (∀ v ∈ T, x v < 2) → (U S).pr T x ≠ 0 := fun S T x h1 h2 => biased_pos hH (hW S) (hsm S) h1 h2
  refine ⟨U ∅, fun i => U (J i), ⟨rfl, uprop _, fun _ => rfl, fun _ => uprop _, fun _ => rfl, fun i v _ hv => ⟨rfl, ?_⟩⟩,
    fun i v hv x y _ j _ => ?_, fun _ => rfl, fun C haC hnd hn h => ?_⟩
  · have : ∀ x, lean H.nodes (oneArc b a (J i)) v x = lean H.nodes (oneArc b a ∅) v x := by
      intro x
      rw [hlean, hlean]
      by_cases h : v = a
      · subst h; simp [hv]
      · simp [h]
    simp only [hU, biased, this]
  · have hvp : v ∉ (H.parents v).toList := fun h => hH.acyclic.irrefl ((hH.parents_iff v v).1 (Finset.mem_toList.1 h))
    have e : ∀ x : α → ℕ, ((U (J i)).cond v).val (((U (J i)).pars v).map x ++ [j]) = (U (J i)).kern v (Function.update x v j) := by
      intro x
      rw [kern]
      congr 1
      change (H.parents v).toList.map x ++ [j] = ((H.parents v).toList ++ [v]).map (Function.update x v j)
      rw [List.map_append, List.map_singleton, Function.update_self]
      congr 1
      exact List.map_congr_left fun u hu => (Function.update_of_ne (ne_of_mem_of_not_mem hu hvp) _ _).symm
    rw [e, e, ucond, ucond, Function.update_self, Function.update_self]
    have : ¬ (v = a ∧ a ∉ J i) := by rintro ⟨rfl, h⟩; exact h hv
    rw [if_neg this, if_neg this]
  · -- the probabilities of `b :: C` differ by a factor that depends on the value of `b`
    have hfac : ∀ x : α → ℕ, x a = 1 → (U ∅).pr (b :: C) x = Real.toNNReal (1 + sg (x b) / 2) * (U (J k)).pr (b :: C) x := by
      intro x hx
      unfold pr prob
      rw [Finset.mul_sum]
      refine Finset.sum_congr rfl fun y hy => ?_
      have hy' := ((@Finset.mem_filter _ _ (_) _ _).1 hy).2
      have hyb : y b = x b := hy' b (by simp)
      have hya : y a = 1 := (hy' a (by simp [haC])).trans hx
      change ∏ v ∈ H.nodes, (U ∅).kern v y = _ * ∏ v ∈ H.nodes, (U (J k)).kern v y
      have ham : a ∈ H.nodes := hH.snd_mem _ _ hba
      rw [← Finset.mul_prod_erase _ _ ham, ← Finset.mul_prod_erase _ _ ham, ← mul_assoc]
      congr 1
      · rw [ucond, ucond, if_pos ⟨rfl, by simp⟩, if_neg (by simp [ha]), hya, hyb, ← Real.toNNReal_mul]
        · congr 1
          simp [sg]
          ring
        · have := neg_le_of_abs_le (sg_abs (x b)).le
          linarith
      · refine Finset.prod_congr rfl fun v hv => ?_
        have hva := Finset.ne_of_mem_erase hv
        rw [ucond, ucond, if_neg (by simp [hva]), if_neg (by simp [hva])]
    have hbC : b ∉ C := (List.nodup_cons.1 hnd).1
    have hbase : ∀ S i, (U S).pr C (Function.update (fun _ => 1) b i) = (U S).pr C fun _ => 1 := fun S i =>
      pr_base fun u hu => Function.update_of_ne (ne_of_mem_of_not_mem hu hbC) _ _
    have key : ∀ i < 2, Real.toNNReal (1 + sg i / 2) * (U (J k)).pr C (fun _ => 1) = (U ∅).pr C fun _ => 1 := by
      intro i hi
      have hi' := h i hi
      rw [hfac _ (Function.update_of_ne hab.symm _ _), hbase, hbase, Function.update_self] at hi'
      have hpos := upos (J k) (b :: C) (Function.update (fun _ => 1) b i) hn fun v _ => by
        by_cases hv : v = b
        · subst hv; rwa [Function.update_self]
        · rw [Function.update_of_ne hv]; norm_num
      rw [mul_comm _ ((U (J k)).pr (b :: C) _), mul_assoc] at hi'
      exact mul_left_cancel₀ hpos hi'
    have hCpos := upos (J k) C (fun _ => 1) (fun v hv => hn v (by simp [hv])) fun _ _ => by norm_num
    have := mul_right_cancel₀ hCpos ((key 0 (by norm_num)).trans (key 1 (by norm_num)).symm)
    rw [Real.toNNReal_eq_toNNReal_iff] at this
    · simp [sg] at this
      norm_num at this
    · simp [sg]; norm_num
    · simp [sg]; norm_num

end Model.DiscreteDAG
