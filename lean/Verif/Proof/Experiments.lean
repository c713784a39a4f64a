import Verif.Spec.Experiments
import Verif.Spec.Essential
import Verif.Proof.DiscreteVariation
import Verif.Proof.Covered

/-! # Experiments on equivalent graphs -/

namespace Spec

variable {α : Type} {E F : α → α → Prop}

/-- Equivalent graphs that agree on the arcs cut by `I` stay equivalent with an intervention node above `I`. -/
theorem sameSkelV_augment {I : Set α} (h : SameSkelV E F) (hc : ∀ a b, a ∈ I → b ∉ I → (E a b ↔ F a b) ∧ (E b a ↔ F b a)) :
    SameSkelV (Augment E I) (Augment F I) := by
  have half : ∀ {E F : α → α → Prop}, SameSkelV E F → (∀ a b, a ∈ I → b ∉ I → (E a b ↔ F a b) ∧ (E b a ↔ F b a)) →
      (∀ a b, Adj (Augment E I) a b → Adj (Augment F I) a b) ∧
        ∀ a c b, VStruct (Augment E I) a c b → Augment F I a c ∧ Augment F I b c := by
    intro E F h hc
    constructor
    · have : ∀ a b, Augment E I a b → Adj (Augment F I) a b := by
        rintro _ _ (⟨h1⟩ | ⟨h1⟩)
        · exact ((h.skel _ _).1 (Or.inl h1)).imp .old .old
        · exact Or.inl (.target h1)
      exact fun a b hab => hab.elim (this a b) fun k => (this b a k).symm
    · have side : ∀ {b c : α}, c ∈ I → E b c → ¬ Adj (Augment E I) none (some b) → F b c := by
        intro b c hcI hbc hn
        have hb : b ∉ I := fun hb => hn (Or.inl (.target hb))
        exact ((hc c b hcI hb).2).1 hbc
      rintro a c b ⟨hab, h1, h2, hn⟩
      rcases h1 with ⟨h1⟩ | ⟨h1⟩
      · cases h2 with
        | old h2 =>
          have := (h.vstr _ _ _).1 ⟨fun e => hab (congrArg some e), h1, h2, fun k => hn (k.imp .old .old)⟩
          exact ⟨.old this.2.1, .old this.2.2.1⟩
        | target h2 => exact ⟨.old (side h2 h1 fun k => hn k.symm), .target h2⟩
      · cases h2 with
        | old h2 => exact ⟨.target h1, .old (side h1 h2 hn)⟩
        | target h2 => exact absurd rfl hab
  have h' : SameSkelV F E := ⟨fun a b => (h.skel a b).symm, fun a c b => (h.vstr a c b).symm⟩
  have hc' : ∀ a b, a ∈ I → b ∉ I → (F a b ↔ E a b) ∧ (F b a ↔ E b a) := fun a b ha hb => ⟨(hc a b ha hb).1.symm, (hc a b ha hb).2.symm⟩
  obtain ⟨a1, a2⟩ := half h hc
  obtain ⟨b1, b2⟩ := half h' hc'
  exact ⟨fun a b => ⟨a1 a b, b1 a b⟩, fun a c b => ⟨fun k => ⟨k.1, (a2 a c b k).1, (a2 a c b k).2, fun n => k.2.2.2 (b1 a b n)⟩,
    fun k => ⟨k.1, (b2 a c b k).1, (b2 a c b k).2, fun n => k.2.2.2 (a1 a b n)⟩⟩⟩

/-- The parents of a node outside `I` separate it from the intervention node. -/
theorem parents_shield {I : Set α} (hE : Acyclic E) {v : α} (hv : v ∉ I) : DSep (Augment E I) {some v} {none} (some '' {p | E p v}) := by
  have := local_markov (augment_acyclic (I := I) hE) (some v)
  have e : {p | Augment E I p (some v)} = some '' {p | E p v} := by
    ext p
    constructor
    · rintro (⟨h⟩ | ⟨h⟩)
      · exact ⟨_, h, rfl⟩
      · exact absurd h hv
    · rintro ⟨p, h, rfl⟩
      exact .old h
  rw [e] at this
  refine dsep_mono Set.Subset.rfl ?_ this
  rintro _ rfl
  refine ⟨by simp, fun h => ?_, fun h => ?_⟩
  · obtain ⟨w, -, h⟩ := Relation.TransGen.tail'_iff.1 h
    cases h
  · cases h with
    | target h => exact hv h

end Spec

namespace Model.DiscreteDAG

open Spec
open scoped NNReal

variable {α ι : Type} [DecidableEq α] {G H : DAG α}

/-- The first choice that meets a condition, or the default. -/
noncomputable def select (P : Option ι → Prop) : Option ι := by
  classical exact if h : ∃ j, P j then h.choose else none

theorem select_spec {P : Option ι → Prop} {j : Option ι} (h : P j) : P (select P) := by
  unfold select
  rw [dif_pos ⟨j, h⟩]
  exact Exists.choose_spec _

/-- The tables of an equivalent graph explain the same observations; the tables `T` of the targets can be chosen as long as they are the
conditional distributions where those are defined. -/
theorem exists_experiment {J : ι → Finset α} (hG : G.Valid) (hH : H.Valid) (hn : H.nodes = G.nodes) (hJ : ∀ k, J k ⊆ G.nodes)
    (hs : SameSkelV H.E G.E) (hc : ∀ k a b, a ∈ J k → b ∉ J k → (G.E a b ↔ H.E a b) ∧ (G.E b a ↔ H.E b a)) {D : DiscreteDAG α}
    {X : ι → DiscreteDAG α} (hX : Experiment G J D X) {T : ι → α → (α → ℕ) → ℝ≥0}
    (hT1 : ∀ k, ∀ v ∈ J k, ∀ x y : α → ℕ, (∀ u ∈ v :: (H.parents v).toList, x u = y u) → T k v x = T k v y)
    (hT2 : ∀ k, ∀ v ∈ J k, ∀ x : α → ℕ, (∀ u ∈ (H.parents v).toList, x u < D.dims u) →
      ∑ i ∈ Finset.range (D.dims v), T k v (Function.update x v i) = 1)
    (hT3 : ∀ k, ∀ v ∈ J k, ∀ x : α → ℕ, (∀ u ∈ v :: (H.parents v).toList, x u < D.dims u) → (X k).pr (H.parents v).toList x ≠ 0 →
      T k v x = (X k).condPr [v] (H.parents v).toList x) :
    ∃ Y Z, Experiment H J Y Z ∧ Y.alph = D.alph ∧ Y.pr = D.pr ∧ (∀ k, (Z k).pr = (X k).pr) ∧
      ∀ k, ∀ v ∈ J k, (Z k).pars v = (H.parents v).toList ∧
        ∀ x, ((Z k).cond v).val (((H.parents v).toList ++ [v]).map x) = T k v x := by
  -- all networks and their targets
  set N : Option ι → DiscreteDAG α := fun j => j.elim D X with hN
  set K : Option ι → Finset α := fun j => j.elim ∅ J with hK
  have ndag : ∀ j, (N j).dag = G := by rintro (_ | k); exacts [hX.dag, hX.dag' k]
  have nprop : ∀ j, (N j).Proper := by rintro (_ | k); exacts [hX.proper, hX.proper' k]
  have nalph : ∀ j, (N j).alph = D.alph := by rintro (_ | k); exacts [rfl, hX.alph' k]
  have ndims : ∀ j, (N j).dims = D.dims := fun j => funext fun v => by rw [dims, dims, nalph]
  have nsame : ∀ j, ∀ v ∈ G.nodes, v ∉ K j → (N j).pars v = D.pars v ∧ (N j).cond v = D.cond v := by
    rintro (_ | k) v hv hk
    · exact ⟨rfl, rfl⟩
    · exact hX.same k v hv hk
  have ksub : ∀ j, K j ⊆ G.nodes := by rintro (_ | k); exacts [Finset.empty_subset _, hJ k]
  have kcut : ∀ j a b, a ∈ K j → b ∉ K j → (G.E a b ↔ H.E a b) ∧ (G.E b a ↔ H.E b a) := by
    rintro (_ | k) a b ha hb
    · simp [hK] at ha
    · exact hc k a b ha hb
  set pa : α → List α := fun v => (H.parents v).toList with hpa
  have mpa : ∀ u v, u ∈ pa v ↔ H.E u v := fun u v => by
    rw [hpa]
    simp only [Finset.mem_toList]
    exact hH.parents_iff u v
  have vpa : ∀ v, v ∉ pa v := fun v h => hH.acyclic.irrefl ((mpa v v).1 h)
  have npa : ∀ v ∈ G.nodes, ∀ u ∈ v :: pa v, u ∈ G.nodes := fun v hv u hu => by
    rcases List.mem_cons.1 hu with rfl | hu
    · exact hv
    · rw [← hn]; exact hH.fst_mem _ _ ((mpa u v).1 hu)
  -- conditional distributions agree wherever a node is not a target
  have agree : ∀ j j' v x, v ∈ G.nodes → v ∉ K j → v ∉ K j' → (∀ u ∈ v :: pa v, x u < D.dims u) → (N j).pr (pa v) x ≠ 0 →
      (N j').pr (pa v) x ≠ 0 → (N j').condPr [v] (pa v) x = (N j).condPr [v] (pa v) x := by
    intro j j' v x hv hj hj' hx h1 h2
    have hvI : v ∉ K j ∪ K j' := by simp [hj, hj']
    have hcut : ∀ a b, a ∈ {i | i ∈ K j ∪ K j'} → b ∉ {i | i ∈ K j ∪ K j'} → (H.E a b ↔ G.E a b) ∧ (H.E b a ↔ G.E b a) := by
      intro a b ha hb
      simp only [Set.mem_ofPred_eq, Finset.mem_union, not_or] at ha hb
      rcases ha with ha | ha
      · obtain ⟨k1, k2⟩ := kcut j a b ha hb.1; exact ⟨k1.symm, k2.symm⟩
      · obtain ⟨k1, k2⟩ := kcut j' a b ha hb.2; exact ⟨k1.symm, k2.symm⟩
    have haug := sameSkelV_augment hs hcut
    have hins : ∀ {F : α → α → Prop}, (∀ a b, F a b → a ∈ G.nodes ∧ b ∈ G.nodes) → ∀ a b, Augment F {i | i ∈ K j ∪ K j'} a b →
        a ∈ Finset.insertNone G.nodes ∧ b ∈ Finset.insertNone G.nodes := by
      rintro F hF _ _ (⟨h⟩ | ⟨h⟩)
      · simpa using hF _ _ h
      · refine ⟨by simp, ?_⟩
        rw [Finset.some_mem_insertNone]
        exact Finset.union_subset (ksub j) (ksub j') h
    have hsm := ((sameSkelV_iff (augment_acyclic hH.acyclic) (augment_acyclic hG.acyclic) (Finset.insertNone G.nodes)
      (hins fun a b h => ⟨hn ▸ hH.fst_mem a b h, hn ▸ hH.snd_mem a b h⟩) (hins fun a b h => ⟨hG.fst_mem a b h, hG.snd_mem a b h⟩)).1 haug).1
    have hset : {p | H.E p v} = {p | p ∈ pa v} := Set.ext fun p => (mpa p v).symm
    have hsh := parents_shield (I := {i | i ∈ K j ∪ K j'}) hH.acyclic hvI
    rw [hset] at hsh
    have hd : DSep (Augment G.E {i | i ∈ K j ∪ K j'}) {some v} {none} (some '' {p | p ∈ pa v}) := by
      refine hsm _ _ _ ?_ ?_ ?_ ?_ ?_ ?_ hsh
      · simpa using hv
      · simp
      · rintro _ ⟨u, hu, rfl⟩
        simpa using npa v hv u (List.mem_cons_of_mem _ hu)
      · simp
      · rw [Set.disjoint_left]
        rintro _ rfl ⟨u, hu, e⟩
        exact vpa v (Option.some.inj e ▸ hu)
      · rw [Set.disjoint_left]
        rintro _ rfl ⟨u, hu, e⟩
        cases e
    have key := pr_invariant (nprop j) (nprop j') (I := K j ∪ K j') (fun i hi => by rw [ndag]; exact Finset.union_subset (ksub j) (ksub j') hi)
      ⟨by rw [ndag, ndag], by rw [nalph, nalph], by rw [ndag, ndag]; exact fun a h => h, fun u hu huI y _ => by
        rw [Finset.mem_union, not_or] at huI
        rw [ndag] at hu
        obtain ⟨e1, e2⟩ := nsame j u hu huI.1
        obtain ⟨e3, e4⟩ := nsame j' u hu huI.2
        rw [kern, kern, e1, e2, e3, e4]⟩
      (A := [v]) (C := pa v) (x := x) (by simpa [vpa v] using Finset.nodup_toList _) (by rw [ndag]; exact npa v hv) (by rw [ndag]; simpa using hd)
      (by rw [ndims]; exact hx)
    rw [condPr, condPr, if_neg h1, if_neg h2, div_eq_div_iff h2 h1]
    exact key.symm
  -- the tables on the other graph
  set src : α → (α → ℕ) → Option ι := fun v x => select fun i => v ∉ K i ∧ (N i).pr (pa v) x ≠ 0 with hsrc
  have src_base : ∀ v x y, (∀ u ∈ pa v, x u = y u) → src v x = src v y := by
    intro v x y hxy
    simp only [hsrc]
    congr 1
    funext i
    rw [pr_base hxy]
  set T' : Option ι → α → (α → ℕ) → ℝ≥0 := fun j => j.elim (fun _ _ => 0) T with hT'
  set R : Option ι → α → (α → ℕ) → ℝ≥0 := fun j v x => if v ∈ K j then T' j v x else (N (src v x)).condPr [v] (pa v) x with hR
  have R_in : ∀ k, ∀ v ∈ J k, ∀ x, R (some k) v x = T k v x := fun k v hv x => if_pos hv
  have R_out : ∀ j v x, v ∉ K j → R j v x = (N (src v x)).condPr [v] (pa v) x := fun j v x hv => if_neg hv
  have R_base : ∀ j v x y, (∀ u ∈ v :: pa v, x u = y u) → R j v x = R j v y := by
    intro j v x y hxy
    by_cases h : v ∈ K j
    · rcases j with _ | k
      · simp [hK] at h
      · rw [R_in k v h, R_in k v h]; exact hT1 k v h x y hxy
    · rw [R_out j v x h, R_out j v y h, src_base v x y fun u hu => hxy u (List.mem_cons_of_mem _ hu)]
      exact condPr_base hxy
  set M : Option ι → DiscreteDAG α := fun j =>
    { dag := H
      pars := pa
      alph := D.alph
      cond := fun v => ⟨(pa v ++ [v]).map D.dims, fun idx => R j v fun u => idx.getD ((pa v ++ [v]).idxOf u) 0⟩ } with hM
  have mcond : ∀ j v x, ((M j).cond v).val ((pa v ++ [v]).map x) = R j v x := by
    intro j v x
    refine R_base j v _ _ fun u hu => getD_map_idxOf ?_ x
    simpa [or_comm] using hu
  have mshaped : ∀ j, (M j).Shaped := fun j => ⟨hH, fun v _ => Finset.nodup_toList _, fun v _ u => mpa u v, fun v _ => rfl⟩
  have mproper : ∀ j, (M j).Proper := fun j => ⟨mshaped j, fun v hv x hx => by
    have hv : v ∈ G.nodes := hn ▸ hv
    have hx : ∀ u ∈ pa v, x u < D.dims u := hx
    have e : ∀ i, ((M j).cond v).val ((pa v).map x ++ [i]) = R j v (Function.update x v i) := by
      intro i
      have e : (pa v).map x ++ [i] = (pa v ++ [v]).map (Function.update x v i) := by
        rw [List.map_append, List.map_singleton, Function.update_self]
        congr 1
        exact List.map_congr_left fun u hu => (Function.update_of_ne (ne_of_mem_of_not_mem hu (vpa v)) _ _).symm
      rw [e, mcond]
    change ∑ i ∈ Finset.range (D.dims v), ((M j).cond v).val ((pa v).map x ++ [i]) = 1
    simp only [e]
    by_cases h : v ∈ K j
    · rcases j with _ | k
      · simp [hK] at h
      · simp only [R_in k v h]
        exact hT2 k v h x hx
    · have tot := condPr_total (nprop (src v x)) (vpa v) (Finset.nodup_toList _) (by rw [ndag]; exact npa v hv) (x := x)
        (by rw [ndims]; exact hx)
      rw [← tot, ndims]
      refine Finset.sum_congr rfl fun i _ => ?_
      rw [R_out j v _ h, src_base v _ x fun u hu => Function.update_of_ne (ne_of_mem_of_not_mem hu (vpa v)) _ _]⟩
  have hsub : SubModel H.E G.E (H.nodes : Set α) := by
    rw [hn]
    exact ((sameSkelV_iff hH.acyclic hG.acyclic G.nodes (fun a b h => ⟨hn ▸ hH.fst_mem a b h, hn ▸ hH.snd_mem a b h⟩)
      fun a b h => ⟨hG.fst_mem a b h, hG.snd_mem a b h⟩).1 hs).1
  have mpr : ∀ j, (M j).pr = (N j).pr := by
    intro j
    funext S x
    refine pr_of_imap (nprop j) (mshaped j) (by rw [ndag]; exact hn) (nalph j).symm (by rw [ndag]; exact hsub) (fun v hv x hx hp => ?_) S x
    have hv : v ∈ G.nodes := hn ▸ hv
    rw [ndims] at hx
    refine (mcond j v x).trans ?_
    by_cases hk : v ∈ K j
    · rcases j with _ | k
      · simp [hK] at hk
      · rw [R_in k v hk]
        exact hT3 k v hk x hx hp
    · rw [R_out j v x hk]
      obtain ⟨s1, s2⟩ := select_spec (P := fun i => v ∉ K i ∧ (N i).pr (pa v) x ≠ 0) (j := j) ⟨hk, hp⟩
      exact agree j _ v x hv hk s1 hx hp s2
  refine ⟨M none, fun k => M (some k), ⟨rfl, mproper none, fun _ => rfl, fun k => mproper _, fun _ => rfl, fun k v _ hv => ⟨rfl, ?_⟩⟩, rfl, mpr none,
    fun k => mpr (some k), fun k v hv => ⟨rfl, fun x => (mcond _ v x).trans (R_in k v hv x)⟩⟩
  have h1 : v ∉ K none := by simp [hK]
  have h2 : v ∉ K (some k) := hv
  simp only [hM]
  congr 1
  funext idx
  rw [R_out _ _ _ h1, R_out _ _ _ h2]

/-- What the tables of `G` explain, the tables of an equivalent graph explain. -/
theorem explains_of_equivalent {J : ι → Finset α} (hG : G.Valid) (hH : H.Valid) (hn : H.nodes = G.nodes) (hJ : ∀ k, J k ⊆ G.nodes)
    (hs : SameSkelV H.E G.E) (hc : ∀ k a b, a ∈ J k → b ∉ J k → (G.E a b ↔ H.E a b) ∧ (G.E b a ↔ H.E b a)) {a : α → List ℤ}
    {p : List α → (α → ℕ) → ℝ≥0} {q : ι → List α → (α → ℕ) → ℝ≥0} (h : Explains G J a p q) : Explains H J a p q := by
  obtain ⟨D, X, hX, rfl, rfl, hq⟩ := h
  have hd : ∀ k, (X k).dims = D.dims := fun k => funext fun v => by rw [dims, dims, hX.alph']
  have mpa : ∀ u v, u ∈ (H.parents v).toList ↔ H.E u v := fun u v => by rw [Finset.mem_toList]; exact hH.parents_iff u v
  obtain ⟨Y, Z, h1, h2, h3, h4, -⟩ := exists_experiment hG hH hn hJ hs hc hX (T := fun k v => (X k).condPr [v] (H.parents v).toList)
    (fun k v _ x y hxy => condPr_base hxy) (fun k v hv x hx => by
      rw [← hd k]
      refine condPr_total (hX.proper' k) (fun h => hH.acyclic.irrefl ((mpa v v).1 h)) (Finset.nodup_toList _) (fun u hu => ?_) (by rw [hd]; exact hx)
      rw [hX.dag']
      rcases List.mem_cons.1 hu with rfl | hu
      · exact hJ k hv
      · rw [← hn]; exact hH.fst_mem _ _ ((mpa u v).1 hu)) fun k v _ x _ _ => rfl
  exact ⟨Y, Z, h1, h2, h3, fun k => (h4 k).trans (hq k)⟩

end Model.DiscreteDAG
