import Verif.Proof.PairwiseGlobal

/-!
# One more independence makes an edge superfluous

If an independence relation has the pairwise statements of a maximal ancestral graph and, in addition, the one for the ends of a directed
edge, then it has all the m-separations of the graph without this edge.
-/

namespace Spec.Mixed

universe u
variable {α : Type u} [DecidableEq α] {M N : Mixed α} {J : Finset α → Finset α → Finset α → Prop}
open Relation

omit [DecidableEq α] in
theorem CCon.symm (h : M.Proper) {T : Finset α} {a b : α} : M.CCon T a b → M.CCon T b a
  | ⟨d, e, h1, h2, h3, h4⟩ => ⟨e, d, h3.mem h1, h4, h3.symm h, h2⟩

omit [DecidableEq α] in
theorem CCon.mono {S T : Finset α} (hST : S ⊆ T) {a b : α} : M.CCon S a b → M.CCon T a b
  | ⟨d, e, h1, h2, h3, h4⟩ => ⟨d, e, hST h1, h2, h3.mono hST, h4⟩

omit [DecidableEq α] in
/-- A sink cannot be joined to two nodes that are not joined. -/
theorem CCon.trans_sink (h : M.Proper) {T : Finset α} {u a b : α} (hu : M.Sink T u) (h1 : M.CCon T u a) (h2 : M.CCon T u b) :
    M.CCon T a b := by
  obtain ⟨d, e, k1, k2, k3, k4⟩ := h1
  obtain ⟨d', e', l1, l2, l3, l4⟩ := h2
  have hd : u = d := k2.resolve_right (hu.2 d k1)
  have hd' : u = d' := l2.resolve_right (hu.2 d' l1)
  subst hd hd'
  exact ⟨e, e', k3.mem k1, k4, (k3.symm h).trans l3, l4⟩

/-- All pairwise statements for the nodes of `T`, given all the other nodes of `T`. -/
def Hall (M : Mixed α) (J : Finset α → Finset α → Finset α → Prop) (T : Finset α) : Prop :=
  ∀ v ∈ T, ∀ w ∈ T, v ≠ w → ¬ M.CCon T v w → J {v} {w} (T \ {v, w})

/-- One step of the induction: some of the sinks can be taken out, and the pairs that cover all of these are known. -/
theorem hall_step (h : M.Proper) (g : Graphoid J) {T : Finset α} (K : α → Prop) (hK : ∀ u, K u → M.Sink T u)
    (ih : ∀ u, K u → M.Hall J (T.erase u))
    (base : ∀ v ∈ T, ∀ w ∈ T, v ≠ w → ¬ M.CCon T v w → (∀ u, K u → u = v ∨ u = w) → J {v} {w} (T \ {v, w})) : M.Hall J T := by
  have ih' : ∀ u v w, K u → v ∈ T → w ∈ T → u ≠ v → u ≠ w → v ≠ w → ¬ M.CCon T v w → J {v} {w} ((T.erase u) \ {v, w}) := by
    intro u v w hu hv hw h1 h2 h3 hm
    exact ih u hu v (Finset.mem_erase.2 ⟨h1.symm, hv⟩) w (Finset.mem_erase.2 ⟨h2.symm, hw⟩) h3
      fun k => hm (k.mono (Finset.erase_subset _ _))
  -- the contraction
  have contract : ∀ u v w, K u → v ∈ T → w ∈ T → u ≠ v → u ≠ w → v ≠ w → ¬ M.CCon T v w → J {u} {v} (T \ {u, v}) →
      J {v} {w} (T \ {v, w}) := by
    intro u v w hu hv hw huv huw hvw hm h1
    have h2 := ih' u v w hu hv hw huv huw hvw hm
    have e1 : T \ {u, v} = (T.erase u) \ {v, w} ∪ {w} := by grind
    rw [e1] at h1
    have h3 := g.weak (by simp) (by simpa using huv.symm) (g.contr (by simp) (by simpa using hvw) h2 (g.symm h1))
    have e2 : (T.erase u) \ {v, w} ∪ {u} = T \ {v, w} := by have := (hK u hu).1; grind
    rwa [e2] at h3
  have two : ∀ v u, K v → K u → v ≠ u → ¬ M.CCon T v u → J {v} {u} (T \ {v, u}) := by
    intro v u hv hu hvu hm
    by_cases hs : ∀ t, K t → t = v ∨ t = u
    · exact base v (hK v hv).1 u (hK u hu).1 hvu hm hs
    · push Not at hs
      obtain ⟨t, ht, htv, htu⟩ := hs
      have hvT := (hK v hv).1
      have huT := (hK u hu).1
      have htT := (hK t ht).1
      by_cases hm2 : M.CCon T t u
      · have hm3 : ¬ M.CCon T t v := fun k => hm (k.trans_sink h (hK t ht) hm2)
        have := g.pair (T := T) (u := t) (v := u) (w := v) htu htv htT
          (ih' t u v ht huT hvT htu htv hvu.symm fun k => hm (k.symm h)) (ih' u t v hu htT hvT htu.symm hvu.symm htv hm3)
        rw [Finset.pair_comm] at this
        exact g.symm this
      · exact g.pair htv htu htT (ih' t v u ht hvT huT htv htu hvu hm) (ih' v t u hv htT huT htv.symm hvu htu hm2)
  have one : ∀ v w, K v → w ∈ T → v ≠ w → ¬ M.CCon T v w → J {v} {w} (T \ {v, w}) := by
    intro v w hv hw hvw hm
    have hvT := (hK v hv).1
    by_cases hs : ∀ u, K u → u = v ∨ u = w
    · exact base v hvT w hw hvw hm hs
    push Not at hs
    obtain ⟨u, hu, huv, huw⟩ := hs
    by_cases hmu : M.CCon T u w
    · have hm2 : ¬ M.CCon T u v := fun k => hm (k.trans_sink h (hK u hu) hmu)
      exact contract u v w hu hvT hw huv huw hvw hm (two u v hu hv huv hm2)
    · exact g.pair huv huw (hK u hu).1 (ih' u v w hu hvT hw huv huw hvw hm) (ih' v u w hv (hK u hu).1 hw huv.symm hvw huw hmu)
  intro v hv w hw hvw hm
  by_cases hs : ∀ u, K u → u = v ∨ u = w
  · exact base v hv w hw hvw hm hs
  push Not at hs
  obtain ⟨u, hu, huv, huw⟩ := hs
  by_cases hmu : M.CCon T u v
  · have hm2 : ¬ M.CCon T u w := fun k => hm (hmu.trans_sink h (hK u hu) k)
    have := contract u w v hu hw hv huw huv hvw.symm (fun k => hm (k.symm h)) (one u w hu hw huw hm2)
    rw [Finset.pair_comm] at this
    exact g.symm this
  · exact contract u v w hu hv hw huv huw hvw hm (one u v hu hv huv hmu)

omit [DecidableEq α] in
/-- Nodes that are joined through ancestors of theirs are joined by an inducing path. -/
theorem ind_of_ccon (h : M.Proper) {T : Finset α} {v w : α} (hvw : v ≠ w) (hadj : ¬ M.Adj v w)
    (hT : ∀ t ∈ T, Path0 M.dir t v ∨ Path0 M.dir t w) (hc : M.CCon T v w) : M.Ind v w := by
  have anc : ∀ t ∈ T, t ≠ v → t ≠ w → M.Anc2 v w t := by
    intro t ht h1 h2
    rcases hT t ht with k | k
    · exact Or.inl ((reflTransGen_iff_eq_or_transGen.1 k).resolve_left h1.symm)
    · exact Or.inr ((reflTransGen_iff_eq_or_transGen.1 k).resolve_left h2.symm)
  obtain ⟨d, e, h1, h2, h3, h4⟩ := hc
  let R : α → Prop := fun x => x ≠ w ∧ ∃ a, M.Into v a ∧ M.Anc2 v w a ∧ ReflTransGen (fun a b => M.bi a b ∧ M.Anc2 v w b) a x
  have inv : M.Ind v w ∨ R e ∨ e = v := by
    clear h4
    induction h3 with
    | refl =>
      by_cases hdv : d = v
      · exact Or.inr (Or.inr hdv)
      · have k : M.dir v d := h2.resolve_left (Ne.symm hdv)
        have hdw : d ≠ w := by rintro rfl; exact hadj (Or.inl k)
        exact Or.inr (Or.inl ⟨hdw, d, Or.inl k, anc d h1 hdv hdw, .refl⟩)
    | @tail x y _ hxy ih =>
      rcases ih with k | k | rfl
      · exact Or.inl k
      · obtain ⟨k0, a, k1, k2, k3⟩ := k
        by_cases hyv : y = v
        · exact Or.inr (Or.inr hyv)
        by_cases hyw : y = w
        · subst hyw
          exact Or.inl ⟨a, x, k1, k2, k3, Or.inr (h.bi_symm _ _ hxy.1)⟩
        · exact Or.inr (Or.inl ⟨hyw, a, k1, k2, k3.tail ⟨hxy.1, anc y hxy.2.2 hyv hyw⟩⟩)
      · by_cases hyv : y = x
        · exact Or.inr (Or.inr hyv)
        · have hyw : y ≠ w := by rintro rfl; exact hadj (Or.inr (Or.inr (Or.inl hxy.1)))
          exact Or.inr (Or.inl ⟨hyw, y, Or.inr hxy.1, anc y hxy.2.2 hyv hyw, .refl⟩)
  rcases inv with k | ⟨k0, a, k1, k2, k3⟩ | rfl
  · exact k
  · rcases h4 with k | k
    · exact absurd k.symm k0
    · exact ⟨a, e, k1, k2, k3, Or.inl k⟩
  · rcases h4 with k | k
    · exact absurd k hvw.symm
    · exact absurd (Or.inr (Or.inl k)) hadj

omit [DecidableEq α] in
/-- A parent-closed set contains the ancestors of its nodes. -/
theorem closed_path {T : Finset α} (hT : M.Closed T) {x y : α} (hp : Path0 M.dir x y) (hy : y ∈ T) : x ∈ T := by
  induction hp using ReflTransGen.head_induction_on with
  | refl => exact hy
  | head k _ ih => exact hT _ _ k ih

/-- `N` is `M` without the edge from `i` to `j`. -/
structure Cut (M N : Mixed α) (i j : α) : Prop where
  edge : M.dir i j
  dir : ∀ x y, N.dir x y ↔ M.dir x y ∧ ¬ (x = i ∧ y = j)
  bi : ∀ x y, N.bi x y ↔ M.bi x y
  un : ∀ x y, ¬ M.un x y

variable {i j : α}

omit [DecidableEq α] in
theorem Cut.closed (c : Cut M N i j) {T : Finset α} (hT : N.Closed T) (hij : j ∈ T → i ∈ T) : M.Closed T := by
  intro a b hab hb
  by_cases k : a = i ∧ b = j
  · obtain ⟨rfl, rfl⟩ := k; exact hij hb
  · exact hT a b ((c.dir _ _).2 ⟨hab, k⟩) hb

omit [DecidableEq α] in
/-- Nodes of `T` that are joined in the smaller graph or are not adjacent in the larger one. -/
theorem Cut.adj (c : Cut M N i j) {T : Finset α} {v w : α} (hv : v ∈ T) (hw : w ∈ T) (hm : ¬ N.CCon T v w) (ha : M.Adj v w) :
    v = i ∧ w = j ∨ v = j ∧ w = i := by
  by_contra hne
  push Not at hne
  rcases ha with k | k | k | k
  · exact hm ⟨w, w, hw, Or.inr ((c.dir _ _).2 ⟨k, fun q => hne.1 q.1 q.2⟩), .refl, Or.inl rfl⟩
  · exact hm ⟨v, v, hv, Or.inl rfl, .refl, Or.inr ((c.dir _ _).2 ⟨k, fun q => hne.2 q.2 q.1⟩)⟩
  · exact hm ⟨v, w, hv, Or.inl rfl, .single ⟨(c.bi _ _).2 k, hv, hw⟩, Or.inl rfl⟩
  · exact c.un _ _ k

omit [DecidableEq α] in
theorem Cut.ccon (c : Cut M N i j) {T : Finset α} {v w : α} : N.CCon T v w → M.CCon T v w := by
  have hh : ∀ {a b}, N.Head a b → M.Head a b := fun k => k.imp id fun k => ((c.dir _ _).1 k).1
  rintro ⟨d, e, h1, h2, h3, h4⟩
  exact ⟨d, e, h1, hh h2, path0_mono (fun _ _ k => ⟨(c.bi _ _).1 k.1, k.2⟩) h3, hh h4⟩

omit [DecidableEq α] in
theorem Cut.sink (c : Cut M N i j) {T : Finset α} {v : α} (h : M.Sink T v) : N.Sink T v :=
  ⟨h.1, fun x hx k => h.2 x hx ((c.dir _ _).1 k).1⟩

omit [DecidableEq α] in
theorem Cut.nClosed (c : Cut M N i j) {T : Finset α} (h : M.Closed T) : N.Closed T :=
  fun a b k => h a b ((c.dir _ _).1 k).1

omit [DecidableEq α] in
theorem Cut.proper (c : Cut M N i j) (hN : ∀ x y, ¬ N.un x y) (h : M.Proper) : N.Proper where
  bi_symm _ _ k := (c.bi _ _).2 (h.bi_symm _ _ ((c.bi _ _).1 k))
  un_symm _ _ k := absurd k (hN _ _)
  tails _ _ _ k := absurd k (hN _ _)
  excl _ _ k q := h.excl _ _ ((c.dir _ _).1 k).1 (q.imp (fun q => ((c.dir _ _).1 q).1) (c.bi _ _).1)

/-- Intersection. -/
theorem Graphoid.down (g : Graphoid J) {T : Finset α} {e v w : α} (hw : w ∈ T) (he : e ∉ T) (hvw : v ≠ w) (hev : e ≠ v)
    (hew : e ≠ w) (h1 : J {v} {w} (insert e T \ {v, w})) (h2 : J {e} {v} (insert e T \ {e, v})) : J {v} {w} (T \ {v, w}) := by
  have e1 : insert e T \ {v, w} = T \ {v, w} ∪ {e} := by grind
  have e2 : insert e T \ {e, v} = T \ {v, w} ∪ {w} := by grind
  rw [e1] at h1; rw [e2] at h2
  exact g.mono (fun _ k => k) Finset.subset_union_left
    (g.inter (by simpa using hvw) (by simp) (by simpa using hev.symm) h1 (g.symm h2))

/-- All pairs that are not joined in the graph without the edge. -/
theorem hall_of_cut (h : M.Proper) (hN : N.Proper) (hac : Acyclic M.dir) (c : Cut M N i j) (g : Graphoid J) (V : Finset α)
    (hV : M.Closed V) (hind : ∀ v ∈ V, ∀ w ∈ V, v ≠ w → ¬ M.Adj v w → ¬ M.Ind v w)
    (hp : ∀ v ∈ V, ∀ w ∈ V, v ≠ w → (¬ M.Adj v w ∨ v = i ∧ w = j) → ∀ S : Finset α, (∀ x, x ∈ S ↔ x ≠ v ∧ x ≠ w ∧ M.Anc2 v w x) →
      J {v} {w} S) : ∀ T ⊆ V, N.Closed T → N.Hall J T := by
  classical
  -- sets that are closed in the larger graph
  have caseA : ∀ n, ∀ T ⊆ V, T.card = n → M.Closed T → N.Hall J T := by
    intro n
    induction n using Nat.strong_induction_on with
    | _ n ih =>
    intro T hTV hn hT
    refine hall_step hN g (M.Sink T) (fun u hu => c.sink hu) (fun u hu => ih _ (by rw [← hn]; exact Finset.card_erase_lt_of_mem hu.1)
      _ ((Finset.erase_subset _ _).trans hTV) rfl (hT.erase hu)) ?_
    intro v hv w hw hvw hm hs
    have hS : ∀ x, x ∈ T \ {v, w} ↔ x ≠ v ∧ x ≠ w ∧ M.Anc2 v w x := by
      intro x
      constructor
      · intro hx
        obtain ⟨hxT, hx2⟩ := Finset.mem_sdiff.1 hx
        simp only [Finset.mem_insert, Finset.mem_singleton, not_or] at hx2
        refine ⟨hx2.1, hx2.2, ?_⟩
        obtain ⟨s, hs1, hs2⟩ := exists_sink hac T hxT
        rcases hs s hs1 with rfl | rfl
        · exact Or.inl ((reflTransGen_iff_eq_or_transGen.1 hs2).resolve_left (Ne.symm hx2.1))
        · exact Or.inr ((reflTransGen_iff_eq_or_transGen.1 hs2).resolve_left (Ne.symm hx2.2))
      · rintro ⟨h1, h2, h3⟩
        simp only [Finset.mem_sdiff, Finset.mem_insert, Finset.mem_singleton, not_or]
        exact ⟨h3.elim (fun k => closed_path hT k.to_reflTransGen hv) fun k => closed_path hT k.to_reflTransGen hw, h1, h2⟩
    by_cases ha : M.Adj v w
    · rcases c.adj hv hw hm ha with k | k
      · exact hp v (hTV hv) w (hTV hw) hvw (Or.inr k) _ hS
      · refine g.symm (hp w (hTV hw) v (hTV hv) hvw.symm (Or.inr k.symm) _ fun x => ?_)
        rw [hS, Anc2, Anc2]; tauto
    · exact hp v (hTV hv) w (hTV hw) hvw (Or.inl ha) _ hS
  have hji : ¬ Path0 M.dir j i := fun k => hac _ (TransGen.head' c.edge k)
  let E : Finset α := V.filter fun x => Path0 M.dir x i
  have caseB : ∀ m n, ∀ T ⊆ V, (E \ T).card = m → T.card = n → N.Closed T → N.Hall J T := by
    intro m
    induction m using Nat.strong_induction_on with
    | _ m ihm =>
    intro n
    induction n using Nat.strong_induction_on with
    | _ n ih =>
    intro T hTV hm hn hT
    by_cases hM : j ∈ T → i ∈ T
    · exact caseA _ T hTV rfl (c.closed hT hM)
    push Not at hM
    obtain ⟨hj, hi⟩ := hM
    have hsk : ∀ u, M.Sink T u ↔ N.Sink T u := fun u => ⟨c.sink, fun k => ⟨k.1, fun x hx q =>
      k.2 x hx ((c.dir _ _).2 ⟨q, fun e => hi (e.1 ▸ k.1)⟩)⟩⟩
    refine hall_step hN g (fun u => N.Sink T u ∧ ¬ Path0 M.dir u i) (fun u hu => hu.1) ?_ ?_
    · rintro u ⟨hu, hui⟩
      refine ih _ (by rw [← hn]; exact Finset.card_erase_lt_of_mem hu.1) _ ((Finset.erase_subset _ _).trans hTV) ?_ rfl (hT.erase hu)
      have : E \ T.erase u = E \ T := by
        ext x
        simp only [Finset.mem_sdiff, Finset.mem_erase, not_and, E, Finset.mem_filter]
        refine and_congr_right fun hx => ⟨fun k q => k ?_ q, fun k _ => k⟩
        rintro rfl; exact hui hx.2
      rw [this, hm]
    intro v hv w hw hvw hcc hs
    -- a lowest ancestor outside of the set
    obtain ⟨e, heE, heT, hmin⟩ : ∃ e, Path0 M.dir e i ∧ e ∉ T ∧ ∀ p, M.dir p e → p ∈ T := by
      have hiV : i ∈ V := hV _ _ c.edge (hTV hj)
      have hac' : Acyclic (Mixed.mk (fun a b => M.dir b a) M.bi M.un).dir := fun x k => hac x (transGen_swap.1 k)
      obtain ⟨e, he, -⟩ := exists_sink hac' (E \ T) (x := i) (Finset.mem_sdiff.2 ⟨Finset.mem_filter.2 ⟨hiV, .refl⟩, hi⟩)
      obtain ⟨he1, he2⟩ := Finset.mem_sdiff.1 he.1
      obtain ⟨he3, he4⟩ := Finset.mem_filter.1 he1
      refine ⟨e, he4, he2, fun p hpe => ?_⟩
      by_contra hpT
      exact he.2 p (Finset.mem_sdiff.2 ⟨Finset.mem_filter.2 ⟨hV _ _ hpe he3, he4.head hpe⟩, hpT⟩) hpe
    have heV : e ∈ V := closed_path hV heE (hV _ _ c.edge (hTV hj))
    have hT' : N.Closed (insert e T) := by
      intro a b hab hb
      rcases Finset.mem_insert.1 hb with rfl | hb
      · exact Finset.mem_insert_of_mem (hmin _ ((c.dir _ _).1 hab).1)
      · exact Finset.mem_insert_of_mem (hT a b hab hb)
    have hsub : insert e T ⊆ V := Finset.insert_subset heV hTV
    have hall : N.Hall J (insert e T) := by
      refine ihm _ ?_ _ _ hsub rfl rfl hT'
      rw [← hm]
      refine Finset.card_lt_card ⟨fun x hx => ?_, fun k => ?_⟩
      · obtain ⟨h1, h2⟩ := Finset.mem_sdiff.1 hx
        exact Finset.mem_sdiff.2 ⟨h1, fun q => h2 (Finset.mem_insert_of_mem q)⟩
      · exact (Finset.mem_sdiff.1 (k (Finset.mem_sdiff.2 ⟨Finset.mem_filter.2 ⟨heV, heE⟩, heT⟩))).2 (Finset.mem_insert_self _ _)
    have hesink : N.Sink (insert e T) e := by
      refine ⟨Finset.mem_insert_self _ _, fun x hx k => ?_⟩
      rcases Finset.mem_insert.1 hx with rfl | hx
      · exact hac _ (.single ((c.dir _ _).1 k).1)
      · exact heT (hT e x k hx)
    have hev : e ≠ v := fun q => heT (q ▸ hv)
    have hew : e ≠ w := fun q => heT (q ▸ hw)
    -- all nodes are ancestors of the two
    have hjs : Path0 M.dir j v ∨ Path0 M.dir j w := by
      obtain ⟨s, h1, h2⟩ := exists_sink hac T hj
      rcases hs s ⟨(hsk s).1 h1, fun k => hji (h2.trans k)⟩ with rfl | rfl
      · exact Or.inl h2
      · exact Or.inr h2
    have low : ∀ t, Path0 M.dir t i → Path0 M.dir t v ∨ Path0 M.dir t w := fun t k =>
      hjs.imp (fun q => (k.tail c.edge).trans q) fun q => (k.tail c.edge).trans q
    have hanc : ∀ t ∈ insert e T, Path0 M.dir t v ∨ Path0 M.dir t w := by
      intro t ht
      rcases Finset.mem_insert.1 ht with rfl | ht
      · exact low _ heE
      · obtain ⟨s, h1, h2⟩ := exists_sink hac T ht
        by_cases hsi : Path0 M.dir s i
        · exact low _ (h2.trans hsi)
        · rcases hs s ⟨(hsk s).1 h1, hsi⟩ with rfl | rfl
          · exact Or.inl h2
          · exact Or.inr h2
    have hadj : ¬ M.Adj v w := by
      intro k
      rcases c.adj hv hw hcc k with q | q
      · exact hi (q.1 ▸ hv)
      · exact hi (q.2 ▸ hw)
    have hcc' : ¬ N.CCon (insert e T) v w := fun k =>
      hind v (hTV hv) w (hTV hw) hvw hadj (ind_of_ccon h hvw hadj hanc (c.ccon k))
    have hv' := Finset.mem_insert_of_mem (b := e) hv
    have hw' := Finset.mem_insert_of_mem (b := e) hw
    by_cases hce : N.CCon (insert e T) e v
    · have hce' : ¬ N.CCon (insert e T) e w := fun k => hcc' (hce.trans_sink hN hesink k)
      have := g.down hv heT hvw.symm hew hev (hall w hw' v hv' hvw.symm fun k => hcc' (k.symm hN))
        (hall e hesink.1 w hw' hew hce')
      rw [Finset.pair_comm] at this
      exact g.symm this
    · exact g.down hw heT hvw hev hew (hall v hv' w hw' hvw hcc') (hall e hesink.1 v hv' hev hce)
  exact fun T hTV hT => caseB _ _ T hTV rfl rfl hT

/-- The pairwise statements of the graph without the edge. -/
theorem pairwise_of_cut (h : M.Proper) (hN : N.Proper) (hac : Acyclic M.dir) (c : Cut M N i j) (g : Graphoid J) (V : Finset α)
    (hV : M.Closed V) (hind : ∀ v ∈ V, ∀ w ∈ V, v ≠ w → ¬ M.Adj v w → ¬ M.Ind v w)
    (hind' : ∀ v ∈ V, ∀ w ∈ V, v ≠ w → ¬ N.Adj v w → ¬ N.Ind v w)
    (hp : ∀ v ∈ V, ∀ w ∈ V, v ≠ w → (¬ M.Adj v w ∨ v = i ∧ w = j) → ∀ S : Finset α, (∀ x, x ∈ S ↔ x ≠ v ∧ x ≠ w ∧ M.Anc2 v w x) →
      J {v} {w} S) :
    ∀ v ∈ V, ∀ w ∈ V, v ≠ w → ¬ N.Adj v w → ∀ S : Finset α, (∀ x, x ∈ S ↔ x ≠ v ∧ x ≠ w ∧ N.Anc2 v w x) → J {v} {w} S := by
  classical
  intro v hv w hw hvw hadj S hS
  let T : Finset α := V.filter fun x => Path0 N.dir x v ∨ Path0 N.dir x w
  have hT : N.Closed T := by
    intro a b hab hb
    obtain ⟨h1, h2⟩ := Finset.mem_filter.1 hb
    exact Finset.mem_filter.2 ⟨c.nClosed hV _ _ hab h1, h2.imp (ReflTransGen.head hab) (ReflTransGen.head hab)⟩
  have hcc : ¬ N.CCon T v w := fun k => hind' v hv w hw hvw hadj
    (ind_of_ccon hN hvw hadj (fun t ht => (Finset.mem_filter.1 ht).2) k)
  have := hall_of_cut h hN hac c g V hV hind hp T (Finset.filter_subset _ _) hT v (Finset.mem_filter.2 ⟨hv, Or.inl .refl⟩) w
    (Finset.mem_filter.2 ⟨hw, Or.inr .refl⟩) hvw hcc
  have e : T \ {v, w} = S := by
    ext x
    simp only [Finset.mem_sdiff, Finset.mem_insert, Finset.mem_singleton, not_or, T, Finset.mem_filter]
    rw [hS]
    constructor
    · rintro ⟨⟨h1, h2⟩, h3, h4⟩
      refine ⟨h3, h4, ?_⟩
      exact h2.imp (fun k => (reflTransGen_iff_eq_or_transGen.1 k).resolve_left (Ne.symm h3))
        fun k => (reflTransGen_iff_eq_or_transGen.1 k).resolve_left (Ne.symm h4)
    · rintro ⟨h3, h4, h2⟩
      exact ⟨⟨h2.elim (fun k => closed_path (c.nClosed hV) k.to_reflTransGen hv)
        fun k => closed_path (c.nClosed hV) k.to_reflTransGen hw, h2.imp (·.to_reflTransGen) (·.to_reflTransGen)⟩, h3, h4⟩
  rwa [e] at this

end Spec.Mixed
