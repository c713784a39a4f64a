import Verif.Model.RandGauss
import Verif.Proof.GaussIv
import Verif.Proof.Rand
import Verif.Proof.Between
import Verif.Proof.TopoSort

/-! # Lemmas about random Gaussian models -/

namespace Model

open Spec

namespace Gauss

variable {n : ℕ} {K : Type} [Field K] [DecidableEq K]

/-! ### The constructor keeps the stored neighbors right -/

omit [DecidableEq K] in
theorem removeArc_dag {G : Gauss n K} (h : G.dag.arcs = ∅) (i j : ℕ) : (G.removeArc i j).1.dag = G.dag := by
  unfold removeArc
  split
  · dsimp only
    rw [h, if_neg (by simp)]
  · rfl

omit [DecidableEq K] in
theorem forEach_dag (l : List ((ℕ × ℕ) × K)) : ∀ {G : Gauss n K}, G.dag.arcs = ∅ →
    (forEach (fun G (e : (ℕ × ℕ) × K) => G.removeArc e.1.1 e.1.2) l G).1.dag = G.dag := by
  induction l with
  | nil => exact fun _ => rfl
  | cons e l ih =>
    intro G h
    have h1 := removeArc_dag h e.1.1 e.1.2
    rw [forEach]
    split
    · rename_i G' e' he
      rw [he] at h1
      exact h1
    · rename_i G' he
      rw [he] at h1
      exact (ih (by rw [h1, h])).trans h1

theorem new_consistent (oa : SetOrder Bool (ℕ × ℕ)) {names : Fin n → ℕ} {arcs : List ((ℕ × ℕ) × K)} {biases variances : Fin n → K}
    {G : Gauss n K} (h : new oa names arcs biases variances = (G, none)) : G.dag.Consistent := by
  have hE : (DAG.empty (Finset.univ.image names)).Consistent := by
    constructor <;> simp [DAG.empty]
  unfold new at h
  dsimp only at h
  split at h
  · cases h
  · rename_i G1 h1
    split at h
    · cases h
    · cases h
      change G1.dag.Consistent
      unfold setArcWeights at h1
      split at h1
      · cases h1; exact hE
      · split at h1
        · cases h1
        · rename_i W hW
          have h2 := forEach_dag (arcs.filter fun e => e.2 = 0) (G := { dag := DAG.empty (Finset.univ.image names), names := names, weight := W, variances := variances, biases := biases, precision := none, covariance := none, correlation := none }) rfl
          split at h1
          · cases h1
          · rename_i G2 h3
            rw [h3] at h2
            dsimp only at h1 h2
            split at h1
            · cases h1
              rw [h2]; exact hE
            · cases h1
              dsimp only
              rw [h2]
              exact (DAG.addArcsUnchecked_spec hE _).1

theorem copy_consistent {on : SetOrder Unit ℕ} {oe : SetOrder Unit (ℕ × ℕ)} {oa : SetOrder Bool (ℕ × ℕ)} {G H : Gauss n K}
    (h : G.copy on oe oa = some (.ok H)) : H.dag.Consistent := by
  unfold copy at h
  split at h
  · cases h
  · unfold rebuild at h
    split at h
    · split at h
      · rename_i H' h'
        cases h
        exact new_consistent oa h'
      · cases h
    · cases h

/-! ### Changes of single arcs, by label -/

/-- Arcs are nonzero weights, labels are positions, all views agree. -/
structure Tidy (G : Gauss n K) : Prop extends G.Plain where
  cons : G.dag.Consistent

theorem entry_set {G G' : Gauss n K} {a b : Fin n} {v : K} (h : G'.weight = setEntry G.weight a b v) (e : ℕ × ℕ) :
    G'.entry e.1 e.2 = if e = (a.val, b.val) then v else G.entry e.1 e.2 := by
  obtain ⟨i, j⟩ := e
  unfold entry
  by_cases hij : i < n ∧ j < n
  · rw [dif_pos hij, dif_pos hij, h, setEntry_apply]
    refine if_congr ?_ rfl rfl
    simp [Fin.ext_iff]
  · rw [dif_neg hij, dif_neg hij, if_neg]
    rintro h
    simp only [Prod.mk.injEq] at h
    exact hij ⟨h.1 ▸ a.2, h.2 ▸ b.2⟩

/-- What stays. -/
structure Kept (G G' : Gauss n K) : Prop where
  variances : G'.variances = G.variances
  biases : G'.biases = G.biases

omit [Field K] [DecidableEq K] in
theorem Kept.refl (G : Gauss n K) : Kept G G := ⟨rfl, rfl⟩

omit [Field K] [DecidableEq K] in
theorem Kept.trans {G G' G'' : Gauss n K} (h : Kept G G') (h' : Kept G' G'') : Kept G G'' :=
  ⟨h'.variances.trans h.variances, h'.biases.trans h.biases⟩

theorem Tidy.set {G : Gauss n K} (h : G.Tidy) (o : SetOrder (Option ℕ) ℕ) {e : ℕ × ℕ} (he : e.1 < n ∧ e.2 < n) {v : K} (hv : v ≠ 0)
    (hac : Acyclic fun x y => (x, y) ∈ insert e G.dag.arcs) :
    ∃ G', G.setArcWeight o e.1 e.2 v = some (G', none) ∧ G'.Tidy ∧ Kept G G' ∧ G'.dag.arcs = insert e G.dag.arcs ∧
      ∀ e', G'.entry e'.1 e'.2 = if e' = e then v else G.entry e'.1 e'.2 := by
  obtain ⟨i, j⟩ := e
  obtain ⟨hi, hj⟩ := he
  dsimp only at hi hj
  have hni : G.names ⟨i, hi⟩ = i := h.names _
  have hnj : G.names ⟨j, hj⟩ = j := h.names _
  obtain ⟨G', e, h1, h2, h3, -, h4, -⟩ := setArcWeight_spec h.toSound o ⟨i, hi⟩ ⟨j, hj⟩ v
  rw [hni, hnj] at h1 h4
  obtain ⟨rfl, h5, h6⟩ := h4 hv (by
    convert hac using 3
    rename_i x y
    rw [Finset.mem_insert, Prod.mk.injEq, DAG.E]
    exact or_comm)
  refine ⟨G', h1, ⟨⟨h3, fun a => by rw [h2.names]; exact h.names a⟩, ?_⟩, ⟨h2.variances, h2.biases⟩, h6, fun e' => entry_set h5 e'⟩
  unfold setArcWeight at h1
  rw [if_neg hv] at h1
  split at h1
  · dsimp only at h1
    split at h1
    · split at h1
      · cases h1
      · cases h1
        exact DAG.addArcUnchecked_consistent h.cons i j
      · split at h1 <;> cases h1
      · cases h1
    · cases h1
      exact h.cons
  · cases h1

theorem Tidy.remove {G : Gauss n K} (h : G.Tidy) {e : ℕ × ℕ} (he : e ∈ G.dag.arcs) :
    ∃ G', G.removeArc e.1 e.2 = (G', none) ∧ G'.Tidy ∧ Kept G G' ∧ G'.dag.arcs = G.dag.arcs.erase e ∧
      ∀ e', G'.entry e'.1 e'.2 = if e' = e then 0 else G.entry e'.1 e'.2 := by
  obtain ⟨i, j⟩ := e
  obtain ⟨hi, hj⟩ := h.arc_lt he
  have hni : G.names ⟨i, hi⟩ = i := h.names _
  have hnj : G.names ⟨j, hj⟩ = j := h.names _
  have hL := h.toSound.linked
  obtain ⟨d, d1, d2, d3, d4⟩ := DAG.removeArc_spec h.cons he (fun h' => h.listed.valid.acyclic i (.tail (.single he) h')) false
  obtain ⟨G', e, h1, h2, h3, h4, h5, -, -⟩ := removeArc_wp hL.views hL.inj ⟨i, hi⟩ ⟨j, hj⟩
  rw [hni, hnj] at h1 h5
  have h6 : G.removeArc i j = ({ G with weight := setEntry G.weight ⟨i, hi⟩ ⟨j, hj⟩ 0, dag := d }, none) := by
    unfold removeArc ix
    have e1 := lastIx_names hL.inj ⟨i, hi⟩
    have e2 := lastIx_names hL.inj ⟨j, hj⟩
    rw [hni] at e1
    rw [hnj] at e2
    rw [e1, e2]
    dsimp only
    rw [if_pos he, d1]
  have hG : G' = { G with weight := setEntry G.weight ⟨i, hi⟩ ⟨j, hj⟩ 0, dag := d } := by
    have := h1.symm.trans h6
    exact (Prod.mk.inj this).1
  have hl : G'.Linked := linked_set hL h2 h3 h4 fun x y => by
    rw [h5, Finset.mem_erase, hni, hnj]
    by_cases hc : x = i ∧ y = j
    · rw [if_pos hc, hc.1, hc.2]; simp
    · rw [if_neg hc, Ne, Prod.mk.injEq]; simp [hc]
  have hac : Acyclic G'.dag.E := fun v hv => h.listed.valid.acyclic v (Relation.TransGen.mono (fun x y hxy => by
    rw [DAG.E, h5] at hxy
    exact Finset.mem_of_mem_erase hxy) _ _ hv)
  refine ⟨G', by rw [hG]; exact h6, ⟨⟨hl.sound hac, fun a => by rw [h2.names]; exact h.names a⟩, by rw [hG]; exact d2⟩,
    ⟨h2.variances, h2.biases⟩, h5, fun e' => entry_set h4 e'⟩

theorem Tidy.setEach (o : SetOrder (Option ℕ) ℕ) : ∀ (l : List ((ℕ × ℕ) × K)) {G : Gauss n K}, G.Tidy → (l.map Prod.fst).Nodup →
    (∀ e ∈ l, e.1.1 < n ∧ e.1.2 < n ∧ e.2 ≠ 0) → (Acyclic fun x y => (x, y) ∈ (l.map Prod.fst).toFinset ∪ G.dag.arcs) →
    ∃ G', setEach o l G = some (G', none) ∧ G'.Tidy ∧ Kept G G' ∧ G'.dag.arcs = (l.map Prod.fst).toFinset ∪ G.dag.arcs ∧
      (∀ e ∈ l, G'.entry e.1.1 e.1.2 = e.2) ∧ ∀ e, e ∉ l.map Prod.fst → G'.entry e.1 e.2 = G.entry e.1 e.2
  | [], G, h, _, _, _ => ⟨G, rfl, h, .refl G, by simp, by simp, by simp⟩
  | x :: l, G, h, hn, hx, hac => by
      rw [List.map_cons, List.nodup_cons] at hn
      obtain ⟨h1, h2, h3⟩ := hx x (List.mem_cons_self ..)
      obtain ⟨G1, g1, g2, g3, g4, g5⟩ := h.set o (e := x.1) ⟨h1, h2⟩ h3 (fun v hv => hac v (Relation.TransGen.mono (fun a b hab => by
        rw [Finset.mem_insert] at hab
        simp only [List.map_cons, List.toFinset_cons, Finset.mem_union, Finset.mem_insert]
        tauto) _ _ hv))
      have hset : (l.map Prod.fst).toFinset ∪ G1.dag.arcs = ((x :: l).map Prod.fst).toFinset ∪ G.dag.arcs := by
        rw [g4]
        ext e
        simp only [List.map_cons, List.toFinset_cons, Finset.mem_union, Finset.mem_insert]
        tauto
      obtain ⟨G2, k1, k2, k3, k4, k5, k6⟩ := Tidy.setEach o l g2 hn.2 (fun e he => hx e (List.mem_cons_of_mem _ he)) (by
        rw [hset]; exact hac)
      refine ⟨G2, ?_, k2, g3.trans k3, k4.trans hset, ?_, ?_⟩
      · rw [Gauss.setEach, g1]
        exact k1
      · intro e he
        rcases List.mem_cons.1 he with rfl | he
        · rw [k6 _ hn.1, g5, if_pos rfl]
        · exact k5 e he
      · intro e he
        rw [List.map_cons, List.mem_cons, not_or] at he
        rw [k6 e he.2, g5, if_neg he.1]

theorem Tidy.removeEach : ∀ (l : List (ℕ × ℕ)) {G : Gauss n K}, G.Tidy → l.Nodup → (∀ e ∈ l, e ∈ G.dag.arcs) →
    ∃ G', forEach (fun G e => G.removeArc e.1 e.2) l G = (G', none) ∧ G'.Tidy ∧ Kept G G' ∧ G'.dag.arcs = G.dag.arcs \ l.toFinset ∧
      (∀ e ∈ l, G'.entry e.1 e.2 = 0) ∧ ∀ e, e ∉ l → G'.entry e.1 e.2 = G.entry e.1 e.2
  | [], G, h, _, _ => ⟨G, rfl, h, .refl G, by simp, by simp, by simp⟩
  | x :: l, G, h, hn, hx => by
      rw [List.nodup_cons] at hn
      obtain ⟨G1, g1, g2, g3, g4, g5⟩ := h.remove (hx x (List.mem_cons_self ..))
      obtain ⟨G2, k1, k2, k3, k4, k5, k6⟩ := Tidy.removeEach l g2 hn.2 (fun e he => by
        rw [g4, Finset.mem_erase]
        exact ⟨fun h => hn.1 (h ▸ he), hx e (List.mem_cons_of_mem _ he)⟩)
      refine ⟨G2, ?_, k2, g3.trans k3, ?_, ?_, ?_⟩
      · rw [forEach, g1]
        exact k1
      · rw [k4, g4]
        ext e
        simp only [List.toFinset_cons, Finset.mem_sdiff, Finset.mem_erase, Finset.mem_insert]
        tauto
      · intro e he
        rcases List.mem_cons.1 he with rfl | he
        · rw [k6 _ hn.1, g5, if_pos rfl]
        · exact k5 e he
      · intro e he
        rw [List.mem_cons, not_or] at he
        rw [k6 e he.2, g5, if_neg he.1]

theorem pairs_nodup {l : List ℕ} (hl : l.Nodup) : (DAG.pairs l).Nodup := by
  induction l with
  | nil => simp [DAG.pairs]
  | cons x l ih =>
    rw [List.nodup_cons] at hl
    rw [DAG.pairs, List.nodup_append]
    refine ⟨hl.2.map fun a b h => (Prod.mk.inj h).2, ih hl.2, ?_⟩
    rintro ⟨a, b⟩ h1 ⟨c, d⟩ h2 rfl'
    obtain ⟨rfl, rfl⟩ := Prod.mk.inj rfl'
    obtain ⟨y, -, hy⟩ := List.mem_map.1 h1
    obtain ⟨rfl, -⟩ := Prod.mk.inj hy
    exact hl.1 ((pairs_iff_sublist.1 h2).subset (by simp))

/-- The last part of `alter_weights`. -/
theorem alterCopy_spec {G : Gauss n K} (h : G.Plain) {on : SetOrder Unit ℕ} (ha : on.ord () (Finset.range n) = List.range n)
    (oe : SetOrder Unit (ℕ × ℕ)) (oa : SetOrder Bool (ℕ × ℕ)) (o : SetOrder (Option ℕ) ℕ) {altered removed added : List (ℕ × ℕ)}
    (h1 : altered.Nodup) (h1' : ∀ e ∈ altered, e ∈ G.dag.arcs) (h2 : removed.Nodup) (h2' : ∀ e ∈ removed, e ∈ G.dag.arcs)
    (h3 : added.Nodup) (h3' : ∀ e ∈ added, e ∉ G.dag.arcs ∧ e.1 < n ∧ e.2 < n) (hd : ∀ e ∈ removed, e ∉ altered)
    (hac : Acyclic fun x y => (x, y) ∈ added.toFinset ∪ G.dag.arcs) {change : ℕ × ℕ → K → K} (hc : ∀ e w, change e w ≠ 0)
    {weights : List K} (hw : weights.length = added.length) (hw0 : ∀ w ∈ weights, w ≠ 0) :
    ∃ H, G.alterCopy on oe oa o altered removed added change weights = some (.ok H) ∧ H.Plain ∧ H.biases = G.biases ∧
      H.variances = G.variances ∧ H.dag.arcs = added.toFinset ∪ (G.dag.arcs \ removed.toFinset) ∧
      (∀ e ∈ altered, H.entry e.1 e.2 = change e (G.entry e.1 e.2)) ∧
      (∀ e, e ∉ altered → e ∉ removed → e ∉ added → H.entry e.1 e.2 = G.entry e.1 e.2) ∧
      ∀ e ∈ added.zip weights, H.entry e.1.1 e.1.2 = e.2 := by
  obtain ⟨H, g1, g2, g3, g4, g5, g6, g7, g8⟩ := h.copy_spec on oe oa
  have hn := h.names_ascending ha g7
  have hH : H.Tidy := ⟨⟨g2, hn⟩, copy_consistent g1⟩
  have hent : ∀ e : ℕ × ℕ, H.entry e.1 e.2 = G.entry e.1 e.2 := by
    rintro ⟨i, j⟩
    unfold entry
    by_cases hij : i < n ∧ j < n
    · rw [dif_pos hij, dif_pos hij, g8, hn, hn, G.entry_val]
    · rw [dif_neg hij, dif_neg hij]
  have harcs : H.dag.arcs = G.dag.arcs := by
    ext ⟨i, j⟩
    constructor
    · intro hij
      obtain ⟨hi, hj⟩ := hH.arc_lt hij
      have := (hH.arcs ⟨i, hi⟩ ⟨j, hj⟩).1 hij
      rw [← H.entry_val, hent (i, j)] at this
      exact (h.arcs ⟨i, hi⟩ ⟨j, hj⟩).2 (by rw [← G.entry_val]; exact this)
    · intro hij
      obtain ⟨hi, hj⟩ := h.arc_lt hij
      have := (h.arcs ⟨i, hi⟩ ⟨j, hj⟩).1 hij
      rw [← G.entry_val, ← hent (i, j)] at this
      exact (hH.arcs ⟨i, hi⟩ ⟨j, hj⟩).2 (by rw [← H.entry_val]; exact this)
  have hfind : (altered.mapM fun e => (((oe.ord () G.dag.arcs).map fun e => (e, G.entry e.1 e.2)).find? fun x => x.1 = e).map
      fun x => (e, change e x.2)) = some (altered.map fun e => (e, change e (G.entry e.1 e.2))) := by
    refine mapM_some fun e he => ?_
    rw [List.find?_map]
    have : (oe.ord () G.dag.arcs).find? ((fun x : (ℕ × ℕ) × K => decide (x.1 = e)) ∘ fun e => (e, G.entry e.1 e.2)) = some e := by
      cases hf : (oe.ord () G.dag.arcs).find? ((fun x : (ℕ × ℕ) × K => decide (x.1 = e)) ∘ fun e => (e, G.entry e.1 e.2)) with
      | none =>
        rw [List.find?_eq_none] at hf
        exact absurd (hf e ((oe.mem_iff () _ _).2 (h1' e he))) (by simp)
      | some e' =>
        have := List.find?_some hf
        simp at this
        rw [this]
    rw [this]
    rfl
  have hk : (altered.map fun e => (e, change e (G.entry e.1 e.2))).map Prod.fst = altered := by simp [Function.comp_def]
  obtain ⟨H1, a1, a2, a3, a4, a5, a6⟩ := Tidy.setEach o (altered.map fun e => (e, change e (G.entry e.1 e.2))) hH (by rw [hk]; exact h1)
    (fun e he => by
      obtain ⟨e, he', rfl⟩ := List.mem_map.1 he
      exact ⟨(h.arc_lt (h1' e he')).1, (h.arc_lt (h1' e he')).2, hc _ _⟩) (by
      rw [hk, harcs, Finset.union_eq_right.2 fun e he => h1' e (List.mem_toFinset.1 he)]
      exact h.listed.valid.acyclic)
  rw [hk] at a4 a6
  rw [harcs, Finset.union_eq_right.2 fun e he => h1' e (List.mem_toFinset.1 he)] at a4
  obtain ⟨H2, b1, b2, b3, b4, b5, b6⟩ := Tidy.removeEach removed a2 h2 (fun e he => by rw [a4]; exact h2' e he)
  rw [a4] at b4
  have hk2 : (added.zip weights).map Prod.fst = added := by rw [List.map_fst_zip]; omega
  obtain ⟨H3, c1, c2, c3, c4, c5, c6⟩ := Tidy.setEach o (added.zip weights) b2 (by rw [hk2]; exact h3)
    (fun e he => by
      have h4 := List.of_mem_zip (a := e.1) (b := e.2) he
      exact ⟨(h3' _ h4.1).2.1, (h3' _ h4.1).2.2, hw0 _ h4.2⟩) (by
      rw [hk2, b4]
      exact fun v hv => hac v (Relation.TransGen.mono (fun x y hxy => by
        simp only [Finset.mem_union, Finset.mem_sdiff] at hxy ⊢
        tauto) _ _ hv))
  rw [hk2] at c4 c6
  rw [b4] at c4
  refine ⟨H3, ?_, c2.toPlain, ?_, ?_, c4, ?_, ?_, c5⟩
  · unfold alterCopy
    rw [g1, h.arcWeights_eq oe]
    dsimp only
    rw [hfind]
    dsimp only
    rw [a1]
    dsimp only
    rw [b1]
    dsimp only
    rw [c1]
  · rw [c3.biases, b3.biases, a3.biases, g3]
  · rw [c3.variances, b3.variances, a3.variances, g4]
  · intro e he
    rw [c6 e fun h => (h3' e h).1 (h1' e he), b6 e fun h => hd e h he]
    exact a5 _ (List.mem_map_of_mem he)
  · intro e e1 e2 e3
    rw [c6 e e3, b6 e e2, a6 e e1, hent]

end Gauss

/-! ### `rand_normal_wishart` -/

variable {K : Type}

theorem mem_wishartArcs {op : SetOrder ℕ ℕ} {G : DAG ℕ} {weights : ℕ → List K} {nodes : List ℕ} {p v : ℕ} {w : K} :
    ((p, v), w) ∈ wishartArcs op G weights nodes ↔ v ∈ nodes ∧ (p, w) ∈ (op.ord v (G.parents v)).zip (weights v).dropLast := by
  simp only [wishartArcs, List.mem_flatMap, List.mem_map, Prod.mk.injEq]
  constructor
  · rintro ⟨v', h1, ⟨p', w'⟩, h2, ⟨rfl, rfl⟩, rfl⟩
    exact ⟨h1, h2⟩
  · rintro ⟨h1, h2⟩
    exact ⟨v, h1, _, h2, ⟨rfl, rfl⟩, rfl⟩

theorem zip_fst_sublist {β γ : Type} : ∀ (l : List β) (m : List γ), List.Sublist ((l.zip m).map Prod.fst) l
  | [], _ => by simp
  | x :: l, [] => by simp
  | x :: l, y :: m => by simpa using zip_fst_sublist l m

theorem wishartArcs_nodup {op : SetOrder ℕ ℕ} {G : DAG ℕ} {weights : ℕ → List K} {nodes : List ℕ} (hn : nodes.Nodup) :
    ((wishartArcs op G weights nodes).map Prod.fst).Nodup := by
  have hm : ∀ {p v : ℕ} {nodes : List ℕ}, (p, v) ∈ (wishartArcs op G weights nodes).map Prod.fst → v ∈ nodes := by
    intro p v nodes h
    obtain ⟨⟨⟨p', v'⟩, w⟩, h, h'⟩ := List.mem_map.1 h
    cases h'
    exact (mem_wishartArcs.1 h).1
  induction nodes with
  | nil => simp [wishartArcs]
  | cons v nodes ih =>
    rw [List.nodup_cons] at hn
    change ((_ ++ wishartArcs op G weights nodes).map Prod.fst).Nodup
    rw [List.map_append, List.nodup_append]
    refine ⟨?_, ih hn.2, ?_⟩
    · rw [List.map_map]
      have : (Prod.fst ∘ fun e : ℕ × K => ((e.1, v), e.2)) = (fun p : ℕ => (p, v)) ∘ Prod.fst := rfl
      rw [this, ← List.map_map]
      refine List.Nodup.map (fun a b h => (Prod.mk.inj h).1) ?_
      exact (op.nodup _ _).sublist (zip_fst_sublist _ _)
    · rintro ⟨p, u⟩ h1 ⟨p', u'⟩ h2 h3
      cases h3
      obtain ⟨x, hx, h4⟩ := List.mem_map.1 h1
      obtain ⟨y, -, rfl⟩ := List.mem_map.1 hx
      cases h4
      exact hn.1 (hm h2)

end Model
