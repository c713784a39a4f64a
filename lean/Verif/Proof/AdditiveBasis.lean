import Verif.Spec.AdditiveBasis
import Verif.Proof.Sampling
import Verif.Proof.Queries
import Mathlib.Algebra.Order.BigOperators.Ring.Finset
import Mathlib.Algebra.BigOperators.Ring.Finset
import Mathlib.Tactic.Linarith

/-! # `rand_additive_basis` -/

namespace Model

set_option linter.unusedSectionVars false
variable {α : Type} [DecidableEq α] {N : ℕ}
open Spec

theorem npVar_eq (x : Fin N → ℝ) : npVar x = variance x := Eq.trans rfl rfl

theorem variance_smul (c : ℝ) (x : Fin N → ℝ) : variance (fun j => c * x j) = c ^ 2 * variance x := by
  unfold variance
  rw [← mul_div_assoc, Finset.mul_sum]
  congr 1
  rw [← Finset.mul_sum]
  refine Finset.sum_congr rfl fun j _ => ?_
  rw [mul_div_assoc]; ring

theorem variance_nonneg (x : Fin N → ℝ) : 0 ≤ variance x := by
  unfold variance
  exact div_nonneg (Finset.sum_nonneg fun j _ => sq_nonneg _) (Nat.cast_nonneg _)

theorem baseOf_zip (ps : List α) (fs : List (ℝ → ℝ)) (ws : List ℝ) (hn : ps.Nodup) (hf : fs.length = ps.length) (hw : ws.length = ps.length)
    (y : α → ℝ) :
    ((List.zipWith (fun p x => baseOf ps fs p x) ps (ps.map y)).zipWith (· * ·) ws).sum =
      ((ps.zip (ws.zip fs)).map fun t => t.2.1 * t.2.2 (y t.1)).sum := by
  congr 1
  apply List.ext_getElem
  · simp [hf, hw]
  · intro i h1 h2
    simp only [List.length_zipWith, List.length_map, hw, min_self] at h1
    simp only [List.getElem_zipWith, List.getElem_map, List.getElem_zip]
    rw [mul_comm, baseOf, hn.idxOf_getElem, List.getD_eq_getElem?_getD, List.getElem?_eq_getElem (by omega), Option.getD_some]

theorem camMean_eq (c : ℝ) {ps : List α} {fs : List (ℝ → ℝ)} {ws : List ℝ} (hn : ps.Nodup) (hf : fs.length = ps.length)
    (hw : ws.length = ps.length) (x : α → Fin N → ℝ) :
    camMean c ws (baseOf ps fs) (ps.map x) ps = additiveMean c (ps.zip (ws.zip fs)) x := by
  funext j
  unfold camMean additiveMean
  rw [← baseOf_zip ps fs ws hn hf hw fun p => x p j]
  congr 3
  rw [List.zipWith_map_right, List.zipWith_map_right]

theorem additiveMean_congr {c : ℝ} {l : List (α × ℝ × (ℝ → ℝ))} {x y : α → Fin N → ℝ} (h : ∀ t ∈ l, x t.1 = y t.1) :
    additiveMean c l x = additiveMean c l y := by
  funext j
  unfold additiveMean
  congr 2
  exact List.map_congr_left fun t ht => by rw [h t ht]

theorem additiveMean_scale (c : ℝ) (l : List (α × ℝ × (ℝ → ℝ))) (x : α → Fin N → ℝ) :
    additiveMean c l x = fun j => c * additiveMean 1 l x j := by
  funext j; unfold additiveMean; rw [one_mul]

theorem drawnTerms_fst {G : DAG α} {op : SetOrder α α} {D : AdditiveDraws α N} {v : α} {t} (h : t ∈ drawnTerms G op D v) :
    t.1 ∈ G.parents v := (op.mem_iff _ _ _).1 (List.of_mem_zip h).1

/-- The samples, zero where there are none. -/
noncomputable def AdditiveState.val (s : AdditiveState α N) (v : α) : Fin N → ℝ := (s.samples v).getD 0

/-- What is recorded for a node. -/
structure NodeOk (G : DAG α) (op : SetOrder α α) (r2 : R2Dict α) (D : AdditiveDraws α N) (x : α → Fin N → ℝ) (v : α)
    (a : AdditiveNode α) : Prop where
  weights : a.weights.length = (G.parents v).card ∧ (G.parents v ≠ ∅ → a.weights = D.weights v)
  base : a.base = baseOf (op.ord v (G.parents v)) (D.bases v)
  nonneg : 0 ≤ a.c ∧ 0 ≤ a.b
  root : G.parents v = ∅ → variance (fun j => a.b * D.noise v j) = 1
  inner : G.parents v ≠ ∅ → ∃ r, r2.get v (G.parents v).card = some r ∧
    variance (additiveMean a.c (drawnTerms G op D v) x) = r ∧ variance (fun j => a.b * D.noise v j) = 1 - r

theorem NodeOk.congr {G : DAG α} {op : SetOrder α α} {r2 : R2Dict α} {D : AdditiveDraws α N} {x y : α → Fin N → ℝ} {v : α}
    {a : AdditiveNode α} (h : NodeOk G op r2 D x v a) (hxy : ∀ u ∈ G.parents v, x u = y u) : NodeOk G op r2 D y v a := by
  refine ⟨h.weights, h.base, h.nonneg, h.root, fun hp => ?_⟩
  rw [← additiveMean_congr fun t ht => hxy _ (drawnTerms_fst ht)]
  exact h.inner hp

/-- After the nodes `done`. -/
structure LoopInv (G : DAG α) (op : SetOrder α α) (r2 : R2Dict α) (D : AdditiveDraws α N) (done : Set α) (s : AdditiveState α N) : Prop where
  closed : ∀ v ∈ done, ∀ u ∈ G.parents v, u ∈ done
  some : ∀ v ∈ done, ∃ a, s.node v = some a ∧ NodeOk G op r2 D s.val v a ∧
    s.samples v = some fun j => additiveMean a.c (drawnTerms G op D v) s.val j + a.b * D.noise v j

theorem mapM_some {s : α → Option (Fin N → ℝ)} {l : List α} (h : ∀ v ∈ l, s v ≠ none) :
    l.mapM s = some (l.map fun v => (s v).getD 0) := by
  induction l with
  | nil => rfl
  | cons v l ih =>
    rw [List.mapM_cons, ih fun w hw => h w (by simp [hw])]
    cases e : s v with
    | none => exact absurd e (h v (by simp))
    | some x => simp [e]

theorem SetOrder.length_ord {κ : Type} (o : SetOrder κ α) (k : κ) (s : Finset α) : (o.ord k s).length = s.card := by
  rw [← List.toFinset_card_of_nodup (o.nodup k s), DAG.ofOrd_toFinset]

/-- What the step computes, in terms of the specification. -/
theorem additiveStep_eq {G : DAG α} {op : SetOrder α α} {r2 : R2Dict α} {D : AdditiveDraws α N} {s : AdditiveState α N} {v : α}
    (hb : (D.bases v).length = (G.parents v).card) (hw : (D.weights v).length = (G.parents v).card)
    (hp : ∀ u ∈ G.parents v, s.samples u ≠ none) :
    additiveStep G op r2 D s v =
      let fin (a : AdditiveNode α) : AdditiveState α N :=
        ⟨Function.update s.samples v (some fun j => additiveMean a.c (drawnTerms G op D v) s.val j + a.b * D.noise v j),
          Function.update s.node v (some a)⟩
      if G.parents v = ∅ then
        if variance (D.noise v) = 0 then .ok none
        else .ok (some (fin ⟨0, Real.sqrt (1 / variance (D.noise v)), [], baseOf (op.ord v (G.parents v)) (D.bases v)⟩))
      else
        match r2.get v (G.parents v).card with
        | none => .error .key
        | some r =>
            match (additiveScale r (variance (additiveMean 1 (drawnTerms G op D v) s.val)) (variance (D.noise v)) :
              Except (Exn α) (Option (ℝ × ℝ))) with
            | .error e => .error e
            | .ok none => .ok none
            | .ok (some (c, b)) => .ok (some (fin ⟨c, b, D.weights v, baseOf (op.ord v (G.parents v)) (D.bases v)⟩)) := by
  have hl := op.length_ord v (G.parents v)
  have hm : (op.ord v (G.parents v)).mapM s.samples = some ((op.ord v (G.parents v)).map s.val) :=
    mapM_some fun u hu => hp u ((op.mem_iff _ _ _).1 hu)
  have hc : ∀ c, camMean c (D.weights v) (baseOf (op.ord v (G.parents v)) (D.bases v)) ((op.ord v (G.parents v)).map s.val)
      (op.ord v (G.parents v)) = additiveMean c (drawnTerms G op D v) s.val := fun c =>
    camMean_eq c (op.nodup _ _) (by rw [hl, hb]) (by rw [hl, hw]) s.val
  unfold additiveStep
  dsimp only
  rw [hm]
  dsimp only
  rw [hl, if_neg (not_not.2 hw)]
  simp only [hc, npVar_eq, Finset.card_eq_zero]
  by_cases h0 : G.parents v = ∅
  · rw [if_pos h0, if_pos h0]
    by_cases hV : variance (D.noise v) = 0
    · rw [if_pos hV, if_pos hV]
    · rw [if_neg hV, if_neg hV]
      have h1 : op.ord v (G.parents v) = [] := by
        rw [← List.length_eq_zero_iff, hl, h0]; rfl
      simp only [camMean, drawnTerms, h1, additiveMean, zero_mul]
      simp only [mul_comm]
  · rw [if_neg h0, if_neg h0]
    cases r2.get v (G.parents v).card with
    | none => rfl
    | some r =>
      dsimp only
      cases (additiveScale r (variance (additiveMean 1 (drawnTerms G op D v) s.val)) (variance (D.noise v)) :
              Except (Exn α) (Option (ℝ × ℝ))) with
      | error e => rfl
      | ok p =>
        cases p with
        | none => rfl
        | some cb =>
          dsimp only
          simp only [mul_comm (D.noise v _)]

theorem additiveScale_some {r V W c b : ℝ}
    (h : (additiveScale r V W : Except (Exn α) (Option (ℝ × ℝ))) = .ok (some (c, b))) :
    0 ≤ c ∧ 0 ≤ b ∧ c ^ 2 * V = r ∧ b ^ 2 * W = 1 - r := by
  unfold additiveScale at h
  split_ifs at h with h1 h2 h3 h4 <;> try cases h
  push Not at h4
  refine ⟨Real.sqrt_nonneg _, Real.sqrt_nonneg _, ?_, ?_⟩
  · rw [Real.sq_sqrt (not_lt.1 h3), div_mul_cancel₀ _ h1]
  · rw [Real.sq_sqrt h4.2, div_mul_cancel₀ _ h4.1]

theorem additiveScale_ok {r V W : ℝ} (hr : 0 < r) (hV : 0 ≤ V) {e} :
    (additiveScale r V W : Except (Exn α) (Option (ℝ × ℝ))) ≠ .error e := by
  unfold additiveScale
  have : ¬ r / V < 0 := not_lt.2 (div_nonneg hr.le hV)
  rw [if_neg (not_le.2 hr), if_neg this]
  split_ifs <;> simp

theorem additiveScale_finite {r V W : ℝ} (h0 : 0 < r) (h1 : r ≤ 1) (hV : 0 ≤ V) (hW : 0 ≤ W) (hV0 : V ≠ 0) (hW0 : W ≠ 0) :
    (additiveScale r V W : Except (Exn α) (Option (ℝ × ℝ))) = .ok (some (Real.sqrt (r / V), Real.sqrt ((1 - r) / W))) := by
  unfold additiveScale
  rw [if_neg hV0, if_neg (not_lt.2 (div_nonneg h0.le hV)), if_neg]
  push Not
  exact ⟨hW0, div_nonneg (by linarith) hW⟩

section Loop

variable {G : DAG α} {op : SetOrder α α} {r2 : R2Dict α} {D : AdditiveDraws α N}

theorem additiveStep_inv {done : Set α} {s s' : AdditiveState α N} {v : α}
    (hb : (D.bases v).length = (G.parents v).card) (hw : (D.weights v).length = (G.parents v).card)
    (hI : LoopInv G op r2 D done s) (hv : v ∉ done) (hp : ∀ u ∈ G.parents v, u ∈ done)
    (h : additiveStep G op r2 D s v = .ok (some s')) : LoopInv G op r2 D (insert v done) s' := by
  have hps : ∀ u ∈ G.parents v, s.samples u ≠ none := fun u hu => by
    obtain ⟨a, -, -, h2⟩ := hI.some u (hp u hu); simp [h2]
  have key : ∃ a : AdditiveNode α, s' = ⟨Function.update s.samples v
      (some fun j => additiveMean a.c (drawnTerms G op D v) s.val j + a.b * D.noise v j), Function.update s.node v (some a)⟩ ∧
      NodeOk G op r2 D s.val v a := by
    rw [additiveStep_eq hb hw hps] at h
    dsimp only at h
    split at h
    · rename_i h0
      split at h
      · cases h
      · rename_i h1
        cases h
        refine ⟨⟨0, Real.sqrt (1 / variance (D.noise v)), [], baseOf (op.ord v (G.parents v)) (D.bases v)⟩, rfl, ⟨by simp [h0], fun hc => absurd h0 hc⟩, rfl, ⟨le_rfl, Real.sqrt_nonneg _⟩, fun _ => ?_, fun hc => absurd h0 hc⟩
        rw [variance_smul, Real.sq_sqrt (by have := variance_nonneg (D.noise v); positivity), one_div_mul_cancel h1]
    · rename_i h0
      split at h
      · cases h
      · rename_i r hr
        split at h
        · cases h
        · cases h
        · rename_i c b hcb
          cases h
          obtain ⟨c1, c2, c3, c4⟩ := additiveScale_some hcb
          refine ⟨⟨c, b, D.weights v, baseOf (op.ord v (G.parents v)) (D.bases v)⟩, rfl, ⟨hw, fun _ => rfl⟩, rfl, ⟨c1, c2⟩, fun hc => absurd hc h0, fun _ => ⟨r, hr, ?_, ?_⟩⟩
          · rw [additiveMean_scale, variance_smul, c3]
          · rw [variance_smul, c4]
  obtain ⟨a, hs, ha⟩ := key
  have hs1 : s'.samples = Function.update s.samples v
      (some fun j => additiveMean a.c (drawnTerms G op D v) s.val j + a.b * D.noise v j) := by rw [hs]
  have hs2 : s'.node = Function.update s.node v (some a) := by rw [hs]
  have hval : ∀ u ≠ v, s'.val u = s.val u := fun u hu => by simp [AdditiveState.val, hs1, Function.update_of_ne hu]
  have hpar : ∀ w, (w = v ∨ w ∈ done) → ∀ u ∈ G.parents w, u ≠ v := by
    rintro w hw u hu rfl
    rcases hw with rfl | hw
    · exact hv (hp _ hu)
    · exact hv (hI.closed _ hw _ hu)
  refine ⟨?_, ?_⟩
  · rintro w (rfl | hw) u hu
    · exact Or.inr (hp u hu)
    · exact Or.inr (hI.closed w hw u hu)
  · intro w hw
    have hw' : w = v ∨ w ∈ done := hw
    have hx := fun u hu => (hval u (hpar w hw' u hu)).symm
    by_cases e : w = v
    · subst e
      refine ⟨a, by simp [hs2], ha.congr hx, ?_⟩
      rw [hs1, Function.update_self, additiveMean_congr fun t ht => hx _ (drawnTerms_fst ht)]
    · obtain ⟨a', h1, h2, h3⟩ := hI.some w (hw'.resolve_left e)
      refine ⟨a', by simp [hs2, Function.update_of_ne e, h1], h2.congr hx, ?_⟩
      rw [hs1, Function.update_of_ne e, h3, additiveMean_congr fun t ht => hx _ (drawnTerms_fst ht)]

theorem additiveLoop_inv (hfit : DrawsFit G D) {t : List α} {done : Set α} {s s' : AdditiveState α N} (ht : ∀ v ∈ t, v ∈ G.nodes)
    (hI : LoopInv G op r2 D done s) (hn : t.Nodup) (hd : ∀ v ∈ t, v ∉ done)
    (hp : ∀ p v q, t = p ++ v :: q → ∀ u ∈ G.parents v, u ∈ done ∨ u ∈ p)
    (h : additiveLoop G op r2 D t s = .ok (some s')) : LoopInv G op r2 D (done ∪ {v | v ∈ t}) s' := by
  induction t generalizing done s with
  | nil =>
    rw [additiveLoop] at h
    cases h
    simpa using hI
  | cons v t ih =>
    rw [additiveLoop] at h
    split at h
    · cases h
    · cases h
    · rename_i s1 h1
      rw [List.nodup_cons] at hn
      have := ih (fun w hw => ht w (by simp [hw]))
        (additiveStep_inv (hfit.bases v (ht v (by simp))) (hfit.weights v (ht v (by simp))) hI (hd v (by simp))
          (fun u hu => (hp [] v t rfl u hu).resolve_right (by simp)) h1) hn.2
        (fun w hw hc => hc.elim (fun e => hn.1 (e ▸ hw)) (hd w (by simp [hw])))
        (fun p w q e u hu => by
          rcases hp (v :: p) w q (by rw [e]; rfl) u hu with h | h
          · exact Or.inl (Or.inr h)
          · rcases List.mem_cons.1 h with rfl | h
            · exact Or.inl (Or.inl rfl)
            · exact Or.inr h) h
      have e : done ∪ {w | w ∈ v :: t} = insert v done ∪ {w | w ∈ t} := by
        ext w; simp only [Set.mem_union, Set.mem_ofPred_eq, List.mem_cons, Set.mem_insert_iff]; tauto
      rw [e]
      exact this

end Loop

/-- In a topological order the parents come first. -/
theorem parents_before {G : DAG α} (hG : G.Sortable) {l : List α} (hl : LinearExtension (G.nodes : Set α) G.E l) :
    ∀ p v q, l = p ++ v :: q → ∀ u ∈ G.parents v, u ∈ p := by
  intro p v q e u hu
  have hE : G.E u v := (hG.parents_iff _ _).1 hu
  have h1 : u ∈ l := (hl.mem_iff u).2 (hG.fst_mem _ _ hE)
  have h2 := linearExtension_order hl e hE
  rw [e, List.mem_append] at h1
  exact h1.resolve_right h2

section Result

variable {G : DAG α} {op : SetOrder α α} {r2 : R2Dict α} {D : AdditiveDraws α N}

theorem parents_eq_empty (hG : G.Sortable) {v : α} : G.parents v = ∅ ↔ ∀ u, (u, v) ∉ G.arcs := by
  rw [Finset.eq_empty_iff_forall_notMem]
  exact forall_congr' fun u => by rw [hG.parents_iff]

theorem LoopInv.calibrated (hG : G.Sortable) {P : Set α} {s : AdditiveState α N} (h : LoopInv G op r2 D P s) :
    CalibratedOn P G op r2 D (fun v => (s.node v).elim 0 AdditiveNode.c) (fun v => (s.node v).elim 0 AdditiveNode.b) s.val := by
  refine ⟨fun v hv j => ?_, fun v hv => ?_, fun v hv hr => ?_, fun v hv u hu => ?_⟩ <;> obtain ⟨a, h1, h2, h3⟩ := h.some v hv <;>
    simp only [h1, Option.elim_some]
  · conv_lhs => rw [AdditiveState.val, h3]
    rfl
  · exact h2.nonneg
  · exact h2.root ((parents_eq_empty hG).2 hr)
  · exact h2.inner fun hc => (parents_eq_empty hG).1 hc u hu

theorem LoopInv.nil : LoopInv G op r2 D ∅ ⟨fun _ => none, fun _ => none⟩ := ⟨by simp, by simp⟩

/-- The loop has no other outcome than the steps. -/
theorem additiveLoop_cases (hfit : DrawsFit G D) {t : List α} {done : Set α} {s : AdditiveState α N} (ht : ∀ v ∈ t, v ∈ G.nodes)
    (hI : LoopInv G op r2 D done s) (hn : t.Nodup) (hd : ∀ v ∈ t, v ∉ done)
    (hp : ∀ p v q, t = p ++ v :: q → ∀ u ∈ G.parents v, u ∈ done ∨ u ∈ p) (Q : Except (Exn α) (Option (AdditiveState α N)) → Prop)
    (h0 : ∀ s, Q (.ok (some s))) (h1 : ∀ P s v, LoopInv G op r2 D P s → v ∈ G.nodes → (∀ u ∈ G.parents v, u ∈ P) →
      Q (additiveStep G op r2 D s v)) : Q (additiveLoop G op r2 D t s) := by
  induction t generalizing done s with
  | nil => exact h0 s
  | cons v t ih =>
    have hv := h1 done s v hI (ht v (by simp)) fun u hu => (hp [] v t rfl u hu).resolve_right (by simp)
    rw [additiveLoop]
    split
    · rename_i e he; rw [he] at hv; exact hv
    · rename_i he; rw [he] at hv; exact hv
    · rename_i s1 he
      rw [List.nodup_cons] at hn
      exact ih (fun w hw => ht w (by simp [hw]))
        (additiveStep_inv (hfit.bases v (ht v (by simp))) (hfit.weights v (ht v (by simp))) hI (hd v (by simp))
          (fun u hu => (hp [] v t rfl u hu).resolve_right (by simp)) he) hn.2
        (fun w hw hc => hc.elim (fun e => hn.1 (e ▸ hw)) (hd w (by simp [hw])))
        (fun p w q e u hu => by
          rcases hp (v :: p) w q (by rw [e]; rfl) u hu with h | h
          · exact Or.inl (Or.inr h)
          · rcases List.mem_cons.1 h with rfl | h
            · exact Or.inl (Or.inl rfl)
            · exact Or.inr h)

theorem LoopInv.parents_some {P : Set α} {s : AdditiveState α N} (h : LoopInv G op r2 D P s) {v : α} (hp : ∀ u ∈ G.parents v, u ∈ P) :
    ∀ u ∈ G.parents v, s.samples u ≠ none := fun u hu => by
  obtain ⟨a, -, -, h2⟩ := h.some u (hp u hu); simp [h2]

theorem randAdditive_spec (hG : G.Valid) (hfit : DrawsFit G D) (o : SetOrder (Option α) α) (oa : SetOrder Bool (α × α))
    (on : SetOrder Unit α) :
    ∃ C t, C.Valid ∧ C.nodes = G.nodes ∧ C.arcs = G.arcs ∧ LinearExtension (G.nodes : Set α) G.E t ∧
      randAdditive G o oa on op r2 D =
        match additiveLoop G op r2 D t ⟨fun _ => none, fun _ => none⟩ with
        | .error e => some (.error e)
        | .ok none => some (.ok none)
        | .ok (some s) => some (.ok (some (C, on.ord () G.nodes, s))) := by
  obtain ⟨C, c1, c2, c3, c4⟩ := DAG.new_ok o oa G.nodes G.arcs hG.acyclic
  obtain ⟨t, t1, t2⟩ := hG.sortable.sort o
  refine ⟨C, t, c2, ?_, c3, t2, ?_⟩
  · rw [c4]
    ext v
    simp only [Finset.mem_union, Finset.mem_image, Prod.exists, exists_and_right, exists_eq_right]
    constructor
    · rintro ((h | ⟨x, h⟩) | ⟨x, h⟩)
      · exact h
      · exact hG.fst_mem _ _ h
      · exact hG.snd_mem _ _ h
    · exact fun h => Or.inl (Or.inl h)
  · unfold randAdditive
    rw [c1]
    dsimp only
    rw [t1]
    rfl

theorem randAdditive_some (hG : G.Valid) (hfit : DrawsFit G D) {o : SetOrder (Option α) α} {oa : SetOrder Bool (α × α)}
    {on : SetOrder Unit α} {C : DAG α} {names : List α} {s : AdditiveState α N}
    (h : randAdditive G o oa on op r2 D = some (.ok (some (C, names, s)))) :
    C.Valid ∧ C.nodes = G.nodes ∧ C.arcs = G.arcs ∧ names = on.ord () G.nodes ∧ LoopInv G op r2 D (G.nodes : Set α) s := by
  obtain ⟨C', t, c1, c2, c3, t2, e⟩ := randAdditive_spec (op := op) (r2 := r2) hG hfit o oa on
  rw [e] at h
  split at h
  · cases h
  · cases h
  · rename_i s1 h1
    cases h
    have := additiveLoop_inv hfit (fun v hv => (t2.mem_iff v).1 hv) LoopInv.nil t2.nodup (by simp)
      (fun p v q e u hu => Or.inr (parents_before hG.sortable t2 p v q e u hu)) h1
    rw [Set.empty_union] at this
    have e : {v | v ∈ t} = (G.nodes : Set α) := by ext v; exact t2.mem_iff v
    exact ⟨c1, c2, c3, rfl, e ▸ this⟩

theorem randAdditive_cases (hG : G.Valid) (hfit : DrawsFit G D) (o : SetOrder (Option α) α) (oa : SetOrder Bool (α × α))
    (on : SetOrder Unit α) (Q : Except (Exn α) (Option (AdditiveState α N)) → Prop) (h0 : ∀ s, Q (.ok (some s)))
    (h1 : ∀ P s v, LoopInv G op r2 D P s → v ∈ G.nodes → (∀ u ∈ G.parents v, u ∈ P) → Q (additiveStep G op r2 D s v)) :
    (∃ e, Q (.error e) ∧ randAdditive G o oa on op r2 D = some (.error e)) ∨
      (Q (.ok none) ∧ randAdditive G o oa on op r2 D = some (.ok none)) ∨
      ∃ C names s, randAdditive G o oa on op r2 D = some (.ok (some (C, names, s))) := by
  obtain ⟨C', t, c1, c2, c3, t2, e⟩ := randAdditive_spec (op := op) (r2 := r2) hG hfit o oa on
  have := additiveLoop_cases hfit (fun v hv => (t2.mem_iff v).1 hv) LoopInv.nil t2.nodup (by simp)
      (fun p v q e u hu => Or.inr (parents_before hG.sortable t2 p v q e u hu)) Q h0 h1
  rw [e]
  split
  · rename_i e he; rw [he] at this; exact Or.inl ⟨e, this, rfl⟩
  · rename_i he; rw [he] at this; exact Or.inr (Or.inl ⟨this, rfl⟩)
  · exact Or.inr (Or.inr ⟨_, _, _, rfl⟩)

end Result

end Model
