import Verif.Proof.DiscreteMarginalDag

/-! # The loop of `get_marginal_dag` -/

set_option linter.unusedSectionVars false

namespace Model.DiscreteDAG

open Spec
open scoped NNReal

variable {α : Type} [DecidableEq α] {D : DiscreteDAG α} {m : α}

/-- What one round of the loop does. -/
structure Step (D : DiscreteDAG α) (m : α) (D' : DiscreteDAG α) (f : α → α) : Prop where
  proper : D'.Proper
  inj : Set.InjOn f (D.dag.nodes.erase m)
  nodes : D'.dag.nodes = (D.dag.nodes.erase m).image f
  arcs : D'.dag.arcs = (D.mArcs m).image fun a => (f a.1, f a.2)
  alph : ∀ v ∈ D.dag.nodes.erase m, D'.alph (f v) = D.alph v
  pr : (D.dag.children m).card ≤ 1 → ∀ M : List α, (∀ v ∈ M, v ∈ D.dag.nodes.erase m) → ∀ x, D'.pr (M.map f) x = D.pr M (x ∘ f)

theorem marginalNode_step (hD : D.Proper) (o : SetOrder (Option α) α) (oa : SetOrder Bool (α × α)) (hm : m ∈ D.dag.nodes) :
    ∃ D', D.marginalNode o oa m = some (.ok D') ∧ Step D m D' fun v => v := by
  have hS := hD.toShaped
  obtain ⟨G, h1, h2, h3, h4⟩ := new_ok o oa (mArcs_acyclic hS) (fun a ha => mArcs_nodes hS ha) (cond := D.mCond m) (pars := D.mPars m)
    (alph := D.alph) fun v hv => mShape hS (Finset.mem_of_mem_erase hv)
  refine ⟨_, (if_pos (mOk hS m)).trans h1, mProper hD h2 h3 h4, fun _ _ _ _ h => h, by simpa using h3, by simpa using h4, fun _ _ => rfl,
    fun hc M hM x => ?_⟩
  rw [List.map_id']
  exact mPr hD hm hc h3 (fun h => (Finset.mem_erase.1 (hM m h)).1 rfl) x

theorem shiftUp_shiftDown {m v : ℕ} (h : v ≠ m) : shiftUp m (shiftDown m v) = v := by
  unfold shiftUp shiftDown
  split_ifs <;> omega

theorem marginalNodeRelabel_step {D : DiscreteDAG ℕ} (hD : D.Proper) (o : SetOrder (Option ℕ) ℕ) (oa : SetOrder Bool (ℕ × ℕ)) {m : ℕ}
    (hm : m ∈ D.dag.nodes) : ∃ D', D.marginalNodeRelabel o oa m = some (.ok D') ∧ Step D m D' (shiftDown m) := by
  have hS := hD.toShaped
  obtain ⟨D1, -, hst⟩ := marginalNode_step hD o oa hm
  obtain ⟨G1, -, h2, h3, h4⟩ := new_ok o oa (mArcs_acyclic hS) (fun a ha => mArcs_nodes hS ha) (cond := D.mCond m) (pars := D.mPars m)
    (alph := D.alph) fun v hv => mShape hS (Finset.mem_of_mem_erase hv)
  have hP := mProper hD h2 h3 h4
  have hinj : Set.InjOn (shiftDown m) (D.dag.nodes.erase m) := fun a ha b hb e => by
    rw [← shiftUp_shiftDown (Finset.ne_of_mem_erase ha), e, shiftUp_shiftDown (Finset.ne_of_mem_erase hb)]
  have hpn : ∀ v ∈ D.dag.nodes.erase m, ∀ u ∈ D.mPars m v, u ∈ D.dag.nodes.erase m := fun v hv u hu =>
    h3 ▸ h2.fst_mem _ _ ((hP.pars_iff v (h3 ▸ hv) u).1 hu)
  have hac : Acyclic fun a b => (a, b) ∈ (D.mArcs m).image fun a => (shiftDown m a.1, shiftDown m a.2) := by
    intro v hv
    have : ∀ a b, Relation.TransGen (fun a b => (a, b) ∈ (D.mArcs m).image fun a => (shiftDown m a.1, shiftDown m a.2)) a b →
        Relation.TransGen (fun a b => (a, b) ∈ D.mArcs m) (shiftUp m a) (shiftUp m b) := fun a b h => by
      have step : ∀ a b, (a, b) ∈ (D.mArcs m).image (fun a => (shiftDown m a.1, shiftDown m a.2)) →
          (shiftUp m a, shiftUp m b) ∈ D.mArcs m := fun a b h => by
        obtain ⟨e, he, h⟩ := Finset.mem_image.1 h
        rw [Prod.mk.injEq] at h
        have hn := mArcs_nodes hS he
        rw [← h.1, ← h.2, shiftUp_shiftDown (Finset.ne_of_mem_erase hn.1), shiftUp_shiftDown (Finset.ne_of_mem_erase hn.2)]
        exact he
      induction h with
      | single e => exact .single (step _ _ e)
      | tail _ e ih => exact .tail ih (step _ _ e)
    exact mArcs_acyclic hS _ (this v v hv)
  obtain ⟨G, g1, g2, g3, g4⟩ := new_ok o oa (nodes := (D.dag.nodes.erase m).image (shiftDown m)) hac (fun a ha => by
      obtain ⟨e, he, rfl⟩ := Finset.mem_image.1 ha
      exact ⟨Finset.mem_image_of_mem _ (mArcs_nodes hS he).1, Finset.mem_image_of_mem _ (mArcs_nodes hS he).2⟩)
    (cond := fun v => D.mCond m (shiftUp m v)) (pars := fun v => (D.mPars m (shiftUp m v)).map (shiftDown m))
    (alph := fun v => D.alph (shiftUp m v)) fun w hw => by
      obtain ⟨v, hv, rfl⟩ := Finset.mem_image.1 hw
      rw [shiftUp_shiftDown (Finset.ne_of_mem_erase hv), mShape hS (Finset.mem_of_mem_erase hv)]
      simp only [List.map_append, List.map_map, List.map_singleton, shiftUp_shiftDown (Finset.ne_of_mem_erase hv)]
      congr 1
      refine List.map_congr_left fun u hu => ?_
      rw [Function.comp_apply, shiftUp_shiftDown (Finset.ne_of_mem_erase (hpn v hv u hu)), dims]
  have hrel : Relabels (⟨G1, D.mCond m, D.mPars m, D.alph⟩ : DiscreteDAG ℕ) ⟨G, fun v => D.mCond m (shiftUp m v),
      fun v => (D.mPars m (shiftUp m v)).map (shiftDown m), fun v => D.alph (shiftUp m v)⟩ (shiftDown m) := by
    refine ⟨h3 ▸ hinj, h3 ▸ g3, h4 ▸ g4, ?_, ?_, ?_⟩ <;>
    · intro v hv
      dsimp only at hv ⊢
      rw [h3] at hv
      rw [shiftUp_shiftDown (Finset.ne_of_mem_erase hv)]
  refine ⟨_, (if_pos (mOk hS m)).trans g1, hrel.proper hP g2, hinj, g3, g4, fun v hv => ?_, fun hc M hM x => ?_⟩
  · dsimp only
    rw [shiftUp_shiftDown (Finset.ne_of_mem_erase hv)]
  · rw [hrel.pr_eq hP (fun v hv => by dsimp only; rw [h3]; exact hM v hv)]
    exact mPr hD hm hc h3 (fun h => (Finset.mem_erase.1 (hM m h)).1 rfl) _

/-- The new names of the nodes after the loop. -/
def labels (lab : α → α → α) : List α → (α → α) → α → α
  | [], f => f
  | v :: l, f => labels lab l fun u => lab (f v) (f u)

/-- At most one child. -/
def Single (D : DiscreteDAG α) (m : α) : Prop := ∀ a b, (m, a) ∈ D.dag.arcs → (m, b) ∈ D.dag.arcs → a = b

theorem Single.card (h : D.Single m) (hD : D.dag.Valid) : (D.dag.children m).card ≤ 1 :=
  Finset.card_le_one.2 fun a ha b hb => h a b ((hD.children_iff m a).1 ha) ((hD.children_iff m b).1 hb)

theorem Step.single {D' : DiscreteDAG α} {f : α → α} (hD : D.Proper) (h : Step D m D' f) (hm : D.Single m) {v : α}
    (hv : v ∈ D.dag.nodes.erase m) (hs : D.Single v) : D'.Single (f v) := by
  have hS := hD.toShaped
  have key : ∀ a', (f v, a') ∈ D'.dag.arcs → ∃ a, a' = f a ∧ (v, a) ∈ D.mArcs m := fun a' ha' => by
    rw [h.arcs, Finset.mem_image] at ha'
    obtain ⟨⟨u, a⟩, he, e⟩ := ha'
    rw [Prod.mk.injEq] at e
    have := h.inj (mArcs_nodes hS he).1 hv e.1
    dsimp only at this
    exact ⟨a, e.2.symm, this ▸ he⟩
  intro a' b' ha' hb'
  obtain ⟨a, rfl, ha⟩ := key a' ha'
  obtain ⟨b, rfl, hb⟩ := key b' hb'
  congr 1
  rcases (mem_mArcs hS _ _).1 ha with h1 | h1 <;> rcases (mem_mArcs hS _ _).1 hb with h2 | h2
  · exact hs a b h1.1 h2.1
  · exact (h1.2.2 (hs a m h1.1 h2.1)).elim
  · exact (h2.2.2 (hs b m h2.1 h1.1)).elim
  · exact hm a b h1.2 h2.2

theorem marginalLoop_spec {step : DiscreteDAG α → α → Option (Except (Exn α) (DiscreteDAG α))} {lab : α → α → α}
    (hstep : ∀ D : DiscreteDAG α, D.Proper → ∀ m ∈ D.dag.nodes, ∃ D', step D m = some (.ok D') ∧ Step D m D' (lab m)) (l : List α)
    (hl : l.Nodup) (R : Finset α) (hR : ∀ v ∈ l, v ∈ R) (D : DiscreteDAG α) (hD : D.Proper) (f : α → α) (hf : Set.InjOn f R)
    (hn : D.dag.nodes = R.image f) :
    ∃ D', marginalLoop step lab l D (fun v => if v ∈ R then some (f v) else none) =
        some (.ok (D', fun v => if v ∈ R \ l.toFinset then some (labels lab l f v) else none)) ∧
      D'.Proper ∧ Set.InjOn (labels lab l f) (R \ l.toFinset : Finset α) ∧ D'.dag.nodes = (R \ l.toFinset).image (labels lab l f) ∧
      (∀ v ∈ R \ l.toFinset, D'.alph (labels lab l f v) = D.alph (f v)) ∧
      ((∀ v ∈ l, D.Single (f v)) → ∀ M : List α, (∀ v ∈ M, v ∈ R \ l.toFinset) → ∀ x y : α → ℕ,
        (∀ v ∈ M, x (labels lab l f v) = y (f v)) → D'.pr (M.map (labels lab l f)) x = D.pr (M.map f) y) := by
  have pr_congr : ∀ (D : DiscreteDAG α) (M : List α) (x y : α → ℕ), (∀ v ∈ M, x v = y v) → D.pr M x = D.pr M y := fun D M x y h => by
    rw [pr, pr]
    congr 1
    funext z
    exact propext (forall₂_congr fun v hv => by rw [h v hv])
  induction l generalizing R D f with
  | nil =>
      refine ⟨D, ?_, hD, by simpa [labels] using hf, by simpa [labels] using hn, fun _ _ => rfl, fun _ M hM x y h => ?_⟩
      · simp [marginalLoop, labels]
      · simp only [labels]
        refine pr_congr _ _ _ _ fun w hw => ?_
        obtain ⟨v, hv, rfl⟩ := List.mem_map.1 hw
        exact h v hv
  | cons v l ih =>
      have hvR := hR v (by simp)
      have hfv : f v ∈ D.dag.nodes := hn ▸ Finset.mem_image_of_mem f hvR
      obtain ⟨D1, h1, hst⟩ := hstep D hD (f v) hfv
      have hl' := List.nodup_cons.1 hl
      have hmem : ∀ u ∈ R.erase v, f u ∈ D.dag.nodes.erase (f v) := fun u hu => by
        rw [Finset.mem_erase] at hu
        exact Finset.mem_erase.2 ⟨fun e => hu.1 (hf hu.2 hvR e), hn ▸ Finset.mem_image_of_mem f hu.2⟩
      have hf' : Set.InjOn (fun u => lab (f v) (f u)) (R.erase v) := fun a ha b hb e =>
        hf (Finset.mem_of_mem_erase ha) (Finset.mem_of_mem_erase hb) (hst.inj (hmem a ha) (hmem b hb) e)
      have hn' : D1.dag.nodes = (R.erase v).image fun u => lab (f v) (f u) := by
        rw [hst.nodes, hn]
        ext w
        simp only [Finset.mem_image, Finset.mem_erase]
        constructor
        · rintro ⟨_, ⟨h1, u, hu, rfl⟩, rfl⟩
          exact ⟨u, ⟨fun e => h1 (e ▸ rfl), hu⟩, rfl⟩
        · rintro ⟨u, ⟨h1, hu⟩, rfl⟩
          exact ⟨f u, ⟨fun e => h1 (hf hu hvR e), u, hu, rfl⟩, rfl⟩
      have hset : R.erase v \ l.toFinset = R \ (v :: l).toFinset := by
        ext u
        simp only [Finset.mem_sdiff, Finset.mem_erase, List.mem_toFinset, List.mem_cons]
        tauto
      obtain ⟨D', g1, g2, g3, g4, g5, g6⟩ := ih hl'.2 (R.erase v)
        (fun u hu => Finset.mem_erase.2 ⟨fun e => hl'.1 (e ▸ hu), hR u (by simp [hu])⟩) D1 hst.proper _ hf' hn'
      rw [hset] at g1 g3 g4 g5 g6
      have hsub : ∀ u ∈ R \ (v :: l).toFinset, u ∈ R.erase v := fun u hu => by
        rw [← hset] at hu
        exact (Finset.mem_sdiff.1 hu).1
      refine ⟨D', ?_, g2, g3, g4, fun u hu => ?_, fun hs M hM x y hxy => ?_⟩
      · rw [marginalLoop]
        simp only [if_pos hvR, h1]
        refine Eq.trans ?_ g1
        congr 1
        funext u
        by_cases hu : u ∈ R
        · rw [if_pos hu, Option.bind_some]
          refine if_congr ?_ rfl rfl
          rw [Finset.mem_erase, Finset.mem_erase]
          constructor
          · rintro ⟨h, -⟩
            exact ⟨fun e => h (e ▸ rfl), hu⟩
          · rintro ⟨h, -⟩
            exact ⟨fun e => h (hf hu hvR e), hn ▸ Finset.mem_image_of_mem f hu⟩
        · rw [if_neg hu, if_neg fun h => hu (Finset.mem_of_mem_erase h)]
          rfl
      · exact (g5 u hu).trans (hst.alph _ (hmem u (hsub u hu)))
      · have hs1 : ∀ u ∈ l, D1.Single (lab (f v) (f u)) := fun u hu =>
          hst.single hD (hs v (by simp)) (hmem u (Finset.mem_erase.2 ⟨fun e => hl'.1 (e ▸ hu), hR u (by simp [hu])⟩))
            (hs u (by simp [hu]))
        obtain ⟨z, hz⟩ : ∃ z : α → ℕ, ∀ u ∈ M, z (lab (f v) (f u)) = y (f u) := by
          classical
          refine ⟨fun w => if hw : ∃ u ∈ M, lab (f v) (f u) = w then y (f hw.choose) else 0, fun u hu => ?_⟩
          have hw : ∃ u' ∈ M, lab (f v) (f u') = lab (f v) (f u) := ⟨u, hu, rfl⟩
          dsimp only
          rw [dif_pos hw, hf' (hsub _ (hM _ hw.choose_spec.1)) (hsub u (hM u hu)) hw.choose_spec.2]
        rw [labels, g6 hs1 M hM x z fun u hu => (hxy u hu).trans (hz u hu).symm]
        have := hst.pr ((hs v (by simp)).card hD.valid) (M.map f) (fun w hw => by
          obtain ⟨u, hu, rfl⟩ := List.mem_map.1 hw
          exact hmem u (hsub u (hM u hu))) z
        rw [List.map_map] at this
        refine Eq.trans this (pr_congr _ _ _ _ fun w hw => ?_)
        obtain ⟨u, hu, rfl⟩ := List.mem_map.1 hw
        exact hz u hu

theorem labels_id (l : List α) (f : α → α) : labels (fun _ v => v) l f = f := by
  induction l generalizing f with
  | nil => rfl
  | cons v l ih => exact ih f

theorem labels_shift (l : List ℕ) (hl : l.Nodup) (R : Finset ℕ) (hR : ∀ v ∈ l, v ∈ R) (f : ℕ → ℕ) (hf : StrictMonoOn f R) {u : ℕ}
    (hu : u ∈ R) (hul : u ∉ l) : labels shiftDown l f u = f u - l.countP (· < u) := by
  induction l generalizing f R with
  | nil => rfl
  | cons v l ih =>
      have hl' := List.nodup_cons.1 hl
      have hvR := hR v (by simp)
      have huv : u ≠ v := fun e => hul (by simp [e])
      rw [labels, ih hl'.2 (R.erase v) (fun w hw => Finset.mem_erase.2 ⟨fun e => hl'.1 (e ▸ hw), hR w (by simp [hw])⟩) _ ?_
        (Finset.mem_erase.2 ⟨huv, hu⟩) (fun h => hul (by simp [h])), List.countP_cons]
      · have h2 : f u < f v ↔ u < v := hf.lt_iff_lt hu hvR
        by_cases h : u < v
        · rw [shiftDown, if_pos (h2.2 h), if_neg (by simpa using h.le)]; rfl
        · rw [shiftDown, if_neg (fun e => h (h2.1 e)), if_pos (by simpa using lt_of_le_of_ne (not_lt.1 h) huv.symm)]
          omega
      · intro a ha b hb hab
        have ha' := Finset.mem_erase.1 ha
        have hb' := Finset.mem_erase.1 hb
        have h1 := hf ha'.2 hb'.2 hab
        have h2 : f a ≠ f v := fun e => ha'.1 (hf.injOn ha'.2 hvR e)
        have h3 : f b ≠ f v := fun e => hb'.1 (hf.injOn hb'.2 hvR e)
        simp only [shiftDown]
        split_ifs <;> omega

end Model.DiscreteDAG
