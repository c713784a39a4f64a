import Verif.Model.CamMean
import Verif.Proof.Sampling
import Mathlib.Probability.ConditionalExpectation

/-! # Conditional means of additive models -/

namespace Model.CamDAG

set_option linter.unusedSectionVars false
open Spec MeasureTheory ProbabilityTheory

variable {α S : Type} [DecidableEq α] {n : ℕ}

section Loop

variable [AddMonoid S]

/-- The equation of a node. -/
def meanEqn (G : DAG α) (op : SetOrder α α) (A : List α) (val : α → S) (f : α → List S → List α → S) (v : α) (y : α → S) : S :=
  if v ∈ A then val v else f v ((op.ord v (G.parents v)).map y) (op.ord v (G.parents v))

theorem meanLoop_eq {D : CamDAG n α S} (h : Listed D.dag D.names) {f : α → List S → List α → S} {A : List α} {val : α → S}
    {op : SetOrder α α} (hf : ∀ a, D.names a ∉ A → D.meanFunctions (D.names a) = some (f (D.names a))) (t : List α)
    (ht : ∀ v ∈ t, ∃ a, D.names a = v) (y : α → S) (hy : ∀ v ∈ A, y v = val v) :
    D.meanLoop op (t.filter (· ∉ A)) (y ∘ D.names) = .ok (steps id (meanEqn D.dag op A val f) t y ∘ D.names) := by
  induction t generalizing y with
  | nil => rfl
  | cons v t ih =>
    obtain ⟨a, rfl⟩ := ht v (by simp)
    have ht' : ∀ v ∈ t, ∃ a, D.names a = v := fun v hv => ht v (by simp [hv])
    rw [steps]
    by_cases hA : D.names a ∈ A
    · rw [List.filter_cons_of_neg (by simpa using hA)]
      have : Function.update y (id (D.names a)) (meanEqn D.dag op A val f (D.names a) y) = y := by
        rw [meanEqn, if_pos hA, id, ← hy _ hA, Function.update_eq_self]
      rw [this]
      exact ih ht' y hy
    · rw [List.filter_cons_of_pos (by simpa using hA), meanLoop]
      obtain ⟨ps, h1, h2⟩ := h.parents_mapM op (D.names a)
      have hps : ps.map (y ∘ D.names) = (op.ord (D.names a) (D.dag.parents (D.names a))).map y := by
        rw [← h2, List.map_map]
      simp only [h1, hf a hA, lastIx_names h.inj]
      rw [update_names h.inj, hps]
      have : meanEqn D.dag op A val f (D.names a) y = f (D.names a) ((op.ord (D.names a) (D.dag.parents (D.names a))).map y)
          (op.ord (D.names a) (D.dag.parents (D.names a))) := by rw [meanEqn, if_neg hA]
      rw [this]
      refine ih ht' _ fun v hv => ?_
      rw [Function.update_of_ne (fun e : v = D.names a => hA (e ▸ hv)), hy v hv]

theorem local_meanEqn {G : DAG α} (hG : G.Sortable) (op : SetOrder α α) (A : List α) (val : α → S) (f : α → List S → List α → S)
    (v : α) (x y : α → S) (h : ∀ u, G.E u v → x u = y u) : meanEqn G op A val f v x = meanEqn G op A val f v y := by
  unfold meanEqn
  split
  · rfl
  · congr 1
    exact List.map_congr_left fun u hu => h u ((hG.parents_iff _ _).1 ((op.mem_iff _ _ _).1 hu))

theorem foldl_update {names : Fin n → α} (hn : Function.Injective names) (val : α → S) (l : List (Fin n)) (y : α → S) :
    (l.zip ((l.map names).map val)).foldl (fun x p => Function.update x p.1 p.2) (y ∘ names) =
      (fun v => if v ∈ l.map names then val v else y v) ∘ names := by
  induction l generalizing y with
  | nil => simp
  | cons a l ih =>
    simp only [List.map_cons, List.zip_cons_cons, List.foldl_cons]
    rw [update_names hn, ih]
    funext b
    simp only [Function.comp_apply, List.mem_cons]
    by_cases hb : names b ∈ List.map names l
    · simp [hb]
    · by_cases hab : names b = names a
      · rw [if_neg hb, if_pos (.inl hab), hab, Function.update_self]
      · rw [if_neg hb, if_neg (by tauto), Function.update_of_ne hab]

theorem conditionalMean_spec {D : CamDAG n α S} (h : Listed D.dag D.names) {f : α → List S → List α → S} {A : List α}
    {op : SetOrder α α} {o : SetOrder (Option α) α} {b : Bool} (hA : ∀ v ∈ A, v ∈ D.dag.nodes)
    (hb : b = true → A ≠ [] ∧ ∀ v ∈ A, D.dag.parents v ⊆ A.toFinset)
    (hf : ∀ a, D.names a ∉ A → D.meanFunctions (D.names a) = some (f (D.names a))) (val : α → S) :
    ∃ y : α → S, D.conditionalMean o op (A.map val) A b = some (.ok (y ∘ D.names)) ∧
      ∀ v ∈ D.dag.nodes, y v = meanEqn D.dag op A val f v y := by
  obtain ⟨ixs, h4, h5⟩ := mapM_names h.inj fun v hv => (h.range v).1 (hA v hv)
  obtain ⟨t, h1, h2, h3⟩ := h.solve (o := o) (S := S) (F := meanEqn D.dag op A val f) (local_meanEqn h.valid op _ _ _)
    (fun v => if v ∈ A then val v else 0)
  refine ⟨_, ?_, h3⟩
  unfold conditionalMean
  rw [if_neg (by simp), if_neg (fun hc => (hb hc.1).1 hc.2), if_neg (fun hc => hc.2 (hb hc.1).2), h1, h4]
  dsimp only
  have := foldl_update h.inj val ixs (fun _ => (0 : S))
  rw [h5] at this
  have h0 : (0 : Fin n → S) = (fun _ => (0 : S)) ∘ D.names := rfl
  rw [h0, this, meanLoop_eq h hf t h2]
  intro v hv
  simp [hv]

end Loop

/-! ## The conditional expectation -/

section Cond

variable {Ω : Type} {mΩ : MeasurableSpace Ω} {μ : Measure Ω} [IsProbabilityMeasure μ]

theorem measurable_row {m' : MeasurableSpace Ω} {ps : List α} {x : α → Ω → ℝ} (hx : ∀ p ∈ ps, Measurable[m'] (x p))
    {g : List ℝ → ℝ} (hg : Measurable fun z : Fin ps.length → ℝ => g (List.ofFn z)) :
    Measurable[m'] fun ω => g (ps.map fun p => x p ω) := by
  have h1 : Measurable[m'] fun ω (i : Fin ps.length) => x ps[i] ω :=
    measurable_pi_lambda _ fun i => hx _ (List.getElem_mem _)
  have h2 : ∀ ω, (ps.map fun p => x p ω) = List.ofFn fun i : Fin ps.length => x ps[i] ω := fun ω => by
    apply List.ext_getElem <;> simp
  simp only [h2]
  exact hg.comp h1

/-- Values of an ancestral set are functions of its noise. -/
theorem measurable_of_noise {D : CamDAG n α (Ω → ℝ)} (h : Listed D.dag D.names) {op : SetOrder α α} {f : α → List ℝ → List α → ℝ}
    {e x : α → Ω → ℝ} {A : α → Prop} (hA : ∀ u v, D.dag.E u v → A v → A u)
    (hfm : ∀ v, Measurable fun z : Fin (op.ord v (D.dag.parents v)).length → ℝ => f v (List.ofFn z) (op.ord v (D.dag.parents v)))
    (hx : ∀ v ∈ D.dag.nodes, ∀ ω, x v ω =
      (if D.dag.parents v = ∅ then 0 else f v ((op.ord v (D.dag.parents v)).map fun p => x p ω) (op.ord v (D.dag.parents v))) + e v ω)
    {m' : MeasurableSpace Ω} (he : ∀ v ∈ D.dag.nodes, A v → Measurable[m'] (e v)) :
    ∀ v ∈ D.dag.nodes, A v → Measurable[m'] (x v) := by
  obtain ⟨t, -, hl⟩ := h.valid.sort ⟨fun _ s => s.toList, fun _ s => s.nodup_toList, by simp⟩
  have : ∀ k : ℕ, ∀ v ∈ D.dag.nodes, A v → t.idxOf v < k → Measurable[m'] (x v) := by
    intro k
    induction k with
    | zero => intro v _ _ h; omega
    | succ k ih =>
      intro v hv hp hk
      have h1 : x v = fun ω => (if D.dag.parents v = ∅ then 0 else
          f v ((op.ord v (D.dag.parents v)).map fun p => x p ω) (op.ord v (D.dag.parents v))) + e v ω := funext (hx v hv)
      rw [h1]
      refine Measurable.add ?_ (he v hv hp)
      split
      · exact measurable_const
      · refine measurable_row (g := fun l => f v l (op.ord v (D.dag.parents v))) (fun p hp' => ?_) (hfm v)
        have hE := (h.valid.parents_iff _ _).1 ((op.mem_iff _ _ _).1 hp')
        refine ih p (h.valid.fst_mem _ _ hE) (hA _ _ hE hp) ?_
        have := DAG.linearExtension_idxOf hl (.single hE)
        omega
  exact fun v hv hp => this _ v hv hp (Nat.lt_succ_self _)

theorem condExp_list {F : MeasurableSpace Ω} (w : α → ℝ) {x y : α → Ω → ℝ} {ps : List α} (hi : ∀ p ∈ ps, Integrable (x p) μ)
    (hy : ∀ p ∈ ps, μ[x p | F] =ᵐ[μ] y p) :
    Integrable (fun ω => (ps.map fun p => w p * x p ω).sum) μ ∧
      μ[fun ω => (ps.map fun p => w p * x p ω).sum | F] =ᵐ[μ] fun ω => (ps.map fun p => w p * y p ω).sum := by
  induction ps with
  | nil =>
    simp only [List.map_nil, List.sum_nil]
    exact ⟨integrable_zero _ _ _, by rw [show (fun _ : Ω => (0 : ℝ)) = 0 from rfl, condExp_zero]⟩
  | cons p ps ih =>
    obtain ⟨h1, h2⟩ := ih (fun q hq => hi q (by simp [hq])) fun q hq => hy q (by simp [hq])
    have hp := (hi p (by simp)).const_mul (w p)
    simp only [List.map_cons, List.sum_cons]
    refine ⟨hp.add h1, ?_⟩
    have h3 := condExp_add hp h1 F
    have h4 := condExp_smul (μ := μ) (w p) (x p) F
    have h5 := hy p (by simp)
    have e1 : (fun ω => w p * x p ω) = w p • x p := rfl
    have e2 : (fun ω => w p * x p ω + (ps.map fun p => w p * x p ω).sum) =
      (fun ω => w p * x p ω) + fun ω => (ps.map fun p => w p * x p ω).sum := rfl
    rw [e2]
    rw [← e1] at h4
    filter_upwards [h2, h3, h4, h5] with ω a b c d
    rw [b, Pi.add_apply, c, Pi.smul_apply, d, a]
    rfl

theorem condExp_mean {D : CamDAG n α (Ω → ℝ)} (h : Listed D.dag D.names) {op : SetOrder α α} {f : α → List ℝ → List α → ℝ}
    {e x y : α → Ω → ℝ} {A : List α} (hA : ∀ v ∈ A, v ∈ D.dag.nodes) (hAp : ∀ v ∈ A, D.dag.parents v ⊆ A.toFinset)
    (hfm : ∀ v, Measurable fun z : Fin (op.ord v (D.dag.parents v)).length → ℝ => f v (List.ofFn z) (op.ord v (D.dag.parents v)))
    (hx : ∀ v ∈ D.dag.nodes, ∀ ω, x v ω =
      (if D.dag.parents v = ∅ then 0 else f v ((op.ord v (D.dag.parents v)).map fun p => x p ω) (op.ord v (D.dag.parents v))) + e v ω)
    (hy : ∀ v ∈ D.dag.nodes, ∀ ω, y v ω = if v ∈ A then x v ω else
      f v ((op.ord v (D.dag.parents v)).map fun p => y p ω) (op.ord v (D.dag.parents v)))
    (hm : ∀ a, Measurable (e (D.names a))) (hi : ∀ a, Integrable (e (D.names a)) μ) (hmean : ∀ a, ∫ ω, e (D.names a) ω ∂μ = 0)
    (hind : iIndepFun (fun a => e (D.names a)) μ) (hxi : ∀ a, Integrable (x (D.names a)) μ)
    (hroot : ∀ v ∈ D.dag.nodes, v ∉ A → D.dag.parents v = ∅ → f v [] [] = 0)
    (hlin : ∀ v ∈ D.dag.nodes, v ∉ A → D.dag.parents v ⊆ A.toFinset ∨ ∃ (w : α → ℝ) (c : ℝ), ∀ z : α → ℝ,
      f v ((op.ord v (D.dag.parents v)).map z) (op.ord v (D.dag.parents v)) =
        ((op.ord v (D.dag.parents v)).map fun p => w p * z p).sum + c) (a : Fin n) :
    μ[x (D.names a) | MeasurableSpace.comap (fun ω (v : {v // v ∈ A}) => x v ω) inferInstance] =ᵐ[μ] y (D.names a) := by
  have hE : ∀ u v, D.dag.E u v → v ∈ A → u ∈ A := fun u v huv hv => by
    simpa using hAp v hv ((h.valid.parents_iff _ _).2 huv)
  have hxm : ∀ v ∈ D.dag.nodes, Measurable (x v) := fun v hv =>
    measurable_of_noise h (A := fun _ => True) (fun _ _ _ _ => trivial) hfm hx
      (fun v hv _ => by obtain ⟨b, rfl⟩ := (h.range v).1 hv; exact hm b) v hv trivial
  have hxi' : ∀ v ∈ D.dag.nodes, Integrable (x v) μ := fun v hv => by
    obtain ⟨b, rfl⟩ := (h.range v).1 hv; exact hxi b
  let B : Finset (Fin n) := Finset.univ.filter fun b => D.names b ∈ A
  have hXA : Measurable fun ω (v : {v // v ∈ A}) => x v ω := measurable_pi_lambda _ fun v => hxm v (hA v v.2)
  have heB : Measurable fun ω (b : B) => e (D.names b) ω := measurable_pi_lambda _ fun b => hm b
  have hXe : MeasurableSpace.comap (fun ω (v : {v // v ∈ A}) => x v ω) inferInstance ≤
      MeasurableSpace.comap (fun ω (b : B) => e (D.names b) ω) inferInstance := by
    refine Measurable.comap_le (@measurable_pi_lambda _ _ _ (MeasurableSpace.comap (fun ω (b : B) => e (D.names b) ω) inferInstance) _ _ fun v => ?_)
    refine measurable_of_noise h (A := fun v => v ∈ A) hE hfm hx (fun u hu hu' => ?_) v (hA v v.2) v.2
    obtain ⟨b, rfl⟩ := (h.range u).1 hu
    exact (measurable_pi_apply (⟨b, by simp [B, hu']⟩ : B)).comp (comap_measurable fun ω (b : B) => e (D.names b) ω)
  have hcond : ∀ b, D.names b ∉ A →
      Indep (MeasurableSpace.comap (e (D.names b)) inferInstance)
        (MeasurableSpace.comap (fun ω (v : {v // v ∈ A}) => x v ω) inferInstance) μ := by
    intro b hb
    have h1 := hind.indepFun_finset {b} B (by simp [B, hb]) hm
    have hφ : Measurable fun y : (({b} : Finset (Fin n)) → ℝ) => y ⟨b, by simp⟩ :=
      measurable_pi_apply (⟨b, by simp⟩ : ({b} : Finset (Fin n)))
    have h2 := h1.comp (ψ := id) hφ measurable_id
    exact indep_of_indep_of_le_right h2 hXe
  have hle : MeasurableSpace.comap (fun ω (v : {v // v ∈ A}) => x v ω) inferInstance ≤ mΩ := hXA.comap_le
  have hxA : ∀ v ∈ A, StronglyMeasurable[MeasurableSpace.comap (fun ω (v : {v // v ∈ A}) => x v ω) inferInstance] (x v) :=
    fun v hv => ((measurable_pi_apply (⟨v, hv⟩ : {v // v ∈ A})).comp
      (comap_measurable fun ω (v : {v // v ∈ A}) => x v ω)).stronglyMeasurable
  have heF : ∀ b, D.names b ∉ A → μ[e (D.names b) | MeasurableSpace.comap (fun ω (v : {v // v ∈ A}) => x v ω) inferInstance]
      =ᵐ[μ] fun _ => (0 : ℝ) := fun b hb => by
    have := condExp_indep_eq (hm b).comap_le hle (comap_measurable (e (D.names b))).stronglyMeasurable (hcond b hb)
    rwa [hmean b] at this
  have hF := hxA
  generalize MeasurableSpace.comap (fun ω (v : {v // v ∈ A}) => x v ω) inferInstance = F at hle hF heF ⊢
  obtain ⟨t, -, hl⟩ := h.valid.sort ⟨fun _ s => s.toList, fun _ s => s.nodup_toList, by simp⟩
  suffices hs : ∀ k : ℕ, ∀ v ∈ D.dag.nodes, t.idxOf v < k → μ[x v | F] =ᵐ[μ] y v from
    hs _ _ ((h.range _).2 ⟨a, rfl⟩) (Nat.lt_succ_self _)
  intro k
  induction k with
  | zero => intro v _ h; omega
  | succ k ih =>
    intro v hv hk
    have hpar : ∀ p ∈ op.ord v (D.dag.parents v), p ∈ D.dag.nodes ∧ μ[x p | F] =ᵐ[μ] y p := fun p hp => by
      have hE' := (h.valid.parents_iff _ _).1 ((op.mem_iff _ _ _).1 hp)
      have := DAG.linearExtension_idxOf hl (.single hE')
      exact ⟨h.valid.fst_mem _ _ hE', ih p (h.valid.fst_mem _ _ hE') (by omega)⟩
    by_cases hvA : v ∈ A
    · have : y v = x v := funext fun ω => by rw [hy v hv, if_pos hvA]
      rw [this, condExp_of_stronglyMeasurable hle (hF v hvA) (hxi' v hv)]
    obtain ⟨b, hb⟩ := (h.range v).1 hv
    have hei : Integrable (e v) μ := hb ▸ hi b
    have hev : μ[e v | F] =ᵐ[μ] fun _ => (0 : ℝ) := hb ▸ heF b (hb ▸ hvA)
    have hord0 : D.dag.parents v = ∅ → op.ord v (D.dag.parents v) = [] := fun h0 => by
      have := not_iff_not.2 (ord_length (op := op) (v := v) (s := D.dag.parents v))
      simpa [h0] using this
    have hxv : ∀ ω, x v ω = f v ((op.ord v (D.dag.parents v)).map fun p => x p ω) (op.ord v (D.dag.parents v)) + e v ω := by
      intro ω
      rw [hx v hv]
      split
      · rename_i h0
        rw [hord0 h0, List.map_nil, hroot v hv hvA h0]
      · rfl
    have hyv : ∀ ω, y v ω = f v ((op.ord v (D.dag.parents v)).map fun p => y p ω) (op.ord v (D.dag.parents v)) := fun ω => by
      rw [hy v hv, if_neg hvA]
    rcases hlin v hv hvA with hs | ⟨w, c, hw⟩
    · have hsub : ∀ p ∈ op.ord v (D.dag.parents v), p ∈ A := fun p hp => by simpa using hs ((op.mem_iff _ _ _).1 hp)
      have hyx : y v = fun ω => f v ((op.ord v (D.dag.parents v)).map fun p => x p ω) (op.ord v (D.dag.parents v)) := by
        funext ω
        rw [hyv]
        congr 1
        exact List.map_congr_left fun p hp => by rw [hy p (hpar p hp).1, if_pos (hsub p hp)]
      have hym : StronglyMeasurable[F] (y v) := by
        rw [hyx]
        exact (measurable_row (g := fun l => f v l (op.ord v (D.dag.parents v)))
          (fun p hp => (hF p (hsub p hp)).measurable) (hfm v)).stronglyMeasurable
      have hxe : x v = y v + e v := by funext ω; rw [hxv, Pi.add_apply, hyx]
      have hyi : Integrable (y v) μ := by
        have : y v = x v - e v := by rw [hxe]; simp
        rw [this]
        exact (hxi' v hv).sub hei
      have := condExp_add hyi hei F
      rw [← hxe, condExp_of_stronglyMeasurable hle hym hyi] at this
      filter_upwards [this, hev] with ω h1 h2
      rw [h1, Pi.add_apply, h2, add_zero]
    · obtain ⟨h1, h2⟩ := condExp_list w (fun p hp => hxi' p (hpar p hp).1) fun p hp => (hpar p hp).2
      have hxe : x v = ((fun ω => ((op.ord v (D.dag.parents v)).map fun p => w p * x p ω).sum) + fun _ => c) + e v := by
        funext ω
        rw [hxv, hw fun p => x p ω]; rfl
      have h3 := condExp_add (h1.add (integrable_const c)) hei F
      have h4 := condExp_add h1 (integrable_const c) F
      rw [condExp_const hle] at h4
      rw [← hxe] at h3
      filter_upwards [h2, h3, h4, hev] with ω a1 a2 a3 a4
      rw [a2, Pi.add_apply, a3, a4, Pi.add_apply, a1, hyv, hw fun p => y p ω, add_zero]

end Cond

end Model.CamDAG
