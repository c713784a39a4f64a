import Verif.Proof.Sampling
import Verif.Spec.Structural
import Verif.Props.Sample
import Mathlib.Data.Fin.VecNotation

/-! # Sampling of `SampleDAG` and `CamDAG` (properties C57, C76) -/

namespace Props

open Model Spec

variable {n : ℕ} {α S : Type} [DecidableEq α]

theorem solves_iff {D : DAG α} {names : Fin n → α} (h : Listed D names) (op : SetOrder α α) (f : α → List S → S)
    (y : α → S) :
    Solves names (fun v => op.ord v (D.parents v)) (fun a => f (names a)) (y ∘ names) ↔
      ∀ v ∈ D.nodes, y v = f v ((op.ord v (D.parents v)).map y) := by
  constructor
  · intro hs v hv
    obtain ⟨a, rfl⟩ := (h.range v).1 hv
    obtain ⟨ps, h1, h2⟩ := hs a
    change ps.map names = op.ord (names a) (D.parents (names a)) at h1
    rw [← h1, List.map_map]; exact h2
  · intro hs a
    obtain ⟨ps, -, h2⟩ := h.parents_mapM op (names a)
    refine ⟨ps, h2, ?_⟩
    have := hs _ ((h.range _).2 ⟨a, rfl⟩)
    rw [← h2, List.map_map] at this
    exact this

theorem solves_unique {D : DAG α} {names : Fin n → α} (h : Listed D names) (op : SetOrder α α) (f : α → List S → S)
    {x x' : Fin n → S} (hx : Solves names (fun v => op.ord v (D.parents v)) (fun a => f (names a)) x)
    (hx' : Solves names (fun v => op.ord v (D.parents v)) (fun a => f (names a)) x') : x = x' := by
  funext a
  obtain ⟨y, rfl⟩ := exists_env h.inj x (x a)
  obtain ⟨y', rfl⟩ := exists_env h.inj x' (x' a)
  exact h.unique (F := fun v y => f v ((op.ord v (D.parents v)).map y)) (fun _ => True) (fun _ _ _ _ => trivial)
    (SampleDAG.local_map h.valid op f) (fun v hv _ => (solves_iff h op f y).1 hx v hv)
    (fun v hv _ => (solves_iff h op f y').1 hx' v hv) _ ((h.range _).2 ⟨a, rfl⟩) trivial

/-- C57. `SampleDAG.sample()` terminates without an exception, the values solve the structural equations, they are the only
solution, and they do not depend on the topological order (`x` is fixed before the order `o` of the search). -/
theorem C57_sample {D : SampleDAG n α S} (h : Listed D.dag D.names) {f : α → List S → S}
    (hf : ∀ a, D.conditionals (D.names a) = some (f (D.names a))) (op : SetOrder α α) (z : S) :
    ∃ x, Solves D.names (fun v => op.ord v (D.dag.parents v)) (fun a => f (D.names a)) x ∧
      (∀ x', Solves D.names (fun v => op.ord v (D.dag.parents v)) (fun a => f (D.names a)) x' → x' = x) ∧
      ∀ o, D.sample o op z = some (.ok x) := by
  have key : ∀ o, ∃ x, Solves D.names (fun v => op.ord v (D.dag.parents v)) (fun a => f (D.names a)) x ∧
      D.sample o op z = some (.ok x) := by
    intro o
    obtain ⟨y, h1, h2⟩ := SampleDAG.sampleInterventional_spec (op := op) (o := o) (z := z) (ivn := fun _ => none) h
      (fun a _ => hf a) (by simp)
    exact ⟨y ∘ D.names, (solves_iff h op f y).2 h2, by rw [SampleDAG.sample_eq, h1]⟩
  obtain ⟨x, hx, -⟩ := key ⟨fun _ s => s.toList, fun _ s => s.nodup_toList, by simp⟩
  refine ⟨x, hx, fun x' hx' => solves_unique h op f hx' hx, fun o => ?_⟩
  obtain ⟨x', hx', h'⟩ := key o
  rw [h', solves_unique h op f hx' hx]

/-- C57. The same for `CamDAG.sample()`: the value of a node is its mean function at the values and the list of its parents
(zero if it has none) plus its noise. -/
theorem C57_cam [AddMonoid S] {D : CamDAG n α S} (h : Listed D.dag D.names) {f : α → List S → List α → S} {e : α → S}
    (hf : ∀ a, D.dag.parents (D.names a) ≠ ∅ → D.meanFunctions (D.names a) = some (f (D.names a)))
    (he : ∀ a, D.noises (D.names a) = some (e (D.names a))) (op : SetOrder α α) :
    ∃ x : Fin n → S,
      (∀ x', Solves D.names (fun v => op.ord v (D.dag.parents v))
        (fun a s => (if s = [] then 0 else f (D.names a) s (op.ord (D.names a) (D.dag.parents (D.names a))))
          + e (D.names a)) x' ↔ x' = x) ∧
      ∀ o, D.sample o op = some (.ok x) := by
  let F : α → List S → S := fun v s => (if s = [] then 0 else f v s (op.ord v (D.dag.parents v))) + e v
  have hF : ∀ v y, CamDAG.eqn D.dag op f e v y = F v ((op.ord v (D.dag.parents v)).map y) := by
    intro v y
    have : (op.ord v (D.dag.parents v)).map y = [] ↔ D.dag.parents v = ∅ := by
      rw [List.map_eq_nil_iff, ← List.length_eq_zero_iff, ← not_iff_not]
      exact (Nat.pos_iff_ne_zero.symm).trans CamDAG.ord_length
    simp only [CamDAG.eqn, F, this]
  have key : ∀ o, ∃ x, Solves D.names (fun v => op.ord v (D.dag.parents v)) (fun a => F (D.names a)) x ∧
      D.sample o op = some (.ok x) := by
    intro o
    obtain ⟨y, h1, h2⟩ := CamDAG.sample_spec (op := op) (o := o) h hf he
    exact ⟨y ∘ D.names, (solves_iff h op F y).2 fun v hv => (h2 v hv).trans (hF v y), h1⟩
  obtain ⟨x, hx, -⟩ := key ⟨fun _ s => s.toList, fun _ s => s.nodup_toList, by simp⟩
  refine ⟨x, fun x' => ⟨fun hx' => solves_unique h op F hx' hx, fun e => e ▸ hx⟩, fun o => ?_⟩
  obtain ⟨x', hx', h'⟩ := key o
  rw [h', solves_unique h op F hx' hx]

/-- A node without a conditional raises `KeyError` whatever the order. -/
theorem C57_missing {D : SampleDAG n α S} (h : Listed D.dag D.names) {b : Fin n}
    (hb : D.conditionals (D.names b) = none) (o : SetOrder (Option α) α) (op : SetOrder α α) (z : S) :
    D.sample o op z = some (.error .key) := by
  obtain ⟨t, ht, hl⟩ := h.valid.sort o
  unfold SampleDAG.sample
  rw [ht]
  dsimp only
  have hm : D.names b ∈ t := (hl.mem_iff _).2 ((h.range _).2 ⟨b, rfl⟩)
  clear ht hl
  generalize (fun _ => z : Fin n → S) = x
  congr 1
  induction t generalizing x with
  | nil => simp at hm
  | cons v t ih =>
    rw [SampleDAG.loop]
    split
    · rename_i a ps f h1 h2 h3
      rcases List.mem_cons.1 hm with rfl | hm
      · rw [hb] at h3; cases h3
      · exact ih hm _
    · rfl

/-- C76. `sample_interventional` solves the equations in which those of the targets are replaced by the interventional
distribution (a function of the parents for soft, a constant for perfect interventions). -/
theorem C76_interventional {D : SampleDAG n α S} (h : Listed D.dag D.names) {f : α → List S → S}
    {ivn : α → Option (Ivn S)}
    (hf : ∀ a, ivn (D.names a) = none → D.conditionals (D.names a) = some (f (D.names a)))
    {g : Fin n → List S → S}
    (hg : ∀ a, ivn (D.names a) = some (.soft (g a)) ∨ (∃ s, ivn (D.names a) = some (.perfect s) ∧ g a = fun _ => s) ∨
      (ivn (D.names a) = none ∧ g a = f (D.names a)))
    (op : SetOrder α α) (z : S) :
    ∃ x, Solves D.names (fun v => op.ord v (D.dag.parents v)) g x ∧
      (∀ x', Solves D.names (fun v => op.ord v (D.dag.parents v)) g x' → x' = x) ∧
      ∀ o, D.sampleInterventional o op z ivn = some (.ok x) := by
  have hgF : g = fun a => SampleDAG.ivnFun ivn f (D.names a) := by
    funext a
    rcases hg a with h | ⟨s, h, h'⟩ | ⟨h, h'⟩ <;> simp [SampleDAG.ivnFun, *]
  have ho : ∀ a, ivn (D.names a) ≠ some .other := by
    intro a ha
    rcases hg a with h | ⟨s, h, -⟩ | ⟨h, -⟩ <;> simp [h] at ha
  subst hgF
  have key : ∀ o, ∃ x, Solves D.names (fun v => op.ord v (D.dag.parents v))
      (fun a => SampleDAG.ivnFun ivn f (D.names a)) x ∧ D.sampleInterventional o op z ivn = some (.ok x) := by
    intro o
    obtain ⟨y, h1, h2⟩ := SampleDAG.sampleInterventional_spec (op := op) (o := o) (z := z) h hf ho
    exact ⟨y ∘ D.names, (solves_iff h op _ y).2 h2, h1⟩
  obtain ⟨x, hx, -⟩ := key ⟨fun _ s => s.toList, fun _ s => s.nodup_toList, by simp⟩
  refine ⟨x, hx, fun x' hx' => solves_unique h op _ hx' hx, fun o => ?_⟩
  obtain ⟨x', hx', h'⟩ := key o
  rw [h', solves_unique h op _ hx' hx]

/-- C76. An intervention does not change nodes that are neither targets nor descendants of targets. -/
theorem C76_nondescendants {D : SampleDAG n α S} (h : Listed D.dag D.names) {ivn : α → Option (Ivn S)}
    (ho : ∀ v ∈ D.dag.nodes, ivn v ≠ some .other)
    {op : SetOrder α α} {o o' : SetOrder (Option α) α} {z : S} {x x' : Fin n → S}
    (hx : D.sample o op z = some (.ok x)) (hx' : D.sampleInterventional o' op z ivn = some (.ok x')) {a : Fin n}
    (ha : ∀ v ∈ D.dag.nodes, ivn v ≠ none → ¬ Path0 D.dag.E v (D.names a)) : x' a = x a := by
  have hc : ∀ v, ∃ f : List S → S, ∀ b, D.names b = v → D.conditionals v = some f := by
    intro v
    cases hv : D.conditionals v with
    | some f => exact ⟨f, fun _ _ => rfl⟩
    | none =>
      refine ⟨fun _ => z, ?_⟩
      rintro b rfl
      rw [C57_missing h hv] at hx
      cases hx
  choose f hf using hc
  obtain ⟨y, h1, h2⟩ := SampleDAG.sampleInterventional_spec (f := f) (op := op) (o := o) (z := z) (ivn := fun _ => none) h
    (fun b _ => hf _ b rfl) (by simp)
  obtain ⟨y', h1', h2'⟩ := SampleDAG.sampleInterventional_spec (f := f) (op := op) (o := o') (z := z) (ivn := ivn) h
    (fun b _ => hf _ b rfl) (fun b => ho _ ((h.range _).2 ⟨b, rfl⟩))
  rw [SampleDAG.sample_eq, h1] at hx
  rw [h1'] at hx'
  cases hx; cases hx'
  refine h.unique (F := fun v y => f v ((op.ord v (D.dag.parents v)).map y))
    (fun w => ∀ v ∈ D.dag.nodes, ivn v ≠ none → ¬ Path0 D.dag.E v w)
    (fun u v huv hv w hw hi hp => hv w hw hi (hp.tail huv)) (SampleDAG.local_map h.valid op f) (fun v hv hp => ?_)
    (fun v hv _ => h2 v hv) _ ((h.range _).2 ⟨a, rfl⟩) ha
  have hi : ivn v = none := by
    by_contra hi
    exact hp v hv hi .refl
  have := h2' v hv
  simpa only [SampleDAG.ivnFun, hi] using this

namespace Sampling

/-- 0 → 2 ← 1, 2 → 3 stored in the order 2, 0, 3, 1. -/
def names : Fin 4 → Fin 4 := ![2, 0, 3, 1]

def graph : DAG (Fin 4) := _root_.Sample.graph {(0, 2), (1, 2), (2, 3)}

theorem listed : Listed graph names :=
  ⟨(_root_.Sample.graph_valid (by decide)).sortable, by decide, by decide⟩

/-- The conditional of `v` adds `v + 1` to the sum of the parents. -/
def model : SampleDAG 4 (Fin 4) ℤ := ⟨graph, names, fun v => some fun s => s.sum + v.val + 1⟩

def cam : CamDAG 4 (Fin 4) ℤ := ⟨graph, names, fun _ => some fun s _ => s.sum, fun v => some (v.val + 1)⟩

example := C57_sample (D := model) (f := fun v s => s.sum + v.val + 1) listed (fun _ => rfl)
example := C57_cam (D := cam) (f := fun _ s _ => s.sum) (e := fun v => v.val + 1) listed (fun _ _ => rfl) (fun _ => rfl)

/-- Node 2 is set to 7. -/
def ivn : Fin 4 → Option (Ivn ℤ) := fun v => if v = 2 then some (.perfect 7) else none

example := C76_interventional (D := model) (f := fun v s => s.sum + v.val + 1) (ivn := ivn)
  (g := fun a s => if a = 0 then 7 else s.sum + (names a).val + 1) listed (fun _ _ => rfl)
  (by
    intro a
    by_cases h : a = 0
    · subst h; exact Or.inr (Or.inl ⟨7, rfl, by simp⟩)
    · refine Or.inr (Or.inr ⟨?_, by simp only [h, if_false]; rfl⟩)
      revert h; revert a; decide)

/-- Some conditional missing. -/
example := C57_missing (S := ℤ) (D := ⟨graph, names, fun _ => none⟩) (b := 1) listed rfl

/-- Node 1 (position 3) is not affected by the intervention on 2. -/
example {o op x x'} (hx : model.sample o op 0 = some (.ok x)) (hx' : model.sampleInterventional o op 0 ivn = some (.ok x')) :
    x' 3 = x 3 := by
  refine C76_nondescendants listed (fun v _ => by unfold ivn; split <;> simp) hx hx' ?_
  intro v _ hv
  have : v = 2 := by by_contra h; simp [ivn, h] at hv
  subst this
  intro hp
  have hE : ∀ u w : Fin 4, graph.E u w → u < w := by unfold DAG.E; decide
  have hle : ∀ u w : Fin 4, Path0 graph.E u w → u ≤ w := fun u w hp => by
    induction hp with
    | refl => exact le_rfl
    | tail _ h ih => exact ih.trans (hE _ _ h).le
  exact absurd (hle _ _ hp) (by decide)

end Sampling

end Props
