import Verif.Spec.Numbered
import Verif.Proof.TopoSort

/-! # Simulation of structural equations along a topological order -/

namespace Model

set_option linter.unusedSectionVars false
universe u
variable {α S : Type} [DecidableEq α] {n : ℕ}
open Relation Spec

theorem lastIx_eq {names : Fin n → α} {v : α} {a : Fin n} (h : lastIx names v = some a) : names a = v := by
  have := List.find?_some h
  simpa using this

theorem lastIx_names {names : Fin n → α} (hn : Function.Injective names) (a : Fin n) :
    lastIx names (names a) = some a := by
  cases h : lastIx names (names a) with
  | none =>
    have := List.find?_eq_none.1 h a (by simp)
    simp at this
  | some b => rw [hn (lastIx_eq h)]

theorem lastIx_none {names : Fin n → α} {v : α} (h : lastIx names v = none) : ∀ a, names a ≠ v := by
  intro a
  have := List.find?_eq_none.1 h a (by simp)
  simpa using this

theorem mapM_lastIx {names : Fin n → α} {l : List α} {pos : α → Fin n}
    (h : ∀ v ∈ l, lastIx names v = some (pos v)) : l.mapM (lastIx names) = some (l.map pos) := by
  induction l with
  | nil => rfl
  | cons v l ih =>
    rw [List.mapM_cons, h v (by simp), ih fun w hw => h w (by simp [hw])]
    rfl

theorem sublist_cons_tail {i j v : α} {t : List α} (hn : (v :: t).Nodup) (h : List.Sublist [i, j] (v :: t)) :
    j ∈ t := by
  cases h with
  | cons _ h => exact h.subset (by simp)
  | cons_cons _ h => exact h.subset (by simp)

/-- Assignments along `l`. -/
def steps {ι : Type} [DecidableEq ι] (pos : α → ι) (F : α → (ι → S) → S) : List α → (ι → S) → ι → S
  | [], x => x
  | v :: t, x => steps pos F t (Function.update x (pos v) (F v x))

section Steps

variable {ι : Type} [DecidableEq ι] {pos : α → ι} {F : α → (ι → S) → S} {E : α → α → Prop}

theorem steps_other {l : List α} {x : ι → S} {a : ι} (h : ∀ v ∈ l, pos v ≠ a) : steps pos F l x a = x a := by
  induction l generalizing x with
  | nil => rfl
  | cons v t ih =>
    rw [steps, ih fun w hw => h w (by simp [hw]), Function.update_of_ne (Ne.symm (h v (by simp)))]

/-- Each assigned coordinate satisfies its equation at the end. -/
theorem steps_eq {l : List α} (hl : l.Nodup) (hpos : ∀ v ∈ l, ∀ w ∈ l, pos v = pos w → v = w)
    (hloc : ∀ v ∈ l, ∀ x y : ι → S, (∀ u, E u v → x (pos u) = y (pos u)) → F v x = F v y)
    (hord : ∀ p v r, l = p ++ v :: r → ∀ u, E u v → ∀ w ∈ v :: r, pos w ≠ pos u) (x : ι → S) :
    ∀ v ∈ l, steps pos F l x (pos v) = F v (steps pos F l x) := by
  induction l generalizing x with
  | nil => simp
  | cons v t ih =>
    rw [List.nodup_cons] at hl
    intro w hw
    rcases List.mem_cons.1 hw with rfl | hw
    · rw [steps, steps_other, Function.update_self]
      · refine hloc _ (by simp) _ _ ?_
        intro u hu
        have hne := hord [] w t rfl u hu
        rw [steps_other fun v hv => hne v (by simp [hv]), Function.update_of_ne (Ne.symm (hne w (by simp)))]
      · intro v hv h
        have := hpos v (by simp [hv]) w (by simp) h
        subst this; exact hl.1 hv
    · refine ih hl.2 (fun v hv w hw => hpos v (by simp [hv]) w (by simp [hw])) (fun v hv => hloc v (by simp [hv])) ?_ _ w hw
      intro p v' r h u hu w' hw'
      exact hord (v :: p) v' r (by rw [h]; rfl) u hu w' hw'

end Steps

section Unique

variable {ι : Type} {pos : α → ι} {F : α → (ι → S) → S} {E : α → α → Prop}

/-- The equations of a set of nodes closed under parents determine its values. -/
theorem equations_unique {V : Set α} {l : List α} (hl : LinearExtension V E l) (hE : ∀ u v, E u v → u ∈ V)
    (P : α → Prop) (hP : ∀ u v, E u v → P v → P u)
    (hloc : ∀ v ∈ V, ∀ x y : ι → S, (∀ u, E u v → x (pos u) = y (pos u)) → F v x = F v y)
    {x y : ι → S} (hx : ∀ v ∈ V, P v → x (pos v) = F v x) (hy : ∀ v ∈ V, P v → y (pos v) = F v y) :
    ∀ v ∈ V, P v → x (pos v) = y (pos v) := by
  have : ∀ k : ℕ, ∀ v ∈ V, P v → l.idxOf v < k → x (pos v) = y (pos v) := by
    intro k
    induction k with
    | zero => intro v _ _ h; omega
    | succ k ih =>
      intro v hv hp hk
      rw [hx v hv hp, hy v hv hp]
      refine hloc v hv _ _ fun u hu => ih u (hE u v hu) (hP u v hu hp) ?_
      have := DAG.linearExtension_idxOf hl (.single hu)
      omega
  exact fun v hv hp => this _ v hv hp (Nat.lt_succ_self _)

end Unique

theorem linearExtension_order {V : Set α} {E : α → α → Prop} {l : List α} (h : LinearExtension V E l)
    {p r : List α} {v u : α} (hl : l = p ++ v :: r) (hu : E u v) : u ∉ v :: r := by
  intro hm
  have h1 := DAG.linearExtension_idxOf h (.single hu)
  have hn := h.nodup
  rw [hl] at hn h1
  have hv : v ∉ p := fun hvp => (List.nodup_append.1 hn).2.2 v hvp v (by simp) rfl
  have hup : u ∉ p := fun hup => (List.nodup_append.1 hn).2.2 u hup u hm rfl
  rw [List.idxOf_append_of_notMem hup, List.idxOf_append_of_notMem hv, List.idxOf_cons_self] at h1
  omega

theorem mapM_names {names : Fin n → α} (hn : Function.Injective names) {l : List α} (h : ∀ v ∈ l, ∃ a, names a = v) :
    ∃ ps, l.mapM (lastIx names) = some ps ∧ ps.map names = l := by
  induction l with
  | nil => exact ⟨[], rfl, rfl⟩
  | cons v l ih =>
    obtain ⟨ps, h1, h2⟩ := ih fun w hw => h w (by simp [hw])
    obtain ⟨a, rfl⟩ := h v (by simp)
    refine ⟨a :: ps, ?_, by simp [h2]⟩
    rw [List.mapM_cons, lastIx_names hn, h1]
    rfl

theorem update_names {names : Fin n → α} (hn : Function.Injective names) (y : α → S) (a : Fin n) (s : S) :
    Function.update (y ∘ names) a s = Function.update y (names a) s ∘ names := by
  funext b
  by_cases h : b = a
  · subst h; simp
  · rw [Function.update_of_ne h, Function.comp_apply, Function.comp_apply, Function.update_of_ne fun e => h (hn e)]

theorem DAG.Valid.sortable {G : DAG α} (h : G.Valid) : G.Sortable :=
  ⟨h.parents_iff, h.children_iff, h.fst_mem, h.snd_mem, h.acyclic⟩

theorem DAG.Sortable.kids {G : DAG α} (h : G.Sortable) : G.Kids := ⟨h.children_iff, h.fst_mem, h.snd_mem⟩

theorem DAG.Sortable.sort {G : DAG α} (h : G.Sortable) (o : SetOrder (Option α) α) :
    ∃ l, (DAG.topologicalSort G o).run = some (.ok l) ∧ LinearExtension (G.nodes : Set α) G.E l := by
  rcases DAG.topologicalSort_wp G o h.kids with h' | ⟨e, _, l, _, hl⟩
  · exact h'
  · obtain ⟨v, hv⟩ := DAG.isClosingWalk_cycle hl
    exact absurd hv (h.acyclic v)

namespace Listed

variable {G : DAG α} {names : Fin n → α} (h : Listed G names)
include h

theorem parent_mem {u v : α} (hu : u ∈ G.parents v) : ∃ a, names a = u :=
  (h.range u).1 (h.valid.fst_mem _ _ ((h.valid.parents_iff _ _).1 hu))

theorem parents_mapM (op : SetOrder α α) (v : α) :
    ∃ ps, (op.ord v (G.parents v)).mapM (lastIx names) = some ps ∧ ps.map names = op.ord v (G.parents v) :=
  mapM_names h.inj fun u hu => h.parent_mem ((op.mem_iff _ _ _).1 hu)

/-- The loops all compute `steps`; the result solves the equations. -/
theorem solve {o : SetOrder (Option α) α} {F : α → (α → S) → S}
    (hloc : ∀ v, ∀ x y : α → S, (∀ u, G.E u v → x u = y u) → F v x = F v y) (y : α → S) :
    ∃ t, (DAG.topologicalSort G o).run = some (.ok t) ∧ (∀ v ∈ t, ∃ a, names a = v) ∧
      ∀ v ∈ G.nodes, steps id F t y v = F v (steps id F t y) := by
  obtain ⟨t, ht, hl⟩ := h.valid.sort o
  refine ⟨t, ht, fun v hv => (h.range v).1 ((hl.mem_iff v).1 hv), fun v hv => ?_⟩
  refine steps_eq (E := G.E) hl.nodup (fun _ _ _ _ e => e) (fun v _ => hloc v) ?_ y v ((hl.mem_iff v).2 hv)
  intro p v r hp u hu w hw e
  change w = u at e
  subst e
  exact linearExtension_order hl hp hu hw

theorem unique {F : α → (α → S) → S} (P : α → Prop) (hP : ∀ u v, G.E u v → P v → P u)
    (hloc : ∀ v, ∀ x y : α → S, (∀ u, G.E u v → x u = y u) → F v x = F v y) {x y : α → S}
    (hx : ∀ v ∈ G.nodes, P v → x v = F v x) (hy : ∀ v ∈ G.nodes, P v → y v = F v y) :
    ∀ v ∈ G.nodes, P v → x v = y v := by
  obtain ⟨t, -, hl⟩ := h.valid.sort ⟨fun _ s => s.toList, fun _ s => s.nodup_toList, by simp⟩
  exact equations_unique (pos := id) hl (fun u v huv => h.valid.fst_mem u v huv) P hP (fun v _ => hloc v) hx hy

end Listed

/-- Values at the positions of the node list, read by node. -/
theorem exists_env {names : Fin n → α} (hn : Function.Injective names) (x : Fin n → S) (z : S) :
    ∃ y : α → S, y ∘ names = x :=
  ⟨Function.extend names x fun _ => z, by funext a; simp [hn.extend_apply]⟩

namespace SampleDAG

/-- The function of each node under an intervention. -/
def ivnFun (ivn : α → Option (Ivn S)) (f : α → List S → S) (v : α) : List S → S :=
  match ivn v with
  | some (.soft g) => g
  | some (.perfect s) => fun _ => s
  | _ => f v

theorem ivnLoop_eq {D : SampleDAG n α S} (h : Listed D.dag D.names) {f : α → List S → S} {ivn : α → Option (Ivn S)}
    {op : SetOrder α α}
    (hf : ∀ a, ivn (D.names a) = none → D.conditionals (D.names a) = some (f (D.names a)))
    (ho : ∀ a, ivn (D.names a) ≠ some .other) (t : List α) (ht : ∀ v ∈ t, ∃ a, D.names a = v) (y : α → S) :
    D.ivnLoop op ivn t (y ∘ D.names) =
      .ok (steps id (fun v y => ivnFun ivn f v ((op.ord v (D.dag.parents v)).map y)) t y ∘ D.names) := by
  induction t generalizing y with
  | nil => rfl
  | cons v t ih =>
    obtain ⟨a, rfl⟩ := ht v (by simp)
    obtain ⟨ps, h1, h2⟩ := h.parents_mapM op (D.names a)
    have ht' : ∀ v ∈ t, ∃ a, D.names a = v := fun v hv => ht v (by simp [hv])
    rw [ivnLoop, lastIx_names h.inj, h1]
    have hps : ps.map (y ∘ D.names) = (op.ord (D.names a) (D.dag.parents (D.names a))).map y := by
      rw [← h2, List.map_map]
    dsimp only
    rw [steps]
    cases hi : ivn (D.names a) with
    | none =>
      simp only [hf a hi]
      rw [update_names h.inj, ih ht', hps]
      simp [ivnFun, hi]
    | some k =>
      cases k with
      | soft g => simp only; rw [update_names h.inj, ih ht', hps]; simp [ivnFun, hi]
      | perfect s => simp only; rw [update_names h.inj, ih ht']; simp [ivnFun, hi]
      | other => exact absurd hi (ho a)

theorem loop_eq_ivnLoop (D : SampleDAG n α S) (op : SetOrder α α) (t : List α) (x : Fin n → S) :
    D.loop op t x = D.ivnLoop op (fun _ => none) t x := by
  induction t generalizing x with
  | nil => rfl
  | cons v t ih =>
    rw [loop, ivnLoop]
    cases lastIx D.names v <;> cases (op.ord v (D.dag.parents v)).mapM (lastIx D.names) <;>
      cases D.conditionals v <;> simp [ih]

theorem sample_eq (D : SampleDAG n α S) (o : SetOrder (Option α) α) (op : SetOrder α α) (z : S) :
    D.sample o op z = D.sampleInterventional o op z fun _ => none := by
  unfold sample sampleInterventional
  cases (DAG.topologicalSort D.dag o).run with
  | none => rfl
  | some r => cases r <;> simp [loop_eq_ivnLoop]

theorem local_map {G : DAG α} (hG : G.Sortable) (op : SetOrder α α) (f : α → List S → S) (v : α) (x y : α → S)
    (h : ∀ u, G.E u v → x u = y u) :
    f v ((op.ord v (G.parents v)).map x) = f v ((op.ord v (G.parents v)).map y) := by
  congr 1
  exact List.map_congr_left fun u hu => h u ((hG.parents_iff _ _).1 ((op.mem_iff _ _ _).1 hu))

theorem sampleInterventional_spec {D : SampleDAG n α S} (h : Listed D.dag D.names) {f : α → List S → S}
    {ivn : α → Option (Ivn S)} {op : SetOrder α α} {o : SetOrder (Option α) α} {z : S}
    (hf : ∀ a, ivn (D.names a) = none → D.conditionals (D.names a) = some (f (D.names a)))
    (ho : ∀ a, ivn (D.names a) ≠ some .other) :
    ∃ y : α → S, D.sampleInterventional o op z ivn = some (.ok (y ∘ D.names)) ∧
      ∀ v ∈ D.dag.nodes, y v = ivnFun ivn f v ((op.ord v (D.dag.parents v)).map y) := by
  obtain ⟨t, h1, h2, h3⟩ := h.solve (o := o) (S := S)
    (F := fun v y => ivnFun ivn f v ((op.ord v (D.dag.parents v)).map y))
    (local_map h.valid op _) (fun _ => z)
  refine ⟨_, ?_, h3⟩
  unfold sampleInterventional
  rw [h1]
  dsimp only
  rw [← ivnLoop_eq h hf ho t h2]
  rfl

end SampleDAG

namespace CamDAG

variable [AddMonoid S]

/-- The equation of a node. -/
def eqn (G : DAG α) (op : SetOrder α α) (f : α → List S → List α → S) (e : α → S) (v : α) (y : α → S) : S :=
  (if G.parents v = ∅ then 0 else f v ((op.ord v (G.parents v)).map y) (op.ord v (G.parents v))) + e v

theorem ord_length {op : SetOrder α α} {v : α} {s : Finset α} : (op.ord v s).length > 0 ↔ s ≠ ∅ := by
  rw [gt_iff_lt, List.length_pos_iff_exists_mem, Ne, ← Finset.not_nonempty_iff_eq_empty, not_not]
  simp [Finset.Nonempty, op.mem_iff]

theorem loop_eq {D : CamDAG n α S} (h : Listed D.dag D.names) {f : α → List S → List α → S} {e : α → S}
    {op : SetOrder α α}
    (hf : ∀ a, D.dag.parents (D.names a) ≠ ∅ → D.meanFunctions (D.names a) = some (f (D.names a)))
    (he : ∀ a, D.noises (D.names a) = some (e (D.names a))) (t : List α) (ht : ∀ v ∈ t, ∃ a, D.names a = v)
    (y : α → S) :
    D.loop op t (y ∘ D.names) = .ok (steps id (eqn D.dag op f e) t y ∘ D.names) := by
  induction t generalizing y with
  | nil => rfl
  | cons v t ih =>
    obtain ⟨a, rfl⟩ := ht v (by simp)
    obtain ⟨ps, h1, h2⟩ := h.parents_mapM op (D.names a)
    have ht' : ∀ v ∈ t, ∃ a, D.names a = v := fun v hv => ht v (by simp [hv])
    have hps : ps.map (y ∘ D.names) = (op.ord (D.names a) (D.dag.parents (D.names a))).map y := by
      rw [← h2, List.map_map]
    rw [loop, steps]
    by_cases hp : D.dag.parents (D.names a) = ∅
    · have : ¬ (op.ord (D.names a) (D.dag.parents (D.names a))).length > 0 := by rw [ord_length]; simpa using hp
      simp only [this, if_false, he, lastIx_names h.inj]
      rw [update_names h.inj, ih ht']
      simp [eqn, hp]
    · have : (op.ord (D.names a) (D.dag.parents (D.names a))).length > 0 := ord_length.2 hp
      simp only [this, if_true, h1, hf a hp, he, lastIx_names h.inj]
      rw [update_names h.inj, ih ht', hps]
      simp [eqn, hp]

theorem local_eqn {G : DAG α} (hG : G.Sortable) (op : SetOrder α α) (f : α → List S → List α → S) (e : α → S) (v : α)
    (x y : α → S) (h : ∀ u, G.E u v → x u = y u) : eqn G op f e v x = eqn G op f e v y := by
  unfold eqn
  congr 3
  exact List.map_congr_left fun u hu => h u ((hG.parents_iff _ _).1 ((op.mem_iff _ _ _).1 hu))

theorem sample_spec {D : CamDAG n α S} (h : Listed D.dag D.names) {f : α → List S → List α → S} {e : α → S}
    {op : SetOrder α α} {o : SetOrder (Option α) α}
    (hf : ∀ a, D.dag.parents (D.names a) ≠ ∅ → D.meanFunctions (D.names a) = some (f (D.names a)))
    (he : ∀ a, D.noises (D.names a) = some (e (D.names a))) :
    ∃ y : α → S, D.sample o op = some (.ok (y ∘ D.names)) ∧ ∀ v ∈ D.dag.nodes, y v = eqn D.dag op f e v y := by
  obtain ⟨t, h1, h2, h3⟩ := h.solve (o := o) (S := S) (F := eqn D.dag op f e) (local_eqn h.valid op _ _) (fun _ => 0)
  refine ⟨_, ?_, h3⟩
  unfold sample
  rw [h1]
  dsimp only
  rw [← loop_eq h hf he t h2]
  rfl

end CamDAG

end Model
