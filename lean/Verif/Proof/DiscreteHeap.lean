import Verif.Spec.DiscreteValues
import Mathlib.Data.List.Nodup

/-! # Simulation of `DiscreteDAG` values by objects with dictionaries in memory -/

namespace Model.DiscreteHeap

open scoped NNReal

variable {α : Type} [DecidableEq α]

/-- The memory shows the values; every object has a dictionary of its own, unknown to variables that are not lent. -/
structure Rel (H : Mem α) (V : Val α) : Prop where
  objs : V.objs = H.objs.map H.value
  len : V.vars.length = H.vars.length
  vars : ∀ (x : ℕ) a, x ∉ V.lent → H.vars[x]? = some a → V.vars[x]? = some (H.cell a)
  ob : ∀ O ∈ H.objs, O.cond < H.next
  vb : ∀ a ∈ H.vars, a < H.next
  own : ∀ (x : ℕ) a, x ∉ V.lent → H.vars[x]? = some a → (∀ O ∈ H.objs, O.cond ≠ a) ∧ ∀ y : ℕ, y ∉ V.lent → H.vars[y]? = some a → y = x
  inj : (H.objs.map Obj.cond).Nodup

omit [DecidableEq α] in
theorem rel_init : Rel (Mem.init : Mem α) Val.init := by
  constructor <;> simp [Mem.init, Val.init]

theorem new_cond {o : SetOrder (Option α) α} {oa : SetOrder Bool (α × α)} {nodes : Finset α} {arcs : Finset (α × α)}
    {cond : α → Tensor ℝ≥0} {pars : α → List α} {alph : α → List ℤ} {D : DiscreteDAG α}
    (h : DiscreteDAG.new o oa nodes arcs cond pars alph = some (.ok D)) : D.cond = cond := by
  rw [DiscreteDAG.new] at h
  rcases en : DAG.new o oa nodes arcs with _ | ⟨G, _ | e⟩ <;> rw [en] at h
  · cases h
  · dsimp only at h
    split_ifs at h
    · cases h; rfl
    · cases h
  · cases h

theorem get_append {β : Type} (l : List β) (b : β) {x : ℕ} {c : β} (h : (l ++ [b])[x]? = some c) :
    l[x]? = some c ∨ (x = l.length ∧ c = b) := by
  rcases lt_trichotomy x l.length with hl | hl | hl
  · rw [List.getElem?_append_left hl] at h
    exact Or.inl h
  · subst hl
    simp at h
    exact Or.inr ⟨rfl, h.symm⟩
  · rw [List.getElem?_eq_none (by simp; omega)] at h
    cases h

omit [DecidableEq α] in
theorem rel_push {H : Mem α} {V : Val α} (h : Rel H V) (D : DiscreteDAG α) : Rel (H.push D) { V with objs := V.objs ++ [D] } := by
  have hc : ∀ b < H.next, (H.push D).cell b = H.cell b := fun b hb => Function.update_of_ne hb.ne _ _
  refine ⟨?_, h.len, ?_, ?_, fun a ha => Nat.lt_succ_of_lt (h.vb a ha), ?_, ?_⟩
  · dsimp only
    rw [h.objs]
    simp only [Mem.push, List.map_append, List.map_cons, List.map_nil]
    congr 1
    · refine List.map_congr_left fun O hO => ?_
      simp only [Mem.value]
      rw [Function.update_of_ne (h.ob O hO).ne]
    · simp [Mem.value]
  · intro x a hx ha
    rw [hc a (h.vb a (List.mem_of_getElem? ha))]
    exact h.vars x a hx ha
  · intro O hO
    rcases List.mem_append.1 hO with hO | hO
    · exact Nat.lt_succ_of_lt (h.ob O hO)
    · rw [List.mem_singleton.1 hO]
      exact Nat.lt_succ_self _
  · intro x a hx ha
    refine ⟨fun O hO => ?_, (h.own x a hx ha).2⟩
    rcases List.mem_append.1 hO with hO | hO
    · exact (h.own x a hx ha).1 O hO
    · rw [List.mem_singleton.1 hO]
      exact (h.vb a (List.mem_of_getElem? ha)).ne'
  · simp only [Mem.push, List.map_append, List.map_cons, List.map_nil]
    refine List.Nodup.append h.inj (List.nodup_singleton _) fun a ha hb => ?_
    obtain ⟨O, hO, rfl⟩ := List.mem_map.1 ha
    exact (h.ob O hO).ne (List.mem_singleton.1 hb)

theorem exec_rel (o : SetOrder (Option α) α) (oa : SetOrder Bool (α × α)) {H : Mem α} {V : Val α} (h : Rel H V) (op : Op α)
    (hp : ∀ x v t, op = .assign x v t → x ∉ V.lent) (hn : ∀ x nodes arcs pars alph, op = .new x nodes arcs pars alph → x ∉ V.lent) :
    Rel (H.exec o oa op).1 (V.exec o oa op).1 ∧ (H.exec o oa op).2 = (V.exec o oa op).2 := by
  have hobj : ∀ k : ℕ, V.objs[k]? = (H.objs[k]?).map H.value := fun k => by rw [h.objs, List.getElem?_map]
  have hnone : ∀ x : ℕ, H.vars[x]? = none → V.vars[x]? = none := fun x hx => by
    rw [List.getElem?_eq_none_iff] at hx ⊢
    rwa [h.len]
  cases op with
  | dict d =>
    have hc : ∀ b < H.next, Function.update H.cell H.next d b = H.cell b := fun b hb => Function.update_of_ne hb.ne _ _
    refine ⟨⟨?_, ?_, ?_, fun O hO => Nat.lt_succ_of_lt (h.ob O hO), ?_, ?_, h.inj⟩, rfl⟩
    · simp only [Val.exec, Mem.exec, h.objs]
      refine List.map_congr_left fun O hO => ?_
      simp only [Mem.value]
      rw [hc _ (h.ob O hO)]
    · simp [Val.exec, Mem.exec, h.len]
    · intro x a hx ha
      simp only [Val.exec, Mem.exec] at hx ha ⊢
      rcases get_append _ _ ha with ha | ⟨rfl, rfl⟩
      · rw [hc a (h.vb a (List.mem_of_getElem? ha)), List.getElem?_append_left (List.getElem?_eq_some_iff.1 (h.vars x a hx ha)).1]
        exact h.vars x a hx ha
      · rw [← h.len]
        simp
    · intro a ha
      rcases List.mem_append.1 ha with ha | ha
      · exact Nat.lt_succ_of_lt (h.vb a ha)
      · rw [List.mem_singleton.1 ha]
        exact Nat.lt_succ_self _
    · intro x a hx ha
      simp only [Val.exec, Mem.exec] at hx ha ⊢
      rcases get_append _ _ ha with ha | ⟨rfl, rfl⟩
      · refine ⟨(h.own x a hx ha).1, fun y hy hya => ?_⟩
        rcases get_append _ _ hya with hya | ⟨-, rfl⟩
        · exact (h.own x a hx ha).2 y hy hya
        · exact absurd (h.vb _ (List.mem_of_getElem? ha)) (lt_irrefl _)
      · refine ⟨fun O hO => (h.ob O hO).ne, fun y hy hya => ?_⟩
        rcases get_append _ _ hya with hya | ⟨rfl, -⟩
        · exact absurd (h.vb _ (List.mem_of_getElem? hya)) (lt_irrefl _)
        · rfl
  | assign x v t =>
    have hx := hp x v t rfl
    rcases e : H.vars[x]? with _ | a
    · simp only [Mem.exec, Val.exec, e, hnone x e]
      exact ⟨h, trivial⟩
    · simp only [Mem.exec, Val.exec, e, h.vars x a hx e]
      refine ⟨⟨?_, by simpa using h.len, ?_, h.ob, h.vb, h.own, h.inj⟩, trivial⟩
      · dsimp only
        rw [h.objs]
        refine List.map_congr_left fun O hO => ?_
        simp only [Mem.value]
        rw [Function.update_of_ne ((h.own x a hx e).1 O hO)]
      · intro y b hy hb
        dsimp only at hy hb ⊢
        rw [List.getElem?_set]
        by_cases hxy : x = y
        · subst hxy
          have hab : a = b := Option.some.inj (e.symm.trans hb)
          subst hab
          rw [if_pos rfl, if_pos (List.getElem?_eq_some_iff.1 (h.vars x a hx e)).1, Function.update_self]
        · rw [if_neg hxy, h.vars y b hy hb, Function.update_of_ne]
          rintro rfl
          exact hxy ((h.own x b hx e).2 y hy hb).symm
  | new x nodes arcs pars alph =>
    have hx := hn x nodes arcs pars alph rfl
    rcases e : H.vars[x]? with _ | a
    · simp only [Mem.exec, Val.exec, e, hnone x e]
      exact ⟨h, trivial⟩
    · simp only [Mem.exec, Val.exec, e, h.vars x a hx e]
      rcases en : DiscreteDAG.new o oa nodes arcs (H.cell a) pars alph with _ | er | D
      · exact ⟨h, rfl⟩
      · exact ⟨h, rfl⟩
      · refine ⟨⟨?_, h.len, ?_, ?_, h.vb, ?_, ?_⟩, rfl⟩
        · dsimp only
          rw [h.objs, List.map_append, List.map_cons, List.map_nil]
          congr 2
          simp only [Mem.value]
          rw [← new_cond en]
        · intro y b hy hb
          exact h.vars y b (fun hl => hy (Finset.mem_insert_of_mem hl)) hb
        · intro O hO
          rcases List.mem_append.1 hO with hO | hO
          · exact h.ob O hO
          · rw [List.mem_singleton.1 hO]
            exact h.vb a (List.mem_of_getElem? e)
        · intro y b hy hb
          dsimp only at hy hb ⊢
          rw [Finset.mem_insert, not_or] at hy
          refine ⟨fun O hO => ?_, fun z hz hzb => ?_⟩
          · rcases List.mem_append.1 hO with hO | hO
            · exact (h.own y b hy.2 hb).1 O hO
            · rw [List.mem_singleton.1 hO]
              rintro rfl
              exact hy.1 ((h.own x a hx e).2 y hy.2 hb)
          · exact (h.own y b hy.2 hb).2 z (fun hl => hz (Finset.mem_insert_of_mem hl)) hzb
        · dsimp only
          rw [List.map_append, List.map_cons, List.map_nil]
          refine List.Nodup.append h.inj (List.nodup_singleton _) fun b hb hb' => ?_
          obtain ⟨O, hO, rfl⟩ := List.mem_map.1 hb
          exact (h.own x a hx e).1 O hO (List.mem_singleton.1 hb')
  | setConditional k v t =>
    simp only [Mem.exec, Val.exec, hobj]
    rcases e : H.objs[k]? with _ | O
    · exact ⟨h, rfl⟩
    · have hO : O ∈ H.objs := List.mem_of_getElem? e
      simp only [Option.map_some]
      refine ⟨⟨?_, h.len, ?_, h.ob, h.vb, h.own, h.inj⟩, trivial⟩
      · dsimp only
        refine List.ext_getElem? fun j => ?_
        rw [List.getElem?_set, List.getElem?_map]
        by_cases hkj : k = j
        · subst hkj
          have hl : k < V.objs.length := by rw [h.objs, List.length_map]; exact (List.getElem?_eq_some_iff.1 e).1
          rw [if_pos rfl, if_pos hl, e]
          simp [Mem.value]
        · rw [if_neg hkj, hobj]
          rcases ej : H.objs[j]? with _ | Q
          · rfl
          · simp only [Option.map_some, Mem.value]
            rw [Function.update_of_ne]
            intro hq
            refine hkj ((List.getElem?_inj (l := H.objs.map Obj.cond) ?_ h.inj).1 ?_)
            · rw [List.length_map]; exact (List.getElem?_eq_some_iff.1 e).1
            · rw [List.getElem?_map, List.getElem?_map, e, ej]
              simp [hq]
      · intro x a hx ha
        dsimp only at hx ha ⊢
        rw [Function.update_of_ne ((h.own x a hx ha).1 O hO).symm]
        exact h.vars x a hx ha
  | copy k =>
    simp only [Mem.exec, Val.exec, hobj]
    rcases e : H.objs[k]? with _ | O
    · exact ⟨h, rfl⟩
    · exact ⟨rel_push h _, rfl⟩
  | intervene k target value =>
    simp only [Mem.exec, Val.exec, hobj]
    rcases e : H.objs[k]? with _ | O
    · exact ⟨h, rfl⟩
    · simp only [Option.map_some]
      rcases (H.value O).hardInterventional o oa target value with _ | er | D
      · exact ⟨h, rfl⟩
      · exact ⟨h, rfl⟩
      · exact ⟨rel_push h _, rfl⟩
  | conditionals k =>
    simp only [Mem.exec, Val.exec, hobj]
    rcases e : H.objs[k]? with _ | O
    · exact ⟨h, rfl⟩
    · simp only [Option.map_some]
      have hO : O ∈ H.objs := List.mem_of_getElem? e
      have hold : ∀ (x : ℕ) a, x ∉ insert V.vars.length V.lent → (H.vars ++ [O.cond])[x]? = some a → x ∉ V.lent ∧ H.vars[x]? = some a := by
        intro x a hx ha
        rw [Finset.mem_insert, not_or] at hx
        rcases get_append _ _ ha with ha | ⟨rfl, -⟩
        · exact ⟨hx.2, ha⟩
        · exact absurd h.len.symm hx.1
      refine ⟨⟨h.objs, by simp [h.len], ?_, h.ob, ?_, ?_, h.inj⟩, trivial⟩
      · intro x a hx ha
        obtain ⟨h1, h2⟩ := hold x a hx ha
        dsimp only
        rw [List.getElem?_append_left (List.getElem?_eq_some_iff.1 (h.vars x a h1 h2)).1]
        exact h.vars x a h1 h2
      · intro a ha
        rcases List.mem_append.1 ha with ha | ha
        · exact h.vb a ha
        · rw [List.mem_singleton.1 ha]
          exact h.ob O hO
      · intro x a hx ha
        obtain ⟨h1, h2⟩ := hold x a hx ha
        refine ⟨(h.own x a h1 h2).1, fun y hy hya => ?_⟩
        obtain ⟨h3, h4⟩ := hold y a hy hya
        exact (h.own x a h1 h2).2 y h3 h4
  | look k =>
    simp only [Mem.exec, Val.exec, hobj]
    rcases e : H.objs[k]? with _ | O
    · exact ⟨h, rfl⟩
    · exact ⟨h, rfl⟩

theorem run_rel (o : SetOrder (Option α) α) (oa : SetOrder Bool (α × α)) (l : List (Op α)) {H : Mem α} {V : Val α} (h : Rel H V)
    (hp : Val.Polite o oa V l) : Rel (H.run o oa l).1 (V.run o oa l).1 ∧ (H.run o oa l).2 = (V.run o oa l).2 := by
  induction l generalizing H V with
  | nil => exact ⟨h, rfl⟩
  | cons op l ih =>
    obtain ⟨h1, h2⟩ := exec_rel o oa h op hp.1 hp.2.1
    obtain ⟨h3, h4⟩ := ih h1 hp.2.2
    exact ⟨h3, by simp only [Mem.run, Val.run, h2, h4]⟩

end Model.DiscreteHeap
