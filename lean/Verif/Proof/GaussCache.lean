import Verif.Spec.GaussCacheValues

/-! # Simulation of `GaussDAG` values by objects with a cached correlation in memory -/

namespace Model.GaussCache

open Model.GGMHeap (Out partialOf)

variable {n : ℕ}

/-! ## The other methods do not touch the cached correlation -/

/-- The object with another cached correlation. -/
def upd (c : Option (Matrix (Fin n) (Fin n) ℝ)) (G : Gauss n ℝ) : Gauss n ℝ := { G with correlation := c }

theorem upd_self (G : Gauss n ℝ) : upd G.correlation G = G := rfl

theorem removeArc_upd (c : Option (Matrix (Fin n) (Fin n) ℝ)) (G : Gauss n ℝ) (i j : ℕ) :
    (upd c G).removeArc i j = (upd c (G.removeArc i j).1, (G.removeArc i j).2) := by
  unfold Gauss.removeArc
  have hix : ∀ v, (upd c G).ix v = G.ix v := fun _ => rfl
  rw [hix, hix]
  rcases G.ix i with _ | a
  · rfl
  · rcases G.ix j with _ | b
    · rfl
    · dsimp only [upd]
      by_cases hm : (i, j) ∈ G.dag.arcs
      · simp [hm]
      · simp [hm]

theorem setArcWeight_upd (o : SetOrder (Option ℕ) ℕ) (c : Option (Matrix (Fin n) (Fin n) ℝ)) (G : Gauss n ℝ) (i j : ℕ) (v : ℝ) :
    (upd c G).setArcWeight o i j v = (G.setArcWeight o i j v).map fun s => (upd c s.1, s.2) := by
  unfold Gauss.setArcWeight
  by_cases hv : v = 0
  · rw [if_pos hv, if_pos hv, removeArc_upd]
    rfl
  · rw [if_neg hv, if_neg hv]
    have hix : ∀ v, (upd c G).ix v = G.ix v := fun _ => rfl
    rw [hix, hix]
    rcases G.ix i with _ | a
    · rfl
    · rcases G.ix j with _ | b
      · rfl
      · dsimp only
        by_cases hm : (i, j) ∉ G.dag.arcs
        · rw [if_pos (show (i, j) ∉ (upd c G).dag.arcs from hm), if_pos hm]
          have hd : (upd c G).dag = G.dag := rfl
          rw [hd]
          rcases (DAG.topologicalSort (DAG.addArcUnchecked G.dag i j) o).run with _ | (e | l)
          · rfl
          · cases e <;> first | rfl | skip
            rename_i l
            dsimp only
            have h := removeArc_upd c
              ({ G with weight := Gauss.setEntry G.weight a b v, dag := DAG.addArcUnchecked G.dag i j } : Gauss n ℝ) i j
            have h' : Gauss.removeArc ({ upd c G with weight := Gauss.setEntry (upd c G).weight a b v, dag := DAG.addArcUnchecked G.dag i j } :
                Gauss n ℝ) i j = _ := h
            rw [h']
            rcases Gauss.removeArc ({ G with weight := Gauss.setEntry G.weight a b v, dag := DAG.addArcUnchecked G.dag i j } : Gauss n ℝ) i j with
              ⟨G3, _ | e⟩ <;> rfl
          · rfl
        · rw [if_neg (show ¬ (i, j) ∉ (upd c G).dag.arcs from hm), if_neg hm]
          rfl

theorem change_upd (w : Orders) (c : Option (Matrix (Fin n) (Fin n) ℝ)) (G : Gauss n ℝ) (ch : Change) :
    ch.run w (upd c G) = (ch.run w G).map fun s => (upd c s.1, s.2) := by
  cases ch with
  | setArcWeight i j v => exact setArcWeight_upd w.top c G i j v
  | setNodeVariance i v =>
    simp only [Change.run, Gauss.setNodeVariance]
    rcases Gauss.at? n i with _ | a <;> rfl
  | setNodeBias i v =>
    simp only [Change.run, Gauss.setNodeBias]
    rcases Gauss.at? n i with _ | a <;> rfl

theorem readCovariance_upd (c : Option (Matrix (Fin n) (Fin n) ℝ)) (G : Gauss n ℝ) :
    (upd c G).readCovariance = G.readCovariance.map fun s => (s.1, upd c s.2) := by
  unfold Gauss.readCovariance
  have h : (upd c G).covariance = G.covariance := rfl
  rw [h]
  rcases G.covariance with _ | S
  · dsimp only
    by_cases hd : (1 - G.weight).det = 0
    · rw [if_pos (show (1 - (upd c G).weight).det = 0 from hd), if_pos hd]
      rfl
    · rw [if_neg (show ¬ (1 - (upd c G).weight).det = 0 from hd), if_neg hd]
      rfl
  · rfl

theorem read_upd (c : Option (Matrix (Fin n) (Fin n) ℝ)) (G : Gauss n ℝ) (r : Copied) :
    r.run (upd c G) = (r.run G).map fun s => (s.1, upd c s.2) := by
  cases r with
  | weightMat => rfl
  | precision =>
    simp only [Copied.run, Gauss.readPrecision]
    have h : (upd c G).precision = G.precision := rfl
    rw [h]
    rcases G.precision with _ | P <;> rfl
  | covariance => exact readCovariance_upd c G

theorem removeArc_cor (G : Gauss n ℝ) (i j : ℕ) : (G.removeArc i j).1.correlation = G.correlation := by
  have h := congrArg Prod.fst (removeArc_upd G.correlation G i j)
  rw [upd_self] at h
  rw [h]
  rfl

theorem new_cor (oa : SetOrder Bool (ℕ × ℕ)) (names : Fin n → ℕ) (arcs : List ((ℕ × ℕ) × ℝ)) (b v : Fin n → ℝ) :
    (Gauss.new oa names arcs b v).1.correlation = none := by
  have hf : ∀ (l : List ((ℕ × ℕ) × ℝ)) (G : Gauss n ℝ),
      (Gauss.forEach (fun G (e : (ℕ × ℕ) × ℝ) => G.removeArc e.1.1 e.1.2) l G).1.correlation = G.correlation := by
    intro l
    induction l with
    | nil => exact fun _ => rfl
    | cons e l ih =>
      intro G
      have h1 := removeArc_cor G e.1.1 e.1.2
      simp only [Gauss.forEach]
      rcases er : G.removeArc e.1.1 e.1.2 with ⟨G1, _ | x⟩ <;> rw [er] at h1
      · exact (ih G1).trans h1
      · exact h1
  have hs : ∀ G : Gauss n ℝ, (Gauss.setArcWeights oa G arcs).1.correlation = G.correlation := by
    intro G
    unfold Gauss.setArcWeights
    split_ifs
    · rfl
    · rcases Gauss.putWeights G arcs G.weight with _ | W
      · rfl
      · dsimp only
        have h1 := hf (arcs.filter fun e => e.2 = 0) { G with weight := W }
        rcases er : Gauss.forEach (fun G (e : (ℕ × ℕ) × ℝ) => G.removeArc e.1.1 e.1.2) (arcs.filter fun e => e.2 = 0)
          { G with weight := W } with ⟨G1, _ | x⟩ <;> rw [er] at h1
        · dsimp only
          split_ifs <;> exact h1
        · exact h1
  unfold Gauss.new
  dsimp only
  rcases er : Gauss.setArcWeights oa ({ dag := DAG.empty (Finset.univ.image names), names := names, weight := 0, variances := v, biases := b, precision := none, covariance := none, correlation := none } : Gauss n ℝ) arcs with ⟨G1, _ | x⟩
  · have h1 := hs ({ dag := DAG.empty (Finset.univ.image names), names := names, weight := 0, variances := v, biases := b, precision := none, covariance := none, correlation := none } : Gauss n ℝ)
    rw [er] at h1
    dsimp only
    rcases Gauss.putWeights G1 arcs G1.weight with _ | W <;> exact h1
  · have h1 := hs ({ dag := DAG.empty (Finset.univ.image names), names := names, weight := 0, variances := v, biases := b, precision := none, covariance := none, correlation := none } : Gauss n ℝ)
    rw [er] at h1
    exact h1

theorem partialCorrelation_eq (oc : SetOrder Unit ℕ) (G : Gauss n ℝ) (i j : ℕ) (cond : Finset ℕ) :
    (match G.partialCorrelation oc i j cond with
      | .error e => (Out.raised e : Out n)
      | .ok (r, _) => .number r) =
    match G.readCorrelation with
    | .error e => .raised e
    | .ok (R, _) => .ofExcept (partialOf oc R i j cond) := by
  unfold Gauss.partialCorrelation partialOf
  rcases G.readCorrelation with e | ⟨R, G1⟩
  · rfl
  · dsimp only
    split_ifs with h
    · rcases Gauss.at? n i with _ | a
      · rfl
      · rcases Gauss.at? n j with _ | b <;> rfl
    · rcases Gauss.positions n (Matrix.vecCons i (Matrix.vecCons j (oc.ord () cond).get)) with _ | l
      · rfl
      · dsimp only
        rcases Gauss.invOrRaise (R.submatrix l l) with e | θ <;> rfl

/-! ## Simulation -/

/-- The memory shows the values; arrays of variables that are not lent are known to nobody else. -/
structure Rel (H : Mem n) (V : Val n) : Prop where
  objs : V.objs = H.objs.map H.value
  vars : V.vars = H.vars.map H.cell
  ob : ∀ O ∈ H.objs, ∀ a, O.correlation = some a → a < H.next
  vb : ∀ a ∈ H.vars, a < H.next
  own : ∀ x a, x ∉ V.lent → H.vars[x]? = some a → (∀ O ∈ H.objs, O.correlation ≠ some a) ∧ ∀ y, H.vars[y]? = some a → y = x

theorem rel_init : Rel (Mem.init : Mem n) Val.init := by
  constructor <;> simp [Mem.init, Val.init]

theorem value_eq (H : Mem n) (O : Obj n) : H.value O = upd (O.correlation.map H.cell) O.dag := rfl

theorem value_congr {H H' : Mem n} {O : Obj n} (h : ∀ a, O.correlation = some a → H'.cell a = H.cell a) : H'.value O = H.value O := by
  rw [value_eq, value_eq]
  congr 1
  rcases e : O.correlation with _ | a
  · rfl
  · simp [h a e]

theorem alloc_cell (H : Mem n) (m : Matrix (Fin n) (Fin n) ℝ) {b : ℕ} (hb : b < H.next) : (H.alloc m).cell b = H.cell b :=
  Function.update_of_ne hb.ne _ _

theorem alloc_new (H : Mem n) (m : Matrix (Fin n) (Fin n) ℝ) : (H.alloc m).cell H.next = m := Function.update_self _ _ _

/-- `H1` is `H` with more arrays; `O1` is `O` with possibly a new array. -/
structure Ext (H : Mem n) (O : Obj n) (H1 : Mem n) (O1 : Obj n) : Prop where
  objs : H1.objs = H.objs
  vars : H1.vars = H.vars
  next : H.next ≤ H1.next
  cell : ∀ b < H.next, H1.cell b = H.cell b
  bound : ∀ b, O1.correlation = some b → b < H1.next ∧ (O.correlation = some b ∨ H.next ≤ b)

theorem readCorrelation_spec {H : Mem n} {O : Obj n} (hO : ∀ a, O.correlation = some a → a < H.next) :
    match H.readCorrelation O with
    | .error e => (H.value O).readCorrelation = .error e
    | .ok (a, H1, O1) => (H.value O).readCorrelation = .ok (H1.cell a, H1.value O1) ∧ Ext H O H1 O1 ∧ O1.correlation = some a := by
  unfold Mem.readCorrelation Gauss.readCorrelation
  rcases e : O.correlation with _ | a
  · have e1 : (H.value O).correlation = none := by simp [Mem.value, e]
    rw [e1]
    dsimp only
    have hc : (H.value O).readCovariance = O.dag.readCovariance.map fun s => (s.1, upd none s.2) := by
      rw [value_eq, e]
      exact readCovariance_upd none O.dag
    rw [hc]
    rcases O.dag.readCovariance with x | ⟨S, G1⟩
    · rfl
    · dsimp only [Except.map]
      refine ⟨?_, ⟨rfl, rfl, Nat.le_succ _, fun b hb => alloc_cell H _ hb, ?_⟩, rfl⟩
      · rw [alloc_new, value_eq]
        dsimp only [Option.map]
        rw [alloc_new]
        rfl
      · rintro b hb
        cases hb
        exact ⟨Nat.lt_succ_self _, Or.inr le_rfl⟩
  · have e1 : (H.value O).correlation = some (H.cell a) := by simp [Mem.value, e]
    rw [e1]
    exact ⟨rfl, ⟨rfl, rfl, le_rfl, fun _ _ => rfl, fun b hb => ⟨hO b hb, Or.inl hb⟩⟩, e⟩

/-- An object is replaced by an extended one. -/
theorem rel_set {H : Mem n} {V : Val n} (h : Rel H V) {k : ℕ} {O : Obj n} (hk : H.objs[k]? = some O) {H1 : Mem n} {O1 : Obj n}
    (hx : Ext H O H1 O1) : Rel { H1 with objs := H1.objs.set k O1 } { V with objs := V.objs.set k (H1.value O1) } := by
  have hO : O ∈ H.objs := List.mem_of_getElem? hk
  refine ⟨?_, ?_, ?_, ?_, ?_⟩
  · dsimp only
    rw [List.map_set, hx.objs, h.objs]
    congr 1
    exact List.map_congr_left fun Q hQ => (value_congr fun a ha => hx.cell a (h.ob Q hQ a ha)).symm
  · dsimp only
    rw [hx.vars, h.vars]
    exact List.map_congr_left fun a ha => (hx.cell a (h.vb a ha)).symm
  · intro Q hQ a ha
    rcases List.mem_or_eq_of_mem_set hQ with hQ | rfl
    · rw [hx.objs] at hQ
      exact lt_of_lt_of_le (h.ob Q hQ a ha) hx.next
    · exact (hx.bound a ha).1
  · intro a ha
    rw [hx.vars] at ha
    exact lt_of_lt_of_le (h.vb a ha) hx.next
  · intro x a hxl hxa
    dsimp only at hxl hxa ⊢
    rw [hx.vars] at hxa ⊢
    obtain ⟨h1, h2⟩ := h.own x a hxl hxa
    refine ⟨fun Q hQ hka => ?_, h2⟩
    rcases List.mem_or_eq_of_mem_set hQ with hQ | rfl
    · rw [hx.objs] at hQ
      exact h1 Q hQ hka
    · rcases (hx.bound a hka).2 with hk' | hk'
      · exact h1 O hO hk'
      · exact absurd (h.vb a (List.mem_of_getElem? hxa)) (not_lt.2 hk')

/-- A variable for the array of an object. -/
theorem rel_push {H : Mem n} {V : Val n} (h : Rel H V) {O : Obj n} (hO : O ∈ H.objs) {a : ℕ} (ha : O.correlation = some a) :
    Rel { H with vars := H.vars ++ [a] } ⟨V.objs, V.vars ++ [H.cell a], insert V.vars.length V.lent⟩ := by
  have hlen : V.vars.length = H.vars.length := by rw [h.vars, List.length_map]
  refine ⟨h.objs, ?_, h.ob, ?_, ?_⟩
  · simp [h.vars]
  · intro b hb
    rcases List.mem_append.1 hb with hb | hb
    · exact h.vb b hb
    · rw [List.mem_singleton.1 hb]
      exact h.ob O hO a ha
  · intro x b hx hxb
    dsimp only at hx hxb ⊢
    rw [Finset.mem_insert, not_or] at hx
    have hlt : x < H.vars.length := by
      rcases lt_trichotomy x H.vars.length with hl | hl | hl
      · exact hl
      · exact absurd (hl.trans hlen.symm) hx.1
      · rw [List.getElem?_eq_none (by simp; omega)] at hxb
        cases hxb
    rw [List.getElem?_append_left hlt] at hxb
    obtain ⟨h1, h2⟩ := h.own x b hx.2 hxb
    refine ⟨h1, fun y hy => ?_⟩
    rcases lt_or_ge y H.vars.length with hl | hl
    · rw [List.getElem?_append_left hl] at hy
      exact h2 y hy
    · rw [List.getElem?_append_right hl] at hy
      have : b = a := by
        rcases List.mem_of_getElem? hy with _ | hb
        · rfl
        · contradiction
      exact absurd (this ▸ ha) (h1 O hO)

/-- A variable for a new array. -/
theorem rel_array {H : Mem n} {V : Val n} (h : Rel H V) (m : Matrix (Fin n) (Fin n) ℝ) :
    Rel { H.alloc m with vars := H.vars ++ [H.next] } { V with vars := V.vars ++ [m] } := by
  refine ⟨?_, ?_, ?_, ?_, ?_⟩
  · dsimp only
    rw [h.objs]
    exact List.map_congr_left fun Q hQ => (value_congr fun b hb => alloc_cell H m (h.ob Q hQ b hb)).symm
  · simp only [h.vars, List.map_append, List.map_cons, List.map_nil]
    rw [alloc_new]
    congr 1
    exact List.map_congr_left fun b hb => (alloc_cell H m (h.vb b hb)).symm
  · exact fun Q hQ b hb => Nat.lt_succ_of_lt (h.ob Q hQ b hb)
  · intro b hb
    rcases List.mem_append.1 hb with hb | hb
    · exact Nat.lt_succ_of_lt (h.vb b hb)
    · rw [List.mem_singleton.1 hb]
      exact Nat.lt_succ_self _
  · intro x b hx hxb
    dsimp only at hxb ⊢
    have hlast : ∀ z c, (H.vars ++ [H.next])[z]? = some c →
        (z < H.vars.length ∧ H.vars[z]? = some c) ∨ (z = H.vars.length ∧ c = H.next) := by
      intro z c hz
      rcases lt_trichotomy z H.vars.length with hl | hl | hl
      · rw [List.getElem?_append_left hl] at hz
        exact Or.inl ⟨hl, hz⟩
      · subst hl
        simp at hz
        exact Or.inr ⟨rfl, hz.symm⟩
      · rw [List.getElem?_eq_none (by simp; omega)] at hz
        cases hz
    rcases hlast x b hxb with ⟨hl, hb⟩ | ⟨rfl, rfl⟩
    · obtain ⟨h1, h2⟩ := h.own x b hx hb
      refine ⟨h1, fun y hy => ?_⟩
      rcases hlast y b hy with ⟨_, hy'⟩ | ⟨_, rfl⟩
      · exact h2 y hy'
      · exact absurd (h.vb _ (List.mem_of_getElem? hb)) (lt_irrefl _)
    · refine ⟨fun Q hQ hk => lt_irrefl _ (h.ob Q hQ _ hk), fun y hy => ?_⟩
      rcases hlast y _ hy with ⟨_, hy'⟩ | ⟨rfl, _⟩
      · exact absurd (h.vb _ (List.mem_of_getElem? hy')) (lt_irrefl _)
      · rfl

/-- Two outcomes of one statement. -/
def Same (r : Option (Mem n × Out n)) (s : Option (Val n × Out n)) : Prop :=
  (r = none ∧ s = none) ∨ ∃ H V o, r = some (H, o) ∧ s = some (V, o) ∧ Rel H V

theorem Same.intro {H : Mem n} {V : Val n} (h : Rel H V) (o : Out n) : Same (some (H, o)) (some (V, o)) := Or.inr ⟨H, V, o, rfl, rfl, h⟩

theorem exec_rel (w : Orders) {H : Mem n} {V : Val n} (h : Rel H V) (op : Op n) (hp : ∀ x m, op = .write x m → x ∉ V.lent) :
    Same (H.exec w op) (V.exec w op) := by
  have hobj : ∀ k, V.objs[k]? = (H.objs[k]?).map H.value := fun k => by rw [h.objs, List.getElem?_map]
  cases op with
  | array m => exact .intro (rel_array h m) _
  | write x m =>
    have hx : x ∉ V.lent := hp x m rfl
    rcases e : H.vars[x]? with _ | a
    · have hlen : V.vars.length ≤ x := by
        rw [h.vars, List.length_map]
        exact List.getElem?_eq_none_iff.1 e
      simp only [Mem.exec, Val.exec, e, List.set_eq_of_length_le hlen]
      exact .intro h _
    · obtain ⟨h1, h2⟩ := h.own x a hx e
      simp only [Mem.exec, Val.exec, e]
      refine Or.inr ⟨_, _, _, rfl, rfl, ⟨?_, ?_, h.ob, h.vb, h.own⟩⟩
      · dsimp only
        rw [h.objs]
        refine List.map_congr_left fun Q hQ => (value_congr fun b hb => ?_).symm
        exact Function.update_of_ne (fun hba => h1 Q hQ (by rwa [hba] at hb)) _ _
      · dsimp only
        rw [h.vars]
        refine List.ext_getElem? fun y => ?_
        rw [List.getElem?_set, List.getElem?_map, List.getElem?_map]
        by_cases hyx : x = y
        · subst hyx
          have hl : x < H.vars.length := (List.getElem?_eq_some_iff.1 e).1
          rw [if_pos rfl, e]
          simp [hl]
        · rw [if_neg hyx]
          rcases ey : H.vars[y]? with _ | b
          · rfl
          · have : b ≠ a := fun hba => hyx (h2 y (by rw [ey, hba])).symm
            simp [Function.update_of_ne this]
  | new names arcs b v =>
    have hc := new_cor w.arcs names arcs b v
    simp only [Mem.exec, Val.exec]
    rcases e : Gauss.new w.arcs names arcs b v with ⟨G, _ | x⟩ <;> rw [e] at hc <;> dsimp only at hc ⊢
    · refine Or.inr ⟨_, _, _, rfl, rfl, ⟨?_, h.vars, ?_, h.vb, ?_⟩⟩
      · have hG : Mem.value H ⟨G, none⟩ = G := by
          have := upd_self G
          rw [hc] at this
          exact this
        simp only [List.map_append, List.map_cons, List.map_nil]
        have hv : Mem.value { H with objs := H.objs ++ [⟨G, none⟩] } = H.value := rfl
        rw [hv, hG, h.objs]
      · intro Q hQ a ha
        rcases List.mem_append.1 hQ with hQ | hQ
        · exact h.ob Q hQ a ha
        · rw [List.mem_singleton.1 hQ] at ha
          cases ha
      · intro x a hx hxa
        obtain ⟨h1, h2⟩ := h.own x a hx hxa
        refine ⟨fun Q hQ ha => ?_, h2⟩
        rcases List.mem_append.1 hQ with hQ | hQ
        · exact h1 Q hQ ha
        · rw [List.mem_singleton.1 hQ] at ha
          cases ha
    · exact .intro h _
  | change k c =>
    simp only [Mem.exec, Val.exec, hobj]
    rcases e : H.objs[k]? with _ | O
    · exact .intro h _
    · simp only [Option.map_some]
      have hO : O ∈ H.objs := List.mem_of_getElem? e
      have hc := change_upd w (O.correlation.map H.cell) O.dag c
      rw [← value_eq] at hc
      rw [hc]
      have hx : ∀ G, Ext H O H ⟨G, O.correlation⟩ := fun G =>
        ⟨rfl, rfl, le_rfl, fun _ _ => rfl, fun b hb => ⟨h.ob O hO b hb, Or.inl hb⟩⟩
      rcases c.run w O.dag with _ | ⟨G, _ | x⟩
      · exact Or.inl ⟨rfl, rfl⟩
      · exact .intro (rel_set h e (hx G)) _
      · exact .intro (rel_set h e (hx G)) _
  | read k c =>
    simp only [Mem.exec, Val.exec, hobj]
    rcases e : H.objs[k]? with _ | O
    · exact .intro h _
    · simp only [Option.map_some]
      have hO : O ∈ H.objs := List.mem_of_getElem? e
      have hc := read_upd (O.correlation.map H.cell) O.dag c
      rw [← value_eq] at hc
      rw [hc]
      have hx : ∀ G, Ext H O H ⟨G, O.correlation⟩ := fun G =>
        ⟨rfl, rfl, le_rfl, fun _ _ => rfl, fun b hb => ⟨h.ob O hO b hb, Or.inl hb⟩⟩
      rcases c.run O.dag with x | ⟨m, G⟩
      · exact .intro h _
      · exact .intro (rel_array (rel_set h e (hx G)) m) _
  | correlation k =>
    simp only [Mem.exec, Val.exec, hobj]
    rcases e : H.objs[k]? with _ | O
    · exact .intro h _
    · simp only [Option.map_some]
      have hO : O ∈ H.objs := List.mem_of_getElem? e
      have hs := readCorrelation_spec (h.ob O hO)
      rcases er : H.readCorrelation O with x | ⟨a, H1, O1⟩ <;> rw [er] at hs <;> dsimp only at hs
      · rw [hs]
        exact .intro h _
      · obtain ⟨hv, hx, hk⟩ := hs
        rw [hv]
        refine .intro (rel_push (rel_set h e hx) (O := O1) ?_ hk) _
        refine List.mem_of_getElem? (i := k) ?_
        have hl : k < H1.objs.length := by rw [hx.objs]; exact (List.getElem?_eq_some_iff.1 e).1
        simp [hl]
  | partialCorrelation k i j cond =>
    simp only [Mem.exec, Val.exec, hobj]
    rcases e : H.objs[k]? with _ | O
    · exact .intro h _
    · simp only [Option.map_some]
      have hO : O ∈ H.objs := List.mem_of_getElem? e
      have hs := readCorrelation_spec (h.ob O hO)
      have hpc := partialCorrelation_eq w.cond (H.value O) i j cond
      rcases er : H.readCorrelation O with x | ⟨a, H1, O1⟩ <;> rw [er] at hs <;> dsimp only at hs
      · rw [hs] at hpc ⊢
        dsimp only
        have hset : V.objs.set k (H.value O) = V.objs := by
          refine List.ext_getElem? fun y => ?_
          rw [List.getElem?_set]
          split_ifs with h1 h2
          · subst h1; rw [hobj, e]; rfl
          · subst h1; exact (List.getElem?_eq_none (not_lt.1 h2)).symm
          · rfl
        rw [hset]
        exact Or.inr ⟨_, _, _, rfl, congrArg (fun o => some (_, o)) hpc, h⟩
      · obtain ⟨hv, hx, hk⟩ := hs
        rw [hv] at hpc ⊢
        exact Or.inr ⟨_, _, _, rfl, congrArg (fun o => some (_, o)) hpc, rel_set h e hx⟩

theorem run_rel (w : Orders) (l : List (Op n)) {H : Mem n} {V : Val n} (h : Rel H V) (hp : Val.Polite w V l) :
    (H.run w l = none ∧ V.run w l = none) ∨ ∃ H' V' os, H.run w l = some (H', os) ∧ V.run w l = some (V', os) ∧ Rel H' V' := by
  induction l generalizing H V with
  | nil => exact Or.inr ⟨H, V, [], rfl, rfl, h⟩
  | cons op l ih =>
    rcases exec_rel w h op hp.1 with ⟨h1, h2⟩ | ⟨H1, V1, o, h1, h2, h3⟩
    · exact Or.inl ⟨by simp [Mem.run, h1], by simp [Val.run, h2]⟩
    · rcases ih h3 (hp.2 _ h2) with ⟨h4, h5⟩ | ⟨H2, V2, os, h4, h5, h6⟩
      · exact Or.inl ⟨by simp [Mem.run, h1, h4], by simp [Val.run, h2, h5]⟩
      · exact Or.inr ⟨H2, V2, o :: os, by simp [Mem.run, h1, h4], by simp [Val.run, h2, h5], h6⟩

end Model.GaussCache
