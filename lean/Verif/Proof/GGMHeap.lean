import Verif.Spec.GGMValues

/-! # Simulation of `GGM` values by `GGM` objects in memory -/

namespace Model.GGMHeap

variable {n : ℕ}

/-- The object keeps the array at address `a`. -/
def Obj.Knows (O : Obj n) (a : ℕ) : Prop := a = O.precision ∨ O.covariance = some a ∨ O.correlation = some a

/-- The memory shows the values; arrays of variables that are not lent are known to nobody else. -/
structure Rel (H : Mem n) (V : Val n) : Prop where
  objs : V.objs = H.objs.map H.value
  vars : V.vars = H.vars.map H.cell
  ob : ∀ O ∈ H.objs, ∀ a, O.Knows a → a < H.next
  vb : ∀ a ∈ H.vars, a < H.next
  own : ∀ x a, x ∉ V.lent → H.vars[x]? = some a → (∀ O ∈ H.objs, ¬ O.Knows a) ∧ ∀ y, H.vars[y]? = some a → y = x

theorem rel_init : Rel (Mem.init : Mem n) Val.init := by
  constructor <;> simp [Mem.init, Val.init]

theorem value_congr {H H' : Mem n} {O : Obj n} (h : ∀ a, O.Knows a → H'.cell a = H.cell a) : H'.value O = H.value O := by
  unfold Mem.value
  have h1 : H'.cell O.precision = H.cell O.precision := h _ (Or.inl rfl)
  have h2 : O.covariance.map H'.cell = O.covariance.map H.cell := by
    rcases e : O.covariance with _ | a
    · rfl
    · simp [h a (Or.inr (Or.inl e))]
  have h3 : O.correlation.map H'.cell = O.correlation.map H.cell := by
    rcases e : O.correlation with _ | a
    · rfl
    · simp [h a (Or.inr (Or.inr e))]
  rw [h1, h2, h3]

/-- `H1` is `H` with more arrays; `O1` is `O` with possibly new arrays. -/
structure Ext (H : Mem n) (O : Obj n) (H1 : Mem n) (O1 : Obj n) : Prop where
  objs : H1.objs = H.objs
  vars : H1.vars = H.vars
  next : H.next ≤ H1.next
  cell : ∀ b < H.next, H1.cell b = H.cell b
  bound : ∀ b, O1.Knows b → b < H1.next ∧ (O.Knows b ∨ H.next ≤ b)

theorem alloc_cell (H : Mem n) (m : Matrix (Fin n) (Fin n) ℝ) {b : ℕ} (hb : b < H.next) : (H.alloc m).cell b = H.cell b :=
  Function.update_of_ne hb.ne _ _

theorem alloc_new (H : Mem n) (m : Matrix (Fin n) (Fin n) ℝ) : (H.alloc m).cell H.next = m := Function.update_self _ _ _

theorem readCovariance_spec {H : Mem n} {O : Obj n} (hO : ∀ a, O.Knows a → a < H.next) :
    match H.readCovariance O with
    | .error e => (H.value O).readCovariance = .error e
    | .ok (a, H1, O1) => (H.value O).readCovariance = .ok (H1.cell a, H1.value O1) ∧ Ext H O H1 O1 ∧ O1.Knows a ∧
        O1.correlation = O.correlation := by
  unfold Mem.readCovariance GGM.readCovariance
  rcases e : O.covariance with _ | a
  · have e1 : (H.value O).covariance = none := by simp [Mem.value, e]
    have e2 : (H.value O).precision = H.cell O.precision := rfl
    rw [e1, e2]
    dsimp only
    rcases Gauss.invOrRaise (H.cell O.precision) with x | S
    · rfl
    · dsimp only
      refine ⟨?_, ⟨rfl, rfl, Nat.le_succ _, fun b hb => alloc_cell H S hb, ?_⟩, Or.inr (Or.inl rfl), rfl⟩
      · rw [alloc_new]
        congr 2
        unfold Mem.value
        dsimp only
        rw [alloc_cell H S (hO _ (Or.inl rfl)), Option.map_some, alloc_new]
        congr 1
        rcases e3 : O.correlation with _ | c
        · rfl
        · simp [alloc_cell H S (hO c (Or.inr (Or.inr e3)))]
      · rintro b (hb | hb | hb)
        · exact ⟨Nat.lt_succ_of_lt (hO b (Or.inl hb)), Or.inl (Or.inl hb)⟩
        · cases hb
          exact ⟨Nat.lt_succ_self _, Or.inr le_rfl⟩
        · exact ⟨Nat.lt_succ_of_lt (hO b (Or.inr (Or.inr hb))), Or.inl (Or.inr (Or.inr hb))⟩
  · have e1 : (H.value O).covariance = some (H.cell a) := by simp [Mem.value, e]
    rw [e1]
    exact ⟨rfl, ⟨rfl, rfl, le_rfl, fun _ _ => rfl, fun b hb => ⟨hO b hb, Or.inl hb⟩⟩, Or.inr (Or.inl e), rfl⟩

theorem readCorrelation_spec {H : Mem n} {O : Obj n} (hO : ∀ a, O.Knows a → a < H.next) :
    match H.readCorrelation O with
    | .error e => (H.value O).readCorrelation = .error e
    | .ok (a, H1, O1) => (H.value O).readCorrelation = .ok (H1.cell a, H1.value O1) ∧ Ext H O H1 O1 ∧ O1.Knows a := by
  unfold Mem.readCorrelation GGM.readCorrelation
  rcases e : O.correlation with _ | a
  · have e1 : (H.value O).correlation = none := by simp [Mem.value, e]
    rw [e1]
    dsimp only
    have hs := readCovariance_spec hO
    rcases ec : H.readCovariance O with x | ⟨a, H1, O1⟩ <;> rw [ec] at hs <;> dsimp only at hs ⊢
    · rw [hs]
    · obtain ⟨hv, hx, hk, hc⟩ := hs
      rw [hv]
      dsimp only
      have ha : a < H1.next := (hx.bound a hk).1
      refine ⟨?_, ⟨hx.objs, hx.vars, hx.next.trans (Nat.le_succ _), fun b hb => ?_, ?_⟩, Or.inr (Or.inr rfl)⟩
      · rw [alloc_new]
        congr 2
        unfold Mem.value
        dsimp only
        rw [alloc_cell _ _ (hx.bound _ (Or.inl rfl)).1, Option.map_some, alloc_new]
        congr 1
        rcases e3 : O1.covariance with _ | c
        · rfl
        · simp [alloc_cell _ _ (hx.bound c (Or.inr (Or.inl e3))).1]
      · exact (alloc_cell _ _ (lt_of_lt_of_le hb hx.next)).trans (hx.cell b hb)
      · rintro b (hb | hb | hb)
        · exact ⟨Nat.lt_succ_of_lt (hx.bound b (Or.inl hb)).1, (hx.bound b (Or.inl hb)).2⟩
        · exact ⟨Nat.lt_succ_of_lt (hx.bound b (Or.inr (Or.inl hb))).1, (hx.bound b (Or.inr (Or.inl hb))).2⟩
        · cases hb
          exact ⟨Nat.lt_succ_self _, Or.inr hx.next⟩
  · have e1 : (H.value O).correlation = some (H.cell a) := by simp [Mem.value, e]
    rw [e1]
    exact ⟨rfl, ⟨rfl, rfl, le_rfl, fun _ _ => rfl, fun b hb => ⟨hO b hb, Or.inl hb⟩⟩, Or.inr (Or.inr e)⟩

theorem partialCorrelation_eq (oc : SetOrder Unit ℕ) (G : GGM n) (i j : ℕ) (cond : Finset ℕ) :
    (match G.partialCorrelation oc i j cond with
      | .error e => (Out.raised e : Out n)
      | .ok (r, _) => .number r) =
    match G.readCorrelation with
    | .error e => .raised e
    | .ok (R, _) => .ofExcept (partialOf oc R i j cond) := by
  unfold GGM.partialCorrelation partialOf
  rcases G.readCorrelation with e | ⟨R, G1⟩
  · rfl
  · dsimp only
    split_ifs with h
    · rcases Gauss.at? n i with _ | a
      · rfl
      · rcases Gauss.at? n j with _ | b <;> rfl
    · rcases Gauss.positions n (Matrix.vecCons i (Matrix.vecCons j (oc.ord () cond).get)) with _ | l
      · rfl
      · dsimp only
        rcases Gauss.invOrRaise (R.submatrix l l) with e | θ <;> rfl

/-- An object is replaced by an extended one. -/
theorem rel_set {H : Mem n} {V : Val n} (h : Rel H V) {k : ℕ} {O : Obj n} (hk : H.objs[k]? = some O) {H1 : Mem n} {O1 : Obj n}
    (hx : Ext H O H1 O1) : Rel { H1 with objs := H1.objs.set k O1 } { V with objs := V.objs.set k (H1.value O1) } := by
  have hO : O ∈ H.objs := List.mem_of_getElem? hk
  refine ⟨?_, ?_, ?_, ?_, ?_⟩
  · dsimp only
    rw [List.map_set, hx.objs, h.objs]
    congr 1
    refine List.map_congr_left fun Q hQ => ?_
    exact (value_congr fun a ha => hx.cell a (h.ob Q hQ a ha)).symm
  · dsimp only
    rw [hx.vars, h.vars]
    exact List.map_congr_left fun a ha => (hx.cell a (h.vb a ha)).symm
  · intro Q hQ a ha
    rcases List.mem_or_eq_of_mem_set hQ with hQ | rfl
    · rw [hx.objs] at hQ
      exact lt_of_lt_of_le (h.ob Q hQ a ha) hx.next
    · exact (hx.bound a ha).1
  · intro a ha
    rw [hx.vars] at ha
    exact lt_of_lt_of_le (h.vb a ha) hx.next
  · intro x a hxl hxa
    dsimp only at hxl hxa ⊢
    rw [hx.vars] at hxa ⊢
    obtain ⟨h1, h2⟩ := h.own x a hxl hxa
    refine ⟨fun Q hQ hka => ?_, h2⟩
    rcases List.mem_or_eq_of_mem_set hQ with hQ | rfl
    · rw [hx.objs] at hQ
      exact h1 Q hQ hka
    · rcases (hx.bound a hka).2 with hk' | hk'
      · exact h1 O hO hk'
      · exact absurd (h.vb a (List.mem_of_getElem? hxa)) (not_lt.2 hk')

/-- A variable for an array of an object. -/
theorem rel_push {H : Mem n} {V : Val n} (h : Rel H V) {O : Obj n} (hO : O ∈ H.objs) {a : ℕ} (ha : O.Knows a) :
    Rel { H with vars := H.vars ++ [a] } ⟨V.objs, V.vars ++ [H.cell a], insert V.vars.length V.lent⟩ := by
  have hlen : V.vars.length = H.vars.length := by rw [h.vars, List.length_map]
  refine ⟨h.objs, ?_, h.ob, ?_, ?_⟩
  · simp [h.vars]
  · intro b hb
    rcases List.mem_append.1 hb with hb | hb
    · exact h.vb b hb
    · rw [List.mem_singleton.1 hb]
      exact h.ob O hO a ha
  · intro x b hx hxb
    dsimp only at hx hxb ⊢
    rw [Finset.mem_insert, not_or] at hx
    have hlt : x < H.vars.length := by
      rcases lt_trichotomy x H.vars.length with hl | hl | hl
      · exact hl
      · exact absurd (hl.trans hlen.symm) hx.1
      · rw [List.getElem?_eq_none (by simp; omega)] at hxb
        cases hxb
    rw [List.getElem?_append_left hlt] at hxb
    obtain ⟨h1, h2⟩ := h.own x b hx.2 hxb
    refine ⟨h1, fun y hy => ?_⟩
    rcases lt_or_ge y H.vars.length with hl | hl
    · rw [List.getElem?_append_left hl] at hy
      exact h2 y hy
    · rw [List.getElem?_append_right hl] at hy
      have : b = a := by
        rcases List.mem_of_getElem? hy with _ | hb
        · rfl
        · contradiction
      exact absurd (this ▸ ha) (h1 O hO)

/-- An object is added; the variable `x` for one of its arrays becomes lent. -/
theorem rel_add {H : Mem n} {V : Val n} (h : Rel H V) {x a : ℕ} (hxa : H.vars[x]? = some a) {O : Obj n}
    {H1 : Mem n} (h1o : H1.objs = H.objs) (h1v : H1.vars = H.vars) (hn : H.next ≤ H1.next) (hc : ∀ b < H.next, H1.cell b = H.cell b)
    (hk : ∀ b, O.Knows b → b < H1.next ∧ (b = a ∨ H.next ≤ b)) :
    Rel { H1 with objs := H1.objs ++ [O] } { V with objs := V.objs ++ [H1.value O], lent := insert x V.lent } := by
  refine ⟨?_, ?_, ?_, ?_, ?_⟩
  · dsimp only
    rw [List.map_append, h1o, h.objs]
    congr 1
    exact List.map_congr_left fun Q hQ => (value_congr fun b hb => hc b (h.ob Q hQ b hb)).symm
  · dsimp only
    rw [h1v, h.vars]
    exact List.map_congr_left fun b hb => (hc b (h.vb b hb)).symm
  · intro Q hQ b hb
    rcases List.mem_append.1 hQ with hQ | hQ
    · rw [h1o] at hQ
      exact lt_of_lt_of_le (h.ob Q hQ b hb) hn
    · rw [List.mem_singleton.1 hQ] at hb
      exact (hk b hb).1
  · intro b hb
    rw [h1v] at hb
    exact lt_of_lt_of_le (h.vb b hb) hn
  · intro y b hy hyb
    dsimp only at hy hyb ⊢
    rw [h1v] at hyb ⊢
    rw [Finset.mem_insert, not_or] at hy
    obtain ⟨h1, h2⟩ := h.own y b hy.2 hyb
    refine ⟨fun Q hQ hQb => ?_, h2⟩
    rcases List.mem_append.1 hQ with hQ | hQ
    · rw [h1o] at hQ
      exact h1 Q hQ hQb
    · rw [List.mem_singleton.1 hQ] at hQb
      rcases (hk b hQb).2 with rfl | hge
      · exact hy.1 (h2 x hxa).symm
      · exact absurd (h.vb b (List.mem_of_getElem? hyb)) (not_lt.2 hge)

theorem exec_rel (w : Orders) {H : Mem n} {V : Val n} (h : Rel H V) (op : Op n) (hp : ∀ x m, op = .write x m → x ∉ V.lent) :
    Rel (H.exec w op).1 (V.exec w op).1 ∧ (H.exec w op).2 = (V.exec w op).2 := by
  have hvar : ∀ x, V.vars[x]? = (H.vars[x]?).map H.cell := fun x => by rw [h.vars, List.getElem?_map]
  have hobj : ∀ k, V.objs[k]? = (H.objs[k]?).map H.value := fun k => by rw [h.objs, List.getElem?_map]
  cases op with
  | array m =>
    refine ⟨⟨?_, ?_, ?_, ?_, ?_⟩, rfl⟩
    · simp only [Val.exec, Mem.exec, h.objs]
      exact List.map_congr_left fun Q hQ => (value_congr fun b hb => alloc_cell H m (h.ob Q hQ b hb)).symm
    · simp only [Val.exec, Mem.exec, h.vars, List.map_append, List.map_cons, List.map_nil]
      rw [alloc_new]
      congr 1
      exact List.map_congr_left fun b hb => (alloc_cell H m (h.vb b hb)).symm
    · exact fun Q hQ b hb => Nat.lt_succ_of_lt (h.ob Q hQ b hb)
    · intro b hb
      rcases List.mem_append.1 hb with hb | hb
      · exact Nat.lt_succ_of_lt (h.vb b hb)
      · rw [List.mem_singleton.1 hb]
        exact Nat.lt_succ_self _
    · intro x b hx hxb
      simp only [Mem.exec] at hxb ⊢
      have hlast : ∀ z c, (H.vars ++ [H.next])[z]? = some c → (z < H.vars.length ∧ H.vars[z]? = some c) ∨ (z = H.vars.length ∧ c = H.next) := by
        intro z c hz
        rcases lt_trichotomy z H.vars.length with hl | hl | hl
        · rw [List.getElem?_append_left hl] at hz
          exact Or.inl ⟨hl, hz⟩
        · subst hl
          simp at hz
          exact Or.inr ⟨rfl, hz.symm⟩
        · rw [List.getElem?_eq_none (by simp; omega)] at hz
          cases hz
      rcases hlast x b hxb with ⟨hl, hb⟩ | ⟨rfl, rfl⟩
      · obtain ⟨h1, h2⟩ := h.own x b hx hb
        refine ⟨h1, fun y hy => ?_⟩
        rcases hlast y b hy with ⟨_, hy'⟩ | ⟨_, rfl⟩
        · exact h2 y hy'
        · exact absurd (h.vb _ (List.mem_of_getElem? hb)) (lt_irrefl _)
      · refine ⟨fun Q hQ hk => lt_irrefl _ (h.ob Q hQ _ hk), fun y hy => ?_⟩
        rcases hlast y _ hy with ⟨_, hy'⟩ | ⟨rfl, _⟩
        · exact absurd (h.vb _ (List.mem_of_getElem? hy')) (lt_irrefl _)
        · rfl
  | write x m =>
    have hx : x ∉ V.lent := hp x m rfl
    rcases e : H.vars[x]? with _ | a
    · have hlen : V.vars.length ≤ x := by
        rw [h.vars, List.length_map]
        exact List.getElem?_eq_none_iff.1 e
      simp only [Mem.exec, Val.exec, e, List.set_eq_of_length_le hlen]
      exact ⟨h, trivial⟩
    · obtain ⟨h1, h2⟩ := h.own x a hx e
      simp only [Mem.exec, Val.exec, e]
      refine ⟨⟨?_, ?_, h.ob, h.vb, h.own⟩, trivial⟩
      · dsimp only
        rw [h.objs]
        refine List.map_congr_left fun Q hQ => (value_congr fun b hb => ?_).symm
        exact Function.update_of_ne (fun hba => h1 Q hQ (by rwa [hba] at hb)) _ _
      · dsimp only
        rw [h.vars]
        refine List.ext_getElem? fun y => ?_
        rw [List.getElem?_set, List.getElem?_map, List.getElem?_map]
        by_cases hyx : x = y
        · subst hyx
          have hl : x < H.vars.length := (List.getElem?_eq_some_iff.1 e).1
          rw [if_pos rfl, e]
          simp [hl]
        · rw [if_neg hyx]
          rcases ey : H.vars[y]? with _ | b
          · rfl
          · have : b ≠ a := fun hba => hyx (h2 y (by rw [ey, hba])).symm
            simp [Function.update_of_ne this]
  | new x means =>
    simp only [Mem.exec, Val.exec, hvar]
    rcases e : H.vars[x]? with _ | a
    · exact ⟨h, rfl⟩
    · refine ⟨rel_add h e rfl rfl le_rfl (fun _ _ => rfl) ?_, rfl⟩
      rintro b (rfl | hb | hb)
      · exact ⟨h.vb _ (List.mem_of_getElem? e), Or.inl rfl⟩
      · cases hb
      · cases hb
  | fromCovariance x means =>
    simp only [Mem.exec, Val.exec, hvar, GGM.fromCovariance]
    rcases e : H.vars[x]? with _ | a
    · exact ⟨h, rfl⟩
    · simp only [Option.map_some]
      have ha : a < H.next := h.vb _ (List.mem_of_getElem? e)
      rcases Gauss.invOrRaise (H.cell a) with er | p
      · exact ⟨h, rfl⟩
      · dsimp only
        have := rel_add (H1 := H.alloc p) (O := { (H.alloc p).construct w H.next means with covariance := some a }) h e rfl rfl
          (Nat.le_succ _) (fun b hb => alloc_cell H p hb) (by
            rintro b (rfl | hb | hb)
            · exact ⟨Nat.lt_succ_self _, Or.inr le_rfl⟩
            · cases hb
              exact ⟨Nat.lt_succ_of_lt ha, Or.inl rfl⟩
            · cases hb)
        have hv : (H.alloc p).value { (H.alloc p).construct w H.next means with covariance := some a } =
            { GGM.new w.nodes w.edges w.pair p means with covariance := some (H.cell a) } := by
          unfold Mem.value Mem.construct GGM.new
          simp only [alloc_new, Option.map_some, alloc_cell H p ha, Option.map_none]
        rw [hv] at this
        exact ⟨this, rfl⟩
  | covariance k =>
    simp only [Mem.exec, Val.exec, hobj]
    rcases e : H.objs[k]? with _ | O
    · exact ⟨h, rfl⟩
    · simp only [Option.map_some]
      have hO : O ∈ H.objs := List.mem_of_getElem? e
      have hs := readCovariance_spec (h.ob O hO)
      rcases er : H.readCovariance O with x | ⟨a, H1, O1⟩ <;> rw [er] at hs <;> dsimp only at hs
      · rw [hs]
        exact ⟨h, rfl⟩
      · obtain ⟨hv, hx, hk, -⟩ := hs
        rw [hv]
        dsimp only
        refine ⟨rel_push (rel_set h e hx) (O := O1) ?_ hk, rfl⟩
        refine List.mem_of_getElem? (i := k) ?_
        have hl : k < H1.objs.length := by rw [hx.objs]; exact (List.getElem?_eq_some_iff.1 e).1
        simp [hl]
  | correlation k =>
    simp only [Mem.exec, Val.exec, hobj]
    rcases e : H.objs[k]? with _ | O
    · exact ⟨h, rfl⟩
    · simp only [Option.map_some]
      have hO : O ∈ H.objs := List.mem_of_getElem? e
      have hs := readCorrelation_spec (h.ob O hO)
      rcases er : H.readCorrelation O with x | ⟨a, H1, O1⟩ <;> rw [er] at hs <;> dsimp only at hs
      · rw [hs]
        exact ⟨h, rfl⟩
      · obtain ⟨hv, hx, hk⟩ := hs
        rw [hv]
        dsimp only
        refine ⟨rel_push (rel_set h e hx) (O := O1) ?_ hk, rfl⟩
        refine List.mem_of_getElem? (i := k) ?_
        have hl : k < H1.objs.length := by rw [hx.objs]; exact (List.getElem?_eq_some_iff.1 e).1
        simp [hl]
  | partialCorrelation k i j cond =>
    simp only [Mem.exec, Val.exec, hobj]
    rcases e : H.objs[k]? with _ | O
    · exact ⟨h, rfl⟩
    · simp only [Option.map_some]
      have hO : O ∈ H.objs := List.mem_of_getElem? e
      have hs := readCorrelation_spec (h.ob O hO)
      have hpc := partialCorrelation_eq w.cond (H.value O) i j cond
      rcases er : H.readCorrelation O with x | ⟨a, H1, O1⟩ <;> rw [er] at hs <;> dsimp only at hs
      · rw [hs] at hpc ⊢
        dsimp only
        refine ⟨?_, hpc.symm⟩
        have : V.objs.set k (H.value O) = V.objs := by
          refine List.ext_getElem? fun y => ?_
          rw [List.getElem?_set]
          split_ifs with h1 h2
          · subst h1; rw [hobj, e]; rfl
          · subst h1; exact (List.getElem?_eq_none (not_lt.1 h2)).symm
          · rfl
        rw [this]
        exact h
      · obtain ⟨hv, hx, hk⟩ := hs
        rw [hv] at hpc ⊢
        exact ⟨rel_set h e hx, hpc.symm⟩

theorem run_rel (w : Orders) (l : List (Op n)) {H : Mem n} {V : Val n} (h : Rel H V) (hp : Val.Polite w V l) :
    Rel (H.run w l).1 (V.run w l).1 ∧ (H.run w l).2 = (V.run w l).2 := by
  induction l generalizing H V with
  | nil => exact ⟨h, rfl⟩
  | cons op l ih =>
    obtain ⟨h1, h2⟩ := exec_rel w h op hp.1
    obtain ⟨h3, h4⟩ := ih h1 hp.2
    exact ⟨h3, by simp only [Mem.run, Val.run, h2, h4]⟩

end Model.GGMHeap
