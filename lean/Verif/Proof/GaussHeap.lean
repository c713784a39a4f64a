import Verif.Spec.GaussValues

/-! # Graphs with node lists of their own behave like values -/

namespace Model.Gauss

variable {K : Type} [Field K] [DecidableEq K]

/-! ### The constructor keeps the node list -/

omit [DecidableEq K] in
theorem removeArc_names {n : ℕ} (G : Gauss n K) (i j : ℕ) : (G.removeArc i j).1.names = G.names := by
  unfold removeArc
  split
  · dsimp only
    split <;> rfl
  · rfl

omit [DecidableEq K] in
theorem forEach_names {n : ℕ} (l : List ((ℕ × ℕ) × K)) (G : Gauss n K) :
    (forEach (fun G (e : (ℕ × ℕ) × K) => G.removeArc e.1.1 e.1.2) l G).1.names = G.names := by
  induction l generalizing G with
  | nil => rfl
  | cons e l ih =>
    have h1 := removeArc_names G e.1.1 e.1.2
    rw [forEach]
    split
    · rename_i G' e' he
      rw [he] at h1; exact h1
    · rename_i G' he
      rw [he] at h1; exact (ih G').trans h1

theorem new_names {n : ℕ} (oa : SetOrder Bool (ℕ × ℕ)) (names : Fin n → ℕ) (arcs : List ((ℕ × ℕ) × K)) (biases variances : Fin n → K) :
    (new oa names arcs biases variances).1.names = names := by
  have hset : ∀ G : Gauss n K, (setArcWeights oa G arcs).1.names = G.names := by
    intro G
    unfold setArcWeights
    split
    · rfl
    · split
      · rfl
      · rename_i W _
        have := forEach_names (arcs.filter fun e => e.2 = 0) { G with weight := W }
        split
        · rename_i G' e he
          rw [he] at this; exact this
        · rename_i G' he
          rw [he] at this
          dsimp only
          split
          · exact this
          · exact this
  unfold new
  dsimp only
  split
  · rename_i G e he
    exact (congrArg (fun r => r.1.names) he).symm.trans (hset _)
  · rename_i G he
    have : G.names = names := (congrArg (fun r => r.1.names) he).symm.trans (hset _)
    split <;> exact this

/-! ### Simulation -/

/-- The memory shows the values: the lists not given away agree, the node lists of the objects are different and have been given away. -/
structure Shows (h : Mem K) (s : Vals K) (used : Finset ℕ) : Prop where
  next : h.next = s.next
  lists : ∀ l ∉ used, h.lists l = s.lists l
  objs : h.objs.map h.view = s.objs
  own : ∀ p ∈ h.objs, p.2 ∈ used
  nodup : (h.objs.map Prod.snd).Nodup
  lt : ∀ l ∈ used, l < h.next

omit [Field K] [DecidableEq K] in
theorem Shows.get {h : Mem K} {s : Vals K} {used : Finset ℕ} (hs : Shows h s used) (k : ℕ) : s.objs[k]? = (h.objs[k]?).map h.view := by
  rw [← hs.objs, List.getElem?_map]

omit [Field K] [DecidableEq K] in
theorem store_shows {h : Mem K} {s : Vals K} {used : Finset ℕ} (hs : Shows h s used) {k : ℕ} {p : Raw K × ℕ} (hp : h.objs[k]? = some p)
    (G : Raw K) : Shows (h.store k p.2 G) { s with objs := s.objs.set k G } used := by
  obtain ⟨hk, hp'⟩ := List.getElem?_eq_some_iff.1 hp
  have hmem : p ∈ h.objs := List.mem_of_getElem? hp
  have hsnd : (h.objs.set k (G, p.2)).map Prod.snd = h.objs.map Prod.snd := by
    rw [List.map_set]
    apply List.ext_getElem?
    intro m
    rw [List.getElem?_set]
    split
    · rename_i hkm
      subst hkm
      rw [List.getElem?_map, hp]
      simp [hk]
    · rfl
  refine ⟨hs.next, ?_, ?_, ?_, ?_, hs.lt⟩
  · intro l hl
    show Function.update h.lists p.2 G.names l = s.lists l
    rw [Function.update_of_ne]
    · exact hs.lists l hl
    · rintro rfl; exact hl (hs.own p hmem)
  · apply List.ext_getElem?
    intro m
    show ((h.objs.set k (G, p.2)).map (h.store k p.2 G).view)[m]? = (s.objs.set k G)[m]?
    rw [List.getElem?_map, List.getElem?_set, List.getElem?_set, hs.get m]
    have hlen : s.objs.length = h.objs.length := by rw [← hs.objs, List.length_map]
    rw [hlen]
    by_cases hkm : k = m
    · subst hkm
      rw [if_pos rfl, if_pos rfl, if_pos hk, if_pos hk]
      simp [Mem.view, Mem.store]
    · rw [if_neg hkm, if_neg hkm]
      cases hm : h.objs[m]? with
      | none => rfl
      | some q =>
        have hne : q.2 ≠ p.2 := by
          intro heq
          have h1 : (h.objs.map Prod.snd)[m]? = some q.2 := by rw [List.getElem?_map, hm]; rfl
          have h2 : (h.objs.map Prod.snd)[k]? = some q.2 := by rw [List.getElem?_map, hp, heq]; rfl
          have h3 : k < (h.objs.map Prod.snd).length := by rwa [List.length_map]
          exact hkm ((List.getElem?_inj h3 hs.nodup).1 (h2.trans h1.symm))
        simp [Mem.view, Mem.store, Function.update_of_ne hne]
  · intro q hq
    rcases List.mem_or_eq_of_mem_set hq with h1 | rfl
    · exact hs.own q h1
    · exact hs.own p hmem
  · show ((h.objs.set k (G, p.2)).map Prod.snd).Nodup
    rw [hsnd]; exact hs.nodup

theorem run_shows (l : List (GOrders × GAct K)) {h : Mem K} {s : Vals K} {used : Finset ℕ} (hs : Shows h s used)
    (hl : HandsOff h.next used l) :
    (h.run l).1.objs.map (h.run l).1.view = (s.run l).1.objs ∧ (h.run l).2 = (s.run l).2 := by
  induction l generalizing h s used with
  | nil => exact ⟨hs.objs, rfl⟩
  | cons q l ih =>
    obtain ⟨w, a⟩ := q
    have step : ∀ {h' : Mem K} {s' : Vals K} {used' : Finset ℕ} {x y : GOut}, h.exec w a = (h', x) → s.exec w a = (s', y) → x = y →
        Shows h' s' used' → HandsOff h'.next used' l →
        (h.run ((w, a) :: l)).1.objs.map (h.run ((w, a) :: l)).1.view = (s.run ((w, a) :: l)).1.objs ∧
          (h.run ((w, a) :: l)).2 = (s.run ((w, a) :: l)).2 := by
      intro h' s' used' x y e1 e2 e3 h1 h2
      have := ih h1 h2
      simp only [Mem.run, Vals.run, e1, e2]
      exact ⟨this.1, by rw [e3, this.2]⟩
    cases a with
    | list xs =>
      refine step rfl rfl rfl (used' := used) ⟨congrArg (· + 1) hs.next, ?_, ?_, hs.own, hs.nodup, ?_⟩ hl
      · intro l' hl'
        show Function.update h.lists h.next xs l' = Function.update s.lists s.next xs l'
        rw [← hs.next]
        by_cases e : l' = h.next
        · subst e; rw [Function.update_self, Function.update_self]
        · rw [Function.update_of_ne e, Function.update_of_ne e]; exact hs.lists l' hl'
      · show h.objs.map _ = s.objs
        rw [← hs.objs]
        refine List.map_congr_left fun p hp => ?_
        have : p.2 ≠ h.next := (hs.lt _ (hs.own p hp)).ne
        simp [Mem.view, Function.update_of_ne this]
      · exact fun l' hl' => Nat.lt_succ_of_lt (hs.lt l' hl')
    | new k arcs b v =>
      obtain ⟨h1, h2, h3⟩ := hl
      have e := hs.lists k h2
      rcases hr : Raw.new w.arcs (s.lists k) arcs b v with ⟨G, _ | x⟩
      · refine step (h' := { h with objs := h.objs ++ [(G, k)] }) (s' := { s with objs := s.objs ++ [G] }) (x := .done) (y := .done)
          (by simp only [Mem.exec, e, hr]) (by simp only [Vals.exec, hr]) rfl (used' := insert k used) ⟨hs.next, ?_, ?_, ?_, ?_, ?_⟩ h3
        · exact fun l' hl' => hs.lists l' fun h => hl' (Finset.mem_insert_of_mem h)
        · show (h.objs ++ [(G, k)]).map _ = _
          rw [List.map_append, show h.objs.map (Mem.view { h with objs := h.objs ++ [(G, k)] }) = s.objs from hs.objs]
          have : G.names = s.lists k := by
            have := congrArg (fun r => Raw.names r.1) hr
            dsimp only at this
            rw [← this]
            change List.ofFn (Gauss.new _ _ _ _ _).1.names = _
            rw [new_names]
            exact List.ofFn_get _
          simp [Mem.view, e, ← this]
        · intro p hp
          rcases List.mem_append.1 hp with hp | hp
          · exact Finset.mem_insert_of_mem (hs.own p hp)
          · rw [List.mem_singleton.1 hp]; exact Finset.mem_insert_self _ _
        · show ((h.objs ++ [(G, k)]).map Prod.snd).Nodup
          rw [List.map_append, List.nodup_append]
          refine ⟨hs.nodup, List.nodup_singleton _, ?_⟩
          intro x hx y hy
          rw [List.map_cons, List.map_nil, List.mem_singleton] at hy
          subst hy
          rintro rfl
          obtain ⟨p, hp, hpx⟩ := List.mem_map.1 hx
          exact h2 (hpx ▸ hs.own p hp)
        · intro l' hl'
          rcases Finset.mem_insert.1 hl' with rfl | hl'
          · exact h1
          · exact hs.lt l' hl'
      · refine step (h' := h) (s' := s) (x := .raised x) (y := .raised x)
          (by simp only [Mem.exec, e, hr]) (by simp only [Vals.exec, hr]) rfl (used' := insert k used)
          ⟨hs.next, fun l' hl' => hs.lists l' fun h => hl' (Finset.mem_insert_of_mem h), hs.objs,
            fun p hp => Finset.mem_insert_of_mem (hs.own p hp), hs.nodup, ?_⟩ h3
        intro l' hl'
        rcases Finset.mem_insert.1 hl' with rfl | hl'
        · exact h1
        · exact hs.lt l' hl'
    | addNode k v =>
      cases hk : h.objs[k]? with
      | none =>
        have hk' : s.objs[k]? = none := by rw [hs.get, hk]; rfl
        exact step (h' := h) (s' := s) (x := .done) (y := .done) (by simp only [Mem.exec, hk]) (by simp only [Vals.exec, hk']) rfl hs hl
      | some p =>
        have hk' : s.objs[k]? = some (h.view p) := by rw [hs.get, hk]; rfl
        exact step (by simp only [Mem.exec, hk]; rfl) (by simp only [Vals.exec, hk']) rfl (store_shows hs hk _) hl
    | removeNode k v =>
      cases hk : h.objs[k]? with
      | none =>
        have hk' : s.objs[k]? = none := by rw [hs.get, hk]; rfl
        exact step (h' := h) (s' := s) (x := .done) (y := .done) (by simp only [Mem.exec, hk]) (by simp only [Vals.exec, hk']) rfl hs hl
      | some p =>
        have hk' : s.objs[k]? = some (h.view p) := by rw [hs.get, hk]; rfl
        exact step (by simp only [Mem.exec, hk]; rfl) (by simp only [Vals.exec, hk']) rfl (store_shows hs hk _) hl
    | toDag k =>
      cases hk : h.objs[k]? with
      | none =>
        have hk' : s.objs[k]? = none := by rw [hs.get, hk]; rfl
        exact step (h' := h) (s' := s) (x := .done) (y := .done) (by simp only [Mem.exec, hk]) (by simp only [Vals.exec, hk']) rfl hs hl
      | some p =>
        have hk' : s.objs[k]? = some (h.view p) := by rw [hs.get, hk]; rfl
        exact step (by simp only [Mem.exec, hk]; rfl) (by simp only [Vals.exec, hk']) rfl hs hl
    | change k xs =>
      obtain ⟨h1, h2⟩ := hl
      by_cases hk : k < h.next
      · refine step (h' := { h with lists := Function.update h.lists k xs }) (s' := { s with lists := Function.update s.lists k xs })
          (x := .done) (y := .done) (by simp only [Mem.exec, if_pos hk]) (by simp only [Vals.exec, if_pos (hs.next ▸ hk)]) rfl (used' := used)
          ⟨hs.next, ?_, ?_, hs.own, hs.nodup, hs.lt⟩ h2
        · intro l' hl'
          show Function.update h.lists k xs l' = Function.update s.lists k xs l'
          by_cases e : l' = k
          · subst e; rw [Function.update_self, Function.update_self]
          · rw [Function.update_of_ne e, Function.update_of_ne e]; exact hs.lists l' hl'
        · show h.objs.map _ = s.objs
          rw [← hs.objs]
          refine List.map_congr_left fun p hp => ?_
          have : p.2 ≠ k := fun e => h1 (e ▸ hs.own p hp)
          simp [Mem.view, Function.update_of_ne this]
      · exact step (h' := h) (s' := s) (x := .done) (y := .done) (by simp only [Mem.exec, if_neg hk])
          (by simp only [Vals.exec, if_neg (hs.next ▸ hk)]) rfl hs h2
    | look k =>
      obtain ⟨h1, h2⟩ := hl
      exact step rfl rfl (by rw [hs.lists k h1]) hs h2

end Model.Gauss
