import Verif.Spec.UGValues

/-! # Objects in memory behave like values as long as no lent set is changed -/

namespace Model.Heap

universe u
variable {α : Type u} [DecidableEq α]

/-- No two attributes refer to the same set, and none to a set of the caller. -/
structure Apart (h : Heap α) : Prop where
  inj : ∀ {k s k' s' l}, h.slot k s = some l → h.slot k' s' = some l → k = k' ∧ s = s'
  lt : ∀ {k s l}, h.slot k s = some l → l < h.next
  free : ∀ {k s l}, h.slot k s = some l → l ∉ h.held
  heldLt : ∀ l ∈ h.held, l < h.next
  absent : ∀ {k s}, h.count ≤ k → h.slot k s = none
  injE : ∀ {k k' l}, h.eslot k = some l → h.eslot k' = some l → k = k'
  ltE : ∀ {k l}, h.eslot k = some l → l < h.next
  freeE : ∀ {k l}, h.eslot k = some l → l ∉ h.heldE
  heldLtE : ∀ l ∈ h.heldE, l < h.next
  someE : ∀ {k}, k < h.count → ∃ l, h.eslot k = some l
  noneE : ∀ {k}, h.count ≤ k → h.eslot k = none

omit [DecidableEq α] in
theorem start_sep : Apart (start α) := by
  constructor <;> simp [start]

/-- `h'` arises from `h` by changing object `k` to `U`. -/
structure Upd (h h' : Heap α) (k : ℕ) (U : UG α) : Prop where
  sep : Apart h'
  view : h'.view k = U
  other : ∀ k', k' ≠ k → h'.view k' = h.view k'
  count : h'.count = h.count

omit [DecidableEq α] in
theorem Upd.refl {h : Heap α} (hs : Apart h) (k : ℕ) : Upd h h k (h.view k) := ⟨hs, rfl, fun _ _ => rfl, rfl⟩

omit [DecidableEq α] in
theorem Upd.trans {h h' h'' : Heap α} {k : ℕ} {U V : UG α} (h1 : Upd h h' k U) (h2 : Upd h' h'' k V) : Upd h h'' k V :=
  ⟨h2.sep, h2.view, fun k' hk => (h2.other k' hk).trans (h1.other k' hk), h2.count.trans h1.count⟩

theorem touch_sep {h : Heap α} (hs : Apart h) {k : ℕ} (hk : k < h.count) (s : Slot α) : Apart (h.touch k s) := by
  unfold touch
  cases e : h.slot k s with
  | some l => exact hs
  | none =>
    have key : ∀ k' s' l, Function.update h.slot k (Function.update (h.slot k) s (some h.next)) k' s' = some l →
        (k' = k ∧ s' = s ∧ l = h.next) ∨ (h.slot k' s' = some l) := by
      intro k' s' l hl
      by_cases h1 : k' = k
      · subst h1
        rw [Function.update_self] at hl
        by_cases h2 : s' = s
        · subst h2
          rw [Function.update_self] at hl
          exact .inl ⟨rfl, rfl, (Option.some.inj hl).symm⟩
        · rw [Function.update_of_ne h2] at hl; exact .inr hl
      · rw [Function.update_of_ne h1] at hl; exact .inr hl
    constructor
    · intro k1 s1 k2 s2 l h1 h2
      rcases key _ _ _ h1 with ⟨r1, r2, r3⟩ | g1 <;> rcases key _ _ _ h2 with ⟨q1, q2, q3⟩ | g2
      · exact ⟨r1.trans q1.symm, r2.trans q2.symm⟩
      · exact absurd (hs.lt g2) (r3 ▸ lt_irrefl _)
      · exact absurd (hs.lt g1) (q3 ▸ lt_irrefl _)
      · exact hs.inj g1 g2
    · intro k1 s1 l h1
      rcases key _ _ _ h1 with ⟨_, _, rfl⟩ | h1
      · exact Nat.lt_succ_self _
      · exact Nat.lt_succ_of_lt (hs.lt h1)
    · intro k1 s1 l h1
      rcases key _ _ _ h1 with ⟨_, _, rfl⟩ | h1
      · exact fun h2 => absurd (hs.heldLt _ h2) (lt_irrefl _)
      · exact hs.free h1
    · exact fun l hl => Nat.lt_succ_of_lt (hs.heldLt l hl)
    · intro k1 s1 h1
      have : k1 ≠ k := by rintro rfl; exact absurd hk (not_lt.2 h1)
      exact (congrFun (Function.update_of_ne this _ _) s1).trans (hs.absent h1)
    · exact hs.injE
    · exact fun h1 => Nat.lt_succ_of_lt (hs.ltE h1)
    · exact hs.freeE
    · exact fun l hl => Nat.lt_succ_of_lt (hs.heldLtE l hl)
    · exact hs.someE
    · exact hs.noneE

theorem touch_val {h : Heap α} (hs : Apart h) (k : ℕ) (s : Slot α) (k' : ℕ) (s' : Slot α) : (h.touch k s).val k' s' = h.val k' s' := by
  unfold touch
  cases e : h.slot k s with
  | some l => rfl
  | none =>
    by_cases hks : k' = k ∧ s' = s
    · obtain ⟨rfl, rfl⟩ := hks
      simp [val, e]
    · have h1 : Function.update h.slot k (Function.update (h.slot k) s (some h.next)) k' s' = h.slot k' s' := by
        by_cases h1 : k' = k
        · subst h1
          rw [Function.update_self, Function.update_of_ne (fun h2 => hks ⟨rfl, h2⟩)]
        · rw [Function.update_of_ne h1]
      simp only [val, h1]
      cases e' : h.slot k' s' with
      | none => rfl
      | some l => exact Function.update_of_ne (hs.lt e').ne _ _

theorem touch_rest (h : Heap α) (k : ℕ) (s : Slot α) :
    (h.touch k s).es = h.es ∧ (h.touch k s).count = h.count ∧ (h.touch k s).eslot = h.eslot ∧ (h.touch k s).deg = h.deg := by
  unfold touch
  cases h.slot k s <;> exact ⟨rfl, rfl, rfl, rfl⟩

theorem touch_evalE (h : Heap α) (k : ℕ) (s : Slot α) (k' : ℕ) : (h.touch k s).evalE k' = h.evalE k' := by
  obtain ⟨h1, _, h2, _⟩ := touch_rest h k s
  simp only [evalE, h1, h2]

theorem touch_view {h : Heap α} (hs : Apart h) (k : ℕ) (s : Slot α) (k' : ℕ) : (h.touch k s).view k' = h.view k' := by
  simp only [view, touch_val hs, touch_evalE, (touch_rest h k s).2.2.2]

theorem touch_upd {h : Heap α} (hs : Apart h) {k : ℕ} (hk : k < h.count) (s : Slot α) : Upd h (h.touch k s) k (h.view k) :=
  ⟨touch_sep hs hk s, touch_view hs k s k, fun k' _ => touch_view hs k s k', (touch_rest h k s).2.1⟩

theorem touch_some (h : Heap α) (k : ℕ) (s : Slot α) : ∃ l, (h.touch k s).slot k s = some l := by
  unfold touch
  cases e : h.slot k s with
  | some l => exact ⟨l, e⟩
  | none => exact ⟨h.next, by simp⟩

omit [DecidableEq α] in
/-- A change of memory that leaves the references alone. -/
theorem Apart.content {h : Heap α} (hs : Apart h) (ns : ℕ → Finset α) (es : ℕ → Finset (Finset α)) (deg : ℕ → α → ℤ) (lent : Finset ℕ) :
    Apart { h with ns := ns, es := es, deg := deg, lent := lent } :=
  ⟨hs.inj, hs.lt, hs.free, hs.heldLt, hs.absent, hs.injE, hs.ltE, hs.freeE, hs.heldLtE, hs.someE, hs.noneE⟩

/-- The attribute `s` of a value. -/
def setSlot (U : UG α) (s : Slot α) (x : Finset α) : UG α :=
  match s with
  | .nodes => { U with nodes := x }
  | .nbr v => { U with neighbors := Function.update U.neighbors v x }

theorem write_upd {h : Heap α} (hs : Apart h) {k : ℕ} (hk : k < h.count) (s : Slot α) (f : Finset α → Finset α) :
    Upd h (h.write k s f) k (setSlot (h.view k) s (f (h.val k s))) := by
  have ht := touch_upd hs hk s
  obtain ⟨l, hl⟩ := touch_some h k s
  have hv := touch_val hs k s k s
  have hc := touch_val hs k s
  have he := touch_evalE h k s
  obtain ⟨_, _, _, hd⟩ := touch_rest h k s
  unfold write
  set g := h.touch k s
  simp only [hl]
  have hval : ∀ k' s', val { g with ns := Function.update g.ns l (f (g.ns l)) } k' s' =
      if k' = k ∧ s' = s then f (h.val k s) else h.val k' s' := by
    intro k' s'
    by_cases hks : k' = k ∧ s' = s
    · obtain ⟨rfl, rfl⟩ := hks
      rw [if_pos ⟨rfl, rfl⟩, ← hv]
      simp [val, hl]
    · rw [if_neg hks, ← hc]
      simp only [val]
      cases e : g.slot k' s' with
      | none => rfl
      | some l' =>
        refine Function.update_of_ne ?_ _ _
        rintro rfl
        exact hks (ht.sep.inj e hl)
  refine ⟨ht.sep.content _ _ _ _, ?_, ?_, ht.count⟩
  · simp only [view, hval]
    have e1 : evalE { g with ns := Function.update g.ns l (f (g.ns l)) } k = h.evalE k := he k
    rw [e1, hd]
    cases s with
    | nodes => simp [setSlot]
    | nbr v =>
      simp only [setSlot, true_and, reduceCtorEq, and_false, if_false, Slot.nbr.injEq]
      congr 1
      funext w
      by_cases hw : w = v
      · subst hw; simp
      · simp [hw]
  · intro k' hk'
    simp only [view, hval, hk', false_and, if_false]
    have e1 : evalE { g with ns := Function.update g.ns l (f (g.ns l)) } k' = h.evalE k' := he k'
    rw [e1, hd]

omit [DecidableEq α] in
theorem writeE_upd {h : Heap α} (hs : Apart h) {k : ℕ} (hk : k < h.count) (f : Finset (Finset α) → Finset (Finset α)) :
    Upd h (h.writeE k f) k { h.view k with edges := f (h.evalE k) } := by
  obtain ⟨l, hl⟩ := hs.someE hk
  unfold writeE
  simp only [hl]
  refine ⟨hs.content _ _ _ _, ?_, ?_, rfl⟩
  · simp [view, val, evalE, hl]
  · intro k' hk'
    have : evalE { h with es := Function.update h.es l (f (h.es l)) } k' = h.evalE k' := by
      simp only [evalE]
      cases e : h.eslot k' with
      | none => rfl
      | some l' =>
        refine Function.update_of_ne ?_ _ _
        rintro rfl
        exact hk' (hs.injE e hl)
    simp only [view, val, this]

omit [DecidableEq α] in
theorem writeDeg_upd {h : Heap α} (hs : Apart h) (k : ℕ) (f : (α → ℤ) → α → ℤ) :
    Upd h (h.writeDeg k f) k { h.view k with degrees := f (h.deg k) } := by
  refine ⟨hs.content _ _ _ _, ?_, ?_, rfl⟩
  · simp [writeDeg, view, val, evalE]
  · intro k' hk'
    simp only [writeDeg, view, val, evalE, Function.update_of_ne hk']

theorem link_upd {h : Heap α} (hs : Apart h) {k : ℕ} (hk : k < h.count) (i j : α) : Upd h (h.link k i j) k ((h.view k).link i j) := by
  have h1 := write_upd hs hk (.nbr i) (insert j)
  have h2 := h1.trans (write_upd h1.sep (h1.count ▸ hk) (.nbr j) (insert i))
  have h3 := h2.trans (writeDeg_upd h2.sep k (addDeg i 1))
  have h4 := h3.trans (writeDeg_upd h3.sep k (addDeg j 1))
  have e1 := h1.view
  have e2 := h2.view
  have e3 := h3.view
  refine ⟨h4.sep, h4.view.trans ?_, h4.other, h4.count⟩
  have d3 := congrArg UG.degrees e3
  have d2 := congrArg UG.degrees e2
  have d1 := congrArg UG.degrees e1
  have n1 := congrFun (congrArg UG.neighbors e1) j
  simp only [view, setSlot] at d3 d2 d1 n1
  rw [e3, e2, e1]
  simp only [setSlot, UG.link, addDeg, view]
  simp only [d3, d2, d1, addDeg, n1]

theorem addEdge_upd {h : Heap α} (hs : Apart h) {k : ℕ} (hk : k < h.count) (i j : α) :
    Upd h (h.addEdge k i j) k ((h.view k).addEdge i j) := by
  unfold addEdge UG.addEdge
  by_cases hm : ({i, j} : Finset α) ∉ h.evalE k
  · have h1 := writeE_upd hs hk (insert {i, j})
    have h2 := h1.trans (link_upd h1.sep (h1.count ▸ hk) i j)
    rw [if_pos hm, if_pos (show _ ∉ (h.view k).edges from hm)]
    rw [h1.view] at h2
    exact h2
  · rw [if_neg hm, if_neg (show ¬ _ ∉ (h.view k).edges from hm)]
    exact Upd.refl hs k

/-- A step with exceptions. -/
structure SUpd (h : Heap α) (r : HStep α) (k : ℕ) (q : UG.Step α) : Prop where
  upd : Upd h r.1 k q.1
  exn : r.2 = q.2

omit [DecidableEq α] in
theorem SUpd.andThen {h : Heap α} {r : HStep α} {k : ℕ} {q : UG.Step α} (h1 : SUpd h r k q) {f : Heap α → HStep α} {g : UG α → UG.Step α}
    (hf : Apart r.1 → r.1.count = h.count → r.1.view k = q.1 → SUpd r.1 (f r.1) k (g q.1)) : SUpd h (andThen r f) k (q.andThen g) := by
  obtain ⟨r, e⟩ := r
  obtain ⟨q, e'⟩ := q
  obtain rfl : e = e' := h1.exn
  cases e with
  | some e => exact h1
  | none =>
    have := hf h1.upd.sep h1.upd.count h1.upd.view
    exact ⟨h1.upd.trans this.upd, this.exn⟩

theorem delEdgeSet_upd {h : Heap α} (hs : Apart h) {k : ℕ} (hk : k < h.count) (e : Finset α) :
    SUpd h (h.delEdgeSet k e) k (UG.delEdgeSet e (h.view k)) := by
  unfold delEdgeSet UG.delEdgeSet
  by_cases hm : e ∈ h.evalE k
  · rw [if_pos hm, if_pos (show _ ∈ (h.view k).edges from hm)]
    exact ⟨writeE_upd hs hk (fun s => s.erase e), rfl⟩
  · rw [if_neg hm, if_neg (show ¬ _ ∈ (h.view k).edges from hm)]
    exact ⟨Upd.refl hs k, rfl⟩

theorem delNbr_upd {h : Heap α} (hs : Apart h) {k : ℕ} (hk : k < h.count) (v x : α) :
    SUpd h (h.delNbr k v x) k (UG.delNbr v x (h.view k)) := by
  unfold delNbr UG.delNbr
  have ht := touch_upd hs hk (.nbr v)
  have hv := touch_val hs k (.nbr v) k (.nbr v)
  simp only [hv]
  by_cases hm : x ∈ h.val k (.nbr v)
  · rw [if_pos hm, if_pos (show _ ∈ (h.view k).neighbors v from hm)]
    have h2 := ht.trans (write_upd ht.sep (ht.count ▸ hk) (.nbr v) fun s => s.erase x)
    rw [ht.view, hv] at h2
    exact ⟨h2, rfl⟩
  · rw [if_neg hm, if_neg (show ¬ _ ∈ (h.view k).neighbors v from hm)]
    exact ⟨ht, rfl⟩

theorem decDegree_upd {h : Heap α} (hs : Apart h) (k : ℕ) (v : α) : Upd h (h.writeDeg k (addDeg v (-1))) k (UG.decDegree v (h.view k)) :=
  writeDeg_upd hs k _

theorem deleteEdge_upd {h : Heap α} (hs : Apart h) {k : ℕ} (hk : k < h.count) (i j : α) :
    SUpd h (h.deleteEdge k i j) k ((h.view k).deleteEdge i j) := by
  unfold deleteEdge UG.deleteEdge
  refine (((delEdgeSet_upd hs hk _).andThen ?_).andThen ?_).andThen ?_
  · intro hs' hc hv; rw [← hv]; exact delNbr_upd hs' (hc ▸ hk) i j
  · intro hs' hc hv; rw [← hv]; exact delNbr_upd hs' (hc ▸ hk) j i
  · intro hs' hc hv
    rw [← hv]
    have h1 := decDegree_upd hs' k i
    have h2 := h1.trans (decDegree_upd h1.sep k j)
    rw [h1.view] at h2
    exact ⟨h2, rfl⟩

theorem deleteNodeLoop_upd (k : ℕ) (v : α) (l : List α) {h : Heap α} (hs : Apart h) (hk : k < h.count) :
    SUpd h (deleteNodeLoop k v l h) k (UG.deleteNodeLoop v l (h.view k)) := by
  induction l generalizing h with
  | nil => exact ⟨Upd.refl hs k, rfl⟩
  | cons j l ih =>
    unfold deleteNodeLoop UG.deleteNodeLoop
    refine ((delNbr_upd hs hk _ _).andThen ?_).andThen ?_
    · intro hs' hc hv
      rw [← hv]
      have h1 := decDegree_upd hs' k j
      have h2 := delEdgeSet_upd h1.sep (h1.count ▸ hc ▸ hk : k < _) {v, j}
      rw [h1.view] at h2
      exact ⟨h1.trans h2.upd, h2.exn⟩
    · intro hs' hc hv
      rw [← hv]
      exact ih hs' (hc ▸ hk)

theorem pop_upd {h : Heap α} (hs : Apart h) {k : ℕ} (hk : k < h.count) (v : α) :
    Upd h { h with slot := Function.update h.slot k (Function.update (h.slot k) (.nbr v) none) } k
      { h.view k with neighbors := Function.update (h.view k).neighbors v ∅ } := by
  have key : ∀ k' s', Function.update h.slot k (Function.update (h.slot k) (.nbr v) none) k' s' =
      if k' = k ∧ s' = .nbr v then none else h.slot k' s' := by
    intro k' s'
    by_cases h1 : k' = k
    · subst h1
      rw [Function.update_self]
      by_cases h2 : s' = .nbr v
      · subst h2; simp
      · rw [Function.update_of_ne h2]; simp [h2]
    · rw [Function.update_of_ne h1]; simp [h1]
  have key' : ∀ {k' s' l}, Function.update h.slot k (Function.update (h.slot k) (.nbr v) none) k' s' = some l → h.slot k' s' = some l := by
    intro k' s' l hl
    rw [key] at hl
    split at hl
    · cases hl
    · exact hl
  refine ⟨⟨fun h1 h2 => hs.inj (key' h1) (key' h2), fun h1 => hs.lt (key' h1), fun h1 => hs.free (key' h1), hs.heldLt, ?_, hs.injE, hs.ltE,
    hs.freeE, hs.heldLtE, hs.someE, hs.noneE⟩, ?_, ?_, rfl⟩
  · intro k' s' h1
    show Function.update h.slot k (Function.update (h.slot k) (.nbr v) none) k' s' = none
    rw [key]
    split
    · rfl
    · exact hs.absent h1
  · simp only [view, val, evalE, key]
    simp only [true_and, reduceCtorEq, if_false, Slot.nbr.injEq]
    congr 1
    funext w
    by_cases hw : w = v
    · subst hw; simp
    · simp [hw]
  · intro k' hk'
    simp only [view, val, evalE, key, hk', false_and, if_false]

theorem deleteNode_upd (on : SetOrder Unit α) {h : Heap α} (hs : Apart h) {k : ℕ} (hk : k < h.count) (v : α) :
    SUpd h (h.deleteNode on k v) k ((h.view k).deleteNode on v) := by
  unfold deleteNode UG.deleteNode
  by_cases hm : v ∈ h.val k .nodes
  · rw [if_pos hm, if_pos (show _ ∈ (h.view k).nodes from hm)]
    have h1 := write_upd hs hk .nodes fun s => s.erase v
    have ht := touch_upd h1.sep (h1.count ▸ hk : k < _) (.nbr v)
    have h2 := h1.trans ht
    have hv := h2.view
    have hn : (touch k (.nbr v) (write k .nodes (fun s => s.erase v) h)).val k (.nbr v) = (h.view k).neighbors v := by
      have := congrFun (congrArg UG.neighbors (hv.trans h1.view)) v
      exact this
    simp only [hn]
    have hl := deleteNodeLoop_upd k v (on.ord () ((h.view k).neighbors v)) h2.sep (h2.count ▸ hk : k < _)
    rw [hv, h1.view] at hl
    have hl' : SUpd h _ k _ := ⟨h2.trans hl.upd, hl.exn⟩
    refine hl'.andThen ?_
    intro hs' hc hv
    rw [← hv]
    have p1 := pop_upd hs' (hc ▸ hk) v
    have p2 := p1.trans (writeDeg_upd p1.sep k fun dg => Function.update dg v 0)
    rw [p1.view] at p2
    exact ⟨p2, rfl⟩
  · rw [if_neg hm, if_neg (show ¬ _ ∈ (h.view k).nodes from hm)]
    exact ⟨Upd.refl hs k, rfl⟩

/-- A new object, the others are left alone. -/
structure Added (h h' : Heap α) (U : UG α) : Prop where
  sep : Apart h'
  view : h'.view h.count = U
  other : ∀ k', k' < h.count → h'.view k' = h.view k'
  count : h'.count = h.count + 1

omit [DecidableEq α] in
theorem view_congr {h g : Heap α} (hs : Apart h) {k : ℕ} (h1 : g.slot k = h.slot k) (h2 : g.eslot k = h.eslot k) (h3 : g.deg k = h.deg k)
    (h4 : ∀ l < h.next, g.ns l = h.ns l) (h5 : ∀ l < h.next, g.es l = h.es l) : g.view k = h.view k := by
  have hv : ∀ s, g.val k s = h.val k s := by
    intro s
    simp only [val, h1]
    cases e : h.slot k s with
    | none => rfl
    | some l => exact h4 l (hs.lt e)
  have he : g.evalE k = h.evalE k := by
    simp only [evalE, h2]
    cases e : h.eslot k with
    | none => rfl
    | some l => exact h5 l (hs.ltE e)
  simp only [view, hv, he, h3]

theorem new_added (oe : SetOrder Unit (Finset α)) (ou : SetOrder Unit α) (nodes : Finset α) (edges : Finset (α × α)) {h : Heap α}
    (hs : Apart h) : Added h (h.new oe ou nodes edges) (UG.new oe ou nodes edges) := by
  unfold new UG.new
  set es := (edges.filter fun e => e.1 ≠ e.2).image fun e => ({e.1, e.2} : Finset α)
  simp only []
  have start : Added h
      { h with
        ns := Function.update (Function.update h.ns h.next nodes) (h.next + 1) nodes
        held := insert h.next h.held
        es := Function.update h.es (h.next + 2) es
        next := h.next + 3
        count := h.count + 1
        slot := Function.update h.slot h.count (Function.update (fun _ => none) .nodes (some (h.next + 1)))
        eslot := Function.update h.eslot h.count (some (h.next + 2))
        deg := Function.update h.deg h.count fun _ => 0 }
      { nodes := nodes, edges := es, neighbors := fun _ => ∅, degrees := fun _ => 0 } := by
    have key : ∀ {k s l}, Function.update h.slot h.count (Function.update (fun _ => none) .nodes (some (h.next + 1))) k s = some l →
        (k = h.count ∧ s = .nodes ∧ l = h.next + 1) ∨ (k < h.count ∧ h.slot k s = some l) := by
      intro k s l hl
      by_cases hk : k = h.count
      · subst hk
        rw [Function.update_self] at hl
        by_cases hn : s = .nodes
        · subst hn
          rw [Function.update_self] at hl
          exact .inl ⟨rfl, rfl, (Option.some.inj hl).symm⟩
        · rw [Function.update_of_ne hn] at hl; cases hl
      · rw [Function.update_of_ne hk] at hl
        refine .inr ⟨?_, hl⟩
        by_contra hk'
        rw [hs.absent (not_lt.1 hk')] at hl; cases hl
    have keyE : ∀ {k l}, Function.update h.eslot h.count (some (h.next + 2)) k = some l →
        (k = h.count ∧ l = h.next + 2) ∨ (k < h.count ∧ h.eslot k = some l) := by
      intro k l hl
      by_cases hk : k = h.count
      · subst hk
        rw [Function.update_self] at hl
        exact .inl ⟨rfl, (Option.some.inj hl).symm⟩
      · rw [Function.update_of_ne hk] at hl
        refine .inr ⟨?_, hl⟩
        by_contra hk'
        rw [hs.noneE (not_lt.1 hk')] at hl; cases hl
    refine ⟨⟨?_, ?_, ?_, ?_, ?_, ?_, ?_, ?_, ?_, ?_, ?_⟩, ?_, ?_, rfl⟩
    · intro k s k' s' l h1 h2
      rcases key h1 with ⟨rfl, rfl, rfl⟩ | ⟨_, h1⟩ <;> rcases key h2 with ⟨rfl, rfl, h3⟩ | ⟨_, h2⟩
      · exact ⟨rfl, rfl⟩
      · have := hs.lt h2; omega
      · have := hs.lt h1; omega
      · exact hs.inj h1 h2
    · intro k s l h1
      show l < h.next + 3
      rcases key h1 with ⟨_, _, rfl⟩ | ⟨_, h1⟩
      · omega
      · have := hs.lt h1; omega
    · intro k s l h1 h2
      rcases Finset.mem_insert.1 h2 with h2 | h2 <;> rcases key h1 with ⟨_, _, rfl⟩ | ⟨_, h1⟩
      · omega
      · have := hs.lt h1; omega
      · have := hs.heldLt _ h2; omega
      · exact hs.free h1 h2
    · intro l hl
      show l < h.next + 3
      rcases Finset.mem_insert.1 hl with h2 | h2
      · omega
      · have := hs.heldLt _ h2; omega
    · intro k s hk
      have hk : h.count + 1 ≤ k := hk
      show Function.update h.slot h.count _ k s = none
      rw [Function.update_of_ne (by omega)]
      exact hs.absent (by omega)
    · intro k k' l h1 h2
      rcases keyE h1 with ⟨rfl, rfl⟩ | ⟨_, h1⟩ <;> rcases keyE h2 with ⟨rfl, h3⟩ | ⟨_, h2⟩
      · rfl
      · have := hs.ltE h2; omega
      · have := hs.ltE h1; omega
      · exact hs.injE h1 h2
    · intro k l h1
      show l < h.next + 3
      rcases keyE h1 with ⟨_, rfl⟩ | ⟨_, h1⟩
      · omega
      · have := hs.ltE h1; omega
    · intro k l h1 h2
      rcases keyE h1 with ⟨_, rfl⟩ | ⟨_, h1⟩
      · have := hs.heldLtE _ h2; omega
      · exact hs.freeE h1 h2
    · intro l hl
      show l < h.next + 3
      have := hs.heldLtE _ hl; omega
    · intro k hk
      have hk : k < h.count + 1 := hk
      show ∃ l, Function.update h.eslot h.count _ k = some l
      by_cases hk' : k = h.count
      · subst hk'; exact ⟨_, Function.update_self ..⟩
      · rw [Function.update_of_ne hk']
        exact hs.someE (by omega)
    · intro k hk
      have hk : h.count + 1 ≤ k := hk
      show Function.update h.eslot h.count _ k = none
      rw [Function.update_of_ne (by omega)]
      exact hs.noneE (by omega)
    · simp [Heap.view, val, evalE]
    · intro k hk
      refine view_congr hs ?_ ?_ ?_ ?_ ?_
      · exact Function.update_of_ne hk.ne _ _
      · exact Function.update_of_ne hk.ne _ _
      · exact Function.update_of_ne hk.ne _ _
      · intro l hl
        show Function.update (Function.update h.ns h.next nodes) (h.next + 1) nodes l = h.ns l
        rw [Function.update_of_ne (by omega), Function.update_of_ne (by omega)]
      · intro l hl
        show Function.update h.es (h.next + 2) es l = h.es l
        rw [Function.update_of_ne (by omega)]
  generalize oe.ord () es = l
  revert start
  generalize ({ nodes := nodes, edges := es, neighbors := fun _ => ∅, degrees := fun _ => 0 } : UG α) = U
  generalize ({ h with
        ns := Function.update (Function.update h.ns h.next nodes) (h.next + 1) nodes
        held := insert h.next h.held
        es := Function.update h.es (h.next + 2) es
        next := h.next + 3
        count := h.count + 1
        slot := Function.update h.slot h.count (Function.update (fun _ => none) .nodes (some (h.next + 1)))
        eslot := Function.update h.eslot h.count (some (h.next + 2))
        deg := Function.update h.deg h.count fun _ => 0 } : Heap α) = g
  intro hg
  induction l generalizing g U with
  | nil => exact hg
  | cons e l ih =>
    rw [List.foldl_cons, List.foldl_cons]
    apply ih
    have hk : h.count < g.count := by rw [hg.count]; omega
    rcases ou.ord () e with _ | ⟨i, _ | ⟨j, _ | ⟨x, l'⟩⟩⟩
    · exact hg
    · exact hg
    · have h1 := write_upd hg.sep hk .nodes (insert i)
      have h2 := h1.trans (write_upd h1.sep (h1.count ▸ hk) .nodes (insert j))
      have h3 := h2.trans (link_upd h2.sep (h2.count ▸ hk) i j)
      have n1 := congrArg UG.nodes h1.view
      simp only [Heap.view, setSlot] at n1
      rw [h2.view, h1.view] at h3
      refine ⟨h3.sep, h3.view.trans ?_, fun k' hk' => (h3.other k' hk'.ne).trans (hg.other k' hk'), h3.count.trans hg.count⟩
      rw [n1, ← hg.view]
      rfl
    · exact hg

theorem copy_added (oe : SetOrder Unit (Finset α)) (ou : SetOrder Unit α) {h : Heap α} (hs : Apart h) (k : ℕ) :
    match UG.copy oe ou (h.view k) with
    | .ok V => (h.copy oe ou k).2 = none ∧ Added h (h.copy oe ou k).1 V
    | .error e => h.copy oe ou k = (h, some e) := by
  unfold copy UG.copy
  show match (((oe.ord () (h.evalE k)).mapM (UG.unpack ou)).map fun l => UG.new oe ou (h.val k .nodes) l.toFinset) with
    | .ok V => _
    | .error e => _
  cases (oe.ord () (h.evalE k)).mapM (UG.unpack ou) with
  | ok l => exact ⟨rfl, new_added oe ou _ _ hs⟩
  | error e => rfl

omit [DecidableEq α] in
theorem give_keeps {h : Heap α} (hs : Apart h) (s : Finset α) : Apart (h.give s) ∧ ∀ k, (h.give s).view k = h.view k := by
  constructor
  · refine ⟨hs.inj, fun h1 => Nat.lt_succ_of_lt (hs.lt h1), ?_, ?_, hs.absent, hs.injE, fun h1 => Nat.lt_succ_of_lt (hs.ltE h1), hs.freeE,
      fun l hl => Nat.lt_succ_of_lt (hs.heldLtE l hl), hs.someE, hs.noneE⟩
    · intro k s' l h1 h2
      rcases Finset.mem_insert.1 h2 with h2 | h2
      · exact absurd (hs.lt h1) (h2 ▸ lt_irrefl _)
      · exact hs.free h1 h2
    · intro l hl
      rcases Finset.mem_insert.1 hl with h2 | h2
      · exact h2 ▸ Nat.lt_succ_self _
      · exact Nat.lt_succ_of_lt (hs.heldLt l h2)
  · intro k
    have : ∀ s', (h.give s).val k s' = h.val k s' := by
      intro s'
      simp only [val, give]
      cases e : h.slot k s' with
      | none => rfl
      | some l => exact Function.update_of_ne (hs.lt e).ne _ _
    simp only [view, this]
    rfl

omit [DecidableEq α] in
theorem giveE_keeps {h : Heap α} (hs : Apart h) (s : Finset (Finset α)) : Apart (h.giveE s) ∧ ∀ k, (h.giveE s).view k = h.view k := by
  constructor
  · refine ⟨hs.inj, fun h1 => Nat.lt_succ_of_lt (hs.lt h1), hs.free, fun l hl => Nat.lt_succ_of_lt (hs.heldLt l hl), hs.absent, hs.injE,
      fun h1 => Nat.lt_succ_of_lt (hs.ltE h1), ?_, ?_, hs.someE, hs.noneE⟩
    · intro k l h1 h2
      rcases Finset.mem_insert.1 h2 with h2 | h2
      · exact absurd (hs.ltE h1) (h2 ▸ lt_irrefl _)
      · exact hs.freeE h1 h2
    · intro l hl
      rcases Finset.mem_insert.1 hl with h2 | h2
      · exact h2 ▸ Nat.lt_succ_self _
      · exact Nat.lt_succ_of_lt (hs.heldLtE l h2)
  · intro k
    have : (h.giveE s).evalE k = h.evalE k := by
      simp only [evalE, giveE]
      cases e : h.eslot k with
      | none => rfl
      | some l => exact Function.update_of_ne (hs.ltE e).ne _ _
    simp only [view, this]
    rfl

theorem lend_upd {h : Heap α} (hs : Apart h) {k : ℕ} (hk : k < h.count) (v : α) : Upd h (lend k h v) k (h.view k) := by
  have ht := touch_upd hs hk (.nbr v)
  unfold lend
  simp only []
  cases (touch k (.nbr v) h).slot k (.nbr v) with
  | none => exact ht
  | some l => exact ⟨ht.sep.content _ _ _ _, ht.view, ht.other, ht.count⟩

theorem lendAll_upd {k : ℕ} (vs : List α) {h : Heap α} (hs : Apart h) (hk : k < h.count) : Upd h (vs.foldl (lend k) h) k (h.view k) := by
  induction vs generalizing h with
  | nil => exact Upd.refl hs k
  | cons v vs ih =>
    have h1 := lend_upd hs hk v
    have h2 := ih h1.sep (h1.count ▸ hk)
    rw [h1.view] at h2
    exact h1.trans h2

omit [DecidableEq α] in
theorem change_keeps {h : Heap α} (hs : Apart h) {l : ℕ} (hl : l ∈ h.held) (s : Finset α) :
    Apart { h with ns := Function.update h.ns l s } ∧ ∀ k, view { h with ns := Function.update h.ns l s } k = h.view k := by
  refine ⟨hs.content _ _ _ _, fun k => ?_⟩
  have : ∀ s', val { h with ns := Function.update h.ns l s } k s' = h.val k s' := by
    intro s'
    simp only [val]
    cases e : h.slot k s' with
    | none => rfl
    | some l' =>
      refine Function.update_of_ne ?_ _ _
      rintro rfl
      exact hs.free e hl
  simp only [view, this]
  rfl

omit [DecidableEq α] in
theorem changeE_keeps {h : Heap α} (hs : Apart h) {l : ℕ} (hl : l ∈ h.heldE) (s : Finset (Finset α)) :
    Apart { h with es := Function.update h.es l s } ∧ ∀ k, view { h with es := Function.update h.es l s } k = h.view k := by
  refine ⟨hs.content _ _ _ _, fun k => ?_⟩
  have : evalE { h with es := Function.update h.es l s } k = h.evalE k := by
    simp only [evalE]
    cases e : h.eslot k with
    | none => rfl
    | some l' =>
      refine Function.update_of_ne ?_ _ _
      rintro rfl
      exact hs.freeE e hl
  simp only [view, this]
  rfl

/-! ## The list of all graphs -/

omit [DecidableEq α] in
theorem views_get (h : Heap α) (k : ℕ) : h.views[k]? = if k < h.count then some (h.view k) else none := by
  unfold views
  rw [List.getElem?_map]
  by_cases hk : k < h.count
  · rw [if_pos hk, List.getElem?_range hk]; rfl
  · rw [if_neg hk, List.getElem?_eq_none (by simpa using hk)]; rfl

omit [DecidableEq α] in
theorem Upd.views {h h' : Heap α} {k : ℕ} {U : UG α} (hu : Upd h h' k U) : h'.views = h.views.set k U := by
  apply List.ext_getElem?
  intro m
  rw [views_get, List.getElem?_set, views_get, hu.count]
  have hlen : h.views.length = h.count := by simp [Heap.views]
  rw [hlen]
  by_cases hm : k = m
  · subst hm; rw [if_pos rfl, hu.view]
  · rw [if_neg hm, hu.other m (Ne.symm hm)]

omit [DecidableEq α] in
theorem Added.views {h h' : Heap α} {U : UG α} (ha : Added h h' U) : h'.views = h.views ++ [U] := by
  unfold Heap.views
  rw [ha.count, List.range_succ, List.map_append, List.map_cons, List.map_nil, ha.view]
  congr 1
  exact List.map_congr_left fun k hk => ha.other k (List.mem_range.1 hk)

omit [DecidableEq α] in
theorem keeps_views {h h' : Heap α} (hc : h'.count = h.count) (hv : ∀ k, h'.view k = h.view k) : h'.views = h.views := by
  unfold Heap.views
  rw [hc]
  exact List.map_congr_left fun k _ => hv k

omit [DecidableEq α] in
theorem set_same (h : Heap α) (k : ℕ) : h.views.set k (h.view k) = h.views := by
  apply List.ext_getElem?
  intro m
  rw [List.getElem?_set, views_get]
  have hlen : h.views.length = h.count := by simp [Heap.views]
  rw [hlen]
  by_cases hm : k = m
  · subst hm; rw [if_pos rfl]
  · rw [if_neg hm]

theorem exec_spec (w : UOrders α) {h : Heap α} (hs : Apart h) (a : Act α) (ha : a.Discreet) :
    Apart (h.exec w a).1 ∧ (h.exec w a).1.views = (execV w h.views a).1 ∧ (h.exec w a).2 = (execV w h.views a).2 := by
  have obj : ∀ (k : ℕ) (f : Heap α → Heap α × Out α) (g : UG α → List (UG α) × Out α),
      (k < h.count → Apart (f h).1 ∧ (f h).1.views = (g (h.view k)).1 ∧ (f h).2 = (g (h.view k)).2) →
      Apart (onObj k h f).1 ∧ (onObj k h f).1.views = (onVal k h.views g).1 ∧ (onObj k h f).2 = (onVal k h.views g).2 := by
    intro k f g hfg
    unfold onObj onVal
    rw [views_get]
    by_cases hk : k < h.count
    · rw [if_pos hk, if_pos hk]; exact hfg hk
    · rw [if_neg hk, if_neg hk]; exact ⟨hs, rfl, rfl⟩
  cases a with
  | new nodes edges =>
    have := new_added w.oe w.ou nodes edges hs
    exact ⟨this.sep, this.views, rfl⟩
  | copy k =>
    refine obj k _ _ fun hk => ?_
    have := copy_added w.oe w.ou hs k
    revert this
    cases UG.copy w.oe w.ou (h.view k) with
    | ok V =>
      rintro ⟨h1, h2⟩
      refine ⟨h2.sep, h2.views, ?_⟩
      simp only [h1]; rfl
    | error e =>
      intro h1
      simp only [] at h1
      simp only [h1]
      exact ⟨hs, trivial, rfl⟩
  | addEdge k i j =>
    refine obj k _ _ fun hk => ?_
    have := addEdge_upd hs hk i j
    exact ⟨this.sep, this.views, rfl⟩
  | deleteEdge k i j =>
    refine obj k _ _ fun hk => ?_
    have := deleteEdge_upd hs hk i j
    exact ⟨this.upd.sep, this.upd.views, congrArg Out.of this.exn⟩
  | deleteNode k v =>
    refine obj k _ _ fun hk => ?_
    have := deleteNode_upd w.on hs hk v
    exact ⟨this.upd.sep, this.upd.views, congrArg Out.of this.exn⟩
  | nodes k =>
    refine obj k _ _ fun hk => ?_
    have := give_keeps hs (h.val k .nodes)
    exact ⟨this.1, keeps_views rfl this.2, rfl⟩
  | edges k =>
    refine obj k _ _ fun hk => ?_
    have := giveE_keeps hs (h.evalE k)
    exact ⟨this.1, keeps_views rfl this.2, rfl⟩
  | neighborsOf k v =>
    refine obj k _ _ fun hk => ?_
    have ht := touch_upd hs hk (.nbr v)
    have hv := touch_val hs k (.nbr v) k (.nbr v)
    have := give_keeps ht.sep ((h.touch k (.nbr v)).val k (.nbr v))
    dsimp only
    have e := keeps_views (h := h.touch k (.nbr v)) (h' := give ((h.touch k (.nbr v)).val k (.nbr v)) (h.touch k (.nbr v))) rfl this.2
    refine ⟨this.1, e.trans (ht.views.trans (set_same h k)), ?_⟩
    simp only [hv]; rfl
  | neighbors k =>
    refine obj k _ _ fun hk => ?_
    have ht := lendAll_upd (w.on.ord () (h.val k .nodes)) hs hk
    refine ⟨ht.sep, ht.views.trans (set_same h k), ?_⟩
    simp only [Out.dict.injEq]
    refine List.map_congr_left fun v _ => ?_
    have := congrFun (congrArg UG.neighbors ht.view) v
    exact congrArg (Prod.mk v) this
  | change l s =>
    simp only [exec, execV]
    split
    · rename_i hl
      have := change_keeps hs hl s
      exact ⟨this.1, keeps_views rfl this.2, rfl⟩
    · exact ⟨hs, rfl, rfl⟩
  | changeE l s =>
    simp only [exec, execV]
    split
    · rename_i hl
      have := changeE_keeps hs hl s
      exact ⟨this.1, keeps_views rfl this.2, rfl⟩
    · exact ⟨hs, rfl, rfl⟩
  | changeLent l s => exact ha.elim

theorem run_spec (l : List (UOrders α × Act α)) {h : Heap α} (hs : Apart h) (hl : ∀ p ∈ l, p.2.Discreet) :
    (run l h).1.views = (runV l h.views).1 ∧ (run l h).2 = (runV l h.views).2 := by
  induction l generalizing h with
  | nil => exact ⟨rfl, rfl⟩
  | cons p l ih =>
    obtain ⟨w, a⟩ := p
    obtain ⟨h1, h2, h3⟩ := exec_spec w hs a (hl _ List.mem_cons_self)
    have := ih h1 fun q hq => hl q (List.mem_cons_of_mem _ hq)
    simp only [run, runV]
    rw [h2] at this
    exact ⟨this.1, by rw [h3, this.2]⟩

end Model.Heap
