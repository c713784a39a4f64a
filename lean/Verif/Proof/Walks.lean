import Verif.Prelude

/-!
# Active walks and paths in an abstract mixed graph

`adj u v`: there is an edge; `into u v`: the edge between `u` and `v` has an arrowhead at `v`;
`dir u v`: it is `u → v`. Shared by d-separation and m-separation.
-/

set_option linter.unusedSectionVars false
set_option linter.unusedVariables false

universe u

/-- An abstract mixed graph. -/
structure MG (α : Type u) where
  adj : α → α → Prop
  into : α → α → Prop
  dir : α → α → Prop

namespace MG
variable {α : Type u}
open Relation

/-- What is needed for the walk surgery. -/
structure Ok (M : MG α) : Prop where
  symm : ∀ u v, M.adj u v → M.adj v u
  into_adj : ∀ u v, M.into u v → M.adj u v
  dir_into : ∀ u v, M.dir u v → M.into u v
  head : ∀ u v w, M.into u v → M.adj v w → M.into w v ∨ M.dir v w

/-- Ancestors of `C`, including `C`. -/
def An (M : MG α) (C : Set α) (v : α) : Prop := ∃ c ∈ C, ReflTransGen M.dir v c

def Open (M : MG α) (C : Set α) (u v w : α) : Prop :=
  (M.into u v ∧ M.into w v → M.An C v) ∧ (¬ (M.into u v ∧ M.into w v) → v ∉ C)

structure Walk (M : MG α) (C : Set α) (a b : α) (l : List α) : Prop where
  head : l.head? = some a
  last : l.getLast? = some b
  adj : ∀ u v, [u, v] <:+: l → M.adj u v
  opn : ∀ u v w, [u, v, w] <:+: l → M.Open C u v w

/-! ## List facts -/

theorem infix3_append {a b c v : α} : ∀ {p r : List α}, [a, b, c] <:+: p ++ v :: r →
    [a, b, c] <:+: p ++ [v] ∨ [a, b, c] <:+: v :: r ∨ (b = v ∧ [a] <:+ p ∧ [c] <+: r) := by
  intro p
  induction p with
  | nil => intro r h; exact Or.inr (Or.inl h)
  | cons x p ih =>
    intro r h
    rw [List.cons_append, List.infix_cons_iff] at h
    rcases h with h | h
    · cases p with
      | nil =>
        simp only [List.nil_append, List.cons_prefix_cons] at h
        obtain ⟨rfl, rfl, h⟩ := h
        exact Or.inr (Or.inr ⟨rfl, by simp, h⟩)
      | cons y p =>
        simp only [List.cons_append, List.cons_prefix_cons] at h
        obtain ⟨rfl, rfl, h⟩ := h
        left
        refine List.IsPrefix.isInfix ?_
        simp only [List.cons_append, List.cons_prefix_cons, true_and]
        cases p with
        | nil => simp at h; simp [h]
        | cons z p => simp at h; simp [h]
    · rcases ih h with h | h | ⟨h1, h2, h3⟩
      · exact Or.inl (h.trans (List.suffix_cons _ _).isInfix)
      · exact Or.inr (Or.inl h)
      · exact Or.inr (Or.inr ⟨h1, h2.trans (List.suffix_cons _ _), h3⟩)

theorem infix2_append {a b v : α} : ∀ {p r : List α}, [a, b] <:+: p ++ v :: r →
    [a, b] <:+: p ++ [v] ∨ [a, b] <:+: v :: r := by
  intro p
  induction p with
  | nil => intro r h; exact Or.inr h
  | cons x p ih =>
    intro r h
    rw [List.cons_append, List.infix_cons_iff] at h
    rcases h with h | h
    · left
      refine List.IsPrefix.isInfix ?_
      cases p with
      | nil => simp at h; simp [h]
      | cons y p => simp at h; simp [h]
    · rcases ih h with h | h
      · exact Or.inl (h.trans (List.suffix_cons _ _).isInfix)
      · exact Or.inr h

theorem prefix_infix {p : List α} {v : α} {r : List α} : p ++ [v] <:+: p ++ v :: r :=
  List.IsPrefix.isInfix ⟨r, by simp⟩

theorem suffix_infix {p : List α} {v : α} {r : List α} : v :: r <:+: p ++ v :: r :=
  List.IsSuffix.isInfix ⟨p, rfl⟩

theorem exists_dup {l : List α} (h : ¬ l.Nodup) : ∃ p v q r, l = p ++ v :: (q ++ v :: r) := by
  induction l with
  | nil => simp at h
  | cons x l ih =>
    by_cases hx : x ∈ l
    · obtain ⟨q, r, rfl⟩ := List.append_of_mem hx
      exact ⟨[], x, q, r, rfl⟩
    · obtain ⟨p, v, q, r, rfl⟩ := ih (fun hn => h (List.nodup_cons.2 ⟨hx, hn⟩))
      exact ⟨x :: p, v, q, r, rfl⟩

variable {M : MG α} {C : Set α}

theorem Walk.mono_infix {a b a' b' : α} {l l' : List α} (h : M.Walk C a b l) (hi : l' <:+: l)
    (h1 : l'.head? = some a') (h2 : l'.getLast? = some b') : M.Walk C a' b' l' :=
  ⟨h1, h2, fun u v huv => h.adj u v (huv.trans hi), fun u v w huv => h.opn u v w (huv.trans hi)⟩

/-- Following an open walk from an arrowhead at `x`: either `x` is an ancestor of `C`, or all edges point
forward up to the end. -/
theorem run_forward (hM : M.Ok) : ∀ (rest : List α) (u x : α), M.into u x →
    (∀ a b, [a, b] <:+: u :: x :: rest → M.adj a b) →
    (∀ a b c, [a, b, c] <:+: u :: x :: rest → M.Open C a b c) →
    M.An C x ∨ ∀ p y z, u :: x :: rest = p ++ [y, z] → M.into y z := by
  intro rest
  induction rest with
  | nil =>
    intro u x hux _ _
    right
    intro p y z h
    have : p = [] := by
      cases p with
      | nil => rfl
      | cons a p => have := congrArg List.length h; simp at this
    subst this; simp at h; obtain ⟨rfl, rfl⟩ := h; exact hux
  | cons w rest ih =>
    intro u x hux hadj hopn
    by_cases hwx : M.into w x
    · exact Or.inl ((hopn u x w (List.IsPrefix.isInfix (by simp))).1 ⟨hux, hwx⟩)
    · have hxw : M.adj x w := hadj x w
        ((List.IsPrefix.isInfix (by simp : [x, w] <+: x :: w :: rest)).trans (List.suffix_cons _ _).isInfix)
      have hd := (hM.head u x w hux hxw).resolve_left hwx
      rcases ih x w (hM.dir_into _ _ hd)
        (fun a b h => hadj a b (h.trans (List.suffix_cons _ _).isInfix))
        (fun a b c h => hopn a b c (h.trans (List.suffix_cons _ _).isInfix)) with h | h
      · obtain ⟨c, hc, hwc⟩ := h
        exact Or.inl ⟨c, hc, .head hd hwc⟩
      · right
        intro p y z hp
        cases p with
        | nil => simp at hp
        | cons p0 p =>
          simp only [List.cons_append, List.cons.injEq] at hp
          exact h p y z hp.2

theorem two_suffix (x : α) (q : List α) (v : α) : ∃ p y, x :: (q ++ [v]) = p ++ [y, v] := by
  rcases List.eq_nil_or_concat q with rfl | ⟨q, y, rfl⟩
  · exact ⟨[], x, rfl⟩
  · exact ⟨x :: q, y, by simp⟩

/-- Removing a closed segment keeps a walk open. -/
theorem Walk.cut (hM : M.Ok) {a b v : α} {p q r : List α}
    (h : M.Walk C a b (p ++ v :: (q ++ v :: r))) : M.Walk C a b (p ++ v :: r) := by
  have hsuf : v :: r <:+: p ++ v :: (q ++ v :: r) :=
    List.IsSuffix.isInfix ⟨p ++ v :: q, by simp⟩
  refine ⟨?_, ?_, ?_, ?_⟩
  · have := h.head
    cases p <;> simpa using this
  · have := h.last
    simp only [List.getLast?_append, List.getLast?_cons] at this ⊢
    cases r with
    | nil => simpa using this
    | cons c r =>
      simpa [List.getLast?_cons, List.getLast?_append] using this
  · intro x y hxy
    rcases infix2_append hxy with h1 | h1
    · exact h.adj x y (h1.trans prefix_infix)
    · exact h.adj x y (h1.trans hsuf)
  · intro x y z hxyz
    rcases infix3_append hxyz with h1 | h1 | ⟨rfl, h2, h3⟩
    · exact h.opn x y z (h1.trans prefix_infix)
    · exact h.opn x y z (h1.trans hsuf)
    · obtain ⟨p', rfl⟩ := h2
      obtain ⟨r', rfl⟩ := h3
      -- first occurrence: `x, y, s` ; second: `t, y, z`
      obtain ⟨s, q', hq'⟩ : ∃ s q', q ++ y :: ([z] ++ r') = s :: q' := by
        cases q <;> simp
      obtain ⟨q'', t, hq''⟩ := two_suffix y q y
      obtain ⟨t, hT⟩ : ∃ t, (∃ m, y :: (q ++ [y]) = m ++ [t, y]) := ⟨t, _, hq''⟩
      obtain ⟨m, hm⟩ := hT
      have i1 : [x, y, s] <:+: (p' ++ [x]) ++ y :: (q ++ y :: ([z] ++ r')) := by
        rw [hq']; exact ⟨p', q', by simp⟩
      have i2 : [t, y, z] <:+: (p' ++ [x]) ++ y :: (q ++ y :: ([z] ++ r')) := by
        refine ⟨p' ++ [x] ++ m, r', ?_⟩
        have : y :: (q ++ y :: ([z] ++ r')) = (y :: (q ++ [y])) ++ z :: r' := by simp
        rw [this, hm]; simp
      have o1 := h.opn _ _ _ i1
      have o2 := h.opn _ _ _ i2
      refine ⟨fun hcol => ?_, fun hn => ?_⟩
      · by_cases c1 : M.into s y
        · exact o1.1 ⟨hcol.1, c1⟩
        by_cases c2 : M.into t y
        · exact o2.1 ⟨c2, hcol.2⟩
        have hys : M.adj y s := h.adj y s
          (List.IsInfix.trans (⟨[x], [], by simp⟩ : [y, s] <:+: [x, y, s]) i1)
        have hd := (hM.head x y s hcol.1 hys).resolve_left c1
        -- the segment `y, s, ..., t, y`
        obtain ⟨q2, hq2⟩ : ∃ q2, q ++ [y] = s :: q2 := by
          cases q with
          | nil => simp at hq'; exact ⟨[], by simp [hq'.1]⟩
          | cons q0 q => simp at hq'; exact ⟨q ++ [y], by simp [hq'.1]⟩
        have hseg : y :: s :: q2 <:+: (p' ++ [x]) ++ y :: (q ++ y :: ([z] ++ r')) := by
          rw [← hq2]; exact ⟨p' ++ [x], [z] ++ r', by simp⟩
        rcases run_forward hM q2 y s (hM.dir_into _ _ hd)
          (fun a b hab => h.adj a b (hab.trans hseg))
          (fun a b c habc => h.opn a b c (habc.trans hseg)) with ⟨c, hc, hsc⟩ | hrun
        · exact ⟨c, hc, .head hd hsc⟩
        · exact absurd (hrun m t y (by rw [← hq2]; exact hm)) c2
      · by_cases hx : M.into x y
        · have hz : ¬ M.into z y := fun hz => hn ⟨hx, hz⟩
          exact o2.2 (fun hc => hz hc.2)
        · exact o1.2 (fun hc => hx hc.1)

/-- Every open walk contains an open path with the same ends. -/
theorem Walk.exists_path (hM : M.Ok) {a b : α} : ∀ (n : Nat) (l : List α), l.length ≤ n →
    M.Walk C a b l → ∃ l', M.Walk C a b l' ∧ l'.Nodup ∧ l' ⊆ l := by
  intro n
  induction n with
  | zero =>
    intro l hl h
    have : l = [] := List.eq_nil_of_length_eq_zero (by omega)
    subst this; have := h.head; simp at this
  | succ n ih =>
    intro l hl h
    by_cases hn : l.Nodup
    · exact ⟨l, h, hn, fun _ => id⟩
    · obtain ⟨p, v, q, r, rfl⟩ := exists_dup hn
      obtain ⟨l', h1, h2, h3⟩ := ih (p ++ v :: r) (by simp at hl ⊢; omega) (h.cut hM)
      refine ⟨l', h1, h2, fun x hx => ?_⟩
      have := h3 hx
      simp at this ⊢; tauto

/-! ## Walks as reachability of ball states -/

/-- One move of the ball. The flag says whether the ball arrived through an arrowhead. -/
def Move (M : MG α) (C : Set α) (s t : α × Bool) : Prop :=
  M.adj s.1 t.1 ∧ (t.2 = true ↔ M.into s.1 t.1) ∧
    ((s.2 = true ∧ M.into t.1 s.1 → M.An C s.1) ∧ (¬ (s.2 = true ∧ M.into t.1 s.1) → s.1 ∉ C))

theorem walk_of_moves {a b : α} {d : Bool} (h : ReflTransGen (M.Move C) (a, false) (b, d)) :
    ∃ l, M.Walk C a b l ∧ ((l = [a] ∧ d = false) ∨ (a ∉ C ∧ ∃ p y, l = p ++ [y, b] ∧ (d = true ↔ M.into y b))) := by
  generalize ht : (b, d) = t at h
  induction h generalizing b d with
  | refl =>
    simp at ht; obtain ⟨rfl, rfl⟩ := ht
    refine ⟨[b], ⟨rfl, rfl, ?_, ?_⟩, Or.inl ⟨rfl, rfl⟩⟩
    · intro u v h; have := h.length_le; simp at this
    · intro u v w h; have := h.length_le; simp at this
  | tail _ hmove ih =>
    rename_i s _ _
    subst ht
    obtain ⟨l, hw, hl⟩ := ih (b := s.1) (d := s.2) rfl
    obtain ⟨hadj, hd, ho⟩ := hmove
    have hlast : ∃ p, l = p ++ [s.1] := by
      have := hw.last
      rw [List.getLast?_eq_some_iff] at this
      exact this
    obtain ⟨p, rfl⟩ := hlast
    refine ⟨p ++ [s.1, b], ⟨?_, by simp, ?_, ?_⟩, ?_⟩
    · have := hw.head; cases p <;> simpa using this
    · intro x y hxy
      rcases infix2_append (r := [b]) hxy with h1 | h1
      · exact hw.adj x y h1
      · have := List.IsInfix.eq_of_length h1 (by simp)
        simp at this; obtain ⟨rfl, rfl⟩ := this; exact hadj
    · intro x y z hxyz
      rcases infix3_append (r := [b]) hxyz with h1 | h1 | ⟨rfl, h2, h3⟩
      · exact hw.opn x y z h1
      · have := h1.length_le; simp at this
      · obtain ⟨p', rfl⟩ := h2
        simp at h3; subst h3
        rcases hl with ⟨hl, _⟩ | ⟨_, p2, y2, hp2, hiff⟩
        · have := congrArg List.length hl
          simp at this
        · have : p' ++ [x, s.1] = p2 ++ [y2, s.1] := by simpa using hp2
          obtain ⟨_, h4⟩ := List.append_inj' this rfl
          simp at h4; subst h4
          rw [hiff] at ho; exact ho
    · right
      refine ⟨?_, p, s.1, rfl, hd⟩
      rcases hl with ⟨hl, hf⟩ | ⟨ha, _⟩
      · have : p = [] ∧ s.1 = a := by
          cases p with
          | nil => simpa using hl
          | cons x p => simp at hl
        have := ho.2 (by simp [hf])
        simp_all
      · exact ha

theorem moves_of_walk {a : α} (ha : a ∉ C) : ∀ (l : List α) (b : α), M.Walk C a b l →
    ∃ d, ReflTransGen (M.Move C) (a, false) (b, d) ∧
      ((l = [a] ∧ d = false) ∨ ∃ p y, l = p ++ [y, b] ∧ (d = true ↔ M.into y b)) := by
  intro l
  induction l using List.reverseRecOn with
  | nil => intro b h; have := h.head; simp at this
  | append_singleton l x ih =>
    intro b h
    have hb : x = b := by have := h.last; simpa using this
    subst hb
    rcases List.eq_nil_or_concat l with rfl | ⟨p, y, rfl⟩
    · have := h.head; simp at this; subst this
      exact ⟨false, .refl, Or.inl ⟨rfl, rfl⟩⟩
    · have hw : M.Walk C a y (p ++ [y]) := h.mono_infix ⟨[], [x], by simp⟩
        (by have := h.head; cases p <;> simpa using this) (by simp)
      obtain ⟨d, hr, hd⟩ := ih y (by simpa using hw)
      classical
      refine ⟨decide (M.into y x), hr.tail ⟨?_, by simp, ?_⟩, Or.inr ⟨p, y, by simp, by simp⟩⟩
      · exact h.adj y x ⟨p, [], by simp⟩
      · rcases hd with ⟨h1, rfl⟩ | ⟨p', z, h1, hiff⟩
        · have : y = a := by
            cases p with
            | nil => simpa using h1
            | cons q p => simp at h1
          subst this
          exact ⟨by simp, fun _ => ha⟩
        · have h1 : p ++ [y] = (p' ++ [z]) ++ [y] := by simpa using h1
          obtain ⟨rfl, _⟩ := List.append_inj' h1 rfl
          have := h.opn z y x ⟨p', [], by simp⟩
          rw [hiff]; exact this

/-- Reversal of walks. -/
theorem Walk.reverse (hM : M.Ok) {a b : α} {l : List α} (h : M.Walk C a b l) : M.Walk C b a l.reverse := by
  refine ⟨by simpa using h.last, by simpa using h.head, ?_, ?_⟩
  · intro u v huv
    have : [v, u] <:+: l := by simpa using List.reverse_infix.2 huv
    exact hM.symm _ _ (h.adj _ _ this)
  · intro u v w huv
    have : [w, v, u] <:+: l := by simpa using List.reverse_infix.2 huv
    have := h.opn _ _ _ this
    exact ⟨fun hc => this.1 ⟨hc.2, hc.1⟩, fun hc => this.2 (fun h => hc ⟨h.2, h.1⟩)⟩

end MG
