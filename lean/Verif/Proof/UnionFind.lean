import Verif.Model.CliqueTree

/-! # `networkx.utils.UnionFind` -/

namespace Model.UF

universe u
variable {κ : Type u} [DecidableEq κ]

/-- The pointers lead to the root `rep x` of `x`. -/
structure Ok (u : UF κ) (rep : κ → κ) : Prop where
  step : ∀ x, rep (u.parents x) = rep x
  root : ∀ x, u.parents x = x → rep x = x
  depth : ∃ d : κ → ℕ, ∀ x, u.parents x ≠ x → d (u.parents x) < d x

omit [DecidableEq κ] in
theorem empty_ok : Ok (empty : UF κ) id := ⟨fun _ => rfl, fun _ _ => rfl, ⟨fun _ => 0, fun _ h => absurd rfl h⟩⟩

theorem walk_ok {u : UF κ} {rep : κ → κ} (h : Ok u rep) {d : κ → ℕ} (hd : ∀ x, u.parents x ≠ x → d (u.parents x) < d x) :
    ∀ (n : ℕ) (x : κ), d x = n → ∀ path, ∃ p, u.walk path x = some (path ++ p, rep x) ∧ u.parents (rep x) = rep x ∧
      d (rep x) ≤ d x ∧ ∀ y ∈ p, u.parents y ≠ y ∧ rep y = rep x ∧ d (rep x) < d y := by
  intro n
  induction n using Nat.strong_induction_on with
  | _ n ih =>
    intro x hx path
    rw [walk]
    by_cases hr : u.parents x = x
    · rw [if_pos hr]
      have := h.root x hr
      exact ⟨[], by simp [this], by rw [this, hr], by rw [this], by simp⟩
    · rw [if_neg hr]
      obtain ⟨p, h1, h2, h3, h4⟩ := ih _ (hx ▸ hd x hr) (u.parents x) rfl (path ++ [x])
      rw [h.step] at h1 h2 h3 h4
      refine ⟨x :: p, by rw [h1]; simp, h2, (h3.trans_lt (hd x hr)).le, fun y hy => ?_⟩
      rcases List.mem_cons.1 hy with rfl | hy
      · exact ⟨hr, rfl, h3.trans_lt (hd _ hr)⟩
      · exact h4 y hy

theorem Ok.root_rep {u : UF κ} {rep : κ → κ} (h : Ok u rep) (x : κ) : u.parents (rep x) = rep x := by
  obtain ⟨d, hd⟩ := h.depth
  obtain ⟨_, _, h2, _⟩ := walk_ok h hd _ x rfl []
  exact h2

theorem Ok.rep_rep {u : UF κ} {rep : κ → κ} (h : Ok u rep) (x : κ) : rep (rep x) = rep x := h.root _ (h.root_rep x)

theorem foldl_update (r : κ) : ∀ (p : List κ) (f : κ → κ) (y : κ),
    p.foldl (fun f y => Function.update f y r) f y = if y ∈ p then r else f y := by
  intro p
  induction p with
  | nil => intro f y; simp
  | cons a p ih =>
    intro f y
    rw [List.foldl_cons, ih]
    by_cases h : y ∈ p
    · simp [h]
    · by_cases h' : y = a
      · subst h'; simp [h]
      · simp [h, h']

/-- A look-up returns the root and keeps the roots. -/
theorem find_ok {u : UF κ} {rep : κ → κ} (h : Ok u rep) (x : κ) : ∃ u', u.find x = some (rep x, u') ∧ Ok u' rep := by
  obtain ⟨d, hd⟩ := h.depth
  obtain ⟨p, h1, h2, -, h4⟩ := walk_ok h hd _ x rfl []
  rw [List.nil_append] at h1
  refine ⟨_, by rw [find, h1]; rfl, ?_, ?_, d, ?_⟩
  · intro y
    dsimp only
    rw [foldl_update]
    split
    · rename_i hy
      rw [h.rep_rep, (h4 y hy).2.1]
    · exact h.step y
  · intro y hy
    dsimp only at hy
    rw [foldl_update] at hy
    split at hy
    · rw [← hy, h.rep_rep]
    · exact h.root y hy
  · intro y hy
    dsimp only at hy ⊢
    rw [foldl_update] at hy ⊢
    split at hy
    · rename_i hp
      rw [if_pos hp]
      exact (h4 y hp).2.2
    · rename_i hp
      rw [if_neg hp]
      exact hd y hy

/-- Letting one root point to another one joins their classes. -/
theorem Ok.link {u : UF κ} {rep : κ → κ} (h : Ok u rep) {a b : κ} (ha : rep a = a) (hb : rep b = b) (hab : a ≠ b) (w : κ → ℕ) :
    Ok ⟨Function.update u.parents b a, w⟩ fun z => if rep z = b then a else rep z := by
  have pa : u.parents a = a := by have := h.root_rep a; rwa [ha] at this
  have pb : u.parents b = b := by have := h.root_rep b; rwa [hb] at this
  obtain ⟨d, hd⟩ := h.depth
  refine ⟨?_, ?_, fun z => if rep z = b then d z + d a + 1 else d z, ?_⟩
  · intro x
    dsimp only
    by_cases hx : x = b
    · subst hx
      rw [Function.update_self, ha, if_neg hab, hb, if_pos rfl]
    · rw [Function.update_of_ne hx, h.step]
  · intro x hx
    dsimp only at hx ⊢
    by_cases hxb : x = b
    · subst hxb
      rw [Function.update_self] at hx
      exact absurd hx hab
    · rw [Function.update_of_ne hxb] at hx
      have := h.root x hx
      rw [this, if_neg hxb]
  · intro x hx
    dsimp only at hx ⊢
    by_cases hxb : x = b
    · subst hxb
      rw [Function.update_self, ha, if_neg hab, hb, if_pos rfl]
      omega
    · rw [Function.update_of_ne hxb] at hx ⊢
      rw [h.step]
      have := hd x hx
      split <;> omega

/-- `union` joins the classes of its arguments. -/
theorem union_ok (tie : κ → κ → Bool) {u : UF κ} {rep : κ → κ} (h : Ok u rep) (x y : κ) :
    ∃ u' rep', u.union tie x y = some u' ∧ Ok u' rep' ∧ ∀ a b, rep' a = rep' b ↔
      rep a = rep b ∨ (rep a = rep x ∧ rep b = rep y) ∨ (rep a = rep y ∧ rep b = rep x) := by
  obtain ⟨u1, e1, k1⟩ := find_ok h x
  obtain ⟨u2, e2, k2⟩ := find_ok k1 y
  by_cases hxy : rep x = rep y
  · refine ⟨u2, rep, ?_, k2, fun a b => ?_⟩
    · rw [union, e1]
      dsimp only [Option.bind_some]
      rw [e2]
      simp [hxy]
    · rw [hxy]
      constructor
      · exact .inl
      · rintro (e | ⟨e, f⟩ | ⟨e, f⟩)
        · exact e
        · rw [e, f]
        · rw [e, f]
  · have key : ∀ a b : κ, rep a = a → rep b = b → a ≠ b → ∀ w, Ok ⟨Function.update u2.parents b a, w⟩ _ :=
      fun a b ha hb hab w => k2.link ha hb hab w
    have hun : ∀ r s : κ, r ≠ s → ∀ a b, ((if rep a = s then r else rep a) = (if rep b = s then r else rep b) ↔
        rep a = rep b ∨ (rep a = r ∧ rep b = s) ∨ (rep a = s ∧ rep b = r)) := by
      intro r s hrs a b
      by_cases h1 : rep a = s
      · by_cases h2 : rep b = s
        · simp [h1, h2]
        · simp only [h1, if_true, if_neg h2]
          constructor
          · exact fun e => .inr (.inr ⟨trivial, e.symm⟩)
          · rintro (e | ⟨e, f⟩ | ⟨-, e⟩)
            · exact absurd e.symm h2
            · exact absurd e.symm hrs
            · exact e.symm
      · by_cases h2 : rep b = s
        · simp only [h2, if_true, if_neg h1]
          constructor
          · exact fun e => .inr (.inl ⟨e, trivial⟩)
          · rintro (e | ⟨e, -⟩ | ⟨e, -⟩)
            · exact absurd e h1
            · exact e
            · exact absurd e h1
        · simp [h1, h2]
    by_cases ht : u2.weights (rep y) < u2.weights (rep x) ∨ (u2.weights (rep x) = u2.weights (rep y) ∧ tie (rep x) (rep y) = true)
    · refine ⟨_, _, ?_, key (rep x) (rep y) (h.rep_rep x) (h.rep_rep y) hxy
        (Function.update u2.weights (rep x) (u2.weights (rep x) + u2.weights (rep y))), hun _ _ hxy⟩
      rw [union, e1]
      dsimp only [Option.bind_some]
      rw [e2]
      dsimp only [Option.map_some]
      rw [if_neg hxy, if_pos ht]
    · refine ⟨_, _, ?_, key (rep y) (rep x) (h.rep_rep y) (h.rep_rep x) (Ne.symm hxy)
        (Function.update u2.weights (rep y) (u2.weights (rep y) + u2.weights (rep x))), ?_⟩
      · rw [union, e1]
        dsimp only [Option.bind_some]
        rw [e2]
        dsimp only [Option.map_some]
        rw [if_neg hxy, if_neg ht]
      · intro a b
        rw [hun _ _ (Ne.symm hxy)]
        exact or_congr_right or_comm

end Model.UF
