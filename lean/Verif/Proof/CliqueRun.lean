import Verif.Proof.CliqueTree

/-! # Runs of `directed_clique_tree` on given graphs -/

namespace Model

universe u

section
variable {κ : Type u} [DecidableEq κ]

/-- `walk` with a bound on the number of steps. -/
def UF.walkFuel (u : UF κ) : ℕ → List κ → κ → Option (List κ × κ)
  | 0, _, _ => none
  | n + 1, path, x => if u.parents x = x then some (path, x) else walkFuel u n (path ++ [x]) (u.parents x)

theorem UF.walkFuel_ok {u : UF κ} : ∀ (n : ℕ) (path : List κ) (x : κ) {r : List κ × κ}, u.walkFuel n path x = some r → u.walk path x = some r := by
  intro n
  induction n with
  | zero => intro path x r h; simp [walkFuel] at h
  | succ n ih =>
    intro path x r h
    rw [walkFuel] at h
    rw [walk]
    split at h
    · rename_i hx
      rw [if_pos hx]
      exact h
    · rename_i hx
      rw [if_neg hx]
      exact ih _ _ h

def UF.findFuel (n : ℕ) (u : UF κ) (x : κ) : Option (κ × UF κ) :=
  (u.walkFuel n [] x).map fun r => (r.2, { u with parents := r.1.foldl (fun p y => Function.update p y r.2) u.parents })

theorem UF.findFuel_ok {n : ℕ} {u : UF κ} {x : κ} {r : κ × UF κ} (h : u.findFuel n x = some r) : u.find x = some r := by
  rw [findFuel, Option.map_eq_some_iff] at h
  obtain ⟨p, h1, h2⟩ := h
  rw [find, walkFuel_ok _ _ _ h1, ← h2]
  rfl

def UF.unionFuel (n : ℕ) (tie : κ → κ → Bool) (u : UF κ) (x y : κ) : Option (UF κ) :=
  (u.findFuel n x).bind fun (a, u) => (u.findFuel n y).map fun (b, u) =>
    if a = b then u
    else
      let (top, sub) := if u.weights b < u.weights a ∨ (u.weights a = u.weights b ∧ tie a b = true) then (a, b) else (b, a)
      ⟨Function.update u.parents sub top, Function.update u.weights top (u.weights top + u.weights sub)⟩

theorem UF.unionFuel_ok {n : ℕ} {tie : κ → κ → Bool} {u : UF κ} {x y : κ} {r : UF κ} (h : u.unionFuel n tie x y = some r) :
    u.union tie x y = some r := by
  rw [unionFuel, Option.bind_eq_some_iff] at h
  obtain ⟨p, h1, h2⟩ := h
  rw [Option.map_eq_some_iff] at h2
  obtain ⟨q, h3, h4⟩ := h2
  rw [union, findFuel_ok h1, Option.bind_some]
  dsimp only
  rw [findFuel_ok h3, Option.map_some, ← h4]

end

variable {α : Type u} [DecidableEq α]

namespace DAG

def cliqueStepFuel (n : ℕ) (tie : Finset α → Finset α → Bool) (G : DAG α) (cl : List (Finset α)) (t : CliqueTree α) (e : Finset α × Finset α) :
    Option (CliqueTree α) :=
  (t.sub.findFuel n e.1).bind fun (a, sub) => (sub.findFuel n e.2).bind fun (b, sub) =>
  if a = b then some { t with sub := sub }
  else
  if G.allInto (e.1 ∩ e.2) e.1 && G.allInto (e.1 ∩ e.2) e.2 then
    (t.bi.findFuel n e.1).bind fun (a, bi) => (bi.findFuel n e.2).bind fun (b, bi) =>
    if hasSource cl { t with sub := sub, bi := bi } a && hasSource cl { t with sub := sub, bi := bi } b then
      some { t with sub := sub, bi := bi }
    else
    (sub.unionFuel n tie e.1 e.2).bind fun sub => (bi.unionFuel n tie e.1 e.2).bind fun bi =>
    some ⟨insert e.swap (insert e t.arcs), sub, bi⟩
  else
    let e := if G.allInto (e.1 ∩ e.2) e.2 then e else e.swap
    (t.bi.findFuel n e.2).bind fun (b, bi) =>
    if hasSource cl { t with sub := sub, bi := bi } b then some { t with sub := sub, bi := bi }
    else
    (sub.unionFuel n tie e.1 e.2).bind fun sub =>
    some ⟨insert e t.arcs, sub, bi⟩

theorem cliqueStepFuel_ok {n : ℕ} {tie : Finset α → Finset α → Bool} {G : DAG α} {cl : List (Finset α)} {t : CliqueTree α}
    {e : Finset α × Finset α} {t' : CliqueTree α} (h : cliqueStepFuel n tie G cl t e = some t') : cliqueStep tie G cl t e = some t' := by
  rw [cliqueStepFuel, Option.bind_eq_some_iff] at h
  obtain ⟨⟨a, s1⟩, h1, h⟩ := h
  dsimp only at h
  rw [Option.bind_eq_some_iff] at h
  obtain ⟨⟨b, s2⟩, h2, h⟩ := h
  dsimp only at h
  simp only [cliqueStep, UF.findFuel_ok h1, UF.findFuel_ok h2, Option.bind_eq_bind, Option.bind_some]
  split at h
  · rename_i h0; rw [if_pos h0]; exact h
  rename_i h0
  rw [if_neg h0]
  split at h
  · rename_i h3
    rw [if_pos h3]
    rw [Option.bind_eq_some_iff] at h
    obtain ⟨⟨a', b1⟩, h4, h⟩ := h
    dsimp only at h
    rw [Option.bind_eq_some_iff] at h
    obtain ⟨⟨b', b2⟩, h5, h⟩ := h
    dsimp only at h
    simp only [UF.findFuel_ok h4, UF.findFuel_ok h5, Option.bind_some]
    split at h
    · rename_i h6; rw [if_pos h6]; exact h
    rename_i h6
    rw [if_neg h6]
    rw [Option.bind_eq_some_iff] at h
    obtain ⟨s3, h7, h⟩ := h
    rw [Option.bind_eq_some_iff] at h
    obtain ⟨b3, h8, h⟩ := h
    simp only [UF.unionFuel_ok h7, UF.unionFuel_ok h8, Option.bind_some]
    exact h
  · rename_i h3
    rw [if_neg h3]
    rw [Option.bind_eq_some_iff] at h
    obtain ⟨⟨b', b2⟩, h5, h⟩ := h
    dsimp only at h
    simp only [UF.findFuel_ok h5, Option.bind_some]
    split at h
    · rename_i h6; rw [if_pos h6]; exact h
    rename_i h6
    rw [if_neg h6]
    rw [Option.bind_eq_some_iff] at h
    obtain ⟨s3, h7, h⟩ := h
    simp only [UF.unionFuel_ok h7, Option.bind_some]
    exact h

theorem foldlFuel_ok {n : ℕ} {tie : Finset α → Finset α → Bool} {G : DAG α} {cl : List (Finset α)} :
    ∀ (l : List (Finset α × Finset α)) (t : CliqueTree α) {t' : CliqueTree α}, l.foldlM (cliqueStepFuel n tie G cl) t = some t' →
      l.foldlM (cliqueStep tie G cl) t = some t' := by
  intro l
  induction l with
  | nil => exact fun t t' h => h
  | cons e l ih =>
    intro t t' h
    rw [List.foldlM_cons, Option.bind_eq_bind, Option.bind_eq_some_iff] at h
    obtain ⟨s, h1, h2⟩ := h
    rw [List.foldlM_cons, cliqueStepFuel_ok h1]
    exact ih s h2

/-- A way to compute a run, given the sorted pairs. -/
theorem run_ok {n : ℕ} {tie : Finset α → Finset α → Bool} {G : DAG α} {cl : List (Finset α)} {l : List (Finset α × Finset α)}
    {T : Finset (Finset α × Finset α)} (hl : cliquePairs cl = l)
    (h : (l.foldlM (cliqueStepFuel n tie G cl) ⟨∅, .empty, .empty⟩).map CliqueTree.arcs = some T) : directedCliqueTree tie G cl = some T := by
  rw [Option.map_eq_some_iff] at h
  obtain ⟨t, h1, h2⟩ := h
  rw [directedCliqueTree, hl, foldlFuel_ok l _ h1, ← h2]
  rfl

end DAG

end Model

namespace Proof.CT

universe u
variable {α : Type u} [DecidableEq α]

open Spec

/-- If every node with its parents lies in some member of a list of cliques none of which contains another one, these are the maximal
cliques. -/
theorem maxCliques_of_families {V : Finset α} {E : α → α → Prop} {r : α → ℕ} (hr : ∀ a b, E a b → r a < r b) {cl : List (Finset α)}
    (hne : ∀ c ∈ cl, c.Nonempty ∧ c ⊆ V ∧ Clique E c) (hanti : ∀ c ∈ cl, ∀ d ∈ cl, c ⊆ d → c = d)
    (hfam : ∀ v ∈ V, ∃ d ∈ cl, v ∈ d ∧ ∀ u ∈ V, E u v → u ∈ d) (c : Finset α) : c ∈ cl ↔ MaxClique V E c := by
  have key : ∀ c : Finset α, c.Nonempty → c ⊆ V → Clique E c → ∃ d ∈ cl, c ⊆ d := by
    intro c hn hV hc
    obtain ⟨m, hm, hmax⟩ := Finset.exists_max_image c r hn
    obtain ⟨d, hd, hmd, hsub⟩ := hfam m (hV hm)
    refine ⟨d, hd, fun x hx => ?_⟩
    by_cases hxm : x = m
    · rw [hxm]; exact hmd
    · rcases hc x hx m hm hxm with h | h
      · exact hsub x (hV hx) h
      · have := hr _ _ h
        have := hmax x hx
        omega
  constructor
  · intro hc
    obtain ⟨h1, h2, h3⟩ := hne c hc
    refine ⟨h1, h2, h3, fun d hd hcd hsub => ?_⟩
    obtain ⟨e, he, hde⟩ := key d (h1.mono hsub) hd hcd
    have := hanti c hc e he (hsub.trans hde)
    exact Finset.Subset.antisymm (this ▸ hde) hsub
  · intro h
    obtain ⟨d, hd, hsub⟩ := key c h.nonempty h.sub h.clique
    rw [← h.max d (hne d hd).2.1 (hne d hd).2.2 hsub]
    exact hd

end Proof.CT
