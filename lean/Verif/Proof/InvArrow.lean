import Verif.Proof.InvPath
import Verif.Proof.MarkChange

/-! # Without legitimate changes of `↔` to `→` all bidirected edges are invariant -/

namespace Spec.Mixed

universe u
variable {α : Type u} {M N : Mixed α} {x u s c y : α}
open Relation

theorem last_fail (Q : ℤ → Prop) : ∀ t : ℕ, (∀ k : ℤ, 0 ≤ k → k < t → Q k) ∨
    ∃ l : ℤ, 0 ≤ l ∧ l < t ∧ ¬ Q l ∧ ∀ k, l < k → k < t → Q k := by
  intro t
  induction t with
  | zero => exact Or.inl fun k h1 h2 => by simp at h2; omega
  | succ t ih =>
    by_cases hq : Q t
    · rcases ih with h | ⟨l, h1, h2, h3, h4⟩
      · refine Or.inl fun k k1 k2 => ?_
        by_cases hk : k = t
        · rwa [hk]
        · exact h k k1 (by push_cast at k2; omega)
      · refine Or.inr ⟨l, h1, by push_cast; omega, h3, fun k k1 k2 => ?_⟩
        by_cases hk : k = t
        · rwa [hk]
        · exact h4 k k1 (by push_cast at k2; omega)
    · exact Or.inr ⟨t, by omega, by push_cast; omega, hq, fun k k1 k2 => by push_cast at k2; omega⟩

theorem first_hit (Q : ℤ → Prop) {n : ℤ} (hn : 0 < n) (h : Q n) : ∃ t, 0 < t ∧ t ≤ n ∧ Q t ∧ ∀ k, 0 < k → k < t → ¬ Q k := by
  have key : ∀ (m : ℕ) (n : ℤ), n = m → 0 < n → Q n → ∃ t, 0 < t ∧ t ≤ n ∧ Q t ∧ ∀ k, 0 < k → k < t → ¬ Q k := by
    intro m
    induction m using Nat.strong_induction_on with
    | _ m ih =>
    intro n hm hn h
    by_cases hk : ∀ k, 0 < k → k < n → ¬ Q k
    · exact ⟨n, hn, le_rfl, h, hk⟩
    · push Not at hk
      obtain ⟨k, k1, k2, k3⟩ := hk
      obtain ⟨t, t1, t2, t3⟩ := ih k.toNat (by omega) k (by omega) k1 k3
      exact ⟨t, t1, by omega, t3⟩
  exact key n.toNat n (by omega) hn h

theorem DBlock.into (e : Eqv M N) (h : M.DBlock x u) : N.Into u x := by
  obtain ⟨n, p, hp⟩ := h.short
  exact hp.into e

/-- In a maximal graph there is no arc from `x` to the start of the path. -/
theorem DPath.not_dir_start {n : ℤ} {p : ℤ → α} (h : M.DPath n p x u) (hM : M.Anc)
    (hmax : ∀ i j, i ≠ j → ¬ M.Adj i j → ¬ M.Ind i j) : ¬ M.dir x (p 0) := by
  intro hd
  have hpos := h.pos
  refine hmax (p 0) u (h.ne le_rfl (by omega)) h.start ?_
  have hanc : ∀ k, 0 < k → k ≤ n → M.Anc2 (p 0) u (p k) := by
    intro k k1 k2
    by_cases hk : k = n
    · rw [hk, h.last]; exact .inl (.single hd)
    · exact .inr (.single (h.par k k1 (by omega)))
  refine ⟨p 1, p n, by have := h.fwd (k := 0) le_rfl hpos; simpa using this, hanc 1 (by omega) (by omega), ?_, ?_⟩
  · have chain : ∀ m : ℕ, 1 + (m : ℤ) ≤ n →
        ReflTransGen (fun a b => M.bi a b ∧ M.Anc2 (p 0) u b) (p 1) (p (1 + m)) := by
      intro m
      induction m with
      | zero => intro _; simpa using ReflTransGen.refl
      | succ m ih =>
        intro hm
        push_cast at hm
        refine .tail (ih (by omega)) ?_
        have c1 := h.fwd (k := 1 + m) (by omega) (by omega)
        have c2 := h.bwd (k := 1 + m) (by omega) (by omega)
        rw [show 1 + ((m + 1 : ℕ) : ℤ) = 1 + m + 1 by push_cast; ring]
        exact ⟨hM.bi_of c1 c2, hanc _ (by omega) (by omega)⟩
    have := chain (n - 1).toNat (by omega)
    rwa [show 1 + ((n - 1).toNat : ℤ) = n by omega] at this
  · have := h.bwd hpos le_rfl
    rwa [h.top] at this

theorem DShort.not_adj_start {n : ℤ} {p : ℤ → α} (h : M.DShort n p x u) (hM : M.Anc) (hun : ∀ u v, ¬ M.un u v)
    (hmax : ∀ i j, i ≠ j → ¬ M.Adj i j → ¬ M.Ind i j) (hn : 1 < n) : ¬ M.Adj (p 0) x := by
  intro ha
  by_cases hin : M.Into (p 0) x
  · exact h.no_skip le_rfl (show (0 : ℤ) + 1 < n by omega) le_rfl (by rwa [h.1.last]) (.inl rfl)
  · exact h.1.not_dir_start hM hmax (hM.dir_of hun (hM.symm ha) hin)

/-- A collider triple of `N` without edge between the outer nodes is one of `M`. -/
theorem Eqv.unsh (e : Eqv M N) {a b d : α} (had : a ≠ d) (hn : ¬ M.Adj a d) (h1 : N.Into a b) (h2 : N.Into d b) :
    M.Into a b ∧ M.Into d b := (e.same.unshielded had hn).2 ⟨h1, h2⟩

/-- `x ↔ u → s ↔ x` where the arrowhead of `x ↔ s` at `x` is forced. -/
theorem into_of_child (e : Eqv M N) (hxu : M.bi x u) (hxs : M.bi x s) (hus : M.dir u s) (hb : M.DBlock x s) : N.Into u x := by
  obtain ⟨n, p, h⟩ := hb.short
  by_contra hn
  have hpos := h.1.pos
  have axu : N.Adj x u := e.adj.1 (.inr (.inr (.inl hxu)))
  have xu : N.dir x u := e.aN.dir_of e.unN axu hn
  have sx : N.Into s x := h.into e
  have aus : N.Adj s u := e.aN.symm (e.adj.1 (.inl hus))
  have su : N.Into s u := e.aN.into_trans sx xu aus
  have hMsu : ¬ M.Into s u := e.aM.proper.excl _ _ hus
  have hneus : u ≠ s := fun k => e.aM.loop s (by subst k; exact .inl hus)
  have hneux : u ≠ x := fun k => e.aM.loop x (by subst k; exact .inr (.inr (.inl hxu)))
  -- `u` is not on the path
  have hu : ∀ k, 0 ≤ k → k ≤ n → p k ≠ u := by
    rintro k k1 k2 rfl
    by_cases k0 : k = 0
    · subst k0; exact h.1.start (.inl hus)
    by_cases kn : k = n
    · subst kn; exact hneux h.1.last
    by_cases kn' : k = n - 1
    · subst kn'; exact hn (h.into' e)
    · refine h.no_skip k1 (show k + 1 < n by omega) le_rfl ?_ (.inr ?_) <;> rw [h.1.last]
      · exact .inr (e.aM.bi_symm _ _ hxu)
      · exact .inr hxu
  -- arrowheads from `u` to the path are not kept
  have claim : ∀ i, 0 < i → i ≤ n → M.Into u (p i) → ¬ N.Into u (p i) := by
    intro i i1 i2 hM hN
    by_cases hin : i = n
    · subst hin; rw [h.1.last] at hN; exact hn hN
    have hpis : N.dir (p i) s := h.par e i1 (by omega)
    have hpiu : N.Into (p i) u := by
      by_contra hc
      have := e.aN.dir_of e.unN (e.aN.adj_into hN) hc
      exact e.aN.proper.excl _ _ (e.aN.dir_trans this hpis (e.aN.symm aus)) su
    set p' : ℤ → α := fun k => if k ≤ i then p k else u with hp'
    have colp' : ∀ {X : Mixed α}, (∀ k, 0 < k → k ≤ i → X.Col p k) → X.Into u (p i) → ∀ k, 0 < k → k < i + 1 → X.Col p' k := by
      intro X hX hXu k k1 k2
      have := hX k k1 (by omega)
      refine ⟨?_, ?_⟩
      · rw [hp']; dsimp only
        rw [if_pos (by omega), if_pos (by omega)]; exact this.1
      · rw [hp']; dsimp only
        by_cases hk : k = i
        · subst hk; rw [if_neg (by omega), if_pos le_rfl]; exact hXu
        · rw [if_pos (by omega), if_pos (by omega)]; exact this.2
    have := (e.transfer (p := p') (l := 0) (i := i + 1) (t := s) (by omega) ?_ ?_ ?_ ?_ ?_).2
    · rw [show i + 1 - 1 = i by ring] at this
      have e1 : p' i = p i := by rw [hp']; exact if_pos le_rfl
      have e2 : p' (i + 1) = u := by rw [hp']; exact if_neg (by omega)
      rw [e1, e2] at this
      exact hMsu (this ⟨hpiu, su⟩).2
    · intro a b a1 a2 b1 b2 he
      rw [hp'] at he
      dsimp only at he
      split at he <;> split at he
      · exact h.1.inj a b a1 (by omega) b1 (by omega) he
      · exact absurd he (hu a a1 (by omega))
      · exact absurd he.symm (hu b b1 (by omega))
      · omega
    · intro a a1 a2
      rw [hp']; dsimp only
      split
      · exact h.1.ne a1 (by omega)
      · exact hneus
    · rw [hp']; dsimp only
      rw [if_pos (by omega)]; exact h.1.start
    · intro k k1 k2
      refine ⟨?_, colp' (fun k k1 k2 => h.1.col k k1 (by omega)) hM k k1 k2, colp' (fun k k1 k2 => h.col e k1 (by omega)) hN k k1 k2⟩
      rw [hp']; dsimp only
      rw [if_pos (by omega)]; exact h.1.par k k1 (by omega)
    · rw [hp']; dsimp only
      rw [if_neg (by omega)]; exact .inl hus
  -- the start of the path
  have claimB : M.Adj (p 0) u → ¬ N.Into (p 0) u := fun _ k =>
    hMsu (e.unsh (h.1.ne le_rfl (by omega)) h.1.start k su).2
  obtain ⟨t, t1, t2, t3, t4⟩ := first_hit (fun i => M.Into u (p i)) hpos
    (show M.Into u (p n) by rw [h.1.last]; exact .inr (e.aM.bi_symm _ _ hxu))
  -- a node of the path that is not adjacent to `u`
  have caseA : ∀ l, 0 ≤ l → l < t → ¬ M.Adj (p l) u → (∀ k, l < k → k < t → M.dir (p k) u) → False := by
    intro l l1 l2 l3 l4
    have := (e.transfer (p := p) (l := l) (i := t) (t := u) l2
      (fun a b a1 a2 b1 b2 => h.1.inj a b (by omega) (by omega) (by omega) (by omega))
      (fun a a1 a2 => hu a (by omega) (by omega)) l3
      (fun k k1 k2 => ⟨l4 k k1 k2, h.1.col k (by omega) (by omega), h.col e (by omega) (by omega)⟩)
      (e.aM.symm (e.aM.adj_into t3))).1 ⟨(h.1.col t t1 t2).1, t3⟩
    exact claim t t1 t2 t3 this.2
  have caseB : M.Adj (p 0) u → (∀ k, 0 < k → k < t → M.dir (p k) u) → False := by
    intro ha hd
    by_cases ht : t = 1
    · subst ht
      have h1 : N.dir (p 1) u := e.aN.dir_of e.unN (e.adj.1 (e.aM.symm (e.aM.adj_into t3))) (claim 1 t1 t2 t3)
      have h2 := h.fwd e (k := 0) le_rfl (by omega)
      rw [show (0 : ℤ) + 1 = 1 by ring] at h2
      exact claimB ha (e.aN.into_trans h2 h1 (e.adj.1 ha))
    · have h1 := hd 1 (by omega) (by omega)
      have h2 := h.1.fwd (k := 0) le_rfl (by omega)
      rw [show (0 : ℤ) + 1 = 1 by ring] at h2
      have h3 := e.aM.into_trans h2 h1 ha
      have hna := h.not_adj_start e.aM e.unM e.maxM (by omega)
      have hne : p 0 ≠ x := fun k => by
        have := h.1.inj 0 n le_rfl (by omega) (by omega) (by omega) (by rw [k, h.1.last]); omega
      exact claimB ha (e.symm.unsh (d := x) hne (fun k => hna (e.adj.2 k)) h3 (.inr hxu)).1
  rcases last_fail (fun k => M.dir (p k) u) t.toNat with hall | ⟨l, l1, l2, l3, l4⟩
  · exact caseB (.inl (hall 0 le_rfl (by omega))) fun k k1 k2 => hall k (by omega) (by omega)
  · have l4' : ∀ k, l < k → k < t → M.dir (p k) u := fun k k1 k2 => l4 k k1 (by omega)
    by_cases ha : M.Adj (p l) u
    · by_cases hl0 : l = 0
      · subst hl0; exact caseB ha l4'
      · exact l3 (e.aM.dir_of e.unM ha (t4 l (by omega) (by omega)))
    · exact caseA l l1 (by omega) ha l4'

/-- Cut the path after `p l` and continue with `y`. -/
theorem DPath.cut {n l : ℤ} {p : ℤ → α} (h : M.DPath n p x u) (hM : M.Anc) (hl : 0 ≤ l) (hln : l < n)
    (hy : ∀ k, 0 ≤ k → k ≤ l → p k ≠ y) (h1 : M.Into (p l) y) (h2 : l = 0 ∨ M.Into y (p l)) (hb : M.bi y u) : M.DBlock y u := by
  have hyu : y ≠ u := fun k => hM.loop u (by subst k; exact .inr (.inr (.inl hb)))
  refine ⟨l + 1, fun k => if k ≤ l then p k else if k = l + 1 then y else u, by omega, ?_, ?_, ?_, ?_, ?_, ?_, hb⟩
  · intro a b a1 a2 b1 b2 he
    split_ifs at he
    · exact h.inj a b a1 (by omega) b1 (by omega) he
    · exact absurd he (hy a a1 (by omega))
    · exact absurd he (h.ne a1 (by omega))
    · exact absurd he.symm (hy b b1 (by omega))
    · omega
    · exact absurd he hyu
    · exact absurd he.symm (h.ne b1 (by omega))
    · exact absurd he.symm hyu
    · omega
  · simp
  · rw [if_neg (by omega), if_neg (by omega)]
  · rw [if_pos hl]; exact h.start
  · intro k k1 k2
    by_cases hk : k = l + 1
    · subst hk
      refine ⟨by simpa using h1, ?_⟩
      dsimp only
      rw [if_neg (by omega), if_neg (by omega), if_neg (by omega), if_pos rfl]
      exact .inr (hM.bi_symm _ _ hb)
    · have := h.col k k1 (by omega)
      refine ⟨?_, ?_⟩
      · dsimp only
        rw [if_pos (by omega), if_pos (by omega)]; exact this.1
      · dsimp only
        by_cases hkl : k = l
        · subst hkl
          rw [if_neg (by omega), if_pos rfl, if_pos le_rfl]
          exact h2.resolve_left (by omega)
        · rw [if_pos (by omega), if_pos (by omega)]; exact this.2
  · intro k k1 k2
    rw [if_pos (by omega)]; exact h.par k k1 (by omega)

/-- The arc `c → y` is forced if the reason for the arrowhead of `c ↔ u` at `c` does not apply to `y ↔ u`. -/
theorem forced_of_dblock (e : Eqv M N) (hcy : M.dir c y) (hyu : M.bi y u) (hc : M.DBlock c u)
    (hy : ¬ M.DBlock y u) : N.dir c y := by
  obtain ⟨n, p, h⟩ := hc.short
  have hpos := h.1.pos
  have hyp : ∀ k, 0 ≤ k → k ≤ n → p k ≠ y := by
    rintro k k1 k2 rfl
    by_cases k0 : k = 0
    · subst k0; exact h.1.start (.inr (.inr (.inl hyu)))
    by_cases kn : k = n
    · subst kn; rw [h.1.last] at hcy; exact e.aM.irrefl _ hcy
    · exact e.aM.bi_excl hyu (h.1.par k (by omega) (by omega))
  rcases last_fail (fun k => M.dir (p k) y) n.toNat with hall | ⟨l, l1, l2, l3, l4⟩
  · exact absurd (h.1.cut e.aM le_rfl hpos (fun k k1 k2 => hyp k k1 (by omega)) (.inl (hall 0 le_rfl (by omega))) (.inl rfl) hyu) hy
  · have hl : l < n := by omega
    by_cases ha : M.Adj (p l) y
    · exfalso
      have hd : M.dir (p (l + 1)) y := by
        by_cases hln : l + 1 = n
        · rw [hln, h.1.last]; exact hcy
        · exact l4 (l + 1) (by omega) (by omega)
      have hin := e.aM.into_trans (h.1.fwd l1 hl) hd ha
      have hb : M.bi (p l) y := hin.resolve_left l3
      exact hy (h.1.cut e.aM l1 hl (fun k k1 k2 => hyp k k1 (by omega)) hin (.inr (.inr (e.aM.bi_symm _ _ hb))) hyu)
    · have := (e.transfer (p := p) (l := l) (i := n) (t := y) hl
        (fun a b a1 a2 b1 b2 => h.1.inj a b (by omega) (by omega) (by omega) (by omega))
        (fun a a1 a2 => hyp a (by omega) a2) ha
        (fun k k1 k2 => ⟨l4 k k1 (by omega), h.1.col k (by omega) (by omega), h.col e (by omega) (by omega)⟩)
        (by rw [h.1.last]; exact .inl hcy)).2
      rw [h.1.last] at this
      refine e.aN.dir_of e.unN (e.adj.1 (.inl hcy)) fun hin => ?_
      exact e.aM.proper.excl _ _ hcy (this ⟨h.into' e, hin⟩).2

/-- A reason for the arrowhead of `x ↔ u` at `x`. -/
def Reason (M : Mixed α) (x u : α) : Prop := M.DBlock x u ∨ ∃ s, M.bi x s ∧ M.dir u s ∧ M.DBlock x s

theorem Reason.into (e : Eqv M N) (hxu : M.bi x u) (h : M.Reason x u) : N.Into u x := by
  rcases h with h | ⟨s, h1, h2, h3⟩
  · exact h.into e
  · exact into_of_child e hxu h1 h2 h3

theorem Reason.forced (e : Eqv M N) (hcy : M.dir c y) (hyu : M.bi y u) (hc : M.Reason c u)
    (hy : ¬ M.Reason y u) : N.dir c y := by
  rcases hc with hc | ⟨s, h1, h2, h3⟩
  · exact forced_of_dblock e hcy hyu hc fun k => hy (.inl k)
  · have hsy : s ≠ y := fun k => by subst k; exact e.aM.bi_excl (e.aM.bi_symm _ _ hyu) h2
    by_cases ha : M.Adj s y
    · have hin := e.aM.into_trans (.inr (e.aM.bi_symm _ _ h1)) hcy ha
      have hb : M.bi s y := hin.resolve_left fun k => e.aM.bi_excl2 (e.aM.bi_symm _ _ hyu) h2 k
      exact forced_of_dblock e hcy (e.aM.bi_symm _ _ hb) h3 fun k => hy (.inr ⟨s, e.aM.bi_symm _ _ hb, h2, k⟩)
    · refine e.aN.dir_of e.unN (e.adj.1 (.inl hcy)) fun hin => ?_
      exact e.aM.proper.excl _ _ hcy (e.unsh hsy ha (h3.into e) hin).2

/-- `p k → ... → p 0 = x`, all nodes joined to `u` by bidirected edges, and a reason for the last one. -/
structure RChain (M : Mixed α) (k : ℕ) (p : ℕ → α) (x u : α) : Prop where
  start : p 0 = x
  dir : ∀ i, i < k → M.dir (p (i + 1)) (p i)
  bi : ∀ i, i ≤ k → M.bi (p i) u
  reason : M.Reason (p k) u

theorem RChain.shortest {k : ℕ} {p : ℕ → α} (h : M.RChain k p x u) :
    ∃ k p, M.RChain k p x u ∧ ∀ k' p', M.RChain k' p' x u → k ≤ k' := by
  classical
  have hex : ∃ k, ∃ p, M.RChain k p x u := ⟨k, p, h⟩
  obtain ⟨q, hq⟩ := Nat.find_spec hex
  exact ⟨_, q, hq, fun k' p' hk => Nat.find_min' hex ⟨p', hk⟩⟩

theorem RChain.into {k : ℕ} {p : ℕ → α} (h : M.RChain k p x u) (e : Eqv M N) : N.Into u x := by
  obtain ⟨k, p, h, hmin⟩ := h.shortest
  have nr : ∀ i, i < k → ¬ M.Reason (p i) u := by
    intro i hi hr
    have := hmin i p ⟨h.start, fun j hj => h.dir j (by omega), fun j hj => h.bi j (by omega), hr⟩
    omega
  have na : ∀ i, i + 2 ≤ k → ¬ M.Adj (p (i + 2)) (p i) := by
    intro i hi ha
    have hd := e.aM.dir_trans (h.dir (i + 1) (by omega)) (h.dir i (by omega)) ha
    have := hmin (k - 1) (fun j => if j ≤ i then p j else p (j + 1)) ⟨by simp [h.start], ?_, ?_, ?_⟩
    · omega
    · intro j hj
      by_cases c1 : j + 1 ≤ i
      · rw [if_pos c1, if_pos (by omega)]; exact h.dir j (by omega)
      · rw [if_neg c1]
        by_cases c2 : j = i
        · subst c2; rw [if_pos le_rfl]; exact hd
        · rw [if_neg (by omega)]; exact h.dir (j + 1) (by omega)
    · intro j hj
      split
      · exact h.bi j (by omega)
      · exact h.bi (j + 1) (by omega)
    · rw [if_neg (by omega), show k - 1 + 1 = k by omega]; exact h.reason
  have forced : ∀ d i, i + d + 1 = k → N.dir (p (i + 1)) (p i) := by
    intro d
    induction d with
    | zero =>
      intro i hi
      refine Reason.forced e (h.dir i (by omega)) (h.bi _ (by omega)) ?_ (nr i (by omega))
      rw [show i + 1 = k by omega]; exact h.reason
    | succ d ih =>
      intro i hi
      have h1 := ih (i + 1) (by omega)
      have h2 := h.dir i (by omega)
      refine e.aN.dir_of e.unN (e.adj.1 (.inl h2)) fun hin => ?_
      have hne : p (i + 2) ≠ p i := fun k => e.aM.anc.acyclic (p i) (by
        have := TransGen.tail (.single (h.dir (i + 1) (by omega))) h2
        rwa [show i + 1 + 1 = i + 2 by ring, k] at this)
      exact e.aM.proper.excl _ _ h2 (e.unsh hne (na i (by omega)) (.inl h1) hin).2
  have path : ∀ d, d ≤ k → Path0 N.dir (p d) (p 0) := by
    intro d
    induction d with
    | zero => intro _; exact .refl
    | succ d ih => intro hd; exact .head (forced (k - d - 1) d (by omega)) (ih (by omega))
  have hin := Reason.into e (h.bi k le_rfl) h.reason
  by_contra hn
  have b0 := h.bi 0 (by omega)
  rw [h.start] at b0
  have hd : N.dir x u := e.aN.dir_of e.unN (e.adj.1 (.inr (.inr (.inl b0)))) hn
  have hp : Path N.dir (p k) u := by
    have := path k le_rfl
    rw [h.start] at this
    exact TransGen.tail' this hd
  rcases hin with hin | hin
  · exact e.aN.anc.acyclic u (TransGen.head hin hp)
  · exact e.aN.anc.almost _ _ (e.aN.bi_symm _ _ hin) hp

/-- No bidirected edge can be turned into an arc legitimately. -/
def Blocked (M : Mixed α) : Prop := ∀ x u, M.bi x u → ¬ M.Legit x u

theorem top_reason (hM : M.Anc) (hun : ∀ u v, ¬ M.un u v) (wf : WellFounded fun a b => M.dir b a) (hB : M.Blocked) (hxu : M.bi x u)
    (htop : ∀ e, M.dir e x → ¬ M.bi e u) : M.Reason x u := by
  by_contra hr
  have nb : ¬ M.DBlock x u := fun k => hr (.inl k)
  have adj_u : ∀ d, d ≠ u → M.Into d x → M.Adj d u := fun d hd hi => by
    by_contra hna
    exact nb (dblock_of_unshielded hM hi hxu hd hna)
  by_cases hS : ∃ s, M.bi x s ∧ M.dir u s
  · obtain ⟨s, ⟨hxs, hus⟩, hmin⟩ := wf.has_min {s | M.bi x s ∧ M.dir u s} hS
    have nbs : ¬ M.DBlock x s := fun k => hr (.inr ⟨s, hxs, hus, k⟩)
    have adj_s : ∀ d, d ≠ s → M.Into d x → M.Adj d s := fun d hd hi => by
      by_contra hna
      exact nbs (dblock_of_unshielded hM hi hxs hd hna)
    refine hB x s hxs ⟨⟨?_, ?_, ?_⟩, fun v qs hd => nbs (dblock_of_disc hM hd hxs)⟩
    · intro c hcx
      have hcs : c ≠ s := fun k => by subst k; exact hM.bi_excl (hM.bi_symm _ _ hxs) hcx
      have hcu : c ≠ u := fun k => by subst k; exact hM.bi_excl (hM.bi_symm _ _ hxu) hcx
      rcases adj_s c hcs (.inl hcx) with k | k | k | k
      · exact k
      · exact (hM.bi_excl2 (hM.bi_symm _ _ hxs) k hcx).elim
      · exfalso
        rcases adj_u c hcu (.inl hcx) with m | m | m | m
        · exact hM.bi_excl2 k m hus
        · exact hM.bi_excl2 (hM.bi_symm _ _ hxu) m hcx
        · exact htop c hcx m
        · exact hun _ _ m
      · exact absurd k (hun _ _)
    · intro d hds hdx
      by_contra hn
      have hsd := hM.dir_of hun (hM.symm (adj_s d hds (.inr hdx))) hn
      have hdu : d ≠ u := fun k => by
        subst k; exact hM.proper.excl _ _ hus (.inl hsd)
      have := hM.dir_trans hus hsd (hM.symm (adj_u d hdu (.inr hdx)))
      exact hmin d ⟨hM.bi_symm _ _ hdx, this⟩ hsd
    · intro c hxc _ hp
      exact hM.anc.almost _ _ hxs (.head hxc hp)
  · refine hB x u hxu ⟨⟨?_, ?_, ?_⟩, fun v qs hd => nb (dblock_of_disc hM hd hxu)⟩
    · intro c hcx
      have hcu : c ≠ u := fun k => by subst k; exact hM.bi_excl (hM.bi_symm _ _ hxu) hcx
      rcases adj_u c hcu (.inl hcx) with m | m | m | m
      · exact m
      · exact (hM.bi_excl2 (hM.bi_symm _ _ hxu) m hcx).elim
      · exact absurd m (htop c hcx)
      · exact absurd m (hun _ _)
    · intro d hdu hdx
      by_contra hn
      exact hS ⟨d, hM.bi_symm _ _ hdx, hM.dir_of hun (hM.symm (adj_u d hdu (.inr hdx))) hn⟩
    · intro c hxc _ hp
      exact hM.anc.almost _ _ hxu (.head hxc hp)

theorem exists_rchain (hM : M.Anc) (hun : ∀ u v, ¬ M.un u v) (wf : WellFounded M.dir) (wf' : WellFounded fun a b => M.dir b a)
    (hB : M.Blocked) : ∀ x, M.bi x u → ∃ k p, M.RChain k p x u := by
  intro x
  induction x using wf.induction with
  | _ x ih =>
  intro hxu
  by_cases htop : ∀ e, M.dir e x → ¬ M.bi e u
  · exact ⟨0, fun _ => x, rfl, fun i hi => by omega, fun _ _ => hxu, top_reason hM hun wf' hB hxu htop⟩
  · push Not at htop
    obtain ⟨c, hc, hcu⟩ := htop
    obtain ⟨k, p, h⟩ := ih c hc hcu
    refine ⟨k + 1, fun i => if i = 0 then x else p (i - 1), by simp, ?_, ?_, by simpa using h.reason⟩
    · intro i hi
      by_cases hi0 : i = 0
      · subst hi0; simpa [h.start] using hc
      · have := h.dir (i - 1) (by omega)
        simp only [hi0, if_false, Nat.add_eq_zero_iff, one_ne_zero, and_false, Nat.add_sub_cancel]
        rwa [show i - 1 + 1 = i by omega] at this
    · intro i hi
      by_cases hi0 : i = 0
      · subst hi0; simpa using hxu
      · simp only [hi0, if_false]; exact h.bi (i - 1) (by omega)

/-- The bidirected edges are bidirected in every Markov equivalent graph. -/
theorem Eqv.bi_invariant (e : Eqv M N) (wf : WellFounded M.dir) (wf' : WellFounded fun a b => M.dir b a) (hB : M.Blocked)
    (h : M.bi x u) : N.bi x u := by
  obtain ⟨k, p, h1⟩ := exists_rchain e.aM e.unM wf wf' hB x h
  obtain ⟨k', p', h2⟩ := exists_rchain e.aM e.unM wf wf' hB u (e.aM.bi_symm _ _ h)
  exact e.aN.bi_of (h2.into e) (h1.into e)

end Spec.Mixed
