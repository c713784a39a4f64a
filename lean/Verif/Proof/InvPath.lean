import Verif.Proof.EquivIff

/-! # A shortest discriminating path is one in every Markov equivalent graph -/

namespace Spec.Mixed

universe u
variable {α : Type u} {M N : Mixed α}
open Relation

/-- Two Markov equivalent directed maximal ancestral graphs. -/
structure Eqv (M N : Mixed α) : Prop where
  aM : M.Anc
  aN : N.Anc
  unM : ∀ u v, ¬ M.un u v
  unN : ∀ u v, ¬ N.un u v
  same : M.SameMarks N
  maxM : ∀ i j, i ≠ j → ¬ M.Adj i j → ¬ M.Ind i j
  maxN : ∀ i j, i ≠ j → ¬ N.Adj i j → ¬ N.Ind i j

theorem Eqv.symm (e : Eqv M N) : Eqv N M := ⟨e.aN, e.aM, e.unN, e.unM, e.same.symm, e.maxN, e.maxM⟩

theorem Eqv.adj (e : Eqv M N) {u v : α} : M.Adj u v ↔ N.Adj u v := e.same.adj u v

/-- An edge without arrowhead at `u` is an arc out of `u`. -/
theorem Anc.dir_of (hM : M.Anc) (hun : ∀ u v, ¬ M.un u v) {u v : α} (ha : M.Adj u v) (hn : ¬ M.Into v u) : M.dir u v := by
  rcases ha with k | k | k | k
  · exact k
  · exact absurd (.inl k) hn
  · exact absurd (.inr (hM.bi_symm _ _ k)) hn
  · exact absurd k (hun _ _)

theorem Anc.into_or (hM : M.Anc) (hun : ∀ u v, ¬ M.un u v) {u v : α} (ha : M.Adj u v) : M.Into u v ∨ M.Into v u := by
  by_cases h : M.Into v u
  · exact Or.inr h
  · exact Or.inl (.inl (hM.dir_of hun ha h))

theorem Anc.adj_into (hM : M.Anc) {u v : α} (h : M.Into u v) : M.Adj u v := hM.proper.ok.into_adj _ _ h

theorem Anc.bi_excl (hM : M.Anc) {u v : α} (h : M.bi u v) (k : M.dir u v) : False := hM.anc.almost _ _ h (.single k)

theorem Anc.bi_excl2 (hM : M.Anc) {u v w : α} (h : M.bi u w) (k1 : M.dir u v) (k2 : M.dir v w) : False :=
  hM.anc.almost _ _ h (.tail (.single k1) k2)

/-- A collider discriminated by common colliders is a collider in the other graph. -/
theorem Eqv.transfer (e : Eqv M N) {p : ℤ → α} {l i : ℤ} {t : α} (hl : l < i)
    (hinj : ∀ a b, l ≤ a → a ≤ i → l ≤ b → b ≤ i → p a = p b → a = b) (ht : ∀ a, l ≤ a → a ≤ i → p a ≠ t)
    (hst : ¬ M.Adj (p l) t) (hmid : ∀ k, l < k → k < i → M.dir (p k) t ∧ M.Col p k ∧ N.Col p k) (hlast : M.Adj (p i) t) :
    M.Collider (p (i - 1)) (p i) t ↔ N.Collider (p (i - 1)) (p i) t := by
  by_cases hli : l + 1 < i
  · have hp := e.same.parents e.aM e.aN (p := p) (l := l) (i := i - 1) (t := t)
      (fun a b a1 a2 b1 b2 => hinj a b a1 (by omega) b1 (by omega)) (fun a a1 a2 => ht a a1 (by omega)) hst
      (fun k k1 k2 => ⟨(hmid k k1 (by omega)).1, (hmid k k1 (by omega)).2.2.1⟩)
      (fun k k1 k2 => (hmid k k1 (by omega)).2)
    exact e.same.disc _ _ _ _ _
      (discriminating_of hli hinj ht hst (fun k k1 k2 => ⟨(hmid k k1 k2).2.1, (hmid k k1 k2).1⟩) hlast)
      (discriminating_of hli hinj ht (fun k => hst (e.adj.2 k)) (fun k k1 k2 => ⟨(hmid k k1 k2).2.2, hp k k1 (by omega)⟩)
        (e.adj.1 hlast))
  · obtain rfl : l = i - 1 := by omega
    exact e.same.unshielded (ht _ le_rfl (by omega)) hst

/-- `p 0, ..., p n = x, u` is a path on which all inner nodes are colliders, all of `p 1, ..., p (n - 1)` are parents of `u`,
and its ends are not adjacent; `x ↔ u`. -/
structure DPath (M : Mixed α) (n : ℤ) (p : ℤ → α) (x u : α) : Prop where
  pos : 0 < n
  inj : ∀ a b, 0 ≤ a → a ≤ n + 1 → 0 ≤ b → b ≤ n + 1 → p a = p b → a = b
  last : p n = x
  top : p (n + 1) = u
  start : ¬ M.Adj (p 0) u
  col : ∀ k, 0 < k → k ≤ n → M.Col p k
  par : ∀ k, 0 < k → k < n → M.dir (p k) u
  bi : M.bi x u

/-- There is such a path. -/
def DBlock (M : Mixed α) (x u : α) : Prop := ∃ n p, M.DPath n p x u

namespace DPath

variable {n : ℤ} {p : ℤ → α} {x u : α}

theorem ne (h : M.DPath n p x u) {a : ℤ} (h1 : 0 ≤ a) (h2 : a ≤ n) : p a ≠ u := fun he => by
  have := h.inj a (n + 1) h1 (by omega) (by have := h.pos; omega) le_rfl (by rw [h.top, he])
  omega

theorem fwd (h : M.DPath n p x u) {k : ℤ} (h1 : 0 ≤ k) (h2 : k < n) : M.Into (p k) (p (k + 1)) := by
  have := (h.col (k + 1) (by omega) (by omega)).1
  rwa [show k + 1 - 1 = k by ring] at this

theorem bwd (h : M.DPath n p x u) {k : ℤ} (h1 : 0 < k) (h2 : k ≤ n) : M.Into (p (k + 1)) (p k) := (h.col k h1 h2).2

theorem adj (h : M.DPath n p x u) (k : ℤ) (h1 : 0 ≤ k) (h2 : k < n + 1) : M.Adj (p k) (p (k + 1)) := by
  by_cases hk : k = n
  · subst hk; rw [h.last, h.top]; exact .inr (.inr (.inl h.bi))
  · rcases h.fwd h1 (show k < n by omega) with k | k
    · exact .inl k
    · exact .inr (.inr (.inl k))

/-- Leave out the nodes strictly between `p a` and `p b`. -/
theorem skip (h : M.DPath n p x u) {a b : ℤ} (ha : 0 ≤ a) (hab : a + 1 < b) (hb : b ≤ n) (h1 : M.Into (p a) (p b))
    (h2 : a = 0 ∨ M.Into (p b) (p a)) : ∃ n' p', n' < n ∧ M.DPath n' p' x u := by
  refine ⟨n - (b - a - 1), fun k => if k ≤ a then p k else p (k + (b - a - 1)), by omega, ?_⟩
  refine ⟨by omega, ?_, ?_, ?_, ?_, ?_, ?_, h.bi⟩
  · intro i j i1 i2 j1 j2 he
    split at he <;> split at he <;> have := h.inj _ _ (by omega) (by omega) (by omega) (by omega) he <;> omega
  · rw [if_neg (by omega), show n - (b - a - 1) + (b - a - 1) = n by ring, h.last]
  · rw [if_neg (by omega), show n - (b - a - 1) + 1 + (b - a - 1) = n + 1 by ring, h.top]
  · rw [if_pos ha]; exact h.start
  · intro k k1 k2
    refine ⟨?_, ?_⟩
    · dsimp only
      by_cases c1 : k ≤ a
      · rw [if_pos (by omega), if_pos c1]; exact (h.col k k1 (by omega)).1
      · rw [if_neg c1]
        by_cases c2 : k = a + 1
        · subst c2
          rw [if_pos (by omega), show a + 1 - 1 = a by ring, show a + 1 + (b - a - 1) = b by ring]; exact h1
        · rw [if_neg (by omega), show k - 1 + (b - a - 1) = k + (b - a - 1) - 1 by ring]
          exact (h.col _ (by omega) (by omega)).1
    · dsimp only
      by_cases c1 : k ≤ a
      · rw [if_pos c1]
        by_cases c2 : k = a
        · subst c2
          rw [if_neg (by omega), show k + 1 + (b - k - 1) = b by ring]
          exact h2.resolve_left (by omega)
        · rw [if_pos (by omega)]; exact (h.col k k1 (by omega)).2
      · rw [if_neg c1, if_neg (by omega), show k + 1 + (b - a - 1) = k + (b - a - 1) + 1 by ring]
        exact (h.col _ (by omega) (by omega)).2
  · intro k k1 k2
    split
    · exact h.par k k1 (by omega)
    · exact h.par _ (by omega) (by omega)

end DPath

/-- No shorter path of this kind exists. -/
def DShort (M : Mixed α) (n : ℤ) (p : ℤ → α) (x u : α) : Prop :=
  M.DPath n p x u ∧ ∀ n' p', M.DPath n' p' x u → n ≤ n'

theorem DBlock.short {x u : α} (h : M.DBlock x u) : ∃ n p, M.DShort n p x u := by
  obtain ⟨n, p, h⟩ := h
  have key : ∀ (m : ℕ) n p, M.DPath n p x u → n = m → ∃ n p, M.DShort n p x u := by
    intro m
    induction m using Nat.strong_induction_on with
    | _ m ih =>
    intro n p h hm
    by_cases hs : ∀ n' p', M.DPath n' p' x u → n ≤ n'
    · exact ⟨n, p, h, hs⟩
    · push Not at hs
      obtain ⟨n', p', h', hlt⟩ := hs
      have := h'.pos
      exact ih n'.toNat (by omega) n' p' h' (by omega)
  exact key n.toNat n p h (by have := h.pos; omega)

namespace DShort

variable {n : ℤ} {p : ℤ → α} {x u : α}

theorem no_skip (h : M.DShort n p x u) {a b : ℤ} (ha : 0 ≤ a) (hab : a + 1 < b) (hb : b ≤ n) (h1 : M.Into (p a) (p b))
    (h2 : a = 0 ∨ M.Into (p b) (p a)) : False := by
  obtain ⟨n', p', h3, h4⟩ := h.1.skip ha hab hb h1 h2
  have := h.2 _ _ h4
  omega

theorem back (h : M.DShort n p x u) (hM : M.Anc) {t : ℤ} (ht : t ≤ n) :
    ∀ (m : ℕ) (s : ℤ), s = m → 0 < s → s < t → M.dir (p s) (p t) →
      ∃ l, 0 ≤ l ∧ l < s ∧ ¬ M.Adj (p l) (p t) ∧ ∀ k, l < k → k < s → M.dir (p k) (p t) := by
  intro m
  induction m with
  | zero => intro s h1 h2; simp at h1; omega
  | succ m ih =>
    intro s h1 h2 h3 hd
    by_cases hadj : M.Adj (p (s - 1)) (p t)
    · have hin : M.Into (p (s - 1)) (p t) := hM.into_trans (h.1.col s h2 (by omega)).1 hd hadj
      by_cases hz : s - 1 = 0 ∨ M.Into (p t) (p (s - 1))
      · exact (h.no_skip (by omega) (show s - 1 + 1 < t by omega) ht hin hz).elim
      · rw [not_or] at hz
        have hd' : M.dir (p (s - 1)) (p t) := hin.resolve_right fun k => hz.2 (.inr (hM.bi_symm _ _ k))
        obtain ⟨l, k1, k2, k3, k4⟩ := ih (s - 1) (by push_cast at h1; omega) (by omega) (by omega) hd'
        refine ⟨l, k1, by omega, k3, fun k a b => ?_⟩
        by_cases hk : k = s - 1
        · subst hk; exact hd'
        · exact k4 k a (by omega)
    · exact ⟨s - 1, by omega, by omega, hadj, fun k a b => by omega⟩

theorem forth (h : M.DShort n p x u) (hM : M.Anc) {t : ℤ} (ht : 0 ≤ t) :
    ∀ (m : ℕ) (s : ℤ), n + 1 - s = m → t + 1 < s → s ≤ n → M.dir (p s) (p t) →
      ∃ r, r ≤ n + 1 ∧ s < r ∧ ¬ M.Adj (p r) (p t) ∧ ∀ k, s < k → k < r → M.dir (p k) (p t) := by
  intro m
  induction m with
  | zero => intro s h1 h2 h3; simp at h1; omega
  | succ m ih =>
    intro s h1 h2 h3 hd
    by_cases hadj : M.Adj (p (s + 1)) (p t)
    · have hin : M.Into (p (s + 1)) (p t) := hM.into_trans (h.1.col s (by omega) h3).2 hd hadj
      by_cases hs : s = n
      · subst hs
        exfalso
        rw [h.1.top] at hadj
        by_cases ht0 : t = 0
        · subst ht0; exact h.1.start (hM.symm hadj)
        · have := h.1.par t (by omega) (by omega)
          rw [h.1.last] at hd
          exact hM.bi_excl2 h.1.bi hd this
      · by_cases hz : M.Into (p t) (p (s + 1))
        · exact (h.no_skip ht (show t + 1 < s + 1 by omega) (by omega) hz (.inr hin)).elim
        · have hd' : M.dir (p (s + 1)) (p t) := hin.resolve_right fun k => hz (.inr (hM.bi_symm _ _ k))
          obtain ⟨r, k1, k2, k3, k4⟩ := ih (s + 1) (by push_cast at h1; omega) (by omega) (by omega) hd'
          refine ⟨r, k1, by omega, k3, fun k a b => ?_⟩
          by_cases hk : k = s + 1
          · subst hk; exact hd'
          · exact k4 k (by omega) b
    · exact ⟨s + 1, by omega, by omega, hadj, fun k a b => by omega⟩

theorem shielded (h : M.DShort n p x u) (hM : M.Anc) (hun : ∀ u v, ¬ M.un u v) {i : ℤ} (h1 : 0 < i) (h2 : i < n + 1)
    (hadj : M.Adj (p (i - 1)) (p (i + 1))) :
    (∃ l, 0 ≤ l ∧ M.DiscRight Set.univ p l i) ∨ (∃ r, r ≤ n + 1 ∧ M.DiscLeft Set.univ p i r) := by
  by_cases hi : i = n
  · subst hi
    rw [h.1.top] at hadj
    have hi1 : i ≠ 1 := by rintro rfl; exact h.1.start hadj
    refine Or.inl ⟨0, le_rfl, by omega, by rw [h.1.top]; exact h.1.start, fun k k1 k2 => ?_⟩
    rw [h.1.top]
    exact ⟨h.1.col k k1 (by omega), trivial, h.1.par k k1 k2⟩
  · by_cases hin : M.Into (p (i - 1)) (p (i + 1))
    · by_cases hz : i - 1 = 0 ∨ M.Into (p (i + 1)) (p (i - 1))
      · exact (h.no_skip (by omega) (show i - 1 + 1 < i + 1 by omega) (by omega) hin hz).elim
      · rw [not_or] at hz
        have hd : M.dir (p (i - 1)) (p (i + 1)) := hin.resolve_right fun k => hz.2 (.inr (hM.bi_symm _ _ k))
        obtain ⟨l, k1, k2, k3, k4⟩ := h.back hM (t := i + 1) (by omega) (i - 1).toNat (i - 1) (by omega) (by omega) (by omega) hd
        refine Or.inl ⟨l, k1, by omega, k3, fun k a b => ⟨h.1.col k (by omega) (by omega), trivial, ?_⟩⟩
        by_cases hk : k = i - 1
        · subst hk; exact hd
        · exact k4 k a (by omega)
    · have hd : M.dir (p (i + 1)) (p (i - 1)) := hM.dir_of hun (hM.symm hadj) hin
      obtain ⟨r, k1, k2, k3, k4⟩ := h.forth hM (t := i - 1) (by omega) (n + 1 - (i + 1)).toNat (i + 1) (by omega) (by omega)
        (by omega) hd
      refine Or.inr ⟨r, k1, by omega, k3, fun k a b => ⟨h.1.col k (by omega) (by omega), trivial, ?_⟩⟩
      by_cases hk : k = i + 1
      · subst hk; exact hd
      · exact k4 k (by omega) b

/-- The inner nodes are colliders in the other graph. -/
theorem col (h : M.DShort n p x u) (e : Eqv M N) {k : ℤ} (h1 : 0 < k) (h2 : k ≤ n) : N.Col p k :=
  (e.same.status_of e.aM e.aN e.maxM (lo := 0) (hi := n + 1) h.1.inj h.1.adj
    (fun _ i1 i2 hadj => h.shielded e.aM e.unM i1 i2 hadj) k h1 (by omega)).1 (h.1.col k h1 h2)

theorem par (h : M.DShort n p x u) (e : Eqv M N) {k : ℤ} (h1 : 0 < k) (h2 : k < n) : N.dir (p k) u :=
  e.same.parents e.aM e.aN (p := p) (l := 0) (i := n - 1) (t := u)
    (fun a b a1 a2 b1 b2 => h.1.inj a b a1 (by omega) b1 (by omega)) (fun _ a1 a2 => h.1.ne a1 (by omega)) h.1.start
    (fun k k1 k2 => ⟨h.1.par k k1 (by omega), (h.col e k1 (by omega)).1⟩)
    (fun k k1 k2 => ⟨h.1.col k k1 (by omega), h.col e k1 (by omega)⟩) k h1 (by omega)

theorem fwd (h : M.DShort n p x u) (e : Eqv M N) {k : ℤ} (h1 : 0 ≤ k) (h2 : k < n) : N.Into (p k) (p (k + 1)) := by
  have := (h.col e (k := k + 1) (by omega) (by omega)).1
  rwa [show k + 1 - 1 = k by ring] at this

theorem into (h : M.DShort n p x u) (e : Eqv M N) : N.Into u x := by
  have := (h.col e h.1.pos le_rfl).2
  rwa [h.1.last, h.1.top] at this

theorem into' (h : M.DShort n p x u) (e : Eqv M N) : N.Into (p (n - 1)) x := by
  have := (h.col e h.1.pos le_rfl).1
  rwa [h.1.last] at this

theorem minto (h : M.DShort n p x u) : M.Into (p (n - 1)) x := by
  have := (h.1.col n h.1.pos le_rfl).1
  rwa [h.1.last] at this

end DShort

/-- `v *→ x ↔ u` with `v`, `u` not adjacent. -/
theorem dblock_of_unshielded (hM : M.Anc) {v x u : α} (h1 : M.Into v x) (h2 : M.bi x u) (hvu : v ≠ u) (hn : ¬ M.Adj v u) :
    M.DBlock x u := by
  have hvx : v ≠ x := fun he => hM.loop x (by subst he; exact hM.adj_into h1)
  have hxu : x ≠ u := fun he => hM.loop x (by subst he; exact .inr (.inr (.inl h2)))
  refine ⟨1, fun k => if k = 0 then v else if k = 1 then x else u, by omega, ?_, by simp, by simp, by simpa using hn, ?_, ?_, h2⟩
  · intro a b a1 a2 b1 b2
    have : a = 0 ∨ a = 1 ∨ a = 2 := by omega
    have : b = 0 ∨ b = 1 ∨ b = 2 := by omega
    rcases ‹a = 0 ∨ a = 1 ∨ a = 2› with rfl | rfl | rfl <;> rcases ‹b = 0 ∨ b = 1 ∨ b = 2› with rfl | rfl | rfl <;>
      simp_all [eq_comm]
  · intro k k1 k2
    obtain rfl : k = 1 := by omega
    exact ⟨by simpa using h1, by simpa using .inr (hM.bi_symm _ _ h2)⟩
  · intro k k1 k2; omega

/-- The nodes of a discriminating path numbered. -/
theorem Discriminating.numbered {v x u : α} {qs : List α} (h : M.Discriminating v qs x u) :
    ∃ (n : ℤ) (p : ℤ → α), 1 < n ∧ (∀ a b, 0 ≤ a → a ≤ n + 1 → 0 ≤ b → b ≤ n + 1 → p a = p b → a = b) ∧ p 0 = v ∧ p n = x ∧
      p (n + 1) = u ∧ ∀ k, 0 < k → k < n → M.Col p k ∧ M.dir (p k) u := by
  set L := v :: (qs ++ [x, u]) with hL
  have hlen : L.length = qs.length + 3 := by simp [hL]
  obtain ⟨p, hp⟩ : ∃ p : ℤ → α, ∀ i : ℕ, i < L.length → L[i]? = some (p i) :=
    ⟨fun k => L.getD k.toNat v, fun i hi => by simp [hi]⟩
  have hp' : ∀ i : ℕ, i < qs.length + 2 → (v :: (qs ++ [x]))[i]? = some (p i) := fun i hi => by
    rw [← hp i (by omega), hL, show v :: (qs ++ [x, u]) = v :: (qs ++ [x]) ++ [u] by simp,
      List.getElem?_append_left (by simp; omega)]
  have hlen' : 0 < qs.length := List.length_pos_of_ne_nil h.nonempty
  refine ⟨qs.length + 1, p, by omega, ?_, ?_, ?_, ?_, ?_⟩
  · intro a b a1 a2 b1 b2 he
    obtain ⟨n, rfl⟩ := Int.eq_ofNat_of_zero_le a1
    obtain ⟨m, rfl⟩ := Int.eq_ofNat_of_zero_le b1
    have e1 := hp n (by omega)
    have e2 := hp m (by omega)
    rw [he, ← e2] at e1
    have := (List.getElem?_inj (by simp; omega) h.nodup).1 e1
    omega
  · have := hp 0 (by omega)
    rw [hL] at this
    simp at this
    exact this.symm
  · have := hp (qs.length + 1) (by omega)
    rw [hL, List.getElem?_cons_succ, List.getElem?_append_right (by omega)] at this
    simp at this
    exact this.symm
  · have := hp (qs.length + 2) (by omega)
    rw [hL, List.getElem?_cons_succ, List.getElem?_append_right (by omega)] at this
    simp at this
    rw [this]; congr 1
  · intro k k1 k2
    obtain ⟨n, hn⟩ := Int.eq_ofNat_of_zero_le (show 0 ≤ k - 1 by omega)
    obtain rfl : k = n + 1 := by omega
    refine ⟨h.collider _ _ _ (infix3_iff.2 ⟨n, ?_, ?_, ?_⟩), h.parent _ ?_⟩
    · have := hp' n (by omega); rw [show (n : ℤ) + 1 - 1 = n by ring]; exact this
    · have := hp' (n + 1) (by omega); rw [this]; push_cast; rfl
    · have := hp' (n + 2) (by omega); rw [this]; congr 2
    · have := hp (n + 1) (by omega)
      rw [hL, List.getElem?_cons_succ, List.getElem?_append_left (by omega)] at this
      have := List.mem_of_getElem? this
      push_cast at this
      exact this

/-- A discriminating path for `x` with `x ↔ u`. -/
theorem dblock_of_disc (hM : M.Anc) {v x u : α} {qs : List α} (h : M.Discriminating v qs x u) (hb : M.bi x u) : M.DBlock x u := by
  obtain ⟨n, p, hn, hinj, hv, hx, hu, hk⟩ := h.numbered
  refine ⟨n, p, by omega, hinj, hx, hu, by rw [hv]; exact h.start, ?_, fun k k1 k2 => (hk k k1 k2).2, hb⟩
  intro k k1 k2
  by_cases hkn : k < n
  · exact (hk k k1 hkn).1
  · obtain rfl : k = n := by omega
    refine ⟨?_, by rw [hx, hu]; exact .inr (hM.bi_symm _ _ hb)⟩
    obtain ⟨c, d⟩ := hk (k - 1) (by omega) (by omega)
    have c := c.2
    rw [show k - 1 + 1 = k by ring] at c
    rw [hx] at c ⊢
    rcases c with c | c
    · exact (hM.bi_excl2 hb c d).elim
    · exact .inr (hM.bi_symm _ _ c)

end Spec.Mixed
