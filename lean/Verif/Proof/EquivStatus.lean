import Verif.Proof.Equiv

/-! # The colliders of a shortest m-connecting walk are the same in graphs with the same discriminating paths -/

namespace Spec.Mixed

universe u
variable {α : Type u} {M N : Mixed α} {Z : Set α}
open Relation

/-- `p i` is a collider on the walk. -/
def Col (M : Mixed α) (p : ℤ → α) (i : ℤ) : Prop := M.Collider (p (i - 1)) (p i) (p (i + 1))

/-- If the edge to `b` is replaced by an edge to `t` and this closes the triple, then `a` is a collider in `Z`. -/
theorem closed_by (h : M.Anc) {d a b t : α} (ho : M.mg.Open Z d a b) (hab : M.Adj a b) (hat : M.Adj a t)
    (hcol : M.Into d a → M.Into t a → M.dir a b → M.mg.An Z a) (hn : ¬ M.mg.Open Z d a t) :
    M.Into d a ∧ M.Into b a ∧ a ∈ Z ∧ M.dir a t := by
  by_cases hc : M.Into d a ∧ M.Into t a
  · exfalso
    apply hn
    refine ⟨fun _ => ?_, fun k => absurd hc k⟩
    by_cases hb : M.Into b a
    · exact ho.1 ⟨hc.1, hb⟩
    · exact hcol hc.1 hc.2 (h.out hc.1 hab hb)
  · have ha : a ∈ Z := by
      by_contra ha
      exact hn ⟨fun k => absurd k hc, fun _ => ha⟩
    have hcol' : M.Into d a ∧ M.Into b a := by
      by_contra k
      exact ho.2 k ha
    exact ⟨hcol'.1, hcol'.2, ha, h.out hcol'.1 hat fun k => hc ⟨hcol'.1, k⟩⟩

/-- Going back from `p s → t` along colliders: either `t` can be reached from an earlier node directly, or an earlier node
is not adjacent to `t`. -/
theorem Shortest.back (h : M.Anc) {lo hi : ℤ} {p : ℤ → α} (w : M.Shortest Z lo hi p) {t : α} :
    ∀ (n : ℕ) (s : ℤ), s - lo = n → lo < s → s ≤ hi → M.dir (p s) t → M.Into (p (s - 1)) (p s) →
      (∃ a, lo ≤ a ∧ a < s ∧ M.Into (p a) t ∧ (a = lo ∨ M.mg.Open Z (p (a - 1)) (p a) t) ∧
        (a = lo ∨ (M.Into t (p a) → M.Into (p (a + 1)) (p a)))) ∨
      (∃ l, lo ≤ l ∧ l < s ∧ ¬ M.Adj (p l) t ∧
        ∀ k, l < k → k < s → M.Col p k ∧ p k ∈ Z ∧ M.dir (p k) t) := by
  intro n
  induction n with
  | zero => intro s h1 h2; simp at h1; omega
  | succ n ih =>
    intro s h1 h2 h3 hst hin
    by_cases hadj : M.Adj (p (s - 1)) t
    · have hint := h.into_trans hin hst hadj
      by_cases hopen : s - 1 = lo ∨ M.mg.Open Z (p (s - 1 - 1)) (p (s - 1)) t
      · refine Or.inl ⟨s - 1, by omega, by omega, hint, hopen, ?_⟩
        by_cases hlo : s - 1 = lo
        · exact Or.inl hlo
        · refine Or.inr fun ht => ?_
          rw [show s - 1 + 1 = s by ring]
          rcases hin with hin | hin
          · exact absurd (.tail (.single hin) hst) (h.anc.almost _ _ (h.bi_of hint ht))
          · exact .inr (h.bi_symm _ _ hin)
      · rw [not_or] at hopen
        have hlo : lo < s - 1 := by omega
        have hadj' := w.1.adj (s - 1) (by omega) (by omega)
        have hop := w.1.opn (s - 1) hlo (by omega)
        rw [show s - 1 + 1 = s by ring] at hadj' hop
        obtain ⟨c1, c2, c3, c4⟩ := closed_by h hop hadj' hadj (by
          intro k1 k2 k3
          exact absurd (.tail (.single k3) hst) (h.anc.almost _ _ (h.bi_of hint k2))) hopen.2
        rcases ih (s - 1) (by push_cast at h1; omega) hlo (by omega) c4 c1 with ⟨a, k1, k2, k3⟩ | ⟨l, k1, k2, k3, k4⟩
        · exact Or.inl ⟨a, k1, by omega, k3⟩
        · refine Or.inr ⟨l, k1, by omega, k3, fun k hk1 hk2 => ?_⟩
          by_cases hk : k = s - 1
          · subst hk
            refine ⟨⟨c1, ?_⟩, c3, c4⟩
            rw [show s - 1 + 1 = s by ring]; exact c2
          · exact k4 k hk1 (by omega)
    · exact Or.inr ⟨s - 1, by omega, by omega, hadj, fun k hk1 hk2 => by omega⟩

/-- `p l, ..., p (i - 1), p i, p (i + 1)` is a discriminating path for `p i`, the colliders in between belong to `Z`. -/
structure DiscRight (M : Mixed α) (Z : Set α) (p : ℤ → α) (l i : ℤ) : Prop where
  lt : l + 1 < i
  start : ¬ M.Adj (p l) (p (i + 1))
  mid : ∀ k, l < k → k < i → M.Col p k ∧ p k ∈ Z ∧ M.dir (p k) (p (i + 1))

/-- The mirror image. -/
structure DiscLeft (M : Mixed α) (Z : Set α) (p : ℤ → α) (i r : ℤ) : Prop where
  lt : i + 1 < r
  start : ¬ M.Adj (p r) (p (i - 1))
  mid : ∀ k, i < k → k < r → M.Col p k ∧ p k ∈ Z ∧ M.dir (p k) (p (i - 1))

theorem Shortest.right (h : M.Anc) {lo hi : ℤ} {p : ℤ → α} (w : M.Shortest Z lo hi p) {i : ℤ} (h1 : lo < i - 1) (h2 : i < hi)
    (hc : M.Col p (i - 1)) (hz : p (i - 1) ∈ Z) (hd : M.dir (p (i - 1)) (p (i + 1))) :
    ∃ l, lo ≤ l ∧ M.DiscRight Z p l i := by
  have hadj := w.1.adj i (by omega) h2
  have hti : M.Into (p i) (p (i + 1)) := by
    refine h.into_trans (b := p (i - 1)) ?_ hd hadj
    have := hc.2; rwa [show i - 1 + 1 = i by ring] at this
  rcases w.back h (t := p (i + 1)) (i - 1 - lo).toNat (i - 1) (by omega) (by omega) (by omega) hd hc.1 with
    ⟨a, k1, k2, k3, k4, -⟩ | ⟨l, k1, k2, k3, k4⟩
  · exfalso
    refine w.no_shortcut k1 (show a + 1 < i + 1 by omega) (by omega) (h.proper.ok.into_adj _ _ k3) k4 ?_
    by_cases hh : i + 1 = hi
    · exact Or.inl hh
    · refine Or.inr ?_
      have := w.1.opn (i + 1) (by omega) (by omega)
      rw [show i + 1 - 1 = i by ring] at this
      exact ⟨fun c => this.1 ⟨hti, c.2⟩, fun c => this.2 fun c' => c ⟨k3, c'.2⟩⟩
  · refine ⟨l, k1, by omega, k3, fun k hk1 hk2 => ?_⟩
    by_cases hk : k = i - 1
    · subst hk; exact ⟨hc, hz, hd⟩
    · exact k4 k hk1 (by omega)

theorem col_neg {p : ℤ → α} {i : ℤ} : M.Col (fun k => p (-k)) (-i) ↔ M.Col p i := by
  unfold Col Collider; dsimp only
  rw [show -(-i - 1) = i + 1 by ring, show - -i = i by ring, show -(-i + 1) = i - 1 by ring, and_comm]

theorem Shortest.left (h : M.Anc) {lo hi : ℤ} {p : ℤ → α} (w : M.Shortest Z lo hi p) {i : ℤ} (h1 : lo < i) (h2 : i + 1 < hi)
    (hc : M.Col p (i + 1)) (hz : p (i + 1) ∈ Z) (hd : M.dir (p (i + 1)) (p (i - 1))) :
    ∃ r, r ≤ hi ∧ M.DiscLeft Z p i r := by
  obtain ⟨l, k1, k2⟩ := (w.reverse h).right h (i := -i) (by omega) (by omega)
    (by rw [show -i - 1 = -(i + 1) by ring]; exact col_neg.2 hc)
    (by simpa [show -(-i - 1) = i + 1 by ring] using hz)
    (by simpa [show -(-i - 1) = i + 1 by ring, show -(-i + 1) = i - 1 by ring] using hd)
  refine ⟨-l, by omega, by have := k2.lt; omega, ?_, ?_⟩
  · have := k2.start
    rwa [show -(-i + 1) = i - 1 by ring] at this
  · intro k hk1 hk2
    obtain ⟨m1, m2, m3⟩ := k2.mid (-k) (by omega) (by omega)
    rw [show - -k = k by ring] at m2 m3
    rw [show -(-i + 1) = i - 1 by ring] at m3
    exact ⟨col_neg.1 m1, m2, m3⟩

/-- A shielded inner node is discriminated by a part of the walk, from the left or from the right. -/
theorem Shortest.shielded (h : M.Anc) {lo hi : ℤ} {p : ℤ → α} (w : M.Shortest Z lo hi p) {i : ℤ} (h1 : lo < i) (h2 : i < hi)
    (hadj : M.Adj (p (i - 1)) (p (i + 1))) :
    (∃ l, lo ≤ l ∧ M.DiscRight Z p l i) ∨ (∃ r, r ≤ hi ∧ M.DiscLeft Z p i r) := by
  have a1 := w.1.adj (i - 1) (by omega) (by omega)
  rw [show i - 1 + 1 = i by ring] at a1
  have a2 := w.1.adj i (by omega) h2
  have o := w.1.opn i h1 h2
  by_cases k1 : i - 1 = lo ∨ M.mg.Open Z (p (i - 1 - 1)) (p (i - 1)) (p (i + 1))
  · by_cases k2 : i + 1 = hi ∨ M.mg.Open Z (p (i - 1)) (p (i + 1)) (p (i + 1 + 1))
    · exact (w.no_shortcut (by omega) (show i - 1 + 1 < i + 1 by omega) (by omega) hadj k1 k2).elim
    · rw [not_or] at k2
      have o' := w.1.opn (i + 1) (by omega) (by omega)
      rw [show i + 1 - 1 = i by ring] at o'
      obtain ⟨c1, c2, c3, c4⟩ := closed_by h (open_symm.1 o') (h.symm a2) (h.symm hadj) (by
        intro m1 m2 m3
        refine an_of_dir m3 (o.1 ⟨h.into_trans m2 m3 a1, .inl m3⟩)) (fun k => k2.2 (open_symm.1 k))
      refine Or.inr (w.left h h1 (by omega) ⟨?_, c1⟩ c3 c4)
      rw [show i + 1 - 1 = i by ring]; exact c2
  · rw [not_or] at k1
    have o' := w.1.opn (i - 1) (by omega) (by omega)
    rw [show i - 1 + 1 = i by ring] at o'
    obtain ⟨c1, c2, c3, c4⟩ := closed_by h o' a1 hadj (by
      intro m1 m2 m3
      exact an_of_dir m3 (o.1 ⟨.inl m3, h.into_trans m2 m3 (h.symm a2)⟩)) k1.2
    refine Or.inl (w.right h (by omega) h2 ⟨c1, ?_⟩ c3 c4)
    rw [show i - 1 + 1 = i by ring]; exact c2

/-! ## Two graphs -/

/-- Same skeleton, same unshielded colliders, same kind of node on every shared discriminating path. -/
structure SameMarks (M N : Mixed α) : Prop where
  adj : ∀ u v, M.Adj u v ↔ N.Adj u v
  vstruct : ∀ u v w, M.VStruct u v w ↔ N.VStruct u v w
  disc : ∀ x qs q b c, M.Discriminating x (qs ++ [q]) b c → N.Discriminating x (qs ++ [q]) b c →
    (M.Collider q b c ↔ N.Collider q b c)

theorem SameMarks.symm (h : M.SameMarks N) : N.SameMarks M :=
  ⟨fun u v => (h.adj u v).symm, fun u v w => (h.vstruct u v w).symm, fun x qs q b c h1 h2 => (h.disc x qs q b c h2 h1).symm⟩

theorem SameMarks.unshielded (h : M.SameMarks N) {u v w : α} (huw : u ≠ w) (hn : ¬ M.Adj u w) :
    M.Collider u v w ↔ N.Collider u v w := by
  have := h.vstruct u v w
  unfold VStruct at this
  have hn' : ¬ N.Adj u w := fun k => hn ((h.adj _ _).2 k)
  constructor
  · intro k; exact (this.1 ⟨huw, k, hn⟩).2.1
  · intro k; exact (this.2 ⟨huw, k, hn'⟩).2.1

/-- A sequence `p l, ..., p i, t` as a discriminating path for `p i`. -/
theorem discriminating_of {p : ℤ → α} {l i : ℤ} {t : α} (hl : l + 1 < i)
    (hinj : ∀ a b, l ≤ a → a ≤ i → l ≤ b → b ≤ i → p a = p b → a = b) (ht : ∀ a, l ≤ a → a ≤ i → p a ≠ t)
    (hst : ¬ M.Adj (p l) t) (hmid : ∀ k, l < k → k < i → M.Col p k ∧ M.dir (p k) t) (hlast : M.Adj (p i) t) :
    M.Discriminating (p l) (listOf p (l + 1) (i - 1 - 1) ++ [p (i - 1)]) (p i) t := by
  have e1 : listOf p (l + 1) (i - 1 - 1) ++ [p (i - 1)] = listOf p (l + 1) (i - 1) := (listOf_snoc (by omega)).symm
  have e2 : p l :: (listOf p (l + 1) (i - 1) ++ [p i]) = listOf p l i := by
    rw [← listOf_snoc (by omega), ← listOf_cons (by omega)]
  rw [e1]
  refine ⟨?_, ?_, hst, ?_, ?_, hlast⟩
  · rw [← e1]; simp
  · have : p l :: (listOf p (l + 1) (i - 1) ++ [p i, t]) = listOf p l i ++ [t] := by rw [← e2]; simp
    rw [this, List.nodup_append]
    refine ⟨listOf_nodup.2 hinj, by simp, ?_⟩
    intro a ha b hb
    obtain ⟨k, k1, k2, rfl⟩ := listOf_mem.1 ha
    simp at hb; subst hb
    exact ht k k1 k2
  · intro q hq
    obtain ⟨k, k1, k2, rfl⟩ := listOf_mem.1 hq
    exact (hmid k (by omega) (by omega)).2
  · intro u v w huvw
    rw [e2] at huvw
    obtain ⟨k, h1, h2, h3⟩ := infix3_iff.1 huvw
    rw [listOf_get] at h1 h2 h3
    obtain ⟨-, rfl⟩ := h1
    obtain ⟨-, rfl⟩ := h2
    obtain ⟨hk, rfl⟩ := h3
    have := (hmid (l + k + 1) (by omega) (by push_cast at hk; omega)).1
    unfold Col at this
    rw [show l + (k : ℤ) + 1 - 1 = l + k by ring] at this
    rw [show l + ((k + 1 : ℕ) : ℤ) = l + k + 1 by push_cast; ring, show l + ((k + 2 : ℕ) : ℤ) = l + k + 1 + 1 by push_cast; ring]
    exact this

/-- Along a sequence of nodes that are colliders in both graphs, parents of `t` in one graph are parents of `t` in the
other. -/
theorem SameMarks.parents (hs : M.SameMarks N) (hM : M.Anc) (hN : N.Anc) {p : ℤ → α} {l i : ℤ} {t : α}
    (hinj : ∀ a b, l ≤ a → a ≤ i → l ≤ b → b ≤ i → p a = p b → a = b) (ht : ∀ a, l ≤ a → a ≤ i → p a ≠ t)
    (hst : ¬ M.Adj (p l) t)
    (h1 : ∀ k, l < k → k ≤ i → M.dir (p k) t ∧ N.Into (p (k - 1)) (p k))
    (h2 : ∀ k, l < k → k < i → M.Col p k ∧ N.Col p k) : ∀ k, l < k → k ≤ i → N.dir (p k) t := by
  have key : ∀ (n : ℕ) (k : ℤ), k - l = n → l < k → k ≤ i → N.dir (p k) t := by
    intro n
    induction n using Nat.strong_induction_on with
    | _ n ih =>
    intro k hk k1 k2
    have hadj : N.Adj (p k) t := (hs.adj _ _).1 (.inl (h1 k k1 k2).1)
    refine hN.out (h1 k k1 k2).2 hadj fun hin => ?_
    have hMn : ∀ u, ¬ M.Collider u (p k) t := fun u hc => hM.proper.excl _ _ (h1 k k1 k2).1 hc.2
    by_cases hk1 : k = l + 1
    · subst hk1
      refine hMn _ ((hs.unshielded (u := p l) (w := t) (ht l le_rfl (by omega)) hst).2 ⟨?_, hin⟩)
      have := (h1 (l + 1) k1 k2).2
      rwa [show l + 1 - 1 = l by ring] at this
    · have d1 : M.Discriminating (p l) (listOf p (l + 1) (k - 1 - 1) ++ [p (k - 1)]) (p k) t :=
        discriminating_of (by omega) (fun a b a1 a2 b1 b2 => hinj a b a1 (by omega) b1 (by omega))
          (fun a a1 a2 => ht a a1 (by omega)) hst (fun j j1 j2 => ⟨(h2 j j1 (by omega)).1, (h1 j j1 (by omega)).1⟩)
          (.inl (h1 k k1 k2).1)
      have d2 : N.Discriminating (p l) (listOf p (l + 1) (k - 1 - 1) ++ [p (k - 1)]) (p k) t :=
        discriminating_of (by omega) (fun a b a1 a2 b1 b2 => hinj a b a1 (by omega) b1 (by omega))
          (fun a a1 a2 => ht a a1 (by omega)) (fun k => hst ((hs.adj _ _).2 k))
          (fun j j1 j2 => ⟨(h2 j j1 (by omega)).2, ih (j - l).toNat (by omega) j (by omega) j1 (by omega)⟩) hadj
      exact hMn _ ((hs.disc _ _ _ _ _ d1 d2).2 ⟨(h1 k k1 k2).2, hin⟩)
  intro k k1 k2
  exact key (k - l).toNat k (by omega) k1 k2

/-- A node that is discriminated from the left by nodes that are colliders in both graphs. -/
theorem SameMarks.of_right (hs : M.SameMarks N) (hM : M.Anc) (hN : N.Anc) {p : ℤ → α} {l i : ℤ}
    (hinj : ∀ a b, l ≤ a → a ≤ i + 1 → l ≤ b → b ≤ i + 1 → p a = p b → a = b) (hd : M.DiscRight Z p l i)
    (hadj : M.Adj (p i) (p (i + 1))) (hcol : ∀ k, l < k → k < i → N.Col p k) : M.Col p i ↔ N.Col p i := by
  have hlt := hd.lt
  have ht : ∀ a, l ≤ a → a ≤ i → p a ≠ p (i + 1) := fun a a1 a2 he => by
    have := hinj a (i + 1) a1 (by omega) (by omega) le_rfl he; omega
  have hinj' : ∀ a b, l ≤ a → a ≤ i → l ≤ b → b ≤ i → p a = p b → a = b :=
    fun a b a1 a2 b1 b2 => hinj a b a1 (by omega) b1 (by omega)
  have hp := hs.parents hM hN (p := p) (l := l) (i := i - 1) (t := p (i + 1))
    (fun a b a1 a2 b1 b2 => hinj a b a1 (by omega) b1 (by omega)) (fun a a1 a2 => ht a a1 (by omega)) hd.start
    (fun k k1 k2 => ⟨(hd.mid k k1 (by omega)).2.2, (hcol k k1 (by omega)).1⟩)
    (fun k k1 k2 => ⟨(hd.mid k k1 (by omega)).1, hcol k k1 (by omega)⟩)
  exact hs.disc _ _ _ _ _
    (discriminating_of hlt hinj' ht hd.start (fun k k1 k2 => ⟨(hd.mid k k1 k2).1, (hd.mid k k1 k2).2.2⟩) hadj)
    (discriminating_of hlt hinj' ht (fun k => hd.start ((hs.adj _ _).2 k))
      (fun k k1 k2 => ⟨hcol k k1 k2, hp k k1 (by omega)⟩) ((hs.adj _ _).1 hadj))

theorem SameMarks.of_left (hs : M.SameMarks N) (hM : M.Anc) (hN : N.Anc) {p : ℤ → α} {i r : ℤ}
    (hinj : ∀ a b, i - 1 ≤ a → a ≤ r → i - 1 ≤ b → b ≤ r → p a = p b → a = b) (hd : M.DiscLeft Z p i r)
    (hadj : M.Adj (p (i - 1)) (p i)) (hcol : ∀ k, i < k → k < r → N.Col p k) : M.Col p i ↔ N.Col p i := by
  have := hs.of_right hM hN (Z := Z) (p := fun k => p (-k)) (l := -r) (i := -i) (fun a b a1 a2 b1 b2 he => by
      have := hinj (-a) (-b) (by omega) (by omega) (by omega) (by omega) he; omega)
    ⟨by have := hd.lt; omega, by
      have := hd.start
      rwa [show -(-i + 1) = i - 1 by ring, show - -r = r by ring], fun k k1 k2 => by
      obtain ⟨m1, m2, m3⟩ := hd.mid (-k) (by omega) (by omega)
      rw [← col_neg, show - -k = k by ring] at m1
      refine ⟨m1, m2, ?_⟩
      rwa [show -(-i + 1) = i - 1 by ring]⟩
    (by
      rw [show -(-i + 1) = i - 1 by ring, show - -i = i by ring]; exact hM.symm hadj)
    (fun k k1 k2 => by
      have := hcol (-k) (by omega) (by omega)
      rwa [← col_neg, show - -k = k by ring] at this)
  rwa [col_neg, col_neg] at this

/-- Two nodes of a path in a maximal graph do not discriminate each other. -/
theorem disc_no_cycle (h : M.Anc) (hmax : ∀ i j, i ≠ j → ¬ M.Adj i j → ¬ M.Ind i j) {lo hi : ℤ} {p : ℤ → α}
    (hinj : ∀ i j, lo ≤ i → i ≤ hi → lo ≤ j → j ≤ hi → p i = p j → i = j) {k i l r : ℤ} (h1 : lo ≤ l) (h2 : r ≤ hi)
    (hk : M.DiscLeft Z p k r) (hi' : M.DiscRight Z p l i) (hlk : l < k) (hki : k < i) (hir : i < r) : False := by
  -- the right end
  have hr : r = i + 1 := by
    by_contra hr
    have d := (hk.mid (i + 1) (by omega) (by omega)).2.2
    by_cases hl : l = k - 1
    · subst hl; exact hi'.start (h.symm (.inl d))
    · exact h.proper.excl _ _ d (.inl (hi'.mid (k - 1) (by omega) (by omega)).2.2)
  subst hr
  have hl : l = k - 1 := by
    by_contra hl
    exact hk.start (h.symm (.inl (hi'.mid (k - 1) (by omega) (by omega)).2.2))
  subst hl
  refine hmax (p (k - 1)) (p (i + 1)) (fun he => ?_) hi'.start ?_
  · have := hinj _ _ h1 (by omega) (by omega) h2 he; omega
  have hcol : ∀ j, k ≤ j → j ≤ i → M.Col p j ∧ M.Anc2 (p (k - 1)) (p (i + 1)) (p j) := by
    intro j j1 j2
    by_cases hj : j = i
    · subst hj
      obtain ⟨m1, -, m3⟩ := hk.mid j hki (by omega)
      exact ⟨m1, .inl (.single m3)⟩
    · obtain ⟨m1, -, m3⟩ := hi'.mid j (by omega) (by omega)
      exact ⟨m1, .inr (.single m3)⟩
  refine ⟨p k, p i, (hcol k le_rfl (by omega)).1.1, (hcol k le_rfl (by omega)).2, ?_, (hcol i (by omega) le_rfl).1.2⟩
  have chain : ∀ n : ℕ, k + n ≤ i →
      ReflTransGen (fun a b => M.bi a b ∧ M.Anc2 (p (k - 1)) (p (i + 1)) b) (p k) (p (k + n)) := by
    intro n
    induction n with
    | zero => intro _; simpa using ReflTransGen.refl
    | succ n ih =>
      intro hn
      push_cast at hn
      refine .tail (ih (by omega)) ?_
      have c1 := (hcol (k + n) (by omega) (by omega)).1.2
      have c2 := (hcol (k + n + 1) (by omega) (by omega))
      have c3 := c2.1.1
      rw [show k + (n : ℤ) + 1 - 1 = k + n by ring] at c3
      rw [show k + ((n + 1 : ℕ) : ℤ) = k + n + 1 by push_cast; ring]
      exact ⟨h.bi_of c3 c1, c2.2⟩
  have := chain (i - k).toNat (by omega)
  rwa [show k + ((i - k).toNat : ℤ) = i by omega] at this

/-- If every shielded inner node of a path is discriminated by a part of the path, then the inner nodes are colliders in both
graphs or in none. -/
theorem SameMarks.status_of (hs : M.SameMarks N) (hM : M.Anc) (hN : N.Anc)
    (hmax : ∀ i j, i ≠ j → ¬ M.Adj i j → ¬ M.Ind i j) {lo hi : ℤ} {p : ℤ → α}
    (hinj : ∀ i j, lo ≤ i → i ≤ hi → lo ≤ j → j ≤ hi → p i = p j → i = j)
    (hwadj : ∀ i, lo ≤ i → i < hi → M.Adj (p i) (p (i + 1)))
    (hsh : ∀ i, lo < i → i < hi → M.Adj (p (i - 1)) (p (i + 1)) →
      (∃ l, lo ≤ l ∧ M.DiscRight Z p l i) ∨ (∃ r, r ≤ hi ∧ M.DiscLeft Z p i r)) :
    ∀ i, lo < i → i < hi → (M.Col p i ↔ N.Col p i) := by
  classical
  by_contra hcon
  push Not at hcon
  set bad : Finset ℤ := (Finset.Ioo lo hi).filter fun i => ¬ (M.Col p i ↔ N.Col p i) with hbad
  have mem_bad : ∀ i, i ∈ bad ↔ (lo < i ∧ i < hi) ∧ ¬ (M.Col p i ↔ N.Col p i) := fun i => by
    rw [hbad, Finset.mem_filter, Finset.mem_Ioo]
  have hne : bad.Nonempty := by
    obtain ⟨i, h1, h2, h3⟩ := hcon
    exact ⟨i, (mem_bad i).2 ⟨⟨h1, h2⟩, by tauto⟩⟩
  -- each bad node has a bad node on one side
  have side : ∀ i ∈ bad, (∃ l, lo ≤ l ∧ M.DiscRight Z p l i ∧ ∃ k ∈ bad, l < k ∧ k < i) ∨
      (∃ r, r ≤ hi ∧ M.DiscLeft Z p i r ∧ ∃ k ∈ bad, i < k ∧ k < r) := by
    intro i hib
    obtain ⟨⟨h1, h2⟩, h3⟩ := (mem_bad i).1 hib
    have hne' : p (i - 1) ≠ p (i + 1) := fun he => by
      have := hinj _ _ (by omega) (by omega) (by omega) (by omega) he; omega
    by_cases hadj : M.Adj (p (i - 1)) (p (i + 1))
    · rcases hsh i h1 h2 hadj with ⟨l, hl, hd⟩ | ⟨r, hr, hd⟩
      · left
        refine ⟨l, hl, hd, ?_⟩
        by_contra hk
        refine h3 (hs.of_right hM hN (fun a b a1 a2 b1 b2 => hinj a b (by omega) (by omega) (by omega) (by omega)) hd
          (hwadj i (by omega) h2) fun k k1 k2 => ?_)
        by_contra hc
        exact hk ⟨k, (mem_bad k).2 ⟨⟨by omega, by omega⟩, fun e => hc (e.1 (hd.mid k k1 k2).1)⟩, k1, k2⟩
      · right
        refine ⟨r, hr, hd, ?_⟩
        by_contra hk
        have a1 := hwadj (i - 1) (by omega) (by omega)
        rw [show i - 1 + 1 = i by ring] at a1
        refine h3 (hs.of_left hM hN (fun a b a1 a2 b1 b2 => hinj a b (by omega) (by omega) (by omega) (by omega)) hd
          a1 fun k k1 k2 => ?_)
        by_contra hc
        exact hk ⟨k, (mem_bad k).2 ⟨⟨by omega, by omega⟩, fun e => hc (e.1 (hd.mid k k1 k2).1)⟩, k1, k2⟩
    · exact absurd (hs.unshielded hne' hadj) h3
  -- the first bad node with a bad node on its left
  set R : Finset ℤ := bad.filter fun i => ∃ l, lo ≤ l ∧ M.DiscRight Z p l i ∧ ∃ k ∈ bad, l < k ∧ k < i with hR
  have hRne : R.Nonempty := by
    refine ⟨bad.max' hne, ?_⟩
    rw [hR, Finset.mem_filter]
    refine ⟨Finset.max'_mem _ _, ?_⟩
    rcases side _ (Finset.max'_mem _ hne) with k | ⟨r, -, -, k, hk, hk', -⟩
    · exact k
    · exact absurd (Finset.le_max' _ _ hk) (by omega)
  set i := R.min' hRne with hi_def
  obtain ⟨hib, l, hl, hdi, k0, hk0, hk1, hk2⟩ := Finset.mem_filter.1 (R.min'_mem hRne)
  -- the last bad node before it
  set L : Finset ℤ := bad.filter fun k => k < i with hL
  have hLne : L.Nonempty := ⟨k0, Finset.mem_filter.2 ⟨hk0, hk2⟩⟩
  set k := L.max' hLne with hk_def
  obtain ⟨hkb, hki⟩ := Finset.mem_filter.1 (L.max'_mem hLne)
  have hk0k : k0 ≤ k := Finset.le_max' _ _ (Finset.mem_filter.2 ⟨hk0, hk2⟩)
  rcases side k hkb with hc | ⟨r, hr, hdk, j, hj, hj1, hj2⟩
  · have : i ≤ k := Finset.min'_le _ _ (Finset.mem_filter.2 ⟨hkb, hc⟩)
    omega
  · have hij : i ≤ j := by
      by_contra hlt
      have : j ≤ k := Finset.le_max' _ _ (Finset.mem_filter.2 ⟨hj, by omega⟩)
      omega
    exact disc_no_cycle hM hmax hinj hl hr hdk hdi (by omega) hki (by omega)

/-- The inner nodes of a shortest walk are colliders in both graphs or in none. -/
theorem SameMarks.status (hs : M.SameMarks N) (hM : M.Anc) (hN : N.Anc)
    (hmax : ∀ i j, i ≠ j → ¬ M.Adj i j → ¬ M.Ind i j) {lo hi : ℤ} {p : ℤ → α} (w : M.Shortest Z lo hi p) :
    ∀ i, lo < i → i < hi → (M.Col p i ↔ N.Col p i) :=
  hs.status_of hM hN hmax (w.inj hM) w.1.adj fun _ h1 h2 hadj => w.shielded hM h1 h2 hadj

end Spec.Mixed
