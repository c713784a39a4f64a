import Mathlib.Order.Lattice.Nat
import Verif.Proof.EquivStatus

/-! # Graphs with the same marks have the same m-connections (Spirtes and Richardson 1996) -/

namespace Spec.Mixed

universe u
variable {α : Type u} {M N : Mixed α} {Z : Set α}
open Relation

/-- There is a directed walk with `k` arcs from `v` into `Z`. -/
def DistLe (M : Mixed α) (Z : Set α) (v : α) (k : ℕ) : Prop :=
  ∃ q : ℕ → α, q 0 = v ∧ q k ∈ Z ∧ ∀ t < k, M.dir (q t) (q (t + 1))

open Classical in
/-- The length of a shortest directed walk from `v` into `Z`. -/
noncomputable def dist (M : Mixed α) (Z : Set α) (v : α) : ℕ := sInf {k | M.DistLe Z v k}

theorem exists_dist {v : α} (h : M.mg.An Z v) : M.DistLe Z v (M.dist Z v) := by
  have : ∃ k, M.DistLe Z v k := by
    obtain ⟨c, hc, hvc⟩ := h
    change ReflTransGen M.dir v c at hvc
    induction hvc using ReflTransGen.head_induction_on with
    | refl => exact ⟨0, fun _ => c, rfl, hc, by simp⟩
    | @head a b hab _ ih =>
      obtain ⟨k, q, h1, h2, h3⟩ := ih
      refine ⟨k + 1, fun t => match t with | 0 => a | t + 1 => q t, rfl, h2, ?_⟩
      intro t ht
      cases t with
      | zero => change M.dir a (q 0); rw [h1]; exact hab
      | succ t => exact h3 t (by omega)
  exact Nat.sInf_mem this

theorem dist_le {v : α} {k : ℕ} (h : M.DistLe Z v k) : M.dist Z v ≤ k := Nat.sInf_le h

theorem an_of_distLe {v : α} {k : ℕ} (h : M.DistLe Z v k) : M.mg.An Z v := by
  obtain ⟨q, rfl, h2, h3⟩ := h
  refine ⟨q k, h2, ?_⟩
  have : ∀ t, t ≤ k → ReflTransGen M.dir (q 0) (q t) := by
    intro t
    induction t with
    | zero => intro _; exact .refl
    | succ t ih => intro ht; exact .tail (ih (by omega)) (h3 t (by omega))
  exact this k le_rfl

open Classical in
/-- The sum of the distances of the colliders of the walk from `Z`. -/
noncomputable def weight (M : Mixed α) (Z : Set α) (lo hi : ℤ) (p : ℤ → α) : ℕ :=
  ∑ i ∈ Finset.Ioo lo hi, if M.Col p i then M.dist Z (p i) else 0

theorem exists_best {x y : α} {l : List α} (w : M.mg.Walk Z x y l) :
    ∃ lo hi p, M.Shortest Z lo hi p ∧ p lo = x ∧ p hi = y ∧
      ∀ p', M.FWalk Z lo hi p' → p' lo = x → p' hi = y → M.weight Z lo hi p ≤ M.weight Z lo hi p' := by
  classical
  obtain ⟨lo, hi, p, h1, h2, h3⟩ := exists_shortest w
  have hex : ∃ n, ∃ p', M.FWalk Z lo hi p' ∧ p' lo = x ∧ p' hi = y ∧ M.weight Z lo hi p' = n := ⟨_, p, h1.1, h2, h3, rfl⟩
  obtain ⟨p', k1, k2, k3, k4⟩ := Nat.find_spec hex
  refine ⟨lo, hi, p', ⟨k1, fun lo' hi' q m1 m2 m3 => ?_⟩, k2, k3, fun q m1 m2 m3 => ?_⟩
  · exact h1.2 lo' hi' q m1 (by rw [m2, k2, h2]) (by rw [m3, k3, h3])
  · rw [k4]; exact Nat.find_min' hex ⟨q, m1, m2, m3, rfl⟩

/-- The first arc of a shortest directed walk from a collider into `Z` is in the other graph too. -/
theorem SameMarks.first_arc (hs : M.SameMarks N) (hM : M.Anc) (hN : N.Anc) {lo hi : ℤ} {p : ℤ → α}
    (w : M.Shortest Z lo hi p)
    (hbest : ∀ p', M.FWalk Z lo hi p' → p' lo = p lo → p' hi = p hi → M.weight Z lo hi p ≤ M.weight Z lo hi p')
    (hst : ∀ i, lo < i → i < hi → (M.Col p i ↔ N.Col p i)) {m : ℤ} (h1 : lo < m) (h2 : m < hi) (hc : M.Col p m) {t : α}
    (hd : M.dir (p m) t) (hA : M.mg.An Z t) (hlt : M.dist Z t < M.dist Z (p m)) : N.dir (p m) t := by
  classical
  have hinj := w.inj hM
  by_contra hno
  -- from the left
  obtain ⟨a, a1, a2, a3, a4, a5⟩ := (w.back hM (t := t) (m - lo).toNat m (by omega) h1 (by omega) hd hc.1).resolve_right (by
    rintro ⟨l, l1, l2, l3, l4⟩
    have into : ∀ k, l < k → k ≤ m → M.dir (p k) t ∧ M.Into (p (k - 1)) (p k) ∧ M.Col p k := by
      intro k k1 k2
      by_cases hk : k = m
      · subst hk; exact ⟨hd, hc.1, hc⟩
      · obtain ⟨c1, -, c3⟩ := l4 k k1 (by omega)
        exact ⟨c3, c1.1, c1⟩
    refine hno (hs.parents hM hN (p := p) (l := l) (i := m) (t := t)
      (fun a b a1 a2 b1 b2 => hinj a b (by omega) (by omega) (by omega) (by omega)) ?_ l3
      (fun k k1 k2 => ⟨(into k k1 k2).1, ((hst k (by omega) (by omega)).1 (into k k1 k2).2.2).1⟩)
      (fun k k1 k2 => ⟨(into k k1 (by omega)).2.2, (hst k (by omega) (by omega)).1 (into k k1 (by omega)).2.2⟩) m l2 le_rfl)
    intro a a1 a2 he
    by_cases hal : a = l
    · subst hal
      obtain ⟨m1, m2, -⟩ := into (a + 1) (by omega) (by omega)
      rw [← he] at m1
      rw [show a + 1 - 1 = a by ring] at m2
      exact hM.proper.excl _ _ m1 m2
    · have := (into a (by omega) a2).1
      rw [he] at this
      exact hM.irrefl _ this)
  -- from the right
  have hst' : ∀ i, -hi < i → i < -lo → (M.Col (fun k => p (-k)) i ↔ N.Col (fun k => p (-k)) i) := by
    intro i i1 i2
    have := hst (-i) (by omega) (by omega)
    rw [← col_neg, ← col_neg (M := N), show - -i = i by ring] at this
    exact this
  have hc' : M.Col (fun k => p (-k)) (-m) := col_neg.2 hc
  have hd' : M.dir ((fun k => p (-k)) (-m)) t := by simpa using hd
  obtain ⟨b, b1, b2, b3, b4, b5⟩ := ((w.reverse hM).back hM (t := t) (hi - m).toNat (-m) (by omega) (by omega) (by omega)
      hd' hc'.1).resolve_right (by
    rintro ⟨l, l1, l2, l3, l4⟩
    have into : ∀ k, l < k → k ≤ -m → M.dir ((fun k => p (-k)) k) t ∧ M.Into ((fun k => p (-k)) (k - 1)) ((fun k => p (-k)) k) ∧
        M.Col (fun k => p (-k)) k := by
      intro k k1 k2
      by_cases hk : k = -m
      · subst hk; exact ⟨hd', hc'.1, hc'⟩
      · obtain ⟨c1, -, c3⟩ := l4 k k1 (by omega)
        exact ⟨c3, c1.1, c1⟩
    have := hs.parents hM hN (p := fun k => p (-k)) (l := l) (i := -m) (t := t)
      (fun a b a1 a2 b1 b2 he => by
        have := hinj (-a) (-b) (by omega) (by omega) (by omega) (by omega) he; omega) ?_ l3
      (fun k k1 k2 => ⟨(into k k1 k2).1, ((hst' k (by omega) (by omega)).1 (into k k1 k2).2.2).1⟩)
      (fun k k1 k2 => ⟨(into k k1 (by omega)).2.2, (hst' k (by omega) (by omega)).1 (into k k1 (by omega)).2.2⟩) (-m) l2 le_rfl
    · exact hno (by simpa using this)
    intro a a1 a2 he
    by_cases hal : a = l
    · subst hal
      obtain ⟨m1, m2, -⟩ := into (a + 1) (by omega) (by omega)
      rw [← he] at m1
      rw [show a + 1 - 1 = a by ring] at m2
      exact hM.proper.excl _ _ m1 m2
    · have := (into a (by omega) a2).1
      simp only [he] at this
      exact hM.irrefl _ this)
  obtain ⟨c, rfl⟩ : ∃ c, b = -c := ⟨-b, by ring⟩
  simp only [show -(-c - 1) = c + 1 by ring, show -(-c + 1) = c - 1 by ring, neg_neg] at b3 b4 b5
  have hch : -c = -hi ↔ c = hi := by constructor <;> intro k <;> omega
  rw [hch] at b4 b5
  obtain ⟨p', w', e1, e2, e3, e4, e5⟩ := w.1.replace (a := a) (b := c) (t := t) a1 (by omega) (by omega)
    (hM.proper.ok.into_adj _ _ a3) (hM.symm (hM.proper.ok.into_adj _ _ b3)) a4
    ⟨fun _ => hA, fun k => absurd ⟨a3, b3⟩ k⟩ (b4.imp id open_symm.1)
  have hlen := w.2 _ _ _ w' e1 e2
  have ha : a = m - 1 := by omega
  have hcm : c = m + 1 := by omega
  subst ha hcm
  have hz : m + 1 - (m - 1) - 2 = 0 := by ring
  rw [hz] at w' e2 e5
  have e2' : p' hi = p hi := by simpa using e2
  have e4' : p' m = t := by simpa using e4
  have eo : ∀ k, k ≠ m → p' k = p k := by
    intro k hk
    rcases lt_or_gt_of_ne hk with k1 | k1
    · exact e3 k (by omega)
    · simpa using e5 k (by omega)
  refine absurd (hbest p' (by simpa using w') e1 e2') (not_le.2 ?_)
  unfold weight
  refine Finset.sum_lt_sum ?_ ⟨m, Finset.mem_Ioo.2 ⟨h1, h2⟩, ?_⟩
  · intro i hi'
    obtain ⟨i1, i2⟩ := Finset.mem_Ioo.1 hi'
    by_cases him : i = m
    · subst him
      rw [if_pos hc, e4']
      split_ifs
      · exact hlt.le
      · exact Nat.zero_le _
    · rw [eo i him]
      by_cases hcol : M.Col p' i
      · have : M.Col p i := by
          unfold Col at hcol ⊢
          rw [eo i him] at hcol
          by_cases i3 : i = m - 1
          · subst i3
            rw [eo (m - 1 - 1) (by omega), show m - 1 + 1 = m by ring, e4'] at hcol
            refine ⟨hcol.1, ?_⟩
            exact a5.resolve_left (by omega) hcol.2
          · by_cases i4 : i = m + 1
            · subst i4
              rw [eo (m + 1 + 1) (by omega), show m + 1 - 1 = m by ring, e4'] at hcol
              exact ⟨b5.resolve_left (by omega) hcol.1, hcol.2⟩
            · rw [eo _ (by omega), eo _ (by omega)] at hcol
              exact hcol
        rw [if_pos hcol, if_pos this]
      · rw [if_neg hcol]; exact Nat.zero_le _
  · rw [if_pos hc, e4']
    split_ifs
    · exact hlt
    · omega

/-- Colliders of the best walk are ancestors of `Z` in the other graph. -/
theorem SameMarks.an (hs : M.SameMarks N) (hM : M.Anc) (hN : N.Anc) {lo hi : ℤ} {p : ℤ → α}
    (w : M.Shortest Z lo hi p)
    (hbest : ∀ p', M.FWalk Z lo hi p' → p' lo = p lo → p' hi = p hi → M.weight Z lo hi p ≤ M.weight Z lo hi p')
    (hst : ∀ i, lo < i → i < hi → (M.Col p i ↔ N.Col p i)) {m : ℤ} (h1 : lo < m) (h2 : m < hi) (hc : M.Col p m) :
    N.mg.An Z (p m) := by
  have hA := (w.1.opn m h1 h2).1 hc
  obtain ⟨q, q0, qk, qd⟩ := exists_dist hA
  set k := M.dist Z (p m) with hk
  by_cases hk0 : k = 0
  · rw [hk0, q0] at qk
    exact ⟨_, qk, .refl⟩
  have dtail : ∀ s, s ≤ k → M.DistLe Z (q s) (k - s) := fun s hsk =>
    ⟨fun t => q (s + t), rfl, by simpa [show s + (k - s) = k by omega] using qk, fun t ht => qd (s + t) (by omega)⟩
  have key : ∀ s, s < k → N.dir (q s) (q (s + 1)) := by
    intro s
    induction s with
    | zero =>
      intro _
      rw [q0]
      refine hs.first_arc hM hN w hbest hst h1 h2 hc (by rw [← q0]; exact qd 0 (by omega)) (an_of_distLe (dtail 1 (by omega))) ?_
      have := dist_le (dtail 1 (by omega))
      simp only [Nat.zero_add]
      omega
    | succ s ih =>
      intro hsk
      have d1 := qd s (by omega)
      have d2 := qd (s + 1) hsk
      have hne : q s ≠ q (s + 1 + 1) := by
        intro he; rw [← he] at d2
        exact hM.proper.excl _ _ d1 (.inl d2)
      have hnadj : ¬ M.Adj (q s) (q (s + 1 + 1)) := by
        intro hadj
        have d3 := hM.dir_trans d1 d2 hadj
        have : M.DistLe Z (p m) (k - 1) := by
          refine ⟨fun t => if t ≤ s then q t else q (t + 1), by simp [q0], ?_, ?_⟩
          · dsimp only
            rw [if_neg (by omega), show k - 1 + 1 = k by omega]; exact qk
          · intro t ht
            dsimp only
            rcases lt_trichotomy t s with k1 | k1 | k1
            · rw [if_pos (by omega), if_pos (by omega)]; exact qd t (by omega)
            · subst k1; rw [if_pos le_rfl, if_neg (by omega)]; exact d3
            · rw [if_neg (by omega), if_neg (by omega)]; exact qd (t + 1) (by omega)
        have := dist_le this
        omega
      refine hN.out (.inl (ih (by omega))) ((hs.adj _ _).1 (.inl d2)) fun hin => ?_
      have := (hs.unshielded hne hnadj).2 ⟨.inl (ih (by omega)), hin⟩
      exact hM.proper.excl _ _ d2 this.2
  exact an_of_distLe ⟨q, q0, qk, key⟩

/-- Every m-connection of a maximal ancestral graph is one of every ancestral graph with the same marks. -/
theorem SameMarks.connected (hs : M.SameMarks N) (hM : M.Anc) (hN : N.Anc)
    (hmax : ∀ i j, i ≠ j → ¬ M.Adj i j → ¬ M.Ind i j) {x y : α} {l : List α} (w : M.mg.Walk Z x y l) :
    ∃ l', N.mg.Walk Z x y l' := by
  obtain ⟨lo, hi, p, h1, rfl, rfl, hbest⟩ := exists_best w
  have hst := hs.status hM hN hmax h1
  refine ⟨_, FWalk.walk (p := p) ⟨h1.1.le, fun i i1 i2 => (hs.adj _ _).1 (h1.1.adj i i1 i2), fun i i1 i2 => ⟨fun hc => ?_, fun hc => ?_⟩⟩⟩
  · exact hs.an hM hN h1 hbest hst i1 i2 ((hst i i1 i2).2 hc)
  · exact (h1.1.opn i i1 i2).2 fun k => hc ((hst i i1 i2).1 k)

end Spec.Mixed
