import Verif.Proof.EquivWalk

/-! # Markov equivalence of maximal ancestral graphs -/

namespace Spec.Mixed

universe u
variable {α : Type u} {M N : Mixed α} {Z V : Set α}
open Relation

/-- Colliders in `Z` up to an open last inner node. -/
theorem walk_to {p : ℤ → α} {l i : ℤ} {t : α} (hl : l < i) (hadj : ∀ k, l ≤ k → k < i → M.Adj (p k) (p (k + 1)))
    (hcol : ∀ k, l < k → k < i → M.Col p k ∧ p k ∈ Z) (hlast : M.Adj (p i) t) (ho : M.mg.Open Z (p (i - 1)) (p i) t) :
    ∃ L, M.mg.Walk Z (p l) t L := by
  obtain ⟨q, e1, e2⟩ : ∃ q : ℤ → α, (∀ k, k ≤ i → q k = p k) ∧ q (i + 1) = t := by
    refine ⟨fun k => if k ≤ i then p k else t, fun k hk => by simp [hk], by simp⟩
  have : M.FWalk Z l (i + 1) q := by
    refine ⟨by omega, fun k k1 k2 => ?_, fun k k1 k2 => ?_⟩
    · by_cases hk : k = i
      · subst hk; rw [e1 _ le_rfl, e2]; exact hlast
      · rw [e1 _ (by omega), e1 _ (by omega)]; exact hadj k k1 (by omega)
    · by_cases hk : k = i
      · subst hk; rw [e1 _ le_rfl, e2, e1 _ (by omega)]; exact ho
      · rw [e1 _ (by omega), e1 _ (by omega), e1 _ (by omega)]
        obtain ⟨c1, c2⟩ := hcol k k1 (by omega)
        exact ⟨fun _ => ⟨_, c2, .refl⟩, fun k => absurd c1 k⟩
  have := this.walk
  rw [e1 _ hl.le, e2] at this
  exact ⟨_, this⟩

/-- The nodes of a discriminating path numbered. -/
theorem exists_numbering (x : α) (qs : List α) (q b : α) :
    ∃ (p : ℤ → α) (i : ℤ), 1 < i ∧ p 0 = x ∧ p (i - 1) = q ∧ p i = b ∧
      ∀ (M : Mixed α) (c : α), M.Discriminating x (qs ++ [q]) b c →
        (∀ k, 0 < k → k < i → M.Col p k ∧ M.dir (p k) c) ∧ (∀ k, 0 ≤ k → k < i → M.Into (p k) (p (k + 1)) ∨ M.Into (p (k + 1)) (p k)) ∧
        ∀ k, 0 ≤ k → k ≤ i → p k ≠ c := by
  set L := x :: (qs ++ [q] ++ [b]) with hL
  have hlen : L.length = qs.length + 3 := by simp [hL]
  obtain ⟨p, hp⟩ : ∃ p : ℤ → α, ∀ i : ℕ, i < L.length → L[i]? = some (p i) :=
    ⟨fun k => L.getD k.toNat x, fun i hi => by simp [hi]⟩
  refine ⟨p, qs.length + 2, by omega, ?_, ?_, ?_, ?_⟩
  · have := hp 0 (by omega)
    simpa [hL] using this.symm
  · have := hp (qs.length + 1) (by omega)
    rw [hL] at this
    simp at this
    rw [show (qs.length : ℤ) + 2 - 1 = qs.length + 1 by ring]
    exact this.symm
  · have := hp (qs.length + 2) (by omega)
    rw [hL, show x :: (qs ++ [q] ++ [b]) = (x :: (qs ++ [q])) ++ [b] by simp, List.getElem?_append_right (by simp)] at this
    simp at this
    exact this.symm
  · intro M c hd
    have col : ∀ k : ℤ, 0 < k → k < qs.length + 2 → M.Col p k := by
      intro k k1 k2
      obtain ⟨n, hn⟩ := Int.eq_ofNat_of_zero_le (show 0 ≤ k - 1 by omega)
      obtain rfl : k = n + 1 := by omega
      refine hd.collider _ _ _ (infix3_iff.2 ⟨n, ?_, ?_, ?_⟩)
      · have := hp n (by omega); rw [show (n : ℤ) + 1 - 1 = n by ring]; exact this
      · have := hp (n + 1) (by omega); rw [← hL, this]; push_cast; rfl
      · have := hp (n + 2) (by omega); rw [← hL, this]; congr 2
    refine ⟨fun k k1 k2 => ⟨col k k1 k2, ?_⟩, ?_, ?_⟩
    · obtain ⟨n, hn⟩ := Int.eq_ofNat_of_zero_le (show 0 ≤ k - 1 by omega)
      obtain rfl : k = n + 1 := by omega
      refine hd.parent _ ?_
      have := hp (n + 1) (by omega)
      rw [hL, show x :: (qs ++ [q] ++ [b]) = x :: (qs ++ [q]) ++ [b] by simp,
        List.getElem?_append_left (by simp; omega), List.getElem?_cons_succ] at this
      have := List.mem_of_getElem? this
      push_cast at this
      exact this
    · intro k k1 k2
      rcases eq_or_lt_of_le k1 with rfl | k1
      · left
        have := (col 1 (by omega) (by omega)).1
        simpa using this
      · right
        exact (col k k1 k2).2
    · intro k k1 k2
      obtain ⟨n, rfl⟩ := Int.eq_ofNat_of_zero_le k1
      have hn := hd.nodup
      rw [show x :: (qs ++ [q] ++ [b, c]) = L ++ [c] by simp [hL], List.nodup_append] at hn
      exact hn.2.2 _ (List.mem_of_getElem? (hp n (by omega))) _ (by simp)

/-- Maximal ancestral graphs with the same m-separations have the same marks. -/
theorem sameMarks_of_equiv (hM : M.Anc) (hN : N.Anc) (mM : M.Maximal V) (mN : N.Maximal V)
    (vM : ∀ x y, M.Adj x y → x ∈ V) (vN : ∀ x y, N.Adj x y → x ∈ V) (he : M.MarkovEquiv N V) : M.SameMarks N := by
  have sep : ∀ {i j}, i ∈ V → j ∈ V → i ≠ j → ¬ M.Adj i j → ∃ Z : Set α, i ∉ Z ∧ j ∉ Z ∧
      (∀ L, ¬ M.mg.Walk Z i j L) ∧ ∀ L, ¬ N.mg.Walk Z i j L := by
    intro i j hi hj hij hadj
    obtain ⟨Z, hZ, hs⟩ := mM i hi j hj hij hadj
    have hi' : i ∉ Z := fun k => by have := (hZ k).2; simp at this
    have hj' : j ∉ Z := fun k => by have := (hZ k).2; simp at this
    have hs' := (he {i} {j} Z (by simpa using hi) (by simpa using hj) (fun k hk => (hZ hk).1) (by simpa using hij)
      (by simpa using hi') (by simpa using hj')).1 hs
    rw [msep_iff hM.proper.ok] at hs
    rw [msep_iff hN.proper.ok] at hs'
    exact ⟨Z, hi', hj', fun L hL => hs i rfl j rfl ⟨L, hL⟩, fun L hL => hs' i rfl j rfl ⟨L, hL⟩⟩
  have two : ∀ {K : Mixed α} {Z : Set α} {i j : α}, K.Adj i j → K.mg.Walk Z i j [i, j] := by
    intro K Z i j hK
    refine ⟨rfl, rfl, fun u v huv => ?_, fun u v w huv => ?_⟩
    · have := huv.eq_of_length (by simp)
      simp at this; obtain ⟨rfl, rfl⟩ := this; exact hK
    · have := huv.length_le; simp at this
  have hadj : ∀ u v, M.Adj u v ↔ N.Adj u v := by
    intro u v
    constructor
    · intro k
      by_contra hn
      have hne : u ≠ v := by rintro rfl; exact hM.loop _ k
      obtain ⟨Z, hZ, hs⟩ := mN u (vM _ _ k) v (vM _ _ (hM.symm k)) hne hn
      have hs' := (he {u} {v} Z (by simpa using vM _ _ k) (by simpa using vM _ _ (hM.symm k)) (fun k hk => (hZ hk).1)
        (by simpa using hne) (by rw [Set.disjoint_singleton_left]; intro k; have := (hZ k).2; simp at this)
        (by rw [Set.disjoint_singleton_left]; intro k; have := (hZ k).2; simp at this)).2 hs
      rw [msep_iff hM.proper.ok] at hs'
      exact hs' u rfl v rfl ⟨_, two k⟩
    · intro k
      by_contra hn
      have hne : u ≠ v := by rintro rfl; exact hN.loop _ k
      obtain ⟨Z, -, -, -, h2⟩ := sep (vN _ _ k) (vN _ _ (hN.symm k)) hne hn
      exact h2 _ (two k)
  have three : ∀ {K : Mixed α} {Z : Set α} {u v w : α}, K.Anc → K.Adj u v → K.Adj v w → K.mg.Open Z u v w →
      ∃ L, K.mg.Walk Z u w L := by
    intro K Z u v w hK h1 h2 h3
    obtain ⟨p, e0, e1⟩ : ∃ p : ℤ → α, p 0 = u ∧ p 1 = v := ⟨fun k => if k = 0 then u else v, by simp, by simp⟩
    obtain ⟨L, hL⟩ := walk_to (M := K) (Z := Z) (p := p) (l := 0) (i := 1) (t := w) (by omega)
      (fun k k1 k2 => by obtain rfl : k = 0 := by omega
                         simpa [e0, e1] using h1) (fun k k1 k2 => by omega) (by rw [e1]; exact h2)
      (by simpa [e0, e1] using h3)
    rw [e0] at hL
    exact ⟨L, hL⟩
  -- one direction for the unshielded colliders
  have vs : ∀ {K K' : Mixed α} {Z : Set α} {u v w : α}, K.Anc → K'.Anc → (∀ u v, K.Adj u v ↔ K'.Adj u v) →
      (∀ L, ¬ K.mg.Walk Z u w L) → (∀ L, ¬ K'.mg.Walk Z u w L) → K.Collider u v w → K'.Collider u v w := by
    intro K K' Z u v w hK hK' ha h1 h2 hc
    have a1 := hK.proper.ok.into_adj _ _ hc.1
    have a2 := hK.symm (hK.proper.ok.into_adj _ _ hc.2)
    have hv : v ∉ Z := by
      intro hv
      obtain ⟨L, hL⟩ := three (Z := Z) hK a1 a2 ⟨fun _ => ⟨v, hv, .refl⟩, fun k => absurd hc k⟩
      exact h1 L hL
    by_contra hc'
    obtain ⟨L, hL⟩ := three (Z := Z) hK' ((ha _ _).1 a1) ((ha _ _).1 a2) ⟨fun k => absurd k hc', fun _ => hv⟩
    exact h2 L hL
  refine ⟨hadj, ?_, ?_⟩
  · intro u v w
    constructor
    · rintro ⟨h1, h2, h3⟩
      obtain ⟨Z, -, -, s1, s2⟩ := sep (vM _ _ (hM.proper.ok.into_adj _ _ h2.1)) (vM _ _ (hM.proper.ok.into_adj _ _ h2.2)) h1 h3
      exact ⟨h1, vs hM hN hadj s1 s2 h2, fun k => h3 ((hadj _ _).2 k)⟩
    · rintro ⟨h1, h2, h3⟩
      have h3' : ¬ M.Adj u w := fun k => h3 ((hadj _ _).1 k)
      obtain ⟨Z, -, -, s1, s2⟩ := sep (vN _ _ (hN.proper.ok.into_adj _ _ h2.1)) (vN _ _ (hN.proper.ok.into_adj _ _ h2.2)) h1 h3'
      exact ⟨h1, vs hN hM (fun u v => (hadj u v).symm) s2 s1 h2, h3'⟩
  · intro x qs q b c d1 d2
    obtain ⟨p, i, hi, rfl, rfl, rfl, hp⟩ := exists_numbering x qs q b
    obtain ⟨m1, m2, m3⟩ := hp M c d1
    obtain ⟨n1, n2, n3⟩ := hp N c d2
    have ma : ∀ k, 0 ≤ k → k < i → M.Adj (p k) (p (k + 1)) := fun k k1 k2 => by
      rcases m2 k k1 k2 with h | h
      · exact hM.proper.ok.into_adj _ _ h
      · exact hM.symm (hM.proper.ok.into_adj _ _ h)
    have na : ∀ k, 0 ≤ k → k < i → N.Adj (p k) (p (k + 1)) := fun k k1 k2 => (hadj _ _).1 (ma k k1 k2)
    obtain ⟨Z, -, -, s1, s2⟩ := sep (vM _ _ (ma 0 le_rfl (by omega))) (vM _ _ (hM.symm d1.last)) (m3 0 le_rfl (by omega)) d1.start
    have inZ : ∀ (n : ℕ) (k : ℤ), k = n → 0 < k → k < i → p k ∈ Z := by
      intro n
      induction n using Nat.strong_induction_on with
      | _ n ih =>
      intro k hk k1 k2
      by_contra hz
      obtain ⟨L, hL⟩ := walk_to (M := M) (Z := Z) (p := p) (l := 0) (i := k) (t := c) k1 (fun j j1 j2 => ma j j1 (by omega))
        (fun j j1 j2 => ⟨(m1 j j1 (by omega)).1, ih j.toNat (by omega) j (by omega) j1 (by omega)⟩) (.inl (m1 k k1 k2).2)
        ⟨fun hc => absurd hc.2 (hM.proper.excl _ _ (m1 k k1 k2).2), fun _ => hz⟩
      exact s1 L hL
    have inZ' : ∀ k, 0 < k → k < i → p k ∈ Z := fun k k1 k2 => inZ k.toNat k (by omega) k1 k2
    have mw : M.mg.Open Z (p (i - 1)) (p i) c → False := fun ho => by
      obtain ⟨L, hL⟩ := walk_to (M := M) (Z := Z) (p := p) (l := 0) (i := i) (t := c) (by omega) ma
        (fun j j1 j2 => ⟨(m1 j j1 j2).1, inZ' j j1 j2⟩) d1.last ho
      exact s1 L hL
    have nw : N.mg.Open Z (p (i - 1)) (p i) c → False := fun ho => by
      obtain ⟨L, hL⟩ := walk_to (M := N) (Z := Z) (p := p) (l := 0) (i := i) (t := c) (by omega) na
        (fun j j1 j2 => ⟨(n1 j j1 j2).1, inZ' j j1 j2⟩) d2.last ho
      exact s2 L hL
    constructor
    · intro hc
      by_contra hc'
      have hb : p i ∉ Z := fun hb => mw ⟨fun _ => ⟨_, hb, .refl⟩, fun k => absurd hc k⟩
      exact nw ⟨fun k => absurd k hc', fun _ => hb⟩
    · intro hc
      by_contra hc'
      have hb : p i ∉ Z := fun hb => nw ⟨fun _ => ⟨_, hb, .refl⟩, fun k => absurd hc k⟩
      exact mw ⟨fun k => absurd k hc', fun _ => hb⟩

/-- Markov equivalence of maximal ancestral graphs (Spirtes and Richardson 1996). -/
theorem markovEquiv_iff (hM : M.Anc) (hN : N.Anc) (mM : M.Maximal V) (mN : N.Maximal V)
    (vM : ∀ x y, M.Adj x y → x ∈ V) (vN : ∀ x y, N.Adj x y → x ∈ V) : M.MarkovEquiv N V ↔ M.SameMarks N := by
  refine ⟨sameMarks_of_equiv hM hN mM mN vM vN, fun hs => ?_⟩
  have conv : ∀ {K : Mixed α}, K.Anc → K.Maximal V → (∀ x y, K.Adj x y → x ∈ V) →
      ∀ i j, i ≠ j → ¬ K.Adj i j → ¬ K.Ind i j := by
    intro K hK mK vK i j hij hadj hI
    have hI' := hI
    obtain ⟨v, w, h1, -, -, h4⟩ := hI
    exact (maximal_iff hK.proper vK).1 mK i (vK _ _ (hK.proper.ok.into_adj _ _ h1)) j
      (vK _ _ (hK.proper.ok.into_adj _ _ h4)) hij hadj hI'
  intro A B C _ _ _ _ _ _
  rw [msep_iff hM.proper.ok, msep_iff hN.proper.ok]
  constructor
  · rintro h a ha b hb ⟨l, hl⟩
    exact h a ha b hb (hs.symm.connected hN hM (conv hN mN vN) hl)
  · rintro h a ha b hb ⟨l, hl⟩
    exact h a ha b hb (hs.connected hM hN (conv hM mM vM) hl)

end Spec.Mixed
