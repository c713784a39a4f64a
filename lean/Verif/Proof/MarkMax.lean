import Verif.Proof.MarkChange

/-! # Legitimate mark changes keep maximality -/

namespace Spec.Mixed

universe u
variable {α : Type u} {M N X : Mixed α} {i j : α}
open Relation

/-- `w` is reached from `x` along bidirected edges (the first edge only needs an arrowhead at its far end) through nodes
of `K`. -/
inductive Reach (X : Mixed α) (K : α → Prop) (x : α) : α → Prop
  | start {v : α} : X.Into x v → Reach X K x v
  | step {v w : α} : Reach X K x v → K v → X.bi v w → Reach X K x w

theorem ind_iff_reach {x y : α} : X.Ind x y ↔ ∃ w, X.Reach (X.Anc2 x y) x w ∧ X.Anc2 x y w ∧ X.Into y w := by
  constructor
  · rintro ⟨v, w, h1, h2, h3, h4⟩
    have : X.Reach (X.Anc2 x y) x w ∧ X.Anc2 x y w := by
      clear h4
      induction h3 with
      | refl => exact ⟨.start h1, h2⟩
      | tail _ h ih => exact ⟨.step ih.1 ih.2 h.1, h.2⟩
    exact ⟨w, this.1, this.2, h4⟩
  · rintro ⟨w, h1, h2, h3⟩
    have : ∀ w, X.Reach (X.Anc2 x y) x w → X.Anc2 x y w → ∃ v, X.Into x v ∧ X.Anc2 x y v ∧
        ReflTransGen (fun a b => X.bi a b ∧ X.Anc2 x y b) v w := by
      intro w h
      induction h with
      | start h => exact fun k => ⟨_, h, k, .refl⟩
      | step _ k1 k2 ih =>
        intro k
        obtain ⟨v, e1, e2, e3⟩ := ih k1
        exact ⟨v, e1, e2, .tail e3 ⟨k2, k⟩⟩
    obtain ⟨v, e1, e2, e3⟩ := this w h1 h2
    exact ⟨v, w, e1, e2, e3, h3⟩

theorem anc2_symm {x y v : α} : X.Anc2 x y v ↔ X.Anc2 y x v := Or.comm

/-- Two reaches that meet in `K`. -/
theorem Reach.meet (hX : X.Anc) {K : α → Prop} {x y z : α} (h1 : X.Reach K x z) (h2 : X.Reach K y z) (hK : K z) :
    ∃ w, X.Reach K x w ∧ K w ∧ X.Into y w := by
  induction h2 with
  | start h => exact ⟨_, h1, hK, h⟩
  | step _ k1 k2 ih => exact ih (.step h1 hK (hX.bi_symm _ _ k2)) k1

theorem Reach.last {K : α → Prop} {x z : α} (h : X.Reach K x z) : X.Into x z ∨ ∃ a, X.bi a z ∧ K a ∧ X.Reach K x a := by
  cases h with
  | start h => exact Or.inl h
  | step h1 h2 h3 => exact Or.inr ⟨_, h3, h2, h1⟩

/-- A reach as a numbered sequence. -/
structure RSeq (X : Mixed α) (K : α → Prop) (x z : α) (n : ℕ) (p : ℕ → α) : Prop where
  pos : 0 < n
  first : p 0 = x
  last : p n = z
  into : ∀ k, k < n → X.Into (p k) (p (k + 1))
  bi : ∀ k, 0 < k → k < n → X.bi (p k) (p (k + 1))
  mem : ∀ k, 0 < k → k < n → K (p k)

theorem Reach.rseq {K : α → Prop} {x z : α} (h : X.Reach K x z) : ∃ n p, X.RSeq K x z n p := by
  induction h with
  | @start v h =>
    refine ⟨1, fun k => if k = 0 then x else v, by omega, by simp, by simp, ?_, ?_, ?_⟩
    · intro k hk
      obtain rfl : k = 0 := by omega
      simpa using h
    · intro k h1 h2; omega
    · intro k h1 h2; omega
  | @step v w _ hK hb ih =>
    obtain ⟨n, p, hp⟩ := ih
    obtain ⟨q, e1, e2⟩ : ∃ q : ℕ → α, (∀ k, k ≤ n → q k = p k) ∧ q (n + 1) = w :=
      ⟨fun k => if k ≤ n then p k else w, fun k hk => by simp [hk], by simp⟩
    refine ⟨n + 1, q, by omega, by rw [e1 _ (by omega)]; exact hp.first, e2, ?_, ?_, ?_⟩
    · intro k hk
      by_cases hkn : k = n
      · subst hkn; rw [e1 _ le_rfl, e2, hp.last]; exact Or.inr hb
      · rw [e1 _ (by omega), e1 _ (by omega)]; exact hp.into k (by omega)
    · intro k h0 hk
      by_cases hkn : k = n
      · subst hkn; rw [e1 _ le_rfl, e2, hp.last]; exact hb
      · rw [e1 _ (by omega), e1 _ (by omega)]; exact hp.bi k h0 (by omega)
    · intro k h0 hk
      by_cases hkn : k = n
      · subst hkn; rw [e1 _ le_rfl, hp.last]; exact hK
      · rw [e1 _ (by omega)]; exact hp.mem k h0 (by omega)

theorem RSeq.reach {K : α → Prop} {x z : α} {n : ℕ} {p : ℕ → α} (h : X.RSeq K x z n p) : ∀ k, 0 < k → k ≤ n → X.Reach K x (p k) := by
  intro k
  induction k with
  | zero => intro h; omega
  | succ k ih =>
    intro _ hk
    by_cases h0 : k = 0
    · subst h0; have := h.into 0 (by omega); rw [h.first] at this; exact .start this
    · exact .step (ih (by omega) (by omega)) (h.mem k (by omega) (by omega)) (h.bi k (by omega) (by omega))

/-- A shortest sequence has no repeated node. -/
theorem Reach.simple {K : α → Prop} {x z : α} (h : X.Reach K x z) (hxz : x ≠ z) :
    ∃ n p, X.RSeq K x z n p ∧ ∀ a b, a ≤ n → b ≤ n → p a = p b → a = b := by
  classical
  have hex : ∃ n p, X.RSeq K x z n p := h.rseq
  obtain ⟨p, hp⟩ := Nat.find_spec hex
  refine ⟨_, p, hp, ?_⟩
  have key : ∀ a b, a < b → b ≤ Nat.find hex → p a ≠ p b := by
    intro a b hab hb he
    have hn : ¬ (a = 0 ∧ b = Nat.find hex) := by
      rintro ⟨rfl, rfl⟩
      rw [hp.first, hp.last] at he; exact hxz he
    obtain ⟨q, e1, e2⟩ : ∃ q : ℕ → α, (∀ k, k ≤ a → q k = p k) ∧ (∀ k, a ≤ k → q k = p (k + (b - a))) := by
      refine ⟨fun k => if k ≤ a then p k else p (k + (b - a)), fun k hk => by simp [hk], fun k hk => ?_⟩
      by_cases hka : k = a
      · subst hka; simp [he]; congr 1; omega
      · simp only [if_neg (show ¬ k ≤ a by omega)]
    refine Nat.find_min hex (m := Nat.find hex - (b - a)) (by omega) ⟨q, ?_, ?_, ?_, ?_, ?_, ?_⟩
    · omega
    · rw [e1 _ (by omega)]; exact hp.first
    · rw [e2 _ (by omega), Nat.sub_add_cancel (by omega)]; exact hp.last
    · intro k hk
      by_cases hka : k < a
      · rw [e1 _ (by omega), e1 _ (by omega)]; exact hp.into k (by omega)
      · rw [e2 _ (by omega), e2 _ (by omega), show k + 1 + (b - a) = k + (b - a) + 1 by omega]; exact hp.into _ (by omega)
    · intro k h0 hk
      by_cases hka : k < a
      · rw [e1 _ (by omega), e1 _ (by omega)]; exact hp.bi k h0 (by omega)
      · rw [e2 _ (by omega), e2 _ (by omega), show k + 1 + (b - a) = k + (b - a) + 1 by omega]
        exact hp.bi _ (by omega) (by omega)
    · intro k h0 hk
      by_cases hka : k < a
      · rw [e1 _ (by omega)]; exact hp.mem k h0 (by omega)
      · rw [e2 _ (by omega)]; exact hp.mem _ (by omega) (by omega)
  intro a b ha hb he
  rcases lt_trichotomy a b with h | h | h
  · exact absurd he (key a b h hb)
  · exact h
  · exact absurd he.symm (key b a h ha)

/-- What reaches `i` reaches `j`. -/
theorem Legit.reach (hX : X.Anc) (hl : X.Legit i j) (hadj : X.Adj i j) {K : α → Prop} {x : α} (hxi : x ≠ i) (hxj : x ≠ j)
    (h : X.Reach K x i) : X.Into x j ∨ ∃ a, a ≠ i ∧ X.bi a j ∧ K a ∧ X.Reach K x a := by
  obtain ⟨n, p, hp, hinj⟩ := h.simple hxi
  by_cases hj : ∃ t, t ≤ n ∧ p t = j
  · obtain ⟨t, ht, e⟩ := hj
    have h0 : t ≠ 0 := by rintro rfl; rw [hp.first] at e; exact hxj e
    obtain ⟨s, rfl⟩ := Nat.exists_eq_succ_of_ne_zero h0
    by_cases hs : s = 0
    · subst hs
      have := hp.into 0 (by omega)
      rw [hp.first] at this
      exact Or.inl (by rw [← e]; exact this)
    · refine Or.inr ⟨p s, ?_, ?_, hp.mem s (by omega) (by omega), hp.reach s (by omega) (by omega)⟩
      · intro k; rw [← hp.last] at k; have := hinj _ _ (by omega) le_rfl k; omega
      · rw [← e]; exact hp.bi s (by omega) (by omega)
  · have hnj : ∀ t, t ≤ n → p t ≠ j := fun t ht e => hj ⟨t, ht, e⟩
    -- going back from `i`
    have key : ∀ (m t : ℕ), t = m → t < n → (∀ s, t < s → s < n → X.dir (p s) j) →
        X.Into x j ∨ ∃ a, a ≠ i ∧ X.bi a j ∧ K a ∧ X.Reach K x a := by
      intro m
      induction m with
      | zero | succ m ih =>
        intro t htm htn hd
        have hint : X.Into (p t) j := by
          by_cases htl : t + 1 = n
          · have := hp.into t htn
            rw [htl, hp.last] at this
            rcases this with k | k
            · exact Or.inl (hl.par _ k)
            · exact hl.sp _ (hnj t (by omega)) k
          · by_cases ha : X.Adj (p t) j
            · exact hX.into_trans (hp.into t htn) (hd (t + 1) (by omega) (by omega)) ha
            · exfalso
              have hb : ∀ s, 0 < s → s < n → X.Into (p (s + 1)) (p s) := fun s h0 h1 => Or.inr (hX.bi_symm _ _ (hp.bi s h0 h1))
              have := discriminating_of (M := X) (p := fun k : ℤ => p k.toNat) (l := t) (i := n) (t := j) (by omega)
                (fun a b a1 a2 b1 b2 e => by
                  have := hinj _ _ (by omega) (by omega) e; omega)
                (fun a a1 a2 => hnj _ (by omega)) (by simpa using ha)
                (fun k k1 k2 => by
                  obtain ⟨s, rfl⟩ := Int.eq_ofNat_of_zero_le (show 0 ≤ k by omega)
                  have hs1 : t < s := by exact_mod_cast k1
                  have hs2 : s < n := by exact_mod_cast k2
                  refine ⟨⟨?_, ?_⟩, ?_⟩
                  · have := hp.into (s - 1) (by omega)
                    rw [Nat.sub_add_cancel (by omega)] at this
                    simpa [show ((s : ℤ) - 1).toNat = s - 1 by omega] using this
                  · have := hb s (by omega) hs2
                    simpa [show ((s : ℤ) + 1).toNat = s + 1 by omega] using this
                  · simpa using hd s hs1 hs2)
                (by simpa [hp.last] using hadj)
              simp only [Int.toNat_natCast, hp.last] at this
              exact hl.disc _ _ this
        first
        | (obtain rfl : t = 0 := htm
           rw [hp.first] at hint
           exact Or.inl hint)
        | (rcases hint with k | k
           · refine ih (t - 1) (by omega) (by omega) fun s s1 s2 => ?_
             by_cases hst : s = t
             · subst hst; exact k
             · exact hd s (by omega) s2
           · refine Or.inr ⟨p t, ?_, k, hp.mem t (by omega) htn, hp.reach t (by omega) (by omega)⟩
             intro e; rw [← hp.last] at e; have := hinj _ _ (by omega) le_rfl e; omega)
    have := hp.pos
    exact key (n - 1) (n - 1) rfl (by omega) fun s s1 s2 => by omega

theorem Legit.reach' (hX : X.Anc) (hl : X.Legit i j) (hadj : X.Adj i j) {K : α → Prop} {x : α} (hxi : x ≠ i) (hxj : x ≠ j)
    (h : X.Reach K x i) : X.Reach K x j := by
  rcases hl.reach hX hadj hxi hxj h with k | ⟨a, -, k1, k2, k3⟩
  · exact .start k
  · exact .step k3 k2 k1

theorem Ind.swap (hX : X.Anc) {x y : α} (h : X.Ind x y) : X.Ind y x := by
  obtain ⟨w, h1, h2, h3⟩ := ind_iff_reach.1 h
  obtain ⟨w', k1, k2, k3⟩ := Reach.meet hX (.start h3) h1 h2
  refine ind_iff_reach.2 ⟨w', ?_, anc2_symm.1 k2, k3⟩
  rwa [show X.Anc2 y x = X.Anc2 x y from funext fun _ => propext anc2_symm]

/-- A reach between two nodes through their ancestors is an inducing path. -/
theorem ind_of_reach (hX : X.Anc) {x y : α} {K : α → Prop} (hK : ∀ v, K v → X.Anc2 x y v) (h : X.Reach K x y) (hn : ¬ X.Adj x y) : X.Ind x y := by
  have mono : ∀ {w}, X.Reach K x w → X.Reach (X.Anc2 x y) x w := by
    intro w h
    induction h with
    | start h => exact .start h
    | step _ k1 k2 ih => exact .step ih (hK _ k1) k2
  rcases h.last with k | ⟨a, k1, k2, k3⟩
  · exact absurd (hX.proper.ok.into_adj _ _ k) hn
  · exact ind_iff_reach.2 ⟨a, mono k3, hK a k2, Or.inr (hX.bi_symm _ _ k1)⟩

theorem ind_of_meet (hX : X.Anc) {x y z : α} {K : α → Prop} (hK : ∀ v, K v → X.Anc2 x y v) (h1 : X.Reach K x z)
    (h2 : X.Reach K y z) (hz : K z) : X.Ind x y := by
  have mono : ∀ {w}, X.Reach K x w → X.Reach (X.Anc2 x y) x w := by
    intro w h
    induction h with
    | start h => exact .start h
    | step _ k1 k2 ih => exact .step ih (hK _ k1) k2
  obtain ⟨w, k1, k2, k3⟩ := Reach.meet hX h1 h2 hz
  exact ind_iff_reach.2 ⟨w, mono k1, hK _ k2, k3⟩

namespace Flip

/-- `i → j` to `i ↔ j`. -/
theorem max_N (f : Flip M N i j) (hM : M.Anc) (hN : N.Anc) (hl : M.Legit i j)
    (hmax : ∀ x y, x ≠ y → ¬ M.Adj x y → ¬ M.Ind x y) : ∀ x y, x ≠ y → ¬ N.Adj x y → ¬ N.Ind x y := by
  have hij : M.Adj i j := Or.inl f.dir
  -- from a node other than `j`
  have fwd : ∀ {K : α → Prop} {x w : α}, x ≠ j → N.Reach K x w → M.Reach K x w ∨ (M.Reach K x j ∧ K j ∧
      ReflTransGen (fun a b => K a ∧ M.bi a b) i w) := by
    intro K x w hx h
    have toj : M.Reach K x i → M.Reach K x j := by
      intro h
      by_cases hxi : x = i
      · subst hxi; exact .start (Or.inl f.dir)
      · exact hl.reach' hM hij hxi hx h
    induction h with
    | start h => exact Or.inl (.start ((f.of_into h).resolve_right fun k => hx k.1))
    | step _ hK hb ih =>
      rcases (f.bi_iff _ _).1 hb with hb | ⟨rfl, rfl⟩ | ⟨rfl, rfl⟩
      · rcases ih with ih | ⟨k1, k2, k3⟩
        · exact Or.inl (.step ih hK hb)
        · exact Or.inr ⟨k1, k2, .tail k3 ⟨hK, hb⟩⟩
      · rcases ih with ih | ⟨k1, k2, k3⟩
        · exact Or.inl (toj ih)
        · exact Or.inl k1
      · rcases ih with ih | ⟨k1, k2, k3⟩
        · exact Or.inr ⟨ih, hK, .refl⟩
        · exact Or.inr ⟨k1, k2, .refl⟩
  have back : ∀ {K : α → Prop} {y w : α}, M.Into y w → K w → ReflTransGen (fun a b => K a ∧ M.bi a b) i w → M.Reach K y i := by
    intro K y w h hw hr
    have : ∀ w, ReflTransGen (fun a b => K a ∧ M.bi a b) i w → K w → M.Reach K y w → M.Reach K y i := by
      intro w hr
      induction hr with
      | refl => exact fun _ k => k
      | tail _ k ih => exact fun hw hy => ih k.1 (.step hy hw (hM.bi_symm _ _ k.2))
    exact this w hr hw (.start h)
  have main : ∀ x y, x ≠ y → ¬ N.Adj x y → x ≠ j → ¬ N.Ind x y := by
    intro x y hxy hadj hxj h
    have hadj' : ¬ M.Adj x y := fun k => hadj ((f.adj _ _).1 k)
    have hK : ∀ v, N.Anc2 x y v → M.Anc2 x y v := fun v k => k.imp f.path_mono f.path_mono
    apply hmax x y hxy hadj'
    obtain ⟨w, h1, h2, h3⟩ := ind_iff_reach.1 h
    by_cases hyj : y = j
    · subst hyj
      have hxi : x ≠ i := by rintro rfl; exact hadj' hij
      rcases fwd hxj h1 with k | ⟨k, -⟩
      · rcases f.of_into h3 with g | ⟨-, rfl⟩
        · exact ind_of_meet hM hK k (.start g) h2
        · exact ind_of_reach hM hK (hl.reach' hM hij hxi hxj k) hadj'
      · exact ind_of_reach hM hK k hadj'
    · have h3' := (f.of_into h3).resolve_right fun k => hyj k.1
      rcases fwd hxj h1 with k | ⟨k1, k2, k3⟩
      · exact ind_of_meet hM hK k (.start h3') h2
      · have hyi := back h3' h2 k3
        have hy : M.Reach (N.Anc2 x y) y j := by
          by_cases e : y = i
          · subst e; exact .start (Or.inl f.dir)
          · exact hl.reach' hM hij e hyj hyi
        exact ind_of_meet hM hK k1 hy k2
  intro x y hxy hadj h
  by_cases hx : x = j
  · exact main y x hxy.symm (fun k => hadj (hN.symm k)) (fun e => hxy (hx.trans e.symm)) (h.swap hN)
  · exact main x y hxy hadj hx h

/-- `i ↔ j` to `i → j`. -/
theorem max_M (f : Flip M N i j) (hN : N.Anc) (hl : N.Legit i j)
    (hmax : ∀ x y, x ≠ y → ¬ N.Adj x y → ¬ N.Ind x y) : ∀ x y, x ≠ y → ¬ M.Adj x y → ¬ M.Ind x y := by
  have hij : N.Adj i j := Or.inr (Or.inr (Or.inl f.bi))
  intro x y hxy hadj h
  have hadj' : ¬ N.Adj x y := fun k => hadj ((f.adj _ _).2 k)
  apply hmax x y hxy hadj'
  obtain ⟨w, h1, h2, h3⟩ := ind_iff_reach.1 h
  -- the ancestors
  have hK : ∀ v, M.Anc2 x y v → v ≠ i → N.Anc2 x y v := by
    intro v hv hvi
    rcases hv with hv | hv
    · exact Or.inl ((f.path_from hl.toLoose hv).resolve_right fun k => hvi k.1)
    · exact Or.inr ((f.path_from hl.toLoose hv).resolve_right fun k => hvi k.1)
  have hKi : M.Anc2 x y i → N.Anc2 x y i ∨ N.Anc2 x y j ∨ j = x ∨ j = y := by
    rintro (hv | hv)
    · rcases f.path_from hl.toLoose hv with k | ⟨-, k⟩
      · exact Or.inl (Or.inl k)
      · rcases reflTransGen_iff_eq_or_transGen.1 k with e | k
        · exact Or.inr (Or.inr (Or.inl e.symm))
        · exact Or.inr (Or.inl (Or.inl k))
    · rcases f.path_from hl.toLoose hv with k | ⟨-, k⟩
      · exact Or.inl (Or.inr k)
      · rcases reflTransGen_iff_eq_or_transGen.1 k with e | k
        · exact Or.inr (Or.inr (Or.inr e.symm))
        · exact Or.inr (Or.inl (Or.inr k))
  set K := N.Anc2 x y with hKdef
  set T := ReflTransGen (fun a b => (K a ∨ a = i) ∧ N.bi a b) i with hT
  have fwd : ∀ w, M.Reach (M.Anc2 x y) x w → N.Reach K x w ∨ (N.Reach K x i ∧ T w) := by
    intro w h
    induction h with
    | start h => exact Or.inl (.start (f.into h))
    | @step v w _ hv hb ih =>
      have hv' : K v ∨ v = i := by
        by_cases e : v = i
        · exact Or.inr e
        · exact Or.inl (hK v hv e)
      rcases ih with ih | ⟨k1, k2⟩
      · rcases hv' with g | rfl
        · exact Or.inl (.step ih g (f.bmono hb))
        · exact Or.inr ⟨ih, .single ⟨Or.inr rfl, f.bmono hb⟩⟩
      · exact Or.inr ⟨k1, .tail k2 ⟨hv', f.bmono hb⟩⟩
  have back : ∀ w, T w → (K w ∨ w = i) → N.Reach K y w → N.Reach K y i := by
    intro w hw
    induction hw with
    | refl => exact fun _ k => k
    | tail _ k ih =>
      intro g hy
      rcases g with g | rfl
      · exact ih k.1 (.step hy g (hN.bi_symm _ _ k.2))
      · exact hy
  have hw' : K w ∨ w = i := by
    by_cases e : w = i
    · exact Or.inr e
    · exact Or.inl (hK w h2 e)
  have hyw : N.Reach K y w := .start (f.into h3)
  -- either an inducing path avoiding `i`, or both ends reach `i`
  have both : N.Ind x y ∨ (N.Reach K x i ∧ N.Reach K y i ∧ M.Anc2 x y i) := by
    by_cases hi : M.Anc2 x y i
    · rcases fwd w h1 with k | ⟨k1, k2⟩
      · rcases hw' with g | rfl
        · exact Or.inl (ind_of_meet hN (fun _ k => k) k hyw g)
        · exact Or.inr ⟨k, hyw, hi⟩
      · exact Or.inr ⟨k1, back w k2 hw' hyw, hi⟩
    · left
      have : ∀ w, M.Reach (M.Anc2 x y) x w → N.Reach K x w := by
        intro w h
        induction h with
        | start h => exact .start (f.into h)
        | step _ hv hb ih => exact .step ih (hK _ hv (by rintro rfl; exact hi hv)) (f.bmono hb)
      exact ind_of_meet hN (fun _ k => k) (this w h1) hyw (hK w h2 (by rintro rfl; exact hi h2))
  rcases both with k | ⟨k1, k2, k3⟩
  · exact k
  · have symmK : ∀ v, K v → N.Anc2 y x v := fun v k => anc2_symm.1 k
    have hadj2 : ¬ N.Adj y x := fun k => hadj' (hN.symm k)
    by_cases hxi : x = i
    · subst hxi; exact (ind_of_reach hN symmK k2 hadj2).swap hN
    by_cases hyi : y = i
    · subst hyi; exact ind_of_reach hN (fun _ k => k) k1 hadj'
    by_cases hxj : x = j
    · subst hxj; exact (ind_of_reach hN symmK (hl.reach' hN hij hyi hxy.symm k2) hadj2).swap hN
    by_cases hyj : y = j
    · subst hyj; exact ind_of_reach hN (fun _ k => k) (hl.reach' hN hij hxi hxy k1) hadj'
    rcases hKi k3 with g | g | g | g
    · exact ind_of_meet hN (fun _ k => k) k1 k2 g
    · exact ind_of_meet hN (fun _ k => k) (hl.reach' hN hij hxi hxj k1) (hl.reach' hN hij hyi hyj k2) g
    · exact absurd g.symm hxj
    · exact absurd g.symm hyj

end Flip

end Spec.Mixed
