import Verif.Proof.ChickGraph

/-! # Chickering's theorem, one step: an arc can be added such that the I-map stays an I-map -/

namespace Spec

universe u
variable {α : Type u} {E F : α → α → Prop} {x y z d : α}
open Relation

/-- `F` is an I-map of `E` on `V`; `R` is put aside; `y` is a sink of `F` outside `R`. -/
structure Scene (V : Finset α) (E F : α → α → Prop) (R : Set α) (y : α) : Prop where
  hE : Acyclic E
  hF : Acyclic F
  hVE : ∀ a b, E a b → a ∈ V ∧ b ∈ V
  hVF : ∀ a b, F a b → a ∈ V ∧ b ∈ V
  imap : SubModel F E (V : Set α)
  downE : ∀ a b, E a b → a ∈ R → b ∈ R
  downF : ∀ a b, F a b → a ∈ R → b ∈ R
  par : ∀ v ∈ R, ∀ p, E p v ↔ F p v
  mem : y ∈ V
  out : y ∉ R
  sink : ∀ c, F y c → c ∈ R

/-- A rank function refining given levels. -/
theorem exists_rank_levels (hF : Acyclic F) (V : Finset α) (hVF : ∀ a b, F a b → a ∈ V ∧ b ∈ V) (lev : α → ℕ)
    (hlev : ∀ a b, F a b → lev a ≤ lev b) :
    ∃ f : α → ℕ, (∀ x ∈ V, ∀ y ∈ V, f x = f y → x = y) ∧ (∀ a b, F a b → f a < f b) ∧ (∃ N, ∀ x ∈ V, f x < N) ∧
      ∀ a ∈ V, ∀ b ∈ V, f a < f b → lev a ≤ lev b := by
  obtain ⟨f, h1, h2, h3⟩ := exists_rank hF _ V rfl
  have hlt : ∀ a ∈ V, ∀ b ∈ V, lev a < lev b → lev a * V.card + f a < lev b * V.card + f b := by
    intro a ha b _ h
    have := h3 a ha
    calc lev a * V.card + f a < lev a * V.card + V.card := by omega
      _ = (lev a + 1) * V.card := by ring
      _ ≤ lev b * V.card := Nat.mul_le_mul_right _ h
      _ ≤ _ := by omega
  refine ⟨fun v => lev v * V.card + f v, ?_, ?_, ?_, ?_⟩
  · intro a ha b hb h
    rcases lt_trichotomy (lev a) (lev b) with hl | hl | hl
    · have := hlt a ha b hb hl; simp only at h; omega
    · simp only [hl] at h; exact h1 a ha b hb (by omega)
    · have := hlt b hb a ha hl; simp only at h; omega
  · intro a b hab
    obtain ⟨ha, hb⟩ := hVF a b hab
    have := h2 a ha b hb hab
    have := Nat.mul_le_mul_right V.card (hlev a b hab)
    simp only; omega
  · exact ⟨V.sup (fun v => lev v * V.card + f v) + 1, fun x hx =>
      Nat.lt_succ_of_le (Finset.le_sup (f := fun v => lev v * V.card + f v) hx)⟩
  · intro a ha b hb h
    by_contra hn
    have := hlt b hb a ha (by omega)
    simp only at h; omega

namespace Scene
variable {V : Finset α} {R : Set α}

theorem sep (s : Scene V E F R y) {v n : α} (hv : v ∈ V) (hn : n ∈ V) (hnv : n ≠ v) (h1 : ¬ Path F v n) (h2 : ¬ F n v) :
    ¬ DConn E {p | F p v} v n := by
  have h := s.imap {v} {n} {p | F p v} (by simpa using hv) (by simpa using hn) (fun p hp => (s.hVF _ _ hp).1)
    (by simpa using hnv.symm) (by simpa using s.hF.irrefl) (by simpa using h2)
    (dsep_mono subset_rfl (by rintro m rfl; exact ⟨hnv, h1, h2⟩) (local_markov s.hF v))
  rw [dsep_iff] at h
  exact h v rfl n rfl

theorem adj (s : Scene V E F R y) {a b : α} (h : Adj E a b) : Adj F a b :=
  subModel_adj s.hF s.hE s.hVF s.hVE s.imap h

theorem path_out (s : Scene V E F R y) {a b : α} (h : Path0 F a b) (hb : b ∉ R) : a ∉ R := by
  intro ha
  apply hb
  clear hb
  induction h with
  | refl => exact ha
  | tail _ h ih => exact s.downF _ _ h ih

theorem path_outE (s : Scene V E F R y) {a b : α} (h : Path0 E a b) (hb : b ∉ R) : a ∉ R := by
  intro ha
  apply hb
  clear hb
  induction h with
  | refl => exact ha
  | tail _ h ih => exact s.downE _ _ h ih

/-- What `y` reaches in `F` has been put aside. -/
theorem below (s : Scene V E F R y) {n : α} (h : Path F y n) : n ∈ R := by
  obtain ⟨c, hc, hcn⟩ := TransGen.head'_iff.1 h
  by_contra hn
  exact s.path_out hcn hn (s.sink c hc)

theorem par_y (s : Scene V E F R y) {p : α} (h : E p y) : F p y := by
  rcases s.adj (Or.inl h) with h' | h'
  · exact h'
  · exact absurd (s.downE _ _ h (s.sink _ h')) s.out

theorem child_y (s : Scene V E F R y) {c : α} (h : E y c) (hc : c ∉ R) : F c y := by
  rcases s.adj (Or.inl h) with h' | h'
  · exact absurd (s.sink _ h') hc
  · exact h'

theorem coparent_y (s : Scene V E F R y) {c p : α} (h : E y c) (hc : c ∉ R) (hp : E p c) : p = y ∨ F p y := by
  by_contra hn
  push Not at hn
  have hpR : p ∉ R := fun h => hc (s.downE _ _ hp h)
  refine s.sep s.mem (s.hVE _ _ hp).1 hn.1 (fun h => hpR (s.below h)) hn.2 ?_
  have hyS : y ∉ {p | F p y} := s.hF.irrefl
  refine (dconn_iff_moves hyS).2 ⟨false, ?_⟩
  exact (ReflTransGen.single ((move_iff s.hE).2 (Or.inl ⟨h, rfl, hyS⟩))).tail
    ((move_iff s.hE).2 (Or.inr ⟨hp, rfl, Or.inr ⟨rfl, an_self (s.child_y h hc)⟩⟩))

/-- The I-map stays an I-map after the arc `x → t` is added, provided that `y` keeps its blanket and that nothing new is
connected to an earlier node (`T` comes first in the order, `y` last). -/
theorem add (s : Scene V E F R y) {t : α} (hac : Acyclic (WithArc E x t)) (hx : x ∈ V) (hxR : x ∉ R) (ht : t ∈ V) (htR : t ∉ R)
    (h1 : ∀ p, WithArc E x t p y → F p y) (h2 : ∀ c, WithArc E x t y c → c ∉ R → F c y)
    (h3 : ∀ c p, WithArc E x t y c → c ∉ R → WithArc E x t p c → p = y ∨ F p y)
    (T : Set α) (hT : ∀ a b, F a b → b ∈ T → a ∈ T) (hTR : ∀ a ∈ T, a ∉ R) (hTy : y ∉ T)
    (h4 : ∀ v n, v ∉ R → v ≠ y → n ∉ R → n ≠ y → n ≠ v → (v ∈ T → n ∈ T) → ¬ F n v → ¬ Path F v n →
      ¬ DConn E {p | F p v} v n → (v ∉ T → ∀ m ∈ T, m ∈ V → ¬ F m v → ¬ DConn E {p | F p v} v m) →
      ¬ DConn (WithArc E x t) {p | F p v} v n) : SubModel F (WithArc E x t) (V : Set α) := by
  classical
  set lev : α → ℕ := fun v => if v ∈ T then 0 else if v ∈ R then 3 else if v = y then 2 else 1 with hlev
  have hmono : ∀ a b, F a b → lev a ≤ lev b := by
    intro a b hab
    have e1 : b ∈ T → a ∈ T := hT a b hab
    have e2 : a ∈ R → b ∈ R := s.downF a b hab
    have e3 : a = y → b ∈ R := by rintro rfl; exact s.sink b hab
    have e4 : b ∈ T → b ∉ R := hTR b
    have e5 : a ∈ T → a ∉ R := hTR a
    simp only [hlev]
    by_cases c1 : b ∈ T
    · simp [c1, e1 c1]
    · by_cases c2 : b ∈ R
      · simp only [c1, c2, if_true, if_false]; split_ifs <;> omega
      · have c3 : a ∉ R := fun h => c2 (e2 h)
        have c4 : a ≠ y := fun h => c2 (e3 h)
        simp only [c1, c2, c3, c4, if_false]; split_ifs <;> omega
  obtain ⟨f, hinj, hf, hfin, hfl⟩ := exists_rank_levels s.hF V s.hVF lev hmono
  have hfp : ∀ a b, Path F a b → f a < f b := by
    intro a b hab
    induction hab with
    | single h => exact hf _ _ h
    | tail _ h ih => exact ih.trans (hf _ _ h)
  have hTp : ∀ a b, Path F a b → b ∈ T → a ∈ T := by
    intro a b hab hb
    induction hab using TransGen.head_induction_on with
    | single h => exact hT _ _ h hb
    | head h _ ih => exact hT _ _ h ih
  have hdown' : ∀ a b, WithArc E x t a b → a ∈ R → b ∈ R := by
    rintro a b (h | ⟨rfl, rfl⟩) ha
    · exact s.downE _ _ h ha
    · exact absurd ha hxR
  refine subModel_of_ranked s.hF hac s.hVF f hinj hf hfin ?_
  intro v hv
  rw [dsep_iff]
  rintro v rfl n ⟨hnV, hlt, hnv⟩
  have hne : n ≠ v := by rintro rfl; omega
  have hnp : ¬ Path F v n := fun h => by have := hfp _ _ h; omega
  have hle := hfl n hnV v hv hlt
  by_cases hvR : v ∈ R
  · -- a node that was put aside has the same parents and the same descendants in all graphs
    have hpar : ∀ p, WithArc E x t p v ↔ F p v := by
      intro p
      constructor
      · rintro (h | ⟨_, rfl⟩)
        · exact (s.par _ hvR p).1 h
        · exact absurd hvR htR
      · exact fun h => Or.inl ((s.par _ hvR p).2 h)
    have hdesc : ∀ n, Path (WithArc E x t) v n → n ∈ R ∧ Path F v n := by
      intro n hn
      have step : ∀ a b, a ∈ R → WithArc E x t a b → b ∈ R ∧ F a b := by
        intro a b ha hab
        have hb := hdown' a b hab ha
        refine ⟨hb, (s.par b hb a).1 ?_⟩
        rcases hab with h | ⟨rfl, rfl⟩
        · exact h
        · exact absurd ha hxR
      induction hn with
      | single h => exact ⟨(step _ _ hvR h).1, .single (step _ _ hvR h).2⟩
      | tail _ h ih => exact ⟨(step _ _ ih.1 h).1, ih.2.tail (step _ _ ih.1 h).2⟩
    have := local_markov hac v
    rw [dsep_iff] at this
    have hset : {p | WithArc E x t p v} = {p | F p v} := by ext p; exact hpar p
    rw [hset] at this
    exact this v rfl n ⟨hne, fun h => hnp (hdesc n h).2, fun h => hnv ((hpar n).1 h)⟩
  have hnR : n ∉ R := by
    intro h
    have hnT : n ∉ T := fun h' => hTR n h' h
    simp only [hlev, hnT, h, hvR, if_true, if_false] at hle
    split_ifs at hle <;> omega
  have hSR : ∀ p ∈ {p | F p v}, p ∉ R := fun p hp h => hvR (s.downF _ _ hp h)
  by_cases hvy : v = y
  · subst hvy
    exact blanket_ball hac hdown' hSR s.hF.irrefl h1 h2 h3 hne hnv hnR
  have hny : n ≠ y := by
    rintro rfl
    simp only [hlev, hTy, s.out, hvR, hvy, if_true, if_false] at hle
    split_ifs at hle <;> omega
  refine h4 v n hvR hvy hnR hny hne ?_ hnv hnp (s.sep hv hnV hne hnp hnv) ?_
  · intro hvT
    by_contra hnT
    simp only [hlev, hvT, hnT, hnR, hny, if_true, if_false] at hle
    omega
  · intro hvT m hmT hmV hmv
    exact s.sep hv hmV (by rintro rfl; exact hvT hmT) (fun h => hvT (hTp _ _ h hmT)) hmv

/-- Step 4: `y` is also a sink of `E`. -/
theorem step4 (s : Scene V E F R y) (hs : ∀ c, E y c → c ∈ R) (hx : F x y) :
    Acyclic (WithArc E x y) ∧ SubModel F (WithArc E x y) (V : Set α) := by
  have hxy : x ≠ y := by rintro rfl; exact s.hF.irrefl hx
  have hxR : x ∉ R := fun h => s.out (s.downF _ _ hx h)
  have hac : Acyclic (WithArc E x y) := by
    classical
    refine (Model.DAG.insert_acyclic s.hE x y).2 ⟨hxy, fun h => ?_⟩
    obtain ⟨c, hc, hcx⟩ := TransGen.head'_iff.1 h
    exact s.path_outE hcx hxR (hs c hc)
  have hc : ∀ c, WithArc E x y y c → c ∈ R := by
    rintro c (h | ⟨h, _⟩)
    · exact hs c h
    · exact absurd h.symm hxy
  refine ⟨hac, s.add hac (s.hVF _ _ hx).1 hxR s.mem s.out ?_ (fun c h h' => absurd (hc c h) h') (fun c p h h' => absurd (hc c h) h')
    ∅ (by simp) (by simp) (by simp) ?_⟩
  · rintro p (h | ⟨rfl, _⟩)
    · exact s.par_y h
    · exact hx
  · intro v n hvR hvy hnR hny _ _ _ _ hsep _ hcon
    refine hsep (outside_ball (X := insert y R) s.hE hac ?_ (Or.inl rfl) ?_ ?_ ?_ s.hF.irrefl hcon)
    · rintro a b hab (rfl | ha)
      · exact Or.inr (hc b hab)
      · refine Or.inr ?_
        rcases hab with hab | ⟨rfl, rfl⟩
        · exact s.downE _ _ hab ha
        · exact absurd ha hxR
    · rintro p hp (rfl | h)
      · exact hvR (s.sink _ hp)
      · exact hvR (s.downF _ _ hp h)
    · rintro (h | h); exacts [hvy h, hvR h]
    · rintro (h | h); exacts [hny h, hnR h]

/-- Step 8: a parent of `y` becomes a parent of its child `z`. -/
theorem step8 (s : Scene V E F R y) (hyz : E y z) (hz : z ∉ R) (hxy : E x y) :
    Acyclic (WithArc E x z) ∧ SubModel F (WithArc E x z) (V : Set α) := by
  have hxz : Path E x z := (TransGen.single hxy).tail hyz
  have hzy : z ≠ y := by rintro rfl; exact s.hE.irrefl hyz
  have hac : Acyclic (WithArc E x z) := by
    classical
    refine (Model.DAG.insert_acyclic s.hE x z).2 ⟨?_, fun h => s.hE _ (h.trans hxz)⟩
    rintro rfl; exact s.hE _ hxz
  have hxR : x ∉ R := fun h => s.out (s.downE _ _ hxy h)
  have hx : x ≠ y := by rintro rfl; exact s.hE.irrefl hxy
  have hc : ∀ c, WithArc E x z y c → E y c := by
    rintro c (h | ⟨h, _⟩)
    · exact h
    · exact absurd h.symm hx
  refine ⟨hac, s.add hac (s.hVE _ _ hxy).1 hxR (s.hVE _ _ hyz).2 hz ?_ (fun c h h' => s.child_y (hc c h) h') ?_
    ∅ (by simp) (by simp) (by simp) ?_⟩
  · rintro p (h | ⟨_, h⟩)
    · exact s.par_y h
    · exact absurd h.symm hzy
  · rintro c p h hcR (hp | ⟨rfl, rfl⟩)
    · exact s.coparent_y (hc c h) hcR hp
    · exact Or.inr (s.par_y hxy)
  · intro v n hvR hvy hnR hny _ _ _ _ hsep _ hcon
    exact hsep (shortcut_ball s.hE hac hxy hyz (fun h => hvR (s.sink _ h)) s.hF.irrefl hcon)

/-- Step 7: a parent of the child `z` of `y` becomes a parent of `y`. -/
theorem step7 (s : Scene V E F R y) (hyz : E y z) (hxz : E x z) (hxy : x ≠ y) (hnp : ¬ Path E y x)
    (hzd : Path0 E z d) (hdR : d ∉ R) (hd : ∀ u, Path E y u → u ∉ R → ¬ Path F u d) :
    Acyclic (WithArc E x y) ∧ SubModel F (WithArc E x y) (V : Set α) := by
  have hz : z ∉ R := s.path_outE hzd hdR
  have hxR : x ∉ R := fun h => hz (s.downE _ _ hxz h)
  have hac : Acyclic (WithArc E x y) := by
    classical
    exact (Model.DAG.insert_acyclic s.hE x y).2 ⟨hxy, hnp⟩
  have hc : ∀ c, WithArc E x y y c → E y c := by
    rintro c (h | ⟨h, _⟩)
    · exact h
    · exact absurd h.symm hxy
  have hydE : Path E y d := TransGen.head' hyz hzd
  have hdV : d ∈ V := by
    obtain ⟨c, _, hcd⟩ := TransGen.tail'_iff.1 hydE
    exact (s.hVE _ _ hcd).2
  have hdy : d ≠ y := by rintro rfl; exact s.hE _ hydE
  refine ⟨hac, s.add hac (s.hVE _ _ hxz).1 hxR s.mem s.out ?_ (fun c h h' => s.child_y (hc c h) h') ?_
    {v | Path0 F v d} (fun a b hab hb => ReflTransGen.head hab hb) (fun a ha => s.path_out ha hdR) ?_ ?_⟩
  · rintro p (h | ⟨rfl, _⟩)
    · exact s.par_y h
    · exact (s.coparent_y hyz hz hxz).resolve_left hxy
  · rintro c p h hcR (hp | ⟨rfl, rfl⟩)
    · exact s.coparent_y (hc c h) hcR hp
    · exact absurd (hc _ h) s.hE.irrefl
  · intro h
    exact hdR (s.below ((reflTransGen_iff_eq_or_transGen.1 h).resolve_left hdy))
  · intro v n hvR hvy hnR hny hnv hT hFnv hFvn hsep hm hcon
    have hyS : y ∉ {p | F p v} := fun h => hvR (s.sink _ h)
    have hvS : v ∉ {p | F p v} := s.hF.irrefl
    by_cases hzS : (mg E).An {p | F p v} z
    · exact hsep (collider_ball s.hE hac hxz hyz hyS hzS hvS hcon)
    by_cases hvT : Path0 F v d
    · by_cases hvd : v = d
      · subst hvd
        exact hsep (dconn_symm (blocked_ball (a := n) s.hE hac hxz hyz hyS hzS hzd hFnv (fun h => hsep (dconn_symm h))
          (dconn_symm hcon)))
      · have hP : Path F v d := (reflTransGen_iff_eq_or_transGen.1 hvT).resolve_left (Ne.symm hvd)
        have hnd : n ≠ d := by rintro rfl; exact hFvn hP
        have hnP : Path F n d := (reflTransGen_iff_eq_or_transGen.1 (hT hvT)).resolve_left (Ne.symm hnd)
        have hX : ∀ w, w ∉ R → w ≠ y → Path F w d → ¬ Path0 E y w := by
          intro w hwR hwy hwd hyw
          exact hd w ((reflTransGen_iff_eq_or_transGen.1 hyw).resolve_left hwy) hwR hwd
        refine hsep (outside_ball (X := {u | Path0 E y u}) s.hE hac ?_ ReflTransGen.refl ?_ (hX v hvR hvy hP) (hX n hnR hny hnP)
          hvS hcon)
        · rintro a b (hab | ⟨rfl, rfl⟩) ha
          · exact ReflTransGen.tail ha hab
          · exact ReflTransGen.refl
        · intro p hp
          exact hX p (fun h => hvR (s.downF _ _ hp h)) (by rintro rfl; exact hyS hp) (TransGen.head hp hP)
    · have hdv : ¬ F d v := fun h => hzS ⟨d, h, hzd⟩
      exact hsep (blocked_ball s.hE hac hxz hyz hyS hzS hzd hvS (hm hvT d ReflTransGen.refl hdV hdv) hcon)

end Scene

end Spec
