import Verif.Proof.InvArrow

/-! # Graphs that differ in the directions of arcs only -/

namespace Spec.Mixed

universe u
variable {α : Type u} {M N : Mixed α} {x u s c y : α}
open Relation

theorem DBlock.other (e : Eqv M N) (h : M.DBlock x u) (hb : N.bi x u) : N.DBlock x u := by
  obtain ⟨n, p, h⟩ := h.short
  exact ⟨n, p, h.1.pos, h.1.inj, h.1.last, h.1.top, fun k => h.1.start (e.adj.2 k), fun k k1 k2 => h.col e k1 k2,
    fun k k1 k2 => h.par e k1 k2, hb⟩

/-- `c ↔ x` with arcs from both to `y`, which are reversed in the other graph: no discriminating path. -/
theorem cross_dblock (e : Eqv M N) (hcy : M.dir c y) (hxy : M.dir x y) (hyc : N.dir y c) (hyx : N.dir y x)
    (hb : M.DBlock x c) : False := by
  obtain ⟨n, p, h⟩ := hb.short
  have hpos := h.1.pos
  have hy : ∀ k, 0 ≤ k → k ≤ n → p k ≠ y := by
    rintro k k1 k2 rfl
    by_cases k0 : k = 0
    · subst k0; exact h.1.start (e.aM.symm (.inl hcy))
    by_cases kn : k = n
    · subst kn; rw [h.1.last] at hxy; exact e.aM.irrefl _ hxy
    · exact e.aM.anc.acyclic _ (.tail (.single (h.1.par k (by omega) (by omega))) hcy)
  have dirs : ∀ k, 0 < k → k ≤ n → M.Adj (p k) y → M.dir (p k) y := by
    intro k k1 k2 ha
    by_cases kn : k = n
    · rw [kn, h.1.last]; exact hxy
    · exact e.aM.dir_trans (h.1.par k k1 (by omega)) hcy ha
  rcases last_fail (fun k => M.Adj (p k) y) n.toNat with hall | ⟨l, l1, l2, l3, l4⟩
  · have a0 := hall 0 le_rfl (by omega)
    have a1 : M.Adj (p 1) y := by
      by_cases hn : n = 1
      · rw [← hn, h.1.last]; exact .inl hxy
      · exact hall 1 (by omega) (by omega)
    have h2 := h.1.fwd (k := 0) le_rfl hpos
    rw [show (0 : ℤ) + 1 = 1 by ring] at h2
    have h3 := e.aM.into_trans h2 (dirs 1 (by omega) (by omega) a1) a0
    exact e.aN.proper.excl _ _ hyc (e.symm.unsh (h.1.ne le_rfl (by omega)) (fun k => h.1.start (e.adj.2 k)) h3 (.inl hcy)).2
  · have := (e.transfer (p := p) (l := l) (i := n) (t := y) (by omega)
      (fun a b a1 a2 b1 b2 => h.1.inj a b (by omega) (by omega) (by omega) (by omega))
      (fun a a1 a2 => hy a (by omega) a2) l3
      (fun k k1 k2 => ⟨dirs k (by omega) (by omega) (l4 k k1 (by omega)), h.1.col k (by omega) (by omega),
        h.col e (by omega) (by omega)⟩)
      (by rw [h.1.last]; exact .inl hxy)).2
    rw [h.1.last] at this
    exact e.aM.proper.excl _ _ hxy (this ⟨h.into' e, .inl hyx⟩).2

/-- An edge that is an arc in one graph is an arc in the other. -/
theorem Eqv.arc (e : Eqv M N) (hb : ∀ u v, M.bi u v ↔ N.bi u v) {a b : α} (h : M.dir a b) : N.dir a b ∨ N.dir b a := by
  rcases e.adj.1 (.inl h) with k | k | k | k
  · exact .inl k
  · exact .inr k
  · exact (e.aM.bi_excl ((hb _ _).2 k) h).elim
  · exact absurd k (e.unN _ _)

theorem cross_reason (e : Eqv M N) (hb : ∀ u v, M.bi u v ↔ N.bi u v) (hcy : M.dir c y) (hxy : M.dir x y) (hyc : N.dir y c)
    (hyx : N.dir y x) (hxc : M.bi x c) (hr : M.Reason x c) : False := by
  rcases hr with hr | ⟨s, hxs, hcs, hd⟩
  · exact cross_dblock e hcy hxy hyc hyx hr
  have hsy : s ≠ y := fun k => by subst k; exact e.aM.bi_excl hxs hxy
  have sx := hd.into e
  have asy : M.Adj s y := by
    by_contra hn
    exact e.aM.proper.excl _ _ hxy (e.unsh hsy hn sx (.inl hyx)).2
  have hsin : M.Into s y := e.aM.into_trans (.inr (e.aM.bi_symm _ _ hxs)) hxy asy
  rcases hsin with hsy' | hsy'
  · rcases e.arc hb hsy' with k | k
    · exact e.aN.bi_excl2 ((hb _ _).1 (e.aM.bi_symm _ _ hxs)) k hyx
    · exact cross_dblock e hsy' hxy k hyx hd
  have hN : N.bi y s := e.aN.bi_symm _ _ ((hb _ _).1 hsy')
  have hsc : N.dir s c := by
    rcases e.arc hb hcs with k | k
    · exact (e.aN.bi_excl2 hN hyc k).elim
    · exact k
  have hMsc : ¬ M.Into s c := e.aM.proper.excl _ _ hcs
  have hNcs : ¬ N.Into c s := e.aN.proper.excl _ _ hsc
  obtain ⟨n, p, h⟩ := hd.short
  have hpos := h.1.pos
  have hcp : ∀ k, 0 < k → k < n → p k ≠ c := by
    rintro k k1 k2 rfl
    exact e.aN.proper.excl _ _ hsc (.inl (h.par e k1 k2))
  have hc0 : p 0 ≠ c := fun k => h.1.start (by rw [k]; exact .inl hcs)
  have dirs : ∀ k, 0 < k → k < n → N.dir (p k) c := by
    intro k k1 k2
    have ha : M.Adj (p k) c := by
      by_contra hna
      exact hNcs (e.symm.unsh (hcp k k1 k2) (fun m => hna (e.adj.2 m)) (.inl (h.1.par k k1 k2)) (.inl hcs)).2
    exact e.aN.dir_trans (h.par e k1 k2) hsc (e.adj.1 ha)
  by_cases ha : M.Adj (p 0) c
  · have hn : ¬ N.Into (p 0) c := fun k => hMsc (e.unsh (h.1.ne le_rfl (by omega)) h.1.start k (.inl hsc)).2
    have hNc : N.dir c (p 0) := e.aN.dir_of e.unN (e.aN.symm (e.adj.1 ha)) hn
    by_cases h1 : n = 1
    · subst h1
      have e1 := h.1.last
      have m0 : M.Into (p 0) x := by have := h.minto; simpa using this
      have n0 : N.Into (p 0) x := by have := h.into' e; simpa using this
      have hne : p 0 ≠ y := fun k => h.1.start (by rw [k]; exact e.aM.symm asy)
      have a0 : M.Adj (p 0) y := by
        by_contra hna
        exact e.aM.proper.excl _ _ hxy (e.unsh hne hna n0 (.inl hyx)).2
      have i0 := e.aM.into_trans m0 hxy a0
      have d0 : N.dir y (p 0) := e.aN.dir_trans hyc hNc (e.aN.symm (e.adj.1 a0))
      have := (e.symm.unsh (h.1.ne le_rfl (by omega)) (fun k => h.1.start (e.adj.2 k)) i0 (.inr hsy')).1
      exact e.aN.proper.excl _ _ d0 this
    · have h2 := h.fwd e (k := 0) le_rfl hpos
      rw [show (0 : ℤ) + 1 = 1 by ring] at h2
      exact hn (e.aN.into_trans h2 (dirs 1 (by omega) (by omega)) (e.adj.1 ha))
  · have hNxc : N.bi x c := (hb _ _).1 hxc
    have hxc' : x ≠ c := fun k => e.aM.loop c (by rw [k] at hxc; exact .inr (.inr (.inl hxc)))
    refine cross_dblock e hcy hxy hyc hyx (DBlock.other e.symm ?_ hxc)
    refine ⟨n, fun k => if k ≤ n then p k else c, hpos, ?_, ?_, ?_, ?_, ?_, ?_, hNxc⟩
    · intro a b a1 a2 b1 b2 he
      have hc : ∀ k, 0 ≤ k → k ≤ n → p k ≠ c := by
        intro k k1 k2
        by_cases k0 : k = 0
        · rw [k0]; exact hc0
        by_cases kn : k = n
        · rw [kn, h.1.last]; exact hxc'
        · exact hcp k (by omega) (by omega)
      split at he <;> split at he
      · exact h.1.inj a b a1 (by omega) b1 (by omega) he
      · exact absurd he (hc a a1 (by omega))
      · exact absurd he.symm (hc b b1 (by omega))
      · omega
    · simp [h.1.last]
    · simp
    · rw [if_pos (by omega)]; exact fun k => ha (e.adj.2 k)
    · intro k k1 k2
      have := h.col e k1 k2
      refine ⟨?_, ?_⟩
      · dsimp only
        rw [if_pos (by omega), if_pos k2]; exact this.1
      · dsimp only
        by_cases kn : k = n
        · subst kn; rw [if_neg (by omega), if_pos le_rfl, h.1.last]; exact .inr (e.aN.bi_symm _ _ hNxc)
        · rw [if_pos (by omega), if_pos k2]; exact this.2
    · intro k k1 k2
      rw [if_pos (by omega)]; exact dirs k k1 k2

/-- Two nodes whose arcs to `y` are both reversed are not joined by a bidirected edge. -/
theorem Eqv.cross (e : Eqv M N) (hb : ∀ u v, M.bi u v ↔ N.bi u v) (wf : WellFounded M.dir) (wf' : WellFounded fun a b => M.dir b a)
    (hB : M.Blocked) (hcy : M.dir c y) (hxy : M.dir x y) (hyc : N.dir y c) (hyx : N.dir y x) : ¬ M.bi x c := by
  intro hxc
  obtain ⟨k, p, h⟩ := exists_rchain e.aM e.unM wf wf' hB x hxc
  have key : ∀ i, i ≤ k → M.dir (p i) y ∧ N.dir y (p i) := by
    intro i
    induction i with
    | zero => intro _; rw [h.start]; exact ⟨hxy, hyx⟩
    | succ i ih =>
      intro hi
      obtain ⟨h1, h2⟩ := ih (by omega)
      have hz := h.dir i (by omega)
      have hzc := h.bi (i + 1) hi
      have hne : p (i + 1) ≠ y := fun k => e.aM.anc.acyclic y (by rw [k] at hz; exact .tail (.single hz) h1)
      have ha : M.Adj (p (i + 1)) y := by
        by_contra hn
        exact e.aM.proper.excl _ _ hcy (e.unsh hne hn (.inr ((hb _ _).1 hzc)) (.inl hyc)).2
      have hd := e.aM.dir_trans hz h1 ha
      refine ⟨hd, (e.arc hb hd).resolve_left fun k => ?_⟩
      exact e.aN.bi_excl2 ((hb _ _).1 hzc) k hyc
  obtain ⟨h1, h2⟩ := key k le_rfl
  exact cross_reason e hb hcy h1 hyc h2 (h.bi k le_rfl) h.reason

/-! ## Reversing an arc -/

/-- The arcs that are reversed. -/
def Rev (M N : Mixed α) (x y : α) : Prop := M.dir x y ∧ N.dir y x

/-- An arc to reverse: no arc into an ancestor of `y` is reversed, and `x` has no descendant with the same property. -/
theorem exists_rev (wf : WellFounded M.dir) (wf' : WellFounded fun a b => M.dir b a) (h : ∃ x y, Rev M N x y) :
    ∃ x y, Rev M N x y ∧ (∀ a b, Path M.dir b y → ¬ Rev M N a b) ∧ ∀ a, Path M.dir x a → ¬ Rev M N a y := by
  obtain ⟨x, y, h⟩ := h
  obtain ⟨y, ⟨x, hx⟩, hy⟩ := wf.transGen.has_min {y | ∃ x, Rev M N x y} ⟨y, x, h⟩
  obtain ⟨x, hx, hx'⟩ := wf'.transGen.has_min {x | Rev M N x y} ⟨x, hx⟩
  refine ⟨x, y, hx, fun a b hp hr => hy b ⟨a, hr⟩ hp, fun a hp hr => hx' a hr ?_⟩
  exact transGen_swap.1 hp

theorem Eqv.legit_rev (e : Eqv M N) (hb : ∀ u v, M.bi u v ↔ N.bi u v) (h : Rev M N x y)
    (h1 : ∀ a b, Path M.dir b y → ¬ Rev M N a b) (h2 : ∀ a, Path M.dir x a → ¬ Rev M N a y) : M.Legit x y := by
  obtain ⟨hxy, hyx⟩ := h
  have keep : ∀ {a b}, Path M.dir b y → M.dir a b → N.dir a b := fun hp hd =>
    (e.arc hb hd).resolve_right fun k => h1 _ _ hp ⟨hd, k⟩
  have keepI : ∀ {a b}, Path M.dir b y → M.Into a b → N.Into a b := fun hp hd => by
    rcases hd with hd | hd
    · exact .inl (keep hp hd)
    · exact .inr ((hb _ _).1 hd)
  have px : Path M.dir x y := .single hxy
  have path : ∀ c, M.dir x c → c ≠ y → ¬ Path M.dir c y := by
    intro c hxc hcy hp
    obtain ⟨c', k1, k2⟩ := TransGen.tail'_iff.1 hp
    have pc' : Path M.dir x c' := TransGen.head' hxc k1
    have hn : ¬ N.dir y c' := fun k => h2 c' pc' ⟨k2, k⟩
    have hN : N.dir c' y := (e.arc hb k2).resolve_right hn
    have hpN : Path N.dir x c' := by
      have : ∀ {a b}, Path0 M.dir b c' → M.dir a b → N.dir a b := fun hq hd => keep (TransGen.tail' hq k2) hd
      have hs : Path0 N.dir c c' := by
        clear hp pc' hxc hcy
        induction k1 using ReflTransGen.head_induction_on with
        | refl => exact .refl
        | head hab hbc ih => exact .head (this hbc hab) ih
      exact TransGen.head' (this k1 hxc) hs
    exact e.aN.anc.acyclic y (.head hyx (.tail hpN hN))
  refine ⟨⟨?_, ?_, path⟩, ?_⟩
  · intro c hcx
    have hne : c ≠ y := fun k => e.aM.anc.acyclic y (by rw [k] at hcx; exact .tail (.single hcx) hxy)
    have ha : M.Adj c y := by
      by_contra hn
      exact e.aM.proper.excl _ _ hxy (e.unsh hne hn (.inl (keep px hcx)) (.inl hyx)).2
    exact e.aM.dir_trans hcx hxy ha
  · intro d hdy hdx
    have ha : M.Adj d y := by
      by_contra hn
      exact e.aM.proper.excl _ _ hxy (e.unsh hdy hn (.inr ((hb _ _).1 hdx)) (.inl hyx)).2
    exact e.aM.into_trans (.inr hdx) hxy ha
  · intro v qs hd
    obtain ⟨n, p, hn, hinj, hv, hx, hu, hk⟩ := hd.numbered
    have hpy : ∀ a, 0 ≤ a → a ≤ n → p a ≠ y := fun a a1 a2 he => by
      have := hinj a (n + 1) a1 (by omega) (by omega) le_rfl (by rw [he, hu]); omega
    have := (e.transfer (p := p) (l := 0) (i := n) (t := y) (by omega)
      (fun a b a1 a2 b1 b2 => hinj a b a1 (by omega) b1 (by omega)) hpy (by rw [hv]; exact hd.start)
      (fun k k1 k2 => by
        obtain ⟨c1, c2⟩ := hk k k1 k2
        exact ⟨c2, c1, keepI (.single c2) c1.1, keepI (.single c2) c1.2⟩)
      (by rw [hx]; exact .inl hxy)).2
    rw [hx] at this
    obtain ⟨c1, c2⟩ := hk (n - 1) (by omega) (by omega)
    have c3 := c1.2
    rw [show n - 1 + 1 = n by ring, hx] at c3
    have hin : M.Into (p (n - 1)) x := by
      rcases c3 with c3 | c3
      · exact (path _ c3 (hpy _ (by omega) (by omega)) (.single c2)).elim
      · exact .inr (e.aM.bi_symm _ _ c3)
    exact e.aM.proper.excl _ _ hxy (this ⟨keepI px hin, .inl hyx⟩).2

/-- After `x → y` has become `x ↔ y`, it may become `y → x`. -/
theorem Eqv.legit_rev' {M1 : Mixed α} (e : Eqv M N) (hb : ∀ u v, M.bi u v ↔ N.bi u v) (wf : WellFounded M.dir)
    (wf' : WellFounded fun a b => M.dir b a) (hB : M.Blocked) (nf : WellFounded N.dir) (nf' : WellFounded fun a b => N.dir b a)
    (hBN : N.Blocked) (f : Flip M M1 x y) (h : Rev M N x y) (hl : M.Legit x y) : M1.Legit y x := by
  obtain ⟨hxy, hyx⟩ := h
  refine ⟨⟨?_, ?_, ?_⟩, ?_⟩
  · intro c hcy
    have hMc := f.mono hcy
    have hcx : c ≠ x := fun k => f.dir_N (by rw [← k]; exact hcy)
    have key : M.dir c x := by
      have ha : M.Adj c x := by
        by_contra hn
        exact e.aN.proper.excl _ _ hyx (e.symm.unsh hcx (fun k => hn (e.adj.2 k)) (.inl hMc) (.inl hxy)).2
      rcases ha with k | k | k | k
      · exact k
      · exact (hl.path c k (fun m => e.aM.irrefl y (by rw [m] at hMc; exact hMc)) (.single hMc)).elim
      · exfalso
        rcases e.arc hb hMc with m | m
        · exact e.aN.bi_excl2 ((hb _ _).1 k) m hyx
        · exact e.cross hb wf wf' hB hMc hxy m hyx (e.aM.bi_symm _ _ k)
      · exact absurd k (e.unM _ _)
    exact ((f.dir_iff _ _).1 key).resolve_right fun k => f.ne k.2
  · intro d hdx hdy
    have hMd : M.bi d y := by
      rcases (f.bi_iff _ _).1 hdy with k | k | k
      · exact k
      · exact absurd k.1 hdx
      · exact absurd k.2.symm f.ne
    refine f.into ?_
    have ha : M.Adj d x := by
      by_contra hn
      exact e.aN.proper.excl _ _ hyx (e.symm.unsh hdx (fun k => hn (e.adj.2 k)) (.inr hMd) (.inl hxy)).2
    rcases ha with k | k | k | k
    · exact .inl k
    · exfalso
      rcases e.arc hb k with m | m
      · exact e.aN.bi_excl2 (e.aN.bi_symm _ _ ((hb _ _).1 hMd)) hyx m
      · exact e.symm.cross (fun u v => (hb u v).symm) nf nf' hBN hyx m hxy k ((hb _ _).1 hMd)
    · exact .inr k
    · exact absurd k (e.unM _ _)
  · intro c hc _ hp
    exact e.aM.anc.acyclic y (.head (f.mono hc) (.tail (f.path_mono hp) hxy))
  · intro v qs hd
    obtain ⟨n, p, hn, hinj, hv, hx, hu, hk⟩ := hd.numbered
    obtain ⟨c1, c2⟩ := hk (n - 1) (by omega) (by omega)
    have c3 := c1.2
    rw [show n - 1 + 1 = n by ring, hx] at c3
    have d1 := f.mono c2
    rcases c3 with c3 | c3
    · exact e.aM.anc.acyclic y (.tail (.tail (.single (f.mono c3)) d1) hxy)
    · rcases (f.bi_iff _ _).1 c3 with k | k | k
      · exact e.aM.bi_excl2 (e.aM.bi_symm _ _ k) d1 hxy
      · exact f.ne k.1.symm
      · rw [k.2] at d1; exact e.aM.irrefl _ d1

end Spec.Mixed
