import Verif.Proof.PDAG

/-! # The flag loops of `pdag.py` -/

namespace Model.PDAG

universe u
variable {α : Type u} [DecidableEq α] {P : PDAG α} {fl : Flags α} {i j : α}

omit [DecidableEq α] in
theorem look_some {a : α × α} {g : Mark} (h : fl a = some g) : look fl a = .ok g := by unfold look; rw [h]

theorem checkA_spec (l : List α) : ∀ (f : Mark), (∀ k ∈ l, ∃ g, fl (k, i) = some g) →
    ∃ f', checkA P fl i j l f = .ok f' ∧
      (f' = .prot → f = .prot ∨ ∃ k ∈ l, P.hasEdgeOrArc k j = false ∧ fl (k, i) = some .prot) ∧
      (f' = .unprot → f = .unprot ∧ ∀ k ∈ l, P.hasEdgeOrArc k j = true) ∧
      (f' = .undec → f = .undec ∨ ∃ k ∈ l, P.hasEdgeOrArc k j = false ∧ fl (k, i) ≠ some .prot) := by
  induction l with
  | nil => intro f _; exact ⟨f, rfl, by simp, by simp, by simp⟩
  | cons k l ih =>
    intro f hl
    obtain ⟨g, hg⟩ := hl k List.mem_cons_self
    have hl' : ∀ k ∈ l, ∃ g, fl (k, i) = some g := fun x hx => hl x (List.mem_cons_of_mem _ hx)
    cases hc : P.hasEdgeOrArc k j with
    | true =>
      obtain ⟨f', h1, h2, h3, h4⟩ := ih f hl'
      refine ⟨f', by unfold checkA; rw [hc]; simpa using h1, ?_, ?_, ?_⟩
      · intro h
        rcases h2 h with h | ⟨x, hx, h⟩
        · exact Or.inl h
        · exact Or.inr ⟨x, List.mem_cons_of_mem _ hx, h⟩
      · intro h
        refine ⟨(h3 h).1, fun x hx => ?_⟩
        rcases List.mem_cons.1 hx with rfl | hx
        · exact hc
        · exact (h3 h).2 x hx
      · intro h
        rcases h4 h with h | ⟨x, hx, h⟩
        · exact Or.inl h
        · exact Or.inr ⟨x, List.mem_cons_of_mem _ hx, h⟩
    | false =>
      by_cases hp : g = .prot
      · subst hp
        refine ⟨.prot, ?_, fun _ => Or.inr ⟨k, List.mem_cons_self, hc, hg⟩, by simp, by simp⟩
        unfold checkA; rw [hc, look_some hg]; rfl
      · obtain ⟨f', h1, h2, h3, h4⟩ := ih .undec hl'
        refine ⟨f', ?_, ?_, ?_, ?_⟩
        · unfold checkA; rw [hc, look_some hg]; simp [hp, bind, Except.bind, h1]
        · intro h
          rcases h2 h with h | ⟨x, hx, h⟩
          · simp at h
          · exact Or.inr ⟨x, List.mem_cons_of_mem _ hx, h⟩
        · intro h; simpa using (h3 h).1
        · intro _; exact Or.inr ⟨k, List.mem_cons_self, hc, by rw [hg]; simpa using hp⟩

theorem checkB_spec (l : List α) : ∀ (f : Mark),
    (∀ k ∈ l, i ∈ P.parents k → (∃ g, fl (i, k) = some g) ∧ ∃ g, fl (k, j) = some g) →
    ∃ f', checkB P fl i j l f = .ok f' ∧
      (f' = .prot → f = .prot ∨ ∃ k ∈ l, i ∈ P.parents k ∧ fl (i, k) = some .prot ∧ fl (k, j) = some .prot) ∧
      (f' = .unprot → f = .unprot ∧ ∀ k ∈ l, i ∉ P.parents k) ∧
      (f' = .undec → f = .undec ∨
        ∃ k ∈ l, i ∈ P.parents k ∧ (fl (i, k) ≠ some .prot ∨ fl (k, j) ≠ some .prot)) := by
  induction l with
  | nil => intro f _; exact ⟨f, rfl, by simp, by simp, by simp⟩
  | cons k l ih =>
    intro f hl
    have hl' := fun x (hx : x ∈ l) => hl x (List.mem_cons_of_mem _ hx)
    by_cases hc : i ∈ P.parents k
    · obtain ⟨⟨g, hg⟩, g', hg'⟩ := hl k List.mem_cons_self hc
      by_cases hp : g = .prot ∧ g' = .prot
      · obtain ⟨rfl, rfl⟩ := hp
        refine ⟨.prot, ?_, fun _ => Or.inr ⟨k, List.mem_cons_self, hc, hg, hg'⟩, by simp, by simp⟩
        unfold checkB; rw [if_pos hc, look_some hg, look_some hg']; rfl
      · obtain ⟨f', h1, h2, h3, h4⟩ := ih .undec hl'
        refine ⟨f', ?_, ?_, ?_, ?_⟩
        · unfold checkB; rw [if_pos hc, look_some hg, look_some hg']
          by_cases h5 : g = .prot
          · have h6 : g' ≠ .prot := fun h => hp ⟨h5, h⟩
            simp [h5, h6, bind, Except.bind, h1]
          · simp [h5, bind, Except.bind, h1]
        · intro h
          rcases h2 h with h | ⟨x, hx, h⟩
          · simp at h
          · exact Or.inr ⟨x, List.mem_cons_of_mem _ hx, h⟩
        · intro h; simpa using (h3 h).1
        · intro _
          refine Or.inr ⟨k, List.mem_cons_self, hc, ?_⟩
          rw [hg, hg']
          by_cases h5 : g = .prot
          · exact Or.inr (by simpa using fun h => hp ⟨h5, h⟩)
          · exact Or.inl (by simpa using h5)
    · obtain ⟨f', h1, h2, h3, h4⟩ := ih f hl'
      refine ⟨f', by unfold checkB; rw [if_neg hc]; exact h1, ?_, ?_, ?_⟩
      · intro h
        rcases h2 h with h | ⟨x, hx, h⟩
        · exact Or.inl h
        · exact Or.inr ⟨x, List.mem_cons_of_mem _ hx, h⟩
      · intro h
        refine ⟨(h3 h).1, fun x hx => ?_⟩
        rcases List.mem_cons.1 hx with rfl | hx
        · exact hc
        · exact (h3 h).2 x hx
      · intro h
        rcases h4 h with h | ⟨x, hx, h⟩
        · exact Or.inl h
        · exact Or.inr ⟨x, List.mem_cons_of_mem _ hx, h⟩

/-- The condition on a pair in configuration (d). -/
def CondD (P : PDAG α) (i k l : α) : Prop := {i, k} ∈ P.edges ∧ {i, l} ∈ P.edges ∧ P.hasEdgeOrArc k l = false

theorem condD_iff {k l : α} : (P.hasEdge i k && P.hasEdge i l && !P.hasEdgeOrArc k l) = true ↔ CondD P i k l := by
  simp [CondD, hasEdge, and_assoc]

theorem checkD_spec (brk : Bool) (l : List (α × α)) : ∀ (f : Mark),
    (∀ k ∈ l, (∃ g, fl (k.1, j) = some g) ∧ ∃ g, fl (k.2, j) = some g) →
    ∃ f', checkD brk P fl i j l f = .ok f' ∧
      (f' = .prot → f = .prot ∨
        ∃ k ∈ l, CondD P i k.1 k.2 ∧ fl (k.1, j) = some .prot ∧ fl (k.2, j) = some .prot) ∧
      (f' = .unprot → f = .unprot ∧ ∀ k ∈ l, ¬ CondD P i k.1 k.2) ∧
      (f' = .undec → f = .undec ∨
        ∃ k ∈ l, CondD P i k.1 k.2 ∧ (fl (k.1, j) ≠ some .prot ∨ fl (k.2, j) ≠ some .prot)) := by
  induction l with
  | nil => intro f _; exact ⟨f, rfl, by simp, by simp, by simp⟩
  | cons k l ih =>
    intro f hl
    have hl' := fun x (hx : x ∈ l) => hl x (List.mem_cons_of_mem _ hx)
    by_cases hc : CondD P i k.1 k.2
    · have hc' := condD_iff.2 hc
      obtain ⟨⟨g, hg⟩, g', hg'⟩ := hl k List.mem_cons_self
      by_cases hp : g = .prot ∧ g' = .prot
      · obtain ⟨rfl, rfl⟩ := hp
        cases brk with
        | true =>
          refine ⟨.prot, ?_, fun _ => Or.inr ⟨k, List.mem_cons_self, hc, hg, hg'⟩, by simp, by simp⟩
          unfold checkD; rw [if_pos hc', look_some hg, look_some hg']; rfl
        | false =>
          obtain ⟨f', h1, h2, h3, h4⟩ := ih .prot hl'
          refine ⟨f', ?_, ?_, ?_, ?_⟩
          · unfold checkD; rw [if_pos hc', look_some hg, look_some hg']
            simp [bind, Except.bind, h1]
          · intro _; exact Or.inr ⟨k, List.mem_cons_self, hc, hg, hg'⟩
          · intro h; simpa using (h3 h).1
          · intro h
            rcases h4 h with h | ⟨x, hx, h⟩
            · simp at h
            · exact Or.inr ⟨x, List.mem_cons_of_mem _ hx, h⟩
      · obtain ⟨f', h1, h2, h3, h4⟩ := ih .undec hl'
        refine ⟨f', ?_, ?_, ?_, ?_⟩
        · unfold checkD; rw [if_pos hc', look_some hg, look_some hg']
          by_cases h5 : g = .prot
          · have h6 : g' ≠ .prot := fun h => hp ⟨h5, h⟩
            simp [h5, h6, bind, Except.bind, h1]
          · simp [h5, bind, Except.bind, h1]
        · intro h
          rcases h2 h with h | ⟨x, hx, h⟩
          · simp at h
          · exact Or.inr ⟨x, List.mem_cons_of_mem _ hx, h⟩
        · intro h; simpa using (h3 h).1
        · intro _
          refine Or.inr ⟨k, List.mem_cons_self, hc, ?_⟩
          rw [hg, hg']
          by_cases h5 : g = .prot
          · exact Or.inr (by simpa using fun h => hp ⟨h5, h⟩)
          · exact Or.inl (by simpa using h5)
    · have hc' := fun h => hc (condD_iff.1 h)
      obtain ⟨f', h1, h2, h3, h4⟩ := ih f hl'
      refine ⟨f', by unfold checkD; rw [if_neg hc']; exact h1, ?_, ?_, ?_⟩
      · intro h
        rcases h2 h with h | ⟨x, hx, h⟩
        · exact Or.inl h
        · exact Or.inr ⟨x, List.mem_cons_of_mem _ hx, h⟩
      · intro h
        refine ⟨(h3 h).1, fun x hx => ?_⟩
        rcases List.mem_cons.1 hx with rfl | hx
        · exact hc
        · exact (h3 h).2 x hx
      · intro h
        rcases h4 h with h | ⟨x, hx, h⟩
        · exact Or.inl h
        · exact Or.inr ⟨x, List.mem_cons_of_mem _ hx, h⟩

/-- One of the configurations is present, with all its arcs satisfying `S`. -/
def Cfg (S : α × α → Prop) (P : PDAG α) (i j : α) : Prop :=
  (∃ k, (k, i) ∈ P.arcs ∧ P.hasEdgeOrArc k j = false ∧ S (k, i)) ∨
  (∃ k, (i, k) ∈ P.arcs ∧ (k, j) ∈ P.arcs ∧ S (i, k) ∧ S (k, j)) ∨
  (∃ k l, k ≠ l ∧ (k, j) ∈ P.arcs ∧ (l, j) ∈ P.arcs ∧ CondD P i k l ∧ S (k, j) ∧ S (l, j))

/-- One of the arcs of a configuration satisfies `S`. -/
def Waits (S : α × α → Prop) (P : PDAG α) (i j : α) : Prop :=
  (∃ k, (k, i) ∈ P.arcs ∧ S (k, i)) ∨
  (∃ k, (i, k) ∈ P.arcs ∧ (k, j) ∈ P.arcs ∧ (S (i, k) ∨ S (k, j))) ∨
  (∃ k l, k ≠ l ∧ (k, j) ∈ P.arcs ∧ (l, j) ∈ P.arcs ∧ P.hasEdgeOrArc k l = false ∧ S (k, j))

theorem hasEdgeOrArc_comm (k l : α) : P.hasEdgeOrArc k l = P.hasEdgeOrArc l k := by
  unfold hasEdgeOrArc hasEdge
  rw [Finset.pair_comm k l, Bool.or_comm (decide ((k, l) ∈ P.arcs))]

theorem arcFlag_spec (brk : Bool) (o : OrientOracle α) (n : ℕ) (hP : P.Consistent)
    (hfl : ∀ a ∈ P.arcs, ∃ g, fl a = some g) (i j : α) :
    ∃ f, arcFlag brk o n P fl (i, j) = .ok f ∧
      (f = .prot → Cfg (fun a => fl a = some .prot) P i j) ∧
      (f = .unprot → ¬ Cfg (fun _ => True) P i j) ∧
      (f = .undec → Waits (fun a => fl a ≠ some .prot) P i j) := by
  have hmem : ∀ {x k t}, k ∈ o.nbr.ord (n, (i, j), t) (P.parents x) ↔ (k, x) ∈ P.arcs := by
    intro x k t; rw [o.nbr.mem_iff, hP.parents_iff]
  obtain ⟨fa, ha, ha1, ha2, ha3⟩ := checkA_spec (P := P) (fl := fl) (i := i) (j := j)
    (o.nbr.ord (n, (i, j), 0) (P.parents i)) .unprot (fun k hk => hfl _ (hmem.1 hk))
  obtain ⟨fb, hb, hb1, hb2, hb3⟩ := checkB_spec (P := P) (fl := fl) (i := i) (j := j)
    (o.nbr.ord (n, (i, j), 1) (P.parents j)) fa
    (fun k hk hik => ⟨hfl _ ((hP.parents_iff i k).1 hik), hfl _ (hmem.1 hk)⟩)
  have hpair : ∀ k ∈ DAG.pairs (o.nbr.ord (n, (i, j), 2) (P.parents j)),
      (k.1, j) ∈ P.arcs ∧ (k.2, j) ∈ P.arcs ∧ k.1 ≠ k.2 := by
    intro k hk
    have := (mem_pairs (o.nbr.nodup _ _)).1 (Or.inl (show (k.1, k.2) ∈ _ from hk))
    exact ⟨hmem.1 this.1, hmem.1 this.2.1, this.2.2⟩
  obtain ⟨fd, hd, hd1, hd2, hd3⟩ := checkD_spec (P := P) (fl := fl) (i := i) (j := j) brk
    (DAG.pairs (o.nbr.ord (n, (i, j), 2) (P.parents j))) fb
    (fun k hk => ⟨hfl _ (hpair k hk).1, hfl _ (hpair k hk).2.1⟩)
  -- the three stages, read off
  have cA : fa = .prot → Cfg (fun a => fl a = some .prot) P i j := by
    intro h
    rcases ha1 h with h | ⟨k, hk, h1, h2⟩
    · simp at h
    · exact Or.inl ⟨k, hmem.1 hk, h1, h2⟩
  have cB : fb = .prot → fa ≠ .prot → Cfg (fun a => fl a = some .prot) P i j := by
    intro h hn
    rcases hb1 h with h | ⟨k, hk, h1, h2, h3⟩
    · exact absurd h hn
    · exact Or.inr (Or.inl ⟨k, (hP.parents_iff _ _).1 h1, hmem.1 hk, h2, h3⟩)
  have cD : fd = .prot → fb ≠ .prot → Cfg (fun a => fl a = some .prot) P i j := by
    intro h hn
    rcases hd1 h with h | ⟨k, hk, h1, h2, h3⟩
    · exact absurd h hn
    · have := hpair k hk
      exact Or.inr (Or.inr ⟨k.1, k.2, this.2.2, this.1, this.2.1, h1, h2, h3⟩)
  have wA : fa = .undec → Waits (fun a => fl a ≠ some .prot) P i j := by
    intro h
    rcases ha3 h with h | ⟨k, hk, h1, h2⟩
    · simp at h
    · exact Or.inl ⟨k, hmem.1 hk, h2⟩
  have wB : fb = .undec → Waits (fun a => fl a ≠ some .prot) P i j := by
    intro h
    rcases hb3 h with h | ⟨k, hk, h1, h2⟩
    · exact wA h
    · exact Or.inr (Or.inl ⟨k, (hP.parents_iff _ _).1 h1, hmem.1 hk, h2⟩)
  have wD : fd = .undec → Waits (fun a => fl a ≠ some .prot) P i j := by
    intro h
    rcases hd3 h with h | ⟨k, hk, h1, h2⟩
    · exact wB h
    · have := hpair k hk
      rcases h2 with h2 | h2
      · exact Or.inr (Or.inr ⟨k.1, k.2, this.2.2, this.1, this.2.1, h1.2.2, h2⟩)
      · exact Or.inr (Or.inr ⟨k.2, k.1, this.2.2.symm, this.2.1, this.1, by rw [hasEdgeOrArc_comm]; exact h1.2.2, h2⟩)
  have nD : fd = .unprot → ¬ Cfg (fun _ => True) P i j := by
    intro h
    obtain ⟨h1, h2⟩ := hd2 h
    obtain ⟨h3, h4⟩ := hb2 h1
    obtain ⟨_, h5⟩ := ha2 h3
    rintro (⟨k, hk, hn, _⟩ | ⟨k, hik, hkj, _⟩ | ⟨k, l, hkl, hk, hl, hc, _⟩)
    · rw [h5 k (hmem.2 hk)] at hn; simp at hn
    · exact h4 k (hmem.2 hkj) ((hP.parents_iff _ _).2 hik)
    · rcases (mem_pairs (o.nbr.nodup (n, (i, j), 2) (P.parents j))).2 ⟨hmem.2 hk, hmem.2 hl, hkl⟩ with hp | hp
      · exact h2 _ hp hc
      · exact h2 _ hp ⟨hc.2.1, hc.1, by rw [hasEdgeOrArc_comm]; exact hc.2.2⟩
  unfold arcFlag
  simp only [ha, bind, Except.bind]
  by_cases h1 : fa = .prot
  · refine ⟨.prot, by simp [h1, pure, Except.pure], fun _ => cA h1, by simp, by simp⟩
  · simp only [ne_eq, h1, not_false_eq_true, if_true, hb]
    by_cases h2 : fb = .prot
    · exact ⟨.prot, by simp [h2, pure, Except.pure], fun _ => cB h2 h1, by simp, by simp⟩
    · simp only [h2, not_false_eq_true, if_true]
      exact ⟨fd, hd, fun h => cD h h2, nD, wD⟩

theorem Cfg.imp {S T : α × α → Prop} (h : ∀ a ∈ P.arcs, S a → T a) (hc : Cfg S P i j) : Cfg T P i j := by
  rcases hc with ⟨k, h1, h2, h3⟩ | ⟨k, h1, h2, h3, h4⟩ | ⟨k, l, h1, h2, h3, h4, h5, h6⟩
  · exact Or.inl ⟨k, h1, h2, h _ h1 h3⟩
  · exact Or.inr (Or.inl ⟨k, h1, h2, h _ h1 h3, h _ h2 h4⟩)
  · exact Or.inr (Or.inr ⟨k, l, h1, h2, h3, h4, h _ h2 h5, h _ h3 h6⟩)

theorem Waits.imp {S T : α × α → Prop} (h : ∀ a ∈ P.arcs, S a → T a) (hc : Waits S P i j) : Waits T P i j := by
  rcases hc with ⟨k, h1, h2⟩ | ⟨k, h1, h2, h3⟩ | ⟨k, l, h1, h2, h3, h4, h5⟩
  · exact Or.inl ⟨k, h1, h _ h1 h2⟩
  · exact Or.inr (Or.inl ⟨k, h1, h2, h3.imp (h _ h1) (h _ h2)⟩)
  · exact Or.inr (Or.inr ⟨k, l, h1, h2, h3, h4, h _ h2 h5⟩)

/-- The first inner loop. `S` is any property of arcs that the configurations pass on. -/
theorem flagRound_spec (brk : Bool) (o : OrientOracle α) (n : ℕ) (hP : P.Consistent) (und : Finset (α × α))
    (S : α × α → Prop) (hfl : ∀ a, a ∈ P.arcs ∨ a ∈ und → ∃ g, fl a = some g)
    (hS : ∀ a ∈ P.arcs, fl a = some .prot → S a) (hdec : ∀ a ∈ P.arcs, a ∉ und → fl a = some .prot)
    (hcl : ∀ a ∈ und, Cfg S P a.1 a.2 → S a) :
    ∃ fl', flagRound brk o n P und fl = .ok fl' ∧ (∀ a ∉ und, fl' a = fl a) ∧
      ∀ a ∈ und, ∃ f, fl' a = some f ∧ (f = .prot → S a) ∧ (f = .unprot → ¬ Cfg (fun _ => True) P a.1 a.2) ∧
        (f = .undec → Waits (fun a => a ∈ und) P a.1 a.2) := by
  unfold flagRound
  have key : ∀ (l : List (α × α)) (done : Finset (α × α)) (f0 : Flags α), (∀ a ∈ l, a ∈ und) → l.Nodup →
      (∀ a ∈ l, a ∉ done) → done ⊆ und → (∀ a ∉ done, f0 a = fl a) →
      (∀ a ∈ done, ∃ f, f0 a = some f ∧ (f = .prot → S a) ∧ (f = .unprot → ¬ Cfg (fun _ => True) P a.1 a.2) ∧
        (f = .undec → Waits (fun a => a ∈ und) P a.1 a.2)) →
      ∃ fl', l.foldlM (fun fl a => (arcFlag brk o n P fl a).map fun f => Function.update fl a (some f)) f0
          = Except.ok fl' ∧ (∀ a, a ∉ done → a ∉ l → fl' a = fl a) ∧
        ∀ a, a ∈ done ∨ a ∈ l → ∃ f, fl' a = some f ∧ (f = .prot → S a) ∧
          (f = .unprot → ¬ Cfg (fun _ => True) P a.1 a.2) ∧ (f = .undec → Waits (fun a => a ∈ und) P a.1 a.2) := by
    intro l
    induction l with
    | nil =>
      intro done f0 _ _ _ _ h1 h2
      exact ⟨f0, rfl, fun a ha _ => h1 a ha, fun a ha => h2 a (by simpa using ha)⟩
    | cons a l ih =>
      intro done f0 hl hnd hdis hsub h1 h2
      have hf0 : ∀ b ∈ P.arcs, ∃ g, f0 b = some g := by
        intro b hb
        by_cases hbd : b ∈ done
        · obtain ⟨f, hf, _⟩ := h2 b hbd; exact ⟨f, hf⟩
        · rw [h1 b hbd]; exact hfl b (Or.inl hb)
      obtain ⟨f, hf, c1, c2, c3⟩ := arcFlag_spec brk o n hP hf0 a.1 a.2
      have hp : ∀ b ∈ P.arcs, f0 b = some .prot → S b := by
        intro b hb hb'
        by_cases hbd : b ∈ done
        · obtain ⟨f, hf, hs, _⟩ := h2 b hbd
          rw [hf] at hb'; exact hs (Option.some.inj hb')
        · rw [h1 b hbd] at hb'; exact hS b hb hb'
      have hu : ∀ b ∈ P.arcs, f0 b ≠ some .prot → b ∈ und := by
        intro b hb hb'
        by_contra hbu
        rw [h1 b fun hd => hbu (hsub hd)] at hb'
        exact hb' (hdec b hb hbu)
      rw [List.nodup_cons] at hnd
      have hau := hl a List.mem_cons_self
      have had := hdis a List.mem_cons_self
      obtain ⟨fl', e1, e2, e3⟩ := ih (insert a done) (Function.update f0 a (some f))
        (fun b hb => hl b (List.mem_cons_of_mem _ hb)) hnd.2
        (by
          intro b hb hb'
          rcases Finset.mem_insert.1 hb' with rfl | hb'
          · exact hnd.1 hb
          · exact hdis b (List.mem_cons_of_mem _ hb) hb')
        (Finset.insert_subset hau hsub)
        (by
          intro b hb
          rw [Finset.mem_insert, not_or] at hb
          rw [Function.update_of_ne hb.1]; exact h1 b hb.2)
        (by
          intro b hb
          by_cases hba : b = a
          · subst hba
            exact ⟨f, Function.update_self _ _ _, fun h => hcl b hau ((c1 h).imp hp), c2, fun h => (c3 h).imp hu⟩
          · rw [Function.update_of_ne hba]
            exact h2 b ((Finset.mem_insert.1 hb).resolve_left hba))
      refine ⟨fl', ?_, ?_, ?_⟩
      · rw [List.foldlM_cons]
        have hf' : arcFlag brk o n P f0 a = .ok f := hf
        rw [hf']
        exact e1
      · intro b hb hbl
        rw [List.mem_cons, not_or] at hbl
        exact e2 b (by rw [Finset.mem_insert, not_or]; exact ⟨hbl.1, hb⟩) hbl.2
      · intro b hb
        apply e3
        rw [List.mem_cons] at hb
        rw [Finset.mem_insert]; tauto
  obtain ⟨fl', h1, h2, h3⟩ := key (o.arcs.ord (n, false) und) ∅ fl (fun a ha => (o.arcs.mem_iff _ _ _).1 ha)
    (o.arcs.nodup _ _) (by simp) (by simp) (by simp) (by simp)
  exact ⟨fl', h1, fun a ha => h2 a (by simp) (by rw [o.arcs.mem_iff]; exact ha),
    fun a ha => h3 a (Or.inr ((o.arcs.mem_iff _ _ _).2 ha))⟩

end Model.PDAG
