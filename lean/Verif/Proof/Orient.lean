import Verif.Proof.Flags
import Verif.Proof.Meek
import Verif.Proof.Reversals

/-! # `remove_unprotected_orientations` computes the arcs obtained from the orientation rules -/

namespace Model.PDAG

open Spec
universe u
variable {α : Type u} [DecidableEq α]

/-- The second inner loop. -/
theorem dropRound_spec (fl : Flags α) : ∀ (l : List (α × α)) (P : PDAG α) (und : Finset (α × α)), l.Nodup →
    P.Consistent → P.Simple → (∀ a ∈ l, a ∈ und ∧ a ∈ P.arcs ∧ ∃ g, fl a = some g) →
    ∃ Q und', dropRound fl l (P, und) = .ok (Q, und') ∧ Q.Consistent ∧ Q.Simple ∧ Q.nodes = P.nodes ∧
      Q.known = P.known ∧
      (∀ a, a ∈ und' ↔ a ∈ und ∧ ¬ (a ∈ l ∧ fl a ≠ some .undec)) ∧
      (∀ a, a ∈ Q.arcs ↔ a ∈ P.arcs ∧ ¬ (a ∈ l ∧ fl a = some .unprot)) ∧
      (∀ e, e ∈ Q.edges ↔ e ∈ P.edges ∨ ∃ a ∈ l, fl a = some .unprot ∧ e = {a.1, a.2}) := by
  intro l
  induction l with
  | nil => intro P und _ hP hS _; exact ⟨P, und, rfl, hP, hS, rfl, rfl, by simp, by simp, by simp⟩
  | cons a l ih =>
    intro P und hnd hP hS hl
    rw [List.nodup_cons] at hnd
    obtain ⟨ha1, ha2, g, hg⟩ := hl a List.mem_cons_self
    have hl' := fun b (hb : b ∈ l) => hl b (List.mem_cons_of_mem _ hb)
    have hbl : ∀ b ∈ l, b ≠ a := by rintro b hb rfl; exact hnd.1 hb
    cases g with
    | undec =>
      obtain ⟨Q, und', h1, h2, h3, h4, h5, h6, h7, h8⟩ := ih P und hnd.2 hP hS hl'
      refine ⟨Q, und', ?_, h2, h3, h4, h5, ?_, ?_, ?_⟩
      · unfold dropRound; rw [look_some hg]; simpa [bind, Except.bind, pure, Except.pure] using h1
      · intro b; rw [h6, List.mem_cons]
        by_cases hb : b = a
        · subst hb; simp [hg]
        · simp [hb]
      · intro b; rw [h7, List.mem_cons]
        by_cases hb : b = a
        · subst hb; simp [hg]
        · simp [hb]
      · intro e; rw [h8, List.exists_mem_cons_iff]; simp [hg]
    | prot =>
      obtain ⟨Q, und', h1, h2, h3, h4, h5, h6, h7, h8⟩ := ih P (und.erase a) hnd.2 hP hS
        (fun b hb => ⟨Finset.mem_erase.2 ⟨hbl b hb, (hl' b hb).1⟩, (hl' b hb).2⟩)
      refine ⟨Q, und', ?_, h2, h3, h4, h5, ?_, ?_, ?_⟩
      · unfold dropRound; rw [look_some hg]
        simpa [bind, Except.bind, pure, Except.pure, remove_ok ha1] using h1
      · intro b; rw [h6, List.mem_cons, Finset.mem_erase]
        by_cases hb : b = a
        · subst hb; simp [hg]
        · simp [hb]
      · intro b; rw [h7, List.mem_cons]
        by_cases hb : b = a
        · subst hb; simp [hg]
        · simp [hb]
      · intro e; rw [h8, List.exists_mem_cons_iff]; simp [hg]
    | unprot =>
      obtain ⟨P', hr, hP', hS', hn, hk, hA, hE⟩ := replaceArcWithEdge_spec hP hS (show (a.1, a.2) ∈ P.arcs from ha2)
      obtain ⟨Q, und', h1, h2, h3, h4, h5, h6, h7, h8⟩ := ih P' (und.erase a) hnd.2 hP' hS'
        (fun b hb => ⟨Finset.mem_erase.2 ⟨hbl b hb, (hl' b hb).1⟩,
          by rw [hA]; exact Finset.mem_erase.2 ⟨hbl b hb, (hl' b hb).2.1⟩, (hl' b hb).2.2⟩)
      refine ⟨Q, und', ?_, h2, h3, h4.trans hn, h5.trans hk, ?_, ?_, ?_⟩
      · unfold dropRound; rw [look_some hg]
        simpa [bind, Except.bind, pure, Except.pure, remove_ok ha1, hr] using h1
      · intro b; rw [h6, List.mem_cons, Finset.mem_erase]
        by_cases hb : b = a
        · subst hb; simp [hg]
        · simp [hb]
      · intro b; rw [h7, List.mem_cons, hA, Finset.mem_erase]
        by_cases hb : b = a
        · subst hb; simp [hg]
        · simp [hb]
      · intro e; rw [h8, List.exists_mem_cons_iff, hE, Finset.mem_insert]
        simp only [hg, true_and]
        generalize (∃ x ∈ l, _) = q; tauto

/-- Invariant of the `while` loop for the class given by `E` and `B`. -/
structure Inv (E B : α → α → Prop) (P : PDAG α) (und : Finset (α × α)) (fl : Flags α) : Prop where
  cons : P.Consistent
  simp : P.Simple
  sub : ∀ i j, (i, j) ∈ P.arcs → E i j
  cover : ∀ i j, E i j → (i, j) ∈ P.arcs ∨ ({i, j} ∈ P.edges ∧ ¬ Meek E B i j)
  edge : ∀ i j, {i, j} ∈ P.edges → Adj E i j
  und_sub : und ⊆ P.arcs
  dec : ∀ a ∈ P.arcs, a ∉ und → fl a = some .prot ∧ Meek E B a.1 a.2
  und_fl : ∀ a ∈ und, fl a = some .undec
  und_new : ∀ i j, (i, j) ∈ und → (∀ l, ¬ VStruct E i j l) ∧ ¬ B i j
  chain : ∀ i j, E i j → (i, j) ∉ P.arcs → ∀ k, (k, i) ∈ P.arcs → Adj E k j

variable {E B : α → α → Prop} {P : PDAG α} {und : Finset (α × α)} {fl : Flags α}

theorem Inv.adj (h : Inv E B P und fl) (k j : α) : P.hasEdgeOrArc k j = true ↔ Adj E k j := by
  unfold hasEdgeOrArc hasEdge
  simp only [Bool.or_eq_true, decide_eq_true_eq]
  constructor
  · rintro ((h1 | h1) | h1)
    · exact Or.inl (h.sub _ _ h1)
    · exact Or.inr (h.sub _ _ h1)
    · exact h.edge _ _ h1
  · rintro (h1 | h1)
    · rcases h.cover _ _ h1 with h2 | h2
      · exact Or.inl (Or.inl h2)
      · exact Or.inr h2.1
    · rcases h.cover _ _ h1 with h2 | h2
      · exact Or.inl (Or.inr h2)
      · exact Or.inr (by rw [Finset.pair_comm]; exact h2.1)

theorem Inv.nadj (h : Inv E B P und fl) (k j : α) : P.hasEdgeOrArc k j = false ↔ ¬ Adj E k j := by
  rw [← h.adj, Bool.not_eq_true]

theorem Inv.kept (h : Inv E B P und fl) {i j : α} (hm : Meek E B i j) : (i, j) ∈ P.arcs :=
  (h.cover i j hm.sub).resolve_right fun h' => h'.2 hm

/-- Configurations pass on membership in the closure. -/
theorem Inv.closed (hE : Acyclic E) (h : Inv E B P und fl) (a : α × α) (ha : a ∈ und)
    (hc : Cfg (fun a => Meek E B a.1 a.2) P a.1 a.2) : Meek E B a.1 a.2 := by
  have haE : E a.1 a.2 := h.sub _ _ (h.und_sub ha)
  rcases hc with ⟨k, h1, h2, h3⟩ | ⟨k, h1, h2, h3, h4⟩ | ⟨k, l, hkl, hk, hl, ⟨c1, c2, c3⟩, _, _⟩
  · refine .r1 h3 ?_ ((h.nadj _ _).1 h2) haE
    rintro rfl; exact hE.asymm haE (h.sub _ _ h1)
  · exact .r2 h3 h4 haE
  · refine .r3 ⟨hkl, h.sub _ _ hk, h.sub _ _ hl, (h.nadj _ _).1 c3⟩ (h.edge _ _ c1) (h.edge _ _ c2) ?_ haE
    rintro ⟨h1, h2⟩
    have hv : VStruct E k a.1 l := ⟨hkl, h1, h2, (h.nadj _ _).1 c3⟩
    have := h.kept (.vstr hv)
    exact h.simp.no_edge _ _ this (by rw [Finset.pair_comm]; exact c1)

/-- Without any configuration the arc is not in the closure. -/
theorem Inv.unprot (h : Inv E B P und fl) {i j : α} (ha : (i, j) ∈ und)
    (hc : ¬ Cfg (fun _ => True) P i j) : ¬ Meek E B i j := by
  intro hm
  have hb : ∀ k, (i, k) ∈ P.arcs → (k, j) ∉ P.arcs := fun k h1 h2 => hc (Or.inr (Or.inl ⟨k, h1, h2, trivial, trivial⟩))
  cases hm with
  | base h1 h2 => exact (h.und_new i j ha).2 h2
  | vstr hv => exact (h.und_new i j ha).1 _ hv
  | r1 hk hne hna _ => exact hc (Or.inl ⟨_, h.kept hk, (h.nadj _ _).2 hna, trivial⟩)
  | r2 hik hkj _ => exact hb _ (h.kept hik) (h.kept hkj)
  | r3 hv hik hil hnot hij =>
    rename_i k l
    have hkj := h.kept (.vstr hv)
    have hlj := h.kept (.vstr (vstruct_symm hv))
    -- neither arc `i → k` nor `i → l` is left
    have hik' : (i, k) ∉ P.arcs := fun h' => hb _ h' hkj
    have hil' : (i, l) ∉ P.arcs := fun h' => hb _ h' hlj
    have edge_of : ∀ {x}, E i x → (i, x) ∉ P.arcs → {i, x} ∈ P.edges := fun h1 h2 =>
      ((h.cover _ _ h1).resolve_left h2).1
    have edge_of' : ∀ {x}, E x i → (x, i) ∉ P.arcs → {i, x} ∈ P.edges := fun h1 h2 => by
      rw [Finset.pair_comm]; exact ((h.cover _ _ h1).resolve_left h2).1
    have fin : {i, k} ∈ P.edges → {i, l} ∈ P.edges → False := fun e1 e2 =>
      hc (Or.inr (Or.inr ⟨k, l, hv.1, hkj, hlj, ⟨e1, e2, (h.nadj _ _).2 hv.2.2.2⟩, trivial, trivial⟩))
    rcases hik with h1 | h1
    · rcases hil with h2 | h2
      · exact fin (edge_of h1 hik') (edge_of h2 hil')
      · refine fin (edge_of h1 hik') (edge_of' h2 fun h3 => ?_)
        exact hv.2.2.2 (adj_symm (h.chain _ _ h1 hik' _ h3))
    · rcases hil with h2 | h2
      · refine fin (edge_of' h1 fun h3 => ?_) (edge_of h2 hil')
        exact hv.2.2.2 (h.chain _ _ h2 hil' _ h3)
      · exact hnot ⟨h1, h2⟩

/-- Some arc is decided in every round. -/
theorem Inv.progress (hE : Acyclic E) (h : Inv E B P und fl) (hne : und.Nonempty) :
    ∃ a ∈ und, ¬ Waits (fun a => a ∈ und) P a.1 a.2 := by
  obtain ⟨f, hinj, hmono, hlt⟩ := exists_rank hE _ P.nodes rfl
  set N := P.nodes.card
  obtain ⟨a, ha, hmin⟩ := und.exists_min_image (fun a => f a.2 * (N + 1) + (N - f a.1)) hne
  refine ⟨a, ha, ?_⟩
  have haE := h.und_sub ha
  have hl : ∀ i j, (i, j) ∈ P.arcs → f i < f j ∧ f i < N ∧ f j < N := by
    intro i j hij
    have := h.cons.arc_mem _ _ hij
    exact ⟨hmono i this.1 j this.2 (h.sub _ _ hij), hlt _ this.1, hlt _ this.2⟩
  have key : ∀ b ∈ und, ¬ (f b.2 < f a.2) ∧ ¬ (f b.2 = f a.2 ∧ f a.1 < f b.1) := by
    intro b hb
    have h1 := hmin b hb
    have h2 := hl _ _ (h.und_sub hb)
    have h3 := hl _ _ haE
    constructor
    · intro h4
      have : (f b.2 + 1) * (N + 1) ≤ f a.2 * (N + 1) := Nat.mul_le_mul_right _ h4
      rw [Nat.succ_mul] at this; omega
    · rintro ⟨h4, h5⟩; rw [h4] at h1; omega
  rintro (⟨k, h1, h2⟩ | ⟨k, h1, h2, h3 | h3⟩ | ⟨k, l, h1, h2, h3, h4, h5⟩)
  · exact (key _ h2).1 (hl _ _ haE).1
  · exact (key _ h3).1 (hl _ _ h2).1
  · exact (key _ h3).2 ⟨rfl, (hl _ _ h1).1⟩
  · exact (h.und_new k a.2 h5).1 l ⟨h1, h.sub _ _ h2, h.sub _ _ h3, (h.nadj _ _).1 h4⟩

/-- The loop ends with exactly the arcs of the closure directed. -/
theorem unprotectLoop_spec (hE : Acyclic E) (o : OrientOracle α) : ∀ (c n : ℕ) (P : PDAG α) (und : Finset (α × α))
    (fl : Flags α), und.card ≤ c → Inv E B P und fl →
    ∃ Q fl', (unprotectLoop o n P und fl).run = some (.ok Q) ∧ Inv E B Q ∅ fl' ∧ Q.nodes = P.nodes ∧
      Q.known = P.known := by
  intro c
  induction c with
  | zero =>
    intro n P und fl hc h
    have : und = ∅ := Finset.card_eq_zero.1 (by omega)
    subst this
    refine ⟨P, fl, ?_, h, rfl, rfl⟩
    rw [unprotectLoop]; simp
  | succ c ih =>
    intro n P und fl hc h
    by_cases hund : und = ∅
    · subst hund
      refine ⟨P, fl, ?_, h, rfl, rfl⟩
      rw [unprotectLoop]; simp
    · obtain ⟨fl', g1, g2, g3⟩ := flagRound_spec false o n h.cons und (fun a => Meek E B a.1 a.2)
        (fl := fl) (by
          rintro a (ha | ha)
          · by_cases hau : a ∈ und
            · exact ⟨_, h.und_fl a hau⟩
            · exact ⟨_, (h.dec a ha hau).1⟩
          · exact ⟨_, h.und_fl a ha⟩)
        (by
          intro a ha hp
          by_cases hau : a ∈ und
          · rw [h.und_fl a hau] at hp; simp at hp
          · exact (h.dec a ha hau).2)
        (fun a ha hau => (h.dec a ha hau).1) (h.closed hE)
      obtain ⟨Q, und', d1, d2, d3, d4, d5, d6, d7, d8⟩ := dropRound_spec fl' (o.arcs.ord (n, true) und) P und
        (o.arcs.nodup _ _) h.cons h.simp (by
          intro a ha
          rw [o.arcs.mem_iff] at ha
          obtain ⟨f, hf, _⟩ := g3 a ha
          exact ⟨ha, h.und_sub ha, f, hf⟩)
      simp only [o.arcs.mem_iff] at d6 d7 d8
      have hun : ∀ a ∈ und, fl' a = some .unprot → ¬ Cfg (fun _ => True) P a.1 a.2 := by
        intro a ha hf
        obtain ⟨f, hf', _, h2, _⟩ := g3 a ha
        rw [hf] at hf'; exact h2 (Option.some.inj hf').symm
      have hQ : Inv E B Q und' fl' := by
        refine ⟨d2, d3, ?_, ?_, ?_, ?_, ?_, ?_, ?_, ?_⟩
        · intro i j hij; exact h.sub i j ((d7 _).1 hij).1
        · intro i j hij
          rcases h.cover i j hij with h1 | h1
          · by_cases h2 : (i, j) ∈ und ∧ fl' (i, j) = some .unprot
            · exact Or.inr ⟨(d8 _).2 (Or.inr ⟨(i, j), h2.1, h2.2, rfl⟩), h.unprot h2.1 (hun _ h2.1 h2.2)⟩
            · exact Or.inl ((d7 _).2 ⟨h1, h2⟩)
          · exact Or.inr ⟨(d8 _).2 (Or.inl h1.1), h1.2⟩
        · intro i j hij
          rcases (d8 _).1 hij with h1 | ⟨a, ha, _, h2⟩
          · exact h.edge i j h1
          · have haE := h.sub _ _ (h.und_sub ha)
            rcases pair_eq_iff.1 h2 with ⟨rfl, rfl⟩ | ⟨rfl, rfl⟩
            · exact Or.inl haE
            · exact Or.inr haE
        · intro a ha
          have := (d6 a).1 ha
          refine (d7 a).2 ⟨h.und_sub this.1, fun h1 => this.2 ⟨h1.1, by rw [h1.2]; simp⟩⟩
        · intro a ha hau
          have h1 := (d7 a).1 ha
          by_cases h2 : a ∈ und
          · obtain ⟨f, hf, c1, c2, c3⟩ := g3 a h2
            cases f with
            | prot => exact ⟨hf, c1 rfl⟩
            | undec => exact absurd ((d6 a).2 ⟨h2, fun h3 => h3.2 hf⟩) hau
            | unprot => exact absurd ⟨h2, hf⟩ h1.2
          · rw [g2 a h2]; exact h.dec a h1.1 h2
        · intro a ha
          have := (d6 a).1 ha
          by_contra h1
          exact this.2 ⟨this.1, h1⟩
        · intro i j hij; exact h.und_new i j ((d6 _).1 hij).1
        · intro i j hij hn k hk
          have hk' := ((d7 _).1 hk).1
          by_cases h1 : (i, j) ∈ P.arcs
          · have h2 : (i, j) ∈ und ∧ fl' (i, j) = some .unprot := by
              by_contra h2; exact hn ((d7 _).2 ⟨h1, h2⟩)
            by_contra h3
            exact hun _ h2.1 h2.2 (Or.inl ⟨k, hk', (h.nadj _ _).2 h3, trivial⟩)
          · exact h.chain i j hij h1 k hk'
      have hlt : und'.card < und.card := by
        apply Finset.card_lt_card
        obtain ⟨a, ha, hw⟩ := h.progress hE (Finset.nonempty_iff_ne_empty.2 hund)
        refine Finset.ssubset_iff_subset_ne.2 ⟨fun b hb => ((d6 b).1 hb).1, ?_⟩
        rintro rfl
        obtain ⟨f, hf, _, _, c3⟩ := g3 a ha
        have := ((d6 a).1 ha).2
        cases f with
        | prot => exact this ⟨ha, by rw [hf]; simp⟩
        | undec => exact hw (c3 rfl)
        | unprot => exact this ⟨ha, by rw [hf]; simp⟩
      obtain ⟨R, fl'', r1, r2, r3, r4⟩ := ih (n + 1) Q und' fl' (by omega) hQ
      refine ⟨R, fl'', ?_, r2, r3.trans d4, r4.trans d5⟩
      rw [unprotectLoop, if_neg hund, g1]
      simp only [Except.bind, d1, Except.map]
      exact r1

end Model.PDAG
