import Verif.Spec.Hidden
import Verif.Proof.MSep

/-! # Separation in the graph with hidden causes and selection -/

namespace Spec

set_option linter.unusedSectionVars false

open Relation

variable {α : Type} [DecidableEq α] {M : Mixed α} {C : Set α}

theorem pair_iff {a b c d : α} : ({a, b} : Finset α) = {c, d} ↔ (a = c ∧ b = d) ∨ (a = d ∧ b = c) := Model.UG.pair_eq

theorem hidden_inl {u v : α} : Hidden M (.inl u) (.inl v) ↔ M.dir u v :=
  ⟨fun h => by cases h with | dir k => exact k, .dir⟩

theorem hidden_cause {e : Finset α} {t : α ⊕ Finset α} : Hidden M (.inr e) t ↔ ∃ u v, M.bi u v ∧ e = {u, v} ∧ t = .inl v :=
  ⟨fun h => by
    generalize hs : (Sum.inr e : α ⊕ Finset α) = s at h
    rcases h with k | k | k
    · cases hs
    · exact ⟨_, _, k, Sum.inr.inj hs, rfl⟩
    · exact absurd hs (by simp),
  fun ⟨_, _, h, e, e'⟩ => e ▸ e' ▸ .cause h⟩

theorem hidden_effect {e : Finset α} {t : α ⊕ Finset α} : Hidden M t (.inr e) ↔ ∃ u v, M.un u v ∧ e = {u, v} ∧ t = .inl u :=
  ⟨fun h => by
    generalize hs : (Sum.inr e : α ⊕ Finset α) = s at h
    rcases h with k | k | k
    · cases hs
    · cases hs
    · exact ⟨_, _, k, Sum.inr.inj hs, rfl⟩, fun ⟨_, _, h, e, e'⟩ => e ▸ e' ▸ .effect h⟩

/-- What is used about the mixed graph. -/
structure Mixed.Canon (M : Mixed α) : Prop where
  anc : M.Ancestral
  bi_symm : ∀ u v, M.bi u v → M.bi v u
  un_symm : ∀ u v, M.un u v → M.un v u

/-- What is conditioned on in the graph with hidden nodes. -/
def Given (M : Mixed α) (C : Set α) : Set (α ⊕ Finset α) := Sum.inl '' C ∪ Selected M

theorem given_inl {v : α} : .inl v ∈ Given M C ↔ v ∈ C := by simp [Given, Selected]

namespace Mixed.Canon

variable (hM : M.Canon)
include hM

theorem no_back {u v : α} (h : M.dir u v) : ¬ M.Into v u := by
  rintro (k | k)
  · exact hM.anc.acyclic u ((TransGen.single h).tail k)
  · exact hM.anc.almost _ _ (hM.bi_symm _ _ k) (.single h)

theorem no_un {u v w : α} (h : M.Into u v) : ¬ M.un v w := fun k => hM.anc.tails v w u k h

/-- The pair of a bidirected edge is not that of an undirected edge. -/
theorem pairs_ne {u v a b : α} (h : M.bi u v) (k : M.un a b) : ({u, v} : Finset α) ≠ {a, b} := by
  intro e
  rcases pair_iff.1 e with ⟨rfl, rfl⟩ | ⟨rfl, rfl⟩
  · exact hM.no_un (Or.inr h) (hM.un_symm _ _ k)
  · exact hM.no_un (Or.inr h) k

theorem hidden_path {s t : α ⊕ Finset α} (h : Path (Hidden M) s t) : ∀ v, s = .inl v → (∃ w, t = .inl w ∧ Path M.dir v w) ∨
    ∃ a b, t = .inr {a, b} ∧ M.un a b ∧ Path0 M.dir v a := by
  induction h with
  | single h =>
    rintro v rfl
    cases h with
    | dir k => exact Or.inl ⟨_, rfl, .single k⟩
    | effect k => exact Or.inr ⟨_, _, rfl, k, .refl⟩
  | tail _ h ih =>
    intro v hv
    rcases ih v hv with ⟨w, rfl, hw⟩ | ⟨a, b, rfl, h1, -⟩
    · cases h with
      | dir k => exact Or.inl ⟨_, rfl, hw.tail k⟩
      | effect k => exact Or.inr ⟨_, _, rfl, k, hw.to_reflTransGen⟩
    · obtain ⟨x, y, k, e, -⟩ := hidden_cause.1 h
      exact absurd e.symm (hM.pairs_ne k h1)

theorem hidden_acyclic : Acyclic (Hidden M) := by
  have inl : ∀ v, ¬ Path (Hidden M) (.inl v) (.inl v) := by
    intro v h
    rcases hM.hidden_path h v rfl with ⟨w, e, k⟩ | ⟨a, b, e, -⟩
    · cases e; exact hM.anc.acyclic v k
    · cases e
  rintro (v | e) h
  · exact inl v h
  · obtain ⟨s, h1, h2⟩ := TransGen.head'_iff.1 h
    obtain ⟨u, v, -, -, rfl⟩ := hidden_cause.1 h1
    exact inl v (TransGen.tail' h2 h1)

theorem an_inl {v : α} (hv : ∀ w, ¬ M.un v w) : (Spec.mg (Hidden M)).An (Given M C) (.inl v) ↔ M.mg.An C v := by
  constructor
  · rintro ⟨c, hc, h⟩
    rcases reflTransGen_iff_eq_or_transGen.1 h with rfl | h
    · exact ⟨v, given_inl.1 hc, .refl⟩
    · rcases hM.hidden_path h v rfl with ⟨w, rfl, k⟩ | ⟨a, b, rfl, k1, k2⟩
      · exact ⟨w, given_inl.1 hc, k.to_reflTransGen⟩
      · rcases ReflTransGen.cases_tail k2 with rfl | ⟨u, -, k⟩
        · exact absurd k1 (hv b)
        · exact absurd k1 (hM.no_un (Or.inl k))
  · rintro ⟨c, hc, h⟩
    refine ⟨.inl c, given_inl.2 hc, ?_⟩
    exact path0_map Sum.inl (fun _ _ k => Hidden.dir k) h

/-- What is known about a state of the ball in the graph with hidden nodes; `R` are the states that can be reached in the mixed graph. -/
def Seen (M : Mixed α) (C : Set α) (R : α × Bool → Prop) : (α ⊕ Finset α) × Bool → Prop
  | (.inl v, false) => R (v, false)
  | (.inl v, true) => (R (v, true) ∨ R (v, false) ∧ v ∉ C) ∧ ∃ u, M.Into u v
  | (.inr e, false) => ∃ u w, M.bi u w ∧ e = {u, w} ∧ (R (u, false) ∧ u ∉ C ∨ R (u, true) ∧ M.mg.An C u)
  | (.inr e, true) => ∃ u w, M.un u w ∧ e = {u, w} ∧ R (u, false) ∧ u ∉ C

omit hM in
theorem flag_eq {b : Bool} {p : Prop} (h : b = true ↔ p) : (p → b = true) ∧ (¬ p → b = false) :=
  ⟨h.2, fun k => by cases b; rfl; exact absurd (h.1 rfl) k⟩

theorem seen_step {R : α × Bool → Prop} (hR : ∀ s t, R s → M.mg.Move C s t → R t) {s t : (α ⊕ Finset α) × Bool} (hs : Seen M C R s)
    (h : (Spec.mg (Hidden M)).Move (Given M C) s t) : Seen M C R t := by
  obtain ⟨hadj, hflag, ho1, ho2⟩ := h
  obtain ⟨f1, f2⟩ := flag_eq hflag
  obtain ⟨t, d⟩ := t
  obtain ⟨s, d'⟩ := s
  dsimp only [Spec.mg_adj, Spec.mg_into] at hadj f1 f2 ho1 ho2
  -- moves of the mixed graph that follow arrows
  have down : ∀ {v w d}, M.dir v w → R (v, d) → v ∉ C → R (w, true) := fun {v w d} k r hc =>
    hR _ _ r ⟨Or.inl k, by simp [mg, Into, k], fun q => absurd q.2 (hM.no_back k), fun _ => hc⟩
  have up : ∀ {v w d}, M.dir w v → R (v, d) → (d = true → M.mg.An C v) → (d = false → v ∉ C) → R (w, false) := fun {v w d} k r h1 h2 =>
    hR _ _ r ⟨Or.inr (Or.inl k), by simpa [mg] using hM.no_back k, fun q => h1 q.1, fun q => h2 (by
      cases d; rfl; exact absurd ⟨rfl, Or.inl k⟩ q)⟩
  rcases s with v | e
  · cases d' with
    | false =>
      have hc : v ∉ C := fun hc => ho2 (by simp) (given_inl.2 hc)
      have r : R (v, false) := hs
      rcases t with w | e
      · rcases hadj with k | k <;> rw [hidden_inl] at k
        · rw [f1 (.dir k)]
          exact ⟨Or.inl (down k r hc), v, Or.inl k⟩
        · rw [f2 fun q => hM.no_back k (Or.inl (hidden_inl.1 q))]
          exact up k r (by simp) fun _ => hc
      · rcases hadj with k | k
        · rw [f1 k]
          obtain ⟨u, w, kk, rfl, e⟩ := hidden_effect.1 k
          cases e
          exact ⟨v, w, kk, rfl, r, hc⟩
        · obtain ⟨u, w, kk, rfl, e⟩ := hidden_cause.1 k
          cases e
          rw [f2 fun q => by
            obtain ⟨a, b, q, e, -⟩ := hidden_effect.1 q
            exact hM.pairs_ne kk q e]
          exact ⟨v, u, hM.bi_symm _ _ kk, Finset.pair_comm _ _, Or.inl ⟨r, hc⟩⟩
    | true =>
      obtain ⟨r, u, hu⟩ := hs
      have hun : ∀ w, ¬ M.un v w := fun w => hM.no_un hu
      rcases t with w | e
      · rcases hadj with k | k <;> rw [hidden_inl] at k
        · have hc : v ∉ C := fun hc => ho2 (fun q => hM.no_back k (Or.inl (hidden_inl.1 q.2))) (given_inl.2 hc)
          rw [f1 (.dir k)]
          exact ⟨Or.inl (r.elim (fun r => down k r hc) fun r => down k r.1 hc), v, Or.inl k⟩
        · have ha := (hM.an_inl hun).1 (ho1 ⟨rfl, .dir k⟩)
          rw [f2 fun q => hM.no_back k (Or.inl (hidden_inl.1 q))]
          exact r.elim (fun r => up k r (fun _ => ha) (by simp)) fun r => up k r.1 (by simp) fun _ => r.2
      · rcases hadj with k | k
        · obtain ⟨a, b, kk, rfl, e⟩ := hidden_effect.1 k
          cases e
          exact absurd kk (hun b)
        · have ha := (hM.an_inl hun).1 (ho1 ⟨rfl, k⟩)
          obtain ⟨a, w, kk, rfl, e⟩ := hidden_cause.1 k
          cases e
          rw [f2 fun q => by
            obtain ⟨x, y, q, e, -⟩ := hidden_effect.1 q
            exact hM.pairs_ne kk q e]
          exact ⟨v, a, hM.bi_symm _ _ kk, Finset.pair_comm _ _, r.elim (fun r => Or.inr ⟨r, ha⟩) Or.inl⟩
  · cases d' with
    | false =>
      obtain ⟨u, w, hb, rfl, r⟩ := hs
      rcases hadj with k | k
      · rw [f1 k]
        obtain ⟨a, x, kk, e, rfl⟩ := hidden_cause.1 k
        rcases pair_iff.1 e with ⟨rfl, rfl⟩ | ⟨rfl, rfl⟩
        · refine ⟨Or.inl ?_, u, Or.inr hb⟩
          rcases r with ⟨r, hc⟩ | ⟨r, ha⟩
          · exact hR _ _ r ⟨Or.inr (Or.inr (Or.inl hb)), by simp [mg, Into, hb], by simp, fun _ => hc⟩
          · exact hR _ _ r ⟨Or.inr (Or.inr (Or.inl hb)), by simp [mg, Into, hb], fun _ => ha,
              fun q => absurd ⟨rfl, Or.inr (hM.bi_symm _ _ hb)⟩ q⟩
        · exact ⟨r.elim Or.inr fun r => Or.inl r.1, w, Or.inr (hM.bi_symm _ _ hb)⟩
      · obtain ⟨a, x, kk, e, rfl⟩ := hidden_effect.1 k
        exact absurd e (hM.pairs_ne hb kk)
    | true =>
      obtain ⟨u, w, hu, rfl, r, hc⟩ := hs
      rcases hadj with k | k
      · obtain ⟨a, x, kk, e, rfl⟩ := hidden_cause.1 k
        exact absurd e.symm (hM.pairs_ne kk hu)
      · rw [f2 fun q => hM.hidden_acyclic _ ((TransGen.single q).tail k)]
        obtain ⟨a, x, kk, e, rfl⟩ := hidden_effect.1 k
        rcases pair_iff.1 e with ⟨rfl, rfl⟩ | ⟨rfl, rfl⟩
        · exact r
        · exact hR _ _ r ⟨Or.inr (Or.inr (Or.inr hu)), by simpa [mg] using fun q => hM.no_un q (hM.un_symm _ _ hu), by simp, fun _ => hc⟩

/-- A move in the mixed graph is one move or two moves in the graph with hidden nodes. -/
theorem move_hidden {s t : α × Bool} (hs : s.2 = true → ∃ u, M.Into u s.1) (h : M.mg.Move C s t) :
    ReflTransGen ((Spec.mg (Hidden M)).Move (Given M C)) (.inl s.1, s.2) (.inl t.1, t.2) := by
  obtain ⟨v, d⟩ := s
  obtain ⟨w, d'⟩ := t
  obtain ⟨hadj, hflag, ho1, ho2⟩ := h
  obtain ⟨f1, f2⟩ := flag_eq hflag
  dsimp only [mg] at hadj f1 f2 ho1 ho2 hs ⊢
  have an : d = true → (M.mg.An C v → (Spec.mg (Hidden M)).An (Given M C) (.inl v)) := fun hd =>
    (hM.an_inl fun x => by obtain ⟨u, hu⟩ := hs hd; exact hM.no_un hu).2
  rcases hadj with k | k | k | k
  · rw [f1 (Or.inl k)]
    exact .single ⟨Or.inl (.dir k), by simp [Hidden.dir k], fun q => absurd (Or.inl (hidden_inl.1 q.2)) (hM.no_back k),
      fun _ q => ho2 (fun q => hM.no_back k q.2) (given_inl.1 q)⟩
  · rw [f2 (hM.no_back k)]
    refine .single ⟨Or.inr (.dir k), by simpa using fun q => hM.no_back k (Or.inl (hidden_inl.1 q)), fun q => an q.1 (ho1 ⟨q.1, Or.inl k⟩),
      fun q q' => ho2 (fun r => q ⟨r.1, .dir k⟩) (given_inl.1 q')⟩
  · have kb : Hidden M (.inr {w, v}) (.inl v) := .cause (hM.bi_symm _ _ k)
    have kc : Hidden M (.inr {w, v}) (.inl w) := by rw [Finset.pair_comm]; exact .cause k
    rw [f1 (Or.inr k)]
    refine (ReflTransGen.single (b := (.inr {w, v}, false)) ⟨Or.inr kb, by simpa using fun q => hM.hidden_acyclic _ ((TransGen.single q).tail kb),
      fun q => an q.1 (ho1 ⟨q.1, Or.inr (hM.bi_symm _ _ k)⟩), fun q q' => ho2 (fun r => q ⟨r.1, kb⟩) (given_inl.1 q')⟩).tail
        ⟨Or.inl kc, by simpa using kc, by simp, fun _ q => ?_⟩
    rcases q with ⟨x, -, e⟩ | ⟨a, b, q, e⟩
    · cases e
    · exact hM.pairs_ne (hM.bi_symm _ _ k) q (Sum.inr.inj e)
  · have kb : Hidden M (.inl v) (.inr {v, w}) := .effect k
    have kc : Hidden M (.inl w) (.inr {v, w}) := by rw [Finset.pair_comm]; exact .effect (hM.un_symm _ _ k)
    obtain rfl : d = false := by
      cases d; rfl
      obtain ⟨u, hu⟩ := hs rfl
      exact absurd k (hM.no_un hu)
    rw [f2 fun q => hM.no_un q (hM.un_symm _ _ k)]
    refine (ReflTransGen.single (b := (.inr {v, w}, true)) ⟨Or.inl kb, by simpa using kb, by simp,
      fun _ q' => ho2 (by simp) (given_inl.1 q')⟩).tail ⟨Or.inr kc, by simpa using fun q => hM.hidden_acyclic _ ((TransGen.single q).tail kc),
      fun _ => ⟨_, Or.inr ⟨v, w, k, rfl⟩, .refl⟩, fun q => absurd ⟨rfl, kc⟩ q⟩

/-- The graph with hidden causes, given the selection, has the connections of the mixed graph. -/
theorem dconn_hidden {a b : α} (ha : a ∉ C) : DConn (Hidden M) (Given M C) (.inl a) (.inl b) ↔ ∃ l, M.mg.Walk C a b l := by
  rw [dconn_iff_moves (mt given_inl.1 ha)]
  constructor
  · rintro ⟨d, h⟩
    have : Seen M C (fun s => ReflTransGen (M.mg.Move C) (a, false) s) (.inl b, d) := by
      generalize (Sum.inl b, d) = t at h
      induction h with
      | refl => exact ReflTransGen.refl
      | tail _ k ih => exact hM.seen_step (fun s t r m => r.tail m) ih k
    cases d with
    | false => exact let ⟨l, h, _⟩ := MG.walk_of_moves this; ⟨l, h⟩
    | true =>
      rcases this.1 with h | h
      · exact let ⟨l, h, _⟩ := MG.walk_of_moves h; ⟨l, h⟩
      · exact let ⟨l, h, _⟩ := MG.walk_of_moves h.1; ⟨l, h⟩
  · rintro ⟨l, h⟩
    obtain ⟨d, h, -⟩ := MG.moves_of_walk ha l b h
    have key : ∀ t, ReflTransGen (M.mg.Move C) (a, false) t → (t.2 = true → ∃ u, M.Into u t.1) ∧
        ReflTransGen ((Spec.mg (Hidden M)).Move (Given M C)) (.inl a, false) (.inl t.1, t.2) := by
      intro t h
      induction h with
      | refl => exact ⟨by simp, .refl⟩
      | tail _ k ih => exact ⟨fun e => ⟨_, k.2.1.1 e⟩, ih.2.trans (hM.move_hidden ih.1 k)⟩
    exact ⟨d, (key _ h).2⟩

theorem dsep_hidden {A B : Set α} (hA : Disjoint A C) :
    DSep (Hidden M) (Sum.inl '' A) (Sum.inl '' B) (Sum.inl '' C ∪ Selected M) ↔ M.MSep A B C := by
  rw [dsep_iff, Mixed.msep_iff (Mixed.mg_ok hM.bi_symm hM.un_symm hM.anc.tails)]
  constructor
  · intro h a ha b hb k
    exact h _ ⟨a, ha, rfl⟩ _ ⟨b, hb, rfl⟩ ((hM.dconn_hidden (Set.disjoint_left.1 hA ha)).2 k)
  · rintro h _ ⟨a, ha, rfl⟩ _ ⟨b, hb, rfl⟩ k
    exact h a ha b hb ((hM.dconn_hidden (Set.disjoint_left.1 hA ha)).1 k)

end Mixed.Canon
end Spec
