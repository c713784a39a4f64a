import Verif.Proof.CPDAG
import Verif.Model.Complete
import Verif.Spec.Extension

/-! # `to_complete_pdag` -/

namespace Model.PDAG

open Spec
universe u
variable {α : Type u} [DecidableEq α]

theorem mem_bothWays {P : PDAG α} (hP : P.Consistent) {i j : α} : (i, j) ∈ P.bothWays ↔ {i, j} ∈ P.edges := by
  unfold bothWays
  simp only [Finset.mem_biUnion, Finset.mem_offDiag]
  constructor
  · rintro ⟨e, he, hi, hj, hne⟩
    obtain ⟨a, b, hab, rfl⟩ := hP.edge_pair e he
    have : ({i, j} : Finset α) = {a, b} := by
      rw [pair_eq_iff]
      simp only [Finset.mem_insert, Finset.mem_singleton] at hi hj
      rcases hi with rfl | rfl <;> rcases hj with rfl | rfl <;> simp_all
    rw [this]; exact he
  · intro h; exact ⟨_, h, by simp, by simp, hP.edge_ne h⟩

/-- `Q` arises from `P` by directing some of its edges. -/
structure Grown (P Q : PDAG α) : Prop where
  cons : Q.Consistent
  simp : Q.Simple
  nodes : Q.nodes = P.nodes
  known : Q.known = P.known
  arcs : P.arcs ⊆ Q.arcs
  edges : Q.edges ⊆ P.edges
  adj : ∀ i j, Q.hasEdgeOrArc i j = P.hasEdgeOrArc i j

theorem Grown.refl {P : PDAG α} (hP : P.Consistent) (hS : P.Simple) : Grown P P :=
  ⟨hP, hS, rfl, rfl, fun _ h => h, fun _ h => h, fun _ _ => rfl⟩

theorem Grown.trans {P Q R : PDAG α} (h : Grown P Q) (h' : Grown Q R) : Grown P R :=
  ⟨h'.cons, h'.simp, h'.nodes.trans h.nodes, h'.known.trans h.known, fun _ ha => h'.arcs (h.arcs ha),
    fun _ ha => h.edges (h'.edges ha), fun i j => (h'.adj i j).trans (h.adj i j)⟩

theorem adj_true {P : PDAG α} {i j : α} :
    P.hasEdgeOrArc i j = true ↔ (i, j) ∈ P.arcs ∨ (j, i) ∈ P.arcs ∨ {i, j} ∈ P.edges := by
  unfold hasEdgeOrArc hasEdge
  simp only [Bool.or_eq_true, decide_eq_true_eq, or_assoc]

/-- One replacement. -/
theorem replace_grown {P : PDAG α} (hP : P.Consistent) (hS : P.Simple) {i j : α} (h : {i, j} ∈ P.edges) :
    ∃ Q, P.replaceEdgeWithArc i j = .ok Q ∧ Grown P Q ∧ Q.arcs = insert (i, j) P.arcs ∧
      Q.edges = P.edges.erase {i, j} := by
  obtain ⟨Q, h1, h2, h3, h4, h5, h6, h7⟩ := replaceEdgeWithArc_spec hP hS h
  refine ⟨Q, h1, ⟨h2, h3, h4, h5, ?_, ?_, ?_⟩, h6, h7⟩
  · rw [h6]; exact Finset.subset_insert _ _
  · rw [h7]; exact Finset.erase_subset _ _
  · intro a b
    rw [Bool.eq_iff_iff, adj_true, adj_true, h6, h7, Finset.mem_insert, Finset.mem_insert, Finset.mem_erase]
    simp only [Prod.mk.injEq]
    by_cases hab : ({a, b} : Finset α) = {i, j}
    · rw [hab]
      rcases pair_eq_iff.1 hab with ⟨rfl, rfl⟩ | ⟨rfl, rfl⟩ <;> simp [h]
    · have h8 : ¬ (a = i ∧ b = j) := fun h' => hab (pair_eq_iff.2 (Or.inl h'))
      have h9 : ¬ (b = i ∧ a = j) := fun h' => hab (pair_eq_iff.2 (Or.inr ⟨h'.2, h'.1⟩))
      simp only [h8, h9, false_or, ne_eq, hab, not_false_eq_true, true_and]

/-- The second inner loop. -/
theorem orientRound_spec (fl : Flags α) : ∀ (l : List (α × α)) (P : PDAG α) (und : Finset (α × α)), l.Nodup →
    P.Consistent → P.Simple → (∀ i j, (i, j) ∈ und ↔ {i, j} ∈ P.edges) →
    (∀ a ∈ l, (a ∈ und ∨ (a.2, a.1) ∈ P.arcs) ∧ ∃ g, fl a = some g) →
    ∃ Q und', orientRound fl l (P, und) = .ok (Q, und') ∧ Grown P Q ∧ (∀ i j, (i, j) ∈ und' ↔ {i, j} ∈ Q.edges) ∧
      und' ⊆ und ∧ (∀ a ∈ Q.arcs, a ∈ P.arcs ∨ (a ∈ l ∧ fl a = some .prot)) ∧
      (∀ a ∈ l, fl a = some .prot → a ∉ und') := by
  intro l
  induction l with
  | nil =>
    intro P und _ hP hS hu _
    exact ⟨P, und, rfl, .refl hP hS, hu, fun _ h => h, fun a h => Or.inl h, by simp⟩
  | cons a l ih =>
    intro P und hnd hP hS hu hl
    rw [List.nodup_cons] at hnd
    obtain ⟨ha, g, hg⟩ := hl a List.mem_cons_self
    have hl' := fun b (hb : b ∈ l) => hl b (List.mem_cons_of_mem _ hb)
    by_cases hp : g = .prot
    · subst hp
      by_cases hr : (a.2, a.1) ∈ P.arcs
      · obtain ⟨Q, und', h1, h2, h3, h4, h5, h6⟩ := ih P und hnd.2 hP hS hu hl'
        refine ⟨Q, und', ?_, h2, h3, h4, ?_, ?_⟩
        · unfold orientRound; rw [look_some hg]; simp [hasArc, hr, h1]
        · intro b hb
          rcases h5 b hb with h | ⟨h, h'⟩
          · exact Or.inl h
          · exact Or.inr ⟨List.mem_cons_of_mem _ h, h'⟩
        · intro b hb hf
          rcases List.mem_cons.1 hb with rfl | hb
          · intro hbu
            have hbe := (h3 b.1 b.2).1 hbu
            exact h2.simp.no_edge _ _ (h2.arcs hr) (by rw [Finset.pair_comm]; exact hbe)
          · exact h6 b hb hf
      · have hau : a ∈ und := ha.resolve_right hr
        have hae : {a.1, a.2} ∈ P.edges := (hu _ _).1 hau
        have hne := hP.edge_ne hae
        have hra : (a.2, a.1) ∈ und := (hu _ _).2 (by rw [Finset.pair_comm]; exact hae)
        have hra' : (a.2, a.1) ≠ a := by intro h; exact hne (congrArg Prod.snd h)
        obtain ⟨P', hr', hG, hA, hE⟩ := replace_grown hP hS hae
        obtain ⟨Q, und', h1, h2, h3, h4, h5, h6⟩ := ih P' ((und.erase a).erase (a.2, a.1)) hnd.2 hG.cons hG.simp
          (by
            intro i j
            rw [Finset.mem_erase, Finset.mem_erase, hu, hE, Finset.mem_erase, ne_eq, ne_eq, ne_eq, pair_eq_iff]
            simp only [Prod.ext_iff]
            tauto)
          (by
            intro b hb
            refine ⟨?_, (hl' b hb).2⟩
            have hba : b ≠ a := by rintro rfl; exact hnd.1 hb
            rcases (hl' b hb).1 with h | h
            · by_cases hbr : b = (a.2, a.1)
              · right; subst hbr; rw [hA]; exact Finset.mem_insert_self _ _
              · left; simp [hba, hbr, h]
            · right; exact hG.arcs h)
        refine ⟨Q, und', ?_, hG.trans h2, h3, ?_, ?_, ?_⟩
        · unfold orientRound; rw [look_some hg]
          simp [hasArc, hr, remove_ok hau, bind, Except.bind, hr', h1,
            remove_ok (Finset.mem_erase.2 ⟨hra', hra⟩)]
        · intro b hb; exact Finset.mem_of_mem_erase (Finset.mem_of_mem_erase (h4 hb))
        · intro b hb
          rcases h5 b hb with h | ⟨h, h'⟩
          · rw [hA] at h
            rcases Finset.mem_insert.1 h with h | h
            · right; subst h; exact ⟨List.mem_cons_self, hg⟩
            · exact Or.inl h
          · exact Or.inr ⟨List.mem_cons_of_mem _ h, h'⟩
        · intro b hb hf
          rcases List.mem_cons.1 hb with rfl | hb
          · intro hbu
            have := h4 hbu
            simp at this
          · exact h6 b hb hf
    · obtain ⟨Q, und', h1, h2, h3, h4, h5, h6⟩ := ih P und hnd.2 hP hS hu hl'
      refine ⟨Q, und', ?_, h2, h3, h4, ?_, ?_⟩
      · unfold orientRound; rw [look_some hg]; simp [hp, h1]
      · intro b hb
        rcases h5 b hb with h | ⟨h, h'⟩
        · exact Or.inl h
        · exact Or.inr ⟨List.mem_cons_of_mem _ h, h'⟩
      · intro b hb hf
        rcases List.mem_cons.1 hb with rfl | hb
        · rw [hg] at hf; exact absurd (Option.some.inj hf) hp
        · exact h6 b hb hf

/-- The loop, for any property `S` of arcs that the configurations pass on. -/
theorem completeLoop_spec (o : OrientOracle α) (P₀ : PDAG α) (S : α × α → Prop)
    (hcl : ∀ P, Grown P₀ P → (∀ a ∈ P.arcs, S a) → ∀ i j, {i, j} ∈ P.edges → Cfg S P i j → S (i, j)) :
    ∀ (c n : ℕ) (P : PDAG α) (und : Finset (α × α)) (fl : Flags α), und.card ≤ c → Grown P₀ P →
      (∀ a ∈ P.arcs, S a) → (∀ i j, (i, j) ∈ und ↔ {i, j} ∈ P.edges) → (∀ a ∈ P.arcs, fl a = some .prot) →
      (∀ a ∈ und, ∃ g, fl a = some g) →
    ∃ Q, (completeLoop o n P und fl).run = some (.ok Q) ∧ Grown P₀ Q ∧ (∀ a ∈ Q.arcs, S a) ∧
      ∀ i j, {i, j} ∈ Q.edges → ¬ Cfg (fun _ => True) Q i j := by
  intro c
  induction c with
  | zero =>
    intro n P und fl hc hG hS hu _ _
    have h0 : und = ∅ := Finset.card_eq_zero.1 (by omega)
    subst h0
    refine ⟨P, ?_, hG, hS, fun i j he => absurd ((hu i j).2 he) (by simp)⟩
    rw [completeLoop]; simp
  | succ c ih =>
    intro n P und fl hc hG hS hu hfa hfu
    by_cases h0 : und = ∅
    · subst h0
      refine ⟨P, ?_, hG, hS, fun i j he => absurd ((hu i j).2 he) (by simp)⟩
      rw [completeLoop]; simp
    · have hdisj : ∀ a ∈ P.arcs, a ∉ und := fun a ha hau => hG.simp.no_edge _ _ ha ((hu _ _).1 hau)
      obtain ⟨fl', g1, g2, g3⟩ := flagRound_spec true o n hG.cons und S (fl := fl)
        (by
          rintro a (ha | ha)
          · exact ⟨_, hfa a ha⟩
          · exact hfu a ha)
        (fun a ha _ => hS a ha) (fun a ha _ => hfa a ha)
        (fun a ha hcfg => hcl P hG hS a.1 a.2 ((hu _ _).1 ha) hcfg)
      have g4 : ∀ a ∈ und, ∃ f, fl' a = some f ∧ (f = .prot ∧ S a ∨ f = .unprot ∧ ¬ Cfg (fun _ => True) P a.1 a.2) := by
        intro a ha
        obtain ⟨f, hf, c1, c2, c3⟩ := g3 a ha
        refine ⟨f, hf, ?_⟩
        cases f with
        | prot => exact Or.inl ⟨rfl, c1 rfl⟩
        | unprot => exact Or.inr ⟨rfl, c2 rfl⟩
        | undec =>
          rcases c3 rfl with ⟨k, h1, h2⟩ | ⟨k, h1, h2, h3⟩ | ⟨k, l, h1, h2, h3, h4, h5⟩
          · exact absurd h2 (hdisj _ h1)
          · rcases h3 with h3 | h3
            · exact absurd h3 (hdisj _ h1)
            · exact absurd h3 (hdisj _ h2)
          · exact absurd h5 (hdisj _ h2)
      by_cases hall : ∀ a ∈ und, fl' a = some .unprot
      · refine ⟨P, ?_, hG, hS, ?_⟩
        · rw [completeLoop, if_neg h0, g1]; simp only [if_pos hall]; rfl
        · intro i j he
          have ha := (hu i j).2 he
          obtain ⟨f, hf, h | h⟩ := g4 _ ha
          · rw [hall _ ha] at hf; rw [h.1] at hf; simp at hf
          · exact h.2
      · obtain ⟨Q, und', d1, d2, d3, d4, d5, d6⟩ := orientRound_spec fl' (o.arcs.ord (n, true) und) P und
          (o.arcs.nodup _ _) hG.cons hG.simp hu (by
            intro a ha
            rw [o.arcs.mem_iff] at ha
            obtain ⟨f, hf, _⟩ := g4 a ha
            exact ⟨Or.inl ha, f, hf⟩)
        simp only [o.arcs.mem_iff] at d5 d6
        have hlt : und'.card < und.card := by
          push Not at hall
          obtain ⟨a, ha, hn⟩ := hall
          obtain ⟨f, hf, h | h⟩ := g4 a ha
          · refine Finset.card_lt_card (Finset.ssubset_iff_subset_ne.2 ⟨d4, ?_⟩)
            rintro rfl
            exact d6 a ha (by rw [hf, h.1]) ha
          · exact absurd (by rw [hf, h.1]) hn
        obtain ⟨R, r1, r2, r3, r4⟩ := ih (n + 1) Q und' fl' (by omega) (hG.trans d2)
          (by
            intro a ha
            rcases d5 a ha with h | ⟨h, h'⟩
            · exact hS a h
            · obtain ⟨f, hf, h1 | h1⟩ := g4 a h
              · exact h1.2
              · rw [hf, h1.1] at h'; simp at h')
          d3
          (by
            intro a ha
            rcases d5 a ha with h | ⟨h, h'⟩
            · rw [g2 a (hdisj a h)]; exact hfa a h
            · exact h')
          (by
            intro a ha
            obtain ⟨f, hf, _⟩ := g4 a (d4 ha)
            exact ⟨f, hf⟩)
        refine ⟨R, ?_, r2, r3, r4⟩
        rw [completeLoop, if_neg h0, g1]
        simp only [if_neg hall, d1]
        exact r1

theorem toCompletePdag_spec (o : OrientOracle α) {P : PDAG α} (hP : P.Consistent) (hSi : P.Simple) (S : α × α → Prop)
    (hS : ∀ a ∈ P.arcs, S a)
    (hcl : ∀ Q, Grown P Q → (∀ a ∈ Q.arcs, S a) → ∀ i j, {i, j} ∈ Q.edges → Cfg S Q i j → S (i, j)) :
    ∃ Q, (P.toCompletePdag o).run = some (.ok Q) ∧ Grown P Q ∧ (∀ a ∈ Q.arcs, S a) ∧
      ∀ i j, {i, j} ∈ Q.edges → ¬ Cfg (fun _ => True) Q i j := by
  have hd : ∀ a ∈ P.arcs, a ∉ P.bothWays := by
    rintro ⟨i, j⟩ ha hb
    exact hSi.no_edge _ _ ha ((mem_bothWays hP).1 hb)
  refine completeLoop_spec o P S hcl _ 0 P P.bothWays _ le_rfl (.refl hP hSi) hS (fun i j => mem_bothWays hP) ?_ ?_
  · intro a ha; simp [hd a ha, ha]
  · intro a ha; exact ⟨_, if_pos ha⟩

/-- The arcs and edges as relations. -/
abbrev Arc (P : PDAG α) (i j : α) : Prop := (i, j) ∈ P.arcs
abbrev Edge (P : PDAG α) (i j : α) : Prop := {i, j} ∈ P.edges

theorem adj_iff {P : PDAG α} {i j : α} : P.hasEdgeOrArc i j = true ↔ Adj P.Arc i j ∨ P.Edge i j := by
  rw [adj_true]; unfold Adj; rw [or_assoc]

/-- Every extension contains the arcs obtained from the configurations. -/
theorem cfg_extends {P Q : PDAG α} (hG : Grown P Q) {F : α → α → Prop} (hF : Extends P.Arc P.Edge F)
    (hQ : ∀ a ∈ Q.arcs, F a.1 a.2) {i j : α} (he : {i, j} ∈ Q.edges) (hc : Cfg (fun _ => True) Q i j) : F i j := by
  have hadj : ∀ a b, Q.hasEdgeOrArc a b = true ↔ Adj F a b := fun a b => by rw [hG.adj, adj_iff, hF.adj]
  have hnadj : ∀ a b, Q.hasEdgeOrArc a b = false ↔ ¬ Adj F a b := fun a b => by rw [← hadj, Bool.not_eq_true]
  have hij : Adj F i j := (hadj _ _).1 (adj_true.2 (Or.inr (Or.inr he)))
  have hnar : ∀ x y, {x, y} ∈ Q.edges → ∀ c, ¬ VStruct F x y c := by
    intro x y he' c hv
    exact hG.simp.no_edge _ _ (hG.arcs (hF.vstr _ _ _ hv).1) he'
  have he' : {j, i} ∈ Q.edges := by rw [Finset.pair_comm]; exact he
  rcases hij with hij | hji
  · exact hij
  · exfalso
    rcases hc with ⟨k, h1, h2, _⟩ | ⟨k, h1, h2, _, _⟩ | ⟨k, l, hkl, hk, hl, ⟨c1, c2, c3⟩, _, _⟩
    · have hkj : k ≠ j := by rintro rfl; exact hG.simp.no_edge _ _ h1 he'
      exact hnar _ _ he' k ⟨hkj.symm, hji, hQ _ h1, fun h => (hnadj _ _).1 h2 h.symm⟩
    · exact hF.acyclic i (.tail (.tail (.single (hQ _ h1)) (hQ _ h2)) hji)
    · have hki : ∀ x, (x, j) ∈ Q.arcs → {i, x} ∈ Q.edges → F x i := by
        intro x hx hix
        rcases (hadj _ _).1 (adj_true.2 (Or.inr (Or.inr hix))) with h | h
        · exact absurd (.tail (.tail (.single h) (hQ _ hx)) hji) (hF.acyclic i)
        · exact h
      exact hnar k i (by rw [Finset.pair_comm]; exact c1) l
        ⟨hkl, hki k hk c1, hki l hl c2, (hnadj _ _).1 c3⟩

/-- If the given arcs lie between the v-structure and base arcs and their closure, completion yields the closure. -/
theorem complete_shows {G : DAG α} (hG : G.Valid) {B : α → α → Prop} (o : OrientOracle α) {P : PDAG α}
    (hP : P.Consistent) (hSi : P.Simple) (hn : P.nodes = G.nodes)
    (hadj : ∀ i j, P.hasEdgeOrArc i j = true ↔ Adj G.E i j) (hsub : ∀ i j, (i, j) ∈ P.arcs → Meek G.E B i j)
    (hv : ∀ i j l, VStruct G.E i j l → (i, j) ∈ P.arcs) (hb : ∀ i j, G.E i j → B i j → (i, j) ∈ P.arcs) :
    ∃ Q, (P.toCompletePdag o).run = some (.ok Q) ∧ Shows G B Q := by
  have hE := hG.acyclic
  obtain ⟨Q, q1, q2, q3, q4⟩ := toCompletePdag_spec o hP hSi (fun a => Meek G.E B a.1 a.2) (fun a ha => hsub _ _ ha) (by
    intro Q hQ hS i j he hc
    have hadjQ : ∀ a b, Q.hasEdgeOrArc a b = true ↔ Adj G.E a b := fun a b => by rw [hQ.adj, hadj]
    have hnadj : ∀ a b, Q.hasEdgeOrArc a b = false ↔ ¬ Adj G.E a b := fun a b => by rw [← hadjQ, Bool.not_eq_true]
    have hnar : ∀ x y, {x, y} ∈ Q.edges → ∀ c, ¬ VStruct G.E x y c := fun x y he' c hv' =>
      hQ.simp.no_edge _ _ (hQ.arcs (hv _ _ _ hv')) he'
    have he' : {j, i} ∈ Q.edges := by rw [Finset.pair_comm]; exact he
    have hF : G.E i j := by
      rcases (hadjQ i j).1 (adj_true.2 (Or.inr (Or.inr he))) with hij | hji
      · exact hij
      · exfalso
        rcases hc with ⟨k, h1, h2, _⟩ | ⟨k, h1, h2, _, _⟩ | ⟨k, l, hkl, hk, hl, ⟨c1, c2, c3⟩, _, _⟩
        · have hkj : k ≠ j := by rintro rfl; exact hQ.simp.no_edge _ _ h1 he'
          exact hnar _ _ he' k ⟨hkj.symm, hji, (hS _ h1).sub, fun h => (hnadj _ _).1 h2 h.symm⟩
        · exact hE i (.tail (.tail (.single (hS _ h1).sub) (hS _ h2).sub) hji)
        · have hki : ∀ x, (x, j) ∈ Q.arcs → {i, x} ∈ Q.edges → G.E x i := by
            intro x hx hix
            rcases (hadjQ _ _).1 (adj_true.2 (Or.inr (Or.inr hix))) with h | h
            · exact absurd (.tail (.tail (.single h) (hS _ hx).sub) hji) (hE i)
            · exact h
          exact hnar k i (by rw [Finset.pair_comm]; exact c1) l
            ⟨hkl, hki k hk c1, hki l hl c2, (hnadj _ _).1 c3⟩
    rcases hc with ⟨k, h1, h2, h3⟩ | ⟨k, h1, h2, h3, h4⟩ | ⟨k, l, hkl, hk, hl, ⟨c1, c2, c3⟩, h3, h4⟩
    · refine .r1 h3 ?_ ((hnadj _ _).1 h2) hF
      rintro rfl; exact hQ.simp.no_edge _ _ h1 he'
    · exact .r2 h3 h4 hF
    · refine .r3 ⟨hkl, h3.sub, h4.sub, (hnadj _ _).1 c3⟩ ((hadjQ _ _).1 (adj_true.2 (Or.inr (Or.inr c1))))
        ((hadjQ _ _).1 (adj_true.2 (Or.inr (Or.inr c2)))) ?_ hF
      rintro ⟨h5, h6⟩
      exact hnar k i (by rw [Finset.pair_comm]; exact c1) l ⟨hkl, h5, h6, (hnadj _ _).1 c3⟩)
  have hadjQ : ∀ a b, Q.hasEdgeOrArc a b = true ↔ Adj G.E a b := fun a b => by rw [q2.adj, hadj]
  have hnadj : ∀ a b, Q.hasEdgeOrArc a b = false ↔ ¬ Adj G.E a b := fun a b => by rw [← hadjQ, Bool.not_eq_true]
  -- an arc of the graph is either shown or an edge
  have hcov : ∀ {a b}, G.E a b → (a, b) ∉ Q.arcs → {a, b} ∈ Q.edges := by
    intro a b h hn'
    rcases adj_true.1 ((hadjQ a b).2 (Or.inl h)) with h1 | h1 | h1
    · exact absurd h1 hn'
    · exact absurd (q3 _ h1).sub (hE.asymm h)
    · exact h1
  have harcs : ∀ i j, Meek G.E B i j → (i, j) ∈ Q.arcs := by
    intro i j hm
    induction hm with
    | base h1 h2 => exact q2.arcs (hb _ _ h1 h2)
    | vstr h => exact q2.arcs (hv _ _ _ h)
    | r1 _ hne hna hij ih =>
      by_contra hc
      exact q4 _ _ (hcov hij hc) (Or.inl ⟨_, ih, (hnadj _ _).2 hna, trivial⟩)
    | r2 _ _ hij ih1 ih2 =>
      by_contra hc
      exact q4 _ _ (hcov hij hc) (Or.inr (Or.inl ⟨_, ih1, ih2, trivial, trivial⟩))
    | r3 hvs hik hil hnot hij =>
      rename_i i j k l
      by_contra hc
      have hno := q4 _ _ (hcov hij hc)
      have hkj := q2.arcs (hv _ _ _ hvs)
      have hlj := q2.arcs (hv _ _ _ (vstruct_symm hvs))
      have side : ∀ x, (x, j) ∈ Q.arcs → Adj G.E i x → (x, i) ∈ Q.arcs ∨ {i, x} ∈ Q.edges := by
        intro x hx hix
        rcases adj_true.1 ((hadjQ i x).2 hix) with h | h | h
        · exact absurd (Or.inr (Or.inl ⟨x, h, hx, trivial, trivial⟩)) hno
        · exact Or.inl h
        · exact Or.inr h
      rcases side k hkj hik with h1 | h1 <;> rcases side l hlj hil with h2 | h2
      · exact hnot ⟨(q3 _ h1).sub, (q3 _ h2).sub⟩
      · exact q4 _ _ h2 (Or.inl ⟨k, h1, (hnadj _ _).2 hvs.2.2.2, trivial⟩)
      · exact q4 _ _ h1 (Or.inl ⟨l, h2, (hnadj _ _).2 (fun h => hvs.2.2.2 (adj_symm h)), trivial⟩)
      · exact hno (Or.inr (Or.inr ⟨k, l, hvs.1, hkj, hlj, ⟨h1, h2, (hnadj _ _).2 hvs.2.2.2⟩, trivial, trivial⟩))
  refine ⟨Q, q1, q2.cons, q2.simp, q2.nodes.trans hn, fun i j => ⟨fun h => q3 _ h, harcs i j⟩, ?_⟩
  intro i j
  constructor
  · intro h
    refine undec_of_adj ((hadjQ i j).1 (adj_true.2 (Or.inr (Or.inr h)))) (fun hm => ?_) fun hm => ?_
    · exact q2.simp.no_edge _ _ (harcs _ _ hm) h
    · exact q2.simp.no_edge _ _ (harcs _ _ hm) (by rw [Finset.pair_comm]; exact h)
  · rintro (⟨h, hm⟩ | ⟨h, hm⟩)
    · exact hcov h fun h' => hm (q3 _ h')
    · rw [Finset.pair_comm]; exact hcov h fun h' => hm (q3 _ h')

theorem shows_unique {G : DAG α} {B : α → α → Prop} {P Q : PDAG α} (hP : Shows G B P) (hQ : Shows G B Q) :
    P.nodes = Q.nodes ∧ P.arcs = Q.arcs ∧ P.edges = Q.edges := by
  refine ⟨hP.nodes.trans hQ.nodes.symm, ?_, ?_⟩
  · ext ⟨i, j⟩; rw [hP.arcs, hQ.arcs]
  · have key : ∀ {P Q : PDAG α}, Shows G B P → Shows G B Q → P.edges ⊆ Q.edges := by
      intro P Q hP hQ e he
      obtain ⟨i, j, _, rfl⟩ := hP.cons.edge_pair e he
      exact (hQ.edges i j).2 ((hP.edges i j).1 he)
    exact Finset.Subset.antisymm (key hP hQ) (key hQ hP)

end Model.PDAG

namespace Model.DAG

open Spec PDAG
universe u
variable {α : Type u} [DecidableEq α] {G : DAG α}

theorem cpdagNew_shows (hG : G.Valid) (oa oe : SetOrder Unit (α × α)) (o : OrientOracle α) :
    ∃ Q, (G.cpdagNew oa oe o).run = some (.ok Q) ∧ Shows G (fun _ _ => False) Q := by
  have hv : G.arcsInVstructures ⊆ G.arcs := by unfold arcsInVstructures; exact Finset.filter_subset _ _
  obtain ⟨h1, h2, h3, h4, h5⟩ := new_spec oa oe G.nodes G.arcsInVstructures (G.arcs \ G.arcsInVstructures) ∅ (by
    rintro ⟨i, j⟩ he h
    have := (Finset.mem_sdiff.1 he).1
    simp only at h; subst h
    exact hG.acyclic.irrefl this)
  have hE : ∀ {i j}, {i, j} ∈ (G.arcs \ G.arcsInVstructures).image (fun e => ({e.1, e.2} : Finset α)) ↔
      ((i, j) ∈ G.arcs ∧ (i, j) ∉ G.arcsInVstructures) ∨ ((j, i) ∈ G.arcs ∧ (j, i) ∉ G.arcsInVstructures) := by
    intro i j
    rw [Finset.mem_image]
    constructor
    · rintro ⟨a, ha, he⟩
      rw [Finset.mem_sdiff] at ha
      rcases pair_eq_iff.1 he with ⟨rfl, rfl⟩ | ⟨rfl, rfl⟩
      · exact Or.inl ha
      · exact Or.inr ha
    · rintro (h | h)
      · exact ⟨(i, j), Finset.mem_sdiff.2 h, rfl⟩
      · exact ⟨(j, i), Finset.mem_sdiff.2 h, Finset.pair_comm _ _⟩
  refine complete_shows hG o h1 ⟨?_, ?_⟩ ?_ ?_ ?_ ?_ ?_
  · intro i j hij hji
    rw [h2] at hij hji
    exact hG.acyclic.asymm (hv hij) (hv hji)
  · intro i j hij he
    rw [h2] at hij; rw [h3, hE] at he
    rcases he with he | he
    · exact he.2 hij
    · exact hG.acyclic.asymm (hv hij) he.1
  · ext v; rw [h5]
    constructor
    · rintro (h | ⟨a, ha, h⟩ | ⟨a, ha, h⟩)
      · exact h
      · rcases h with rfl | rfl
        · exact hG.fst_mem _ _ (hv ha)
        · exact hG.snd_mem _ _ (hv ha)
      · rcases h with rfl | rfl
        · exact hG.fst_mem _ _ (Finset.mem_sdiff.1 ha).1
        · exact hG.snd_mem _ _ (Finset.mem_sdiff.1 ha).1
    · exact Or.inl
  · intro i j
    rw [adj_true, h2, h3, hE]
    constructor
    · rintro (h | h | h | h)
      · exact Or.inl (hv h)
      · exact Or.inr (hv h)
      · exact Or.inl h.1
      · exact Or.inr h.1
    · have hij : ∀ {x y}, G.E x y ↔ (x, y) ∈ G.arcs := Iff.rfl
      unfold Adj; rw [hij, hij]; tauto
  · intro i j hij
    rw [h2, mem_arcsInVstructures hG] at hij
    obtain ⟨l, hl⟩ := hij
    exact .vstr hl
  · intro i j l hl
    rw [h2, mem_arcsInVstructures hG]; exact ⟨l, hl⟩
  · intro i j _ h; exact h.elim

theorem mem_incidentArcs (hG : G.Valid) {v : α} {a : α × α} :
    a ∈ G.incidentArcs v ↔ a ∈ G.arcs ∧ (a.1 = v ∨ a.2 = v) := by
  obtain ⟨i, j⟩ := a
  unfold incidentArcs
  simp only [Finset.mem_union, Finset.mem_image, hG.children_iff, hG.parents_iff, Prod.mk.injEq]
  constructor
  · rintro (⟨c, hc, rfl, rfl⟩ | ⟨c, hc, rfl, rfl⟩)
    · exact ⟨hc, Or.inl rfl⟩
    · exact ⟨hc, Or.inr rfl⟩
  · rintro ⟨h, rfl | rfl⟩
    · exact Or.inl ⟨j, h, rfl, rfl⟩
    · exact Or.inr ⟨i, h, rfl, rfl⟩

/-- The atomic targets. -/
theorem cutBy_atomic {I : Finset α} {i j : α} (hij : i ≠ j) :
    CutBy {S | ∃ v ∈ I, S = {v}} i j ↔ i ∈ I ∨ j ∈ I := by
  constructor
  · rintro ⟨_, ⟨v, hv, rfl⟩, h⟩
    by_cases hi : i = v
    · subst hi; exact Or.inl hv
    · by_cases hj : j = v
      · subst hj; exact Or.inr hv
      · exact absurd (by simp [hi, hj]) h
  · rintro (h | h)
    · exact ⟨{i}, ⟨i, h, rfl⟩, by simp [hij.symm]⟩
    · exact ⟨{j}, ⟨j, h, rfl⟩, by simp [hij]⟩

theorem pdagInterventionalCpdag_shows (hG : G.Valid) (oa oe : SetOrder Unit (α × α)) (up : Unpack α)
    (o : OrientOracle α) {P : PDAG α} (hP : Shows G (fun _ _ => False) P) (I : Finset α) :
    ∃ Q, (P.interventionalCpdag oa oe up o G I).run = some (.ok Q) ∧
      Shows G (CutBy {S | ∃ v ∈ I, S = {v}}) Q := by
  unfold PDAG.interventionalCpdag
  set cut := I.biUnion G.incidentArcs with hcut
  have mcut : ∀ {i j}, (i, j) ∈ cut ↔ (i, j) ∈ G.arcs ∧ (i ∈ I ∨ j ∈ I) := by
    intro i j
    rw [hcut, Finset.mem_biUnion]
    constructor
    · rintro ⟨v, hv, h⟩
      rw [mem_incidentArcs hG] at h
      rcases h with ⟨h, h' | h'⟩
      · simp only at h'; subst h'; exact ⟨h, Or.inl hv⟩
      · simp only at h'; subst h'; exact ⟨h, Or.inr hv⟩
    · rintro ⟨h, h' | h'⟩
      · exact ⟨i, h', (mem_incidentArcs hG).2 ⟨h, Or.inl rfl⟩⟩
      · exact ⟨j, h', (mem_incidentArcs hG).2 ⟨h, Or.inr rfl⟩⟩
  set es := P.edges \ cut.image fun a => ({a.1, a.2} : Finset α) with hes
  have mes : ∀ {i j}, {i, j} ∈ es ↔ {i, j} ∈ P.edges ∧ (i, j) ∉ cut ∧ (j, i) ∉ cut := by
    intro i j
    rw [hes, Finset.mem_sdiff, Finset.mem_image]
    refine and_congr_right fun _ => ?_
    constructor
    · intro h; exact ⟨fun h' => h ⟨_, h', rfl⟩, fun h' => h ⟨_, h', Finset.pair_comm _ _⟩⟩
    · rintro ⟨h1, h2⟩ ⟨a, ha, he⟩
      rcases pair_eq_iff.1 he with ⟨rfl, rfl⟩ | ⟨rfl, rfl⟩
      · exact h1 ha
      · exact h2 ha
  have hup : ∀ e ∈ es, (up.fn e).1 ≠ (up.fn e).2 ∧ ({(up.fn e).1, (up.fn e).2} : Finset α) = e := by
    intro e he
    obtain ⟨i, j, hij, rfl⟩ := hP.cons.edge_pair e (Finset.mem_sdiff.1 he).1
    rcases up.spec i j hij with h | h <;> rw [h]
    · exact ⟨hij, rfl⟩
    · exact ⟨hij.symm, Finset.pair_comm _ _⟩
  obtain ⟨h1, h2, h3, h4, h5⟩ := new_spec oa oe P.nodes (P.arcs ∪ cut) (es.image up.fn) ∅ (by
    intro e he
    obtain ⟨s, hs, rfl⟩ := Finset.mem_image.1 he
    exact (hup s hs).1)
  have h3' : (PDAG.new oa oe P.nodes (P.arcs ∪ cut) (es.image up.fn) ∅).edges = es := by
    rw [h3]; ext e
    simp only [Finset.mem_image, exists_exists_and_eq_and]
    constructor
    · rintro ⟨s, hs, rfl⟩; rw [(hup s hs).2]; exact hs
    · intro he; exact ⟨e, he, (hup e he).2⟩
  have hsubE : ∀ {i j}, (i, j) ∈ P.arcs ∪ cut → G.E i j := by
    intro i j h
    rcases Finset.mem_union.1 h with h | h
    · exact ((hP.arcs _ _).1 h).sub
    · exact (mcut.1 h).1
  refine complete_shows hG o h1 ⟨?_, ?_⟩ ?_ ?_ ?_ ?_ ?_
  · intro i j hij hji
    rw [h2] at hij hji
    exact hG.acyclic.asymm (hsubE hij) (hsubE hji)
  · intro i j hij he
    rw [h2] at hij; rw [h3', mes] at he
    rcases Finset.mem_union.1 hij with h | h
    · exact hP.simp.no_edge _ _ h he.1
    · exact he.2.1 h
  · ext v; rw [h5]
    constructor
    · rintro (h | ⟨a, ha, h⟩ | ⟨a, ha, h⟩)
      · rw [← hP.nodes]; exact h
      · rcases h with rfl | rfl
        · exact hG.fst_mem _ _ (hsubE ha)
        · exact hG.snd_mem _ _ (hsubE ha)
      · obtain ⟨s, hs, rfl⟩ := Finset.mem_image.1 ha
        rw [← hP.nodes]
        refine hP.cons.edge_mem s (Finset.mem_sdiff.1 hs).1 ?_
        rw [← (hup s hs).2]; rcases h with rfl | rfl <;> simp
    · rw [hP.nodes]; exact Or.inl
  · intro i j
    rw [adj_true, h2, h3', mes, Finset.mem_union, Finset.mem_union, hP.edges]
    constructor
    · rintro ((h | h) | (h | h) | h)
      · exact Or.inl ((hP.arcs _ _).1 h).sub
      · exact Or.inl (mcut.1 h).1
      · exact Or.inr ((hP.arcs _ _).1 h).sub
      · exact Or.inr (mcut.1 h).1
      · exact h.1.adj
    · intro h
      by_cases c1 : (i, j) ∈ cut
      · exact Or.inl (Or.inr c1)
      by_cases c2 : (j, i) ∈ cut
      · exact Or.inr (Or.inl (Or.inr c2))
      by_cases m1 : Meek G.E (fun _ _ => False) i j
      · exact Or.inl (Or.inl ((hP.arcs _ _).2 m1))
      by_cases m2 : Meek G.E (fun _ _ => False) j i
      · exact Or.inr (Or.inl (Or.inl ((hP.arcs _ _).2 m2)))
      exact Or.inr (Or.inr ⟨undec_of_adj h m1 m2, c1, c2⟩)
  · intro i j hij
    rw [h2] at hij
    rcases Finset.mem_union.1 hij with h | h
    · have := (hP.arcs _ _).1 h
      clear hij h
      induction this with
      | base _ h => exact h.elim
      | vstr h => exact .vstr h
      | r1 _ a b c ih => exact .r1 ih a b c
      | r2 _ _ c ih1 ih2 => exact .r2 ih1 ih2 c
      | r3 a b c d e => exact .r3 a b c d e
    · have h' := mcut.1 h
      have hne : i ≠ j := by rintro rfl; exact hG.acyclic.irrefl h'.1
      exact .base h'.1 ((cutBy_atomic hne).2 h'.2)
  · intro i j l hl
    rw [h2]
    exact Finset.mem_union_left _ ((hP.arcs _ _).2 (.vstr hl))
  · intro i j hij hc
    have hne : i ≠ j := by rintro rfl; exact hG.acyclic.irrefl hij
    rw [h2]
    exact Finset.mem_union_right _ (mcut.2 ⟨hij, (cutBy_atomic hne).1 hc⟩)

end Model.DAG
