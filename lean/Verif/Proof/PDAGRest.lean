import Verif.Model.PDAGRest
import Verif.Proof.LocalParents
import Verif.Proof.CoreUtils
import Verif.Proof.Moral

/-! # Removals, `assign_parents`, `to_complete_pdag_new` -/

namespace Model.PDAG

open Spec
universe u
variable {α : Type u} [DecidableEq α] {G : DAG α} {P Q : PDAG α}

theorem andThen_none (P : PDAG α) (f : PDAG α → Step α) : Step.andThen (P, none) f = f P := rfl
theorem andThen_some (P : PDAG α) (e : Exn α) (f : PDAG α → Step α) : Step.andThen (P, some e) f = (P, some e) := rfl

/-- The stateful version agrees with the one used by `to_complete_pdag`. -/
theorem orient_ok (hP : P.Consistent) {i j : α} (h : {i, j} ∈ P.edges) (hQ : P.replaceEdgeWithArc i j = .ok Q) :
    P.orient i j = (Q, none) := by
  have hne := hP.edge_ne h
  have hji : ({j, i} : Finset α) ∈ P.edges := by rw [Finset.pair_comm]; exact h
  have h2 : j ∈ P.undirected i := (hP.undirected_iff j i).2 hji
  have h3 : i ∈ P.undirected j := (hP.undirected_iff i j).2 h
  unfold replaceEdgeWithArc at hQ
  rw [remove_ok h, remove_ok h2] at hQ
  have h3' : i ∈ Function.update P.undirected i ((P.undirected i).erase j) j := by
    rw [Function.update_of_ne hne.symm]; exact h3
  simp only [bind, Except.bind] at hQ
  rw [remove_ok h3'] at hQ
  simp only [pure, Except.pure] at hQ
  injection hQ with hQ
  unfold orient delEdge delUnd
  rw [if_pos h]
  simp only [andThen_none]
  rw [if_pos h2]
  simp only [andThen_none]
  rw [if_pos h3', ← hQ]

theorem orient_absent {i j : α} (h : {i, j} ∉ P.edges) : P.orient i j = (P, some .key) := by
  unfold orient delEdge
  rw [if_neg h]
  rfl

/-- A sequence of orientations of distinct edges. -/
theorem orient_each (f : α → α × α) (hf : ∀ x y, ({(f x).1, (f x).2} : Finset α) = {(f y).1, (f y).2} → x = y) :
    ∀ (l : List α) {P : PDAG α}, P.Consistent → P.Simple → l.Nodup → (∀ x ∈ l, {(f x).1, (f x).2} ∈ P.edges) →
      ∃ Q, forEach (fun P x => P.orient (f x).1 (f x).2) l P = (Q, none) ∧ Grown P Q ∧
        (∀ a, a ∈ Q.arcs ↔ a ∈ P.arcs ∨ ∃ x ∈ l, a = f x) ∧
        (∀ e, e ∈ Q.edges ↔ e ∈ P.edges ∧ ∀ x ∈ l, e ≠ {(f x).1, (f x).2})
  | [], P, hP, hS, _, _ => ⟨P, rfl, .refl hP hS, by simp, by simp⟩
  | x :: l, P, hP, hS, hl, he => by
    rw [List.nodup_cons] at hl
    obtain ⟨R, r1, r2, r3, r4⟩ := replace_grown hP hS (he x (by simp))
    obtain ⟨Q, q1, q2, q3, q4⟩ := orient_each f hf l r2.cons r2.simp hl.2 (by
      intro y hy
      rw [r4, Finset.mem_erase]
      refine ⟨fun h => ?_, he y (by simp [hy])⟩
      have := hf _ _ h
      subst this
      exact hl.1 hy)
    refine ⟨Q, ?_, r2.trans q2, ?_, ?_⟩
    · rw [forEach, orient_ok hP (he x (by simp)) r1]; exact q1
    · intro a
      rw [q3, r3, Finset.mem_insert]
      simp only [List.mem_cons, exists_eq_or_imp]
      exact (by intros; tauto : ∀ p q r : Prop, (p ∨ q) ∨ r ↔ q ∨ p ∨ r) _ _ _
    · intro e
      rw [q4, r4, Finset.mem_erase]
      simp only [List.mem_cons, forall_eq_or_imp]
      tauto

/-- The two loops of `assign_parents`. -/
theorem orientAround_spec (o : SetOrder Bool α) (hP : P.Consistent) (hS : P.Simple) {v : α} {s : Finset α}
    (hs : ∀ p ∈ s, {p, v} ∈ P.edges) :
    ∃ Q, P.orientAround o v s = (Q, none) ∧ Grown P Q ∧
      (∀ i j, (i, j) ∈ Q.arcs ↔ (i, j) ∈ P.arcs ∨ (i ∈ s ∧ j = v) ∨ (i = v ∧ {j, v} ∈ P.edges ∧ j ∉ s)) ∧
      (∀ i j, {i, j} ∈ Q.edges ↔ {i, j} ∈ P.edges ∧ i ≠ v ∧ j ≠ v) := by
  have inj1 : ∀ x y : α, ({x, v} : Finset α) = {y, v} → x = y := by
    intro x y h
    rcases pair_eq_iff.1 h with h | ⟨h1, h2⟩
    · exact h.1
    · rw [h1, h2]
  have inj2 : ∀ x y : α, ({v, x} : Finset α) = {v, y} → x = y := by
    intro x y h; rw [Finset.pair_comm v x, Finset.pair_comm v y] at h; exact inj1 x y h
  obtain ⟨R, r1, r2, r3, r4⟩ := orient_each (fun p => (p, v)) inj1 (o.ord false s) hP hS (o.nodup _ _)
    (fun x hx => hs x ((o.mem_iff _ _ _).1 hx))
  have hund : ∀ c, c ∈ R.undirected v \ s ↔ {c, v} ∈ P.edges ∧ c ∉ s := by
    intro c
    rw [Finset.mem_sdiff, r2.cons.undirected_iff, r4]
    simp only [o.mem_iff]
    constructor
    · rintro ⟨h, h'⟩; exact ⟨h.1, h'⟩
    · rintro ⟨h, h'⟩
      exact ⟨⟨h, fun x hx hxe => h' (by rw [inj1 _ _ hxe]; exact hx)⟩, h'⟩
  obtain ⟨Q, q1, q2, q3, q4⟩ := orient_each (fun c => (v, c)) inj2 (o.ord true (R.undirected v \ s)) r2.cons r2.simp
    (o.nodup _ _) (by
      intro x hx
      rw [o.mem_iff, hund] at hx
      show ({v, x} : Finset α) ∈ R.edges
      rw [Finset.pair_comm, r4]
      refine ⟨hx.1, fun y hy hye => hx.2 ?_⟩
      rw [inj1 _ _ hye]; exact (o.mem_iff _ _ _).1 hy)
  refine ⟨Q, ?_, r2.trans q2, ?_, ?_⟩
  · unfold orientAround
    rw [r1, andThen_none]
    exact q1
  · intro i j
    rw [q3, r3]
    simp only [o.mem_iff, hund, Prod.mk.injEq]
    constructor
    · rintro ((h | ⟨x, hx, rfl, rfl⟩) | ⟨x, hx, rfl, rfl⟩)
      · exact Or.inl h
      · exact Or.inr (Or.inl ⟨hx, rfl⟩)
      · exact Or.inr (Or.inr ⟨rfl, hx⟩)
    · rintro (h | ⟨h, rfl⟩ | ⟨rfl, h⟩)
      · exact Or.inl (Or.inl h)
      · exact Or.inl (Or.inr ⟨i, h, rfl, rfl⟩)
      · exact Or.inr ⟨j, h, rfl, rfl⟩
  · intro i j
    rw [q4, r4]
    simp only [o.mem_iff, hund]
    constructor
    · rintro ⟨⟨h, h1⟩, h2⟩
      have key : ∀ x, {x, v} ∈ P.edges → ({i, j} : Finset α) ≠ {x, v} := by
        intro x hx
        by_cases hxs : x ∈ s
        · exact h1 x hxs
        · rw [Finset.pair_comm x v]; exact h2 x ⟨hx, hxs⟩
      refine ⟨h, ?_, ?_⟩
      · rintro rfl
        exact key j (by rw [Finset.pair_comm]; exact h) (Finset.pair_comm _ _)
      · rintro rfl; exact key i h rfl
    · rintro ⟨h, hi, hj⟩
      have key : ∀ x, ({i, j} : Finset α) ≠ {x, v} := by
        intro x hx
        rcases pair_eq_iff.1 hx with h | h
        · exact hj h.2
        · exact hi h.1
      exact ⟨⟨h, fun x _ => key x⟩, fun x _ => by
        rw [Finset.pair_comm v x]; exact key x⟩

/-- A parent that is not an undirected neighbor. -/
theorem orient_key (v : α) : ∀ (l : List α) {P : PDAG α}, P.Consistent → P.Simple → l.Nodup →
    (∃ p ∈ l, {p, v} ∉ P.edges) → ∃ Q, forEach (fun P p => P.orient p v) l P = (Q, some .key) ∧ Q.Consistent ∧ Q.Simple
  | [], P, _, _, _, h => by obtain ⟨p, hp, _⟩ := h; simp at hp
  | x :: l, P, hP, hS, hl, h => by
    rw [List.nodup_cons] at hl
    by_cases hx : {x, v} ∈ P.edges
    · obtain ⟨R, r1, r2, r3, r4⟩ := replace_grown hP hS hx
      obtain ⟨p, hp, hpe⟩ := h
      rw [forEach, orient_ok hP hx r1, andThen_none]
      refine orient_key v l r2.cons r2.simp hl.2 ⟨p, ?_, ?_⟩
      · rcases List.mem_cons.1 hp with rfl | hp
        · exact absurd hx hpe
        · exact hp
      · rw [r4, Finset.mem_erase]; exact fun h' => hpe h'.2
    · rw [forEach, orient_absent hx, andThen_some]
      exact ⟨P, rfl, hP, hS⟩

/-- Members of the class that give `v` the undirected parents `s` agree at `v`. -/
theorem parentsAre_cut {T : Set (Set α)} {E F K : α → α → Prop} {arc edge : α → α → Prop}
    (hE : Acyclic E) (hR : Represents T E arc edge) {v : α} {s : Finset α} (hF : EquivalentCut T E F)
    (hFs : ParentsAre edge F v s) :
    EquivalentCut (insert {v} T) F K ↔ EquivalentCut T E K ∧ ParentsAre edge K v s := by
  have hsym : ∀ i, edge i v → edge v i := fun i h => (hR.edges _ _).2 ((hR.edges _ _).1 h).symm
  constructor
  · rintro ⟨h1, h2⟩
    have hK : EquivalentCut T E K := hF.trans ⟨h1, fun i j hc => h2 i j (by
      obtain ⟨I, hI, h⟩ := hc; exact ⟨I, Set.mem_insert_of_mem _ hI, h⟩)⟩
    refine ⟨hK, fun i => ?_⟩
    rw [hFs i]
    refine and_congr_right fun he => h2 i v ⟨{v}, Set.mem_insert _ _, ?_⟩
    have hne : i ≠ v := by
      rintro rfl
      obtain ⟨⟨L, hL, h⟩, _⟩ := (hR.edges _ _).1 he
      exact hL.1.1.irrefl h
    simp [hne]
  · rintro ⟨hK, hKs⟩
    have hFK : EquivalentCut T F K := (hF.symm hE).trans hK
    refine ⟨hFK.1, ?_⟩
    have hat : ∀ i, (F i v ↔ K i v) ∧ (F v i ↔ K v i) := by
      intro i
      have hadj : Adj F i v ↔ Adj K i v := hFK.1.2.skel i v
      by_cases he : edge i v
      · have h1 : F i v ↔ K i v := by
          have := (hFs i).symm.trans (hKs i)
          constructor
          · intro h; exact (this.1 ⟨he, h⟩).2
          · intro h; exact (this.2 ⟨he, h⟩).2
        refine ⟨h1, ?_⟩
        have fa : ∀ {L : α → α → Prop}, EquivalentCut T E L → (L v i ↔ ¬ L i v) := by
          intro L hL
          constructor
          · intro h h'; exact hL.1.1.asymm h h'
          · intro h
            obtain ⟨⟨M, hM, hm⟩, _⟩ := (hR.edges _ _).1 he
            have : Adj L i v := (hL.1.2.skel _ _).1 ((hM.1.2.skel _ _).2 (Or.inl hm))
            exact this.resolve_left h
        rw [fa hF, fa hK, h1]
      · have na : ∀ {L M : α → α → Prop}, EquivalentCut T E L → EquivalentCut T E M → L i v → M i v := by
          intro L M hL hM h
          rcases (hM.1.2.skel _ _).1 ((hL.1.2.skel _ _).2 (Or.inl h : Adj L i v)) with h' | h'
          · exact h'
          · exact absurd ((hR.edges _ _).2 ⟨⟨L, hL, h⟩, M, hM, h'⟩) he
        have na' : ∀ {L M : α → α → Prop}, EquivalentCut T E L → EquivalentCut T E M → L v i → M v i := by
          intro L M hL hM h
          rcases (hM.1.2.skel _ _).1 ((hL.1.2.skel _ _).2 (Or.inr h : Adj L i v)) with h' | h'
          · exact absurd ((hR.edges _ _).2 ⟨⟨M, hM, h'⟩, L, hL, h⟩) he
          · exact h'
        exact ⟨⟨na hF hK, na hK hF⟩, ⟨na' hF hK, na' hK hF⟩⟩
    rintro i j ⟨I, hI, h⟩
    rcases hI with rfl | hI
    · simp only [Set.mem_singleton_iff] at h
      by_cases hj : j = v
      · subst hj; exact (hat i).1
      · by_cases hi : i = v
        · subst hi; exact (hat j).2
        · simp [hi, hj] at h
    · exact hFK.2 i j ⟨I, hI, h⟩

open Classical in
/-- A member of the class as a graph object. -/
noncomputable def member (G : DAG α) (F : α → α → Prop) : DAG α where
  nodes := G.nodes
  arcs := (G.nodes ×ˢ G.nodes).filter fun a => F a.1 a.2
  neighbors v := G.nodes.filter fun w => F w v ∨ F v w
  parents v := G.nodes.filter fun w => F w v
  children v := G.nodes.filter fun w => F v w

theorem member_valid (hG : G.Valid) {F : α → α → Prop} (hF : Acyclic F) (hs : SameSkelV G.E F) :
    (member G F).Valid ∧ (member G F).E = F ∧ (member G F).nodes = G.nodes := by
  have hV : ∀ i j, F i j → i ∈ G.nodes ∧ j ∈ G.nodes := by
    intro i j h
    rcases (hs.skel i j).2 (Or.inl h) with h | h
    · exact valid_mem hG _ _ h
    · exact (valid_mem hG _ _ h).symm
  have hE : ∀ i j, (i, j) ∈ (member G F).arcs ↔ F i j := by
    intro i j
    unfold member
    simp only [Finset.mem_filter, Finset.mem_product]
    exact ⟨fun h => h.2, fun h => ⟨hV i j h, h⟩⟩
  have hE' : (member G F).E = F := by
    funext i j; exact propext (hE i j)
  refine ⟨{ parents_iff := ?_, children_iff := ?_, neighbors_iff := ?_, fst_mem := ?_, snd_mem := ?_, acyclic := ?_ },
    hE', rfl⟩
  · intro i j; rw [hE]; unfold member
    simp only [Finset.mem_filter]
    exact ⟨fun h => h.2, fun h => ⟨(hV i j h).1, h⟩⟩
  · intro i j; rw [hE]; unfold member
    simp only [Finset.mem_filter]
    exact ⟨fun h => h.2, fun h => ⟨(hV i j h).2, h⟩⟩
  · intro i j; rw [hE, hE]; unfold member
    simp only [Finset.mem_filter]
    exact ⟨fun h => h.2, fun h => ⟨h.elim (fun h => (hV _ _ h).1) fun h => (hV _ _ h).2, h⟩⟩
  · intro i j h; exact (hV i j ((hE i j).1 h)).1
  · intro i j h; exact (hV i j ((hE i j).1 h)).2
  · rw [hE']; exact hF

theorem assignParents_shows (hG : G.Valid) {T : Set (Set α)} (hP : P.Consistent) (hS : P.Simple) (hn : P.nodes = G.nodes)
    (hR : Represents T G.E P.Arc P.Edge) (o : SetOrder Bool α) (oc : OrientOracle α) {v : α} {s : Finset α}
    {F : α → α → Prop} (hF : EquivalentCut T G.E F) (hFs : ParentsAre P.Edge F v s) :
    ∃ Q, (P.assignParents o oc v s).run = some (.ok Q) ∧ Shows (member G F) (CutBy (insert {v} T)) Q := by
  obtain ⟨hv, hE, hnodes⟩ := member_valid hG hF.1.1 hF.1.2
  obtain ⟨R, r1, r2, r3, r4⟩ := orientAround_spec o hP hS (v := v) (s := s) (fun p hp => ((hFs p).1 hp).1)
  have hrun : P.assignParents o oc v s = R.toCompletePdag oc := by
    unfold assignParents; rw [r1]
  have hsh := represents_shows hG hP hS hn hR
  have harc : ∀ {i j}, (i, j) ∈ P.arcs → F i j := fun {i j} h => (hR.arcs i j).1 h F hF
  have hcut : ∀ {i j}, i ≠ j → (i = v ∨ j = v) → CutBy (insert {v} T) i j := by
    intro i j hne h
    refine ⟨{v}, Set.mem_insert _ _, ?_⟩
    rcases h with rfl | rfl
    · simp [hne.symm]
    · simp [hne]
  have hnew : ∀ {i j}, (i ∈ s ∧ j = v) ∨ (i = v ∧ {j, v} ∈ P.edges ∧ j ∉ s) → F i j ∧ (i = v ∨ j = v) := by
    rintro i j (⟨h, rfl⟩ | ⟨rfl, h, h'⟩)
    · exact ⟨((hFs i).1 h).2, Or.inr rfl⟩
    · refine ⟨?_, Or.inl rfl⟩
      have hno : ¬ F j i := fun hf => h' ((hFs j).2 ⟨h, hf⟩)
      obtain ⟨⟨L, hL, hl⟩, _⟩ := (hR.edges j i).1 h
      exact ((hF.1.2.skel j i).1 ((hL.1.2.skel j i).2 (Or.inl hl))).resolve_left hno
  have hskel : ∀ i j, P.hasEdgeOrArc i j = true ↔ Adj G.E i j := by
    intro i j
    rw [adj_true, hsh.arcs, hsh.arcs, hsh.edges]
    constructor
    · rintro (h | h | h)
      · exact Or.inl h.sub
      · exact Or.inr h.sub
      · exact h.adj
    · intro h
      by_cases h1 : Meek G.E (CutBy T) i j
      · exact Or.inl h1
      · by_cases h2 : Meek G.E (CutBy T) j i
        · exact Or.inr (Or.inl h2)
        · exact Or.inr (Or.inr (undec_of_adj h h1 h2))
  rw [hrun]
  refine complete_shows hv oc r2.cons r2.simp (r2.nodes.trans hn) ?_ ?_ ?_ ?_
  · intro i j
    rw [r2.adj, hskel, hE]
    exact hF.1.2.skel i j
  · intro i j hij
    rcases (r3 i j).1 hij with h | h
    · rw [meek_iff hv.acyclic (cutBy_cotrans _) (valid_mem hv), hE]
      intro K hK hKs hKc
      exact (hR.arcs i j).1 h K ((parentsAre_cut hG.acyclic hR hF hFs).1 ⟨⟨hK, hKs⟩, hKc⟩).1
    · have := hnew h
      have hne : i ≠ j := by rintro rfl; exact hF.1.1.irrefl this.1
      exact .base (by rw [hE]; exact this.1) (hcut hne this.2)
  · intro i j l hl
    rw [hE] at hl
    refine (r3 i j).2 (Or.inl ((hsh.arcs _ _).2 (.vstr ((hF.1.2.vstr _ _ _).2 hl))))
  · intro i j hij hc
    rw [hE] at hij
    rw [r3]
    by_cases hm : (i, j) ∈ P.arcs
    · exact Or.inl hm
    have hnm : (j, i) ∉ P.arcs := fun h => hF.1.1.asymm hij (harc h)
    have he : {i, j} ∈ P.edges := by
      rcases adj_true.1 ((hskel i j).2 ((hF.1.2.skel i j).2 (Or.inl hij))) with h | h | h
      · exact absurd h hm
      · exact absurd h hnm
      · exact h
    obtain ⟨I, hI, h⟩ := hc
    rcases hI with rfl | hI
    · simp only [Set.mem_singleton_iff] at h
      by_cases hj : j = v
      · subst hj; exact Or.inr (Or.inl ⟨(hFs i).2 ⟨he, hij⟩, rfl⟩)
      · have hi : i = v := by by_contra hi; simp [hi, hj] at h
        subst hi
        refine Or.inr (Or.inr ⟨rfl, by rw [Finset.pair_comm]; exact he, fun hjs => ?_⟩)
        exact hF.1.1.asymm hij ((hFs j).1 hjs).2
    · refine absurd ((hsh.arcs i j).2 (.base ((hF.2 i j ⟨I, hI, h⟩).2 hij) ⟨I, hI, h⟩)) hm

/-! ## Removals -/

theorem removeEdge_spec (hP : P.Consistent) (hS : P.Simple) (ign : Bool) {i j : α} (h : {i, j} ∈ P.edges) :
    ∃ Q, P.removeEdge ign i j = (Q, none) ∧ Q.Consistent ∧ Q.Simple ∧ Q.nodes = P.nodes ∧ Q.known = P.known ∧
      Q.arcs = P.arcs ∧ Q.edges = P.edges.erase {i, j} := by
  have hne := hP.edge_ne h
  have hji : ({j, i} : Finset α) ∈ P.edges := by rw [Finset.pair_comm]; exact h
  have hu1 : j ∈ P.undirected i := (hP.undirected_iff j i).2 hji
  have hu2 : i ∈ P.undirected j := (hP.undirected_iff i j).2 h
  have hn1 : j ∈ P.neighbors i := (hP.neighbors_iff j i).2 (Or.inr (Or.inr hji))
  have hn2 : i ∈ P.neighbors j := (hP.neighbors_iff i j).2 (Or.inr (Or.inr h))
  have hn2' : i ∈ Function.update P.neighbors i ((P.neighbors i).erase j) j := by
    rw [Function.update_of_ne hne.symm]; exact hn2
  have hu2' : i ∈ Function.update P.undirected i ((P.undirected i).erase j) j := by
    rw [Function.update_of_ne hne.symm]; exact hu2
  have hno : ∀ {a b : α}, ({a, b} : Finset α) = {i, j} → (a, b) ∉ P.arcs := fun he ha => hS.no_edge _ _ ha (he ▸ h)
  set Q : PDAG α :=
    { P with
      edges := P.edges.erase {i, j}
      neighbors := Function.update (Function.update P.neighbors i ((P.neighbors i).erase j)) j
        ((Function.update P.neighbors i ((P.neighbors i).erase j) j).erase i)
      undirected := Function.update (Function.update P.undirected i ((P.undirected i).erase j)) j
        ((Function.update P.undirected i ((P.undirected i).erase j) j).erase i) } with hQ
  refine ⟨Q, ?_, ?_, ?_, rfl, rfl, rfl, rfl⟩
  · unfold removeEdge delEdge delNbr delUnd
    rw [if_pos h, andThen_none, if_pos hn1, andThen_none, if_pos hn2', andThen_none, if_pos hu1, andThen_none,
      if_pos hu2']
    unfold guard
    cases ign <;> rfl
  · have hsw : ∀ (d : α → Finset α) (a b : α), a ∈ Function.update (Function.update d i ((d i).erase j)) j
        ((Function.update d i ((d i).erase j) j).erase i) b ↔ a ∈ d b ∧ ({a, b} : Finset α) ≠ {i, j} := by
      intro d a b
      rw [Ne, pair_eq_iff, Function.update_of_ne hne.symm]
      by_cases hb : b = j
      · subst hb
        rw [Function.update_self, Finset.mem_erase]
        constructor
        · rintro ⟨h1, h2⟩; exact ⟨h2, by rintro (h | h); exacts [h1 h.1, hne h.2.symm]⟩
        · rintro ⟨h1, h2⟩; exact ⟨fun h => h2 (Or.inl ⟨h, rfl⟩), h1⟩
      · rw [Function.update_of_ne hb]
        by_cases hbi : b = i
        · subst hbi
          rw [Function.update_self, Finset.mem_erase]
          constructor
          · rintro ⟨h1, h2⟩; exact ⟨h2, by rintro (h | h); exacts [hne h.2, h1 h.1]⟩
          · rintro ⟨h1, h2⟩; exact ⟨fun h => h2 (Or.inr ⟨h, rfl⟩), h1⟩
        · rw [Function.update_of_ne hbi]
          exact ⟨fun h => ⟨h, by rintro (h | h); exacts [hb h.2, hbi h.2]⟩, fun h => h.1⟩
    refine ⟨hP.parents_iff, hP.children_iff, ?_, ?_, ?_, hP.arc_mem, ?_⟩
    · intro a b
      rw [hQ]
      show a ∈ Function.update (Function.update P.undirected i ((P.undirected i).erase j)) j _ b ↔ _ ∈ P.edges.erase _
      rw [hsw, hP.undirected_iff, Finset.mem_erase, and_comm]
    · intro a b
      rw [hQ]
      show a ∈ Function.update (Function.update P.neighbors i ((P.neighbors i).erase j)) j _ b ↔
        (a, b) ∈ P.arcs ∨ (b, a) ∈ P.arcs ∨ _ ∈ P.edges.erase _
      rw [hsw, hP.neighbors_iff, Finset.mem_erase]
      constructor
      · rintro ⟨h1 | h1 | h1, h2⟩
        · exact Or.inl h1
        · exact Or.inr (Or.inl h1)
        · exact Or.inr (Or.inr ⟨h2, h1⟩)
      · rintro (h1 | h1 | h1)
        · exact ⟨Or.inl h1, fun he => hno he h1⟩
        · exact ⟨Or.inr (Or.inl h1), fun he => hno (by rw [Finset.pair_comm]; exact he) h1⟩
        · exact ⟨Or.inr (Or.inr h1.2), h1.1⟩
    · intro e he; exact hP.edge_pair e (Finset.mem_of_mem_erase he)
    · intro e he; exact hP.edge_mem e (Finset.mem_of_mem_erase he)
  · exact ⟨hS.one_arc, fun a b hab he => hS.no_edge a b hab (Finset.mem_of_mem_erase he)⟩

theorem removeEdge_absent (ign : Bool) {i j : α} (h : {i, j} ∉ P.edges) :
    P.removeEdge ign i j = (P, if ign then none else some .key) := by
  unfold removeEdge delEdge
  rw [if_neg h]
  simp only [andThen_some]
  unfold guard
  cases ign <;> rfl

theorem removeArc_spec (hP : P.Consistent) (hS : P.Simple) (ign : Bool) {i j : α} (h : (i, j) ∈ P.arcs) :
    ∃ Q, P.removeArc ign i j = (Q, none) ∧ Q.Consistent ∧ Q.Simple ∧ Q.nodes = P.nodes ∧ Q.known = P.known ∧
      Q.arcs = P.arcs.erase (i, j) ∧ Q.edges = P.edges := by
  have hne : i ≠ j := by rintro rfl; exact hS.one_arc _ _ h h
  have hc : j ∈ P.children i := (hP.children_iff i j).2 h
  have hp : i ∈ P.parents j := (hP.parents_iff i j).2 h
  have hn1 : j ∈ P.neighbors i := (hP.neighbors_iff j i).2 (Or.inr (Or.inl h))
  have hn2 : i ∈ P.neighbors j := (hP.neighbors_iff i j).2 (Or.inl h)
  have hn2' : i ∈ Function.update P.neighbors i ((P.neighbors i).erase j) j := by
    rw [Function.update_of_ne hne.symm]; exact hn2
  set Q : PDAG α :=
    { P with
      arcs := P.arcs.erase (i, j)
      children := Function.update P.children i ((P.children i).erase j)
      parents := Function.update P.parents j ((P.parents j).erase i)
      neighbors := Function.update (Function.update P.neighbors i ((P.neighbors i).erase j)) j
        ((Function.update P.neighbors i ((P.neighbors i).erase j) j).erase i) } with hQ
  refine ⟨Q, ?_, ?_, ?_, rfl, rfl, rfl, rfl⟩
  · unfold removeArc delArc delChild delParent delNbr
    rw [if_pos h, andThen_none, if_pos hc, andThen_none, if_pos hp, andThen_none, if_pos hn1, andThen_none,
      if_pos hn2']
    unfold guard
    cases ign <;> rfl
  · have hsw : ∀ (d : α → Finset α) (a b : α), a ∈ Function.update (Function.update d i ((d i).erase j)) j
        ((Function.update d i ((d i).erase j) j).erase i) b ↔ a ∈ d b ∧ ({a, b} : Finset α) ≠ {i, j} := by
      intro d a b
      rw [Ne, pair_eq_iff, Function.update_of_ne hne.symm]
      by_cases hb : b = j
      · subst hb
        rw [Function.update_self, Finset.mem_erase]
        constructor
        · rintro ⟨h1, h2⟩; exact ⟨h2, by rintro (h | h); exacts [h1 h.1, hne h.2.symm]⟩
        · rintro ⟨h1, h2⟩; exact ⟨fun h => h2 (Or.inl ⟨h, rfl⟩), h1⟩
      · rw [Function.update_of_ne hb]
        by_cases hbi : b = i
        · subst hbi
          rw [Function.update_self, Finset.mem_erase]
          constructor
          · rintro ⟨h1, h2⟩; exact ⟨h2, by rintro (h | h); exacts [hne h.2, h1 h.1]⟩
          · rintro ⟨h1, h2⟩; exact ⟨fun h => h2 (Or.inr ⟨h, rfl⟩), h1⟩
        · rw [Function.update_of_ne hbi]
          exact ⟨fun h => ⟨h, by rintro (h | h); exacts [hb h.2, hbi h.2]⟩, fun h => h.1⟩
    refine ⟨?_, ?_, hP.undirected_iff, ?_, hP.edge_pair, ?_, hP.edge_mem⟩
    · intro a b
      rw [hQ]
      show a ∈ Function.update P.parents j _ b ↔ _ ∈ P.arcs.erase _
      rw [Finset.mem_erase, Ne, Prod.mk.injEq, ← hP.parents_iff]
      by_cases hb : b = j
      · subst hb; simp
      · simp [hb]
    · intro a b
      rw [hQ]
      show b ∈ Function.update P.children i _ a ↔ _ ∈ P.arcs.erase _
      rw [Finset.mem_erase, Ne, Prod.mk.injEq, ← hP.children_iff]
      by_cases ha : a = i
      · subst ha; simp
      · simp [ha]
    · intro a b
      rw [hQ]
      show a ∈ Function.update (Function.update P.neighbors i ((P.neighbors i).erase j)) j _ b ↔
        (a, b) ∈ P.arcs.erase _ ∨ (b, a) ∈ P.arcs.erase _ ∨ _ ∈ P.edges
      rw [hsw, hP.neighbors_iff, Finset.mem_erase, Finset.mem_erase, Ne, Ne, Ne, Prod.mk.injEq, Prod.mk.injEq, pair_eq_iff]
      constructor
      · rintro ⟨h1 | h1 | h1, h2⟩
        · exact Or.inl ⟨fun h => h2 (Or.inl h), h1⟩
        · exact Or.inr (Or.inl ⟨fun h => h2 (Or.inr h.symm), h1⟩)
        · exact Or.inr (Or.inr h1)
      · rintro (h1 | h1 | h1)
        · refine ⟨Or.inl h1.2, ?_⟩
          rintro (h' | ⟨rfl, rfl⟩)
          · exact h1.1 h'
          · exact hS.one_arc _ _ h h1.2
        · refine ⟨Or.inr (Or.inl h1.2), ?_⟩
          rintro (⟨rfl, rfl⟩ | h')
          · exact hS.one_arc _ _ h h1.2
          · exact h1.1 h'.symm
        · refine ⟨Or.inr (Or.inr h1), ?_⟩
          rintro (⟨rfl, rfl⟩ | ⟨rfl, rfl⟩)
          · exact hS.no_edge _ _ h h1
          · exact hS.no_edge _ _ h (by rw [Finset.pair_comm]; exact h1)
    · intro a b hab; exact hP.arc_mem a b (Finset.mem_of_mem_erase hab)
  · exact ⟨fun a b hab hba => hS.one_arc a b (Finset.mem_of_mem_erase hab) (Finset.mem_of_mem_erase hba),
      fun a b hab => hS.no_edge a b (Finset.mem_of_mem_erase hab)⟩

theorem removeArc_absent (ign : Bool) {i j : α} (h : (i, j) ∉ P.arcs) :
    P.removeArc ign i j = (P, if ign then none else some .key) := by
  unfold removeArc delArc
  rw [if_neg h]
  simp only [andThen_some]
  unfold guard
  cases ign <;> rfl

theorem removeAll_spec : ∀ (l : List (α × α)) {P : PDAG α}, P.Consistent → P.Simple → l.Nodup → (∀ a ∈ l, a ∈ P.arcs) →
    ∃ Q, P.removeArcsFrom l = (Q, none) ∧ Q.Consistent ∧ Q.Simple ∧ Q.nodes = P.nodes ∧ Q.edges = P.edges ∧
      ∀ a, a ∈ Q.arcs ↔ a ∈ P.arcs ∧ a ∉ l
  | [], P, hP, hS, _, _ => ⟨P, rfl, hP, hS, rfl, rfl, by simp⟩
  | a :: l, P, hP, hS, hl, h => by
    rw [List.nodup_cons] at hl
    obtain ⟨R, r1, r2, r3, r4, _, r6, r7⟩ := removeArc_spec hP hS false (h a (by simp))
    obtain ⟨Q, q1, q2, q3, q4, q5, q6⟩ := removeAll_spec l r2 r3 hl.2 (by
      intro b hb
      rw [r6, Finset.mem_erase]
      exact ⟨by rintro rfl; exact hl.1 hb, h b (by simp [hb])⟩)
    refine ⟨Q, ?_, q2, q3, q4.trans r4, q5.trans r7, ?_⟩
    · show forEach _ (a :: l) P = _
      rw [forEach, r1]; exact q1
    · intro b
      rw [q6, r6, Finset.mem_erase, List.mem_cons, not_or]
      exact ⟨fun h => ⟨h.1.2, h.1.1, h.2⟩, fun h => ⟨⟨h.2.1, h.1⟩, h.2.2⟩⟩

/-! ## `to_complete_pdag_new` -/

theorem newArcs_start (P : PDAG α) (u : Finset (α × α)) :
    (newArcs { pdag := P, protParents := fun _ => ∅, protChildren := fun _ => ∅, undecided := u }).2 = ∅ := by
  unfold newArcs someApart
  simp

theorem toCompletePdagNew_eq (o : SetOrder ℕ (α × α)) (up : Unpack α) (P : PDAG α) :
    (P.toCompletePdagNew o up).run = some (.ok P) := by
  unfold toCompletePdagNew
  rw [newLoop, newArcs_start]
  rfl

/-- `vstructs`. -/
theorem mem_vstructs (hP : P.Consistent) (o : SetOrder α α) {i j : α} :
    (i, j) ∈ P.vstructs o ↔ (i, j) ∈ P.arcs ∧ ∃ l, (l, j) ∈ P.arcs ∧ l ≠ i ∧ (i, l) ∉ P.arcs ∧ (l, i) ∉ P.arcs := by
  unfold vstructs vstructsAt
  simp only [Finset.mem_biUnion, List.mem_toFinset, List.mem_filter, Bool.and_eq_true, decide_eq_true_eq, hP.parents_iff,
    Finset.mem_insert, Finset.mem_singleton, Prod.mk.injEq, Prod.exists]
  constructor
  · rintro ⟨v, _, a, b, ⟨hab, h1, h2⟩, h⟩
    have hm := (Model.mem_pairs (o.nodup v (P.parents v))).1 (Or.inl hab)
    rw [o.mem_iff, o.mem_iff, hP.parents_iff, hP.parents_iff] at hm
    rcases h with ⟨rfl, rfl⟩ | ⟨rfl, rfl⟩
    · exact ⟨hm.1, b, hm.2.1, hm.2.2.symm, h1, h2⟩
    · exact ⟨hm.2.1, a, hm.1, hm.2.2, h2, h1⟩
  · rintro ⟨h, l, hl, hne, h1, h2⟩
    have hm := (Model.mem_pairs (o.nodup j (P.parents j)) (x := i) (y := l)).2
      ⟨(o.mem_iff _ _ _).2 ((hP.parents_iff _ _).2 h), (o.mem_iff _ _ _).2 ((hP.parents_iff _ _).2 hl), hne.symm⟩
    refine ⟨j, (hP.arc_mem _ _ h).2, ?_⟩
    rcases hm with hm | hm
    · exact ⟨i, l, ⟨hm, h1, h2⟩, Or.inl ⟨rfl, rfl⟩⟩
    · exact ⟨l, i, ⟨hm, h2, h1⟩, Or.inr ⟨rfl, rfl⟩⟩

end Model.PDAG
