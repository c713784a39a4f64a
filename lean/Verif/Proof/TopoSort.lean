import Verif.Proof.Loops
import Verif.Spec.Views

/-! # Correctness of the depth-first topological sort -/

namespace Model.DAG

set_option linter.unusedSectionVars false
set_option linter.unusedVariables false
universe u
variable {α : Type u} [DecidableEq α]
open Relation Spec

/-- Invariant of the search data. -/
structure SInv (G : DAG α) (st : SortState α) : Prop where
  on : ∀ x, x ∈ st.onPath ↔ x ∈ st.path
  vis : ∀ x, x ∈ st.anyVisited ↔ x ∈ st.path ∨ x ∈ st.stack
  visN : st.anyVisited ⊆ G.nodes
  walk : List.IsChain G.E st.path
  pnodup : st.path.Nodup
  snodup : st.stack.Nodup
  disj : ∀ x ∈ st.path, x ∉ st.stack
  closed : ∀ p v r, st.stack = p ++ v :: r → ∀ w, G.E v w → w ∈ p

/-- The part of `Consistent` the sort relies on. -/
structure Kids (G : DAG α) : Prop where
  children_iff : ∀ i j, j ∈ G.children i ↔ (i, j) ∈ G.arcs
  fst_mem : ∀ i j, (i, j) ∈ G.arcs → i ∈ G.nodes
  snd_mem : ∀ i j, (i, j) ∈ G.arcs → j ∈ G.nodes

theorem Consistent.kids {G : DAG α} (h : G.Consistent) : G.Kids :=
  ⟨h.children_iff, h.fst_mem, h.snd_mem⟩

theorem mark_spec (G : DAG α) (o : SetOrder (Option α) α) (hG : G.Kids) :
    ∀ (n : Nat) (node : α) (st : SortState α), (G.nodes \ st.anyVisited).card ≤ n → SInv G st →
      node ∈ G.nodes → node ∉ st.anyVisited → (∀ z ∈ st.path.getLast?, G.E z node) →
      Wp (markChildrenVisited G o node st)
        (fun st' => SInv G st' ∧ st'.path = st.path ∧ ∃ new, st'.stack = st.stack ++ new ∧ node ∈ new)
        (fun e => ∃ l, e = Exn.cycle l ∧ IsClosingWalk G.E l) := by
  intro n
  induction n with
  | zero =>
    intro node st hn _ hN hV _
    exfalso
    have : node ∈ G.nodes \ st.anyVisited := by simp [hN, hV]
    have := Finset.card_pos.2 ⟨_, this⟩
    omega
  | succ n ih =>
    intro node st hn hI hN hV hlast
    rw [markChildrenVisited]
    set st1 : SortState α := ⟨insert node st.anyVisited, insert node st.onPath,
      st.path ++ [node], st.stack⟩ with hst1
    have hnodeP : node ∉ st.path := fun h => hV ((hI.vis _).2 (Or.inl h))
    have hnodeS : node ∉ st.stack := fun h => hV ((hI.vis _).2 (Or.inr h))
    have hI1 : SInv G st1 := by
      refine ⟨?_, ?_, ?_, ?_, ?_, hI.snodup, ?_, hI.closed⟩
      · intro x; simp [hst1, hI.on]; tauto
      · intro x; simp [hst1, hI.vis]; tauto
      · exact Finset.insert_subset hN hI.visN
      · refine List.IsChain.append hI.walk (List.isChain_singleton _) ?_
        intro x hx y hy
        simp at hy; subst hy; exact hlast x hx
      · simp only [hst1, List.nodup_append, hI.pnodup, true_and]
        refine ⟨by simp, ?_⟩
        intro a ha b hb
        simp at hb; subst hb; rintro rfl; exact hnodeP ha
      · intro x hx
        simp [hst1] at hx
        rcases hx with hx | rfl
        · exact hI.disj x hx
        · exact hnodeS
    have hcard : (G.nodes \ st1.anyVisited).card ≤ n := by
      have : (G.nodes \ insert node st.anyVisited).card + 1 = (G.nodes \ st.anyVisited).card := by
        rw [Finset.sdiff_insert]; exact Finset.card_erase_add_one (by simp [hN, hV])
      show (G.nodes \ insert node st.anyVisited).card ≤ n
      omega
    refine Wp.bind (P := fun s => SInv G s ∧ s.path = st1.path ∧ (∃ new, s.stack = st.stack ++ new) ∧
      ∀ w, G.E node w → w ∈ s.stack) ?_ ?_
    · refine Wp.mono (Wp.foldlM (fun pre s => SInv G s ∧ s.path = st1.path ∧
        (∃ new, s.stack = st.stack ++ new) ∧ (∀ w ∈ pre, w ∈ s.stack)) _ st1 ?_ ?_) ?_ (fun _ h => h)
      · exact ⟨hI1, rfl, ⟨[], by simp [hst1]⟩, by simp⟩
      · intro pre x post s hl ⟨hs, hp, ⟨new, hnew⟩, hpre⟩
        have hx : x ∈ o.ord (some node) (G.children node) := by rw [hl]; simp
        rw [o.mem_iff, hG.children_iff] at hx
        have hxN : x ∈ G.nodes := hG.snd_mem _ _ hx
        have hedge : ∀ z ∈ s.path.getLast?, G.E z x := by
          rw [hp]; simp [hst1]; exact hx
        simp only [hxN, not_true_eq_false, if_false]
        by_cases hv : x ∈ s.anyVisited
        · simp only [hv, not_true_eq_false, if_false]
          by_cases hon : x ∈ s.onPath
          · simp only [hon, if_true]
            refine Wp.throw ⟨_, rfl, ?_, s.path, x, rfl, (hs.on x).1 hon⟩
            refine List.IsChain.append hs.walk (List.isChain_singleton _) ?_
            intro a ha b hb; simp at hb; subst hb; exact hedge a ha
          · simp only [hon, if_false]
            refine Wp.pure ⟨hs, hp, ⟨new, hnew⟩, ?_⟩
            intro w hw
            rcases List.mem_append.1 hw with hw | hw
            · exact hpre w hw
            · simp at hw; subst hw
              exact ((hs.vis w).1 hv).resolve_left (fun h => hon ((hs.on w).2 h))
        · simp only [hv, not_false_eq_true, if_true]
          have hsub : st1.anyVisited ⊆ s.anyVisited := by
            intro y hy
            rw [hs.vis, hp, hnew]
            rw [hI1.vis] at hy
            rcases hy with hy | hy
            · exact Or.inl hy
            · exact Or.inr (List.mem_append.2 (Or.inl hy))
          have hc : (G.nodes \ s.anyVisited).card ≤ n :=
            (Finset.card_le_card (Finset.sdiff_subset_sdiff le_rfl hsub)).trans hcard
          refine (ih x s hc hs hxN hv hedge).mono ?_ (fun _ h => h)
          rintro s' ⟨hs', hp', new', hn', hx'⟩
          refine ⟨hs', hp'.trans hp, ⟨new ++ new', by rw [hn', hnew, List.append_assoc]⟩, ?_⟩
          intro w hw
          rw [hn']
          rcases List.mem_append.1 hw with hw | hw
          · exact List.mem_append.2 (Or.inl (hpre w hw))
          · simp at hw; subst hw; exact List.mem_append.2 (Or.inr hx')
      · rintro s ⟨hs, hp, hnew, hpre⟩
        refine ⟨hs, hp, hnew, fun w hw => hpre w ?_⟩
        rw [o.mem_iff, hG.children_iff]; exact hw
    · rintro s ⟨hs, hp, ⟨new, hnew⟩, hch⟩
      have hpath : s.path.dropLast = st.path := by rw [hp]; simp [hst1]
      have hns : node ∉ s.stack := hs.disj node (by rw [hp]; simp [hst1])
      refine Wp.pure ⟨⟨?_, ?_, hs.visN, ?_, ?_, ?_, ?_, ?_⟩, hpath, new ++ [node], ?_, by simp⟩
      · intro x
        simp only [Finset.mem_erase, hs.on, hp, hst1, List.dropLast_concat, List.mem_append, List.mem_singleton]
        constructor
        · rintro ⟨h1, h2 | h2⟩
          · exact h2
          · exact absurd h2 h1
        · intro h; exact ⟨by rintro rfl; exact hnodeP h, Or.inl h⟩
      · intro x
        simp only [hs.vis, hp, hst1, List.dropLast_concat, List.mem_append, List.mem_singleton]
        tauto
      · simp only [hpath]; exact hI.walk
      · simp only [hpath]; exact hI.pnodup
      · simp only [List.nodup_append, hs.snodup, true_and]
        refine ⟨by simp, ?_⟩
        intro a ha b hb
        simp at hb; subst hb; rintro rfl; exact hns ha
      · intro x hx
        simp only [hpath] at hx
        simp only [List.mem_append, List.mem_singleton, not_or]
        refine ⟨hs.disj x (by rw [hp]; simp [hst1, hx]), by rintro rfl; exact hnodeP hx⟩
      · intro p v r hpr w hw
        simp only at hpr
        rcases List.eq_nil_or_concat r with rfl | ⟨r', z, rfl⟩
        · obtain ⟨rfl, h2⟩ := List.append_inj' hpr rfl
          simp at h2; subst h2
          exact hch w hw
        · have : s.stack ++ [node] = (p ++ v :: r') ++ [z] := by simpa using hpr
          obtain ⟨h1, _⟩ := List.append_inj' this rfl
          exact hs.closed p v r' h1 w hw
      · simp [hnew]

theorem isClosingWalk_cycle {E : α → α → Prop} {l : List α} (h : IsClosingWalk E l) :
    ∃ v, Path E v v := by
  obtain ⟨hw, p, v, rfl, hv⟩ := h
  obtain ⟨s, t, rfl⟩ := List.append_of_mem hv
  refine ⟨v, ?_⟩
  have h1 : List.IsChain E (v :: (t ++ [v])) := by
    have : List.IsChain E (s ++ (v :: (t ++ [v]))) := by
      simpa [IsWalk] using hw
    exact (List.isChain_append.1 this).2.1
  have : ∀ (t : List α) (x : α), List.IsChain E (x :: (t ++ [v])) → Path E x v := by
    intro t
    induction t with
    | nil => intro x hx; simp at hx; exact .single hx
    | cons y t ih =>
      intro x hx
      simp only [List.cons_append, List.isChain_cons_cons] at hx
      exact .head hx.1 (ih y hx.2)
  exact this t v h1

theorem topologicalSort_wp (G : DAG α) (o : SetOrder (Option α) α) (hG : G.Kids) :
    Wp (topologicalSort G o) (fun l => LinearExtension (G.nodes : Set α) G.E l)
      (fun e => ∃ l, e = Exn.cycle l ∧ IsClosingWalk G.E l) := by
  rw [topologicalSort]
  refine Wp.bind (P := fun st => SInv G st ∧ st.path = [] ∧ ∀ v ∈ G.nodes, v ∈ st.stack) ?_ ?_
  · refine Wp.mono (Wp.foldlM (fun pre st => SInv G st ∧ st.path = [] ∧ ∀ v ∈ pre, v ∈ st.stack)
      _ _ ?_ ?_) ?_ (fun _ h => h)
    · refine ⟨⟨by simp, by simp, by simp, by simp, by simp, by simp, by simp, ?_⟩, rfl, by simp⟩
      intro p v r h; simp at h
    · intro pre x post st hl ⟨hs, hp, hpre⟩
      have hx : x ∈ G.nodes := by
        have : x ∈ o.ord none G.nodes := by rw [hl]; simp
        rwa [o.mem_iff] at this
      by_cases hv : x ∈ st.anyVisited
      · simp only [hv, not_true_eq_false, if_false]
        refine Wp.pure ⟨hs, hp, ?_⟩
        intro w hw
        rcases List.mem_append.1 hw with hw | hw
        · exact hpre w hw
        · simp at hw; subst hw
          have := (hs.vis w).1 hv
          simpa [hp] using this
      · simp only [hv, not_false_eq_true, if_true]
        refine (mark_spec G o hG _ x st le_rfl hs hx hv (by simp [hp])).mono ?_ (fun _ h => h)
        rintro s' ⟨hs', hp', new', hn', hx'⟩
        refine ⟨hs', hp'.trans hp, ?_⟩
        intro w hw
        rw [hn']
        rcases List.mem_append.1 hw with hw | hw
        · exact List.mem_append.2 (Or.inl (hpre w hw))
        · simp at hw; subst hw; exact List.mem_append.2 (Or.inr hx')
    · rintro st ⟨hs, hp, h⟩
      exact ⟨hs, hp, fun v hv => h v ((o.mem_iff _ _ _).2 hv)⟩
  · rintro st ⟨hs, hp, hall⟩
    refine Wp.pure ⟨by simpa using hs.snodup, ?_, ?_⟩
    · intro v
      simp only [List.mem_reverse, Finset.mem_coe]
      refine ⟨fun h => hs.visN ((hs.vis v).2 (Or.inr h)), hall v⟩
    · intro i j hij
      obtain ⟨p, r, hpr⟩ := List.append_of_mem (hall i (hG.fst_mem _ _ hij))
      have hj := hs.closed p i r hpr j hij
      have : List.Sublist [j, i] st.stack := by
        rw [hpr]
        exact List.Sublist.append (List.singleton_sublist.2 hj) (List.singleton_sublist.2 (by simp) :
          List.Sublist [i] (i :: r))
      simpa using this.reverse

theorem idxOf_lt_of_sublist {l : List α} (hl : l.Nodup) {i j : α} (h : List.Sublist [i, j] l) :
    l.idxOf i < l.idxOf j := by
  induction l with
  | nil => simp at h
  | cons x l ih =>
    rw [List.nodup_cons] at hl
    cases h with
    | cons _ h =>
      have hi : i ∈ l := h.subset (by simp)
      have hj : j ∈ l := h.subset (by simp)
      have h1 : x ≠ i := by rintro rfl; exact hl.1 hi
      have h2 : x ≠ j := by rintro rfl; exact hl.1 hj
      rw [List.idxOf_cons_ne _ h1, List.idxOf_cons_ne _ h2]
      exact Nat.succ_lt_succ (ih hl.2 h)
    | cons_cons _ h =>
      have hj : j ∈ l := h.subset (by simp)
      have h2 : i ≠ j := by rintro rfl; exact hl.1 hj
      rw [List.idxOf_cons_self, List.idxOf_cons_ne _ h2]
      exact Nat.succ_pos _

theorem linearExtension_idxOf {V : Set α} {E : α → α → Prop} {l : List α}
    (h : LinearExtension V E l) {i j : α} (hij : Path E i j) : l.idxOf i < l.idxOf j := by
  induction hij with
  | single hab => exact idxOf_lt_of_sublist h.nodup (h.before _ _ hab)
  | tail _ hbc ih => exact ih.trans (idxOf_lt_of_sublist h.nodup (h.before _ _ hbc))

theorem linearExtension_acyclic {V : Set α} {E : α → α → Prop} {l : List α}
    (h : LinearExtension V E l) : Acyclic E :=
  fun v hv => lt_irrefl _ (linearExtension_idxOf h hv)

/-- On an acyclic graph `topological_sort` returns a linear extension. -/
theorem topologicalSort_ok (G : DAG α) (o : SetOrder (Option α) α) (hG : G.Valid) :
    ∃ l, (topologicalSort G o).run = some (.ok l) ∧ LinearExtension (G.nodes : Set α) G.E l := by
  rcases topologicalSort_wp G o hG.toConsistent.kids with h | ⟨e, _, l, _, hl⟩
  · exact h
  · obtain ⟨v, hv⟩ := isClosingWalk_cycle hl
    exact absurd hv (hG.acyclic v)

/-- On a cyclic graph `topological_sort` raises `CycleError`. -/
theorem topologicalSort_error (G : DAG α) (o : SetOrder (Option α) α) (hG : G.Consistent)
    (hc : ¬ Acyclic G.E) :
    ∃ l, (topologicalSort G o).run = some (.error (Exn.cycle l)) ∧ IsClosingWalk G.E l := by
  rcases topologicalSort_wp G o hG.kids with ⟨l, _, hl⟩ | ⟨e, he, l, rfl, hl⟩
  · exact absurd (linearExtension_acyclic hl) hc
  · exact ⟨l, he, hl⟩

end Model.DAG
