import Verif.Proof.AG
import Verif.Proof.TopoSort

/-! # The check of `AncestralGraph.add_directed` -/

namespace Model.AG

set_option linter.unusedSectionVars false
set_option linter.unusedVariables false
universe u
variable {α : Type u} [DecidableEq α]
open Relation Spec DAG

/-- The directed part as a `DAG` object. -/
def dagPart (A : AG α) : DAG α := ⟨A.nodes, A.directed, fun k => A.parents k ∪ A.children k, A.parents, A.children⟩

theorem dagPart_consistent {A : AG α} (h : A.Consistent) : (dagPart A).Consistent where
  parents_iff := fun i j => h.parents_iff i j
  children_iff := fun i j => h.children_iff i j
  neighbors_iff := fun i j => by
    show i ∈ A.parents j ∪ A.children j ↔ (i, j) ∈ A.directed ∨ (j, i) ∈ A.directed
    rw [Finset.mem_union, h.parents_iff, h.children_iff]
  fst_mem := fun i j hij => (h.dir_mem i j hij).1
  snd_mem := fun i j hij => (h.dir_mem i j hij).2

/-- What the check can raise: a directed cycle, or a bidirected edge between a node and its ancestor. -/
def SortError (A : AG α) (e : Exn α) : Prop :=
  (∃ l, e = Exn.cycle l ∧ IsClosingWalk (fun i j => (i, j) ∈ A.directed) l) ∨
  ∃ a b, e = Exn.spouse a b ∧ ({b, a} : Finset α) ∈ A.bidirected ∧ Path (fun i j => (i, j) ∈ A.directed) b a

theorem chain_path {E : α → α → Prop} {x : α} : ∀ {p : List α} {b : α}, List.IsChain E (p ++ [x]) → b ∈ p → Path E b x := by
  intro p
  induction p with
  | nil => intro b _ hb; simp at hb
  | cons y p ih =>
    intro b h hb
    have h' : List.IsChain E (p ++ [x]) := List.IsChain.tail h
    rcases List.mem_cons.1 hb with rfl | hb
    · cases p with
      | nil => simp at h; exact .single h
      | cons z p =>
        simp only [List.cons_append, List.isChain_cons_cons] at h
        exact .head h.1 (ih h' (by simp))
    · exact ih h' hb

theorem mark_spec (A : AG α) (o os : SetOrder (Option α) α) (hA : A.Consistent) :
    ∀ (n : Nat) (node : α) (st : SortState α), (A.nodes \ st.anyVisited).card ≤ n → SInv (dagPart A) st →
      node ∈ A.nodes → node ∉ st.anyVisited → (∀ z ∈ st.path.getLast?, (dagPart A).E z node) →
      Wp (markChildrenVisited A o os node st)
        (fun st' => SInv (dagPart A) st' ∧ st'.path = st.path ∧ ∃ new, st'.stack = st.stack ++ new ∧ node ∈ new)
        (fun e => SortError A e) := by
  have hG : (dagPart A).Consistent := dagPart_consistent hA
  intro n
  induction n with
  | zero =>
    intro node st hn _ hN hV _
    exfalso
    have : node ∈ A.nodes \ st.anyVisited := by simp [hN, hV]
    have := Finset.card_pos.2 ⟨_, this⟩
    omega
  | succ n ih =>
    intro node st hn hI hN hV hlast
    rw [markChildrenVisited]
    set st1 : SortState α := ⟨insert node st.anyVisited, insert node st.onPath,
      st.path ++ [node], st.stack⟩ with hst1
    have hnodeP : node ∉ st.path := fun h => hV ((hI.vis _).2 (Or.inl h))
    have hnodeS : node ∉ st.stack := fun h => hV ((hI.vis _).2 (Or.inr h))
    have hI1 : SInv (dagPart A) st1 := by
      refine ⟨?_, ?_, ?_, ?_, ?_, hI.snodup, ?_, hI.closed⟩
      · intro x; simp [hst1, hI.on]; tauto
      · intro x; simp [hst1, hI.vis]; tauto
      · exact Finset.insert_subset hN hI.visN
      · refine List.IsChain.append hI.walk (List.isChain_singleton _) ?_
        intro x hx y hy
        simp at hy; subst hy; exact hlast x hx
      · simp only [hst1, List.nodup_append, hI.pnodup, true_and]
        refine ⟨by simp, ?_⟩
        intro a ha b hb
        simp at hb; subst hb; rintro rfl; exact hnodeP ha
      · intro x hx
        simp [hst1] at hx
        rcases hx with hx | rfl
        · exact hI.disj x hx
        · exact hnodeS
    have hcard : (A.nodes \ st1.anyVisited).card ≤ n := by
      have : (A.nodes \ insert node st.anyVisited).card + 1 = (A.nodes \ st.anyVisited).card := by
        rw [Finset.sdiff_insert]; exact Finset.card_erase_add_one (by simp [hN, hV])
      show (A.nodes \ insert node st.anyVisited).card ≤ n
      omega
    refine Wp.bind (P := fun s => SInv (dagPart A) s ∧ s.path = st1.path ∧ (∃ new, s.stack = st.stack ++ new) ∧
      ∀ w, (dagPart A).E node w → w ∈ s.stack) ?_ ?_
    · refine Wp.mono (Wp.foldlM (fun pre s => SInv (dagPart A) s ∧ s.path = st1.path ∧
        (∃ new, s.stack = st.stack ++ new) ∧ (∀ w ∈ pre, w ∈ s.stack)) _ st1 ?_ ?_) ?_ (fun _ h => h)
      · exact ⟨hI1, rfl, ⟨[], by simp [hst1]⟩, by simp⟩
      · intro pre x post s hl ⟨hs, hp, ⟨new, hnew⟩, hpre⟩
        have hx : x ∈ o.ord (some node) (A.children node) := by rw [hl]; simp
        rw [o.mem_iff, hA.children_iff] at hx
        have hxN : x ∈ A.nodes := hG.snd_mem _ _ hx
        have hedge : ∀ z ∈ s.path.getLast?, (dagPart A).E z x := by
          rw [hp]; simp [hst1]; exact hx
        simp only [hxN, not_true_eq_false, if_false]
        by_cases hv : x ∈ s.anyVisited
        · simp only [hv, not_true_eq_false, if_false]
          by_cases hon : x ∈ s.onPath
          · simp only [hon, if_true]
            refine Wp.throw (Or.inl ⟨_, rfl, ?_, s.path, x, rfl, (hs.on x).1 hon⟩)
            refine List.IsChain.append hs.walk (List.isChain_singleton _) ?_
            intro a ha b hb; simp at hb; subst hb; exact hedge a ha
          · simp only [hon, if_false]
            refine Wp.pure ⟨hs, hp, ⟨new, hnew⟩, ?_⟩
            intro w hw
            rcases List.mem_append.1 hw with hw | hw
            · exact hpre w hw
            · simp at hw; subst hw
              exact ((hs.vis w).1 hv).resolve_left (fun h => hon ((hs.on w).2 h))
        · simp only [hv, not_false_eq_true, if_true]
          have hsub : st1.anyVisited ⊆ s.anyVisited := by
            intro y hy
            rw [hs.vis, hp, hnew]
            rw [hI1.vis] at hy
            rcases hy with hy | hy
            · exact Or.inl hy
            · exact Or.inr (List.mem_append.2 (Or.inl hy))
          have hc : (A.nodes \ s.anyVisited).card ≤ n :=
            (Finset.card_le_card (Finset.sdiff_subset_sdiff le_rfl hsub)).trans hcard
          refine (ih x s hc hs hxN hv hedge).mono ?_ (fun _ h => h)
          rintro s' ⟨hs', hp', new', hn', hx'⟩
          refine ⟨hs', hp'.trans hp, ⟨new ++ new', by rw [hn', hnew, List.append_assoc]⟩, ?_⟩
          intro w hw
          rw [hn']
          rcases List.mem_append.1 hw with hw | hw
          · exact List.mem_append.2 (Or.inl (hpre w hw))
          · simp at hw; subst hw; exact List.mem_append.2 (Or.inr hx')
      · rintro s ⟨hs, hp, hnew, hpre⟩
        refine ⟨hs, hp, hnew, fun w hw => hpre w ?_⟩
        rw [o.mem_iff, hA.children_iff]; exact hw
    · rintro s ⟨hs, hp, ⟨new, hnew⟩, hch⟩
      refine Wp.bind (P := fun s' => s' = s) ?_ ?_
      · refine Wp.foldlM (fun _ s' => s' = s) _ s rfl ?_
        rintro pre x post s' hl rfl
        have hx : x ∈ os.ord (some node) (A.spouses node) := by rw [hl]; simp
        rw [os.mem_iff, hA.spouses_iff] at hx
        have hxN : x ∈ A.nodes := hA.bi_mem _ hx (by simp)
        simp only [hxN, not_true_eq_false, if_false]
        by_cases hon : x ∈ s'.onPath
        · simp only [hon, if_true]
          refine Wp.throw (Or.inr ⟨node, x, rfl, hx, ?_⟩)
          rw [hs.on, hp] at hon
          have hx' : x ∈ st.path := by
            simp only [hst1, List.mem_append, List.mem_singleton] at hon
            exact hon.resolve_right (hA.bi_ne hx)
          have hw := hs.walk
          rw [hp] at hw
          exact chain_path hw hx'
        · simp only [hon, if_false]
          exact Wp.pure rfl
      intro s' hs'
      rw [hs']; clear hs' s'
      have hpath : s.path.dropLast = st.path := by rw [hp]; simp [hst1]
      have hns : node ∉ s.stack := hs.disj node (by rw [hp]; simp [hst1])
      refine Wp.pure ⟨⟨?_, ?_, hs.visN, ?_, ?_, ?_, ?_, ?_⟩, hpath, new ++ [node], ?_, by simp⟩
      · intro x
        simp only [Finset.mem_erase, hs.on, hp, hst1, List.dropLast_concat, List.mem_append, List.mem_singleton]
        constructor
        · rintro ⟨h1, h2 | h2⟩
          · exact h2
          · exact absurd h2 h1
        · intro h; exact ⟨by rintro rfl; exact hnodeP h, Or.inl h⟩
      · intro x
        simp only [hs.vis, hp, hst1, List.dropLast_concat, List.mem_append, List.mem_singleton]
        tauto
      · simp only [hpath]; exact hI.walk
      · simp only [hpath]; exact hI.pnodup
      · simp only [List.nodup_append, hs.snodup, true_and]
        refine ⟨by simp, ?_⟩
        intro a ha b hb
        simp at hb; subst hb; rintro rfl; exact hns ha
      · intro x hx
        simp only [hpath] at hx
        simp only [List.mem_append, List.mem_singleton, not_or]
        refine ⟨hs.disj x (by rw [hp]; simp [hst1, hx]), by rintro rfl; exact hnodeP hx⟩
      · intro p v r hpr w hw
        simp only at hpr
        rcases List.eq_nil_or_concat r with rfl | ⟨r', z, rfl⟩
        · obtain ⟨rfl, h2⟩ := List.append_inj' hpr rfl
          simp at h2; subst h2
          exact hch w hw
        · have : s.stack ++ [node] = (p ++ v :: r') ++ [z] := by simpa using hpr
          obtain ⟨h1, _⟩ := List.append_inj' this rfl
          exact hs.closed p v r' h1 w hw
      · simp [hnew]

theorem topologicalSort_wp (A : AG α) (o os : SetOrder (Option α) α) (hA : A.Consistent) :
    Wp (topologicalSort A o os) (fun l => LinearExtension (A.nodes : Set α) (dagPart A).E l)
      (fun e => SortError A e) := by
  rw [topologicalSort]
  refine Wp.bind (P := fun st => SInv (dagPart A) st ∧ st.path = [] ∧ ∀ v ∈ A.nodes, v ∈ st.stack) ?_ ?_
  · refine Wp.mono (Wp.foldlM (fun pre st => SInv (dagPart A) st ∧ st.path = [] ∧ ∀ v ∈ pre, v ∈ st.stack)
      _ _ ?_ ?_) ?_ (fun _ h => h)
    · refine ⟨⟨by simp, by simp, by simp, by simp, by simp, by simp, by simp, ?_⟩, rfl, by simp⟩
      intro p v r h; simp at h
    · intro pre x post st hl ⟨hs, hp, hpre⟩
      have hx : x ∈ A.nodes := by
        have : x ∈ o.ord none A.nodes := by rw [hl]; simp
        rwa [o.mem_iff] at this
      by_cases hv : x ∈ st.anyVisited
      · simp only [hv, not_true_eq_false, if_false]
        refine Wp.pure ⟨hs, hp, ?_⟩
        intro w hw
        rcases List.mem_append.1 hw with hw | hw
        · exact hpre w hw
        · simp at hw; subst hw
          have := (hs.vis w).1 hv
          simpa [hp] using this
      · simp only [hv, not_false_eq_true, if_true]
        refine (mark_spec A o os hA _ x st le_rfl hs hx hv (by simp [hp])).mono ?_ (fun _ h => h)
        rintro s' ⟨hs', hp', new', hn', hx'⟩
        refine ⟨hs', hp'.trans hp, ?_⟩
        intro w hw
        rw [hn']
        rcases List.mem_append.1 hw with hw | hw
        · exact List.mem_append.2 (Or.inl (hpre w hw))
        · simp at hw; subst hw; exact List.mem_append.2 (Or.inr hx')
    · rintro st ⟨hs, hp, h⟩
      exact ⟨hs, hp, fun v hv => h v ((o.mem_iff _ _ _).2 hv)⟩
  · rintro st ⟨hs, hp, hall⟩
    refine Wp.pure ⟨by simpa using hs.snodup, ?_, ?_⟩
    · intro v
      simp only [List.mem_reverse, Finset.mem_coe]
      refine ⟨fun h => hs.visN ((hs.vis v).2 (Or.inr h)), hall v⟩
    · intro i j hij
      obtain ⟨p, r, hpr⟩ := List.append_of_mem (hall i ((hA.dir_mem _ _ hij).1))
      have hj := hs.closed p i r hpr j hij
      have : List.Sublist [j, i] st.stack := by
        rw [hpr]
        exact List.Sublist.append (List.singleton_sublist.2 hj) (List.singleton_sublist.2 (by simp) :
          List.Sublist [i] (i :: r))
      simpa using this.reverse


/-- Outcome of `topological_sort`. -/
theorem topologicalSort_cases (A : AG α) (o os : SetOrder (Option α) α) (hA : A.Consistent) :
    (∃ l, (topologicalSort A o os).run = some (.ok l) ∧
      LinearExtension (A.nodes : Set α) (fun i j => (i, j) ∈ A.directed) l) ∨
    ∃ e, (topologicalSort A o os).run = some (.error e) ∧ SortError A e :=
  topologicalSort_wp A o os hA

end Model.AG
