import Verif.Spec.UViews
import Verif.Proof.Moral
import Verif.Proof.PDAG

/-! # `UndirectedGraph` mutators -/

namespace Model.UG

universe u
variable {α : Type u} [DecidableEq α]

theorem Consistent.irrefl {U : UG α} (h : U.Consistent) (i : α) : i ∉ U.neighbors i := by
  intro hi
  obtain ⟨a, b, hab, he⟩ := h.edge_pair _ ((h.neighbors_iff i i).1 hi)
  have ha : a ∈ ({i, i} : Finset α) := by rw [he]; simp
  have hb : b ∈ ({i, i} : Finset α) := by rw [he]; simp
  simp at ha hb
  exact hab (ha.trans hb.symm)

theorem Consistent.symm {U : UG α} (h : U.Consistent) {i j : α} (hij : j ∈ U.neighbors i) : i ∈ U.neighbors j := by
  rw [h.neighbors_iff] at hij ⊢
  rwa [Finset.pair_comm]

theorem pair_eq {i j a b : α} : ({i, j} : Finset α) = {a, b} ↔ (i = a ∧ j = b) ∨ (i = b ∧ j = a) := by
  by_cases h : i = j
  · subst h
    constructor
    · intro h
      have ha : a ∈ ({i, i} : Finset α) := by rw [h]; simp
      have hb : b ∈ ({i, i} : Finset α) := by rw [h]; simp
      simp at ha hb
      exact Or.inl ⟨ha.symm, hb.symm⟩
    · rintro (⟨rfl, rfl⟩ | ⟨rfl, rfl⟩) <;> rfl
  · rw [pair_eq_iff h]

/-- `link` after the insertion of a new edge. -/
theorem link_spec {U : UG α} (hU : U.Consistent) {i j : α} (hij : i ≠ j) (hn : ({i, j} : Finset α) ∉ U.edges)
    (V : UG α) (hV : V = link { U with edges := insert {i, j} U.edges } i j) : V.Consistent := by
  have h1 : j ∉ U.neighbors i := fun h => hn ((hU.neighbors_iff _ _).1 h)
  have h2 : i ∉ U.neighbors j := fun h => h1 (hU.symm h)
  subst hV
  unfold link
  have nb : ∀ k, (Function.update (Function.update U.neighbors i (insert j (U.neighbors i))) j
      (insert i (Function.update U.neighbors i (insert j (U.neighbors i)) j))) k =
      if k = i then insert j (U.neighbors i) else if k = j then insert i (U.neighbors j) else U.neighbors k := by
    intro k
    by_cases hk : k = j
    · subst hk; rw [Function.update_self, Function.update_of_ne hij.symm, if_neg hij.symm, if_pos rfl]
    · rw [Function.update_of_ne hk]
      by_cases hk' : k = i
      · subst hk'; simp
      · rw [Function.update_of_ne hk', if_neg hk', if_neg hk]
  have dg : ∀ k, (Function.update (Function.update U.degrees i (U.degrees i + 1)) j
      (Function.update U.degrees i (U.degrees i + 1) j + 1)) k =
      if k = i then U.degrees i + 1 else if k = j then U.degrees j + 1 else U.degrees k := by
    intro k
    by_cases hk : k = j
    · subst hk; rw [Function.update_self, Function.update_of_ne hij.symm, if_neg hij.symm, if_pos rfl]
    · rw [Function.update_of_ne hk]
      by_cases hk' : k = i
      · subst hk'; simp
      · rw [Function.update_of_ne hk', if_neg hk', if_neg hk]
  refine ⟨?_, ?_, ?_⟩
  · intro e he
    dsimp only at he
    rcases Finset.mem_insert.1 he with rfl | he
    · exact ⟨i, j, hij, rfl⟩
    · exact hU.edge_pair e he
  · intro a b
    dsimp only
    rw [nb, Finset.mem_insert, pair_eq, ← hU.neighbors_iff]
    by_cases ha : a = i
    · subst ha
      rw [if_pos rfl, Finset.mem_insert]
      have := hij
      simp [hij]
    · rw [if_neg ha]
      by_cases ha' : a = j
      · subst ha'
        rw [if_pos rfl, Finset.mem_insert]
        simp [hij.symm]
      · rw [if_neg ha']
        simp [ha, ha']
  · intro k
    dsimp only
    rw [nb, dg]
    by_cases hk : k = i
    · subst hk; rw [if_pos rfl, if_pos rfl, Finset.card_insert_of_notMem h1, hU.degree]; push_cast; rfl
    · rw [if_neg hk, if_neg hk]
      by_cases hk' : k = j
      · subst hk'; rw [if_pos rfl, if_pos rfl, Finset.card_insert_of_notMem h2, hU.degree]; push_cast; rfl
      · rw [if_neg hk', if_neg hk', hU.degree]

theorem addEdge_spec {U : UG α} (hU : U.Consistent) {i j : α} (hij : i ≠ j) :
    (U.addEdge i j).Consistent ∧ (U.addEdge i j).nodes = U.nodes ∧ (U.addEdge i j).edges = insert {i, j} U.edges := by
  unfold addEdge
  by_cases hn : ({i, j} : Finset α) ∈ U.edges
  · rw [if_neg (by simpa using hn)]
    exact ⟨hU, rfl, (Finset.insert_eq_of_mem hn).symm⟩
  · rw [if_pos hn]
    exact ⟨link_spec hU hij hn _ rfl, rfl, rfl⟩

theorem new_spec (oe : SetOrder Unit (Finset α)) (ou : SetOrder Unit α) (nodes : Finset α) (edges : Finset (α × α)) :
    (UG.new oe ou nodes edges).Consistent ∧ (UG.new oe ou nodes edges).Closed ∧
      (∀ v, v ∈ (UG.new oe ou nodes edges).nodes ↔ v ∈ nodes ∨ ∃ e ∈ (UG.new oe ou nodes edges).edges, v ∈ e) := by
  set es := (edges.filter fun e => e.1 ≠ e.2).image fun e => ({e.1, e.2} : Finset α) with hes
  have hpair : ∀ e ∈ es, ∃ i j, i ≠ j ∧ e = {i, j} := by
    intro e he
    rw [hes, Finset.mem_image] at he
    obtain ⟨⟨i, j⟩, h1, h2⟩ := he
    exact ⟨i, j, (Finset.mem_filter.1 h1).2, h2.symm⟩
  -- invariant: consistent, if `edges` is restricted to the edges already linked
  have key : ∀ (l done : List (Finset α)) (U : UG α), (done ++ l).Nodup → (∀ e ∈ done ++ l, e ∈ es) →
      ({ U with edges := done.toFinset } : UG α).Consistent →
      U.edges = es → (∀ v, v ∈ U.nodes ↔ v ∈ nodes ∨ ∃ e ∈ done, v ∈ e) →
      ∃ V, l.foldl (fun U e => match ou.ord () e with
        | [i, j] => link { U with nodes := insert j (insert i U.nodes) } i j
        | _ => U) U = V ∧ ({ V with edges := (done ++ l).toFinset } : UG α).Consistent ∧ V.edges = es ∧
        ∀ v, v ∈ V.nodes ↔ v ∈ nodes ∨ ∃ e ∈ done ++ l, v ∈ e := by
    intro l
    induction l with
    | nil => intro done U _ _ h1 h2 h3; exact ⟨U, rfl, by simpa using h1, h2, by simpa using h3⟩
    | cons e l ih =>
      intro done U hnd hmem h1 h2 h3
      rw [List.foldl_cons]
      obtain ⟨a, b, hab, he⟩ := hpair e (hmem e (by simp))
      have hlen : ∃ i j, i ≠ j ∧ ou.ord () e = [i, j] ∧ e = {i, j} := by
        have hn := ou.nodup () e
        have hm := ou.mem_iff () e
        have hset : (ou.ord () e).toFinset = e := by ext x; rw [List.mem_toFinset, hm]
        have hl : (ou.ord () e).length = 2 := by
          rw [← List.toFinset_card_of_nodup hn, hset, he, Finset.card_pair hab]
        obtain ⟨i, j, hij⟩ := List.length_eq_two.1 hl
        rw [hij] at hn hset
        refine ⟨i, j, by simpa using hn, hij, ?_⟩
        rw [← hset]; simp
      obtain ⟨i, j, hij, ho, he'⟩ := hlen
      simp only [ho]
      have hnew : e ∉ done := by
        intro h
        exact (List.nodup_append.1 hnd).2.2 e h e (by simp) rfl
      have := ih (done ++ [e]) (link { U with nodes := insert j (insert i U.nodes) } i j)
        (by simpa using hnd) (by simpa using hmem) ?_ ?_ ?_
      · simpa using this
      · have hc : ({ ({ U with nodes := insert j (insert i U.nodes) } : UG α) with edges := done.toFinset } : UG α).Consistent :=
          ⟨h1.edge_pair, h1.neighbors_iff, h1.degree⟩
        refine link_spec hc hij (by simpa [← he'] using hnew) _ ?_
        unfold link
        ext1 <;> try rfl
        dsimp only
        ext x
        simp [he', or_comm]
      · exact h2
      · intro v
        have : (link { U with nodes := insert j (insert i U.nodes) } i j).nodes = insert j (insert i U.nodes) := rfl
        rw [this, Finset.mem_insert, Finset.mem_insert, h3]
        simp only [List.mem_append, List.mem_singleton]
        constructor
        · rintro (rfl | rfl | h | ⟨e', h, h'⟩)
          · exact Or.inr ⟨e, Or.inr rfl, by rw [he']; simp⟩
          · exact Or.inr ⟨e, Or.inr rfl, by rw [he']; simp⟩
          · exact Or.inl h
          · exact Or.inr ⟨e', Or.inl h, h'⟩
        · rintro (h | ⟨e', h | rfl, h'⟩)
          · exact Or.inr (Or.inr (Or.inl h))
          · exact Or.inr (Or.inr (Or.inr ⟨e', h, h'⟩))
          · rw [he'] at h'
            simp at h'
            tauto
  obtain ⟨V, h1, h2, h3, h4⟩ := key (oe.ord () es) []
    { nodes := nodes, edges := es, neighbors := fun _ => ∅, degrees := fun _ => 0 }
    (by simpa using oe.nodup () es) (by simp [oe.mem_iff]) ⟨by simp, by simp, by simp⟩ rfl (by simp)
  have hnew : UG.new oe ou nodes edges = V := h1
  rw [hnew]
  have hfin : ([] ++ oe.ord () es).toFinset = V.edges := by
    rw [h3]; ext x; simp [oe.mem_iff]
  rw [hfin] at h2
  have hnodes : ∀ v, v ∈ V.nodes ↔ v ∈ nodes ∨ ∃ e ∈ V.edges, v ∈ e := by
    intro v
    rw [h4, h3]
    simp [oe.mem_iff]
  exact ⟨h2, fun e he v hv => (hnodes v).2 (Or.inr ⟨e, he, hv⟩), hnodes⟩

theorem deleteEdge_ok {U : UG α} (hU : U.Consistent) {i j : α} (h : ({i, j} : Finset α) ∈ U.edges) :
    ∃ V, U.deleteEdge i j = (V, none) ∧ V.Consistent ∧ V.nodes = U.nodes ∧ V.edges = U.edges.erase {i, j} := by
  have h1 : j ∈ U.neighbors i := (hU.neighbors_iff _ _).2 h
  have h2 : i ∈ U.neighbors j := hU.symm h1
  have hij : i ≠ j := by rintro rfl; exact hU.irrefl _ h1
  unfold deleteEdge delEdgeSet delNbr Step.andThen decDegree
  simp only [h, if_true, h1, Function.update_of_ne hij.symm, h2]
  refine ⟨_, rfl, ?_, rfl, rfl⟩
  have nb : ∀ k, (Function.update (Function.update U.neighbors i ((U.neighbors i).erase j)) j
      ((U.neighbors j).erase i)) k =
      if k = i then (U.neighbors i).erase j else if k = j then (U.neighbors j).erase i else U.neighbors k := by
    intro k
    by_cases hk : k = j
    · subst hk; rw [Function.update_self, if_neg hij.symm, if_pos rfl]
    · rw [Function.update_of_ne hk]
      by_cases hk' : k = i
      · subst hk'; simp
      · rw [Function.update_of_ne hk', if_neg hk', if_neg hk]
  have dg : ∀ k, (Function.update (Function.update U.degrees i (U.degrees i - 1)) j
      (U.degrees j - 1)) k =
      if k = i then U.degrees i - 1 else if k = j then U.degrees j - 1 else U.degrees k := by
    intro k
    by_cases hk : k = j
    · subst hk; rw [Function.update_self, if_neg hij.symm, if_pos rfl]
    · rw [Function.update_of_ne hk]
      by_cases hk' : k = i
      · subst hk'; simp
      · rw [Function.update_of_ne hk', if_neg hk', if_neg hk]
  refine ⟨?_, ?_, ?_⟩
  · exact fun e he => hU.edge_pair e (Finset.mem_of_mem_erase he)
  · intro a b
    dsimp only
    rw [nb, Finset.mem_erase, Ne, pair_eq, ← hU.neighbors_iff]
    by_cases ha : a = i
    · subst ha
      rw [if_pos rfl, Finset.mem_erase]
      simp [hij]
    · rw [if_neg ha]
      by_cases ha' : a = j
      · subst ha'
        rw [if_pos rfl, Finset.mem_erase]
        simp [hij.symm]
      · rw [if_neg ha']
        simp [ha, ha']
  · intro k
    dsimp only
    rw [nb, dg]
    by_cases hk : k = i
    · subst hk
      have := Finset.card_erase_add_one h1
      have := hU.degree k
      rw [if_pos rfl, if_pos rfl]; omega
    · rw [if_neg hk, if_neg hk]
      by_cases hk' : k = j
      · subst hk'
        have := Finset.card_erase_add_one h2
        have := hU.degree k
        rw [if_pos rfl, if_pos rfl]; omega
      · rw [if_neg hk', if_neg hk', hU.degree]

theorem deleteEdge_error {U : UG α} {i j : α} (h : ({i, j} : Finset α) ∉ U.edges) :
    U.deleteEdge i j = (U, some .key) := by
  unfold deleteEdge delEdgeSet Step.andThen
  simp [h]

theorem deleteNodeLoop_spec (v : α) : ∀ (l : List α) (U : UG α), l.Nodup → v ∉ l →
    (∀ j ∈ l, v ∈ U.neighbors j ∧ ({v, j} : Finset α) ∈ U.edges) →
    ∃ V, deleteNodeLoop v l U = (V, none) ∧ V.nodes = U.nodes ∧
      (∀ e, e ∈ V.edges ↔ e ∈ U.edges ∧ ∀ j ∈ l, e ≠ {v, j}) ∧
      (∀ k, V.neighbors k = if k ∈ l then (U.neighbors k).erase v else U.neighbors k) ∧
      ∀ k, V.degrees k = if k ∈ l then U.degrees k - 1 else U.degrees k := by
  intro l
  induction l with
  | nil => intro U _ _ _; exact ⟨U, rfl, rfl, by simp, by simp, by simp⟩
  | cons x l ih =>
    intro U hn hv h
    rw [List.nodup_cons] at hn
    have hvx : v ≠ x := fun h => hv (by simp [h])
    obtain ⟨hx1, hx2⟩ := h x (by simp)
    unfold deleteNodeLoop delNbr
    simp only [hx1, if_true, Step.andThen, decDegree, delEdgeSet, hx2]
    have hside : ∀ j ∈ l, v ∈ Function.update U.neighbors x ((U.neighbors x).erase v) j ∧
        ({v, j} : Finset α) ∈ U.edges.erase {v, x} := by
      intro j hj
      have hjx : j ≠ x := fun h => hn.1 (h ▸ hj)
      rw [Function.update_of_ne hjx, Finset.mem_erase, Ne, pair_eq]
      have := h j (by simp [hj])
      refine ⟨this.1, ?_, this.2⟩
      rintro (⟨-, h⟩ | ⟨h, -⟩)
      · exact hjx h
      · exact hvx h
    obtain ⟨V, h1, h2, h3, h4, h5⟩ := ih
      { U with edges := U.edges.erase {v, x}
               neighbors := Function.update U.neighbors x ((U.neighbors x).erase v)
               degrees := Function.update U.degrees x (U.degrees x - 1) } hn.2 (fun h => hv (by simp [h])) hside
    refine ⟨V, h1, h2, ?_, ?_, ?_⟩
    · intro e
      rw [h3, Finset.mem_erase]
      simp only [List.forall_mem_cons]
      tauto
    · intro k
      rw [h4]
      by_cases hk : k = x
      · subst hk; simp [hn.1]
      · simp [hk]
    · intro k
      rw [h5]
      by_cases hk : k = x
      · subst hk; simp [hn.1]
      · simp [hk]

theorem deleteNode_ok {U : UG α} (hU : U.Consistent) (on : SetOrder Unit α) {v : α} (hv : v ∈ U.nodes) :
    ∃ V, U.deleteNode on v = (V, none) ∧ V.Consistent ∧ V.nodes = U.nodes.erase v ∧
      ∀ e, e ∈ V.edges ↔ e ∈ U.edges ∧ v ∉ e := by
  unfold deleteNode
  rw [if_pos hv]
  obtain ⟨V, h1, h2, h3, h4, h5⟩ := deleteNodeLoop_spec v (on.ord () (U.neighbors v)) { U with nodes := U.nodes.erase v }
    (on.nodup _ _) (by rw [on.mem_iff]; exact hU.irrefl v)
    (by
      intro j hj
      rw [on.mem_iff] at hj
      exact ⟨hU.symm hj, (hU.neighbors_iff _ _).1 hj⟩)
  simp only [on.mem_iff] at h3 h4 h5
  have hE : ∀ e, e ∈ V.edges ↔ e ∈ U.edges ∧ v ∉ e := by
    intro e
    rw [h3]
    refine and_congr_right fun he => ?_
    constructor
    · intro h hve
      obtain ⟨a, b, hab, rfl⟩ := hU.edge_pair e he
      simp only [Finset.mem_insert, Finset.mem_singleton] at hve
      rcases hve with rfl | rfl
      · exact h b ((hU.neighbors_iff _ _).2 he) rfl
      · exact h a ((hU.neighbors_iff _ _).2 (by rwa [Finset.pair_comm])) (Finset.pair_comm _ _)
    · rintro h j _ rfl
      exact h (by simp)
  rw [h1]
  refine ⟨_, rfl, ⟨?_, ?_, ?_⟩, h2, hE⟩
  · intro e he
    exact hU.edge_pair e ((hE e).1 he).1
  · intro a b
    dsimp only
    rw [hE, ← hU.neighbors_iff]
    by_cases ha : a = v
    · subst ha; simp
    · rw [Function.update_of_ne ha, h4]
      split
      · rw [Finset.mem_erase]
        simp only [Finset.mem_insert, Finset.mem_singleton, not_or]
        constructor
        · rintro ⟨h, h'⟩; exact ⟨h', fun h => ha h.symm, fun h' => h h'.symm⟩
        · rintro ⟨h, h', h''⟩; exact ⟨fun h => h'' h.symm, h⟩
      · rename_i hav
        simp only [Finset.mem_insert, Finset.mem_singleton, not_or]
        refine ⟨fun h => ⟨h, fun h => ha h.symm, ?_⟩, fun h => h.1⟩
        rintro rfl
        exact hav (hU.symm h)
  · intro k
    dsimp only
    by_cases hk : k = v
    · subst hk; simp
    · rw [Function.update_of_ne hk, Function.update_of_ne hk, h4, h5]
      split
      · rename_i h
        have := Finset.card_erase_add_one (hU.symm h)
        have := hU.degree k
        omega
      · exact hU.degree k

theorem deleteNode_error {U : UG α} (on : SetOrder Unit α) {v : α} (hv : v ∉ U.nodes) :
    U.deleteNode on v = (U, some .key) := by
  unfold deleteNode; rw [if_neg hv]

end Model.UG
