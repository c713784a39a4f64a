import Verif.Proof.Reach
import Verif.Proof.DSep

/-! # Mutators -/

namespace Model

set_option linter.unusedSectionVars false
set_option linter.unusedVariables false
set_option linter.unusedSimpArgs false
universe u
variable {α : Type u} [DecidableEq α]
open Relation Spec

theorem andThen_none {G : DAG α} {f : DAG α → Step α} : Step.andThen (G, none) f = f G := rfl

theorem andThen_some {G : DAG α} {e : Exn α} {f : DAG α → Step α} :
    Step.andThen (G, some e) f = (G, some e) := rfl

namespace DAG

variable {G : DAG α}

/-- No self loops and no two-cycles. -/
def Asym (G : DAG α) : Prop := ∀ i j, (i, j) ∈ G.arcs → (j, i) ∉ G.arcs

theorem Valid.asym (h : G.Valid) : G.Asym := fun _ _ h1 h2 => h.acyclic.asymm h1 h2

theorem Asym.ne (h : G.Asym) {i j : α} (hij : (i, j) ∈ G.arcs) : i ≠ j := by
  rintro rfl; exact h _ _ hij hij

theorem link_parents (G : DAG α) (i j a b : α) :
    a ∈ (link G i j).parents b ↔ a ∈ G.parents b ∨ (a = i ∧ b = j) := by
  simp only [link, Function.update_apply]; split_ifs with h
  · subst h; simp [or_comm]
  · simp [h]

theorem link_children (G : DAG α) (i j a b : α) :
    b ∈ (link G i j).children a ↔ b ∈ G.children a ∨ (a = i ∧ b = j) := by
  simp only [link, Function.update_apply]; split_ifs with h
  · subst h; simp [or_comm]
  · simp [h]

theorem link_neighbors (G : DAG α) (i j a b : α) :
    a ∈ (link G i j).neighbors b ↔ a ∈ G.neighbors b ∨ (a = i ∧ b = j) ∨ (b = i ∧ a = j) := by
  simp only [link, Function.update_apply]
  split_ifs with h h' h'
  · subst h; subst h'; simp; tauto
  · subst h; simp [h']; tauto
  · subst h'; simp [h]; tauto
  · simp [h, h']

@[simp] theorem link_nodes (G : DAG α) (i j : α) : (link G i j).nodes = G.nodes := rfl
@[simp] theorem link_arcs (G : DAG α) (i j : α) : (link G i j).arcs = G.arcs := rfl

theorem linkAll_spec (l : List (α × α)) (G : DAG α) :
    let G' := l.foldl (fun G a => link G a.1 a.2) G
    G'.nodes = G.nodes ∧ G'.arcs = G.arcs ∧
    (∀ a b, a ∈ G'.parents b ↔ a ∈ G.parents b ∨ (a, b) ∈ l) ∧
    (∀ a b, b ∈ G'.children a ↔ b ∈ G.children a ∨ (a, b) ∈ l) ∧
    (∀ a b, a ∈ G'.neighbors b ↔ a ∈ G.neighbors b ∨ (a, b) ∈ l ∨ (b, a) ∈ l) := by
  induction l generalizing G with
  | nil => simp
  | cons x l ih =>
    obtain ⟨h1, h2, h3, h4, h5⟩ := ih (link G x.1 x.2)
    obtain ⟨i, j⟩ := x
    refine ⟨h1, h2, fun a b => ?_, fun a b => ?_, fun a b => ?_⟩
    · rw [List.foldl_cons, h3, link_parents]; simp; tauto
    · rw [List.foldl_cons, h4, link_children]; simp; tauto
    · rw [List.foldl_cons, h5, link_neighbors]; simp; tauto

theorem addArcUnchecked_consistent (hG : G.Consistent) (i j : α) :
    (addArcUnchecked G i j).Consistent where
  parents_iff a b := by
    simp [addArcUnchecked, link_parents, hG.parents_iff]; tauto
  children_iff a b := by
    simp [addArcUnchecked, link_children, hG.children_iff]; tauto
  neighbors_iff a b := by
    simp [addArcUnchecked, link_neighbors, hG.neighbors_iff]; tauto
  fst_mem a b h := by
    simp [addArcUnchecked] at h ⊢
    rcases h with ⟨rfl, rfl⟩ | h
    · simp
    · exact Or.inr (Or.inr (hG.fst_mem _ _ h))
  snd_mem a b h := by
    simp [addArcUnchecked] at h ⊢
    rcases h with ⟨rfl, rfl⟩ | h
    · simp
    · exact Or.inr (Or.inr (hG.snd_mem _ _ h))

theorem addArcUnchecked_arcs (G : DAG α) (i j : α) :
    (addArcUnchecked G i j).arcs = insert (i, j) G.arcs := rfl

theorem addArcUnchecked_nodes (G : DAG α) (i j : α) :
    (addArcUnchecked G i j).nodes = insert j (insert i G.nodes) := rfl

theorem addArcsUnchecked_spec (hG : G.Consistent) (l : List (α × α)) :
    (addArcsUnchecked G l).Consistent ∧ (addArcsUnchecked G l).arcs = G.arcs ∪ l.toFinset ∧
    (addArcsUnchecked G l).nodes =
      G.nodes ∪ (l.map Prod.fst).toFinset ∪ (l.map Prod.snd).toFinset := by
  obtain ⟨h1, h2, h3, h4, h5⟩ := linkAll_spec l { G with
      nodes := G.nodes ∪ (l.map Prod.fst).toFinset ∪ (l.map Prod.snd).toFinset
      arcs := G.arcs ∪ l.toFinset }
  refine ⟨⟨?_, ?_, ?_, ?_, ?_⟩, h2, h1⟩
  · intro a b; rw [addArcsUnchecked, h3, h2]; simp [hG.parents_iff]
  · intro a b; rw [addArcsUnchecked, h4, h2]; simp [hG.children_iff]
  · intro a b; rw [addArcsUnchecked, h5, h2]; simp [hG.neighbors_iff]; tauto
  · intro a b; rw [addArcsUnchecked, h1, h2]
    intro h
    rcases Finset.mem_union.1 h with h | h
    · simp [hG.fst_mem _ _ h]
    · simp at h; simp; exact Or.inr (Or.inl ⟨b, h⟩)
  · intro a b; rw [addArcsUnchecked, h1, h2]
    intro h
    rcases Finset.mem_union.1 h with h | h
    · simp [hG.snd_mem _ _ h]
    · simp at h; simp; exact Or.inr (Or.inr ⟨a, h⟩)

/-! ## Removal of an arc -/

theorem removeArc_spec (hG : G.Consistent) {i j : α} (h : (i, j) ∈ G.arcs) (h' : (j, i) ∉ G.arcs)
    (ig : Bool) :
    ∃ G', removeArc ig G i j = (G', none) ∧ G'.Consistent ∧ G'.nodes = G.nodes ∧
      G'.arcs = G.arcs.erase (i, j) := by
  have hne : i ≠ j := by rintro rfl; exact h' h
  have hp : i ∈ G.parents j := (hG.parents_iff _ _).2 h
  have hc : j ∈ G.children i := (hG.children_iff _ _).2 h
  have hn1 : i ∈ G.neighbors j := (hG.neighbors_iff _ _).2 (Or.inl h)
  have hn2 : j ∈ G.neighbors i := (hG.neighbors_iff _ _).2 (Or.inr h)
  refine ⟨⟨G.nodes, G.arcs.erase (i, j),
    Function.update (Function.update G.neighbors j ((G.neighbors j).erase i)) i ((G.neighbors i).erase j),
    Function.update G.parents j ((G.parents j).erase i),
    Function.update G.children i ((G.children i).erase j)⟩, ?_, ?_, rfl, rfl⟩
  · simp [removeArc, delArc, delParent, delChild, delNbr, Step.andThen, h, hp, hc, hn1, hn2,
      Function.update_of_ne hne]
  · refine ⟨?_, ?_, ?_, ?_, ?_⟩
    · intro a b
      simp only [Function.update_apply, Finset.mem_erase, ne_eq, Prod.mk.injEq, not_and]
      split_ifs with hb
      · subst hb; simp [hG.parents_iff]
      · simp [hG.parents_iff, hb]
    · intro a b
      simp only [Function.update_apply, Finset.mem_erase, ne_eq, Prod.mk.injEq, not_and]
      split_ifs with hb
      · subst hb; simp [hG.children_iff]
      · simp [hG.children_iff, hb]
    · intro a b
      simp only [Function.update_apply, Finset.mem_erase, ne_eq, Prod.mk.injEq, not_and]
      split_ifs with hb hb'
      · subst hb
        simp only [Finset.mem_erase, hG.neighbors_iff]
        by_cases haj : a = j
        · subst haj; simp [h']
        · simp [haj]; tauto
      · subst hb'
        simp only [Finset.mem_erase, hG.neighbors_iff]
        by_cases hai : a = i
        · subst hai; simp [h']
        · simp [hai]; tauto
      · simp only [hG.neighbors_iff]; tauto
    · intro a b hab; exact hG.fst_mem _ _ (Finset.mem_of_mem_erase hab)
    · intro a b hab; exact hG.snd_mem _ _ (Finset.mem_of_mem_erase hab)

theorem removeArc_absent {i j : α} (h : (i, j) ∉ G.arcs) (ig : Bool) :
    removeArc ig G i j = (G, if ig then none else some .key) := by
  cases ig <;> simp [removeArc, delArc, Step.andThen, h]

theorem Asym.mono {G' : DAG α} (h : G.Asym) (hs : G'.arcs ⊆ G.arcs) : G'.Asym :=
  fun i j h1 h2 => h i j (hs h1) (hs h2)

theorem removeArcs_spec (ig : Bool) : ∀ (l : List (α × α)) (G : DAG α), G.Consistent → G.Asym → l.Nodup →
    (∀ a ∈ l, a ∈ G.arcs) →
    ∃ G', forEach (fun G (a : α × α) => removeArc ig G a.1 a.2) l G = (G', none) ∧ G'.Consistent ∧
      G'.nodes = G.nodes ∧ G'.arcs = G.arcs \ l.toFinset := by
  intro l
  induction l with
  | nil => intro G hG _ _ _; exact ⟨G, rfl, hG, rfl, by simp⟩
  | cons x l ih =>
    intro G hG hA hn hm
    obtain ⟨i, j⟩ := x
    have hx := hm (i, j) (by simp)
    obtain ⟨G1, h1, h2, h3, h4⟩ := removeArc_spec hG hx (hA _ _ hx) ig
    rw [List.nodup_cons] at hn
    obtain ⟨G2, g1, g2, g3, g4⟩ := ih G1 h2 (hA.mono (by rw [h4]; exact Finset.erase_subset _ _)) hn.2
      (fun a ha => by
        rw [h4]; refine Finset.mem_erase.2 ⟨?_, hm a (by simp [ha])⟩
        rintro rfl; exact hn.1 ha)
    refine ⟨G2, ?_, g2, g3.trans h3, ?_⟩
    · simp only [forEach, h1, andThen_none, g1]
    · rw [g4, h4]; ext a; simp; tauto

/-! ## Adding arcs with the acyclicity check -/

theorem addArc_cases (hG : G.Consistent) (o : SetOrder (Option α) α) (i j : α) :
    (Acyclic (addArcUnchecked G i j).E ∧ addArc true o G i j = some (addArcUnchecked G i j, none)) ∨
    (¬ Acyclic (addArcUnchecked G i j).E ∧ ∃ l, addArc true o G i j =
      some ((removeArc false (addArcUnchecked G i j) i j).andThen fun G2 => (G2, some (.cycle l)))) := by
  have hc := addArcUnchecked_consistent hG i j
  by_cases ha : Acyclic (addArcUnchecked G i j).E
  · left
    obtain ⟨l, hl, _⟩ := topologicalSort_ok _ o ⟨hc, ha⟩
    refine ⟨ha, ?_⟩
    simp only [addArc, hl, if_true]
  · right
    obtain ⟨l, hl, _⟩ := topologicalSort_error _ o hc ha
    refine ⟨ha, l, ?_⟩
    simp only [addArc, hl, if_true]

theorem addArcsFrom_cases (hG : G.Consistent) (o : SetOrder (Option α) α) (oa : SetOrder Bool (α × α))
    (arcs : Finset (α × α)) (hne : arcs.card ≠ 0) :
    (Acyclic (addArcsUnchecked G (oa.ord false arcs)).E ∧
      addArcsFrom true o oa G arcs = some (addArcsUnchecked G (oa.ord false arcs), none)) ∨
    (¬ Acyclic (addArcsUnchecked G (oa.ord false arcs)).E ∧ ∃ l, addArcsFrom true o oa G arcs =
      some ((forEach (fun G (a : α × α) => removeArc false G a.1 a.2) (oa.ord true arcs)
        (addArcsUnchecked G (oa.ord false arcs))).andThen fun G2 => (G2, some (.cycle l)))) := by
  have hc := (addArcsUnchecked_spec hG (oa.ord false arcs)).1
  by_cases ha : Acyclic (addArcsUnchecked G (oa.ord false arcs)).E
  · left
    obtain ⟨l, hl, _⟩ := topologicalSort_ok _ o ⟨hc, ha⟩
    refine ⟨ha, ?_⟩
    simp only [addArcsFrom, hl, hne, if_true, if_false]
  · right
    obtain ⟨l, hl, _⟩ := topologicalSort_error _ o hc ha
    refine ⟨ha, l, ?_⟩
    simp only [addArcsFrom, hl, hne, if_true, if_false]

theorem insert_acyclic {E : α → α → Prop} (hE : Acyclic E) (i j : α) :
    Acyclic (fun a b => E a b ∨ (a = i ∧ b = j)) ↔ i ≠ j ∧ ¬ Path E j i := by
  constructor
  · intro h
    constructor
    · rintro rfl; exact h i (.single (Or.inr ⟨rfl, rfl⟩))
    · intro hp
      exact h j ((path_mono (fun a b h => Or.inl h) hp).tail (Or.inr ⟨rfl, rfl⟩))
  · rintro ⟨hne, hp⟩ v hv
    have key : ∀ a b, Path (fun a b => E a b ∨ (a = i ∧ b = j)) a b →
        Path E a b ∨ (Path0 E a i ∧ Path0 E j b) := by
      intro a b h
      induction h with
      | single h =>
        rcases h with h | ⟨rfl, rfl⟩
        · exact Or.inl (.single h)
        · exact Or.inr ⟨.refl, .refl⟩
      | tail _ h ih =>
        rcases h with h | ⟨rfl, rfl⟩
        · rcases ih with ih | ⟨h1, h2⟩
          · exact Or.inl (ih.tail h)
          · exact Or.inr ⟨h1, h2.tail h⟩
        · rcases ih with ih | ⟨h1, h2⟩
          · exact Or.inr ⟨ih.to_reflTransGen, .refl⟩
          · exact Or.inr ⟨h1, .refl⟩
    rcases key v v hv with h | ⟨h1, h2⟩
    · exact hE v h
    · rcases (ReflTransGen.trans h2 h1).cases_head with h | ⟨c, h3, h4⟩
      · exact hne h.symm
      · exact hp (TransGen.head' h3 h4)

theorem addArcUnchecked_E (G : DAG α) (i j : α) :
    (addArcUnchecked G i j).E = fun a b => G.E a b ∨ (a = i ∧ b = j) := by
  funext a b
  simp [E, addArcUnchecked_arcs, or_comm]

theorem andThen_fst {P : DAG α → Prop} {r : Step α} {f : DAG α → Step α} (h : P r.1)
    (hf : ∀ G, P G → P (f G).1) : P (r.andThen f).1 := by
  rcases r with ⟨G, _ | e⟩
  · exact hf _ h
  · exact h

theorem removeArc_arcs {i j : α} (h : (i, j) ∈ G.arcs) (ig : Bool) :
    (removeArc ig G i j).1.arcs = G.arcs.erase (i, j) ∧ (removeArc ig G i j).1.nodes = G.nodes := by
  have key : (fun G' : DAG α => G'.arcs = G.arcs.erase (i, j) ∧ G'.nodes = G.nodes)
      (((((delArc (i, j) G).andThen (delParent j i)).andThen (delChild i j)).andThen
      (delNbr j i)).andThen (delNbr i j)).1 := by
    apply andThen_fst (P := fun G' => G'.arcs = G.arcs.erase (i, j) ∧ G'.nodes = G.nodes)
    · apply andThen_fst (P := fun G' => G'.arcs = G.arcs.erase (i, j) ∧ G'.nodes = G.nodes)
      · apply andThen_fst (P := fun G' => G'.arcs = G.arcs.erase (i, j) ∧ G'.nodes = G.nodes)
        · apply andThen_fst (P := fun G' => G'.arcs = G.arcs.erase (i, j) ∧ G'.nodes = G.nodes)
          · simp [delArc, h]
          · intro G' h'; unfold delParent; split_ifs <;> exact h'
        · intro G' h'; unfold delChild; split_ifs <;> exact h'
      · intro G' h'; unfold delNbr; split_ifs <;> exact h'
    · intro G' h'; unfold delNbr; split_ifs <;> exact h'
  cases ig <;> exact key

/-- Rolling back an arc that closed a cycle restores the arcs. -/
theorem rollback_arcs (i j : α) (l : List α) :
    ((removeArc false (addArcUnchecked G i j) i j).andThen fun G2 => (G2, some (.cycle l))).1.arcs =
      (insert (i, j) G.arcs).erase (i, j) :=
  andThen_fst (P := fun G' => G'.arcs = (insert (i, j) G.arcs).erase (i, j))
    (removeArc_arcs (by simp [addArcUnchecked_arcs]) false).1 (fun _ h => h)

theorem rollback_exn (i j : α) (l : List α) :
    ∃ e, ((removeArc false (addArcUnchecked G i j) i j).andThen fun G2 => (G2, some (.cycle l))).2 = some e := by
  rcases hr : removeArc false (addArcUnchecked G i j) i j with ⟨G1, _ | e⟩
  · exact ⟨_, rfl⟩
  · exact ⟨e, rfl⟩

theorem rollback_nodes (i j : α) (l : List α) :
    ((removeArc false (addArcUnchecked G i j) i j).andThen fun G2 => (G2, some (.cycle l))).1.nodes =
      insert j (insert i G.nodes) :=
  andThen_fst (P := fun G' => G'.nodes = insert j (insert i G.nodes))
    (removeArc_arcs (by simp [addArcUnchecked_arcs]) false).2 (fun _ h => h)

/-! ## Removing a node -/

theorem removeNode_loop1 (v : α) : ∀ (l : List α) (G : DAG α), l.Nodup →
    (∀ p ∈ l, v ∈ G.children p ∧ v ∈ G.neighbors p) →
    forEach (fun G p => (delChild p v G).andThen (delNbr p v)) l G =
      ({ G with
          children := fun x => if x ∈ l then (G.children x).erase v else G.children x
          neighbors := fun x => if x ∈ l then (G.neighbors x).erase v else G.neighbors x }, none) := by
  intro l
  induction l with
  | nil => intro G _ _; simp [forEach]
  | cons p l ih =>
    intro G hn h
    rw [List.nodup_cons] at hn
    obtain ⟨h1, h2⟩ := h p (by simp)
    rw [forEach, show ((delChild p v G).andThen (delNbr p v)) = (⟨G.nodes, G.arcs, Function.update G.neighbors p ((G.neighbors p).erase v), G.parents,
      Function.update G.children p ((G.children p).erase v)⟩, none) by simp [delChild, h1, delNbr, h2, Step.andThen], andThen_none]
    rw [ih _ hn.2 (by
      intro q hq
      have hqp : q ≠ p := by rintro rfl; exact hn.1 hq
      simpa [Function.update_of_ne hqp] using h q (by simp [hq]))]
    congr 1
    ext1 <;> try rfl
    all_goals
      simp only
      funext x
      by_cases hx : x = p
      · subst hx; simp [hn.1]
      · simp [hx, Function.update_of_ne hx]

theorem removeNode_loop2 (v : α) : ∀ (l : List α) (G : DAG α), l.Nodup →
    (∀ p ∈ l, v ∈ G.parents p ∧ v ∈ G.neighbors p) →
    forEach (fun G p => (delParent p v G).andThen (delNbr p v)) l G =
      ({ G with
          parents := fun x => if x ∈ l then (G.parents x).erase v else G.parents x
          neighbors := fun x => if x ∈ l then (G.neighbors x).erase v else G.neighbors x }, none) := by
  intro l
  induction l with
  | nil => intro G _ _; simp [forEach]
  | cons p l ih =>
    intro G hn h
    rw [List.nodup_cons] at hn
    obtain ⟨h1, h2⟩ := h p (by simp)
    rw [forEach, show ((delParent p v G).andThen (delNbr p v)) = (⟨G.nodes, G.arcs, Function.update G.neighbors p ((G.neighbors p).erase v),
      Function.update G.parents p ((G.parents p).erase v), G.children⟩, none) by simp [delParent, h1, delNbr, h2, Step.andThen], andThen_none]
    rw [ih _ hn.2 (by
      intro q hq
      have hqp : q ≠ p := by rintro rfl; exact hn.1 hq
      simpa [Function.update_of_ne hqp] using h q (by simp [hq]))]
    congr 1
    ext1 <;> try rfl
    all_goals
      simp only
      funext x
      by_cases hx : x = p
      · subst hx; simp [hn.1]
      · simp [hx, Function.update_of_ne hx]

theorem removeNode_spec (hG : G.Consistent) (hA : G.Asym) (ig : Bool) (o : SetOrder Bool α) {v : α}
    (hv : v ∈ G.nodes) :
    ∃ G', removeNode ig o G v = (G', none) ∧ G'.Consistent ∧ G'.nodes = G.nodes.erase v ∧
      G'.arcs = G.arcs.filter (fun a => a.1 ≠ v ∧ a.2 ≠ v) := by
  have e1 := removeNode_loop1 v (o.ord false (G.parents v)) { G with nodes := G.nodes.erase v }
    (o.nodup _ _) (by
      intro p hp
      rw [o.mem_iff, hG.parents_iff] at hp
      exact ⟨(hG.children_iff _ _).2 hp, (hG.neighbors_iff _ _).2 (Or.inr hp)⟩)
  have hvp : v ∉ o.ord false (G.parents v) := by
    rw [o.mem_iff, hG.parents_iff]; exact fun h => hA _ _ h h
  set G1 : DAG α := { nodes := G.nodes.erase v, arcs := G.arcs, parents := G.parents,
                      children := fun x => if x ∈ o.ord false (G.parents v) then (G.children x).erase v
                        else G.children x
                      neighbors := fun x => if x ∈ o.ord false (G.parents v) then (G.neighbors x).erase v
                        else G.neighbors x } with hG1
  have hG1c : G1.children v = G.children v := by simp [hG1, hvp]
  have e2 := removeNode_loop2 v (o.ord true (G1.children v)) G1 (o.nodup _ _) (by
      intro c hc
      rw [o.mem_iff, hG1c, hG.children_iff] at hc
      refine ⟨(hG.parents_iff _ _).2 hc, ?_⟩
      have : c ∉ o.ord false (G.parents v) := by
        rw [o.mem_iff, hG.parents_iff]; exact fun h => hA _ _ h hc
      simp only [hG1, this, if_false]
      exact (hG.neighbors_iff _ _).2 (Or.inl hc))
  refine ⟨_, by
    simp only [removeNode, hv, if_true]
    rw [e1, andThen_none, e2, andThen_none]
    cases ig <;> rfl, ⟨?_, ?_, ?_, ?_, ?_⟩, rfl, rfl⟩
  · intro a b
    simp only [Function.update_apply, Finset.mem_filter, hG1, hvp, if_false]
    split_ifs with hb hb'
    · simp [hb]
    · rw [o.mem_iff, hG.children_iff] at hb'
      simp [hb, hG.parents_iff, and_comm]
    · rw [o.mem_iff, hG.children_iff] at hb'
      rw [hG.parents_iff]
      simp [hb]
      intro hab; rintro rfl; exact hb' hab
  · intro a b
    simp only [Function.update_apply, Finset.mem_filter, hG1]
    split_ifs with hb hb'
    · simp [hb]
    · rw [o.mem_iff, hG.parents_iff] at hb'
      simp [hb, hG.children_iff, and_comm]
    · rw [o.mem_iff, hG.parents_iff] at hb'
      rw [hG.children_iff]
      simp [hb]
      intro hab; rintro rfl; exact hb' hab
  · intro a b
    simp only [Function.update_apply, Finset.mem_filter, hG1, hvp, if_false]
    by_cases hb : b = v
    · simp [hb]
    · simp only [hb, if_false]
      have hm : v ∈ G.neighbors b ↔ b ∈ o.ord false (G.parents v) ∨ b ∈ o.ord true (G.children v) := by
        rw [o.mem_iff, o.mem_iff, hG.neighbors_iff, hG.parents_iff, hG.children_iff]; tauto
      by_cases h1 : b ∈ o.ord false (G.parents v) <;> by_cases h2 : b ∈ o.ord true (G.children v) <;>
        simp only [h1, h2, if_true, if_false, Finset.mem_erase, hG.neighbors_iff] <;>
        simp only [h1, h2, true_or, or_true, or_false, iff_true, iff_false, hG.neighbors_iff] at hm <;>
        by_cases hav : a = v <;> simp_all
  · intro a b h
    simp only [Finset.mem_filter] at h
    exact Finset.mem_erase.2 ⟨h.2.1, hG.fst_mem _ _ h.1⟩
  · intro a b h
    simp only [Finset.mem_filter] at h
    exact Finset.mem_erase.2 ⟨h.2.2, hG.snd_mem _ _ h.1⟩

theorem removeNode_absent (o : SetOrder Bool α) {v : α} (hv : v ∉ G.nodes) (ig : Bool) :
    removeNode ig o G v = (G, if ig then none else some .key) := by
  cases ig <;> simp [removeNode, hv]

theorem empty_consistent (nodes : Finset α) : (empty nodes).Consistent := by
  constructor <;> simp [empty]

end DAG
end Model
