import Verif.Model.Undirected
import Verif.Spec.Undirected
import Verif.Proof.Queries

/-! # Moralization -/

namespace Spec

universe u
variable {α : Type u} {E : α → α → Prop} {A B C : Set α}
open Relation

/-- Adjacent in the moral graph. -/
def MAdj (E : α → α → Prop) (u v : α) : Prop := Adj E u v ∨ (u ≠ v ∧ ∃ c, E u c ∧ E v c)

/-- Walk in the moral graph with all nodes outside `C`. -/
def MWalk (E : α → α → Prop) (C : Set α) : α → α → Prop :=
  ReflTransGen fun u v => MAdj E u v ∧ v ∉ C

theorem moral_of_ball (hE : Acyclic E) {a : α} (_ha : a ∉ C) {t : α × Bool} (h : Ball E C (a, false) t) (ht : t.1 ∉ C) :
    MWalk E C a t.1 := by
  suffices H : ∀ t, Ball E C (a, false) t →
      (t.2 = false → a = t.1 ∨ ∃ u, MWalk E C a u ∧ MAdj E u t.1) ∧
      (t.2 = true → ∃ u, MWalk E C a u ∧ u ∉ C ∧ E u t.1) by
    obtain ⟨h1, h2⟩ := H t h
    obtain ⟨v, e⟩ := t
    cases e with
    | false =>
      rcases h1 rfl with h | ⟨u, h, h'⟩
      · simp only at h; subst h; exact .refl
      · exact h.tail ⟨h', ht⟩
    | true =>
      obtain ⟨u, h, _, h'⟩ := h2 rfl
      exact h.tail ⟨Or.inl (Or.inl h'), ht⟩
  intro t h
  induction h with
  | refl => exact ⟨fun _ => Or.inl rfl, fun h => by simp at h⟩
  | tail _ hst ih =>
    rename_i s t _
    obtain ⟨v, d⟩ := s
    obtain ⟨w, e⟩ := t
    obtain ⟨hadj, hinto, hcol, hnon⟩ := hst
    simp only [mg_adj, mg_into] at *
    cases d with
    | false =>
      have hv : v ∉ C := hnon (by simp)
      have hw : MWalk E C a v := by
        rcases ih.1 rfl with h | ⟨u, h, h'⟩
        · subst h; exact .refl
        · exact h.tail ⟨h', hv⟩
      refine ⟨fun _ => Or.inr ⟨v, hw, Or.inl hadj⟩, fun he => ⟨v, hw, hv, hinto.1 he⟩⟩
    | true =>
      obtain ⟨u, hu, huC, huv⟩ := ih.2 rfl
      constructor
      · intro he
        have hwv : E w v := by
          rcases hadj with h | h
          · have := hinto.2 h; simp [this] at he
          · exact h
        by_cases huw : u = w
        · subst huw
          rcases ReflTransGen.cases_tail hu with h | ⟨x, h1, h2⟩
          · exact Or.inl h.symm
          · exact Or.inr ⟨x, h1, h2.1⟩
        · exact Or.inr ⟨u, hu, Or.inr ⟨huw, v, huv, hwv⟩⟩
      · intro he
        have hvw := hinto.1 he
        have hvC := hnon (by simp [hE.asymm hvw])
        exact ⟨v, hu.tail ⟨Or.inl (Or.inl huv), hvC⟩, hvC, hvw⟩

/-- A moral walk outside `C` yields a d-connection, provided all nodes with parents are ancestors of `A ∪ B ∪ C`. -/
theorem ball_of_moral (hE : Acyclic E)
    (hAn : ∀ x c, E x c → (∃ a ∈ A, Path0 E c a) ∨ (∃ b ∈ B, Path0 E c b) ∨ (mg E).An C c)
    {a b : α} (ha : a ∈ A) (haC : a ∉ C) (hb : b ∈ B) (h : MWalk E C a b) :
    ∃ a' ∈ A, ∃ t : α × Bool, t.1 ∈ B ∧ Ball E C (a', false) t := by
  suffices H : (∃ a' ∈ A, ∃ e, Ball E C (a', false) (b, e)) ∨
      ∃ a' ∈ A, ∃ t : α × Bool, t.1 ∈ B ∧ Ball E C (a', false) t by
    rcases H with ⟨a', ha', e, h⟩ | h
    · exact ⟨a', ha', (b, e), hb, h⟩
    · exact h
  clear hb
  suffices H : b ∉ C ∧ ((∃ a' ∈ A, ∃ e, Ball E C (a', false) (b, e)) ∨
      ∃ a' ∈ A, ∃ t : α × Bool, t.1 ∈ B ∧ Ball E C (a', false) t) from H.2
  induction h with
  | refl => exact ⟨haC, Or.inl ⟨a, ha, false, .refl⟩⟩
  | tail _ hxy ih =>
    rename_i x y _
    refine ⟨hxy.2, ?_⟩
    obtain ⟨hx, ih⟩ := ih
    rcases ih with ⟨a', ha', e, hball⟩ | ih
    swap
    · exact Or.inr ih
    -- from a node that is reached with an arrowhead, to one of its parents
    have hcoll : ∀ v, (∃ a' ∈ A, Ball E C (a', false) (v, true)) → E y v →
        (∃ a' ∈ A, ∃ e, Ball E C (a', false) (y, e)) ∨
        ∃ a' ∈ A, ∃ t : α × Bool, t.1 ∈ B ∧ Ball E C (a', false) t := by
      rintro v ⟨a', ha', hv⟩ hyv
      by_cases han : (mg E).An C v
      · exact Or.inl ⟨a', ha', false, hv.tail (move_collider hE hyv han)⟩
      · have hvC : v ∉ C := fun h => han (an_self h)
        rcases hAn y v hyv with ⟨a2, ha2, hp⟩ | ⟨b2, hb2, hp⟩ | h
        · exact Or.inl ⟨a2, ha2, false, (ball_up hE han hp).tail (move_parent hE hyv hvC)⟩
        · obtain ⟨e', he'⟩ := ball_down hE true han hp
          exact Or.inr ⟨a', ha', (b2, e'), hb2, ReflTransGen.trans hv he'⟩
        · exact absurd h han
    rcases hxy.1 with (h | h) | ⟨_, c, h1, h2⟩
    · exact Or.inl ⟨a', ha', true, hball.tail (move_child hE h hx)⟩
    · cases e with
      | false => exact Or.inl ⟨a', ha', false, hball.tail (move_parent hE h hx)⟩
      | true => exact hcoll x ⟨a', ha', hball⟩ h
    · exact hcoll c ⟨a', ha', hball.tail (move_child hE h1 hx)⟩ h2

theorem mwalk_mem {a b : α} (ha : a ∉ C) (h : MWalk E C a b) : b ∉ C := by
  induction h with
  | refl => exact ha
  | tail _ h _ => exact h.2

/-- Undirected separation by walks, in terms of reachability. -/
theorem usep_iff {adj : α → α → Prop} (hAC : Disjoint A C) :
    USep adj A B C ↔ ∀ a ∈ A, ∀ b ∈ B, ¬ ReflTransGen (fun u v => adj u v ∧ v ∉ C) a b := by
  constructor
  · intro h a ha b hb hr
    have haC := Set.disjoint_left.1 hAC ha
    suffices H : ∃ l, UWalk adj a b l ∧ ∀ v ∈ l, v ∉ C by
      obtain ⟨l, hl, hn⟩ := H
      obtain ⟨v, hv, hc⟩ := h a ha b hb l hl
      exact hn v hv hc
    clear hb
    induction hr with
    | refl => exact ⟨[a], ⟨rfl, rfl, by simp⟩, by simpa using haC⟩
    | tail _ hxy ih =>
      rename_i x y _
      obtain ⟨l, hl, hn⟩ := ih
      refine ⟨l ++ [y], ⟨?_, by simp, ?_⟩, ?_⟩
      · rw [List.head?_append, hl.head]; rfl
      · rw [List.isChain_append]
        refine ⟨hl.chain, by simp, ?_⟩
        intro u hu w hw
        rw [hl.last] at hu; simp at hu hw
        subst hu; subst hw; exact hxy.1
      · intro v hv
        rcases List.mem_append.1 hv with hv | hv
        · exact hn v hv
        · simp at hv; subst hv; exact hxy.2
  · intro h a ha b hb l hl
    by_contra hc
    push Not at hc
    refine h a ha b hb ?_
    clear ha hb h hAC
    obtain ⟨h1, h2, h3⟩ := hl
    induction l generalizing a with
    | nil => simp at h1
    | cons x l ih =>
      simp at h1; subst h1
      cases l with
      | nil => simp at h2; subst h2; exact .refl
      | cons y l =>
        rw [List.isChain_cons_cons] at h3
        refine .head ⟨h3.1, hc y (by simp)⟩ (ih y (fun v hv => hc v (List.mem_cons_of_mem _ hv)) rfl (by simpa using h2) h3.2)

/-- d-separation is separation in the moral graph of the smallest ancestral set. -/
theorem dsep_iff_moral (hE : Acyclic E) (hAC : Disjoint A C) (hBC : Disjoint B C) {T : Set α}
    (hT : ∀ v, v ∈ T ↔ ∃ s ∈ A ∪ B ∪ C, Path0 E v s) :
    DSep E A B C ↔ USep (MAdj (Restrict E T)) A B C := by
  have hup : ∀ i j, E i j → j ∈ T → i ∈ T := by
    intro i j hij hj
    obtain ⟨s, hs, hp⟩ := (hT j).1 hj
    exact (hT i).2 ⟨s, hs, .head hij hp⟩
  have hsub : ∀ s ∈ A ∪ B ∪ C, s ∈ T := fun s hs => (hT s).2 ⟨s, hs, .refl⟩
  have hE' : Acyclic (Restrict E T) := restrict_acyclic hE
  have h1 : DSep E A B C ↔ DSep (Restrict E T) A B C := by
    rw [dsep_iff, dsep_iff]
    have key : ∀ a ∈ A, ∀ b ∈ B, (DConn (Restrict E T) C a b ↔ DConn E C a b) := fun a ha b hb =>
      dconn_restrict hup (hsub a (by simp [ha])) (hsub b (by simp [hb])) (fun c hc => hsub c (by simp [hc]))
    constructor
    · intro h a ha b hb hc; exact h a ha b hb ((key a ha b hb).1 hc)
    · intro h a ha b hb hc; exact h a ha b hb ((key a ha b hb).2 hc)
  rw [h1, dsep_ball hAC, usep_iff hAC]
  constructor
  · intro h a ha b hb hm
    have haC := Set.disjoint_left.1 hAC ha
    obtain ⟨a', ha', t, ht, hball⟩ := ball_of_moral hE' (A := A) (B := B) (C := C) (by
      intro x c hxc
      obtain ⟨s, hs, hp⟩ := (hT c).1 hxc.2.2
      have hp' : Path0 (Restrict E T) c s := by
        clear hxc
        induction hp using ReflTransGen.head_induction_on with
        | refl => exact .refl
        | head hab hbs ih =>
          have hb : _ ∈ T := (hT _).2 ⟨s, hs, hbs⟩
          exact .head ⟨hab, hup _ _ hab hb, hb⟩ ih
      rcases hs with (hs | hs) | hs
      · exact Or.inl ⟨s, hs, hp'⟩
      · exact Or.inr (Or.inl ⟨s, hs, hp'⟩)
      · exact Or.inr (Or.inr ⟨s, hs, hp'⟩)) ha haC hb hm
    exact h a' ha' t ht hball
  · intro h a ha t ht hball
    exact h a ha t.1 ht (moral_of_ball hE' (Set.disjoint_left.1 hAC ha) hball (Set.disjoint_left.1 hBC ht))

end Spec

namespace Model

set_option linter.unusedSectionVars false
set_option linter.unusedVariables false
set_option linter.unusedSimpArgs false
universe u
variable {α : Type u} [DecidableEq α]
open Spec

theorem mem_pairs {β : Type u} {l : List β} (hl : l.Nodup) {x y : β} :
    ((x, y) ∈ DAG.pairs l ∨ (y, x) ∈ DAG.pairs l) ↔ x ∈ l ∧ y ∈ l ∧ x ≠ y := by
  induction l with
  | nil => simp [DAG.pairs]
  | cons z l ih =>
    rw [List.nodup_cons] at hl
    have := ih hl.2
    simp only [DAG.pairs, List.mem_append, List.mem_map, Prod.mk.injEq, List.mem_cons]
    constructor
    · rintro ((⟨w, hw, rfl, rfl⟩ | h) | (⟨w, hw, rfl, rfl⟩ | h))
      · exact ⟨Or.inl rfl, Or.inr hw, by rintro rfl; exact hl.1 hw⟩
      · have h' := this.1 (Or.inl h); exact ⟨Or.inr h'.1, Or.inr h'.2.1, h'.2.2⟩
      · exact ⟨Or.inr hw, Or.inl rfl, by rintro rfl; exact hl.1 hw⟩
      · have h' := this.1 (Or.inr h); exact ⟨Or.inr h'.1, Or.inr h'.2.1, h'.2.2⟩
    · rintro ⟨rfl | hx, rfl | hy, hne⟩
      · exact absurd rfl hne
      · exact Or.inl (Or.inl ⟨y, hy, rfl, rfl⟩)
      · exact Or.inr (Or.inl ⟨x, hx, rfl, rfl⟩)
      · rcases this.2 ⟨hx, hy, hne⟩ with h | h
        · exact Or.inl (Or.inr h)
        · exact Or.inr (Or.inr h)

namespace DAG
variable {G : DAG α}

/-- `vstructures()` lists every v-structure in exactly one of its two readings. -/
theorem vstructures_spec (hG : G.Consistent) (o : SetOrder α α) (a c b : α) :
    ((a, c, b) ∈ vstructures G o ∨ (b, c, a) ∈ vstructures G o) ↔ VStruct G.E a c b := by
  have hm : ∀ a b, (a, c, b) ∈ vstructures G o ↔
      c ∈ G.nodes ∧ (a, b) ∈ pairs (o.ord c (G.parents c)) ∧ ¬ G.E a b ∧ ¬ G.E b a := by
    intro a b
    simp only [vstructures, Finset.mem_biUnion, List.mem_toFinset, List.mem_map, List.mem_filter,
      decide_eq_true_eq, hG.parents_iff, Prod.mk.injEq, E]
    constructor
    · rintro ⟨v, hv, p, ⟨hp, h1, h2⟩, rfl, rfl, rfl⟩
      exact ⟨hv, hp, h1, h2⟩
    · rintro ⟨hv, hp, h1, h2⟩
      exact ⟨c, hv, (a, b), ⟨hp, h1, h2⟩, rfl, rfl, rfl⟩
  rw [hm, hm]
  have hp := mem_pairs (o.nodup c (G.parents c)) (x := a) (y := b)
  simp only [o.mem_iff, hG.parents_iff] at hp
  constructor
  · rintro (⟨_, h1, h2, h3⟩ | ⟨_, h1, h2, h3⟩)
    · obtain ⟨g1, g2, g3⟩ := hp.1 (Or.inl h1)
      exact ⟨g3, g1, g2, fun h => h.elim h2 h3⟩
    · obtain ⟨g1, g2, g3⟩ := hp.1 (Or.inr h1)
      exact ⟨g3, g1, g2, fun h => h.elim h3 h2⟩
  · rintro ⟨h1, h2, h3, h4⟩
    have hc := hG.snd_mem _ _ h2
    rcases hp.2 ⟨h2, h3, h1⟩ with h | h
    · exact Or.inl ⟨hc, h, fun h => h4 (Or.inl h), fun h => h4 (Or.inr h)⟩
    · exact Or.inr ⟨hc, h, fun h => h4 (Or.inr h), fun h => h4 (Or.inl h)⟩

end DAG

namespace UG

theorem new_edges (oe : SetOrder Unit (Finset α)) (ou : SetOrder Unit α) (nodes : Finset α)
    (edges : Finset (α × α)) :
    (new oe ou nodes edges).edges = (edges.filter fun e => e.1 ≠ e.2).image fun e => ({e.1, e.2} : Finset α) := by
  unfold new
  simp only
  generalize (edges.filter fun e => e.1 ≠ e.2).image (fun e => ({e.1, e.2} : Finset α)) = es
  have : ∀ (l : List (Finset α)) (U : UG α), U.edges = es → (l.foldl (fun U e => match ou.ord () e with
      | [i, j] => link { U with nodes := insert j (insert i U.nodes) } i j
      | _ => U) U).edges = es := by
    intro l
    induction l with
    | nil => intro U h; exact h
    | cons e l ih =>
      intro U h
      rw [List.foldl_cons]
      apply ih
      split
      · exact h
      · exact h
  exact this _ _ rfl

theorem pair_eq_iff {i j a b : α} (h : i ≠ j) :
    ({i, j} : Finset α) = {a, b} ↔ (i = a ∧ j = b) ∨ (i = b ∧ j = a) := by
  constructor
  · intro he
    have h1 : i ∈ ({a, b} : Finset α) := by rw [← he]; simp
    have h2 : j ∈ ({a, b} : Finset α) := by rw [← he]; simp
    simp at h1 h2
    rcases h1 with rfl | rfl <;> rcases h2 with rfl | rfl <;> simp_all
  · rintro (⟨rfl, rfl⟩ | ⟨rfl, rfl⟩)
    · rfl
    · exact Finset.pair_comm _ _

theorem new_hasEdge (oe : SetOrder Unit (Finset α)) (ou : SetOrder Unit α) (nodes : Finset α)
    (edges : Finset (α × α)) (i j : α) :
    hasEdge (new oe ou nodes edges) i j = true ↔ i ≠ j ∧ ((i, j) ∈ edges ∨ (j, i) ∈ edges) := by
  simp only [hasEdge, decide_eq_true_eq, new_edges, Finset.mem_image, Finset.mem_filter]
  constructor
  · rintro ⟨⟨a, b⟩, ⟨h1, h2⟩, h3⟩
    simp only at h2 h3
    rw [pair_eq_iff h2] at h3
    rcases h3 with ⟨rfl, rfl⟩ | ⟨rfl, rfl⟩
    · exact ⟨h2, Or.inl h1⟩
    · exact ⟨fun h => h2 h.symm, Or.inr h1⟩
  · rintro ⟨h1, h | h⟩
    · exact ⟨(i, j), ⟨h, h1⟩, rfl⟩
    · exact ⟨(j, i), ⟨h, fun h => h1 h.symm⟩, Finset.pair_comm _ _⟩

end UG

theorem DAG.moralGraph_hasEdge {G : DAG α} (hG : G.Valid) (oe : SetOrder Unit (Finset α)) (ou : SetOrder Unit α)
    (ov : SetOrder α α) (i j : α) : (G.moralGraph oe ou ov).hasEdge i j = true ↔ MAdj G.E i j := by
  rw [DAG.moralGraph, UG.new_hasEdge]
  simp only [Finset.mem_union, Finset.mem_image]
  have hv := fun c => DAG.vstructures_spec hG.toConsistent ov i c j
  constructor
  · rintro ⟨hne, (h | ⟨t, h, he⟩) | (h | ⟨t, h, he⟩)⟩
    · exact Or.inl (Or.inl h)
    · obtain ⟨a, c, b⟩ := t
      simp at he; obtain ⟨rfl, rfl⟩ := he
      have := (hv c).1 (Or.inl h)
      exact Or.inr ⟨hne, c, this.2.1, this.2.2.1⟩
    · exact Or.inl (Or.inr h)
    · obtain ⟨a, c, b⟩ := t
      simp at he; obtain ⟨rfl, rfl⟩ := he
      have := (hv c).1 (Or.inr h)
      exact Or.inr ⟨hne, c, this.2.1, this.2.2.1⟩
  · intro h
    have hadj : Adj G.E i j → i ≠ j ∧ ((i, j) ∈ G.arcs ∨ (j, i) ∈ G.arcs) := by
      intro h
      refine ⟨?_, h⟩
      rintro rfl; exact hG.acyclic i (.single (h.elim id id))
    by_cases ha : Adj G.E i j
    · obtain ⟨h1, h2 | h2⟩ := hadj ha
      · exact ⟨h1, Or.inl (Or.inl h2)⟩
      · exact ⟨h1, Or.inr (Or.inl h2)⟩
    · rcases h with h | ⟨hne, c, h1, h2⟩
      · exact absurd h ha
      · refine ⟨hne, ?_⟩
        rcases (hv c).2 ⟨hne, h1, h2, ha⟩ with h | h
        · exact Or.inl (Or.inr ⟨_, h, rfl⟩)
        · exact Or.inr (Or.inr ⟨_, h, rfl⟩)

end Model
