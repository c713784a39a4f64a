import Verif.Model.DSep
import Verif.Proof.Reach
import Verif.Proof.Walks

/-! # Correctness of the separation algorithms -/

namespace Spec

universe u
variable {α : Type u}
open Relation

theorem path0_map {β : Type*} {E : α → α → Prop} {F : β → β → Prop} (f : α → β)
    (h : ∀ a b, E a b → F (f a) (f b)) {a b : α} (hab : Path0 E a b) : Path0 F (f a) (f b) := by
  induction hab with
  | refl => exact .refl
  | tail _ hbc ih => exact ih.tail (h _ _ hbc)

theorem path_map {β : Type*} {E : α → α → Prop} {F : β → β → Prop} (f : α → β)
    (h : ∀ a b, E a b → F (f a) (f b)) {a b : α} (hab : Path E a b) : Path F (f a) (f b) := by
  induction hab with
  | single hab => exact .single (h _ _ hab)
  | tail _ hbc ih => exact ih.tail (h _ _ hbc)

theorem path_mono {E F : α → α → Prop} (h : ∀ a b, E a b → F a b) {a b : α} (hab : Path E a b) :
    Path F a b := path_map id h hab

theorem path0_mono {E F : α → α → Prop} (h : ∀ a b, E a b → F a b) {a b : α} (hab : Path0 E a b) :
    Path0 F a b := path0_map id h hab

theorem acyclic_mono {E F : α → α → Prop} (h : ∀ a b, E a b → F a b) (hF : Acyclic F) : Acyclic E :=
  fun v hv => hF v (path_mono h hv)

/-- A directed graph as an abstract mixed graph. -/
def mg (E : α → α → Prop) : MG α := ⟨Adj E, E, E⟩

@[simp] theorem mg_adj (E : α → α → Prop) (a b : α) : (mg E).adj a b ↔ (E a b ∨ E b a) := Iff.rfl
@[simp] theorem mg_into (E : α → α → Prop) (a b : α) : (mg E).into a b ↔ E a b := Iff.rfl
@[simp] theorem mg_dir (E : α → α → Prop) (a b : α) : (mg E).dir a b ↔ E a b := Iff.rfl

theorem mg_ok (E : α → α → Prop) : (mg E).Ok where
  symm := fun _ _ h => Or.symm h
  into_adj := fun _ _ h => Or.inl h
  dir_into := fun _ _ h => h
  head := fun _ _ _ _ h => h.symm

theorem activePath_iff {E : α → α → Prop} {C : Set α} {a b : α} {l : List α} :
    ActivePath E C a b l ↔ (mg E).Walk C a b l ∧ l.Nodup :=
  ⟨fun h => ⟨⟨h.head, h.last, h.adj, h.opn⟩, h.nodup⟩, fun h => ⟨h.1.head, h.1.last, h.2, h.1.adj, h.1.opn⟩⟩

/-- d-connection by an active walk; the working notion. -/
def DConn (E : α → α → Prop) (C : Set α) (a b : α) : Prop := ∃ l, (mg E).Walk C a b l

theorem dconn_iff {E : α → α → Prop} {C : Set α} {a b : α} :
    DConn E C a b ↔ ∃ l, ActivePath E C a b l := by
  constructor
  · rintro ⟨l, h⟩
    obtain ⟨l', h1, h2, _⟩ := h.exists_path (mg_ok E) _ l le_rfl
    exact ⟨l', activePath_iff.2 ⟨h1, h2⟩⟩
  · rintro ⟨l, h⟩; exact ⟨l, (activePath_iff.1 h).1⟩

theorem dsep_iff {E : α → α → Prop} {A B C : Set α} :
    DSep E A B C ↔ ∀ a ∈ A, ∀ b ∈ B, ¬ DConn E C a b := by
  simp only [DSep, dconn_iff, not_exists]

theorem dconn_symm {E : α → α → Prop} {C : Set α} {a b : α} (h : DConn E C a b) : DConn E C b a :=
  let ⟨_, h⟩ := h; ⟨_, h.reverse (mg_ok E)⟩

theorem dconn_refl (E : α → α → Prop) (C : Set α) (a : α) : DConn E C a a :=
  ⟨[a], rfl, rfl, fun _ _ h => by have := h.length_le; simp at this,
    fun _ _ _ h => by have := h.length_le; simp at this⟩

/-- Ball moves from `a ∉ C`. -/
theorem dconn_iff_moves {E : α → α → Prop} {C : Set α} {a b : α} (ha : a ∉ C) :
    DConn E C a b ↔ ∃ d, ReflTransGen ((mg E).Move C) (a, false) (b, d) := by
  constructor
  · rintro ⟨l, h⟩
    obtain ⟨d, h, _⟩ := MG.moves_of_walk ha l b h
    exact ⟨d, h⟩
  · rintro ⟨d, h⟩
    obtain ⟨l, h, _⟩ := MG.walk_of_moves h
    exact ⟨l, h⟩

theorem Acyclic.asymm {E : α → α → Prop} (h : Acyclic E) {a b : α} (hab : E a b) : ¬ E b a :=
  fun hba => h a (.tail (.single hab) hba)

theorem Acyclic.irrefl {E : α → α → Prop} (h : Acyclic E) {a : α} : ¬ E a a := fun ha => h a (.single ha)

end Spec

namespace Model.DAG

set_option linter.unusedSectionVars false
set_option linter.unusedVariables false
universe u
variable {α : Type u} [DecidableEq α] {G : DAG α}
open Relation Spec

theorem shade_spec (hG : G.Consistent) (o : SepOracle α) (C : Finset α) :
    ∃ s, shade G o C = some s ∧ ∀ x, x ∈ s ↔ (mg G.E).An (C : Set α) x := by
  obtain ⟨s, hs, h1, h2, h3⟩ := foldlM_option (f := fun acc c => addAncestors G o.anc acc c)
    (fun pre s => C ⊆ s ∧ (∀ x ∈ s, (mg G.E).An (C : Set α) x) ∧
      (∀ x ∈ s, (x ∈ C → x ∈ pre) → G.parents x ⊆ s)) (o.cs.ord () C) C
    ⟨le_rfl, fun x hx => ⟨x, hx, .refl⟩, fun x hx h => absurd (h hx) (by simp)⟩ (by
      rintro pre x post s hl ⟨h1, h2, h3⟩
      have hx : x ∈ C := by rw [← o.cs.mem_iff (), hl]; simp
      obtain ⟨s', hs', g1, g2, g3, g4⟩ := collect_spec G.parents o.anc (addAncestors G o.anc)
        (fun acc node => by rw [addAncestors]) (insert x G.nodes)
        (fun y _ => (parents_sub hG y).trans (Finset.subset_insert _ _)) _ s x le_rfl
        (Finset.mem_insert_self _ _)
      refine ⟨s', hs', h1.trans g1, ?_, ?_⟩
      · intro y hy
        rcases g2 y hy with hy | hy
        · exact h2 y hy
        · rw [parents_rel hG, transGen_swap] at hy
          exact ⟨x, hx, hy.to_reflTransGen⟩
      · intro y hy hyC
        by_cases hys : y ∈ s
        · by_cases hyx : y = x
          · subst hyx; exact g3
          · refine (h3 y hys fun hC => ?_).trans g1
            have := hyC hC
            simpa [hyx] using this
        · exact g4 y hy hys)
  refine ⟨s, hs, fun x => ⟨h2 x, ?_⟩⟩
  rintro ⟨c, hc, hxc⟩
  induction hxc using ReflTransGen.head_induction_on with
  | refl => exact h1 hc
  | head hab _ ih =>
    exact h3 _ ih (fun h => (o.cs.mem_iff _ _ _).2 h) ((hG.parents_iff _ _).2 hab)

theorem ancestorsPlus_spec (hG : G.Consistent) (o : SepOracle α) (C : Finset α) :
    ∃ s, ancestorsPlus G o C = some s ∧ ∀ x, x ∈ s ↔ (mg G.E).An (C : Set α) x := by
  obtain ⟨s, hs, h1, h2, h3⟩ := foldlM_option (f := fun acc c => addAncestors G o.anc (insert c acc) c)
    (fun pre s => (∀ x ∈ pre, x ∈ s) ∧ (∀ x ∈ s, (mg G.E).An (C : Set α) x) ∧
      (∀ x ∈ s, G.parents x ⊆ s)) (o.cs.ord () C) ∅ (by simp) (by
      rintro pre x post s hl ⟨h1, h2, h3⟩
      have hx : x ∈ C := by rw [← o.cs.mem_iff (), hl]; simp
      obtain ⟨s', hs', g1, g2, g3, g4⟩ := collect_spec G.parents o.anc (addAncestors G o.anc)
        (fun acc node => by rw [addAncestors]) (insert x G.nodes)
        (fun y _ => (parents_sub hG y).trans (Finset.subset_insert _ _)) _ (insert x s) x le_rfl
        (Finset.mem_insert_self _ _)
      refine ⟨s', hs', ?_, ?_, ?_⟩
      · intro y hy
        rcases List.mem_append.1 hy with hy | hy
        · exact g1 (Finset.mem_insert_of_mem (h1 y hy))
        · simp at hy; subst hy; exact g1 (Finset.mem_insert_self _ _)
      · intro y hy
        rcases g2 y hy with hy | hy
        · rcases Finset.mem_insert.1 hy with rfl | hy
          · exact ⟨y, hx, .refl⟩
          · exact h2 y hy
        · rw [parents_rel hG, transGen_swap] at hy
          exact ⟨x, hx, hy.to_reflTransGen⟩
      · intro y hy
        by_cases hyx : y = x
        · subst hyx; exact g3
        by_cases hys : y ∈ s
        · exact (h3 y hys).trans ((Finset.subset_insert _ _).trans g1)
        · exact g4 y hy (by simp [hyx, hys]))
  refine ⟨s, hs, fun x => ⟨h2 x, ?_⟩⟩
  rintro ⟨c, hc, hxc⟩
  induction hxc using ReflTransGen.head_induction_on with
  | refl => exact h1 c ((o.cs.mem_iff _ _ _).2 hc)
  | head hab _ ih => exact h3 _ ih ((hG.parents_iff _ _).2 hab)

theorem ballSucc_iff (hG : G.Valid) {C shaded : Finset α}
    (hs : ∀ x, x ∈ shaded ↔ (mg G.E).An (C : Set α) x) (s t : α × Bool) :
    t ∈ ballSucc G C shaded s ↔ (mg G.E).Move (C : Set α) s t := by
  obtain ⟨v, d⟩ := s
  obtain ⟨w, e⟩ := t
  have has : G.E v w → ¬ G.E w v := hG.acyclic.asymm
  have hp : w ∈ G.parents v ↔ G.E w v := hG.parents_iff w v
  have hch : w ∈ G.children v ↔ G.E v w := hG.children_iff v w
  have hAn := hs v
  clear hs
  cases d <;> cases e <;>
    by_cases h1 : v ∈ C <;> by_cases h2 : G.E v w <;> by_cases h3 : G.E w v <;>
    by_cases h4 : v ∈ shaded <;>
    simp_all [ballSucc, MG.Move]

theorem ballSucc_sub (hG : G.Consistent) {C shaded : Finset α} (V : Finset α) (hV : G.nodes ⊆ V)
    (s : α × Bool) : ballSucc G C shaded s ⊆ V ×ˢ Finset.univ := by
  intro t ht
  have h1 := parents_sub hG s.1
  have h2 := children_sub hG s.1
  simp only [Finset.mem_product, Finset.mem_univ, and_true]
  unfold ballSucc at ht
  apply hV
  split_ifs at ht <;> simp at ht
  all_goals
    try rcases ht with ⟨a, ha, rfl⟩ | ⟨a, ha, rfl⟩
  all_goals
    try rcases ht with ⟨a, ha, rfl⟩
  all_goals
    first
    | exact h1 ha
    | exact h2 ha

/-- Exact characterisation of `dsep`, for arbitrary `A, B, C`. -/
theorem dsep_spec (hG : G.Valid) (o : SepOracle α) (A B C : Finset α) :
    ∃ r, dsep G o A B C = some r ∧
      (r = false ↔ ∃ a ∈ A, ∃ b ∈ B, a = b ∨ (a ∉ C ∧ DConn G.E C a b)) := by
  obtain ⟨sh, hsh, hsh'⟩ := shade_spec hG.toConsistent o C
  obtain ⟨r, hr, hr'⟩ := popLoop_decides o.pop (fun s => decide (s.1 ∈ B)) (ballSucc G C sh)
    ((G.nodes ∪ A) ×ˢ Finset.univ)
    (fun s _ => ballSucc_sub hG.toConsistent _ Finset.subset_union_left s) (A.image (·, false)) (by
      intro x hx; simp at hx; obtain ⟨a, ha, rfl⟩ := hx; simp [ha])
  refine ⟨r, by simp [dsep, hsh, hr], ?_⟩
  rw [hr']
  have hrel : (fun a b => b ∈ ballSucc G C sh a) = (mg G.E).Move (C : Set α) := by
    funext s t; exact propext (ballSucc_iff hG hsh' s t)
  rw [hrel]
  constructor
  · rintro ⟨s, hs, t, hst, ht⟩
    simp at hs ht
    obtain ⟨a, ha, rfl⟩ := hs
    refine ⟨a, ha, t.1, ht, ?_⟩
    obtain ⟨l, hw, hl⟩ := MG.walk_of_moves (b := t.1) (d := t.2) hst
    rcases hl with ⟨rfl, _⟩ | ⟨hc, _⟩
    · left; have := hw.last; simpa using this
    · exact Or.inr ⟨by simpa using hc, l, hw⟩
  · rintro ⟨a, ha, b, hb, rfl | ⟨hc, hconn⟩⟩
    · exact ⟨(a, false), by simp [ha], (a, false), .refl, by simp [hb]⟩
    · obtain ⟨d, hd⟩ := (dconn_iff_moves (by simpa using hc)).1 hconn
      exact ⟨(a, false), by simp [ha], (b, d), hd, by simp [hb]⟩

/-- `dsep` decides d-separation when `A` and `C` are disjoint. -/
theorem dsep_decides (hG : G.Valid) (o : SepOracle α) (A B C : Finset α) (hAC : Disjoint A C) :
    ∃ r, dsep G o A B C = some r ∧ (r = true ↔ DSep G.E A B C) := by
  obtain ⟨r, hr, hr'⟩ := dsep_spec hG o A B C
  refine ⟨r, hr, ?_⟩
  rw [← Bool.not_eq_false, hr', Spec.dsep_iff]
  push Not
  constructor
  · intro h a ha b hb hc
    exact (h a ha b hb).2 (Finset.disjoint_left.1 hAC ha) hc
  · intro h a ha b hb
    exact ⟨fun hab => h a ha b hb (hab ▸ dconn_refl _ _ _), fun _ => h a ha b hb⟩

end Model.DAG
