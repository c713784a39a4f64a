import Verif.Proof.Ball
import Verif.Spec.Markov
import Verif.Model.IMap
import Verif.Proof.Queries

/-! # The local Markov property implies the global one -/

namespace Spec

universe u
variable {α : Type u} {E F : α → α → Prop}
open Relation

theorem dsep_restrict {T : Set α} (hT : ∀ i j, E i j → j ∈ T → i ∈ T) {A B C : Set α} (hA : A ⊆ T) (hB : B ⊆ T)
    (hC : C ⊆ T) : DSep (Restrict E T) A B C ↔ DSep E A B C := by
  rw [dsep_iff, dsep_iff]
  exact forall_congr' fun a => forall_congr' fun ha => forall_congr' fun b => forall_congr' fun hb =>
    not_congr (dconn_restrict hT (hA ha) (hB hb) hC)

theorem subModel_left (hE : Acyclic E) (hF : Acyclic F) {T : Set α} {v : α}
    (hpa : ∀ i, E i v → i ∈ T)
    (hloc : DSep F {v} {n | n ∈ T ∧ ¬ E n v} {p | E p v}) (ih : SubModel E F T) {A B C : Set α}
    (hA : A ⊆ insert v T) (hB : B ⊆ insert v T) (hC : C ⊆ insert v T) (hAB : Disjoint A B) (hAC : Disjoint A C)
    (hBC : Disjoint B C) (hvA : v ∈ A) (h : DSep E A B C) : DSep F A B C := by
  have hvB := Set.disjoint_left.1 hAB hvA
  have hvC := Set.disjoint_left.1 hAC hvA
  rw [dsep_iff] at h
  have hBpa : ∀ b ∈ B, ¬ E b v := fun b hb hbv => h v hvA b hb (dconn_adj (Or.inr hbv))
  have hsub : ∀ {X : Set α}, X ⊆ insert v T → ∀ x ∈ X, x ≠ v → x ∈ T := fun hX x hx hxv =>
    (hX hx).resolve_left hxv
  have hne : ∀ {X : Set α}, v ∉ X → ∀ x ∈ X, x ≠ v := fun hX x hx hxv => hX (hxv ▸ hx)
  set A' : Set α := A \ {v} with hA'
  set P : Set α := {p | E p v ∧ p ∉ C} with hP
  have hPB : Disjoint P B := Set.disjoint_left.2 fun p hp hb => hBpa p hb hp.1
  have hPC : Disjoint P C := Set.disjoint_left.2 fun p hp hc => hp.2 hc
  have hA'A : A' ⊆ A := fun x hx => hx.1
  have h1 : DSep F (A' ∪ P) B C := by
    refine ih _ _ _ ?_ (fun b hb => hsub hB b hb (hne hvB b hb)) (fun c hc => hsub hC c hc (hne hvC c hc)) ?_ ?_ hBC ?_
    · rintro x (hx | hx)
      · exact hsub hA x hx.1 hx.2
      · exact hpa x hx.1
    · exact Set.disjoint_union_left.2 ⟨hAB.mono_left hA'A, hPB⟩
    · exact Set.disjoint_union_left.2 ⟨hAC.mono_left hA'A, hPC⟩
    · rw [dsep_iff]
      rintro a (ha | ha) b hb hc
      · exact h a ha.1 b hb hc
      · obtain ⟨e, he⟩ := (dconn_iff_moves ha.2).1 hc
        exact h v hvA b hb ((dconn_iff_moves hvC).2 ⟨e, .head (move_parent hE ha.1 hvC) he⟩)
  have h2 : DSep F {v} B (C ∪ (A' ∪ P)) := by
    have hvv : ¬ E v v := hE.irrefl
    have := dsep_weak_union hF (A := {v}) (B := B) (C := {p | E p v}) (D := (C ∪ A') \ {p | E p v})
      (by simpa using hvv) (by simp [hvC, hA'])
      (dsep_mono subset_rfl (by
        rintro x (hx | ⟨hx | hx, hn⟩)
        · exact ⟨hsub hB x hx (hne hvB x hx), hBpa x hx⟩
        · exact ⟨hsub hC x hx (hne hvC x hx), hn⟩
        · exact ⟨hsub hA x hx.1 hx.2, hn⟩) hloc)
    have heq : {p | E p v} ∪ (C ∪ A') \ {p | E p v} = C ∪ (A' ∪ P) := by
      ext x
      simp only [Set.mem_union, Set.mem_ofPred_eq, Set.mem_sdiff, hP]
      by_cases h1 : E x v <;> by_cases h2 : x ∈ C <;> by_cases h3 : x ∈ A' <;> simp [h1, h2, h3]
    rwa [heq] at this
  have h3 : DSep F B ({v} ∪ (A' ∪ P)) C := by
    refine dsep_contraction hBC ?_ (dsep_symm h2) (dsep_symm h1)
    exact Set.disjoint_union_right.2 ⟨(hAB.mono_left hA'A).symm, hPB.symm⟩
  refine dsep_mono ?_ subset_rfl (dsep_symm h3)
  intro x hx
  by_cases hxv : x = v
  · exact Or.inl hxv
  · exact Or.inr (Or.inl ⟨hx, hxv⟩)

theorem subModel_insert (hE : Acyclic E) (hF : Acyclic F) {T : Set α} {v : α} (hv : v ∉ T)
    (hpa : ∀ i, E i v → i ∈ T) (hT : ∀ i j, E i j → j ∈ T → i ∈ T)
    (hloc : DSep F {v} {n | n ∈ T ∧ ¬ E n v} {p | E p v}) (ih : SubModel E F T) : SubModel E F (insert v T) := by
  have hright : ∀ {A B C : Set α}, A ⊆ insert v T → B ⊆ insert v T → C ⊆ insert v T → Disjoint A B → Disjoint A C →
      Disjoint B C → v ∈ B → DSep E A B C → DSep F A B C := fun hA hB hC hAB hAC hBC hvB h =>
    dsep_symm (subModel_left hE hF hpa hloc ih hB hA hC hAB.symm hBC hAC hvB (dsep_symm h))
  have hleft : ∀ {A B C : Set α}, A ⊆ insert v T → B ⊆ insert v T → C ⊆ insert v T → Disjoint A B → Disjoint A C →
      Disjoint B C → v ∈ A → DSep E A B C → DSep F A B C := fun hA hB hC hAB hAC hBC hvA h =>
    subModel_left hE hF hpa hloc ih hA hB hC hAB hAC hBC hvA h
  intro A B C hA hB hC hAB hAC hBC h
  have hsub : ∀ {X : Set α}, X ⊆ insert v T → v ∉ X → X ⊆ T := fun hX hvX x hx =>
    (hX hx).resolve_left fun h => hvX (h ▸ hx)
  by_cases hvA : v ∈ A
  · exact hleft hA hB hC hAB hAC hBC hvA h
  by_cases hvB : v ∈ B
  · exact hright hA hB hC hAB hAC hBC hvB h
  by_cases hvC : v ∈ C
  swap
  · exact ih A B C (hsub hA hvA) (hsub hB hvB) (hsub hC hvC) hAB hAC hBC h
  -- conditioning on the last node
  set C' : Set α := C \ {v} with hC'
  have hC'C : C' ⊆ C := fun x hx => hx.1
  have hCins : insert v C' = C := by rw [hC']; ext x; by_cases hx : x = v <;> simp [hx, hvC]
  have hvC' : v ∉ C' := by simp [hC']
  have hC'T := hC'C.trans hC
  have hT' : ∀ i j, E i j → j ∈ insert v T → i ∈ insert v T := by
    rintro i j hij (rfl | hj)
    · exact Or.inr (hpa i hij)
    · exact Or.inr (hT i j hij hj)
  have hsink : ∀ w, ¬ Restrict E (insert v T) v w := by
    rintro w ⟨h1, _, rfl | h2⟩
    · exact hE.irrefl h1
    · exact hv (hT _ _ h1 h2)
  have hE' : Acyclic (Restrict E (insert v T)) := restrict_acyclic hE
  have hvs : ({v} : Set α) ⊆ insert v T := by simp
  have hne : ∀ {X : Set α}, v ∉ X → ∀ x ∈ X, x ≠ v := fun hX x hx hxv => hX (hxv ▸ hx)
  have h0 := (dsep_restrict hT' hA hB hC).2 h
  rw [dsep_iff] at h0
  have h1 : DSep E A B C' := by
    rw [← dsep_restrict hT' hA hB hC'T, dsep_iff]
    intro a ha b hb hc
    refine h0 a ha b hb (hCins ▸ sink_dconn hE' hsink (hne hvA a ha) ?_ hc)
    exact fun h => Set.disjoint_left.1 hAC ha (hC'C h)
  have h2 : DSep E A {v} C' ∨ DSep E {v} B C' := by
    by_contra hcon
    push Not at hcon
    rw [← dsep_restrict hT' hA hvs hC'T, ← dsep_restrict hT' hvs hB hC'T, dsep_iff, dsep_iff] at hcon
    push Not at hcon
    obtain ⟨⟨a, ha, _, rfl, h3⟩, _, rfl, b, hb, h4⟩ := hcon
    refine h0 a ha b hb (hCins ▸ sink_join hE' hsink hvC' (hne hvA a ha) (hne hvB b hb) ?_ h3 (dconn_symm h4))
    exact fun h => Set.disjoint_left.1 hAC ha (hC'C h)
  have hACd := hAC.mono_right hC'C
  have hBCd := hBC.mono_right hC'C
  rcases h2 with h2 | h2
  · have h3 := hright hA (Set.union_subset hB hvs) hC'T (Set.disjoint_union_right.2 ⟨hAB, by simpa using hvA⟩) hACd
      (Set.disjoint_union_left.2 ⟨hBCd, by simpa using hvC'⟩) (Or.inr rfl) (dsep_union_right h1 h2)
    have h4 := dsep_weak_union hF hACd (by simpa using hvA) h3
    rwa [Set.union_singleton, hCins] at h4
  · have h3 := hleft (Set.union_subset hA hvs) hB hC'T (Set.disjoint_union_left.2 ⟨hAB, by simpa using hvB⟩)
      (Set.disjoint_union_left.2 ⟨hACd, by simpa using hvC'⟩) hBCd (Or.inr rfl) (dsep_union_left h1 h2)
    have h4 := dsep_weak_union hF hBCd (by simpa using hvB) (dsep_symm h3)
    rw [Set.union_singleton, hCins] at h4
    exact dsep_symm h4

theorem LinearExtension.pred {V : Set α} {l : List α} (hl : LinearExtension V E l) : ∀ p v r, l = p ++ v :: r → ∀ i, E i v → i ∈ p := by
  rintro p v r rfl i hiv
  have hs := hl.before i v hiv
  have hnd := hl.nodup
  by_contra hip
  have hs' : List.Sublist [i, v] (v :: r) := by
    clear hnd hl
    induction p with
    | nil => exact hs
    | cons y p ih =>
      simp at hip
      rcases List.sublist_cons_iff.1 hs with h | ⟨q, hq, h⟩
      · exact ih h hip.2
      · simp at hq; exact absurd hq.1 hip.1
  have hvr : v ∉ r := by
    have := (List.nodup_append.1 hnd).2.1
    exact (List.nodup_cons.1 this).1
  rcases List.sublist_cons_iff.1 hs' with h | ⟨q, hq, h⟩
  · exact hvr (h.subset (by simp))
  · simp at hq; obtain ⟨rfl, rfl⟩ := hq; exact hvr (h.subset (by simp))

theorem LinearExtension.anc {V : Set α} {l : List α} (hl : LinearExtension V E l) : ∀ p r, l = p ++ r → ∀ i j, Path0 E i j → j ∈ p → i ∈ p := by
  intro p r hpr i j hij hj
  induction hij using ReflTransGen.head_induction_on with
  | refl => exact hj
  | head hab _ ih =>
    obtain ⟨q, s, rfl⟩ := List.append_of_mem ih
    have := hl.pred q _ (s ++ r) (by simp [hpr]) _ hab
    simp [this]

/-- A set of nodes with a linear extension: the statements about each node and its predecessors imply all others. -/
theorem subModel_of_ordered (hE : Acyclic E) (hF : Acyclic F) {V : Set α} {l : List α} (hl : LinearExtension V E l)
    (hloc : ∀ p v r, l = p ++ v :: r → DSep F {v} {n | n ∈ p ∧ ¬ E n v} {p | E p v}) : SubModel E F V := by
  have key : ∀ p r, l = p ++ r → SubModel E F {x | x ∈ p} := by
    intro p
    induction p using List.reverseRecOn with
    | nil =>
      intro r _ A B C hA _ _ _ _ _ _ a ha
      exact absurd (hA ha) (by simp)
    | append_singleton p v ih =>
      intro r hpr
      have hpr' : l = p ++ v :: r := by simpa using hpr
      have hins : {x | x ∈ p ++ [v]} = insert v {x | x ∈ p} := by ext x; simp [or_comm]
      have hvp : v ∉ p := by
        have := hl.nodup
        rw [hpr'] at this
        intro hvp
        exact (List.nodup_append.1 this).2.2 v hvp v (by simp) rfl
      rw [hins]
      exact subModel_insert hE hF hvp (hl.pred p v r hpr') (fun i j hij hj => hl.anc p _ hpr' i j (.single hij) hj)
        (hloc p v r hpr') (ih _ hpr')
  have := key l [] (by simp)
  have heq : {x | x ∈ l} = V := by ext x; exact hl.mem_iff x
  rwa [heq] at this

theorem LinearExtension.mono {V : Set α} {l : List α} (hl : LinearExtension V E l) (h : ∀ a b, F a b → E a b) :
    LinearExtension V F l :=
  ⟨hl.nodup, hl.mem_iff, fun i j hij => hl.before i j (h i j hij)⟩

/-- The statements about predecessors follow from the separations of the graph. -/
theorem ordered_of_subModel (hE : Acyclic E) {V : Set α} {l : List α} (hl : LinearExtension V E l)
    (h : SubModel E F V) (p : List α) (v : α) (r : List α) (hlp : l = p ++ v :: r) :
    DSep F {v} {n | n ∈ p ∧ ¬ E n v} {p | E p v} := by
  have hsub : ∀ x ∈ p, x ∈ V := fun x hx => (hl.mem_iff x).1 (by rw [hlp]; simp [hx])
  have hvp : v ∉ p := by
    have := hl.nodup
    rw [hlp] at this
    exact fun hvp => (List.nodup_append.1 this).2.2 v hvp v (by simp) rfl
  refine h _ _ _ ?_ ?_ ?_ ?_ ?_ ?_ ?_
  · rintro x rfl; exact (hl.mem_iff x).1 (by rw [hlp]; simp)
  · rintro x ⟨hx, _⟩; exact hsub x hx
  · intro x hx; exact hsub x (hl.pred p v r hlp x hx)
  · rw [Set.disjoint_left]; rintro x rfl ⟨hx, _⟩; exact hvp hx
  · rw [Set.disjoint_left]; rintro x rfl hx; exact hE.irrefl hx
  · rw [Set.disjoint_left]; rintro x ⟨_, hx⟩ hx'; exact hx hx'
  · refine dsep_mono subset_rfl ?_ (local_markov hE v)
    rintro n ⟨hn, hn'⟩
    refine ⟨?_, ?_, hn'⟩
    · rintro rfl; exact hvp hn
    · intro hp; exact hvp (hl.anc p _ hlp v n hp.to_reflTransGen hn)

/-- An arc of an I-map can be left out iff its ends are separated by the other parents of its target. -/
theorem without_subModel (hE : Acyclic E) (hF : Acyclic F) {V : Set α} {l : List α} (hl : LinearExtension V E l)
    (hV : ∀ i j, E i j → i ∈ V ∧ j ∈ V) (h : SubModel E F V) {i j : α} (hij : E i j) :
    SubModel (Without E i j) F V ↔ DSep F {i} {j} {p | E p j ∧ p ≠ i} := by
  have hE' : Acyclic (Without E i j) := acyclic_mono (fun _ _ h => h.1) hE
  have hne : i ≠ j := by rintro rfl; exact hE.irrefl hij
  constructor
  · intro h'
    refine h' _ _ _ ?_ ?_ ?_ ?_ ?_ ?_ ?_
    · rintro x rfl; exact (hV _ _ hij).1
    · rintro x rfl; exact (hV _ _ hij).2
    · rintro x ⟨hx, _⟩; exact (hV _ _ hx).1
    · simpa using hne
    · simp
    · rw [Set.disjoint_left]; rintro x rfl ⟨hx, _⟩; exact hE.irrefl hx
    · have hpa : {p | E p j ∧ p ≠ i} = {p | Without E i j p j} := by
        ext x; simp only [Set.mem_ofPred_eq, Without]; tauto
      rw [hpa]
      refine dsep_symm (dsep_mono subset_rfl ?_ (local_markov hE' j))
      rintro x rfl
      refine ⟨hne, ?_, fun hh => hh.2 ⟨rfl, rfl⟩⟩
      intro hp
      exact hE _ ((path_mono (fun _ _ h => h.1) hp).tail hij)
  · intro hs
    refine subModel_of_ordered hE' hF (hl.mono fun _ _ h => h.1) ?_
    intro p v r hlp
    have h0 := ordered_of_subModel hE hl h p v r hlp
    by_cases hv : v = j
    · subst hv
      have hip := hl.pred p v r hlp i hij
      have hpa : {p | E p v} = {p | Without E i v p v} ∪ {i} := by
        ext x; simp only [Set.mem_ofPred_eq, Set.mem_union, Set.mem_singleton_iff, Without]
        constructor
        · intro hx; by_cases hxi : x = i
          · exact Or.inr hxi
          · exact Or.inl ⟨hx, fun hh => hxi hh.1⟩
        · rintro (hx | rfl)
          · exact hx.1
          · exact hij
      have hpa' : {p | E p v ∧ p ≠ i} = {p | Without E i v p v} := by
        ext x; simp only [Set.mem_ofPred_eq, Without]; tauto
      rw [hpa] at h0
      rw [hpa'] at hs
      have := dsep_contraction (A := {v}) (D := {i}) (by
        rw [Set.disjoint_left]; rintro x rfl hx; exact hE.irrefl hx.1) (by simpa using hne.symm) h0 (dsep_symm hs)
      refine dsep_mono subset_rfl ?_ this
      rintro x ⟨hx, hx'⟩
      by_cases hxi : x = i
      · exact Or.inr hxi
      · exact Or.inl ⟨hx, fun hh => hx' ⟨hh, fun hh => hxi hh.1⟩⟩
    · have heq : ∀ x, Without E i j x v ↔ E x v := fun x => ⟨fun h => h.1, fun h => ⟨h, fun hh => hv hh.2⟩⟩
      simpa only [heq] using h0

end Spec

namespace Model

universe u
variable {α : Type u} [DecidableEq α]
open Spec

/-- Some order of every set. -/
noncomputable def SetOrder.any (κ : Type) (α : Type u) : SetOrder κ α where
  ord _ s := s.toList
  nodup _ s := s.nodup_toList
  mem_iff _ s x := by simp

theorem allM_spec {β : Type u} {f : β → Option Bool} {P : β → Prop} (l : List β)
    (h : ∀ x ∈ l, ∃ r, f x = some r ∧ (r = true ↔ P x)) :
    ∃ r, allM f l = some r ∧ (r = true ↔ ∀ x ∈ l, P x) := by
  induction l with
  | nil => exact ⟨true, rfl, by simp⟩
  | cons x l ih =>
    obtain ⟨r, hr, hr'⟩ := h x (by simp)
    obtain ⟨q, hq, hq'⟩ := ih fun y hy => h y (by simp [hy])
    cases r with
    | true => exact ⟨q, by simp [allM, hr, hq], by simp [hq', hr'.1 rfl]⟩
    | false => exact ⟨false, by simp [allM, hr], by simp only [Bool.false_eq_true, false_iff] at hr' ⊢; intro hh; exact hr' (hh x (by simp))⟩

theorem firstM_spec {β : Type u} {f : β → Option Bool} {P : β → Prop} (l : List β)
    (h : ∀ x ∈ l, ∃ r, f x = some r ∧ (r = true ↔ P x)) :
    ∃ c, firstM f l = some c ∧ (c = none ↔ ∀ x ∈ l, ¬ P x) ∧ (∀ x, c = some x → x ∈ l ∧ P x) := by
  induction l with
  | nil => exact ⟨none, rfl, by simp, by simp⟩
  | cons x l ih =>
    obtain ⟨r, hr, hr'⟩ := h x (by simp)
    obtain ⟨c, hc, h1, h2⟩ := ih fun y hy => h y (by simp [hy])
    cases r with
    | true =>
      have hP := hr'.1 rfl
      refine ⟨some x, by simp [firstM, hr], by simp; exact fun h => absurd hP h, ?_⟩
      intro y hy; cases hy; exact ⟨by simp, hP⟩
    | false =>
      have hP : ¬ P x := by simpa using hr'
      refine ⟨c, by simp [firstM, hr, hc], ?_, ?_⟩
      · rw [h1]; simp [hP]
      · intro y hy; have := h2 y hy; exact ⟨by simp [this.1], this.2⟩

namespace DAG
variable {G H : DAG α}

theorem exists_linearExtension (hG : G.Valid) : ∃ l, LinearExtension (G.nodes : Set α) G.E l := by
  have : ∃ o : SetOrder (Option α) α, True := ⟨⟨fun _ s => s.toList, fun _ s => s.nodup_toList, by simp⟩, trivial⟩
  obtain ⟨o, _⟩ := this
  obtain ⟨l, _, hl⟩ := topologicalSort_ok G o hG
  exact ⟨l, hl⟩

theorem isImap_spec (w : ImapOracle α) (hG : G.Valid) (hH : H.Valid) :
    ∃ r, isImap w G H = some r ∧ (r = true ↔ SubModel G.E H.E (G.nodes : Set α)) := by
  obtain ⟨l, hl, hl1, hl2⟩ := localMarkovStatements_spec hG.toConsistent w.nodes w.desc
  have hmem : ∀ v N P, (v, N, P) ∈ l → v ∈ G.nodes := by
    intro v N P h
    have : v ∈ l.map Prod.fst := List.mem_map.2 ⟨_, h, rfl⟩
    rw [hl1, w.nodes.mem_iff] at this; exact this
  obtain ⟨r, hr, hr'⟩ := allM_spec (f := fun s : α × Finset α × Finset α => dsep H (w.sep s.1) {s.1} s.2.1 s.2.2)
    (P := fun s => DSep H.E ({s.1} : Set α) s.2.1 s.2.2) (w.stmts.ord () l.toFinset) (by
      rintro ⟨v, N, P⟩ h
      rw [w.stmts.mem_iff, List.mem_toFinset] at h
      have := dsep_decides hH (w.sep v) {v} N P (by
        rw [Finset.disjoint_singleton_left, (hl2 v N P h).2]
        exact hG.acyclic.irrefl)
      simpa using this)
  refine ⟨r, by simp [isImap, hl, hr], hr'.trans ?_⟩
  simp only [w.stmts.mem_iff, List.mem_toFinset]
  have hset : ∀ v N P, (v, N, P) ∈ l →
      ((N : Set α) = {n | n ∈ (G.nodes : Set α) ∧ n ≠ v ∧ ¬ Path G.E v n ∧ ¬ G.E n v} ∧ (P : Set α) = {p | G.E p v}) := by
    intro v N P h
    obtain ⟨h1, h2⟩ := hl2 v N P h
    constructor
    · ext x; simpa using h1 x
    · ext x; simpa using h2 x
  constructor
  · intro h
    obtain ⟨t, ht⟩ := exists_linearExtension hG
    refine subModel_of_ordered hG.acyclic hH.acyclic ht ?_
    intro p v r hlp
    have hvV : v ∈ G.nodes := by simpa using (ht.mem_iff v).1 (by rw [hlp]; simp)
    have hv : v ∈ l.map Prod.fst := by rw [hl1, w.nodes.mem_iff]; exact hvV
    obtain ⟨⟨v', N, P⟩, hm, rfl⟩ := List.mem_map.1 hv
    have hs := h _ hm
    simp only [(hset _ _ _ hm).1, (hset _ _ _ hm).2] at hs
    refine dsep_mono subset_rfl ?_ hs
    have hvp : v' ∉ p := by
      have := ht.nodup
      rw [hlp] at this
      exact fun hvp => (List.nodup_append.1 this).2.2 v' hvp v' (by simp) rfl
    rintro n ⟨hn, hn'⟩
    refine ⟨(ht.mem_iff n).1 (by rw [hlp]; simp [hn]), ?_, ?_, hn'⟩
    · rintro rfl; exact hvp hn
    · intro hp; exact hvp (ht.anc p _ hlp v' n hp.to_reflTransGen hn)
  · rintro h ⟨v, N, P⟩ hm
    simp only
    rw [(hset _ _ _ hm).1, (hset _ _ _ hm).2]
    refine h _ _ _ ?_ ?_ ?_ ?_ ?_ ?_ (dsep_mono subset_rfl ?_ (local_markov hG.acyclic v))
    · rintro x rfl; exact hmem _ _ _ hm
    · rintro x ⟨hx, _⟩; exact hx
    · intro x hx; exact hG.fst_mem _ _ hx
    · simp
    · rw [Set.disjoint_left]; rintro x rfl hx; exact hG.acyclic.irrefl hx
    · rw [Set.disjoint_left]; rintro x ⟨_, _, _, hx⟩ hx'; exact hx hx'
    · rintro x ⟨_, hx⟩; exact hx

theorem isMinimalImap_spec (w : ImapOracle α) (hG : G.Valid) (hH : H.Valid)
    (h : SubModel G.E H.E (G.nodes : Set α)) (check : Bool) :
    ∃ r c, isMinimalImap w check G H = some (r, c) ∧
      (r = true ↔ ∀ i j, G.E i j → ¬ SubModel (Without G.E i j) H.E (G.nodes : Set α)) ∧
      (r = false → ∃ i j, c = some (i, j) ∧ G.E i j ∧ SubModel (Without G.E i j) H.E (G.nodes : Set α)) := by
  obtain ⟨c, hc, h1, h2⟩ := firstM_spec
    (f := fun a : α × α => dsep H (w.sepArc a) {a.1} {a.2} (G.parents a.2 \ {a.1}))
    (P := fun a => SubModel (Without G.E a.1 a.2) H.E (G.nodes : Set α)) (w.arcs.ord () G.arcs) (by
      rintro ⟨i, j⟩ ha
      rw [w.arcs.mem_iff] at ha
      obtain ⟨t, ht⟩ := exists_linearExtension hG
      simp only
      rw [without_subModel hG.acyclic hH.acyclic ht (fun i j hij => ⟨hG.fst_mem _ _ hij, hG.snd_mem _ _ hij⟩) h ha]
      obtain ⟨r, hr, hr'⟩ := dsep_decides hH (w.sepArc (i, j)) {i} {j} (G.parents j \ {i}) (by simp)
      refine ⟨r, hr, hr'.trans ?_⟩
      have : ((G.parents j \ {i} : Finset α) : Set α) = {p | G.E p j ∧ p ≠ i} := by
        ext x; simp [hG.parents_iff, E]
      rw [this]; simp)
  refine ⟨c.isNone, c, ?_, ?_, ?_⟩
  · obtain ⟨r, hr, hr'⟩ := isImap_spec w hG hH
    have := hr'.2 h; subst this
    cases check <;> simp [isMinimalImap, hr, hc]
  · rw [Option.isNone_iff_eq_none, h1]
    simp only [w.arcs.mem_iff]
    exact ⟨fun h i j hij => h (i, j) hij, fun h a ha => h a.1 a.2 ha⟩
  · intro hn
    cases c with
    | none => simp at hn
    | some a =>
      have := h2 a rfl
      rw [w.arcs.mem_iff] at this
      exact ⟨a.1, a.2, rfl, this.1, this.2⟩

theorem isMinimalImap_not (w : ImapOracle α) (hG : G.Valid) (hH : H.Valid)
    (h : ¬ SubModel G.E H.E (G.nodes : Set α)) : isMinimalImap w true G H = some (false, none) := by
  obtain ⟨r, hr, hr'⟩ := isImap_spec w hG hH
  have : r = false := by rw [← Bool.not_eq_true, hr']; exact h
  subst this
  simp [isMinimalImap, hr]

theorem removeArc_without (hG : G.Valid) {i j : α} (h : (i, j) ∈ G.arcs) :
    ∃ G', removeArc false G i j = (G', none) ∧ G'.Valid ∧ G'.nodes = G.nodes ∧ G'.E = Without G.E i j := by
  obtain ⟨G', h1, h2, h3, h4⟩ := removeArc_spec hG.toConsistent h (hG.acyclic.asymm h) false
  have hE : G'.E = Without G.E i j := by
    funext a b
    simp only [E, h4, Finset.mem_erase, Without, Prod.mk.injEq, ne_eq, eq_iff_iff]
    exact and_comm
  exact ⟨G', h1, { h2 with acyclic := by rw [hE]; exact acyclic_mono (fun _ _ h => h.1) hG.acyclic }, h3, hE⟩

end DAG

end Model
