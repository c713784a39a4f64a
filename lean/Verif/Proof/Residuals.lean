import Verif.Proof.CliqueTree

/-! # Components of the directed clique tree and their residuals -/

namespace Proof.CT

universe u

open Spec Relation Model

variable {α : Type u} [DecidableEq α] {cl : List (Finset α)} {T : Finset (Finset α × Finset α)}

/-- Joined by arcs in both directions. -/
abbrev B (T : Finset (Finset α × Finset α)) : Finset α → Finset α → Prop := ReflTransGen fun x y => (x, y) ∈ T ∧ (y, x) ∈ T

omit [DecidableEq α] in
theorem B.symm {a b : Finset α} (h : B T a b) : B T b a := conn_symm (fun _ _ h => And.symm h) h

omit [DecidableEq α] in
theorem B.link {a b : Finset α} (h : B T a b) : ReflTransGen (Link T) a b := conn_mono h fun _ _ h => .inl h.1

omit [DecidableEq α] in
theorem B.dir {a b : Finset α} (h : B T a b) : ReflTransGen (fun x y => (x, y) ∈ T) a b := conn_mono h fun _ _ h => h.1

omit [DecidableEq α] in
/-- A path of arcs in both directions does not use a one-way arc. -/
theorem B.except {a b c d : Finset α} (h : B T a b) (hu : Up T c d) : ReflTransGen (LinkExcept T c d) a b := by
  refine conn_mono h fun x y hxy => ⟨.inl hxy.1, ?_, ?_⟩
  · rintro ⟨rfl, rfl⟩; exact hu.2 hxy.2
  · rintro ⟨rfl, rfl⟩; exact hu.2 hxy.1

theorem mem_component {c d : Finset α} : d ∈ DAG.cliqueComponent cl T c ↔ d ∈ cl ∧ B T c d := by
  classical
  rw [DAG.cliqueComponent, Finset.mem_filter, List.mem_toFinset]

theorem component_eq {c d : Finset α} (hd : d ∈ cl) : DAG.cliqueComponent cl T c = DAG.cliqueComponent cl T d ↔ B T c d := by
  constructor
  · intro h
    have : d ∈ DAG.cliqueComponent cl T d := mem_component.2 ⟨hd, .refl⟩
    rw [← h] at this
    exact (mem_component.1 this).2
  · intro h
    ext x
    rw [mem_component, mem_component]
    exact and_congr_right fun _ => ⟨fun h' => h.symm.trans h', fun h' => h.trans h'⟩

omit [DecidableEq α] in
theorem up_not_B (hf : Forest T) {a b : Finset α} (h : Up T a b) : ¬ B T a b := fun hB => hf a b (.inl h.1) (hB.except h)

theorem mem_contract_nodes {K : Finset (Finset α)} : K ∈ (DAG.contract cl T).nodes ↔ ∃ c ∈ cl, K = DAG.cliqueComponent cl T c := by
  simp only [DAG.contract, Finset.mem_image, List.mem_toFinset, eq_comm]

/-- The arcs of the contracted tree stem from the one-way arcs. -/
theorem mem_contract_arcs (hf : Forest T) (he : ∀ a b, (a, b) ∈ T → a ∈ cl ∧ b ∈ cl) {K L : Finset (Finset α)} :
    (K, L) ∈ (DAG.contract cl T).arcs ↔ ∃ a b, Up T a b ∧ K = DAG.cliqueComponent cl T a ∧ L = DAG.cliqueComponent cl T b := by
  simp only [DAG.contract, Finset.mem_filter, Finset.mem_image, Prod.exists, Prod.mk.injEq]
  constructor
  · rintro ⟨⟨a, b, hab, rfl, rfl⟩, hne⟩
    refine ⟨a, b, ⟨hab, fun hba => hne ?_⟩, rfl, rfl⟩
    exact (component_eq (he a b hab).2).2 (.single ⟨hab, hba⟩)
  · rintro ⟨a, b, hab, rfl, rfl⟩
    exact ⟨⟨a, b, hab.1, rfl, rfl⟩, fun h => up_not_B hf hab ((component_eq (he a b hab.1).2).1 h)⟩

theorem mem_sup_component {c : Finset α} {x : α} : x ∈ (DAG.cliqueComponent cl T c).sup id ↔ ∃ d ∈ cl, B T c d ∧ x ∈ d := by
  simp only [Finset.mem_sup, mem_component, id, and_assoc]

section Pred

variable (op : SetOrder (Finset (Finset α)) (Finset (Finset α))) (C : Contracted α) (K : Finset (Finset α))

theorem parentUnion_cases : (DAG.parentUnion op C K = ∅ ∧ ∀ P, (P, K) ∉ C.arcs) ∨ ∃ P, (P, K) ∈ C.arcs ∧ DAG.parentUnion op C K = P.sup id := by
  have hmem := op.mem_iff K ((C.arcs.filter fun e => e.2 = K).image Prod.fst)
  have hiff : ∀ P, P ∈ (C.arcs.filter fun e => e.2 = K).image Prod.fst ↔ (P, K) ∈ C.arcs := by
    intro P
    simp
  rw [DAG.parentUnion]
  cases h : op.ord K ((C.arcs.filter fun e => e.2 = K).image Prod.fst) with
  | nil =>
    refine .inl ⟨rfl, fun P hP => ?_⟩
    have := (hmem P).2 ((hiff P).2 hP)
    rw [h] at this
    simp at this
  | cons P l =>
    refine .inr ⟨P, ?_, rfl⟩
    have : P ∈ op.ord K ((C.arcs.filter fun e => e.2 = K).image Prod.fst) := by rw [h]; simp
    exact (hiff P).1 ((hmem P).1 this)

end Pred

/-- `x` is in the component of `k` and in no component that precedes it. -/
def Top (cl : List (Finset α)) (T : Finset (Finset α × Finset α)) (x : α) (k : Finset α) : Prop :=
  (∃ d ∈ cl, B T k d ∧ x ∈ d) ∧ ∀ c0 c' d, B T k c' → Up T c0 c' → d ∈ cl → B T c0 d → x ∉ d

theorem Top.mem_residual (hf : Forest T) (he : ∀ a b, (a, b) ∈ T → a ∈ cl ∧ b ∈ cl) {x : α} {k : Finset α} (h : Top cl T x k)
    (op : SetOrder (Finset (Finset α)) (Finset (Finset α))) :
    x ∈ DAG.residual op (DAG.contract cl T) (DAG.cliqueComponent cl T k) := by
  rw [DAG.residual, Finset.mem_sdiff, mem_sup_component]
  refine ⟨h.1, fun hx => ?_⟩
  rcases parentUnion_cases op (DAG.contract cl T) (DAG.cliqueComponent cl T k) with ⟨e, -⟩ | ⟨P, hP, e⟩
  · rw [e] at hx
    simp at hx
  · rw [e] at hx
    obtain ⟨a, b, hab, rfl, h2⟩ := (mem_contract_arcs hf he).1 hP
    obtain ⟨d, hd, h3, h4⟩ := mem_sup_component.1 hx
    exact h.2 a b d ((component_eq (he a b hab.1).2).1 h2) hab hd h3 h4

/-- Every element of a clique is at the top of some component. -/
theorem exists_top (hf : Forest T) {x : α} {c : Finset α} (hc : c ∈ cl) (hx : x ∈ c) : ∃ k ∈ cl, Top cl T x k := by
  classical
  obtain ⟨k, hk, hmin⟩ := Finset.exists_min_image (cl.toFinset.filter fun d => x ∈ d) (above cl T) ⟨c, by simp [hc, hx]⟩
  rw [Finset.mem_filter, List.mem_toFinset] at hk
  refine ⟨k, hk.1, ⟨k, hk.1, .refl, hk.2⟩, fun c0 c' d h1 h2 hd h3 h4 => ?_⟩
  have := hmin d (by simp [hd, h4])
  have b2 := h1.symm.dir
  refine absurd this (not_le.2 (Finset.card_lt_card ⟨fun z hz => ?_, fun hs => ?_⟩))
  · rw [Finset.mem_filter] at hz ⊢
    exact ⟨hz.1, (hz.2.trans h3.symm.dir).trans (.head h2.1 b2)⟩
  · have := hs (Finset.mem_filter.2 ⟨List.mem_toFinset.2 hk.1, .refl⟩)
    exact up_acyclic hf h2 (b2.trans ((Finset.mem_filter.1 this).2.trans h3.symm.dir))

/-- At most one arc enters each component. -/
def OnePred (C : Contracted α) : Prop := ∀ K P P', (P, K) ∈ C.arcs → (P', K) ∈ C.arcs → P = P'

theorem OnePred.up (hf : Forest T) (he : ∀ a b, (a, b) ∈ T → a ∈ cl ∧ b ∈ cl) (h : OnePred (DAG.contract cl T)) {a b a' b' : Finset α}
    (h1 : Up T a b) (h2 : Up T a' b') (hb : B T b b') : B T a a' := by
  rw [← component_eq (he _ _ h2.1).1]
  refine h (DAG.cliqueComponent cl T b) _ _ ((mem_contract_arcs hf he).2 ⟨a, b, h1, rfl, rfl⟩)
    ((mem_contract_arcs hf he).2 ⟨a', b', h2, rfl, ?_⟩)
  exact (component_eq (he _ _ h2.1).2).2 hb

theorem top_of_residual (hf : Forest T) (he : ∀ a b, (a, b) ∈ T → a ∈ cl ∧ b ∈ cl) (h : OnePred (DAG.contract cl T)) {x : α} {k : Finset α}
    {op : SetOrder (Finset (Finset α)) (Finset (Finset α))}
    (hx : x ∈ DAG.residual op (DAG.contract cl T) (DAG.cliqueComponent cl T k)) : Top cl T x k := by
  rw [DAG.residual, Finset.mem_sdiff, mem_sup_component] at hx
  refine ⟨hx.1, fun c0 c' d h1 h2 h3 h4 h5 => hx.2 ?_⟩
  have hP : (DAG.cliqueComponent cl T c0, DAG.cliqueComponent cl T k) ∈ (DAG.contract cl T).arcs :=
    (mem_contract_arcs hf he).2 ⟨c0, c', h2, rfl, (component_eq (he _ _ h2.1).2).2 h1⟩
  rcases parentUnion_cases op (DAG.contract cl T) (DAG.cliqueComponent cl T k) with ⟨-, e⟩ | ⟨P, hP', e⟩
  · exact absurd hP (e _)
  · rw [e, h _ _ _ hP' hP, mem_sup_component]
    exact ⟨d, h3, h4, h5⟩

/-- There is at most one arc from one component to another one. -/
theorem one_link (hf : Forest T) {a b a' b' : Finset α} (h1 : Up T a b) (h2 : Up T a' b') (ha : B T a a') (hb : B T b b') : a = a' := by
  by_contra hne
  refine hf a b (.inl h1.1) (((ha.except h1).tail ⟨.inl h2.1, fun h => hne h.1.symm, ?_⟩).trans (hb.symm.except h1))
  rintro ⟨rfl, rfl⟩
  exact h1.2 h2.1

/-- A path that does not begin in a class but ends in it enters it. -/
theorem enter {β : Type u} {R : β → β → Prop} {P : β → Prop} {a b : β} (h : ReflTransGen R a b) (ha : ¬ P a) (hb : P b) :
    ∃ n n', ReflTransGen R a n ∧ R n n' ∧ P n' ∧ ¬ P n := by
  induction h with
  | refl => exact absurd hb ha
  | @tail y z h1 h2 ih =>
    by_cases hy : P y
    · exact ih hy
    · exact ⟨y, z, h1, h2, hb, hy⟩

section Tree

variable (hf : Forest T) (he : ∀ a b, (a, b) ∈ T → a ∈ cl ∧ b ∈ cl) (hj : Joined T)
  (hcon : ∀ c ∈ cl, ∀ d ∈ cl, (c ∩ d).Nonempty → ReflTransGen (Link T) c d) (hone : OnePred (DAG.contract cl T))
include hf he hj hcon hone

/-- From the component with `y` at the top, arcs between cliques with `y` lead to all cliques with `y`. -/
theorem Top.down {y : α} {k : Finset α} (h : Top cl T y k) {m : Finset α} (hm : m ∈ cl) (hy : y ∈ m) :
    ∃ k', B T k k' ∧ y ∈ k' ∧ ReflTransGen (fun a b => (a, b) ∈ T ∧ y ∈ a ∧ y ∈ b) k' m := by
  obtain ⟨k1, hk1, hB, hyk⟩ := h.1
  have hym : y ∈ k1 ∩ m := Finset.mem_inter.2 ⟨hyk, hy⟩
  have path : ReflTransGen (fun a b => Link T a b ∧ y ∈ a ∧ y ∈ b) k1 m :=
    conn_mono (hj _ _ (hcon k1 hk1 m hm ⟨y, hym⟩)) fun _ _ h => ⟨h.1, h.2.1 hym, h.2.2 hym⟩
  clear hm hym hy
  induction path with
  | refl => exact ⟨k1, hB, hyk, .refl⟩
  | @tail m m' _ hs ih =>
    obtain ⟨k', h1, h2, h3⟩ := ih
    by_cases hmm : (m, m') ∈ T
    · exact ⟨k', h1, h2, h3.tail ⟨hmm, hs.2⟩⟩
    have hup : Up T m' m := ⟨hs.1.resolve_left hmm, hmm⟩
    by_cases hkm : B T k m
    · exact absurd hs.2.2 (h.2 m' m m' hkm hup (he _ _ hup.1).1 .refl)
    obtain ⟨n, n', e1, e2, e3, e4⟩ := enter (P := fun z => B T z m) h3 (fun h => hkm (h1.trans h)) .refl
    have hup' : Up T n n' := ⟨e2.1, fun h => e4 (.head ⟨e2.1, h⟩ e3)⟩
    have := one_link hf hup' hup (hone.up hf he hup' hup e3) e3
    rw [← this]
    exact ⟨k', h1, h2, e1⟩

theorem Top.unique {y : α} {k m : Finset α} (h : Top cl T y k) (h' : Top cl T y m) : B T k m := by
  obtain ⟨m1, hm1, hB, hy⟩ := h'.1
  obtain ⟨k', h1, h2, h3⟩ := h.down hf he hj hcon hone hm1 hy
  by_contra hno
  obtain ⟨n, n', e1, e2, e3, e4⟩ := enter (P := fun z => B T z m) h3 (fun h => hno (h1.trans h)) hB.symm
  exact h'.2 n n' n e3.symm ⟨e2.1, fun h => e4 (.head ⟨e2.1, h⟩ e3)⟩ (he _ _ e2.1).1 .refl e2.2.1

/-- A parent of `y` is in the component with `y` at the top. -/
theorem Top.parent {V : Finset α} {E : α → α → Prop} {r : α → ℕ} (hr : ∀ a b, E a b → r a < r b) (hV : ∀ a b, E a b → a ∈ V ∧ b ∈ V)
    (hcl : ∀ c, c ∈ cl ↔ MaxClique V E c) (hi : ∀ a b, (a, b) ∈ T → Into E (a ∩ b) b) {x y : α} (hxy : E x y) {k : Finset α} (h : Top cl T y k) :
    ∃ d ∈ cl, B T k d ∧ x ∈ d := by
  obtain ⟨c, hc, hsub⟩ := exists_maxClique (V := V) (E := E) (c := {x, y}) ⟨x, by simp⟩ (by
      intro z hz
      rcases Finset.mem_insert.1 hz with rfl | hz
      · exact (hV _ _ hxy).1
      · rw [Finset.mem_singleton.1 hz]; exact (hV _ _ hxy).2) (by
      intro a ha b hb hab
      simp only [Finset.mem_insert, Finset.mem_singleton] at ha hb
      rcases ha with rfl | rfl <;> rcases hb with rfl | rfl
      · exact absurd rfl hab
      · exact .inl hxy
      · exact .inr hxy
      · exact absurd rfl hab)
  obtain ⟨k', h1, h2, h3⟩ := h.down hf he hj hcon hone ((hcl c).2 hc) (hsub (by simp))
  have key : ReflTransGen (fun a b => (a, b) ∈ T ∧ y ∈ a ∧ y ∈ b) k' c → x ∈ c → x ∈ k' := by
    intro hp hx
    clear h3 h2 h1
    induction hp using ReflTransGen.head_induction_on with
    | refl => exact hx
    | @head a b hs _ ih =>
      by_contra hxa
      have := hr _ _ (hi _ _ hs.1 y (Finset.mem_inter.2 hs.2) x ih fun h => hxa (Finset.mem_inter.1 h).1)
      have := hr _ _ hxy
      omega
  have hk' : k' ∈ cl := by
    rcases ReflTransGen.cases_head h3 with rfl | ⟨_, hs, _⟩
    · exact (hcl _).2 hc
    · exact (he _ _ hs.1).1
  exact ⟨k', hk', h1, key h3 (hsub (by simp))⟩

end Tree

/-- What a clique adds to its predecessor is in no other clique of the predecessor's component. -/
theorem fresh (hf : Forest T) (hj : Joined T) {a b d : Finset α} (h : Up T a b) (hd : B T a d) {z : α} (hzb : z ∈ b) (hza : z ∉ a) :
    z ∉ d := by
  intro hzd
  have hz : z ∈ b ∩ d := Finset.mem_inter.2 ⟨hzb, hzd⟩
  have hbd : ReflTransGen (LinkExcept T a b) b d := by
    refine conn_mono (hj b d ((ReflTransGen.single (.inr h.1)).trans hd.link)) fun x y hxy => ⟨hxy.1, ?_, ?_⟩
    · rintro ⟨rfl, rfl⟩; exact hza (hxy.2.1 hz)
    · rintro ⟨rfl, rfl⟩; exact hza (hxy.2.2 hz)
  refine hf a b (.inl h.1) ((hd.except h).trans (conn_symm ?_ hbd))
  rintro x y ⟨h1, h2, h3⟩
  exact ⟨link_symm h1, fun e => h3 ⟨e.2, e.1⟩, fun e => h2 ⟨e.2, e.1⟩⟩

end Proof.CT
