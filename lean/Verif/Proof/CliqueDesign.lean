import Verif.Model.CliqueDesign
import Verif.Proof.Residuals
import Verif.Proof.Cover
import Verif.Proof.Queries

/-! # The targets that `optimal_fully_orienting_single_node_interventions(new=True)` picks -/

namespace Proof.CT

universe u

open Spec Relation Model

/-! ## Every other element of a list -/

section Lists

variable {β : Type u} [DecidableEq β]

omit [DecidableEq β] in
theorem everyOther_sublist : ∀ l : List β, (everyOther l).Sublist l
  | [] => .slnil
  | [_] => .refl _
  | _ :: _ :: l => .cons_cons _ (.cons _ (everyOther_sublist l))

omit [DecidableEq β] in
/-- Of two consecutive elements one has an odd index. -/
theorem everyOther_covers : ∀ (l l1 l2 : List β) (x y : β), l = l1 ++ x :: y :: l2 →
    x ∈ everyOther (l.drop 1) ∨ y ∈ everyOther (l.drop 1)
  | [], l1, l2, x, y, h => by simp at h
  | [a], l1, l2, x, y, h => by
      have := congrArg List.length h
      simp only [List.length_cons, List.length_append, List.length_nil] at this
      omega
  | a :: b :: l, l1, l2, x, y, h => by
      have hd : (a :: b :: l).drop 1 = b :: l := rfl
      rw [hd]
      have hb : everyOther (b :: l) = b :: everyOther (l.drop 1) := by cases l <;> rfl
      rw [hb]
      cases l1 with
      | nil =>
        simp only [List.nil_append, List.cons.injEq] at h
        obtain ⟨-, rfl, -⟩ := h
        exact .inr (by simp)
      | cons c l1 =>
        simp only [List.cons_append, List.cons.injEq] at h
        obtain ⟨-, h⟩ := h
        cases l1 with
        | nil =>
          simp only [List.nil_append, List.cons.injEq] at h
          obtain ⟨rfl, -⟩ := h
          exact .inl (by simp)
        | cons d l1 =>
          simp only [List.cons_append, List.cons.injEq] at h
          rcases everyOther_covers l l1 l2 x y h.2 with h | h
          · exact .inl (List.mem_cons_of_mem _ h)
          · exact .inr (List.mem_cons_of_mem _ h)

/-- A set that meets all pairs of consecutive elements has at least as many elements in common with the list. -/
theorem everyOther_min (S : Finset β) : ∀ l : List β, l.Nodup → (∀ l1 l2 x y, l = l1 ++ x :: y :: l2 → x ∈ S ∨ y ∈ S) →
    (everyOther (l.drop 1)).length ≤ (S ∩ l.toFinset).card
  | [], _, _ => by simp [everyOther]
  | [a], _, _ => by simp [everyOther]
  | a :: b :: l, hn, h => by
      have hd : (a :: b :: l).drop 1 = b :: l := rfl
      have hb : everyOther (b :: l) = b :: everyOther (l.drop 1) := by cases l <;> rfl
      rw [hd, hb, List.length_cons]
      have ih := everyOther_min S l hn.of_cons.of_cons fun l1 l2 x y e => h (a :: b :: l1) l2 x y (by rw [e]; rfl)
      have h0 := h [] l a b rfl
      simp only [List.nodup_cons, List.mem_cons, not_or] at hn
      have : ∃ z ∈ S ∩ (a :: b :: l).toFinset, z ∉ S ∩ l.toFinset := by
        rcases h0 with h0 | h0
        · exact ⟨a, by simp [h0], by simp [hn.1.2]⟩
        · exact ⟨b, by simp [h0], by simp [hn.2.1]⟩
      obtain ⟨z, hz, hz'⟩ := this
      have hlt : (S ∩ l.toFinset).card < (S ∩ (a :: b :: l).toFinset).card :=
        Finset.card_lt_card ⟨fun w hw => by
          rw [Finset.mem_inter, List.mem_toFinset] at hw ⊢
          exact ⟨hw.1, List.mem_cons_of_mem _ (List.mem_cons_of_mem _ hw.2)⟩, fun hs => hz' (hs hz)⟩
      omega

end Lists

variable {α : Type u} [DecidableEq α] {cl : List (Finset α)} {T : Finset (Finset α × Finset α)}

/-! ## Without edges in both directions no clique has two predecessors -/

def NoBi (T : Finset (Finset α × Finset α)) : Prop := ∀ a b, (a, b) ∈ T → (b, a) ∉ T

def OneArc (T : Finset (Finset α × Finset α)) : Prop := ∀ a a' b, (a, b) ∈ T → (a', b) ∈ T → a = a'

theorem find_id {u : UF (Finset α)} (hu : u.parents = id) (x : Finset α) : u.find x = some (x, u) := by
  have : u.walk [] x = some ([], x) := by
    rw [UF.walk, if_pos (by rw [hu]; rfl)]
  rw [UF.find, this]
  rfl

theorem step_id (tie : Finset α → Finset α → Bool) (G : DAG α) (cl : List (Finset α)) {t t' : CliqueTree α} {e : Finset α × Finset α}
    (h1 : e.1 ∈ cl) (h2 : e.2 ∈ cl)
    (h : DAG.cliqueStep tie G cl t e = some t') :
    t.arcs ⊆ t'.arcs ∧ (NoBi t'.arcs → t.bi.parents = id → OneArc t.arcs → t'.bi.parents = id ∧ OneArc t'.arcs) := by
  simp only [DAG.cliqueStep, Option.bind_eq_bind, Option.bind_eq_some_iff] at h
  obtain ⟨⟨a, s1⟩, -, ⟨b, s2⟩, -, h⟩ := h
  dsimp only at h
  by_cases hab : a = b
  · rw [if_pos hab] at h
    cases h
    exact ⟨subset_rfl, fun _ h1 h2 => ⟨h1, h2⟩⟩
  rw [if_neg hab] at h
  by_cases hi : (G.allInto (e.1 ∩ e.2) e.1 && G.allInto (e.1 ∩ e.2) e.2) = true
  · rw [if_pos hi] at h
    rw [Option.bind_eq_some_iff] at h
    obtain ⟨⟨a', b1⟩, f1, h⟩ := h
    dsimp only at h
    rw [Option.bind_eq_some_iff] at h
    obtain ⟨⟨b', b2⟩, f2, h⟩ := h
    dsimp only at h
    split at h
    · cases h
      refine ⟨subset_rfl, fun _ h1 h2 => ⟨?_, h2⟩⟩
      rw [find_id h1] at f1
      cases f1
      rw [find_id h1] at f2
      cases f2
      exact h1
    · rw [Option.bind_eq_some_iff] at h
      obtain ⟨s3, -, h⟩ := h
      rw [Option.bind_eq_some_iff] at h
      obtain ⟨b3, -, h⟩ := h
      cases h
      refine ⟨(Finset.subset_insert _ _).trans (Finset.subset_insert _ _), fun hno => absurd ?_ (hno e.1 e.2 ?_)⟩
      · exact Finset.mem_insert_self _ _
      · exact Finset.mem_insert_of_mem (Finset.mem_insert_self _ _)
  · rw [if_neg hi] at h
    have hmem : (if G.allInto (e.1 ∩ e.2) e.2 = true then e else e.swap).2 ∈ cl := by
      split
      · exact h2
      · exact h1
    generalize (if G.allInto (e.1 ∩ e.2) e.2 = true then e else e.swap) = f at h hmem
    rw [Option.bind_eq_some_iff] at h
    obtain ⟨⟨b', b2⟩, f2, h⟩ := h
    dsimp only at h
    split at h
    · cases h
      refine ⟨subset_rfl, fun _ h1 h2 => ⟨?_, h2⟩⟩
      rw [find_id h1] at f2
      cases f2
      exact h1
    · rename_i hs
      rw [Option.bind_eq_some_iff] at h
      obtain ⟨s3, -, h⟩ := h
      cases h
      refine ⟨Finset.subset_insert _ _, fun hno g1 g2 => ?_⟩
      rw [find_id g1] at f2
      cases f2
      refine ⟨g1, ?_⟩
      have none : ∀ a, (a, f.2) ∉ t.arcs := by
        intro a ha
        apply hs
        rw [DAG.hasSource, decide_eq_true_iff]
        exact ⟨f.2, hmem, by dsimp only; rw [g1]; rfl, (a, f.2), ha, rfl, fun h =>
          hno a f.2 (Finset.mem_insert_of_mem ha) (Finset.mem_insert_of_mem h)⟩
      intro x x' y hx hx'
      rcases Finset.mem_insert.1 hx with hx | hx <;> rcases Finset.mem_insert.1 hx' with hx' | hx'
      · exact congrArg Prod.fst (hx.trans hx'.symm)
      · rw [← hx] at none; exact absurd hx' (none x')
      · rw [← hx'] at none; exact absurd hx (none x)
      · exact g2 x x' y hx hx'

theorem oneArc (tie : Finset α → Finset α → Bool) (G : DAG α) (hT : DAG.directedCliqueTree tie G cl = some T) (hno : NoBi T) : OneArc T := by
  rw [DAG.directedCliqueTree, Option.map_eq_some_iff] at hT
  obtain ⟨t', ht, rfl⟩ := hT
  have key : ∀ (l : List (Finset α × Finset α)) (t : CliqueTree α), (∀ e ∈ l, e.1 ∈ cl ∧ e.2 ∈ cl) →
      l.foldlM (DAG.cliqueStep tie G cl) t = some t' →
      t.arcs ⊆ t'.arcs ∧ (t.bi.parents = id → OneArc t.arcs → OneArc t'.arcs) := by
    intro l
    induction l with
    | nil =>
      intro t _ h
      cases h
      exact ⟨subset_rfl, fun _ h => h⟩
    | cons e l ih =>
      intro t hin h
      rw [List.foldlM_cons, Option.bind_eq_bind, Option.bind_eq_some_iff] at h
      obtain ⟨s, h1, h2⟩ := h
      obtain ⟨i1, i2⟩ := ih s (fun e he => hin e (List.mem_cons_of_mem _ he)) h2
      obtain ⟨j1, j2⟩ := step_id tie G cl (hin e (List.mem_cons_self ..)).1 (hin e (List.mem_cons_self ..)).2 h1
      refine ⟨j1.trans i1, fun g1 g2 => ?_⟩
      obtain ⟨k1, k2⟩ := j2 (fun a b ha hb => hno a b (i1 ha) (i1 hb)) g1 g2
      exact i2 k1 k2
  exact (key _ _ (fun e he => ⟨(cliquePairs_mem e he).1, (cliquePairs_mem e he).2.1⟩) ht).2 rfl (by intro a a' b h; simp at h)

omit [DecidableEq α] in
theorem NoBi.B_eq (hno : NoBi T) {a b : Finset α} (h : B T a b) : a = b := by
  rcases ReflTransGen.cases_head h with h | ⟨c, hs, -⟩
  · exact h
  · exact absurd hs.2 (hno _ _ hs.1)

theorem NoBi.onePred (hno : NoBi T) (h1 : OneArc T) (hf : Forest T) (he : ∀ a b, (a, b) ∈ T → a ∈ cl ∧ b ∈ cl) :
    OnePred (DAG.contract cl T) := by
  intro K P P' h h'
  obtain ⟨a, b, hab, rfl, rfl⟩ := (mem_contract_arcs hf he).1 h
  obtain ⟨a', b', hab', rfl, hb⟩ := (mem_contract_arcs hf he).1 h'
  have := hno.B_eq ((component_eq (he _ _ hab'.1).2).1 hb)
  subst this
  rw [h1 _ _ _ hab.1 hab'.1]

theorem NoBi.component (hno : NoBi T) {c : Finset α} (hc : c ∈ cl) : DAG.cliqueComponent cl T c = {c} := by
  ext d
  rw [mem_component, Finset.mem_singleton]
  constructor
  · exact fun h => (hno.B_eq h.2).symm
  · rintro rfl; exact ⟨hc, .refl⟩

/-! ## Sorted residuals -/

omit [DecidableEq α] in
/-- Consecutive elements of a list whose elements are joined by arcs from left to right. -/
theorem consecutive {E : α → α → Prop} {l : List α} (hl : l.Pairwise E) {x y : α} (hx : x ∈ l) (hy : y ∈ l) (hyx : ¬ E y x) (hne : x ≠ y)
    (hno : ∀ z, E x z → ¬ E z y) : ∃ l1 l2, l = l1 ++ x :: y :: l2 := by
  obtain ⟨l1, l2, rfl⟩ := List.append_of_mem hx
  rw [List.pairwise_append, List.pairwise_cons] at hl
  rw [List.mem_append, List.mem_cons] at hy
  rcases hy with hy | hy | hy
  · exact absurd (hl.2.2 y hy x (List.mem_cons_self ..)) hyx
  · exact absurd hy.symm hne
  · cases l2 with
    | nil => simp at hy
    | cons z l2 =>
      rcases List.mem_cons.1 hy with rfl | hy
      · exact ⟨l1, l2, rfl⟩
      · exact absurd ((List.pairwise_cons.1 hl.2.1.2).1 y hy) (hno z (hl.2.1.1 z (List.mem_cons_self ..)))

theorem sortedNodes_spec {G : DAG α} (hG : G.Valid) (o : SetOrder (Option α) α) (oa : SetOrder Bool (α × α)) (R : Finset α) :
    ∃ l, (DAG.sortedNodes o oa G R).run = some (.ok l) ∧ LinearExtension (R : Set α) (Restrict G.E (R : Set α)) l := by
  obtain ⟨H, h1, h2, h3, h4⟩ := DAG.inducedSubgraph_spec hG o oa R
  obtain ⟨l, h5, h6⟩ := DAG.topologicalSort_ok H o h2
  rw [h3, h4] at h6
  refine ⟨l, ?_, h6⟩
  change (DAG.inducedSubgraph o oa G R).bind _ = _
  rw [h1]
  exact h5

omit [DecidableEq α] in
/-- A sorted clique. -/
theorem sorted_pairwise {E : α → α → Prop} {R : Finset α} (hR : Clique E R) {l : List α}
    (hl : LinearExtension (R : Set α) (Restrict E (R : Set α)) l) : l.Pairwise E := by
  rw [List.pairwise_iff_forall_sublist]
  intro a b hab
  have ha : a ∈ R := (hl.mem_iff a).1 (hab.subset (by simp))
  have hb : b ∈ R := (hl.mem_iff b).1 (hab.subset (by simp))
  have hne : a ≠ b := by
    rintro rfl
    have := hl.nodup.sublist hab
    simp at this
  rcases hR a ha b hb hne with h | h
  · exact h
  · exfalso
    have h2 : [b, a].Sublist l := hl.before b a ⟨h, hb, ha⟩
    rw [List.cons_sublist_iff] at hab h2
    obtain ⟨r1, r2, e1, m1, m2⟩ := hab
    obtain ⟨q1, q2, e2, n1, n2⟩ := h2
    rw [List.singleton_sublist] at m2 n2
    have hd := hl.nodup
    rw [e1, List.nodup_append] at hd
    have hd' := hl.nodup
    rw [e2, List.nodup_append] at hd'
    rcases List.append_eq_append_iff.1 (e1.symm.trans e2) with ⟨c, e3, e4⟩ | ⟨c, e3, e4⟩
    · rw [e3] at hd'
      exact hd'.2.2 a (List.mem_append_left _ m1) a n2 rfl
    · rw [e3] at hd
      exact hd.2.2 b (List.mem_append_left _ n1) b m2 rfl

theorem optimalFromTree_run {G : DAG α} {on : SetOrder Unit (Finset (Finset α))} {op : SetOrder (Finset (Finset α)) (Finset (Finset α))}
    {o : SetOrder (Option α) α} {oa : SetOrder Bool (α × α)} {C : Contracted α} {g : Finset (Finset α) → Finset α}
    (hg : ∀ K ∈ C.nodes, (DAG.verificationOptimalHelper o oa G K (DAG.parentUnion op C K)).run = some (.ok (g K))) :
    (DAG.optimalFromTree on op o oa G C).run = some (.ok (C.nodes.biUnion g)) := by
  have key : ∀ (l : List (Finset (Finset α))) (s : Finset α), (∀ K ∈ l, K ∈ C.nodes) → (l.foldlM (fun s k => do
      let s' ← DAG.verificationOptimalHelper o oa G k (DAG.parentUnion op C k)
      return s ∪ s') s : Run α (Finset α)).run = some (.ok (s ∪ l.toFinset.biUnion g)) := by
    intro l
    induction l with
    | nil => intro s _; simp
    | cons K l ih =>
      intro s hK
      rw [List.foldlM_cons, ExceptT.run_bind, ExceptT.run_bind, hg K (hK K (List.mem_cons_self ..))]
      simp only [Option.bind_eq_bind, Option.bind_some, ExceptT.run_pure]
      refine (ih _ fun K hK' => hK K (List.mem_cons_of_mem _ hK')).trans ?_
      rw [List.toFinset_cons, Finset.biUnion_insert, Finset.union_assoc]
  rw [DAG.optimalFromTree, key _ _ fun K hK => (on.mem_iff ..).1 hK, Finset.empty_union]
  congr 3
  ext K
  rw [List.mem_toFinset, on.mem_iff]

/-- Without edges in both directions the targets are a smallest vertex cover of the covered arcs. -/
theorem optimal_single (tie : Finset α → Finset α → Bool) {G : DAG α} (hG : G.Valid) (hm : ∀ x y z, G.E x z → G.E y z → x = y ∨ Adj G.E x y)
    (hcl : ∀ c, c ∈ cl ↔ MaxClique G.nodes G.E c) (hT : DAG.directedCliqueTree tie G cl = some T) (hno : NoBi T)
    (on : SetOrder Unit (Finset (Finset α))) (op : SetOrder (Finset (Finset α)) (Finset (Finset α))) (o : SetOrder (Option α) α)
    (oa : SetOrder Bool (α × α)) :
    ∃ S, (DAG.optimalFromTree on op o oa G (DAG.contract cl T)).run = some (.ok S) ∧ S ⊆ G.nodes ∧
      (∀ x y, Covered G.E x y → x ∈ S ∨ y ∈ S) ∧
      ∀ S' : Finset α, (∀ x y, Covered G.E x y → x ∈ S' ∨ y ∈ S') → S.card ≤ S'.card := by
  have h1A := oneArc tie G hT hno
  obtain ⟨T', h1, h2, hj, hcon⟩ := moral_loop tie hG hm hcl
  rw [hT] at h1
  cases h1
  have hf := h2.forest
  have he : ∀ a b, (a, b) ∈ T → a ∈ cl ∧ b ∈ cl := fun a b h => ⟨(h2.ends a b h).1, (h2.ends a b h).2.1⟩
  have hone := hno.onePred (cl := cl) h1A hf he
  have hV : ∀ a b, G.E a b → a ∈ G.nodes ∧ b ∈ G.nodes := fun a b h => ⟨hG.fst_mem a b h, hG.snd_mem a b h⟩
  obtain ⟨r, -, hr, -⟩ := exists_rank hG.acyclic _ G.nodes rfl
  replace hr : ∀ a b, G.E a b → r a < r b := fun a b h => hr a (hV a b h).1 b (hV a b h).2 h
  set C := DAG.contract cl T with hC
  have hR : ∀ c ∈ cl, ∀ x, x ∈ DAG.residual op C {c} → x ∈ c ∧ Top cl T x c := by
    intro c hc x hx
    rw [← hno.component hc] at hx
    have ht := top_of_residual hf he hone hx
    obtain ⟨d, -, h3, h4⟩ := ht.1
    rw [← hno.B_eq h3] at h4
    exact ⟨h4, ht⟩
  have hTop : ∀ c ∈ cl, ∀ x, Top cl T x c → x ∈ c ∧ x ∈ DAG.residual op C {c} := by
    intro c hc x ht
    obtain ⟨d, -, h3, h4⟩ := ht.1
    rw [← hno.B_eq h3] at h4
    have := ht.mem_residual hf he op
    rw [hno.component hc] at this
    exact ⟨h4, this⟩
  have hpar : ∀ c ∈ cl, ∀ x y, Top cl T y c → G.E x y → x ∈ c := by
    intro c hc x y ht hxy
    obtain ⟨d, -, h3, h4⟩ := ht.parent hf he hj hcon hone hr hV hcl h2.into hxy
    rwa [← hno.B_eq h3] at h4
  have hout : ∀ c ∈ cl, ∀ x ∈ c, x ∉ DAG.residual op C {c} → ∃ a, (a, c) ∈ T ∧ x ∈ a ∧ ∀ z ∈ DAG.residual op C {c}, z ∉ a := by
    intro c hc x hx hxR
    have hxp : x ∈ DAG.parentUnion op C {c} := by
      by_contra hxp
      exact hxR (by rw [DAG.residual, Finset.mem_sdiff]; exact ⟨by simpa using hx, hxp⟩)
    rcases parentUnion_cases op C {c} with ⟨e, -⟩ | ⟨P, hP, e⟩
    · rw [e] at hxp; simp at hxp
    · obtain ⟨a, b, hab, rfl, hb⟩ := (mem_contract_arcs hf he).1 hP
      obtain ⟨ha, hb'⟩ := he _ _ hab.1
      rw [hno.component hb', Finset.singleton_inj] at hb
      subst hb
      rw [hno.component ha, Finset.sup_singleton, id] at e
      rw [e] at hxp
      refine ⟨a, hab.1, hxp, fun z hz => ?_⟩
      rw [DAG.residual, Finset.mem_sdiff, e] at hz
      exact hz.2
  have hasym : ∀ {a b}, G.E a b → ¬ G.E b a := fun h h' => absurd (hr _ _ h) (not_lt.2 (hr _ _ h').le)
  choose L hL1 hL2 using fun K : Finset (Finset α) => sortedNodes_spec hG o oa (DAG.residual op C K)
  have hcq : ∀ c ∈ cl, Clique G.E c := fun c hc => ((hcl c).1 hc).clique
  have hpw : ∀ c ∈ cl, (L {c}).Pairwise G.E := fun c hc => sorted_pairwise
    (fun x hx y hy hxy => hcq c hc x (hR c hc x hx).1 y (hR c hc y hy).1 hxy) (hL2 {c})
  have hmem : ∀ K x, x ∈ L K ↔ x ∈ DAG.residual op C K := fun K x => (hL2 K).mem_iff x
  -- covered arcs are consecutive
  have hcov : ∀ x y, Covered G.E x y → ∃ c ∈ cl, ∃ l1 l2, L {c} = l1 ++ x :: y :: l2 := by
    intro x y hxy
    obtain ⟨c, hc, hyc⟩ := exists_maxClique (V := G.nodes) (E := G.E) (c := {y}) ⟨y, by simp⟩ (by simpa using (hV _ _ hxy.1).2) (by
      intro a ha b hb hab
      rw [Finset.mem_singleton] at ha hb
      exact absurd (ha.trans hb.symm) hab)
    obtain ⟨k, hk, ht⟩ := exists_top hf ((hcl c).2 hc) (hyc (Finset.mem_singleton_self y))
    obtain ⟨hyk, hyR⟩ := hTop k hk y ht
    have hxk := hpar k hk x y ht hxy.1
    have hxR : x ∈ DAG.residual op C {k} := by
      by_contra hxR
      obtain ⟨a, hak, hxa, hres⟩ := hout k hk x hxk hxR
      have hxs : ∀ s ∈ a ∩ k, s ≠ x → G.E s x := by
        intro s hs hsx
        have : G.E s y := h2.into a k hak s hs y hyk fun h => hres y hyR (Finset.mem_inter.1 h).1
        exact (hxy.2 s).2 ⟨this, hsx⟩
      have hxz : ∀ z ∈ a, z ∉ a ∩ k → G.E x z := by
        intro z hz hzn
        have hne : x ≠ z := by rintro rfl; exact hzn (Finset.mem_inter.2 ⟨hz, hxk⟩)
        rcases hcq a (he _ _ hak).1 x hxa z hz hne with h | h
        · exact h
        · exact absurd (Finset.mem_inter.2 ⟨hz, hpar k hk z y ht ((hxy.2 z).1 h).1⟩) hzn
      refine hno a k hak (h2.back a k hak fun s hs z hz hzn => ?_)
      by_cases hsx : s = x
      · rw [hsx]; exact hxz z hz hzn
      · have hne : s ≠ z := by rintro rfl; exact hzn hs
        rcases hcq a (he _ _ hak).1 s (Finset.mem_inter.1 hs).1 z hz hne with h | h
        · exact h
        · have g1 := hr _ _ (hxs s hs hsx)
          have g2 := hr _ _ (hxz z hz hzn)
          have g3 := hr _ _ h
          omega
    refine ⟨k, hk, consecutive (hpw k hk) ((hmem _ _).2 hxR) ((hmem _ _).2 hyR) (hasym hxy.1) ?_ fun z h3 h4 => ?_⟩
    · rintro rfl; exact hasym hxy.1 hxy.1
    · exact hasym h3 ((hxy.2 z).2 ⟨h4, by rintro rfl; exact hasym h3 h3⟩)
  -- and conversely
  have hcons : ∀ c ∈ cl, ∀ l1 l2 x y, L {c} = l1 ++ x :: y :: l2 → Covered G.E x y := by
    intro c hc l1 l2 x y e
    have hp := hpw c hc
    have hxl : x ∈ L {c} := by rw [e]; simp
    have hyl : y ∈ L {c} := by rw [e]; simp
    obtain ⟨hxc, hxt⟩ := hR c hc x ((hmem _ _).1 hxl)
    obtain ⟨hyc, hyt⟩ := hR c hc y ((hmem _ _).1 hyl)
    have hin := hmem {c}
    rw [e] at hp hin
    rw [List.pairwise_append, List.pairwise_cons, List.pairwise_cons] at hp
    have hxy := hp.2.1.1 y (List.mem_cons_self ..)
    refine ⟨hxy, fun p => ⟨fun hpx => ⟨?_, ?_⟩, fun ⟨hpy, hpne⟩ => ?_⟩⟩
    · have hpc := hpar c hc p x hxt hpx
      have g1 := hr _ _ hpx
      have g2 := hr _ _ hxy
      rcases hcq c hc p hpc y hyc (by rintro rfl; omega) with h | h
      · exact h
      · have := hr _ _ h
        omega
    · rintro rfl; exact hasym hpx hpx
    · have hpc := hpar c hc p y hyt hpy
      rcases hcq c hc p hpc x hxc hpne with h | h
      · exact h
      exfalso
      by_cases hpR : p ∈ DAG.residual op C {c}
      · have := (hin p).2 hpR
        simp only [List.mem_append, List.mem_cons] at this
        rcases this with h' | rfl | rfl | h'
        · exact hasym h (hp.2.2 p h' x (List.mem_cons_self ..))
        · exact hpne rfl
        · exact hasym hpy hpy
        · exact hasym hpy (hp.2.1.2.1 p h')
      · obtain ⟨a, hac, hpa, hres⟩ := hout c hc p hpc hpR
        refine hasym h (h2.into a c hac p (Finset.mem_inter.2 ⟨hpa, hpc⟩) x hxc fun hx => ?_)
        exact hres x ((hmem _ _).1 hxl) (Finset.mem_inter.1 hx).1
  have hnode : ∀ K, K ∈ C.nodes ↔ ∃ c ∈ cl, K = {c} := by
    intro K
    rw [hC, mem_contract_nodes]
    exact ⟨fun ⟨c, hc, h⟩ => ⟨c, hc, h.trans (hno.component hc)⟩, fun ⟨c, hc, h⟩ => ⟨c, hc, h.trans (hno.component hc).symm⟩⟩
  refine ⟨C.nodes.biUnion fun K => (everyOther ((L K).drop 1)).toFinset, optimalFromTree_run fun K hK => ?_, ?_, ?_, ?_⟩
  · obtain ⟨c, hc, rfl⟩ := (hnode K).1 hK
    rw [DAG.verificationOptimalHelper, if_pos (Finset.card_singleton c), ExceptT.run_bind]
    have := hL1 {c}
    rw [DAG.residual] at this
    rw [this]
    rfl
  · intro x hx
    rw [Finset.mem_biUnion] at hx
    obtain ⟨K, hK, hx⟩ := hx
    obtain ⟨c, hc, rfl⟩ := (hnode K).1 hK
    rw [List.mem_toFinset] at hx
    have := (hmem _ _).1 (List.mem_of_mem_drop ((everyOther_sublist _).subset hx))
    exact ((hcl c).1 hc).sub (hR c hc x this).1
  · intro x y hxy
    obtain ⟨c, hc, l1, l2, e⟩ := hcov x y hxy
    have hn := (hnode {c}).2 ⟨c, hc, rfl⟩
    rcases everyOther_covers _ l1 l2 x y e with h | h
    · exact .inl (Finset.mem_biUnion.2 ⟨_, hn, List.mem_toFinset.2 h⟩)
    · exact .inr (Finset.mem_biUnion.2 ⟨_, hn, List.mem_toFinset.2 h⟩)
  · intro S' hS'
    calc (C.nodes.biUnion fun K => (everyOther ((L K).drop 1)).toFinset).card
        ≤ ∑ K ∈ C.nodes, ((everyOther ((L K).drop 1)).toFinset).card := Finset.card_biUnion_le
      _ ≤ ∑ K ∈ C.nodes, (S' ∩ (L K).toFinset).card := by
          refine Finset.sum_le_sum fun K hK => ?_
          obtain ⟨c, hc, rfl⟩ := (hnode K).1 hK
          refine (List.toFinset_card_le _).trans (everyOther_min S' _ (hL2 _).nodup fun l1 l2 x y e => hS' x y (hcons c hc l1 l2 x y e))
      _ = (C.nodes.biUnion fun K => S' ∩ (L K).toFinset).card := by
          refine (Finset.card_biUnion fun K hK K' hK' hne => ?_).symm
          obtain ⟨c, hc, rfl⟩ := (hnode K).1 hK
          obtain ⟨d, hd, rfl⟩ := (hnode K').1 hK'
          refine Finset.disjoint_left.2 fun x hx hx' => ?_
          rw [Finset.mem_inter, List.mem_toFinset, hmem] at hx hx'
          have := hno.B_eq ((hR c hc x hx.2).2.unique hf he hj hcon hone (hR d hd x hx'.2).2)
          exact hne (by rw [this])
      _ ≤ S'.card := Finset.card_le_card (Finset.biUnion_subset.2 fun K _ => Finset.inter_subset_left)

end Proof.CT
