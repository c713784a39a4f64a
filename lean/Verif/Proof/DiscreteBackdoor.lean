import Verif.Proof.DiscreteInvariant
import Verif.Proof.DiscreteIv
import Verif.Proof.DiscreteMarkov
import Verif.Proof.DiscreteImap
import Verif.Proof.Invariant

/-! # Adjustment formulas in discrete networks -/

namespace Spec

variable {α R : Type} [DecidableEq α] [AddCommMonoid R] {d : α → ℕ}

/-- A sum over the values of a list of variables as a sum over assignments. -/
theorem sumL_assignments {l : List α} (hl : l.Nodup) (f : (α → ℕ) → R) (x : α → ℕ) :
    sumL d l f x = ∑ z ∈ assignments l.toFinset d, f fun v => if v ∈ l then z v else x v := by
  have hlook : LooksAt (fun z : α → ℕ => f fun v => if v ∈ l then z v else x v) {v | v ∈ l} := by
    intro y z h
    refine congrArg f (funext fun v => ?_)
    split_ifs with hv
    · exact h v hv
    · rfl
  rw [sum_assignments, sumL_perm ((List.perm_ext_iff_of_nodup (Finset.nodup_toList _) hl).2 fun v => by simp),
    sumL_base hlook (x' := x) (fun v h1 h2 => absurd h1 h2)]
  refine sumL_congr fun y _ hy => congrArg f (funext fun v => ?_)
  split_ifs with hv
  · rfl
  · exact hy v hv

/-- The parents of a node and the node are the Markov blanket of an additional source that points at it. -/
theorem blanket_source {α : Type} {E : α → α → Prop} (i : α) :
    Blanket (Augment E {i}) none = some '' insert i {p | E p i} := by
  ext x
  constructor
  · rintro ⟨hx, h1 | h1 | ⟨c, h1, h2⟩⟩
    · cases h1
    · cases h1 with
      | target h1 => exact ⟨_, .inl (Set.mem_singleton_iff.1 h1), rfl⟩
    · cases h1 with
      | target h1 =>
        rw [Set.mem_singleton_iff] at h1
        subst h1
        cases h2 with
        | old h2 => exact ⟨_, .inr h2, rfl⟩
        | target h2 => exact absurd rfl hx
  · rintro ⟨a, rfl | ha, rfl⟩
    · exact ⟨by simp, .inr (.inl (.target rfl))⟩
    · exact ⟨by simp, .inr (.inr ⟨some i, .target rfl, .old ha⟩)⟩

/-- An additional source at a node is separated from everything else given the node and its parents. -/
theorem source_separated {α : Type} {E : α → α → Prop} (hE : Acyclic E) {i : α} {A : Set α} (hi : i ∉ A) (hp : ∀ p, E p i → p ∉ A) :
    DSep (Augment E {i}) (some '' A) {none} (some '' insert i {p | E p i}) := by
  have := blanket_separates (augment_acyclic (I := {i}) hE) none
  rw [blanket_source] at this
  refine dsep_symm (dsep_mono (Set.Subset.refl _) ?_ this)
  rintro _ ⟨a, ha, rfl⟩
  refine ⟨by simp, ?_⟩
  rintro ⟨b, rfl | hb, e⟩
  · exact hi (Option.some.inj e ▸ ha)
  · exact hp b hb (Option.some.inj e ▸ ha)

/-- An additional source at a node is separated from everything that does not come after the node. -/
theorem source_before {α : Type} {E : α → α → Prop} (hE : Acyclic E) {i : α} {A : Set α} (h : ∀ a ∈ A, ¬ Relation.ReflTransGen E i a) :
    DSep (Augment E {i}) (some '' A) {none} ∅ := by
  have := local_markov (augment_acyclic (I := {i}) hE) none
  have he : {p | Augment E {i} p none} = ∅ := by
    ext p
    constructor
    · rintro ⟨⟩
    · rintro ⟨⟩
  rw [he] at this
  refine dsep_symm (dsep_mono (Set.Subset.refl _) ?_ this)
  rintro _ ⟨a, ha, rfl⟩
  refine ⟨by simp, fun hp => h a ha ?_, by rintro ⟨⟩⟩
  have key : ∀ x y : Option α, Path (Augment E {i}) x y → x = none → ∃ b, y = some b ∧ Relation.ReflTransGen E i b := by
    intro x y hxy
    induction hxy with
    | single e =>
      rintro rfl
      cases e with
      | target e => exact ⟨_, rfl, Set.mem_singleton_iff.1 e ▸ .refl⟩
    | tail _ e ih =>
      intro hx
      obtain ⟨b, rfl, hb⟩ := ih hx
      cases e with
      | old e => exact ⟨_, rfl, hb.tail e⟩
  obtain ⟨b, hb, h2⟩ := key _ _ hp rfl
  exact Option.some.inj hb ▸ h2

end Spec

namespace Model.DiscreteDAG

open Spec
open scoped NNReal

variable {α : Type} [DecidableEq α] {D : DiscreteDAG α}

/-- What `get_hard_interventional_dag` returns, with its tables. -/
theorem hardInterventional_tables (hD : D.Proper) (o : SetOrder (Option α) α) (oa : SetOrder Bool (α × α)) {t : α}
    (ht : t ∈ D.dag.nodes) (halph : (D.alph t).Nodup) {c : ℕ} (hc : c < D.dims t) :
    ∃ D', D.hardInterventional o oa t ((D.alph t).getD c 0) = some (.ok D') ∧ D'.dag.nodes = D.dag.nodes ∧
      (∀ a, a ∈ D'.dag.arcs ↔ a ∈ D.dag.arcs ∧ a.2 ≠ t) ∧ D'.alph = D.alph ∧ D'.Proper ∧
      (∀ y : α → ℕ, (∀ v ∈ D.dag.nodes, y v < D.dims v) → y t ≠ c → D'.law y = 0) ∧
      (∀ v, v ≠ t → D'.pars v = D.pars v ∧ D'.cond v = D.cond v) ∧ (D.Cut → D'.Cut) := by
  obtain ⟨D', h1, h2, h3, h4, h5, h6⟩ := hardInterventional_run hD o oa ht halph hc
  obtain ⟨G, hG⟩ : ∃ G, D' = ⟨G, fun v => if v ≠ t then D.cond v else pointMass (D.alph t) ((D.alph t).getD c 0),
      fun v => if v = t then [] else D.pars v, D.alph⟩ := by
    rw [hardInterventional, new] at h1
    split at h1
    · cases h1
    · cases h1
    · split at h1
      · exact ⟨_, (Except.ok.inj (Option.some.inj h1)).symm⟩
      · cases h1
  have hcond : ∀ v, v ≠ t → D'.pars v = D.pars v ∧ D'.cond v = D.cond v := fun v hv => by
    rw [hG]; exact ⟨if_neg hv, if_pos hv⟩
  have hd : D'.dims = D.dims := funext fun v => by rw [dims, dims, h4]
  refine ⟨D', h1, h2, h3, h4, h5, fun y hy hyt => ?_, hcond, fun hcut v hv x hx => ?_⟩
  · rw [h6 y hy, lawDo, if_neg]
    intro h
    exact hyt (h t ht c (if_pos rfl))
  · by_cases hvt : v = t
    · subst hvt
      rw [hG]
      simp only [pointMass, ne_eq, not_true_eq_false, if_false]
      have : ∀ (p : Prop) [Decidable p], (if p then (1 : ℝ≥0) else 0) = 0 ∨ 1 / 10 ^ 10 < (if p then (1 : ℝ≥0) else 0) := by
        intro p _
        split
        · right; norm_num
        · exact Or.inl rfl
      exact this _
    · rw [(hcond v hvt).1, (hcond v hvt).2]
      rw [(hcond v hvt).1, hd] at hx
      exact hcut v (h2 ▸ hv) x hx

omit [DecidableEq α] in
/-- If a node has one value only, that value can be added to every event. -/
theorem pr_constant {t : α} {c : ℕ} (h : ∀ y : α → ℕ, (∀ v ∈ D.dag.nodes, y v < D.dims v) → y t ≠ c → D.law y = 0) {S : List α}
    {x x' : α → ℕ} (hx : ∀ v ∈ S, x' v = x v) (hxt : x' t = c) : D.pr (t :: S) x' = D.pr S x := by
  classical
  rw [pr, pr, prob, prob, Finset.sum_filter, Finset.sum_filter]
  refine Finset.sum_congr rfl fun y hy => ?_
  have hb := (mem_assignments.1 hy).1
  by_cases hyt : y t = c
  · have e : (∀ v ∈ t :: S, y v = x' v) ↔ ∀ v ∈ S, y v = x v := by
      rw [List.forall_mem_cons, hxt]
      exact ⟨fun k v hv => (k.2 v hv).trans (hx v hv), fun k => ⟨hyt, fun v hv => (k v hv).trans (hx v hv).symm⟩⟩
    by_cases k : ∀ v ∈ S, y v = x v
    · rw [if_pos (e.2 k), if_pos k]
    · rw [if_neg fun h => k (e.1 h), if_neg k]
  · rw [h y hb hyt, ite_self, ite_self]

/-- The adjustment formula. -/
theorem adjustment {D' : DiscreteDAG α} (hD' : D'.Proper) {t : α} {c : ℕ} (hn : D'.dag.nodes = D.dag.nodes)
    (ha : D'.alph = D.alph)
    (hlaw : ∀ y : α → ℕ, (∀ v ∈ D.dag.nodes, y v < D.dims v) → y t ≠ c → D'.law y = 0) {Y Z : List α}
    (hnd : (Y ++ t :: Z).Nodup) (hN : ∀ v ∈ Y ++ t :: Z, v ∈ D.dag.nodes) (hc : c < D.dims t)
    (hZ : ∀ z : α → ℕ, (∀ v ∈ Z, z v < D.dims v) → D'.pr Z z = D.pr Z z)
    (hY : ∀ x : α → ℕ, (∀ v ∈ Y ++ t :: Z, x v < D.dims v) → D.pr (t :: Z) x ≠ 0 → D'.pr (t :: Z) x ≠ 0 →
      D'.condPr Y (t :: Z) x = D.condPr Y (t :: Z) x)
    (hpos : ∀ z : α → ℕ, (∀ v ∈ t :: Z, z v < D.dims v) → z t = c → D.pr Z z ≠ 0 → D.pr (t :: Z) z ≠ 0)
    {x : α → ℕ} (hx : ∀ v ∈ Y, x v < D.dims v) :
    D'.pr Y x = ∑ z ∈ assignments Z.toFinset D.dims,
      D.condPr Y (t :: Z) (fun v => if v = t then c else if v ∈ Z then z v else x v) * D.pr Z z := by
  have hd : D'.dims = D.dims := funext fun v => by rw [dims, dims, ha]
  have hYZ : (Y ++ Z).Nodup := hnd.sublist (List.Sublist.append_left (List.sublist_cons_self _ _) _)
  have htY : t ∉ Y := fun h => List.disjoint_of_nodup_append hnd h (List.mem_cons_self ..)
  have htZ : t ∉ Z := (List.nodup_cons.1 hnd.of_append_right).1
  have hlaw' : ∀ y : α → ℕ, (∀ v ∈ D'.dag.nodes, y v < D'.dims v) → y t ≠ c → D'.law y = 0 := by
    rw [hn, hd]; exact hlaw
  rw [pr_sum hD'.toShaped hYZ (fun v hv => by
    rw [hn]
    rcases List.mem_append.1 hv with h | h
    · exact hN v (List.mem_append_left _ h)
    · exact hN v (List.mem_append_right _ (List.mem_cons_of_mem _ h))) x (by rw [hd]; exact hx), hd,
    sumL_assignments hYZ.of_append_right]
  refine Finset.sum_congr rfl fun z hz => ?_
  have hzb : ∀ v ∈ Z, z v < D.dims v := fun v hv => (mem_assignments.1 hz).1 v (List.mem_toFinset.2 hv)
  set y : α → ℕ := fun v => if v = t then c else if v ∈ Z then z v else x v with hy
  have hyt : y t = c := if_pos rfl
  have hyZ : ∀ v ∈ Z, y v = z v := fun v hv => by
    simp only [hy, if_neg (fun e : v = t => htZ (e ▸ hv)), if_pos hv]
  have hyb : ∀ v ∈ Y ++ t :: Z, y v < D.dims v := by
    intro v hv
    rcases List.mem_append.1 hv with h | h
    · have h1 : v ≠ t := fun e => htY (e ▸ h)
      have h2 : v ∉ Z := fun e => List.disjoint_of_nodup_append hYZ h e
      simp only [hy, if_neg h1, if_neg h2]
      exact hx v h
    · rcases List.mem_cons.1 h with rfl | h
      · rw [hyt]; exact hc
      · rw [hyZ v h]; exact hzb v h
  have e1 : D'.pr (Y ++ t :: Z) y = D'.pr (Y ++ Z) fun v => if v ∈ Z then z v else x v := by
    rw [pr_congr (T := t :: (Y ++ Z)) (fun v => by simp only [List.mem_append, List.mem_cons]; tauto)]
    refine pr_constant hlaw' (fun v hv => ?_) hyt
    have h1 : v ≠ t := by
      rintro rfl
      rcases List.mem_append.1 hv with h | h
      exacts [htY h, htZ h]
    simp only [hy, if_neg h1]
  have e2 : D'.pr (t :: Z) y = D.pr Z z := (pr_constant hlaw' hyZ hyt).trans (hZ z hzb)
  rw [← e1]
  by_cases h0 : D.pr Z z = 0
  · rw [h0, mul_zero]
    rw [h0] at e2
    exact le_antisymm (e2 ▸ pr_mono (fun v hv => List.mem_append_right _ hv) y) zero_le
  · have h1 : D.pr (t :: Z) y ≠ 0 := hpos y (fun v hv => hyb v (List.mem_append_right _ hv)) hyt (by rw [pr_base hyZ]; exact h0)
    have h2 : D'.pr (t :: Z) y ≠ 0 := by rw [e2]; exact h0
    rw [← hY y hyb h1 h2, condPr, if_neg h2, ← e2, div_mul_cancel₀ _ h2]

/-- If no table has a zero, everything is possible. -/
theorem pr_possible (hD : D.Proper)
    (h : ∀ v ∈ D.dag.nodes, ∀ x : α → ℕ, (∀ u ∈ D.pars v ++ [v], x u < D.dims u) → (D.cond v).val ((D.pars v ++ [v]).map x) ≠ 0)
    {S : List α} {x : α → ℕ} (hx : ∀ v ∈ S, x v < D.dims v) (hS : ∀ v ∈ S, v ∈ D.dag.nodes) : D.pr S x ≠ 0 := by
  classical
  set y : α → ℕ := fun v => if v ∈ S then x v else 0 with hy
  have hyb : ∀ v ∈ D.dag.nodes, y v < D.dims v := by
    intro v hv
    by_cases hs : v ∈ S
    · simp only [hy, if_pos hs]; exact hx v hs
    · simp only [hy, if_neg hs]; exact hD.dims_pos hv
  have hya : y ∈ assignments D.dag.nodes D.dims := mem_assignments.2 ⟨hyb, fun v hv => if_neg fun h => hv (hS v h)⟩
  have hl : D.law y ≠ 0 := by
    rw [law, joint]
    refine Finset.prod_ne_zero_iff.2 fun v hv => h v hv y fun u hu => hyb u ?_
    rcases List.mem_append.1 hu with hu | hu
    · exact hD.valid.fst_mem _ _ ((hD.pars_iff v hv u).1 hu)
    · exact (List.mem_singleton.1 hu) ▸ hv
  rw [pr, prob, Finset.sum_filter]
  intro h0
  have h1 := Finset.sum_eq_zero_iff.1 h0 y hya
  rw [if_pos fun v hv => if_pos hv] at h1
  exact hl h1

end Model.DiscreteDAG
