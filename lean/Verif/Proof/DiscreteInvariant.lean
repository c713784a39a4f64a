import Verif.Proof.DiscreteImap
import Verif.Proof.DiscreteIv
import Verif.Spec.Augment

/-! # Distributions of networks that differ in the tables of some nodes -/

namespace Spec

variable {α R : Type} [DecidableEq α]

/-- Summing over variables of `α` inside `Option α`. -/
theorem sumL_some [AddCommMonoid R] {d : α → ℕ} {d' : Option α → ℕ} (hd : ∀ v, d' (some v) = d v) (f : ℕ → (α → ℕ) → R) (l : List α)
    (x : Option α → ℕ) :
    sumL d' (l.map some) (fun y => f (y none) (y ∘ some)) x = sumL d l (f (x none)) (x ∘ some) := by
  induction l generalizing x with
  | nil => rfl
  | cons a l ih =>
    rw [List.map_cons, sumL, sumL, hd]
    refine Finset.sum_congr rfl fun i _ => ?_
    rw [ih, Function.update_of_ne (by simp)]
    congr 1
    funext v
    by_cases h : v = a
    · subst h; simp
    · simp only [Function.comp, Function.update_of_ne h, Function.update_of_ne (fun k => h (Option.some.inj k) : some v ≠ some a)]

end Spec

namespace Model.DiscreteDAG

open Spec Relation
open scoped NNReal

variable {α : Type} [DecidableEq α] {D D' : DiscreteDAG α}

/-- The graph with an additional node that points at `I`. -/
def augDag (G : DAG α) (I : Finset α) : DAG (Option α) where
  nodes := insert none (G.nodes.image some)
  arcs := G.arcs.image (fun a => (some a.1, some a.2)) ∪ I.image fun i => (none, some i)
  parents := fun v => match v with
    | none => ∅
    | some v => (G.parents v).image some ∪ if v ∈ I then {none} else ∅
  children := fun v => match v with
    | none => I.image some
    | some v => (G.children v).image some
  neighbors := fun v => match v with
    | none => I.image some
    | some v => (G.neighbors v).image some ∪ if v ∈ I then {none} else ∅

theorem augDag_arc (G : DAG α) (I : Finset α) (u v : Option α) : (u, v) ∈ (augDag G I).arcs ↔ Augment G.E {i | i ∈ I} u v := by
  simp only [augDag, Finset.mem_union, Finset.mem_image, Prod.mk.injEq]
  constructor
  · rintro (⟨⟨a, b⟩, h, rfl, rfl⟩ | ⟨i, h, rfl, rfl⟩)
    · exact .old h
    · exact .target h
  · rintro (h | h)
    · exact Or.inl ⟨_, h, rfl, rfl⟩
    · exact Or.inr ⟨_, h, rfl, rfl⟩

theorem augDag_acyclic {G : DAG α} (hG : G.Valid) (I : Finset α) : Acyclic (augDag G I).E := by
  have key : ∀ a v, TransGen (augDag G I).E a v → ∃ w, v = some w ∧ ∀ u, a = some u → TransGen G.E u w := by
    intro a v h
    induction h with
    | single h =>
      cases (augDag_arc G I _ _).1 h with
      | old k => exact ⟨_, rfl, fun u hu => by cases hu; exact .single k⟩
      | target k => exact ⟨_, rfl, by simp⟩
    | tail _ h ih =>
      obtain ⟨w, rfl, hw⟩ := ih
      cases (augDag_arc G I _ _).1 h with
      | old k => exact ⟨_, rfl, fun u hu => (hw u hu).tail k⟩
  intro v h
  obtain ⟨w, rfl, hw⟩ := key _ _ h
  exact hG.acyclic w (hw w rfl)

theorem augDag_valid {G : DAG α} (hG : G.Valid) {I : Finset α} (hI : ∀ i ∈ I, i ∈ G.nodes) : (augDag G I).Valid where
  parents_iff := by
    rintro (_ | u) (_ | v) <;> simp [augDag, hG.parents_iff]
    by_cases h : v ∈ I <;> simp [h]
    by_cases h : v ∈ I <;> simp [h]
  children_iff := by
    rintro (_ | u) (_ | v) <;> simp [augDag, hG.children_iff]
  neighbors_iff := by
    rintro (_ | u) (_ | v) <;> simp [augDag, hG.neighbors_iff]
    by_cases h : v ∈ I <;> simp [h]
    by_cases h : v ∈ I <;> simp [h]
  fst_mem := by
    rintro (_ | u) (_ | v) <;> simp [augDag]
    exact fun h => hG.fst_mem _ _ h
  snd_mem := by
    rintro (_ | u) (_ | v) <;> simp [augDag]
    · exact fun h => hI _ h
    · exact fun h => hG.snd_mem _ _ h
  acyclic := augDag_acyclic hG I

/-- A fair coin decides which of the two networks is used. -/
noncomputable def mix (D D' : DiscreteDAG α) (I : Finset α) : DiscreteDAG (Option α) where
  dag := augDag D.dag I
  alph := fun v => match v with
    | none => [0, 1]
    | some v => D.alph v
  pars := fun v => match v with
    | none => []
    | some v => if v ∈ I then none :: (D.pars v).map some else (D.pars v).map some
  cond := fun v => match v with
    | none => ⟨[2], fun _ => 1 / 2⟩
    | some v =>
      if v ∈ I then ⟨2 :: (D.pars v ++ [v]).map D.dims, fun idx =>
        if idx.headD 0 = 0 then (D.cond v).val idx.tail else
          D'.kern v fun u => idx.tail.getD ((D.pars v ++ [v]).idxOf u) 0⟩
      else D.cond v

theorem mix_kern (hp : ∀ v ∈ D.dag.nodes, ∀ u ∈ D'.pars v, u ∈ D.pars v) (I : Finset α) {v : α} (hv : v ∈ D.dag.nodes) (y : Option α → ℕ) :
    (mix D D' I).kern (some v) y = if v ∈ I ∧ y none ≠ 0 then D'.kern v (y ∘ some) else D.kern v (y ∘ some) := by
  by_cases h : v ∈ I
  · have e1 : (mix D D' I).pars (some v) = none :: (D.pars v).map some := if_pos h
    have e2 : (mix D D' I).cond (some v) = ⟨2 :: (D.pars v ++ [v]).map D.dims, fun idx =>
        if idx.headD 0 = 0 then (D.cond v).val idx.tail else
          D'.kern v fun u => idx.tail.getD ((D.pars v ++ [v]).idxOf u) 0⟩ := if_pos h
    have e3 : (((D.pars v).map some).map y ++ [y (some v)]) = (D.pars v ++ [v]).map (y ∘ some) := by simp
    rw [kern, e1, e2]
    simp only [List.cons_append, List.map_cons, List.headD_cons, List.tail_cons, List.map_append, List.map_nil, h, true_and]
    rw [e3]
    by_cases h0 : y none = 0
    · rw [if_pos h0, if_neg (by simp [h0])]; rfl
    · rw [if_neg h0, if_pos h0]
      refine kern_depends D' v _ _ fun u hu => getD_map_idxOf (g := y ∘ some) ?_
      rcases hu with rfl | hu
      · simp
      · simp [hp v hv u hu]
  · have e1 : (mix D D' I).pars (some v) = (D.pars v).map some := if_neg h
    have e2 : (mix D D' I).cond (some v) = D.cond v := if_neg h
    rw [kern, e1, e2, if_neg (fun k => h k.1), kern]
    simp

theorem mix_kern_none (I : Finset α) (y : Option α → ℕ) : (mix D D' I).kern none y = 1 / 2 := rfl

/-- The second network has the same nodes and values, no further arcs, and the same tables outside `I`. -/
structure Varies (D D' : DiscreteDAG α) (I : Finset α) : Prop where
  nodes : D'.dag.nodes = D.dag.nodes
  alph : D'.alph = D.alph
  arcs : ∀ a ∈ D'.dag.arcs, a ∈ D.dag.arcs
  same : ∀ v ∈ D.dag.nodes, v ∉ I → ∀ y : α → ℕ, (∀ u ∈ D.dag.nodes, y u < D.dims u) → D'.kern v y = D.kern v y

theorem mix_dims (I : Finset α) (v : α) : (mix D D' I).dims (some v) = D.dims v := rfl

theorem mix_proper (hD : D.Proper) (hD' : D'.Proper) {I : Finset α} (hI : ∀ i ∈ I, i ∈ D.dag.nodes) (h : Varies D D' I) :
    (mix D D' I).Proper := by
  have hp : ∀ v ∈ D.dag.nodes, ∀ u ∈ D'.pars v, u ∈ D.pars v := fun v hv u hu =>
    (hD.pars_iff v hv u).2 (h.arcs _ ((hD'.pars_iff v (h.nodes ▸ hv) u).1 hu))
  have hmem : ∀ {v : α}, some v ∈ (mix D D' I).dag.nodes → v ∈ D.dag.nodes := fun {v} hv => by
    simpa [mix, augDag] using hv
  refine ⟨⟨augDag_valid hD.valid hI, ?_, ?_, ?_⟩, ?_⟩
  · rintro (_ | v) hv
    · exact List.nodup_nil
    · change (if v ∈ I then none :: (D.pars v).map some else (D.pars v).map some).Nodup
      have := (hD.nodup v (hmem hv)).map (Option.some_injective α)
      split
      · exact List.nodup_cons.2 ⟨by simp, this⟩
      · exact this
  · rintro (_ | v) hv u
    · refine iff_of_false (List.not_mem_nil) fun hu => ?_
      cases (augDag_arc _ _ _ _).1 hu
    · change u ∈ (if v ∈ I then none :: (D.pars v).map some else (D.pars v).map some) ↔ (u, some v) ∈ (augDag D.dag I).arcs
      rw [augDag_arc]
      have hold : ∀ p, Augment D.dag.E {i | i ∈ I} (some p) (some v) ↔ p ∈ D.pars v := fun p => by
        rw [hD.pars_iff v (hmem hv)]
        exact ⟨fun h => by cases h with | old h => exact h, fun h => .old h⟩
      have hnew : Augment D.dag.E {i | i ∈ I} none (some v) ↔ v ∈ I :=
        ⟨fun h => by cases h with | target h => exact h, fun h => .target h⟩
      rcases u with _ | p
      · rw [hnew]
        by_cases hv' : v ∈ I <;> simp [hv']
      · rw [hold]
        by_cases hv' : v ∈ I <;> simp [hv']
  · rintro (_ | v) hv
    · rfl
    · by_cases hv' : v ∈ I
      · have e1 : (mix D D' I).pars (some v) = none :: (D.pars v).map some := if_pos hv'
        have e2 : ((mix D D' I).cond (some v)).shape = 2 :: (D.pars v ++ [v]).map D.dims := by
          simp only [mix, if_pos hv']
        rw [e1, e2]
        simp [dims, mix, Function.comp_def]
      · have e1 : (mix D D' I).pars (some v) = (D.pars v).map some := if_neg hv'
        have e2 : (mix D D' I).cond (some v) = D.cond v := if_neg hv'
        rw [e1, e2, hD.shape v (hmem hv)]
        simp [dims, mix, Function.comp_def]
  · rintro (_ | v) hv x hx
    · change ∑ i ∈ Finset.range 2, (1 / 2 : ℝ≥0) = 1
      simp
    · have hv' := hmem hv
      have e : ∀ i, ((mix D D' I).cond (some v)).val (((mix D D' I).pars (some v)).map x ++ [i]) =
          (mix D D' I).kern (some v) (Function.update x (some v) i) := fun i => by
        rw [kern, List.map_append, List.map_singleton, Function.update_self]
        congr 2
        refine List.map_congr_left fun u hu => (Function.update_of_ne ?_ _ _).symm
        rintro rfl
        have hs : some v ∈ (D.pars v).map some := by
          change some v ∈ (if v ∈ I then none :: (D.pars v).map some else (D.pars v).map some) at hu
          split at hu
          · simpa using hu
          · exact hu
        have : v ∈ D.pars v := by simpa using hs
        exact hD.valid.acyclic.irrefl ((hD.pars_iff v hv' v).1 this)
      have hup : ∀ i, Function.update x (some v) i ∘ some = Function.update (x ∘ some) v i := fun i => by
        funext u
        by_cases hu : u = v
        · subst hu; simp
        · simp [hu]
      have hx' : ∀ u ∈ D.pars v, (x ∘ some) u < D.dims u := fun u hu => hx (some u) (by
        change some u ∈ (if v ∈ I then none :: (D.pars v).map some else (D.pars v).map some)
        split <;> simp [hu])
      simp only [e, mix_kern hp I hv', hup, Function.update_of_ne (show (none : Option α) ≠ some v by simp)]
      change ∑ i ∈ Finset.range (D.dims v), _ = _
      by_cases hc : v ∈ I ∧ x none ≠ 0
      · simp only [if_pos hc]
        have hd : D.dims v = D'.dims v := by rw [dims, dims, h.alph]
        rw [hd]
        exact hD'.sum_kern (h.nodes ▸ hv') _ fun u hu => by
          have := hx' u (hp v hv' u hu)
          rwa [dims, ← h.alph] at this
      · simp only [if_neg hc]
        exact hD.sum_kern hv' _ hx'

/-- Once the coin has been thrown the values are distributed as in the chosen network. -/
theorem mix_pr (hD : D.Proper) (hD' : D'.Proper) {I : Finset α} (hI : ∀ i ∈ I, i ∈ D.dag.nodes) (h : Varies D D' I) {S : List α}
    (hS : S.Nodup) (hn : ∀ v ∈ S, v ∈ D.dag.nodes) {x : Option α → ℕ} (hx : ∀ v ∈ S, x (some v) < D.dims v) (h2 : x none < 2) :
    (mix D D' I).pr (none :: S.map some) x = 1 / 2 * if x none = 0 then D.pr S (x ∘ some) else D'.pr S (x ∘ some) := by
  have hp : ∀ v ∈ D.dag.nodes, ∀ u ∈ D'.pars v, u ∈ D.pars v := fun v hv u hu =>
    (hD.pars_iff v hv u).2 (h.arcs _ ((hD'.pars_iff v (h.nodes ▸ hv) u).1 hu))
  have hm := mix_proper hD hD' hI h
  set rest := D.dag.nodes.toList.filter (· ∉ S) with hrest
  have hV : (S ++ rest).Perm D.dag.nodes.toList := by
    refine (List.perm_ext_iff_of_nodup ?_ (Finset.nodup_toList _)).2 fun v => ?_
    · refine List.nodup_append'.2 ⟨hS, (Finset.nodup_toList _).filter _, fun v h1 h2 => ?_⟩
      rw [hrest, List.mem_filter, decide_eq_true_iff] at h2
      exact h2.2 h1
    · rw [List.mem_append, hrest, List.mem_filter, decide_eq_true_iff, Finset.mem_toList]
      constructor
      · rintro (h | h)
        · exact hn v h
        · exact h.1
      · intro h
        by_cases hv : v ∈ S
        · exact Or.inl hv
        · exact Or.inr ⟨h, hv⟩
  have hrn : ∀ v, v ∈ S ++ rest ↔ v ∈ D.dag.nodes := fun v => by rw [hV.mem_iff, Finset.mem_toList]
  have hV' : ((none :: S.map some) ++ rest.map some).Perm (mix D D' I).dag.nodes.toList := by
    have e : (none :: S.map some) ++ rest.map some = none :: (S ++ rest).map some := by simp
    rw [e]
    refine (List.perm_ext_iff_of_nodup ?_ (Finset.nodup_toList _)).2 fun v => ?_
    · exact List.nodup_cons.2 ⟨by simp, (hV.nodup_iff.2 (Finset.nodup_toList _)).map (Option.some_injective α)⟩
    · rw [Finset.mem_toList]
      change _ ↔ v ∈ insert none (D.dag.nodes.image some)
      rw [List.mem_cons, Finset.mem_insert, List.mem_map, Finset.mem_image]
      simp only [hrn]
  rw [pr_eq_sumL hm.toShaped hV' x (by
    rintro (_ | v) hv
    · exact h2
    · exact hx v (by simpa using hv))]
  have hlaw : (mix D D' I).law = fun y => (fun z w => 1 / 2 * ∏ v ∈ D.dag.nodes, if v ∈ I ∧ z ≠ 0 then D'.kern v w else D.kern v w)
      (y none) (y ∘ some) := by
    funext y
    rw [law_eq]
    change ∏ v ∈ insert none (D.dag.nodes.image some), _ = _
    rw [Finset.prod_insert (by simp), Finset.prod_image (fun a _ b _ => Option.some.inj), mix_kern_none]
    exact congrArg _ (Finset.prod_congr rfl fun v hv => mix_kern hp I hv y)
  rw [hlaw]
  refine (sumL_some (d := D.dims) (fun _ => rfl) (fun z w => 1 / 2 * ∏ v ∈ D.dag.nodes, if v ∈ I ∧ z ≠ 0 then D'.kern v w else D.kern v w)
    rest x).trans ?_
  have hmul : ∀ f : (α → ℕ) → ℝ≥0, sumL D.dims rest (fun w => 1 / 2 * f w) (x ∘ some) = 1 / 2 * sumL D.dims rest f (x ∘ some) := by
    intro f
    generalize x ∘ some = w
    clear hV hV' hrn hrest
    generalize rest = r
    induction r generalizing w with
    | nil => rfl
    | cons a r ih => rw [sumL, sumL, Finset.mul_sum]; exact Finset.sum_congr rfl fun i _ => ih _
  rw [hmul]
  congr 1
  have hrange : ∀ y : α → ℕ, (∀ v ∈ rest, y v < D.dims v) → (∀ v, v ∉ rest → y v = (x ∘ some) v) → ∀ u ∈ D.dag.nodes, y u < D.dims u := by
    intro y h1 h2 u hu
    by_cases hur : u ∈ rest
    · exact h1 u hur
    · rw [h2 u hur]
      exact hx u (((hrn u).2 hu |> List.mem_append.1).resolve_right hur)
  by_cases h0 : x none = 0
  · rw [if_pos h0, pr_eq_sumL hD.toShaped hV (x ∘ some) hx, law_eq]
    simp [h0]
  · have hd : D'.dims = D.dims := funext fun v => by rw [dims, dims, h.alph]
    rw [if_neg h0, pr_eq_sumL hD'.toShaped (by rw [h.nodes]; exact hV) (x ∘ some) (by rw [hd]; exact hx), law_eq, hd, h.nodes]
    refine sumL_congr fun y h1 h2 => Finset.prod_congr rfl fun v hv => ?_
    by_cases hv' : v ∈ I
    · rw [if_pos ⟨hv', h0⟩]
    · rw [if_neg fun k => hv' k.1, h.same v hv hv' y (hrange y h1 h2)]

theorem mix_total (hD : D.Proper) (hD' : D'.Proper) {I : Finset α} (hI : ∀ i ∈ I, i ∈ D.dag.nodes) (h : Varies D D' I) {S : List α}
    (h1 : S.Nodup) (h2 : ∀ v ∈ S, v ∈ D.dag.nodes) {x : α → ℕ} (h3 : ∀ v ∈ S, x v < D.dims v) :
    (mix D D' I).pr (S.map some) (fun v => v.elim 0 x) = 1 / 2 * D.pr S x + 1 / 2 * D'.pr S x := by
  have hm := mix_proper hD hD' hI h
  have e : (S.map some ++ [none]).Nodup := by
    refine List.nodup_append'.2 ⟨h1.map (Option.some_injective α), by simp, ?_⟩
    simp
  rw [pr_sum hm.toShaped (M := S.map some) (l := [none]) e (by
      intro v hv
      change v ∈ insert none (D.dag.nodes.image some)
      rcases v with _ | v
      · simp
      · simpa using h2 v (by simpa using hv)) _ (by
      rintro (_ | v) hv
      · simp at hv
      · exact h3 v (by simpa using hv))]
  change ∑ i ∈ Finset.range 2, (mix D D' I).pr (S.map some ++ [none]) _ = _
  have hr : ∀ i < 2, (mix D D' I).pr (S.map some ++ [none]) (Function.update (fun v => v.elim 0 x) none i) =
      1 / 2 * if i = 0 then D.pr S x else D'.pr S x := by
    intro i hi
    rw [pr_congr (T := none :: S.map some) (fun v => by
      simp only [List.mem_append, List.mem_cons, List.not_mem_nil, or_false]; tauto)]
    have := mix_pr hD hD' hI h h1 h2 (x := Function.update (fun v => v.elim 0 x) none i)
      (fun v hv => by rw [Function.update_of_ne (by simp)]; exact h3 v hv) (by simpa using hi)
    rw [this, Function.update_self]
    have e : Function.update (fun v : Option α => v.elim 0 x) none i ∘ some = x := funext fun v => by
      simp [Function.comp]
    rw [e]
  rw [Finset.sum_range_succ, Finset.sum_range_one, hr 0 (by simp), hr 1 (by simp)]
  simp

/-- What is separated from the additional node has the same conditional distribution in both networks. -/
theorem pr_invariant (hD : D.Proper) (hD' : D'.Proper) {I : Finset α} (hI : ∀ i ∈ I, i ∈ D.dag.nodes) (h : Varies D D' I) {A C : List α}
    (hnd : (A ++ C).Nodup) (hn : ∀ v ∈ A ++ C, v ∈ D.dag.nodes)
    (hs : DSep (Augment D.dag.E {i | i ∈ I}) (some '' {a | a ∈ A}) {none} (some '' {c | c ∈ C})) {x : α → ℕ}
    (hx : ∀ v ∈ A ++ C, x v < D.dims v) : D.pr (A ++ C) x * D'.pr C x = D'.pr (A ++ C) x * D.pr C x := by
  have hm := mix_proper hD hD' hI h
  have hE : (mix D D' I).dag.E = Augment D.dag.E {i | i ∈ I} := by
    funext u v
    exact propext (augDag_arc _ _ _ _)
  have key : ∀ z < 2, (mix D D' I).pr (none :: (A ++ C).map some) (fun v => v.elim z x) * (mix D D' I).pr (C.map some) (fun v => v.elim z x) =
      (mix D D' I).pr ((A ++ C).map some) (fun v => v.elim z x) * (mix D D' I).pr (none :: C.map some) (fun v => v.elim z x) := by
    intro z hz
    have e := pr_dsep hm.tabled (A := A.map some) (B := [none]) (C := C.map some) (x := fun v => v.elim z x) (by
      have h1 : (none :: (A ++ C).map some).Nodup := List.nodup_cons.2 ⟨by simp, hnd.map (Option.some_injective α)⟩
      refine (List.Perm.nodup_iff ?_).1 h1
      rw [List.map_append, List.append_assoc]
      exact List.perm_middle.symm) (by
      intro v hv
      change v ∈ insert none (D.dag.nodes.image some)
      rcases v with _ | v
      · simp
      · simpa using hn v (by simpa using hv)) (by
      rw [hE]
      have e1 : {v : Option α | v ∈ A.map some} = some '' {a | a ∈ A} := by ext v; simp
      have e2 : {v : Option α | v ∈ C.map some} = some '' {a | a ∈ C} := by ext v; simp
      have e3 : {v : Option α | v ∈ [none]} = {none} := by ext v; simp
      rw [e1, e2, e3]
      exact hs) (by
      rintro (_ | v) hv
      · exact hz
      · exact hx v (by simpa using hv))
    rw [← pr_congr (S := none :: (A ++ C).map some) (fun v => by
      simp only [List.mem_append, List.mem_cons, List.map_append, List.not_mem_nil, or_false]; tauto), ← List.map_append] at e
    exact e
  have tot : ∀ S : List α, S.Nodup → (∀ v ∈ S, v ∈ D.dag.nodes) → (∀ v ∈ S, x v < D.dims v) →
      (mix D D' I).pr (S.map some) (fun v => v.elim 0 x) = 1 / 2 * D.pr S x + 1 / 2 * D'.pr S x :=
    fun S h1 h2 h3 => mix_total hD hD' hI h h1 h2 h3
  have hC : List.Sublist C (A ++ C) := List.sublist_append_right _ _
  have hnC : ∀ v ∈ C, v ∈ D.dag.nodes := fun v hv => hn v (hC.subset hv)
  have hxC : ∀ v ∈ C, x v < D.dims v := fun v hv => hx v (hC.subset hv)
  have k := key 0 (by simp)
  rw [tot _ hnd hn hx, tot _ (hC.nodup hnd) hnC hxC, mix_pr hD hD' hI h hnd hn hx (by simp),
    mix_pr hD hD' hI h (hC.nodup hnd) hnC hxC (by simp)] at k
  have e : (fun v : Option α => v.elim 0 x) ∘ some = x := rfl
  simp only [e, Option.elim_none, if_true] at k
  apply NNReal.coe_injective
  have k' := congrArg (fun r : ℝ≥0 => (r : ℝ)) k
  push_cast at k' ⊢
  linarith

end Model.DiscreteDAG
