import Verif.Proof.DiscreteInvariant
import Verif.Props.DiscreteMarkov
import Verif.Props.DSep

/-! # What `is_invariant` says about distributions (property C222) -/

namespace Props

open Model Model.DAG Spec
open scoped NNReal ENNReal

variable {α : Type} [DecidableEq α] {D : DiscreteDAG α}

theorem invariant_lists {G : DAG α} (hG : G.Valid) (w : SepOracle α) {A C : List α} {I : Finset α} (hAC : ∀ v ∈ A, v ∉ C)
    (h : isInvariant G w A.toFinset I C.toFinset = some true) :
    DSep (Augment G.E {i | i ∈ I}) (some '' {a | a ∈ A}) {none} (some '' {c | c ∈ C}) := by
  obtain ⟨r, h1, h2⟩ := C17_is_invariant G hG w A.toFinset I C.toFinset (by
    rw [Finset.disjoint_left]
    intro v h1 h2
    exact hAC v (List.mem_toFinset.1 h1) (List.mem_toFinset.1 h2))
  rw [h] at h1
  have := h2.1 (Option.some.inj h1).symm
  simpa using this

/-- C222. If `is_invariant(A, I, C)` answers `True` then P(A | C) is the same in every two networks of which the second has no further
arcs and the same tables at the nodes outside `I`, wherever the condition has positive probability in both. -/
theorem C222_tables {D' : DiscreteDAG α} (hD : D.Proper) (hD' : D'.Proper) {I : Finset α} (hI : I ⊆ D.dag.nodes)
    (hn : D'.dag.nodes = D.dag.nodes) (ha : D'.alph = D.alph) (hsub : D'.dag.arcs ⊆ D.dag.arcs)
    (hsame : ∀ v ∈ D.dag.nodes, v ∉ I → D'.pars v = D.pars v ∧ D'.cond v = D.cond v) (w : SepOracle α) {A C : List α}
    (hnd : (A ++ C).Nodup) (hAC : ∀ v ∈ A ++ C, v ∈ D.dag.nodes) (hs : isInvariant D.dag w A.toFinset I C.toFinset = some true)
    {x : α → ℕ} (hx : ∀ v ∈ A ++ C, x v < D.dims v) (hp : D.pr C x ≠ 0) (hp' : D'.pr C x ≠ 0) :
    D'.condPr A C x = D.condPr A C x := by
  have key := DiscreteDAG.pr_invariant hD hD' (fun i hi => hI hi)
    ⟨hn, ha, fun a h => hsub h, fun v hv hvI y _ => by
      rw [DiscreteDAG.kern, DiscreteDAG.kern, (hsame v hv hvI).1, (hsame v hv hvI).2]⟩ hnd hAC
    (invariant_lists hD.valid w (fun v h1 h2 => List.disjoint_of_nodup_append hnd h1 h2) hs) hx
  rw [DiscreteDAG.condPr, DiscreteDAG.condPr, if_neg hp, if_neg hp', div_eq_div_iff hp' hp]
  exact key.symm

/-- What `get_conditional(A, C)` returns for disjoint lists. -/
theorem conditional_disjoint (hD : D.Proper) (hc : D.Cut) (o ot : SetOrder (Option α) α) (oa : SetOrder Bool (α × α))
    (os : SetOrder (α × Finset α) α) (on : SetOrder Unit α) (oc : SetOrder α α) {A C : List α} (hnd : (A ++ C).Nodup) (h0 : A ≠ [])
    (hn : ∀ v ∈ A ++ C, v ∈ D.dag.nodes) :
    ∃ T, (D.getConditional o ot oa os on oc false A C).run = some (.ok T) ∧
      ∀ x : α → ℕ, (∀ v ∈ A ++ C, x v < D.dims v) → T.val (A.map x ++ C.map x) = (D.condPr A C x : ℝ≥0∞) := by
  have hAC : ∀ v ∈ A, v ∉ C := fun v h1 h2 => List.disjoint_of_nodup_append hnd h1 h2
  have fe : A.filter (· ∈ C) = [] := by simpa [List.filter_eq_nil_iff] using hAC
  have fn : A.filter (· ∉ C) = A := by simpa [List.filter_eq_self] using hAC
  obtain ⟨T, h1, -, h2⟩ := C130_conditional hD hc o ot oa os on oc hnd.of_append_left hnd.of_append_right (.inl h0) hn (by rw [fe]; simp)
  refine ⟨T, h1, fun x hx => ?_⟩
  have e := h2 x x hx fun v hv => hx v (List.mem_append_left _ hv)
  simp only [ite_self, implies_true, if_true, fn] at e
  exact e

/-- C222. In particular `get_conditional(A, C, method="old")` gives the same rows before and after
`get_hard_interventional_dag(target, value)` if `is_invariant(A, {target}, C)` answers `True` and no entry of a table is positive but at
most `1e-10`. -/
theorem C222_hard (hD : D.Proper) (hcut : D.Cut) (o ot : SetOrder (Option α) α) (oa : SetOrder Bool (α × α))
    (os : SetOrder (α × Finset α) α) (on : SetOrder Unit α) (oc : SetOrder α α) (w : SepOracle α) {target : α}
    (ht : target ∈ D.dag.nodes) (halph : (D.alph target).Nodup) {c : ℕ} (hc : c < D.dims target) {A C : List α} (hnd : (A ++ C).Nodup)
    (h0 : A ≠ []) (hn : ∀ v ∈ A ++ C, v ∈ D.dag.nodes) (hs : isInvariant D.dag w A.toFinset {target} C.toFinset = some true) :
    ∃ D' T T', D.hardInterventional o oa target ((D.alph target).getD c 0) = some (.ok D') ∧
      (D.getConditional o ot oa os on oc false A C).run = some (.ok T) ∧
      (D'.getConditional o ot oa os on oc false A C).run = some (.ok T') ∧
      ∀ x : α → ℕ, (∀ v ∈ A ++ C, x v < D.dims v) → D.pr C x ≠ 0 → D'.pr C x ≠ 0 →
        T'.val (A.map x ++ C.map x) = T.val (A.map x ++ C.map x) := by
  obtain ⟨D', h1, h2, h3, h4, h5, -⟩ := DiscreteDAG.hardInterventional_run hD o oa ht halph hc
  obtain ⟨G, hG⟩ : ∃ G, D' = ⟨G, fun v => if v ≠ target then D.cond v else DiscreteDAG.pointMass (D.alph target) ((D.alph target).getD c 0),
      fun v => if v = target then [] else D.pars v, D.alph⟩ := by
    rw [DiscreteDAG.hardInterventional, DiscreteDAG.new] at h1
    split at h1
    · cases h1
    · cases h1
    · split at h1
      · exact ⟨_, (Except.ok.inj (Option.some.inj h1)).symm⟩
      · cases h1
  have hcond : ∀ v, v ≠ target → D'.pars v = D.pars v ∧ D'.cond v = D.cond v := fun v hv => by
    rw [hG]; exact ⟨if_neg hv, if_pos hv⟩
  have hd : D'.dims = D.dims := funext fun v => by rw [DiscreteDAG.dims, DiscreteDAG.dims, h4]
  have hcut' : D'.Cut := by
    intro v hv x hx
    by_cases hvt : v = target
    · subst hvt
      rw [hG]
      simp only [DiscreteDAG.pointMass, ne_eq, not_true_eq_false, if_false]
      have : ∀ (p : Prop) [Decidable p], (if p then (1 : ℝ≥0) else 0) = 0 ∨ 1 / 10 ^ 10 < (if p then (1 : ℝ≥0) else 0) := by
        intro p _
        split
        · right; norm_num
        · exact Or.inl rfl
      exact this _
    · rw [(hcond v hvt).1, (hcond v hvt).2]
      rw [(hcond v hvt).1, hd] at hx
      exact hcut v (h2 ▸ hv) x hx
  have hn' : ∀ v ∈ A ++ C, v ∈ D'.dag.nodes := fun v hv => by rw [h2]; exact hn v hv
  obtain ⟨T, t1, t2⟩ := conditional_disjoint hD hcut o ot oa os on oc hnd h0 hn
  obtain ⟨T', t1', t2'⟩ := conditional_disjoint h5 hcut' o ot oa os on oc hnd h0 hn'
  refine ⟨D', T, T', h1, t1, t1', fun x hx hp hp' => ?_⟩
  rw [t2 x hx, t2' x (by rw [hd]; exact hx), C222_tables hD h5 (I := {target}) (by simpa using ht) h2 h4 (fun a ha => ((h3 a).1 ha).1)
    (fun v _ hv => hcond v (by simpa using hv)) w hnd hn hs hx hp hp']

/-- An intervention on the first node of the chain is not visible at the third one given the second one. -/
theorem Sample.chain_invariant (w : SepOracle (Fin 3)) : isInvariant Sample.chain w {2} {0} {1} = some true := by
  obtain ⟨r, hr, h⟩ := C17_is_invariant Sample.chain Sample.chain_valid w {2} {0} {1} (by decide)
  rw [hr, h.2]
  have hE : (DiscreteDAG.augDag Sample.chain {0}).E = Augment Sample.chain.E {i | i ∈ ({0} : Finset (Fin 3))} := by
    funext u v
    exact propext (DiscreteDAG.augDag_arc _ _ _ _)
  have hac := DiscreteDAG.augDag_acyclic Sample.chain_valid {0}
  rw [hE] at hac
  have hm := local_markov hac (some 2)
  have hch : ∀ a b : Fin 3, Sample.chain.E a b ↔ (a = 0 ∧ b = 1) ∨ (a = 1 ∧ b = 2) := by decide
  have e : {p | Augment Sample.chain.E {i | i ∈ ({0} : Finset (Fin 3))} p (some 2)} = some '' {c | c ∈ ({1} : Finset (Fin 3))} := by
    ext p
    constructor
    · intro hp
      cases hp with
      | old k =>
        rename_i a
        exact ⟨a, by simpa [hch] using k, rfl⟩
      | target k => exact absurd k (by decide)
    · rintro ⟨a, ha, rfl⟩
      have : a = 1 := by simpa using ha
      subst this
      exact .old (by decide)
  rw [e] at hm
  refine dsep_mono ?_ ?_ hm
  · simp
  · rintro v rfl
    refine ⟨by simp, fun hp => ?_, ?_⟩
    · obtain ⟨u, -, hu⟩ := Relation.TransGen.tail'_iff.1 hp
      cases hu
    · intro hp
      cases hp with
      | target k => exact absurd k (by decide)

example : ∃ D' T T', Sample.walk.hardInterventional Sample.order Sample.order 0 1 = some (.ok D') ∧
    (Sample.walk.getConditional Sample.order Sample.order Sample.order Sample.order Sample.order Sample.order false [2] [1]).run =
      some (.ok T) ∧
    (D'.getConditional Sample.order Sample.order Sample.order Sample.order Sample.order Sample.order false [2] [1]).run =
      some (.ok T') ∧
    ∀ x : Fin 3 → ℕ, (∀ v ∈ [2, 1], x v < Sample.walk.dims v) → Sample.walk.pr [1] x ≠ 0 → D'.pr [1] x ≠ 0 →
      T'.val [x 2, x 1] = T.val [x 2, x 1] :=
  C222_hard Sample.walk_proper (Sample.parity_cut _) _ _ _ _ _ _ Sample.sep (target := 0) (Finset.mem_univ _) (by decide) (c := 1)
    (by decide) (A := [2]) (C := [1]) (by decide) (by simp) (fun v _ => Finset.mem_univ v) (Sample.chain_invariant _)

end Props
