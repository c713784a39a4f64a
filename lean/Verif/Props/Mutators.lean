import Verif.Props.Sample
import Verif.Model.History

/-! # C03, C04, C06, C07, C08: mutators -/

namespace Props

open Model Model.DAG Spec Relation
universe u
variable {α : Type u} [DecidableEq α]

/-- C03. Checked `add_arc` from an acyclic graph: it terminates, succeeds iff the arc closes no cycle, and the
arcs afterwards are the old ones, plus the new arc iff it succeeded. The graph stays acyclic. -/
theorem C03_add_arc (G : DAG α) (hG : G.Valid) (o : SetOrder (Option α) α) (i j : α) :
    ∃ G' e, addArc true o G i j = some (G', e) ∧
      (e = none ↔ i ≠ j ∧ ¬ Path G.E j i) ∧
      (e = none → G'.arcs = insert (i, j) G.arcs ∧ G'.Consistent) ∧
      (e ≠ none → G'.arcs = G.arcs) ∧
      (∀ v, v ∈ G'.nodes ↔ v ∈ G.nodes ∨ v = i ∨ v = j) ∧
      Acyclic G'.E := by
  have hins := insert_acyclic hG.acyclic i j
  rw [← addArcUnchecked_E] at hins
  rcases addArc_cases hG.toConsistent o i j with ⟨ha, h⟩ | ⟨ha, l, h⟩
  · refine ⟨_, _, h, ?_, ?_, ?_, ?_, ha⟩
    · simp [hins.1 ha]
    · exact fun _ => ⟨rfl, addArcUnchecked_consistent hG.toConsistent i j⟩
    · intro h; exact absurd rfl h
    · intro v; rw [addArcUnchecked_nodes]; simp; tauto
  · have hnot : (i, j) ∉ G.arcs := by
      intro hc; apply ha
      have : (addArcUnchecked G i j).E = G.E := by
        rw [addArcUnchecked_E]; funext a b; apply propext
        constructor
        · rintro (h | ⟨rfl, rfl⟩)
          · exact h
          · exact hc
        · exact Or.inl
      rw [this]; exact hG.acyclic
    obtain ⟨e, he⟩ := rollback_exn (G := G) i j l
    have harcs : ((removeArc false (addArcUnchecked G i j) i j).andThen
        fun G2 => (G2, some (.cycle l))).1.arcs = G.arcs := by
      rw [rollback_arcs, Finset.erase_insert hnot]
    have hnodes := rollback_nodes (G := G) i j l
    generalize (removeArc false (addArcUnchecked G i j) i j).andThen
      (fun G2 => (G2, some (.cycle l))) = r at h he harcs hnodes
    obtain ⟨G', e'⟩ := r
    simp only at he harcs hnodes
    subst he
    refine ⟨G', some e, h, ?_, by simp, fun _ => harcs, ?_, ?_⟩
    · simp only [reduceCtorEq, false_iff]
      rintro h1; exact ha (hins.2 h1)
    · intro v; rw [hnodes]; simp; tauto
    · intro v hv
      refine hG.acyclic v (path_mono (fun a b hab => ?_) hv)
      rw [E, harcs] at hab; exact hab

example : ∃ G' e, addArc true Sample.order Sample.diamond 4 0 = some (G', e) ∧ e ≠ none := by
  obtain ⟨G', e, h, h1, _⟩ := C03_add_arc Sample.diamond Sample.diamond_valid Sample.order 4 0
  refine ⟨G', e, h, fun hc => (h1.1 hc).2 ?_⟩
  have h1 : Sample.diamond.E 0 1 := by decide
  have h2 : Sample.diamond.E 1 3 := by decide
  have h3 : Sample.diamond.E 3 4 := by decide
  exact ((TransGen.single h1).tail h2).tail h3

/-! ## C04 -/

/-- The call does not make the graph hold both `(i, j)` and `(j, i)` for some `i, j` (possibly equal), not even
in between. -/
def NoTwoCycle (G : DAG α) : DAG.Op α → Prop
  | .addArc _ i j => i ≠ j ∧ (j, i) ∉ G.arcs
  | .addArcsFrom _ arcs => ∀ i j, (i, j) ∈ G.arcs ∪ arcs → (j, i) ∉ G.arcs ∪ arcs
  | .reverseArc _ _ i j => i ≠ j
  | _ => True

theorem reachable_consistent_asym {G : DAG α} (hG : DAG.Reachable NoTwoCycle G) : G.Consistent ∧ G.Asym := by
  -- removal of single arcs
  have hrem : ∀ (G : DAG α) (ig : Bool) (i j : α), G.Consistent ∧ G.Asym →
      (removeArc ig G i j).1.Consistent ∧ (removeArc ig G i j).1.Asym ∧
        (removeArc ig G i j).1.arcs = G.arcs.erase (i, j) := by
    intro G ig i j h
    by_cases hm : (i, j) ∈ G.arcs
    · obtain ⟨G', e1, e2, e3, e4⟩ := removeArc_spec h.1 hm (h.2 _ _ hm) ig
      rw [e1]; exact ⟨e2, h.2.mono (by rw [e4]; exact Finset.erase_subset _ _), e4⟩
    · rw [removeArc_absent hm]; exact ⟨h.1, h.2, (Finset.erase_eq_of_notMem hm).symm⟩
  have hadd : ∀ (G : DAG α) (check : Bool) (o : SetOrder (Option α) α) (i j : α) (G' : DAG α) (e),
      G.Consistent ∧ G.Asym → i ≠ j → (j, i) ∉ G.arcs → addArc check o G i j = some (G', e) →
      G'.Consistent ∧ G'.Asym := by
    intro G check o i j G' e h hij hji heq
    have h1 : (addArcUnchecked G i j).Consistent ∧ (addArcUnchecked G i j).Asym := by
      refine ⟨addArcUnchecked_consistent h.1 i j, ?_⟩
      intro a b hab
      rw [addArcUnchecked_arcs] at hab ⊢
      simp only [Finset.mem_insert, Prod.mk.injEq, not_or] at hab ⊢
      rcases hab with ⟨rfl, rfl⟩ | hab
      · exact ⟨fun hc => hij hc.2, hji⟩
      · exact ⟨by rintro ⟨rfl, rfl⟩; exact hji hab, h.2 _ _ hab⟩
    cases check with
    | false =>
      have : addArc false o G i j = some (addArcUnchecked G i j, none) := by simp [addArc]
      rw [this] at heq; simp at heq; rw [← heq.1]; exact h1
    | true =>
      rcases addArc_cases h.1 o i j with ⟨_, hr⟩ | ⟨_, l, hr⟩
      · rw [hr] at heq; simp at heq; rw [← heq.1]; exact h1
      · obtain ⟨G2, e1, e2, _, e4⟩ := removeArc_spec h1.1 (i := i) (j := j)
          (by rw [addArcUnchecked_arcs]; simp) (h1.2 _ _ (by rw [addArcUnchecked_arcs]; simp)) false
        rw [hr, e1, andThen_none] at heq; simp at heq; rw [← heq.1]
        exact ⟨e2, h1.2.mono (by rw [e4]; exact Finset.erase_subset _ _)⟩
  induction hG with
  | new w nodes arcs G h =>
    have hac : Acyclic fun a b => (a, b) ∈ arcs := by
      by_contra hc
      obtain ⟨G', e, h'⟩ := new_error w.top w.arcs nodes arcs hc
      rw [h'] at h; simp at h
    obtain ⟨G', h', hv, _⟩ := new_ok w.top w.arcs nodes arcs hac
    rw [h'] at h; simp at h; subst h
    exact ⟨hv.toConsistent, hv.asym⟩
  | call G w op G' e _ hok hex ih =>
    cases op with
    | addNode v =>
      simp [Op.exec, addNode] at hex
      rw [← hex.1]
      exact ⟨⟨ih.1.parents_iff, ih.1.children_iff, ih.1.neighbors_iff,
        fun i j h => Finset.mem_insert_of_mem (ih.1.fst_mem i j h),
        fun i j h => Finset.mem_insert_of_mem (ih.1.snd_mem i j h)⟩, ih.2⟩
    | addArc check i j => exact hadd G check w.top i j G' e ih hok.1 hok.2 hex
    | addArcsFrom check arcs =>
      have hok' : ∀ i j, (i, j) ∈ G.arcs ∪ arcs → (j, i) ∉ G.arcs ∪ arcs := hok
      have hex' : addArcsFrom check w.top w.arcs G arcs = some (G', e) := hex
      obtain ⟨h1, h2, h3⟩ := addArcsUnchecked_spec ih.1 (w.arcs.ord false arcs)
      rw [ofOrd_toFinset] at h2
      have hA : (addArcsUnchecked G (w.arcs.ord false arcs)).Asym := fun a b => by rw [h2]; exact hok' a b
      by_cases hne : arcs.card = 0
      · simp [addArcsFrom, hne] at hex'; rw [← hex'.1]; exact ih
      cases check with
      | false =>
        have : addArcsFrom false w.top w.arcs G arcs =
          some (addArcsUnchecked G (w.arcs.ord false arcs), none) := by simp [addArcsFrom, hne]
        rw [this] at hex'; simp at hex'; rw [← hex'.1]; exact ⟨h1, hA⟩
      | true =>
        rcases addArcsFrom_cases ih.1 w.top w.arcs arcs hne with ⟨_, hr⟩ | ⟨_, l, hr⟩
        · rw [hr] at hex'; simp at hex'; rw [← hex'.1]; exact ⟨h1, hA⟩
        · obtain ⟨G2, e1, e2, e3, e4⟩ := removeArcs_spec false (w.arcs.ord true arcs) _ h1 hA
            (w.arcs.nodup _ _) (fun a ha => by rw [h2]; rw [w.arcs.mem_iff] at ha; simp [ha])
          rw [hr, e1, andThen_none] at hex'; simp at hex'; rw [← hex'.1]
          exact ⟨e2, hA.mono (by rw [e4]; exact Finset.sdiff_subset)⟩
    | removeArc ig i j =>
      simp only [Op.exec, Option.some.injEq] at hex
      have := hrem G ig i j ih
      rw [hex] at this; exact ⟨this.1, this.2.1⟩
    | removeArcsFrom ig arcs =>
      simp only [Op.exec, Option.some.injEq, removeArcsFrom] at hex
      have : ∀ (l : List (α × α)) (G : DAG α), G.Consistent ∧ G.Asym →
          (forEach (fun G (a : α × α) => removeArc ig G a.1 a.2) l G).1.Consistent ∧
          (forEach (fun G (a : α × α) => removeArc ig G a.1 a.2) l G).1.Asym := by
        intro l
        induction l with
        | nil => intro G h; exact h
        | cons x l ihl =>
          intro G h
          have hx := hrem G ig x.1 x.2 h
          rw [forEach]
          rcases hr : removeArc ig G x.1 x.2 with ⟨G1, _ | e⟩
          · rw [hr] at hx; rw [andThen_none]; exact ihl G1 ⟨hx.1, hx.2.1⟩
          · rw [hr] at hx; rw [andThen_some]; exact ⟨hx.1, hx.2.1⟩
      have := this arcs G ih
      rw [hex] at this; exact this
    | reverseArc ig check i j =>
      have hok' : i ≠ j := hok
      have hex' : reverseArc ig check w.top G i j = some (G', e) := hex
      have hr := hrem G ig i j ih
      rw [reverseArc] at hex'
      rcases hrm : removeArc ig G i j with ⟨G1, _ | e1⟩
      · rw [hrm] at hex' hr
        exact hadd G1 check w.top j i G' e ⟨hr.1, hr.2.1⟩ hok'.symm (by rw [hr.2.2]; simp) hex'
      · rw [hrm] at hex' hr
        simp at hex'; rw [← hex'.1]; exact ⟨hr.1, hr.2.1⟩
    | removeNode ig v =>
      have hex' : some (removeNode ig w.nbrs G v) = some (G', e) := hex
      by_cases hv : v ∈ G.nodes
      · obtain ⟨G2, e1, e2, _, e4⟩ := removeNode_spec ih.1 ih.2 ig w.nbrs hv
        rw [e1] at hex'; simp at hex'; rw [← hex'.1]
        exact ⟨e2, ih.2.mono (by rw [e4]; exact Finset.filter_subset _ _)⟩
      · rw [removeNode_absent w.nbrs hv] at hex'; simp at hex'; rw [← hex'.1]; exact ih

/-- C04, part. After the constructor and any sequence of mutator calls (with any flags and outcome) that never
puts a 2-cycle or self loop into the graph, the views agree with the arcs. Missing from C04: calls that request
an arc opposite to a present one or a self loop; for these the statement is false (`C04_violated`). -/
theorem C04_views_partial (G : DAG α) (hG : DAG.Reachable NoTwoCycle G) : G.Consistent :=
  (reachable_consistent_asym hG).1

/-- A history that meets the hypothesis of `C04_views_partial`: build `1 → 2`, then remove node 1. -/
example : ∃ G : DAG ℕ, DAG.Reachable NoTwoCycle G ∧ G.nodes = {2} := by
  let w : DAG.Orders ℕ := ⟨Sample.order, Sample.order, Sample.order⟩
  obtain ⟨G, h, hv, ha, hn⟩ := new_ok w.top w.arcs ∅ ({(1, 2)} : Finset (ℕ × ℕ)) (by
    intro v hv
    have : ∀ a b, Path (fun i j => (i, j) ∈ ({(1, 2)} : Finset (ℕ × ℕ))) a b → a < b := by
      intro a b h
      induction h with
      | single h => simp at h; omega
      | tail _ h ih => simp at h; omega
    exact lt_irrefl _ (this v v hv))
  obtain ⟨G', h1, h2, h3, h4⟩ := removeNode_spec hv.toConsistent hv.asym false w.nbrs (v := 1) (by simp [hn])
  refine ⟨G', .call G w (.removeNode false 1) G' none (.new w _ _ G h) trivial (by simp [Op.exec, h1]), ?_⟩
  rw [h3, hn]; decide

/-- C04 is violated: start from `DAG(arcs={(1, 2)})` and call `add_arc(2, 1)` with the default cycle check. It
raises, the arc `(1, 2)` is still there, but 1 and 2 are no longer neighbors. -/
theorem C04_violated : ∃ G : DAG ℕ, DAG.Reachable (fun _ _ => True) G ∧ ¬ G.Consistent := by
  let w : DAG.Orders ℕ := ⟨Sample.order, Sample.order, Sample.order⟩
  obtain ⟨G, h, hv, ha, hn⟩ := new_ok w.top w.arcs ∅ ({(1, 2)} : Finset (ℕ × ℕ)) (by
    intro v hv
    have : ∀ a b, Path (fun i j => (i, j) ∈ ({(1, 2)} : Finset (ℕ × ℕ))) a b → a < b := by
      intro a b h
      induction h with
      | single h => simp at h; omega
      | tail _ h ih => simp at h; omega
    exact lt_irrefl _ (this v v hv))
  have hnotac : ¬ Acyclic (addArcUnchecked G 2 1).E := by
    intro hac
    have h1 : (addArcUnchecked G 2 1).E 1 2 := by simp [E, addArcUnchecked_arcs, ha]
    have h2 : (addArcUnchecked G 2 1).E 2 1 := by simp [E, addArcUnchecked_arcs, ha]
    exact hac 1 ((TransGen.single h1).tail h2)
  rcases addArc_cases hv.toConsistent w.top 2 1 with ⟨hac, _⟩ | ⟨_, l, heq⟩
  · exact absurd hac hnotac
  · refine ⟨_, .call G w (.addArc true 2 1) _ _ (.new w _ _ G h) trivial heq, ?_⟩
    intro hc
    have harcs : ((removeArc false (addArcUnchecked G 2 1) 2 1).andThen
        fun G2 => (G2, some (.cycle l))).1.arcs = {(1, 2)} := by
      rw [rollback_arcs, ha]; decide
    have hmem := (hc.neighbors_iff 1 2).2 (Or.inl (by
      have : ((1, 2) : ℕ × ℕ) ∈ ((removeArc false (addArcUnchecked G 2 1) 2 1).andThen
        fun G2 => (G2, some (.cycle l))).1.arcs := by rw [harcs]; simp
      exact this))
    have hcon := addArcUnchecked_consistent hv.toConsistent 2 1
    have hp : 2 ∈ (addArcUnchecked G 2 1).parents 1 := (hcon.parents_iff _ _).2 (by simp [addArcUnchecked_arcs])
    have hch : 1 ∈ (addArcUnchecked G 2 1).children 2 := (hcon.children_iff _ _).2 (by simp [addArcUnchecked_arcs])
    have hn1 : 2 ∈ (addArcUnchecked G 2 1).neighbors 1 :=
      (hcon.neighbors_iff _ _).2 (Or.inl (by simp [addArcUnchecked_arcs]))
    have hn2 : 1 ∈ (addArcUnchecked G 2 1).neighbors 2 :=
      (hcon.neighbors_iff _ _).2 (Or.inr (by simp [addArcUnchecked_arcs]))
    have hm : (2, 1) ∈ (addArcUnchecked G 2 1).arcs := by simp [addArcUnchecked_arcs]
    simp [removeArc, delArc, delParent, delChild, delNbr, Step.andThen, hm, hp, hch, hn1, hn2] at hmem

/-! ## C06 -/

/-- C06, part. If the given arcs are disjoint from the present ones and the union has no 2-cycle, a failed
`add_arcs_from` restores the arcs (and the views), a successful one adds exactly the given arcs. Missing: given
arcs that are already present, or that are opposite to each other or to present arcs (`C06_violated`). -/
theorem C06_add_arcs_from_partial (G : DAG α) (hG : G.Valid) (o : SetOrder (Option α) α)
    (oa : SetOrder Bool (α × α)) (arcs : Finset (α × α)) (hdisj : Disjoint G.arcs arcs)
    (hasym : ∀ i j, (i, j) ∈ G.arcs ∪ arcs → (j, i) ∉ G.arcs ∪ arcs) :
    ∃ G' e, addArcsFrom true o oa G arcs = some (G', e) ∧
      (e = none ↔ Acyclic fun i j => (i, j) ∈ G.arcs ∪ arcs) ∧
      (e = none → G'.arcs = G.arcs ∪ arcs) ∧ (e ≠ none → G'.arcs = G.arcs) ∧ G'.Consistent := by
  obtain ⟨h1, h2, h3⟩ := addArcsUnchecked_spec hG.toConsistent (oa.ord false arcs)
  rw [ofOrd_toFinset] at h2
  have hEE : (addArcsUnchecked G (oa.ord false arcs)).E = fun i j => (i, j) ∈ G.arcs ∪ arcs := by
    funext a b; simp only [E, h2]
  by_cases hne : arcs.card = 0
  · rw [Finset.card_eq_zero] at hne; subst hne
    refine ⟨G, none, by simp [addArcsFrom], ?_, by simp, by simp, hG.toConsistent⟩
    simp only [Finset.union_empty, true_iff]; exact hG.acyclic
  rcases addArcsFrom_cases hG.toConsistent o oa arcs hne with ⟨ha, hr⟩ | ⟨ha, l, hr⟩
  · rw [hEE] at ha
    exact ⟨_, _, hr, iff_of_true rfl ha, fun _ => h2, by simp, h1⟩
  · rw [hEE] at ha
    have hA : (addArcsUnchecked G (oa.ord false arcs)).Asym := fun a b => by rw [h2]; exact hasym a b
    obtain ⟨G2, e1, e2, e3, e4⟩ := removeArcs_spec false (oa.ord true arcs) _ h1 hA
      (oa.nodup _ _) (fun a ha => by rw [h2]; rw [oa.mem_iff] at ha; simp [ha])
    rw [e1, andThen_none] at hr
    refine ⟨_, _, hr, iff_of_false (by simp) ha, by simp, fun _ => ?_, e2⟩
    rw [e4, h2, ofOrd_toFinset, Finset.union_sdiff_right, Finset.sdiff_eq_self_of_disjoint hdisj]

example : ∃ G' e, addArcsFrom true Sample.order Sample.order Sample.diamond {(4, 1), (1, 2)} = some (G', e) ∧
    G'.Consistent := by
  obtain ⟨G', e, h, _, _, _, h4⟩ := C06_add_arcs_from_partial Sample.diamond Sample.diamond_valid
    Sample.order Sample.order {(4, 1), (1, 2)} (by decide) (by decide)
  exact ⟨G', e, h, h4⟩

/-- C06 is violated: with `1 → 2` present, `add_arcs_from([(1, 2), (2, 3), (3, 1)], check_acyclic=True)` raises
and the old arc `(1, 2)` is gone. -/
theorem C06_violated (o : SetOrder (Option ℕ) ℕ) (oa : SetOrder Bool (ℕ × ℕ)) :
    ∃ (G : DAG ℕ) (G' : DAG ℕ) (e : Exn ℕ), G.Valid ∧ G.arcs = {(1, 2)} ∧
      addArcsFrom true o oa G {(1, 2), (2, 3), (3, 1)} = some (G', some e) ∧ G'.arcs = ∅ := by
  obtain ⟨G, h, hv, ha, hn⟩ := new_ok o oa ∅ ({(1, 2)} : Finset (ℕ × ℕ)) (by
    intro v hv
    have : ∀ a b, Path (fun i j => (i, j) ∈ ({(1, 2)} : Finset (ℕ × ℕ))) a b → a < b := by
      intro a b h
      induction h with
      | single h => simp at h; omega
      | tail _ h ih => simp at h; omega
    exact lt_irrefl _ (this v v hv))
  obtain ⟨h1, h2, h3⟩ := addArcsUnchecked_spec hv.toConsistent (oa.ord false {(1, 2), (2, 3), (3, 1)})
  rw [ofOrd_toFinset, ha] at h2
  have hA : (addArcsUnchecked G (oa.ord false {(1, 2), (2, 3), (3, 1)})).Asym := fun a b => by
    rw [h2]; simp; omega
  have hcyc : ¬ Acyclic (addArcsUnchecked G (oa.ord false {(1, 2), (2, 3), (3, 1)})).E := by
    intro hac
    have a1 : (addArcsUnchecked G (oa.ord false {(1, 2), (2, 3), (3, 1)})).E 1 2 := by rw [E, h2]; simp
    have a2 : (addArcsUnchecked G (oa.ord false {(1, 2), (2, 3), (3, 1)})).E 2 3 := by rw [E, h2]; simp
    have a3 : (addArcsUnchecked G (oa.ord false {(1, 2), (2, 3), (3, 1)})).E 3 1 := by rw [E, h2]; simp
    exact hac 1 (((TransGen.single a1).tail a2).tail a3)
  rcases addArcsFrom_cases hv.toConsistent o oa {(1, 2), (2, 3), (3, 1)} (by decide) with ⟨hac, _⟩ | ⟨_, l, hr⟩
  · exact absurd hac hcyc
  · obtain ⟨G2, e1, e2, e3, e4⟩ := removeArcs_spec false (oa.ord true {(1, 2), (2, 3), (3, 1)}) _ h1 hA
      (oa.nodup _ _) (fun a ha => by rw [h2]; rw [oa.mem_iff] at ha; exact Finset.mem_union_right _ ha)
    rw [e1, andThen_none] at hr
    refine ⟨G, G2, _, hv, ha, hr, ?_⟩
    rw [e4, h2, ofOrd_toFinset]; decide

/-! ## C07 -/

/-- C07, part. `reverse_arc(i, j, check_acyclic=True)` on a present arc of an acyclic graph succeeds iff the
reversed arc closes no cycle; on success exactly `(i, j)` is replaced by `(j, i)`; the graph stays acyclic and the
views agree whatever happens. On an absent arc it raises `KeyError` and changes nothing. Missing from C07: on a
cycle the arc `(i, j)` is lost (third clause, `C07_violated`). -/
theorem C07_reverse_arc_partial (G : DAG α) (hG : G.Valid) (o : SetOrder (Option α) α) (i j : α) :
    ((i, j) ∈ G.arcs → ∃ G' e, reverseArc false true o G i j = some (G', e) ∧
      (e = none ↔ ¬ Path (fun a b => G.E a b ∧ (a, b) ≠ (i, j)) i j) ∧
      (e = none → G'.arcs = insert (j, i) (G.arcs.erase (i, j))) ∧
      (e ≠ none → G'.arcs = G.arcs.erase (i, j)) ∧ G'.Valid) ∧
    ((i, j) ∉ G.arcs → reverseArc false true o G i j = some (G, some .key)) := by
  constructor
  · intro hij
    have hne := hG.asym.ne hij
    obtain ⟨G1, h1, h2, h3, h4⟩ := removeArc_spec hG.toConsistent hij (hG.asym _ _ hij) false
    have hE1 : G1.E = fun a b => G.E a b ∧ (a, b) ≠ (i, j) := by
      funext a b; simp [E, h4, and_comm]
    have hv1 : G1.Valid := ⟨h2, by rw [hE1]; exact acyclic_mono (fun _ _ h => h.1) hG.acyclic⟩
    have hins := insert_acyclic hv1.acyclic j i
    rw [← addArcUnchecked_E, hE1] at hins
    have hji : (i, j) ∉ G1.arcs := by rw [h4]; simp
    have heq : reverseArc false true o G i j = addArc true o G1 j i := by rw [reverseArc, h1]
    rcases addArc_cases h2 o j i with ⟨hac, hr⟩ | ⟨hac, l, hr⟩
    · refine ⟨_, _, heq.trans hr, ?_, ?_, by simp, addArcUnchecked_consistent h2 j i, hac⟩
      · simpa using (hins.1 hac).2
      · intro _; rw [addArcUnchecked_arcs, h4]
    · have hA : (addArcUnchecked G1 j i).Asym := by
        intro a b hab
        rw [addArcUnchecked_arcs] at hab ⊢
        simp only [Finset.mem_insert, Prod.mk.injEq, not_or] at hab ⊢
        rcases hab with ⟨rfl, rfl⟩ | hab
        · exact ⟨fun hc => hne hc.1, hji⟩
        · exact ⟨by rintro ⟨rfl, rfl⟩; exact hji hab, hv1.asym _ _ hab⟩
      have hm : (j, i) ∈ (addArcUnchecked G1 j i).arcs := by simp [addArcUnchecked_arcs]
      obtain ⟨G2, e1, e2, e3, e4⟩ := removeArc_spec (addArcUnchecked_consistent h2 j i) hm (hA _ _ hm) false
      rw [e1, andThen_none] at hr
      have harc : G2.arcs = G1.arcs := by
        rw [e4, addArcUnchecked_arcs, Finset.erase_insert]
        rw [h4]; simp; intro _; exact hG.asym _ _ hij
      refine ⟨_, _, heq.trans hr, ?_, by simp, fun _ => by rw [harc, h4], e2, ?_⟩
      · have : Path (fun a b => G.E a b ∧ (a, b) ≠ (i, j)) i j := by
          by_contra hp; exact hac (hins.2 ⟨hne.symm, hp⟩)
        exact iff_of_false (by simp) (not_not.2 this)
      · have : G2.E = G1.E := by funext a b; simp [E, harc]
        rw [this]; exact hv1.acyclic
  · intro hij
    rw [reverseArc, removeArc_absent hij]; simp

example : ∃ G' e, reverseArc false true Sample.order Sample.diamond 0 1 = some (G', e) ∧ G'.Valid := by
  obtain ⟨G', e, h, _, _, _, hv⟩ := (C07_reverse_arc_partial Sample.diamond Sample.diamond_valid Sample.order 0 1).1
    (by decide)
  exact ⟨G', e, h, hv⟩

/-- C07 is violated: on `0 → 1 → 2`, `0 → 2`, `reverse_arc(0, 2, check_acyclic=True)` raises and the arc `(0, 2)`
is gone. -/
theorem C07_violated (o : SetOrder (Option (Fin 3)) (Fin 3)) : ∃ (G G' : DAG (Fin 3)) (e : Exn (Fin 3)),
    G.Valid ∧ (0, 2) ∈ G.arcs ∧ reverseArc false true o G 0 2 = some (G', some e) ∧ (0, 2) ∉ G'.arcs := by
  have hv : (Sample.graph {(0, 1), (1, 2), (0, 2)} : DAG (Fin 3)).Valid := Sample.graph_valid (by decide)
  obtain ⟨G', e, h, h1, _, h3, _⟩ := (C07_reverse_arc_partial _ hv o 0 2).1 (by decide)
  have hne : e ≠ none := by
    intro hc
    refine h1.1 hc ((TransGen.single (b := 1) ?_).tail ?_)
    · exact ⟨by decide, by decide⟩
    · exact ⟨by decide, by decide⟩
  obtain ⟨e', rfl⟩ := Option.ne_none_iff_exists'.1 hne
  exact ⟨_, G', e', hv, by decide, h, by rw [h3 (by simp)]; simp⟩

/-! ## C08 -/

/-- C08. `remove_node` on an acyclic graph with consistent views. -/
theorem C08_remove_node (G : DAG α) (hG : G.Valid) (ignoreError : Bool) (o : SetOrder Bool α) (v : α) :
    (v ∈ G.nodes → ∃ G', removeNode ignoreError o G v = (G', none) ∧
      (∀ u, u ∈ G'.nodes ↔ u ∈ G.nodes ∧ u ≠ v) ∧
      (∀ i j, (i, j) ∈ G'.arcs ↔ (i, j) ∈ G.arcs ∧ i ≠ v ∧ j ≠ v) ∧ G'.Valid) ∧
    (v ∉ G.nodes → removeNode ignoreError o G v = (G, if ignoreError then none else some .key)) := by
  constructor
  · intro hv
    obtain ⟨G', h1, h2, h3, h4⟩ := removeNode_spec hG.toConsistent hG.asym ignoreError o hv
    refine ⟨G', h1, ?_, ?_, h2, ?_⟩
    · intro u; rw [h3]; simp [and_comm]
    · intro i j; rw [h4]; simp
    · refine acyclic_mono (fun a b hab => ?_) hG.acyclic
      rw [E, h4] at hab; exact (Finset.mem_filter.1 hab).1
  · intro hv; exact removeNode_absent o hv ignoreError

example : ∃ G', removeNode false Sample.order Sample.diamond 3 = (G', none) ∧ G'.Valid := by
  obtain ⟨G', h, _, _, hv⟩ := (C08_remove_node Sample.diamond Sample.diamond_valid false Sample.order 3).1 (by decide)
  exact ⟨G', h, hv⟩

end Props
