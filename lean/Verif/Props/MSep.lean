import Verif.Proof.MSep
import Verif.Props.AG

/-! # C37 - C39: m-separation -/

namespace Props

open Model Relation Spec

universe u
variable {α : Type u} [DecidableEq α]

/-- C37. On every mixed graph the constructor and the mutators can build, `msep(A, B, C)` with `A` disjoint from `C`
terminates for all pop and iteration orders and returns `True` exactly when no path without repeated nodes from `A` to `B`
is m-connecting given `C`. -/
theorem C37_msep (G : AG α) (h : AG.Reachable G) (o : SepOracle α) (A B C : Finset α) (hAC : Disjoint A C) :
    ∃ r, G.msep o A B C = some r ∧ (r = true ↔ G.mixed.MSep {a | a ∈ A} {b | b ∈ B} {c | c ∈ C}) :=
  AG.msep_decides h.good o A B C hAC

/-- `0 → 1 ↔ 2 ← 3`. -/
abbrev Sample.bridge : AG (Fin 4) := Sample.mixed (n := 4) {(0, 1), (3, 2)} {{1, 2}} ∅

theorem Sample.bridge_reachable : AG.Reachable Sample.bridge :=
  Sample.mixed_reachable (Sample.mixed_good (by decide) (by decide) (by decide) (by decide) (by decide)) Sample.order {(1, 2)} ∅ (by decide) rfl

/-- On `0 → 1 ↔ 2 ← 3` `msep({0}, {3}, {})` is `True`, `msep({0}, {3}, {1, 2})` is `False`. -/
theorem Sample.bridge_msep : Sample.bridge.msep Sample.sep {0} {3} ∅ = some true ∧ Sample.bridge.msep Sample.sep {0} {3} {1, 2} = some false := by
  have g : (Sample.mixed (n := 4) {(0, 1), (3, 2)} {{1, 2}} ∅).Good := Sample.mixed_good (by decide) (by decide) (by decide)
    (by decide) (by decide)
  refine ⟨?_, ?_⟩
  · obtain ⟨b, hb, hb'⟩ := AG.msep_spec g Sample.sep {0} {3} ∅
    rw [hb]; congr 1
    rw [← Bool.not_eq_false, hb']
    rintro ⟨a, ha, c, hc, he | ⟨-, l, hl⟩⟩
    · simp at ha hc; subst ha; subst hc; simp at he
    · simp at ha hc; subst ha; subst hc
      obtain ⟨d, hd, -⟩ := MG.moves_of_walk (by simp) l 3 hl
      -- the reachable states are (0, tail) and (1, arrowhead)
      suffices H : ∀ s, ReflTransGen (MG.Move (Mixed.mg (AG.mixed (Sample.mixed (n := 4) {(0, 1), (3, 2)} {{1, 2}} ∅)))
          ((∅ : Finset (Fin 4)) : Set (Fin 4))) (0, false) s → s = (0, false) ∨ s = (1, true) by
        have := H _ hd; simp at this
      intro s hs
      induction hs with
      | refl => simp
      | @tail s t _ hst ih =>
        obtain ⟨h1, h2, h3, -⟩ := hst
        have e : ∀ a b : Fin 4, (Mixed.mg (AG.mixed (Sample.mixed (n := 4) {(0, 1), (3, 2)} {{1, 2}} ∅))).adj a b ↔
          ((a, b) ∈ ({(0, 1), (1, 0), (3, 2), (2, 3), (1, 2), (2, 1)} : Finset (Fin 4 × Fin 4))) := by
          change ∀ a b, (_ ∨ _ ∨ _ ∨ _) ↔ _
          unfold AG.mixed; decide
        have e' : ∀ a b : Fin 4, (Mixed.mg (AG.mixed (Sample.mixed (n := 4) {(0, 1), (3, 2)} {{1, 2}} ∅))).into a b ↔
          ((a, b) ∈ ({(0, 1), (3, 2), (1, 2), (2, 1)} : Finset (Fin 4 × Fin 4))) := by
          change ∀ a b, (_ ∨ _) ↔ _
          unfold AG.mixed; decide
        have e3 : ¬ (Mixed.mg (AG.mixed (Sample.mixed (n := 4) {(0, 1), (3, 2)} {{1, 2}} ∅))).An
            ((∅ : Finset (Fin 4)) : Set (Fin 4)) s.1 := by rintro ⟨c, hc, -⟩; simp at hc
        rw [e] at h1; rw [e'] at h2 h3
        obtain ⟨t1, t2⟩ := t
        have h3' : ¬ (s.2 = true ∧ (t1, s.1) ∈ ({(0, 1), (3, 2), (1, 2), (2, 1)} : Finset (Fin 4 × Fin 4))) :=
          fun h => e3 (h3 h)
        clear h3 e3 e e' hd hl hb hb'
        rcases ih with rfl | rfl <;> dsimp only at h1 h2 h3' <;> revert h3' h2 h1 <;> revert t1 t2 <;> decide
  · obtain ⟨b, hb, hb'⟩ := AG.msep_spec g Sample.sep {0} {3} {1, 2}
    rw [hb]; congr 1
    rw [hb']
    refine ⟨0, by simp, 3, by simp, Or.inr ⟨by decide, [0, 1, 2, 3], ⟨rfl, rfl, ?_, ?_⟩⟩⟩
    · change ∀ u v, _ → (_ ∨ _ ∨ _ ∨ _)
      unfold AG.mixed; decide
    · intro u v w huvw
      have e : ∀ u v w : Fin 4, [u, v, w] <:+: [0, 1, 2, 3] → v = 1 ∧ u = 0 ∧ w = 2 ∨ v = 2 ∧ u = 1 ∧ w = 3 := by decide
      rcases e u v w huvw with ⟨rfl, rfl, rfl⟩ | ⟨rfl, rfl, rfl⟩
      · refine ⟨fun _ => ⟨1, by simp, .refl⟩, fun hn => absurd ⟨?_, ?_⟩ hn⟩
        · change _ ∨ _; unfold AG.mixed; decide
        · change _ ∨ _; unfold AG.mixed; decide
      · refine ⟨fun _ => ⟨2, by simp, .refl⟩, fun hn => absurd ⟨?_, ?_⟩ hn⟩
        · change _ ∨ _; unfold AG.mixed; decide
        · change _ ∨ _; unfold AG.mixed; decide

example : ∃ G : AG (Fin 4), AG.Reachable G ∧ G.msep Sample.sep {0} {3} ∅ = some true ∧ G.msep Sample.sep {0} {3} {1, 2} = some false :=
  ⟨_, Sample.bridge_reachable, Sample.bridge_msep⟩

/-- C38. For every DAG, for all orders: the constructor accepts its nodes and arcs, and `msep` on the resulting graph
returns the same as `dsep` on the DAG, for arbitrary `A`, `B`, `C`. -/
theorem C38_msep_dsep (D : DAG α) (hD : D.Valid) (oc : SetOrder (Fin 3) (α × α)) (o o' : SepOracle α) (A B C : Finset α) :
    ∃ G, AG.new oc D.nodes D.arcs ∅ ∅ = (G, none) ∧ G.directed = D.arcs ∧ ∃ r, G.msep o A B C = some r ∧
      DAG.dsep D o' A B C = some r := by
  set T : AG α := ⟨D.nodes, D.arcs, ∅, ∅, fun _ => ∅, fun _ => ∅, D.parents, D.children, D.neighbors⟩ with hT
  have gT : T.Good := by
    refine ⟨⟨hD.parents_iff, hD.children_iff, by simp [hT], by simp [hT], ?_, ?_, by simp [hT], by simp [hT], ?_,
      by simp [hT], by simp [hT]⟩, ⟨?_, by simp [hT], by simp [hT], by simp [hT], by simp [hT]⟩⟩
    · intro i j; simp [hT, hD.neighbors_iff]
    · intro i hi; exact hD.acyclic i (.single hi)
    · intro i j h; exact ⟨hD.fst_mem i j h, hD.snd_mem i j h⟩
    · intro i j h h'; exact hD.acyclic.asymm h h'
  have hmg : T.mixed.mg = mg D.E := by
    unfold Mixed.mg mg
    congr 1
    · funext a b; simp [Mixed.Adj, AG.mixed, hT, Adj, DAG.E]
    · funext a b; simp [Mixed.Into, AG.mixed, hT, DAG.E]
  refine ⟨T, AG.new_ok gT oc ∅ ∅ rfl rfl, rfl, ?_⟩
  obtain ⟨r, h1, h2⟩ := AG.msep_spec gT o A B C
  obtain ⟨r', h3, h4⟩ := DAG.dsep_spec hD o' A B C
  refine ⟨r, h1, ?_⟩
  rw [h3]; congr 1
  rw [hmg] at h2
  have : r' = false ↔ r = false := h4.trans h2.symm
  cases r <;> cases r' <;> simp_all

example : ∃ G r, AG.new Sample.order Sample.diamond.nodes Sample.diamond.arcs ∅ ∅ = (G, none) ∧
    G.msep Sample.sep {1} {2} {0, 4} = some r ∧ DAG.dsep Sample.diamond Sample.sep {1} {2} {0, 4} = some r := by
  obtain ⟨G, h1, -, r, h2, h3⟩ := C38_msep_dsep Sample.diamond Sample.diamond_valid Sample.order Sample.sep Sample.sep {1} {2}
    {0, 4}
  exact ⟨G, r, h1, h2, h3⟩

/-- C39. `msep_from_given(A, C)` with `A` disjoint from `C` terminates for all orders and returns exactly the nodes outside
`A` and `C` for which `msep` says `True`. -/
theorem C39_msep_from_given (G : AG α) (h : AG.Reachable G) (o o' : SepOracle α) (A C : Finset α) (hAC : Disjoint A C) :
    ∃ s, G.msepFromGiven o A C = some s ∧
      ∀ x, x ∈ s ↔ x ∈ G.nodes ∧ x ∉ A ∧ x ∉ C ∧ G.msep o' A {x} C = some true := by
  obtain ⟨s, hs, hs'⟩ := AG.msepFromGiven_spec h.good o A C hAC
  refine ⟨s, hs, fun x => ?_⟩
  rw [hs']
  obtain ⟨r, hr, hr'⟩ := AG.msep_decides h.good o' A {x} C hAC
  rw [hr, Option.some.injEq, hr']; simp

end Props
