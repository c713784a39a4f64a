import Verif.Proof.HiddenTables
import Verif.Props.AGImap
import Verif.Props.AGTriples
import Verif.Props.MSep
import Verif.Props.Marginal
import Verif.Props.DSep

/-! # C235 – C237: m-separation and distributions with hidden common causes and selection -/

namespace Props

open Model Model.AG Spec

variable {α : Type} [DecidableEq α]

theorem msep_true_iff {G : AG α} (hG : Reachable G) (o : SepOracle α) {A B C : List α} (hnd : (A ++ B ++ C).Nodup) :
    G.msep o A.toFinset B.toFinset C.toFinset = some true ↔ G.mixed.MSep {v | v ∈ A} {v | v ∈ B} {v | v ∈ C} := by
  have hAC : Disjoint A.toFinset C.toFinset := Finset.disjoint_left.2 fun v h1 h2 =>
    List.disjoint_of_nodup_append hnd (List.mem_append_left _ (List.mem_toFinset.1 h1)) (List.mem_toFinset.1 h2)
  obtain ⟨r, h1, h2⟩ := msep_decides hG.good o A.toFinset B.toFinset C.toFinset hAC
  simp only [List.coe_toFinset] at h2
  rw [h1, ← h2]
  simp

/-- C235. For disjoint sets of nodes of an ancestral graph `msep` returns `True` exactly if the sets are independent in all distributions
with a hidden common cause for every bidirected edge and a common effect, on which everything is conditioned, for every undirected edge. -/
theorem C235_msep (G : AG α) (hG : Reachable G) (ha : G.mixed.Ancestral) (o : SepOracle α) {A B C : List α} (hnd : (A ++ B ++ C).Nodup)
    (hn : ∀ v ∈ A ++ B ++ C, v ∈ G.nodes) : ∃ r, G.msep o A.toFinset B.toFinset C.toFinset = some r ∧
      (r = true ↔ ∀ D, HiddenTables G D → Indep G D A B C) := by
  obtain ⟨r, h1, -⟩ := msep_spec hG.good o A.toFinset B.toFinset C.toFinset
  refine ⟨r, h1, ?_⟩
  rw [← msep_iff_indep hG.good ha hnd hn, ← msep_true_iff hG o hnd, h1]
  simp

/-- C235. One such distribution, with binary variables, has no independences but those that `msep` affirms. For the others the equation fails
when all values are one. -/
theorem C235_faithful (G : AG α) (hG : Reachable G) (ha : G.mixed.Ancestral) (o : SepOracle α) :
    ∃ D, HiddenTables G D ∧ (∀ v, D.alph v = [0, 1]) ∧ ∀ (i j : α) (C : List α), (i :: j :: C).Nodup → (∀ v ∈ i :: j :: C, v ∈ G.nodes) →
      ∃ r, G.msep o {i} {j} C.toFinset = some r ∧ (r = true → Indep G D [i] [j] C) ∧ (r = false → ¬ IndepAt G D [i] [j] C fun _ => 1) := by
  obtain ⟨D, hD, h2, h3⟩ := exists_hidden hG.good ha
  refine ⟨D, hD, h2, fun i j C hnd hn => ?_⟩
  obtain ⟨r, h4, h5⟩ := C235_msep G hG ha o (A := [i]) (B := [j]) (C := C) hnd hn
  refine ⟨r, h4, fun h => h5.1 h D hD, fun h hi => ?_⟩
  have := (msep_true_iff hG o (A := [i]) (B := [j]) (C := C) hnd).2 (by simpa using h3 i j C hnd hn hi)
  rw [h4, h] at this
  cases this

/-- On `0 → 1 ↔ 2 ← 3`: without conditioning, 0 and 3 are independent whatever the hidden cause of 1 and 2; but not always given 1 and 2. -/
example : (∃ D, HiddenTables Sample.bridge D) ∧ (∀ D, HiddenTables Sample.bridge D → Indep Sample.bridge D [0] [3] []) ∧
    ∃ D, HiddenTables Sample.bridge D ∧ ¬ Indep Sample.bridge D [0] [3] [1, 2] := by
  have a : Sample.bridge.mixed.Ancestral := _root_.Sample.mixed_ancestral {(0, 1), (3, 2)} (by decide) (by decide) (by decide) (by decide)
  obtain ⟨r, h1, h2⟩ := C235_msep _ Sample.bridge_reachable a _root_.Sample.sep (A := [0]) (B := [3]) (C := []) (by decide) (by decide)
  obtain ⟨q, k1, k2⟩ := C235_msep _ Sample.bridge_reachable a _root_.Sample.sep (A := [0]) (B := [3]) (C := [1, 2]) (by decide) (by decide)
  obtain rfl : r = true := Option.some.inj (h1.symm.trans Sample.bridge_msep.1)
  obtain rfl : q = false := Option.some.inj (k1.symm.trans Sample.bridge_msep.2)
  obtain ⟨D, hD, -⟩ := exists_hidden Sample.bridge_reachable.good a
  refine ⟨⟨D, hD⟩, h2.1 rfl, ?_⟩
  by_contra hc
  push Not at hc
  exact absurd (k2.2 hc) (by simp)

/-- All independences that `g.msep` affirms hold in all the distributions of `h`. -/
def Honours (o : SepOracle α) (G H : AG α) : Prop := ∀ A B C : List α, (A ++ B ++ C).Nodup → (∀ v ∈ A ++ B ++ C, v ∈ G.nodes) →
  G.msep o A.toFinset B.toFinset C.toFinset = some true → ∀ D, HiddenTables H D → Indep H D A B C

omit [DecidableEq α] in
theorem imap_lists {M N : Mixed α} {V : Finset α} : M.Imap N {v | v ∈ V} ↔ ∀ A B C : List α, (A ++ B ++ C).Nodup → (∀ v ∈ A ++ B ++ C, v ∈ V) →
    M.MSep {v | v ∈ A} {v | v ∈ B} {v | v ∈ C} → N.MSep {v | v ∈ A} {v | v ∈ B} {v | v ∈ C} := by
  constructor
  · intro h A B C hnd hm
    refine h _ _ _ ?_ ?_ ?_ ?_ ?_ ?_
    · exact fun v hv => hm v (List.mem_append_left _ (List.mem_append_left _ hv))
    · exact fun v hv => hm v (List.mem_append_left _ (List.mem_append_right _ hv))
    · exact fun v hv => hm v (List.mem_append_right _ hv)
    · exact Set.disjoint_left.2 fun v k1 k2 => List.disjoint_of_nodup_append hnd.of_append_left k1 k2
    · exact Set.disjoint_left.2 fun v k1 k2 => List.disjoint_of_nodup_append hnd (List.mem_append_left _ k1) k2
    · exact Set.disjoint_left.2 fun v k1 k2 => List.disjoint_of_nodup_append hnd (List.mem_append_right _ k1) k2
  · refine fun h => imap_finset fun X Y Z hX hY hZ h1 h2 h3 => ?_
    have e : ∀ S : Finset α, ({v | v ∈ S.toList} : Set α) = S := fun S => by ext v; simp
    rw [← e X, ← e Y, ← e Z]
    refine h _ _ _ (List.nodup_append'.2 ⟨List.nodup_append'.2 ⟨X.nodup_toList, Y.nodup_toList, ?_⟩, Z.nodup_toList, ?_⟩) ?_
    · intro v k1 k2
      exact Finset.disjoint_left.1 h1 (Finset.mem_toList.1 k1) (Finset.mem_toList.1 k2)
    · intro v k1 k2
      rcases List.mem_append.1 k1 with k1 | k1
      · exact Finset.disjoint_left.1 h2 (Finset.mem_toList.1 k1) (Finset.mem_toList.1 k2)
      · exact Finset.disjoint_left.1 h3 (Finset.mem_toList.1 k1) (Finset.mem_toList.1 k2)
    · intro v hv
      simp only [List.mem_append, Finset.mem_toList] at hv
      rcases hv with (k | k) | k
      exacts [hX k, hY k, hZ k]

theorem honours_iff {G H : AG α} (hG : Reachable G) (hH : Reachable H) (aH : H.mixed.Ancestral) (hn : G.nodes ⊆ H.nodes) (o : SepOracle α) :
    Honours o G H ↔ G.mixed.Imap H.mixed {v | v ∈ G.nodes} := by
  rw [imap_lists]
  refine forall₃_congr fun A B C => forall₂_congr fun hnd hm => ?_
  rw [msep_true_iff hG o hnd, ← msep_iff_indep hH.good aH hnd fun v hv => hn (hm v hv)]

/-- C236. For a maximal ancestral graph `g` without undirected edges and an ancestral graph `h` that has its nodes, `g.is_imap(h)` is `True`
exactly if all independences that `g.msep` affirms hold in all the distributions of `h` with hidden common causes and selection. -/
theorem C236_is_imap (w : ImapOracle α) (G H : AG α) (hG : Reachable G) (hH : Reachable H) (aG : G.mixed.Ancestral)
    (mG : G.mixed.Maximal {v | v ∈ G.nodes}) (hu : G.undirected = ∅) (aH : H.mixed.Ancestral) (hn : G.nodes ⊆ H.nodes) (o : SepOracle α) :
    ∃ b c, isImap w G H = some (.ok (b, c)) ∧ (b = true ↔ Honours o G H) := by
  obtain ⟨c, h1, h2, -⟩ := isImap_spec hG.good aG hu hH.good w mG
  refine ⟨_, c, h1, ?_⟩
  rw [honours_iff hG hH aH hn, ← h2]
  cases c <;> simp

/-- Two unconnected nodes and `0 → 1`: the distributions of the latter do not satisfy all independences of the former. -/
example (o : SepOracle (Fin 2)) : ¬ Honours o Sample.none2 Sample.arc2 ∧ Honours o Sample.arc2 Sample.arc2 := by
  refine ⟨fun h => ?_, ?_⟩
  · rw [honours_iff Sample.none2_reachable Sample.arc2_reachable Sample.arc2_ancestral (by decide)] at h
    exact Sample.arc2_not_imap h
  · rw [honours_iff Sample.arc2_reachable Sample.arc2_reachable Sample.arc2_ancestral (by decide)]
    exact fun _ _ _ _ _ _ _ _ _ h => h

/-- C237. For maximal ancestral graphs on the same nodes `markov_equivalent` and `fast_markov_equivalent` return `True` exactly if the same
independences hold in all the distributions of the one graph and in all those of the other. -/
theorem C237_markov_equivalent (G H : AG α) (hG : Reachable G) (hH : Reachable H) (aG : G.mixed.Ancestral) (aH : H.mixed.Ancestral)
    (mG : G.mixed.Maximal {v | v ∈ G.nodes}) (mH : H.mixed.Maximal {v | v ∈ H.nodes}) (hn : G.nodes = H.nodes) (o1 o2 : DiscOracle α)
    (t1 t2 : TripleOracle α) (srt srt' : Unpack α) :
    ∃ r, G.markovEquivalent o1 o2 srt H = pure ⟨r⟩ ∧ G.fastMarkovEquivalent t1 t2 srt' H = pure ⟨r⟩ ∧
      (r = true ↔ ∀ A B C : List α, (A ++ B ++ C).Nodup → (∀ v ∈ A ++ B ++ C, v ∈ G.nodes) →
        ((∀ D, HiddenTables G D → Indep G D A B C) ↔ ∀ D, HiddenTables H D → Indep H D A B C)) := by
  obtain ⟨r, h1, h2⟩ := C95_markov_equivalent G H hG hH aG aH mG mH hn o1 o2 srt
  refine ⟨r, h1, by rw [C102_agrees G H hG hH aG aH mG mH hn t1 t2 o1 o2 srt' srt, h1], h2.trans ?_⟩
  have e : G.mixed.MarkovEquiv H.mixed {v | v ∈ G.nodes} ↔ G.mixed.Imap H.mixed {v | v ∈ G.nodes} ∧ H.mixed.Imap G.mixed {v | v ∈ G.nodes} :=
    ⟨fun h => ⟨fun X Y Z k1 k2 k3 k4 k5 k6 => (h X Y Z k1 k2 k3 k4 k5 k6).1, fun X Y Z k1 k2 k3 k4 k5 k6 => (h X Y Z k1 k2 k3 k4 k5 k6).2⟩,
      fun h X Y Z k1 k2 k3 k4 k5 k6 => ⟨h.1 X Y Z k1 k2 k3 k4 k5 k6, h.2 X Y Z k1 k2 k3 k4 k5 k6⟩⟩
  rw [e, imap_lists, imap_lists]
  refine ⟨fun h A B C hnd hm => ?_, fun h => ⟨fun A B C hnd hm => ?_, fun A B C hnd hm => ?_⟩⟩
  · rw [← msep_iff_indep hG.good aG hnd hm, ← msep_iff_indep hH.good aH hnd fun v hv => hn ▸ hm v hv]
    exact ⟨h.1 A B C hnd hm, h.2 A B C hnd hm⟩
  all_goals
    have := h A B C hnd hm
    rw [← msep_iff_indep hG.good aG hnd hm, ← msep_iff_indep hH.good aH hnd fun v hv => hn ▸ hm v hv] at this
  exacts [this.1, this.2]

/-- Two maximal ancestral graphs with the same adjacencies and unshielded colliders: some independence holds in all the distributions of one
and not in all those of the other. -/
example (o1 o2 : DiscOracle (Fin 4)) (t1 t2 : TripleOracle (Fin 4)) (srt : Unpack (Fin 4)) : ∃ A B C : List (Fin 4),
    ¬ ((∀ D, HiddenTables Sample.discCol D → Indep Sample.discCol D A B C) ↔ ∀ D, HiddenTables Sample.discNon D → Indep Sample.discNon D A B C) := by
  obtain ⟨r, h1, -, h2⟩ := C237_markov_equivalent _ _ Sample.discCol_reachable Sample.discNon_reachable Sample.discCol_ancestral
    Sample.discNon_ancestral Sample.discCol_maximal Sample.discNon_maximal rfl o1 o2 t1 t2 srt srt
  obtain ⟨r', h1', h3⟩ := AG.markovEquivalent_marks Sample.discCol_good Sample.discNon_good Sample.discCol_ancestral
    Sample.discNon_ancestral o1 o2 srt
  by_contra hc
  push Not at hc
  have e : r = r' := by
    have := h1.symm.trans h1'
    have := congrArg ExceptT.run this
    simpa using this
  have hs := h3.1 (e ▸ h2.2 fun A B C _ _ => hc A B C)
  exact Sample.discNon_collider ((hs.disc 0 [] 1 2 3 Sample.discCol_disc Sample.discNon_disc).1 Sample.discCol_collider)

/-! ## C238 -/

/-- C238. For disjoint sets of nodes of a DAG `dsep` returns `True` exactly if the sets are independent in all networks on the graph. -/
theorem C238_dsep (G : DAG α) (hG : G.Valid) (o : SepOracle α) {A B C : List α} (hnd : (A ++ B ++ C).Nodup) (hn : ∀ v ∈ A ++ B ++ C, v ∈ G.nodes) :
    ∃ r, DAG.dsep G o A.toFinset B.toFinset C.toFinset = some r ∧
      (r = true ↔ ∀ D : DiscreteDAG α, D.dag = G → D.Proper → Independent D A B C) := by
  have hAC : Disjoint A.toFinset C.toFinset := Finset.disjoint_left.2 fun v h1 h2 =>
    List.disjoint_of_nodup_append hnd (List.mem_append_left _ (List.mem_toFinset.1 h1)) (List.mem_toFinset.1 h2)
  obtain ⟨r, h1, h2⟩ := C11_dsep G hG o A.toFinset B.toFinset C.toFinset hAC
  simp only [List.mem_toFinset] at h2
  refine ⟨r, h1, h2.trans ⟨fun hs D e hD x hx => ?_, fun h => ?_⟩⟩
  · subst e
    exact DiscreteDAG.pr_dsep hD hnd hn hs hx
  · obtain ⟨D, rfl, hD, -, ha, h4⟩ := DiscreteDAG.exists_binary hG
    have sub : ∀ a ∈ A, ∀ b ∈ B, ([a] ++ [b] ++ C).Sublist (A ++ B ++ C) := fun a ka b kb =>
      ((List.singleton_sublist.2 ka).append (List.singleton_sublist.2 kb)).append (List.Sublist.refl C)
    exact fun a ka b kb l => h4 a b C (hnd.sublist (sub a ka b kb)) (fun v hv => hn v ((sub a ka b kb).subset hv))
      (DiscreteDAG.indep_pair hD hnd hn (h D rfl hD) ka kb fun v hv => by simp [DiscreteDAG.dims, ha]) a rfl b rfl l

/-- In the diamond 1 and 2 are independent given 0 in all networks, and in some network not given 0 and 4. -/
example : (∀ D : DiscreteDAG (Fin 5), D.dag = _root_.Sample.diamond → D.Proper → Independent D [1] [2] [0]) ∧
    ∃ D : DiscreteDAG (Fin 5), D.dag = _root_.Sample.diamond ∧ D.Proper ∧ ¬ Independent D [1] [2] [0, 4] := by
  obtain ⟨h1, h2⟩ := diamond_dsep
  obtain ⟨r, k1, k2⟩ := C238_dsep _root_.Sample.diamond _root_.Sample.diamond_valid _root_.Sample.sep (A := [1]) (B := [2]) (C := [0]) (by decide) (by decide)
  obtain ⟨q, l1, l2⟩ := C238_dsep _root_.Sample.diamond _root_.Sample.diamond_valid _root_.Sample.sep (A := [1]) (B := [2]) (C := [0, 4]) (by decide) (by decide)
  obtain rfl : r = true := Option.some.inj (k1.symm.trans h1)
  obtain rfl : q = false := Option.some.inj (l1.symm.trans h2)
  refine ⟨k2.1 rfl, ?_⟩
  by_contra hc
  push Not at hc
  exact absurd (l2.2 hc) (by simp)

/-- C238. For disjoint sets of observed nodes, `msep` on the result of `marginal_mag` returns `True` exactly if the sets are independent in all
networks on the graph with the latent nodes. -/
theorem C238_marginal_mag (G : DAG α) (hG : G.Valid) (w : DAG.MargOracle α) (L : Finset α) :
    ∃ M, DAG.marginalMag G w L = some (M, none) ∧ M.nodes = G.nodes \ L ∧
      ∀ (o : SepOracle α) (A B C : List α), (A ++ B ++ C).Nodup → (∀ v ∈ A ++ B ++ C, v ∈ G.nodes \ L) →
        ∃ r, M.msep o A.toFinset B.toFinset C.toFinset = some r ∧ (r = true ↔ ∀ D : DiscreteDAG α, D.dag = G → D.Proper → Independent D A B C) := by
  obtain ⟨M, h1, h2, h3⟩ := C64_marginal_mag G hG w L
  refine ⟨M, h1, h2, fun o A B C hnd hn => ?_⟩
  obtain ⟨r, h4, h5⟩ := C238_dsep G hG o hnd fun v hv => (Finset.mem_sdiff.1 (hn v hv)).1
  obtain ⟨q, k1, k2⟩ := h3 o o A.toFinset B.toFinset C.toFinset (fun v hv => hn v (by simp at hv; simp [hv])) (fun v hv => hn v (by simp at hv; simp [hv]))
    (fun v hv => hn v (by simp at hv; simp [hv]))
  rw [h4] at k2
  cases k2
  exact ⟨r, k1, h5⟩

end Props
