import Verif.Proof.RandomGraph
import Verif.Props.Rand

/-! # C241: the distribution of the random graphs -/

namespace Props

open Model Model.DAG Spec Spec.Random

variable (o : SetOrder (Option ℕ) ℕ) (oa : SetOrder Bool (ℕ × ℕ))

private theorem erdos_arcs (n : ℕ) {perm : Option (List ℕ)} (hp : ∀ p, perm = some p → p.Perm (List.range n))
    (b : List Bool) : ∃ G, directedErdos o oa n b perm = some (G, none) ∧ G.Valid ∧ G.nodes = Finset.range n ∧
      G.arcs = (chosen (pairs (List.range n)) b).toFinset.image fun a => (relabel perm a.1, relabel perm a.2) := by
  obtain ⟨G, h1, h2, h3, h4, _⟩ := directedErdos_spec o oa n b hp
  refine ⟨G, h1, h2, h3, ?_⟩
  ext ⟨x, y⟩
  rw [h4, Finset.mem_image]
  simp only [List.mem_toFinset, Prod.exists, Prod.mk.injEq]

private theorem returned {n : ℕ} {b : List Bool} {perm : Option (List ℕ)} {G : DAG ℕ}
    (h : directedErdos o oa n b perm = some (G, none)) (Q : DAG ℕ → Prop) :
    (∃ G, directedErdos o oa n b perm = some (G, none) ∧ Q G) ↔ Q G := by
  constructor
  · rintro ⟨G', h1, h2⟩
    rw [h] at h1
    injection h1 with h1
    injection h1 with h1
    rw [h1]; exact h2
  · exact fun hq => ⟨G, h, hq⟩

/-- C241. With `random_order=False`, `directed_erdos(n, density=p)` returns a given graph, whose arcs point to larger labels,
with the probability `p ^ #arcs * (1 - p) ^ (#pairs - #arcs)`. -/
theorem C241_erdos_ordered (n : ℕ) (p : ℝ) (arcs : Finset (ℕ × ℕ)) (hA : ∀ a ∈ arcs, a.1 < a.2 ∧ a.2 < n) :
    coinPr p (n * (n - 1) / 2) (fun b => ∃ G, directedErdos o oa n b none = some (G, none) ∧ G.arcs = arcs) =
      p ^ arcs.card * (1 - p) ^ (n * (n - 1) / 2 - arcs.card) := by
  classical
  unfold coinPr
  have h1 : ∀ b, (∃ G, directedErdos o oa n b none = some (G, none) ∧ G.arcs = arcs) ↔
      (chosen (pairs (List.range n)) b).toFinset = arcs := by
    intro b
    obtain ⟨G, g1, _, _, g4⟩ := erdos_arcs o oa n (perm := none) (by simp) b
    rw [returned o oa g1 fun G => G.arcs = arcs, g4]
    simp [relabel]
  simp only [h1]
  rw [coinMean_pairs p n fun A => if A = arcs then 1 else 0, Finset.sum_eq_single arcs]
  · rw [if_pos rfl, mul_one, weight]
  · intro A _ hne; rw [if_neg hne, mul_zero]
  · intro h
    refine absurd (Finset.mem_powerset.2 ?_) h
    rintro ⟨i, j⟩ hij
    exact mem_pairSet.2 (hA _ hij)

example : coinPr (1 / 3) 3 (fun b => ∃ G, directedErdos Sample.order Sample.order 3 b none = some (G, none) ∧
    G.arcs = {(0, 2), (1, 2)}) = 2 / 27 := by
  rw [C241_erdos_ordered Sample.order Sample.order 3 (1 / 3) {(0, 2), (1, 2)} (by decide),
    show ({(0, 2), (1, 2)} : Finset (ℕ × ℕ)).card = 2 from rfl]
  norm_num

/-- C241. `directed_erdos(n, density=p)` returns a given DAG on `0, …, n-1` with the probability
`p ^ #arcs * (1 - p) ^ (#pairs - #arcs)` times the fraction of the orders of the nodes that are topological orders of it. -/
theorem C241_erdos_graph (p : ℝ) {D : DAG ℕ} (hD : D.Valid) {n : ℕ} (hn : D.nodes = Finset.range n)
    [DecidablePred fun t => LinearExtension {v | v < n} D.E t] :
    pr p (n * (n - 1) / 2) n (fun b t => ∃ G, directedErdos o oa n b (some t) = some (G, none) ∧ G.arcs = D.arcs) =
      p ^ D.arcs.card * (1 - p) ^ (n * (n - 1) / 2 - D.arcs.card) *
        (((permutations n).filter fun t => LinearExtension {v | v < n} D.E t).card / (permutations n).card) := by
  classical
  have hmem : ∀ i j, (i, j) ∈ D.arcs → i < n ∧ j < n := by
    intro i j hij
    have h1 := hD.fst_mem i j hij
    have h2 := hD.snd_mem i j hij
    rw [hn, Finset.mem_range] at h1 h2
    exact ⟨h1, h2⟩
  have hfix : ∀ t ∈ permutations n, (coinMean p (n * (n - 1) / 2) fun b =>
      if ∃ G, directedErdos o oa n b (some t) = some (G, none) ∧ G.arcs = D.arcs then (1 : ℝ) else 0) =
      if LinearExtension {v | v < n} D.E t then p ^ D.arcs.card * (1 - p) ^ (n * (n - 1) / 2 - D.arcs.card) else 0 := by
    intro t ht
    have ht' := mem_permutations.1 ht
    have hl : t.length = n := by rw [ht'.length_eq, List.length_range]
    have hnd : t.Nodup := ht'.nodup_iff.2 List.nodup_range
    have h1 : ∀ b, (∃ G, directedErdos o oa n b (some t) = some (G, none) ∧ G.arcs = D.arcs) ↔
        ((chosen (pairs (List.range n)) b).toFinset.image fun a => (t.getD a.1 0, t.getD a.2 0)) = D.arcs := by
      intro b
      obtain ⟨G, g1, _, _, g4⟩ := erdos_arcs o oa n (perm := some t) (by rintro q ⟨⟩; exact ht') b
      rw [returned o oa g1 fun G => G.arcs = D.arcs, g4]
      rfl
    simp only [h1]
    rw [coinMean_pairs p n fun A => if (A.image fun a => (t.getD a.1 0, t.getD a.2 0)) = D.arcs then 1 else 0]
    split_ifs with hext
    · -- the only set of coins
      set A0 := (pairSet n).filter fun a => (t.getD a.1 0, t.getD a.2 0) ∈ D.arcs with hA0
      have himg : (A0.image fun a => (t.getD a.1 0, t.getD a.2 0)) = D.arcs := by
        ext ⟨x, y⟩
        rw [Finset.mem_image]
        constructor
        · rintro ⟨a, ha, he⟩
          rw [← he]; exact (Finset.mem_filter.1 ha).2
        · intro h
          obtain ⟨i, j, hij, hj, rfl, rfl⟩ := sublist_getD (hext.before x y h)
          exact ⟨(i, j), Finset.mem_filter.2 ⟨mem_pairSet.2 ⟨hij, hl ▸ hj⟩, h⟩, rfl⟩
      have hinj : ∀ A ⊆ pairSet n, Set.InjOn (fun a : ℕ × ℕ => (t.getD a.1 0, t.getD a.2 0)) A := by
        rintro A hA ⟨i, j⟩ hij ⟨k, l⟩ hkl h
        have h1 := mem_pairSet.1 (hA hij)
        have h2 := mem_pairSet.1 (hA hkl)
        simp only [Prod.mk.injEq] at h ⊢
        exact ⟨getD_inj ht' (h1.1.trans h1.2) (h2.1.trans h2.2) h.1, getD_inj ht' h1.2 h2.2 h.2⟩
      rw [Finset.sum_eq_single A0]
      · rw [if_pos himg, mul_one, weight, ← himg, Finset.card_image_of_injOn (hinj A0 (Finset.filter_subset _ _))]
      · intro A hA hne
        rw [if_neg, mul_zero]
        intro h
        refine hne ?_
        rw [Finset.mem_powerset] at hA
        ext ⟨i, j⟩
        rw [hA0, Finset.mem_filter]
        constructor
        · intro hij
          exact ⟨hA hij, h ▸ Finset.mem_image_of_mem (fun a : ℕ × ℕ => (t.getD a.1 0, t.getD a.2 0)) hij⟩
        · rintro ⟨h2, h3⟩
          rw [← h] at h3
          obtain ⟨a, ha, hae⟩ := Finset.mem_image.1 h3
          have := hinj (pairSet n) (Finset.Subset.refl _) (hA ha) h2 hae
          rw [← this]; exact ha
      · intro h
        exact absurd (Finset.mem_powerset.2 (Finset.filter_subset _ _)) h
    · refine Finset.sum_eq_zero fun A hA => ?_
      rw [if_neg, mul_zero]
      intro h
      refine hext ⟨hnd, fun v => ?_, fun x y hxy => ?_⟩
      · rw [ht'.mem_iff, List.mem_range]; rfl
      · have hxy' : (x, y) ∈ D.arcs := hxy
        rw [← h] at hxy'
        obtain ⟨⟨i, j⟩, hij, he⟩ := Finset.mem_image.1 hxy'
        have h2 := mem_pairSet.1 (Finset.mem_powerset.1 hA hij)
        simp only [Prod.mk.injEq] at he
        rw [← he.1, ← he.2]
        exact getD_sublist h2.1 (hl.symm ▸ h2.2)
  unfold Random.pr Random.mean
  rw [Finset.sum_congr rfl hfix, ← Finset.sum_filter, Finset.sum_const, nsmul_eq_mul]
  have hpos : ((permutations n).card : ℝ) ≠ 0 := Nat.cast_ne_zero.2 (permutations_pos n).ne'
  have hcard : ((permutations n).filter fun t => LinearExtension {v | v < n} D.E t).card =
      (@Finset.filter _ (fun t => LinearExtension {v | v < n} D.E t) (fun t => inferInstance) (permutations n)).card := by
    congr
  field_simp
  try ring

/-- The arc `0 → 1` is returned for one of the two orders. -/
example : ∃ D : DAG ℕ, D.arcs = {(0, 1)} ∧ pr (1 / 3) 1 2 (fun b t =>
    ∃ G, directedErdos Sample.order Sample.order 2 b (some t) = some (G, none) ∧ G.arcs = D.arcs) = 1 / 6 := by
  classical
  obtain ⟨D, h1, h2, h3, h4⟩ := new_ok Sample.order Sample.order ∅ ({(0, 1)} : Finset (ℕ × ℕ)) (acyclic_lt (by simp))
  refine ⟨D, h3, ?_⟩
  rw [C241_erdos_graph Sample.order Sample.order (1 / 3) h2 (n := 2) (by rw [h4]; rfl), h3]
  have hp : permutations 2 = {[0, 1], [1, 0]} := by
    ext t
    rw [mem_permutations, ← List.mem_permutations', show (List.range 2).permutations' = [[0, 1], [1, 0]] from rfl]
    simp
  have hf : ((permutations 2).filter fun t => LinearExtension {v | v < 2} D.E t) = {[0, 1]} := by
    ext t
    rw [Finset.mem_filter, hp, Finset.mem_insert, Finset.mem_singleton, Finset.mem_singleton]
    constructor
    · rintro ⟨rfl | rfl, h⟩
      · rfl
      · have := h.before 0 1 (by unfold DAG.E; rw [h3]; simp)
        revert this; decide
    · rintro rfl
      refine ⟨Or.inl rfl, by decide, fun v => ?_, fun x y h => ?_⟩
      · simp only [List.mem_cons, List.not_mem_nil, or_false, Set.mem_ofPred_eq]; omega
      · unfold DAG.E at h
        rw [h3, Finset.mem_singleton, Prod.mk.injEq] at h
        rw [h.1, h.2]
  rw [hf, hp]
  have : (({[0, 1], [1, 0]} : Finset (List ℕ)).card : ℝ) = 2 := by norm_num
  rw [this]
  norm_num

open scoped Classical in
private theorem skeleton_law (p : ℝ) (n : ℕ) {t : List ℕ} (ht : t ∈ permutations n) (F : Finset (ℕ × ℕ) → ℝ)
    (X : List Bool → ℝ) (hX : ∀ b G, directedErdos o oa n b (some t) = some (G, none) → G.Valid →
      X b = F ((pairSet n).filter fun a => Adj G.E a.1 a.2)) :
    coinMean p (n * (n - 1) / 2) X = ∑ U ∈ (pairSet n).powerset, weight p (n * (n - 1) / 2) U.card * F U := by
  have ht' := mem_permutations.1 ht
  rw [← mean_skeleton p ht' F]
  unfold coinMean
  refine Finset.sum_congr rfl fun b _ => ?_
  obtain ⟨G, g1, g2, g3, g4⟩ := erdos_arcs o oa n (perm := some t) (by rintro q ⟨⟩; exact ht') b
  rw [hX b G g1 g2]
  congr 2
  ext ⟨x, y⟩
  rw [Finset.mem_filter, mem_pairSet, Finset.mem_image]
  have hE : ∀ x y, G.E x y ↔ ∃ a ∈ (chosen (pairs (List.range n)) b).toFinset, t.getD a.1 0 = x ∧ t.getD a.2 0 = y := by
    intro x y
    unfold DAG.E
    rw [g4, Finset.mem_image]
    simp only [relabel, Prod.mk.injEq]
  have hsub : ∀ a ∈ (chosen (pairs (List.range n)) b).toFinset, a.1 < a.2 ∧ a.2 < n := fun a ha =>
    mem_pairs_range.1 ((chosen_sublist _ _).subset (List.mem_toFinset.1 ha))
  constructor
  · rintro ⟨⟨hxy, hy⟩, h⟩
    rcases h with h | h
    · obtain ⟨a, ha, h1, h2⟩ := (hE _ _).1 h
      refine ⟨a, ha, ?_⟩
      unfold sorted
      dsimp only at h1 h2 ⊢
      rw [h1, h2, if_pos hxy]
    · obtain ⟨a, ha, h1, h2⟩ := (hE _ _).1 h
      refine ⟨a, ha, ?_⟩
      unfold sorted
      dsimp only at h1 h2 ⊢
      rw [h1, h2, if_neg (by omega)]
  · rintro ⟨a, ha, h⟩
    have h1 := hsub a ha
    have h2 := getD_lt ht' (h1.1.trans h1.2)
    have h3 := getD_lt ht' h1.2
    have h4 : t.getD a.1 0 ≠ t.getD a.2 0 := fun h => by
      have := getD_inj ht' (h1.1.trans h1.2) h1.2 h; omega
    unfold sorted at h
    dsimp only at h ⊢
    split_ifs at h with h5
    · rw [Prod.mk.injEq] at h
      rw [h.1] at h2 h5; rw [h.2] at h3 h5
      exact ⟨⟨h5, h3⟩, Or.inl ((hE x y).2 ⟨a, ha, h.1, h.2⟩)⟩
    · rw [Prod.mk.injEq] at h
      rw [h.2] at h2 h4 h5; rw [h.1] at h3 h4 h5
      exact ⟨⟨by omega, h2⟩, Or.inr ((hE y x).2 ⟨a, ha, h.2, h.1⟩)⟩

private theorem mean_of_fixed {p : ℝ} {N n : ℕ} {X : List Bool → List ℕ → ℝ} {c : ℝ}
    (h : ∀ t ∈ permutations n, (coinMean p N fun b => X b t) = c) : mean p N n X = c := by
  unfold Random.mean
  rw [Finset.sum_congr rfl h, Finset.sum_const, nsmul_eq_mul]
  have hpos : ((permutations n).card : ℝ) ≠ 0 := Nat.cast_ne_zero.2 (permutations_pos n).ne'
  field_simp

/-- C241. The skeleton of `directed_erdos(n, density=p)` is an Erdős–Rényi graph: each pair of nodes is joined with
probability `p`, independently of the other pairs. -/
theorem C241_erdos_skeleton (n : ℕ) (p : ℝ) (U : Finset (ℕ × ℕ)) (hU : ∀ a ∈ U, a.1 < a.2 ∧ a.2 < n) :
    pr p (n * (n - 1) / 2) n (fun b t => ∃ G, directedErdos o oa n b (some t) = some (G, none) ∧
      ∀ i j, i < j → j < n → (Adj G.E i j ↔ (i, j) ∈ U)) =
      p ^ U.card * (1 - p) ^ (n * (n - 1) / 2 - U.card) := by
  classical
  refine mean_of_fixed fun t ht => ?_
  rw [skeleton_law o oa p n ht (fun S => if S = U then 1 else 0), Finset.sum_eq_single U]
  · rw [if_pos rfl, mul_one, weight]
  · intro A _ hne; rw [if_neg hne, mul_zero]
  · intro h
    refine absurd (Finset.mem_powerset.2 ?_) h
    rintro ⟨i, j⟩ hij
    exact mem_pairSet.2 (hU _ hij)
  · intro b G hG _
    beta_reduce
    congr 1
    rw [eq_iff_iff, returned o oa hG fun G => ∀ i j, i < j → j < n → (Adj G.E i j ↔ (i, j) ∈ U)]
    constructor
    · intro h
      ext ⟨i, j⟩
      rw [Finset.mem_filter, mem_pairSet]
      constructor
      · rintro ⟨h1, h2⟩; exact (h i j h1.1 h1.2).1 h2
      · intro h1; exact ⟨hU _ h1, (h i j (hU _ h1).1 (hU _ h1).2).2 h1⟩
    · intro h i j hij hj
      rw [← h, Finset.mem_filter, mem_pairSet]
      exact ⟨fun h1 => ⟨⟨hij, hj⟩, h1⟩, fun h1 => h1.2⟩

example : pr (1 / 3) 3 3 (fun b t => ∃ G, directedErdos Sample.order Sample.order 3 b (some t) = some (G, none) ∧
    ∀ i j, i < j → j < 3 → (Adj G.E i j ↔ (i, j) ∈ ({(0, 2), (1, 2)} : Finset (ℕ × ℕ)))) = 2 / 27 := by
  rw [C241_erdos_skeleton Sample.order Sample.order 3 (1 / 3) {(0, 2), (1, 2)} (by decide),
    show ({(0, 2), (1, 2)} : Finset (ℕ × ℕ)).card = 2 from rfl]
  norm_num

/-- C241. For two different nodes, `directed_erdos(n, density=p)` contains the arc from the first to the second with
probability `p / 2`. -/
theorem C241_erdos_arc (n : ℕ) (p : ℝ) {i j : ℕ} (hi : i < n) (hj : j < n) (hij : i ≠ j) :
    pr p (n * (n - 1) / 2) n (fun b t => ∃ G, directedErdos o oa n b (some t) = some (G, none) ∧ (i, j) ∈ G.arcs) =
      p / 2 := by
  classical
  have he : sorted (i, j) ∈ pairSet n := by
    unfold sorted
    dsimp only
    split_ifs with h
    · exact mem_pairSet.2 ⟨h, hj⟩
    · exact mem_pairSet.2 ⟨by omega, hi⟩
  have hfix : ∀ t ∈ permutations n, (coinMean p (n * (n - 1) / 2) fun b =>
      if ∃ G, directedErdos o oa n b (some t) = some (G, none) ∧ (i, j) ∈ G.arcs then (1 : ℝ) else 0) =
      if List.Sublist [i, j] t then p else 0 := by
    intro t ht
    have ht' := mem_permutations.1 ht
    have hl : t.length = n := by rw [ht'.length_eq, List.length_range]
    have hnd : t.Nodup := ht'.nodup_iff.2 List.nodup_range
    have hlin : ∀ b G, directedErdos o oa n b (some t) = some (G, none) → ∀ x y, G.E x y → List.Sublist [x, y] t := by
      intro b G hG x y hxy
      obtain ⟨G', g1, _, _, g4⟩ := erdos_arcs o oa n (perm := some t) (by rintro q ⟨⟩; exact ht') b
      rw [hG] at g1
      injection g1 with g1; injection g1 with g1
      subst g1
      unfold DAG.E at hxy
      rw [g4] at hxy
      obtain ⟨a, ha, he⟩ := Finset.mem_image.1 hxy
      have h1 : a.1 < a.2 ∧ a.2 < n := mem_pairs_range.1 ((chosen_sublist _ _).subset (List.mem_toFinset.1 ha))
      simp only [relabel, Prod.mk.injEq] at he
      rw [← he.1, ← he.2]
      exact getD_sublist h1.1 (hl.symm ▸ h1.2)
    split_ifs with hs
    · have hns : ¬ List.Sublist [j, i] t := by
        intro h
        obtain ⟨a, b, a1, a2, a3, a4⟩ := sublist_getD hs
        obtain ⟨c, d, c1, c2, c3, c4⟩ := sublist_getD h
        have e1 := getD_inj ht' (hl ▸ a1.trans a2) (hl ▸ c2) (a3.trans c4.symm)
        have e2 := getD_inj ht' (hl ▸ a2) (hl ▸ c1.trans c2) (a4.trans c3.symm)
        omega
      rw [skeleton_law o oa p n ht (fun S => if sorted (i, j) ∈ S then 1 else 0), ← pairSet_card]
      · exact sum_mem p he
      · intro b G hG _
        congr 1
        rw [eq_iff_iff, returned o oa hG fun G => (i, j) ∈ G.arcs, Finset.mem_filter]
        have hadj : Adj G.E (sorted (i, j)).1 (sorted (i, j)).2 ↔ Adj G.E i j := by
          unfold sorted
          dsimp only
          split_ifs
          · exact Iff.rfl
          · exact or_comm
        rw [hadj]
        constructor
        · intro h; exact ⟨he, Or.inl h⟩
        · rintro ⟨_, h | h⟩
          · exact h
          · exact absurd (hlin b G hG _ _ h) hns
    · unfold coinMean
      refine Finset.sum_eq_zero fun b _ => ?_
      beta_reduce
      rw [if_neg, mul_zero]
      rintro ⟨G, hG, h⟩
      exact hs (hlin b G hG _ _ h)
  unfold Random.pr Random.mean
  rw [Finset.sum_congr rfl hfix, ← Finset.sum_filter, Finset.sum_const, nsmul_eq_mul]
  have hc := count_before hi hj hij
  have hc' : 2 * (((permutations n).filter fun t => List.Sublist [i, j] t).card : ℝ) = (permutations n).card := by
    exact_mod_cast hc
  have hpos : ((permutations n).card : ℝ) ≠ 0 := Nat.cast_ne_zero.2 (permutations_pos n).ne'
  rw [← hc'] at hpos ⊢
  have hpos' := right_ne_zero_of_mul hpos
  field_simp

example : pr (1 / 3) 6 4 (fun b t => ∃ G, directedErdos Sample.order Sample.order 4 b (some t) = some (G, none) ∧
    (3, 1) ∈ G.arcs) = 1 / 6 := by
  rw [C241_erdos_arc Sample.order Sample.order 4 (1 / 3) (by decide) (by decide) (by decide)]
  norm_num

/-- The number of neighbours of a node in the returned graph. -/
def degreeIn (n v : ℕ) (b : List Bool) (t : List ℕ) : ℝ :=
  match directedErdos o oa n b (some t) with
  | some (G, none) => ((G.neighbors v).card : ℝ)
  | _ => 0

/-- C241. With `exp_nbrs=e` (between 0 and `n - 1`) and no density, for at least two nodes, the density used is such that every node has `e`
neighbours on average. -/
theorem C241_erdos_neighbors {n : ℕ} (hn : 2 ≤ n) {e : ℝ} (he : 0 ≤ e) (he' : e ≤ n - 1) {v : ℕ} (hv : v < n) :
    ∃ p, erdosDensity n none (some e) = .ok p ∧ 0 ≤ p ∧ p ≤ 1 ∧
      mean p (n * (n - 1) / 2) n (degreeIn o oa n v) = e := by
  classical
  have hne : (n : ℝ) - 1 ≠ 0 := by
    have : (2 : ℝ) ≤ n := by exact_mod_cast hn
    intro h; linarith
  refine ⟨e / (n - 1), by unfold erdosDensity; dsimp only; rw [if_neg hne], div_nonneg he (he.trans he'),
    div_le_one_of_le₀ he' (he.trans he'), ?_⟩
  refine mean_of_fixed fun t ht => ?_
  rw [skeleton_law o oa _ n ht (fun S => ∑ w ∈ (Finset.range n).erase v, if sorted (v, w) ∈ S then 1 else 0)]
  · simp only [Finset.mul_sum]
    rw [Finset.sum_comm]
    have : ∀ w ∈ (Finset.range n).erase v, ∑ U ∈ (pairSet n).powerset,
        weight (e / (n - 1)) (n * (n - 1) / 2) U.card * (if sorted (v, w) ∈ U then (1 : ℝ) else 0) = e / (n - 1) := by
      intro w hw
      rw [Finset.mem_erase, Finset.mem_range] at hw
      rw [← pairSet_card]
      refine sum_mem _ ?_
      unfold sorted
      dsimp only
      split_ifs with h
      · exact mem_pairSet.2 ⟨h, hw.2⟩
      · exact mem_pairSet.2 ⟨by omega, hv⟩
    rw [Finset.sum_congr rfl this, Finset.sum_const, Finset.card_erase_of_mem (Finset.mem_range.2 hv), Finset.card_range,
      nsmul_eq_mul, Nat.cast_sub (by omega)]
    push_cast
    field_simp
  · intro b G hG hval
    have h1 : degreeIn o oa n v b t = ((G.neighbors v).card : ℝ) := by
      unfold degreeIn; rw [hG]
    obtain ⟨G', g1, _, g3, _⟩ := erdos_arcs o oa n (perm := some t) (by
      rintro q ⟨⟩; exact mem_permutations.1 ht) b
    have hGG : G = G' := by
      rw [hG] at g1
      injection g1 with g1; injection g1 with g1
    rw [← hGG] at g3
    rw [h1, ← Finset.sum_filter, Finset.sum_const, nsmul_eq_mul, mul_one]
    congr 2
    ext w
    rw [hval.neighbors_iff, Finset.mem_filter, Finset.mem_erase, Finset.mem_range, Finset.mem_filter]
    have hadj : Adj G.E (sorted (v, w)).1 (sorted (v, w)).2 ↔ Adj G.E v w := by
      unfold sorted
      dsimp only
      split_ifs
      · exact Iff.rfl
      · exact or_comm
    rw [hadj]
    constructor
    · intro h
      have hw : w ≠ v := by
        rintro rfl
        rcases h with h | h <;> exact hval.acyclic.irrefl h
      have hwn : w < n := by
        rw [← Finset.mem_range, ← g3]
        rcases h with h | h
        · exact hval.fst_mem _ _ h
        · exact hval.snd_mem _ _ h
      refine ⟨⟨hw, hwn⟩, ?_, ?_⟩
      · unfold sorted
        dsimp only
        split_ifs with h2
        · exact mem_pairSet.2 ⟨h2, hwn⟩
        · exact mem_pairSet.2 ⟨by omega, hv⟩
      · first | exact h | exact h.symm
    · rintro ⟨_, _, h⟩
      first | exact h | exact h.symm

example : ∃ p, erdosDensity 4 none (some 2) = .ok p ∧ 0 ≤ p ∧ p ≤ 1 ∧
    mean p 6 4 (degreeIn Sample.order Sample.order 4 3) = 2 :=
  C241_erdos_neighbors Sample.order Sample.order (by decide) (by norm_num) (by norm_num) (by decide)

/-- With one node, `exp_nbrs` cannot be used: the density is a division by zero. -/
theorem C241_one_node (e : ℝ) : erdosDensity 1 none (some e) = .error .zeroDivision := by
  unfold erdosDensity
  simp

/-- The density passed is used as it is. -/
theorem C241_density (n : ℕ) (d e : Option ℝ) : (∀ p, d = some p → erdosDensity n d e = .ok p) ∧
    (d = none → e = none → erdosDensity n d e = .error .assertion) := by
  constructor
  · rintro p rfl; cases e <;> rfl
  · rintro rfl rfl; rfl

/-- C241. `directed_random_graph` orients the edges of the drawn graph by a uniformly random order of the nodes: a given DAG
with these edges is returned for the orders that are topological orders of it, and only for these. -/
theorem C241_random_graph {n : ℕ} {D : DAG ℕ} (hD : D.Valid) (hn : D.nodes = Finset.range n) {edges : List (ℕ × ℕ)}
    (he : ∀ i j, (i, j) ∈ edges ∨ (j, i) ∈ edges ↔ Adj D.E i j) {t : List ℕ} (ht : t.Perm (List.range n)) :
    (∃ G, directedRandomGraph o oa n edges t = some (G, none) ∧ G.arcs = D.arcs) ↔
      LinearExtension {v | v < n} D.E t := by
  have hmem : ∀ i j, (i, j) ∈ D.arcs → i < n ∧ j < n := by
    intro i j hij
    have h1 := hD.fst_mem i j hij
    have h2 := hD.snd_mem i j hij
    rw [hn, Finset.mem_range] at h1 h2
    exact ⟨h1, h2⟩
  obtain ⟨G, g1, _, g3, g4, g5, g6⟩ := C44_random_graph o oa (n := n) (edges := edges) (by
    rintro ⟨i, j⟩ hij
    have h := (he i j).1 (Or.inl hij)
    rcases h with h | h
    · refine ⟨?_, hmem _ _ h⟩
      intro h'; dsimp only at h'; subst h'; exact hD.acyclic.irrefl h
    · refine ⟨?_, (hmem _ _ h).2, (hmem _ _ h).1⟩
      intro h'; dsimp only at h'; subst h'; exact hD.acyclic.irrefl h) ht
  constructor
  · rintro ⟨G', h1, h2⟩
    rw [g1] at h1
    injection h1 with h1; injection h1 with h1
    subst h1
    have : G.E = D.E := by funext i j; unfold DAG.E; rw [h2]
    rw [← this]; exact g6
  · intro hext
    refine ⟨G, g1, ?_⟩
    have hl : t.length = n := by rw [ht.length_eq, List.length_range]
    have hno : ∀ x y, List.Sublist [x, y] t → ¬ List.Sublist [y, x] t := by
      intro x y h1 h2
      obtain ⟨a, b, a1, a2, a3, a4⟩ := sublist_getD h1
      obtain ⟨c, d, c1, c2, c3, c4⟩ := sublist_getD h2
      have e1 := getD_inj ht (hl ▸ a1.trans a2) (hl ▸ c2) (a3.trans c4.symm)
      have e2 := getD_inj ht (hl ▸ a2) (hl ▸ c1.trans c2) (a4.trans c3.symm)
      omega
    ext ⟨x, y⟩
    constructor
    · intro h
      have h1 : Adj D.E x y := (he x y).1 ((g5 x y).1 (Or.inl h))
      rcases h1 with h1 | h1
      · exact h1
      · exact absurd (hext.before _ _ h1) (hno _ _ (g6.before _ _ h))
    · intro h
      have h1 : Adj G.E x y := (g5 x y).2 ((he x y).2 (Or.inl h))
      rcases h1 with h1 | h1
      · exact h1
      · exact absurd (g6.before _ _ h1) (hno _ _ (hext.before _ _ h))

example : ∃ D : DAG ℕ, D.arcs = {(0, 1)} ∧
    ∃ G, directedRandomGraph Sample.order Sample.order 2 [(1, 0)] [0, 1] = some (G, none) ∧ G.arcs = D.arcs := by
  obtain ⟨D, h1, h2, h3, h4⟩ := new_ok Sample.order Sample.order ∅ ({(0, 1)} : Finset (ℕ × ℕ)) (acyclic_lt (by simp))
  refine ⟨D, h3, (C241_random_graph Sample.order Sample.order h2 (n := 2) (by rw [h4]; rfl) (edges := [(1, 0)])
    (fun i j => ?_) (by decide)).2 ⟨by decide, fun v => ?_, fun x y h => ?_⟩⟩
  · unfold Adj DAG.E
    rw [h3]
    simp only [List.mem_singleton, Finset.mem_singleton, Prod.mk.injEq]
    tauto
  · simp only [List.mem_cons, List.not_mem_nil, or_false, Set.mem_ofPred_eq]; omega
  · unfold DAG.E at h
    rw [h3, Finset.mem_singleton, Prod.mk.injEq] at h
    rw [h.1, h.2]

end Props
