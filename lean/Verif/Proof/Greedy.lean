import Mathlib.NumberTheory.Harmonic.Bounds
import Mathlib.Analysis.SpecialFunctions.Exp
import Verif.Proof.Design

/-! # Optimal and greedy intervention sets -/

namespace Model

universe u
variable {α : Type u} [DecidableEq α]

theorem powerset_sorted {l : List α} (hl : l.Nodup) (rMin : ℕ) (rMax : Option ℕ) :
    (powerset l rMin rMax).Pairwise fun s t => s.card ≤ t.card := by
  unfold powerset
  rw [List.pairwise_map, List.pairwise_flatMap]
  have hc : ∀ r t, t ∈ combinations r l → t.toFinset.card = r := fun r t ht => by
    obtain ⟨h1, h2⟩ := (mem_combinations _ _ _).1 ht
    rw [toFinset_card_sublist hl h1, h2]
  refine ⟨fun r _ => List.Pairwise.imp_of_mem (R := fun _ _ => True) ?_ (List.pairwise_of_forall fun _ _ => trivial), ?_⟩
  · intro s t hs ht _
    rw [hc r s hs, hc r t ht]
  · refine List.Pairwise.imp ?_ (List.pairwise_lt_range' (s := rMin) (n := rMax.getD l.length + 1 - rMin))
    intro r r' hr s hs t ht
    rw [hc r s hs, hc r' t ht]
    exact hr.le

namespace DAG

open Spec

variable {G : DAG α}

theorem mem_foldl_union (items : List (α × PDAG α)) : ∀ (s : Finset (α × α)) (a : α × α),
    a ∈ items.foldl (fun s x => s ∪ x.2.arcs) s ↔ a ∈ s ∨ ∃ x ∈ items, a ∈ x.2.arcs := by
  induction items with
  | nil => simp
  | cons x l ih =>
    intro s a
    rw [List.foldl_cons, ih, Finset.mem_union, List.exists_mem_cons_iff, or_assoc]

/-- The union computed for a nonempty set of candidates is what the essential graph of the set shows. -/
theorem oriented_eq (hG : G.Valid) {T : Set (Set α)} {c : PDAG α} {items : List (α × PDAG α)}
    (h1 : ∀ v, v ∈ G.nodes \ c.dominatedNodes ↔ ∃ P, (v, P) ∈ items)
    (h2 : ∀ v P, (v, P) ∈ items → Knows G (T ∪ {{v}}) P) {S : Finset α} (hS : S ⊆ G.nodes \ c.dominatedNodes)
    (hne : S.Nonempty) :
    (items.filter fun x => x.1 ∈ S).foldl (fun s x => s ∪ x.2.arcs) ∅ = G.dirArcs (T ∪ singles S) := by
  ext ⟨a, b⟩
  rw [mem_foldl_union, dirArcs_singles hG, Finset.mem_union, Finset.mem_biUnion]
  simp only [Finset.notMem_empty, false_or, List.mem_filter, decide_eq_true_eq, Prod.exists]
  constructor
  · rintro ⟨v, P, ⟨hx, hv⟩, ha⟩
    rw [(h2 v P hx).arcs] at ha
    exact Or.inr ⟨v, hv, ha⟩
  · have key : ∀ v ∈ S, (a, b) ∈ G.dirArcs (T ∪ {{v}}) → ∃ v P, ((v, P) ∈ items ∧ v ∈ S) ∧ (a, b) ∈ P.arcs := by
      intro v hv hab
      obtain ⟨P, hP⟩ := (h1 v).1 (hS hv)
      exact ⟨v, P, ⟨hP, hv⟩, by rw [(h2 v P hP).arcs]; exact hab⟩
    rintro (h | ⟨v, hv, h⟩)
    · obtain ⟨v, hv⟩ := hne
      exact key v hv (dirArcs_mono Set.subset_union_left h)
    · exact key v hv h

theorem startCpdag_some (d : DesignOracle α) (c : PDAG α) : startCpdag d G (some c) = pure c := rfl

theorem singles_union (T : Set (Set α)) (v : α) (S : Finset α) :
    T ∪ singles (insert v S) = (T ∪ {{v}}) ∪ singles S := by
  rw [singles_insert, Set.union_assoc]

/-- What `optimal_fully_orienting_single_node_interventions` returns for an essential graph `c`. -/
theorem optimal_spec (hG : G.Valid) (d : DesignOracle α) {T : Set (Set α)} {c : PDAG α} (h : Knows G T c) :
    ∃ r, (optimalInterventions d G (some c)).run = some (.ok r) ∧ (c.edges.card = 0 → r = none) ∧
      (c.edges.card ≠ 0 → ∃ S, r = some S ∧ S ⊆ G.nodes ∧ Verifies G.E T S ∧
        ∀ S', Verifies G.E T S' → S.card ≤ S'.card) := by
  obtain ⟨items, hi, h1, h2⟩ := nodes2icpdags_spec hG d 0 h
  refine ⟨_, by
    unfold optimalInterventions
    rw [startCpdag_some, pure_bind]
    simp [hi, Except.map]
    rfl, ?_, ?_⟩
  · intro h0
    have : G.nodes \ c.dominatedNodes = ∅ := by
      ext v
      simp only [Finset.mem_sdiff, Finset.notMem_empty, iff_false, not_and, not_not]
      intro hv
      refine Finset.mem_filter.2 ⟨by rw [h.shows.nodes]; exact hv, Or.inl ?_⟩
      rw [Finset.card_eq_zero, Finset.eq_empty_iff_forall_notMem]
      intro w hw
      rw [h.shows.cons.undirected_iff, Finset.card_eq_zero.1 h0] at hw
      simp at hw
    have hl : d.nodes.ord 0 (G.nodes \ c.dominatedNodes) = [] := by
      rw [List.eq_nil_iff_forall_not_mem]
      intro v hv
      rw [d.nodes.mem_iff, this] at hv
      simp at hv
    rw [hl]
    rfl
  · intro h0
    have hl : (d.nodes.ord 0 (G.nodes \ c.dominatedNodes)).toFinset = G.nodes \ c.dominatedNodes := by
      ext v; rw [List.mem_toFinset, d.nodes.mem_iff]
    obtain ⟨_, hps⟩ := powerset_spec (d.nodes.nodup 0 (G.nodes \ c.dominatedNodes)) 1 none
    have hsort := powerset_sorted (d.nodes.nodup 0 (G.nodes \ c.dominatedNodes)) 1 none
    rw [hl] at hps
    generalize powerset (d.nodes.ord 0 (G.nodes \ c.dominatedNodes)) 1 none = ps at hps hsort
    -- the test
    have htest : ∀ S ∈ ps, (((items.filter fun x : α × PDAG α => x.1 ∈ S).foldl (fun (s : Finset (α × α)) x => s ∪ x.2.arcs) ∅).card =
        c.edges.card + c.arcs.card ↔ Verifies G.E T S) := by
      intro S hS
      obtain ⟨h3, h4, _⟩ := (hps S).1 hS
      rw [oriented_eq hG h1 h2 h3 (Finset.card_pos.1 h4), h.card hG, verifies_iff_card hG]
    -- every verifying set has a counterpart in the list
    have hpush : ∀ S', Verifies G.E T S' → ∃ S'' ∈ ps, Verifies G.E T S'' ∧ S''.card ≤ S'.card := by
      intro S' hS'
      choose f hf1 hf2 using exists_undominated hG h h0
      have hne : S'.Nonempty := by
        rw [Finset.nonempty_iff_ne_empty]
        rintro rfl
        rw [verifies_iff_card hG, singles_empty, Set.union_empty, ← h.arcs, ← h.card hG] at hS'
        omega
      refine ⟨S'.image f, (hps _).2 ⟨?_, ?_, by simp⟩, ?_, Finset.card_image_le⟩
      · intro x hx
        obtain ⟨v, _, rfl⟩ := Finset.mem_image.1 hx
        exact hf1 v
      · exact Finset.card_pos.2 (hne.image f)
      · rw [verifies_iff_meek hG.acyclic (E_mem hG)] at hS' ⊢
        intro a b hab
        rcases (meek_singles hG.acyclic T S').1 (hS' a b hab) with h3 | ⟨v, hv, h3⟩
        · exact (meek_singles hG.acyclic T _).2 (Or.inl h3)
        · exact (meek_singles hG.acyclic T _).2 (Or.inr ⟨f v, Finset.mem_image_of_mem f hv,
            mem_dirArcs.1 (hf2 v (mem_dirArcs.2 h3))⟩)
    -- all nodes together verify
    have hall : Verifies G.E T G.nodes := by
      rw [verifies_iff hG.acyclic (E_mem hG)]
      exact fun i j hc => Or.inr (Or.inl (E_mem hG _ _ hc.1).1)
    obtain ⟨S0, hS0, hv0, _⟩ := hpush _ hall
    cases hf : ps.find? fun ss => decide
        (((items.filter fun x : α × PDAG α => x.1 ∈ ss).foldl (fun (s : Finset (α × α)) x => s ∪ x.2.arcs) ∅).card = c.edges.card + c.arcs.card) with
    | none =>
      exfalso
      rw [List.find?_eq_none] at hf
      exact hf S0 hS0 (decide_eq_true ((htest S0 hS0).2 hv0))
    | some S =>
      refine ⟨S, rfl, ?_, ?_, ?_⟩
      · exact ((hps S).1 (List.mem_of_find?_eq_some hf)).1.trans Finset.sdiff_subset
      · have := List.find?_some hf
        exact (htest S (List.mem_of_find?_eq_some hf)).1 (of_decide_eq_true this)
      · intro S' hS'
        obtain ⟨S'', h3, h4, h5⟩ := hpush S' hS'
        refine le_trans ?_ h5
        obtain ⟨_, as, bs, hlist, has⟩ := List.find?_eq_some_iff_append.1 hf
        rw [hlist] at h3 hsort
        rcases List.mem_append.1 h3 with h6 | h6
        · have := has S'' h6
          have hmem : S'' ∈ ps := by rw [hlist]; exact List.mem_append_left _ h6
          rw [decide_eq_true ((htest S'' hmem).2 h4)] at this
          simp at this
        · rcases List.mem_cons.1 h6 with rfl | h6
          · exact le_rfl
          · exact (List.pairwise_cons.1 (List.pairwise_append.1 hsort).2.1).1 _ h6

/-! ## Greedy selection -/

omit [DecidableEq α] in
theorem maxItem_spec : ∀ (l : List (α × PDAG α)), l ≠ [] → ∃ x, maxItem l = some x ∧ x ∈ l ∧
    ∀ y ∈ l, y.2.arcs.card ≤ x.2.arcs.card := by
  have key : ∀ (l : List (α × PDAG α)) (b : α × PDAG α),
      let m := l.foldl (fun b x => if b.2.arcs.card < x.2.arcs.card then x else b) b
      (m = b ∨ m ∈ l) ∧ b.2.arcs.card ≤ m.2.arcs.card ∧ ∀ y ∈ l, y.2.arcs.card ≤ m.2.arcs.card := by
    intro l
    induction l with
    | nil => intro b; simp
    | cons x l ih =>
      intro b
      obtain ⟨h1, h2, h3⟩ := ih (if b.2.arcs.card < x.2.arcs.card then x else b)
      simp only [List.foldl_cons]
      refine ⟨?_, ?_, ?_⟩
      · rcases h1 with h1 | h1
        · by_cases hlt : b.2.arcs.card < x.2.arcs.card
          · rw [h1, if_pos hlt]; exact Or.inr List.mem_cons_self
          · rw [h1, if_neg hlt]; exact Or.inl rfl
        · exact Or.inr (List.mem_cons_of_mem _ h1)
      · refine le_trans ?_ h2; split_ifs with hlt
        · exact hlt.le
        · exact le_rfl
      · intro y hy
        rcases List.mem_cons.1 hy with rfl | hy
        · refine le_trans ?_ h2; split_ifs with hlt
          · exact le_rfl
          · exact not_lt.1 hlt
        · exact h3 y hy
  intro l hl
  cases l with
  | nil => exact absurd rfl hl
  | cons x l =>
    obtain ⟨h1, h2, h3⟩ := key l x
    refine ⟨_, rfl, ?_, ?_⟩
    · rcases h1 with h1 | h1
      · rw [h1]; exact List.mem_cons_self
      · exact List.mem_cons_of_mem _ h1
    · intro y hy
      rcases List.mem_cons.1 hy with rfl | hy
      · exact h2
      · exact h3 y hy

/-- One greedy step: the chosen node orients as many arcs as any node does. -/
theorem greedy_step (hG : G.Valid) (d : DesignOracle α) (n : ℕ) {T : Set (Set α)} {c : PDAG α} (h : Knows G T c)
    (h0 : c.edges.card ≠ 0) : ∃ items v P, (nodes2icpdags d n G c).run = some (.ok items) ∧
      maxItem items = some (v, P) ∧ v ∈ G.nodes ∧ Knows G (T ∪ {{v}}) P ∧
      ∀ w, (G.dirArcs (T ∪ {{w}})).card ≤ P.arcs.card := by
  obtain ⟨items, hi, h1, h2⟩ := nodes2icpdags_spec hG d n h
  have hbig : ∀ w, ∃ v P, (v, P) ∈ items ∧ (G.dirArcs (T ∪ {{w}})).card ≤ P.arcs.card := by
    intro w
    obtain ⟨v, hv, hs⟩ := exists_undominated hG h h0 w
    obtain ⟨P, hP⟩ := (h1 v).1 hv
    exact ⟨v, P, hP, by rw [(h2 v P hP).arcs]; exact Finset.card_le_card hs⟩
  have hne : items ≠ [] := by
    rintro rfl
    obtain ⟨e, he⟩ := Finset.card_pos.1 (Nat.pos_of_ne_zero h0)
    obtain ⟨i, j, _, rfl⟩ := h.shows.cons.edge_pair e he
    obtain ⟨v, P, hP, _⟩ := hbig i
    simp at hP
  obtain ⟨⟨v, P⟩, h3, h4, h5⟩ := maxItem_spec items hne
  refine ⟨items, v, P, hi, h3, (Finset.mem_sdiff.1 ((h1 v).2 ⟨P, h4⟩)).1, h2 v P h4, fun w => ?_⟩
  obtain ⟨v', P', hP', hle⟩ := hbig w
  exact hle.trans (h5 _ hP')

/-- What the returned lists mean. -/
structure GreedyTrace (G : DAG α) (T : Set (Set α)) (ivs : List (Option α)) (gs : List (PDAG α)) : Prop where
  len : ivs.length = gs.length
  knows : ∀ (k : ℕ) (P : PDAG α), gs[k]? = some P → Knows G (T ∪ singles (chosen (ivs.take (k + 1)))) P
  best : ∀ (k : ℕ) (v : α) (P : PDAG α), ivs[k]? = some (some v) → gs[k]? = some P → v ∈ G.nodes ∧
    ∀ w, (G.dirArcs (T ∪ singles (chosen (ivs.take k)) ∪ {{w}})).card ≤ P.arcs.card
  stop : ∀ (k : ℕ) (P : PDAG α), ivs[k]? = some none → gs[k]? = some P → P.edges.card = 0

theorem chosen_cons (v : α) (ivs : List (Option α)) : chosen (some v :: ivs) = insert v (chosen ivs) := by
  simp [chosen]

theorem GreedyTrace.nil (G : DAG α) (T : Set (Set α)) : GreedyTrace G T [] [] := by
  constructor <;> simp

theorem GreedyTrace.cons {T : Set (Set α)} {v : α} {P : PDAG α} {ivs : List (Option α)} {gs : List (PDAG α)}
    (hv : v ∈ G.nodes) (hP : Knows G (T ∪ {{v}}) P) (hb : ∀ w, (G.dirArcs (T ∪ {{w}})).card ≤ P.arcs.card)
    (h : GreedyTrace G (T ∪ {{v}}) ivs gs) : GreedyTrace G T (some v :: ivs) (P :: gs) := by
  constructor
  · simp [h.len]
  · intro k Q hQ
    rw [List.take_succ_cons, chosen_cons, singles_union]
    cases k with
    | zero =>
      simp only [List.getElem?_cons_zero, Option.some.injEq] at hQ
      subst hQ
      simpa [chosen, singles_empty] using hP
    | succ k =>
      rw [List.getElem?_cons_succ] at hQ
      exact h.knows k Q hQ
  · intro k v' Q hv' hQ
    cases k with
    | zero =>
      simp only [List.getElem?_cons_zero, Option.some.injEq] at hQ hv'
      subst hQ hv'
      exact ⟨hv, by simpa [chosen, singles_empty] using hb⟩
    | succ k =>
      rw [List.getElem?_cons_succ] at hQ hv'
      rw [List.take_succ_cons, chosen_cons, singles_union]
      exact h.best k v' Q hv' hQ
  · intro k Q hv' hQ
    cases k with
    | zero => simp at hv'
    | succ k =>
      rw [List.getElem?_cons_succ] at hQ hv'
      exact h.stop k Q hv' hQ

theorem chosen_replicate (m k : ℕ) : chosen ((List.replicate m (none : Option α)).take k) = ∅ := by
  simp [chosen]

theorem GreedyTrace.rest {T : Set (Set α)} {c : PDAG α} (h : Knows G T c) (h0 : c.edges.card = 0) (m : ℕ) :
    GreedyTrace G T (List.replicate m none) (List.replicate m c) := by
  constructor
  · simp
  · intro k P hP
    rw [chosen_replicate, singles_empty, Set.union_empty]
    have := List.eq_of_mem_replicate (List.mem_of_getElem? hP)
    rw [this]; exact h
  · intro k v P hv
    have := List.eq_of_mem_replicate (List.mem_of_getElem? hv)
    simp at this
  · intro k P _ hP
    have := List.eq_of_mem_replicate (List.mem_of_getElem? hP)
    rw [this]; exact h0

theorem greedySingle_done (d : DesignOracle α) (n : ℕ) {c : PDAG α} (h0 : c.edges.card = 0) (num : ℤ) :
    greedySingle d n G c num = pure (List.replicate num.toNat none, List.replicate num.toNat c) := by
  rw [greedySingle, if_pos h0]

theorem greedySingle_one {d : DesignOracle α} {n : ℕ} {c : PDAG α} (h0 : c.edges.card ≠ 0)
    {items : List (α × PDAG α)} (hi : (nodes2icpdags d n G c).run = some (.ok items)) {v : α} {P : PDAG α}
    (hm : maxItem items = some (v, P)) : (greedySingle d n G c 1).run = some (.ok ([some v], [P])) := by
  rw [greedySingle, if_neg h0]
  simp [ExceptT.run_bind, hi, hm]

theorem greedySingle_next {d : DesignOracle α} {n : ℕ} {c : PDAG α} (h0 : c.edges.card ≠ 0)
    {items : List (α × PDAG α)} (hi : (nodes2icpdags d n G c).run = some (.ok items)) {v : α} {P : PDAG α}
    (hm : maxItem items = some (v, P)) {num : ℤ} (hn : num ≠ 1) {ivs : List (Option α)} {gs : List (PDAG α)}
    (hr : (greedySingle d (n + 1) G P (num - 1)).run = some (.ok (ivs, gs))) :
    (greedySingle d n G c num).run = some (.ok (some v :: ivs, P :: gs)) := by
  rw [greedySingle, if_neg h0]
  simp [ExceptT.run_bind, hi, hm, hn, hr, Except.map]

/-- The gain of the best node is at least the average over any set of nodes. -/
theorem gain (hG : G.Valid) {T : Set (Set α)} {r : ℕ} (hb : ∀ w, (G.dirArcs (T ∪ {{w}})).card ≤ r) (S : Finset α) :
    ((G.dirArcs (T ∪ singles S)).card : ℝ) - (G.dirArcs T).card ≤ S.card * ((r : ℝ) - (G.dirArcs T).card) := by
  have hsub : ∀ w, G.dirArcs T ⊆ G.dirArcs (T ∪ {{w}}) := fun w => dirArcs_mono Set.subset_union_left
  have h1 : G.dirArcs (T ∪ singles S) ⊆
      G.dirArcs T ∪ S.biUnion fun v => G.dirArcs (T ∪ {{v}}) \ G.dirArcs T := by
    rw [dirArcs_singles hG]
    intro a ha
    rw [Finset.mem_union, Finset.mem_biUnion] at ha ⊢
    by_cases h : a ∈ G.dirArcs T
    · exact Or.inl h
    · exact Or.inr ((ha.resolve_left h).imp fun v hv => ⟨hv.1, Finset.mem_sdiff.2 ⟨hv.2, h⟩⟩)
  have h2 : (G.dirArcs (T ∪ singles S)).card ≤ (G.dirArcs T).card + S.card * (r - (G.dirArcs T).card) := by
    refine (Finset.card_le_card h1).trans ((Finset.card_union_le _ _).trans (Nat.add_le_add_left ?_ _))
    refine Finset.card_biUnion_le.trans ?_
    rw [← smul_eq_mul, ← Finset.sum_const]
    refine Finset.sum_le_sum fun v _ => ?_
    rw [Finset.card_sdiff_of_subset (hsub v)]
    exact Nat.sub_le_sub_right (hb v) _
  have h3 : (G.dirArcs T).card ≤ r := by
    by_cases hα : Nonempty α
    · obtain ⟨w⟩ := hα
      exact (Finset.card_le_card (hsub w)).trans (hb w)
    · have : G.dirArcs T = ∅ := by
        ext ⟨a, _⟩; exact absurd ⟨a⟩ hα
      rw [this]; simp
  have h4 : ((G.dirArcs (T ∪ singles S)).card : ℝ) ≤
      (G.dirArcs T).card + S.card * ((r : ℝ) - (G.dirArcs T).card) := by
    have : ((G.dirArcs (T ∪ singles S)).card : ℝ) ≤
        (((G.dirArcs T).card + S.card * (r - (G.dirArcs T).card) : ℕ) : ℝ) := by exact_mod_cast h2
    rw [Nat.cast_add, Nat.cast_mul, Nat.cast_sub h3] at this
    exact this
  linarith

omit [DecidableEq α] in
theorem union_swap (T : Set (Set α)) (v : α) (S : Finset α) :
    T ∪ singles S ⊆ T ∪ {{v}} ∪ singles S :=
  Set.union_subset_union_left _ Set.subset_union_left

/-- `greedy_optimal_single_node_intervention` for a positive number of interventions. -/
theorem greedySingle_spec (hG : G.Valid) (d : DesignOracle α) (S : Finset α) {N : ℕ} (hN : 0 < N) (hS : S.card ≤ N)
    (O : ℝ) : ∀ (m n : ℕ) (T : Set (Set α)) (c : PDAG α), Knows G T c →
      O ≤ (G.dirArcs (T ∪ singles S)).card →
      ∃ ivs gs P, (greedySingle d n G c (m + 1 : ℕ)).run = some (.ok (ivs, gs)) ∧ GreedyTrace G T ivs gs ∧
        ivs.length = m + 1 ∧ gs[m]? = some P ∧
        O - P.arcs.card ≤ (1 - 1 / N : ℝ) ^ (m + 1) * (O - c.arcs.card) := by
  have hq0 : (0 : ℝ) ≤ 1 - 1 / N := by
    have : (1 : ℝ) / N ≤ 1 := by
      rw [div_le_one (by exact_mod_cast hN)]; exact_mod_cast hN
    linarith
  have hq1 : (1 - 1 / N : ℝ) ≤ 1 := by
    have : (0 : ℝ) ≤ 1 / N := by positivity
    linarith
  intro m
  induction m with
  | zero =>
    intro n T c h hO
    by_cases h0 : c.edges.card = 0
    · refine ⟨_, _, c, by rw [greedySingle_done d n h0]; rfl, GreedyTrace.rest h h0 _, by simp, by simp, ?_⟩
      have hle : O ≤ c.arcs.card := by
        have h1 := h.card hG
        have h2 := Finset.card_le_card (dirArcs_sub (G := G) (T ∪ singles S))
        have h3 : (G.dirArcs (T ∪ singles S)).card ≤ c.arcs.card := by omega
        exact hO.trans (by exact_mod_cast h3)
      have hp := pow_le_one₀ hq0 hq1 (n := 0 + 1)
      have hp0 := pow_nonneg hq0 (0 + 1)
      nlinarith
    · obtain ⟨items, v, P, hi, hm, hv, hP, hb⟩ := greedy_step hG d n h h0
      refine ⟨_, _, P, greedySingle_one h0 hi hm, GreedyTrace.cons hv hP hb (GreedyTrace.nil _ _), by simp, by simp, ?_⟩
      have hg := gain hG hb S
      rw [← h.arcs] at hg
      have hmono : (c.arcs.card : ℝ) ≤ P.arcs.card := by
        rw [h.arcs, hP.arcs]; exact_mod_cast Finset.card_le_card (dirArcs_mono Set.subset_union_left)
      have hNR : (0 : ℝ) < N := by exact_mod_cast hN
      have hSN : (S.card : ℝ) ≤ N := by exact_mod_cast hS
      have h1 : O - c.arcs.card ≤ N * ((P.arcs.card : ℝ) - c.arcs.card) := by nlinarith
      have h2 : (O - c.arcs.card) / N ≤ (P.arcs.card : ℝ) - c.arcs.card := by
        rw [div_le_iff₀ hNR]; linarith
      have : (1 - 1 / N : ℝ) ^ (0 + 1) * (O - c.arcs.card) = (O - c.arcs.card) - (O - c.arcs.card) / N := by ring
      rw [this]; linarith
  | succ m ih =>
    intro n T c h hO
    by_cases h0 : c.edges.card = 0
    · refine ⟨_, _, c, by rw [greedySingle_done d n h0]; rfl, GreedyTrace.rest h h0 _,
        by rw [List.length_replicate]; exact Int.toNat_natCast _, ?_, ?_⟩
      · rw [List.getElem?_replicate_of_lt]
        rw [Int.toNat_natCast]; omega
      have hle : O ≤ c.arcs.card := by
        have h1 := h.card hG
        have h2 := Finset.card_le_card (dirArcs_sub (G := G) (T ∪ singles S))
        have h3 : (G.dirArcs (T ∪ singles S)).card ≤ c.arcs.card := by omega
        exact hO.trans (by exact_mod_cast h3)
      have hp := pow_le_one₀ hq0 hq1 (n := m + 1 + 1)
      have hp0 := pow_nonneg hq0 (m + 1 + 1)
      nlinarith
    · obtain ⟨items, v, P, hi, hm, hv, hP, hb⟩ := greedy_step hG d n h h0
      obtain ⟨ivs, gs, Q, hr, htr, hlen, hQ, hbound⟩ := ih (n + 1) (T ∪ {{v}}) P hP
        (hO.trans (by exact_mod_cast Finset.card_le_card (dirArcs_mono (union_swap T v S))))
      refine ⟨some v :: ivs, P :: gs, Q, greedySingle_next h0 hi hm (by push_cast; omega) (by
        rw [show ((m + 1 + 1 : ℕ) : ℤ) - 1 = ((m + 1 : ℕ) : ℤ) by push_cast; ring]; exact hr),
        GreedyTrace.cons hv hP hb htr, by simp [hlen], by simpa using hQ, hbound.trans ?_⟩
      have hg := gain hG hb S
      rw [← h.arcs] at hg
      have hmono : (c.arcs.card : ℝ) ≤ P.arcs.card := by
        rw [h.arcs, hP.arcs]; exact_mod_cast Finset.card_le_card (dirArcs_mono Set.subset_union_left)
      have hNR : (0 : ℝ) < N := by exact_mod_cast hN
      have hSN : (S.card : ℝ) ≤ N := by exact_mod_cast hS
      have h1 : O - c.arcs.card ≤ N * ((P.arcs.card : ℝ) - c.arcs.card) := by nlinarith
      have h2 : (O - c.arcs.card) / N ≤ (P.arcs.card : ℝ) - c.arcs.card := by
        rw [div_le_iff₀ hNR]; linarith
      have h3 : O - P.arcs.card ≤ (1 - 1 / N : ℝ) * (O - c.arcs.card) := by
        have : (1 - 1 / N : ℝ) * (O - c.arcs.card) = (O - c.arcs.card) - (O - c.arcs.card) / N := by ring
        rw [this]; linarith
      rw [pow_succ (1 - 1 / N : ℝ) (m + 1), mul_assoc]
      exact mul_le_mul_of_nonneg_left h3 (pow_nonneg hq0 _)

/-! ## Greedy selection until everything is oriented -/

theorem harmonic_diff {k k' : ℕ} (hk : k' ≤ k) (h0 : 0 < k) :
    ((k : ℚ) - k') / k ≤ harmonic k - harmonic k' := by
  induction k with
  | zero => omega
  | succ k ih =>
    rcases Nat.eq_or_lt_of_le hk with h | h
    · subst h; simp
    · have hk' : k' ≤ k := by omega
      rw [harmonic_succ]
      by_cases hk0 : k = 0
      · subst hk0
        have : k' = 0 := by omega
        subst this
        simp
      · have := ih hk' (by omega)
        have hkq : (0 : ℚ) < k := by exact_mod_cast Nat.pos_of_ne_zero hk0
        have h2 : ((k : ℚ) - k') / (k + 1) ≤ ((k : ℚ) - k') / k := by
          apply div_le_div_of_nonneg_left _ hkq (by linarith)
          have : (k' : ℚ) ≤ k := by exact_mod_cast hk'
          linarith
        have h3 : (((k + 1 : ℕ) : ℚ) - k') / ((k + 1 : ℕ) : ℚ) = ((k : ℚ) - k') / (k + 1) + ((k + 1 : ℕ) : ℚ)⁻¹ := by
          push_cast
          field_simp
          ring
        rw [h3]; linarith

/-- A greedy step orients at least one more edge. -/
theorem greedy_lt (hG : G.Valid) {T : Set (Set α)} {c P : PDAG α} {v : α} (h : Knows G T c) (h0 : c.edges.card ≠ 0)
    (hP : Knows G (T ∪ {{v}}) P) (hb : ∀ w, (G.dirArcs (T ∪ {{w}})).card ≤ P.arcs.card) :
    P.edges.card < c.edges.card := by
  have hall : Verifies G.E T G.nodes := by
    rw [verifies_iff hG.acyclic (E_mem hG)]
    exact fun i j hc => Or.inr (Or.inl (E_mem hG _ _ hc.1).1)
  have h1 := gain hG hb G.nodes
  rw [(verifies_iff_card hG T _).1 hall, ← h.arcs] at h1
  have h2 : (c.edges.card : ℝ) + c.arcs.card = G.arcs.card := by exact_mod_cast h.card hG
  have h4 := h.card hG
  have h5 := hP.card hG
  have h6 : c.arcs.card ≤ P.arcs.card := by
    rw [h.arcs, hP.arcs]; exact Finset.card_le_card (dirArcs_mono Set.subset_union_left)
  refine lt_of_le_of_ne (by omega) fun he => ?_
  have h7 : P.arcs.card = c.arcs.card := by omega
  rw [h7, sub_self, mul_zero] at h1
  have : (0 : ℝ) < c.edges.card := by exact_mod_cast Nat.pos_of_ne_zero h0
  linarith

/-- With a number that is not positive, the recursion only stops when everything is oriented. -/
theorem greedySingle_nonpos (hG : G.Valid) (d : DesignOracle α) : ∀ (K n : ℕ) (T : Set (Set α)) (c : PDAG α) (num : ℤ),
    Knows G T c → c.edges.card = K → num ≤ 0 → ∃ ivs gs, (greedySingle d n G c num).run = some (.ok (ivs, gs)) ∧
      GreedyTrace G T ivs gs ∧ (gs.getLast?.getD c).edges = ∅ := by
  intro K
  induction K using Nat.strong_induction_on with
  | h K ih =>
    intro n T c num h hK hnum
    by_cases h0 : c.edges.card = 0
    · refine ⟨_, _, by rw [greedySingle_done d n h0]; rfl, GreedyTrace.rest h h0 _, ?_⟩
      have : num.toNat = 0 := by omega
      simpa [this] using Finset.card_eq_zero.1 h0
    · obtain ⟨items, v, P, hi, hm, hv, hP, hb⟩ := greedy_step hG d n h h0
      obtain ⟨ivs, gs, hr, htr, hlast⟩ := ih _ (hK ▸ greedy_lt hG h h0 hP hb) (n + 1) (T ∪ {{v}}) P (num - 1) hP rfl
        (by omega)
      refine ⟨_, _, greedySingle_next h0 hi hm (by omega) hr, GreedyTrace.cons hv hP hb htr, ?_⟩
      cases hgs : gs with
      | nil => rw [hgs] at hlast; simpa using hlast
      | cons a l =>
        rw [hgs] at hlast
        rw [List.getLast?_cons_cons]
        rw [List.getLast?_eq_some_getLast (List.cons_ne_nil a l)] at hlast ⊢
        exact hlast

theorem greedyLoop_spec (hG : G.Valid) (d : DesignOracle α) : ∀ (K n : ℕ) (T : Set (Set α)) (c : PDAG α)
    (ivs : List (Option α)) (gs : List (PDAG α)), Knows G T c → c.edges.card = K →
      ∃ ivs' gs', (greedyLoop d n G c ivs gs).run = some (.ok (ivs ++ ivs', gs ++ gs')) ∧ GreedyTrace G T ivs' gs' ∧
        (∀ v ∈ ivs', v ≠ none) ∧ (gs'.getLast?.getD c).edges = ∅ ∧
        ∀ S, Verifies G.E T S → (ivs'.length : ℚ) ≤ S.card * harmonic K := by
  intro K
  induction K using Nat.strong_induction_on with
  | h K ih =>
    intro n T c ivs gs h hK
    by_cases h0 : c.edges.card = 0
    · refine ⟨[], [], ?_, GreedyTrace.nil _ _, by simp, by simpa using Finset.card_eq_zero.1 h0, ?_⟩
      · rw [greedyLoop, if_neg (by simpa using h0)]
        simp
      · intro S _
        rw [← hK, h0]; simp
    · obtain ⟨items, v, P, hi, hm, hv, hP, hb⟩ := greedy_step hG d n h h0
      have hg : ∀ S, Verifies G.E T S → (K : ℝ) ≤ S.card * ((K : ℝ) - P.edges.card) := by
        intro S hS
        have h1 := gain hG hb S
        rw [(verifies_iff_card hG T S).1 hS, ← h.arcs] at h1
        have h2 : (c.edges.card : ℝ) + c.arcs.card = G.arcs.card := by exact_mod_cast h.card hG
        have h3 : (P.edges.card : ℝ) + P.arcs.card = G.arcs.card := by exact_mod_cast hP.card hG
        rw [← hK]
        have h4 : (c.edges.card : ℝ) - P.edges.card = P.arcs.card - c.arcs.card := by linarith
        rw [h4]; linarith
      have hlt : P.edges.card < K := hK ▸ greedy_lt hG h h0 hP hb
      have hle : P.edges.card ≤ K := hlt.le
      obtain ⟨ivs', gs', hr, htr, hne, hlast, hbd⟩ := ih _ hlt (n + 1) (T ∪ {{v}}) P (ivs ++ [some v]) (gs ++ [P]) hP rfl
      refine ⟨some v :: ivs', P :: gs', ?_, GreedyTrace.cons hv hP hb htr, ?_, ?_, ?_⟩
      · rw [greedyLoop, if_pos h0]
        have h1 := greedySingle_one h0 hi hm
        simp [ExceptT.run_bind, h1, hr]
      · intro w hw
        rcases List.mem_cons.1 hw with rfl | hw
        · simp
        · exact hne w hw
      · cases hgs : gs' with
        | nil => rw [hgs] at hlast; simpa using hlast
        | cons a l =>
          rw [hgs] at hlast
          rw [List.getLast?_cons_cons]
          rw [List.getLast?_eq_some_getLast (List.cons_ne_nil a l)] at hlast ⊢
          exact hlast
      · intro S hS
        have hS' : Verifies G.E (T ∪ {{v}}) S := by
          rw [verifies_iff_meek hG.acyclic (E_mem hG)] at hS ⊢
          exact fun a b hab => mem_dirArcs.1 (dirArcs_mono (union_swap T v S) (mem_dirArcs.2 (hS a b hab)))
        have h1 := hbd S hS'
        have h2 := hg S hS
        have h2' : (K : ℚ) ≤ S.card * ((K : ℚ) - P.edges.card) := by exact_mod_cast h2
        have hKq : (0 : ℚ) < K := by exact_mod_cast (by omega : 0 < K)
        have h3 := harmonic_diff hle (by omega)
        have h4 : (1 : ℚ) ≤ S.card * (((K : ℚ) - P.edges.card) / K) := by
          rw [← mul_div_assoc, le_div_iff₀ hKq]; linarith
        have h5 : (S.card : ℚ) * (((K : ℚ) - P.edges.card) / K) ≤ S.card * (harmonic K - harmonic P.edges.card) :=
          mul_le_mul_of_nonneg_left h3 (by positivity)
        push_cast [List.length_cons]
        linarith

end DAG

end Model
