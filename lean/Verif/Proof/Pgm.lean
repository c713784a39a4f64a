import Verif.Spec.Pgm
import Verif.Spec.Discrete
import Verif.Proof.DiscreteIv

/-! # `to_pgm` and `from_pgm` -/

namespace Model

set_option linter.unusedSectionVars false
variable {α β R : Type} [DecidableEq α] [DecidableEq β]
open Spec
open scoped NNReal

/-! ## Positions -/

theorem ravel_lt {dims idx : List ℕ} (h : List.Forall₂ (· < ·) idx dims) : ravel dims idx < dims.prod := by
  induction h with
  | nil => simp [ravel]
  | @cons i d is ds h _ ih =>
    rw [ravel, List.prod_cons]
    calc i * ds.prod + ravel ds is < i * ds.prod + ds.prod := by omega
      _ = (i + 1) * ds.prod := by ring
      _ ≤ d * ds.prod := Nat.mul_le_mul_right _ h

theorem unravel_ravel {dims idx : List ℕ} (h : List.Forall₂ (· < ·) idx dims) : unravel dims (ravel dims idx) = idx := by
  induction h with
  | nil => rfl
  | @cons i d is ds h hs ih =>
    have hl := ravel_lt hs
    rw [ravel, unravel, Nat.mul_comm, Nat.mul_add_div (by omega), Nat.div_eq_of_lt hl, Nat.mul_add_mod, Nat.mod_eq_of_lt hl, ih, add_zero]

theorem ravel_snoc {dims idx : List ℕ} (h : idx.length = dims.length) (K x : ℕ) :
    ravel (dims ++ [K]) (idx ++ [x]) = ravel dims idx * K + x := by
  induction dims generalizing idx with
  | nil =>
    rw [List.length_nil, List.length_eq_zero_iff] at h
    subst h; simp [ravel]
  | cons d ds ih =>
    cases idx with
    | nil => simp at h
    | cons i is =>
      rw [List.cons_append, List.cons_append, ravel, ravel, ih (by simpa using h), List.prod_append, List.prod_singleton]
      ring

/-- The table of a node, as `TabularCPD` stores it. -/
theorem tabular_spec {t : Tensor ℝ≥0} {dims : List ℕ} {K : ℕ} (ht : t.shape = dims ++ [K]) (hK : 0 < K) (ev : List β)
    (hev : ev.length = dims.length) :
    ∃ t1 t2, (t.rows : Except (Exn α) _) = .ok t1 ∧ (tabularCpd K t1.transpose ev dims : Except (Exn α) _) = .ok (ev, t2) ∧
      t2.shape = K :: dims ∧ ∀ x ps, x < K → List.Forall₂ (· < ·) ps dims → t2.val (x :: ps) = t.val (ps ++ [x]) := by
  refine ⟨⟨[dims.prod, K], fun idx => t.val (unravel t.shape (ravel [dims.prod, K] idx))⟩,
    ⟨K :: dims, fun idx => t.val (unravel t.shape (ravel [dims.prod, K] (unravel [K, dims.prod] (ravel (K :: dims) idx)).reverse))⟩,
    ?_, ?_, rfl, ?_⟩
  · unfold Tensor.rows Tensor.reshape
    simp only [ht, List.getLastD_concat, List.dropLast_concat]
    rw [if_neg hK.ne', if_pos (by simp)]
  · unfold tabularCpd Tensor.reshape
    rw [if_neg (by simp [Tensor.transpose, hev])]
    rw [if_pos (by simp [Tensor.transpose])]
    rfl
  · intro x ps hx hps
    have hl := ravel_lt hps
    have e1 : ravel (K :: dims) (x :: ps) = ravel [K, dims.prod] [x, ravel dims ps] := by
      simp [ravel]
    dsimp only
    rw [e1, unravel_ravel (.cons hx (.cons hl .nil))]
    have e2 : ravel [dims.prod, K] [x, ravel dims ps].reverse = ravel (dims ++ [K]) (ps ++ [x]) := by
      rw [ravel_snoc hps.length_eq]
      simp [ravel]
    rw [e2, ht, unravel_ravel]
    exact List.rel_append hps (.cons hx .nil)

namespace DiscreteDAG

variable {D : DiscreteDAG α} {lab : α → β}

theorem pgmStep_ok (h : D.Shaped) {v : α} (hv : v ∈ D.dag.nodes) (hK : 0 < D.dims v) (lab : α → β) :
    ∃ t, (∀ M, D.pgmStep lab M v = .ok { M with cpd := Function.update M.cpd (lab v) (some ((D.pars v).map lab, t)) }) ∧
      t.shape = (v :: D.pars v).map D.dims ∧
      ∀ x : α → ℕ, (∀ u ∈ v :: D.pars v, x u < D.dims u) → t.val ((v :: D.pars v).map x) = (D.cond v).val ((D.pars v ++ [v]).map x) := by
  have hs := h.shape v hv
  rw [List.map_append, List.map_singleton] at hs
  obtain ⟨t1, t2, h1, h2, h3, h4⟩ := tabular_spec (α := α) hs hK ((D.pars v).map lab) (by simp)
  refine ⟨t2, fun M => ?_, by rw [h3]; rfl, fun x hx => ?_⟩
  · unfold pgmStep
    rw [h1]
    dsimp only
    rw [h2]
  · rw [List.map_cons, h4 _ _ (hx v (by simp)), List.map_append, List.map_singleton]
    rw [List.forall₂_map_left_iff, List.forall₂_map_right_iff, List.forall₂_same]
    exact fun u hu => hx u (by simp [hu])

theorem pgm_fold {V : Finset α} {t : α → Tensor ℝ≥0} (hinj : Set.InjOn lab V) {l : List α} (hl : ∀ v ∈ l, v ∈ V)
    (h : ∀ v ∈ V, ∀ M, D.pgmStep lab M v = .ok { M with cpd := Function.update M.cpd (lab v) (some ((D.pars v).map lab, t v)) }) (M : Pgm β) :
    ∃ M', l.foldlM (D.pgmStep lab) M = .ok M' ∧ M'.nodes = M.nodes ∧ M'.arcs = M.arcs ∧
      (∀ v ∈ l, M'.cpd (lab v) = some ((D.pars v).map lab, t v)) ∧ ∀ b, (∀ v ∈ l, lab v ≠ b) → M'.cpd b = M.cpd b := by
  induction l generalizing M with
  | nil => exact ⟨M, rfl, rfl, rfl, by simp, by simp⟩
  | cons v l ih =>
    obtain ⟨M', h1, h2, h3, h4, h5⟩ := ih (fun w hw => hl w (by simp [hw]))
      { M with cpd := Function.update M.cpd (lab v) (some ((D.pars v).map lab, t v)) }
    refine ⟨M', ?_, h2, h3, ?_, ?_⟩
    · rw [List.foldlM_cons, h v (hl v (by simp))]; exact h1
    · intro w hw
      by_cases hwl : w ∈ l
      · exact h4 w hwl
      · obtain rfl : w = v := (List.mem_cons.1 hw).resolve_right hwl
        rw [h5 (lab w) fun u hu e => hwl (hinj (hl u (by simp [hu])) (hl w (by simp)) e ▸ hu)]
        simp
    · intro b hb
      rw [h5 b fun u hu => hb u (by simp [hu])]
      exact Function.update_of_ne (Ne.symm (hb v (by simp))) _ _

theorem acyclic_image {E : Finset (α × α)} {V : Finset α} (hE : ∀ a ∈ E, a.1 ∈ V ∧ a.2 ∈ V) (hinj : Set.InjOn lab V)
    (h : Acyclic fun a b => (a, b) ∈ E) : Acyclic fun a b => (a, b) ∈ E.image fun a => (lab a.1, lab a.2) := by
  have arc : ∀ x y, (x, y) ∈ E.image (fun a => (lab a.1, lab a.2)) → ∃ a b, (a, b) ∈ E ∧ lab a = x ∧ lab b = y := by
    intro x y hxy
    rw [Finset.mem_image] at hxy
    obtain ⟨⟨a, b⟩, h1, h2⟩ := hxy
    rw [Prod.mk.injEq] at h2
    exact ⟨a, b, h1, h2.1, h2.2⟩
  have key : ∀ x y, Path (fun a b => (a, b) ∈ E.image fun a => (lab a.1, lab a.2)) x y →
      ∃ a b, a ∈ V ∧ b ∈ V ∧ lab a = x ∧ lab b = y ∧ Path (fun a b => (a, b) ∈ E) a b := by
    intro x y hxy
    induction hxy with
    | single h1 =>
      obtain ⟨a, b, h2, rfl, rfl⟩ := arc _ _ h1
      exact ⟨a, b, (hE _ h2).1, (hE _ h2).2, rfl, rfl, .single h2⟩
    | tail _ h1 ih =>
      obtain ⟨a, b, ha, hb, rfl, hb', hp⟩ := ih
      obtain ⟨b', c, h2, e, rfl⟩ := arc _ _ h1
      obtain rfl : b' = b := hinj (hE _ h2).1 hb (e.trans hb'.symm)
      exact ⟨a, c, ha, (hE _ h2).2, rfl, rfl, hp.tail h2⟩
  intro x hx
  obtain ⟨a, b, ha, hb, rfl, e, hp⟩ := key x x hx
  obtain rfl : b = a := hinj hb ha e
  exact h b hp

theorem toPgm_spec (h : D.Shaped) (hK : ∀ v ∈ D.dag.nodes, 0 < D.dims v) (hinj : Set.InjOn lab D.dag.nodes) (on : SetOrder Unit α)
    {card : β → ℕ} (hcard : ∀ v ∈ D.dag.nodes, card (lab v) = D.dims v) :
    ∃ M, D.toPgm on lab = .ok M ∧ M.nodes = D.dag.nodes.image lab ∧ M.arcs = D.dag.arcs.image (fun a => (lab a.1, lab a.2)) ∧
      PgmFits M card ∧ (∀ v ∈ D.dag.nodes, ∃ t, M.cpd (lab v) = some ((D.pars v).map lab, t) ∧
        ∀ x : α → ℕ, (∀ u ∈ v :: D.pars v, x u < D.dims u) → t.val ((v :: D.pars v).map x) = (D.cond v).val ((D.pars v ++ [v]).map x)) ∧
      ∀ x : β → ℕ, (∀ v ∈ D.dag.nodes, x (lab v) < D.dims v) → pgmLaw M x = D.law (x ∘ lab) := by
  have hE : ∀ a ∈ D.dag.arcs, a.1 ∈ D.dag.nodes ∧ a.2 ∈ D.dag.nodes := fun a ha => ⟨h.valid.fst_mem _ _ ha, h.valid.snd_mem _ _ ha⟩
  have hpar : ∀ v ∈ D.dag.nodes, ∀ u ∈ D.pars v, u ∈ D.dag.nodes := fun v hv u hu => h.valid.fst_mem _ _ ((h.pars_iff v hv u).1 hu)
  have hst := fun v (hv : v ∈ D.dag.nodes) => pgmStep_ok h hv (hK v hv) lab
  classical
  have hne : ∃ t : α → Tensor ℝ≥0, ∀ v ∈ D.dag.nodes, (∀ M, D.pgmStep lab M v =
      .ok { M with cpd := Function.update M.cpd (lab v) (some ((D.pars v).map lab, t v)) }) ∧
      (t v).shape = (v :: D.pars v).map D.dims ∧
      ∀ x : α → ℕ, (∀ u ∈ v :: D.pars v, x u < D.dims u) →
        (t v).val ((v :: D.pars v).map x) = (D.cond v).val ((D.pars v ++ [v]).map x) :=
    ⟨fun v => if hv : v ∈ D.dag.nodes then (hst v hv).choose else ⟨[], fun _ => 0⟩, fun v hv => by
      simp only [dif_pos hv]; exact (hst v hv).choose_spec⟩
  obtain ⟨t, ht⟩ := hne
  have hnodes : D.dag.nodes.image lab ∪ D.dag.arcs.image (lab ∘ Prod.fst) ∪ D.dag.arcs.image (lab ∘ Prod.snd) = D.dag.nodes.image lab := by
    ext b
    simp only [Finset.mem_union, Finset.mem_image, Function.comp]
    constructor
    · rintro ((h | ⟨a, ha, rfl⟩) | ⟨a, ha, rfl⟩)
      · exact h
      · exact ⟨_, (hE a ha).1, rfl⟩
      · exact ⟨_, (hE a ha).2, rfl⟩
    · exact fun h => .inl (.inl h)
  obtain ⟨M, m1, m2, m3, m4, -⟩ := pgm_fold (D := D) (t := t) hinj (l := on.ord () D.dag.nodes) (fun v hv => (on.mem_iff _ _ _).1 hv)
    (fun v hv => (ht v hv).1)
    ⟨D.dag.nodes.image lab ∪ D.dag.arcs.image (lab ∘ Prod.fst) ∪ D.dag.arcs.image (lab ∘ Prod.snd),
      D.dag.arcs.image fun a => (lab a.1, lab a.2), fun _ => none⟩
  have hcpd : ∀ v ∈ D.dag.nodes, M.cpd (lab v) = some ((D.pars v).map lab, t v) := fun v hv => m4 v ((on.mem_iff _ _ _).2 hv)
  refine ⟨M, m1, m2.trans hnodes, m3, ⟨?_, ?_, ?_, ?_⟩, fun v hv => ⟨_, hcpd v hv, (ht v hv).2.2⟩, fun x hx => ?_⟩
  · intro a ha
    rw [m3, Finset.mem_image] at ha
    obtain ⟨b, hb, rfl⟩ := ha
    rw [m2, hnodes]
    exact Finset.mem_image_of_mem _ (hE b hb).1
  · intro a ha
    rw [m3, Finset.mem_image] at ha
    obtain ⟨b, hb, rfl⟩ := ha
    rw [m2, hnodes]
    exact Finset.mem_image_of_mem _ (hE b hb).2
  · rw [m3]
    exact acyclic_image hE hinj h.valid.acyclic
  · intro b hb
    rw [m2, hnodes, Finset.mem_image] at hb
    obtain ⟨v, hv, rfl⟩ := hb
    refine ⟨_, _, hcpd v hv, ?_, fun b => ?_, ?_⟩
    · exact (List.nodup_map_iff_inj_on (h.nodup v hv)).2 fun a ha b hb e => hinj (hpar v hv a ha) (hpar v hv b hb) e
    · rw [m3, List.mem_map, Finset.mem_image]
      constructor
      · rintro ⟨u, hu, rfl⟩
        exact ⟨(u, v), (h.pars_iff v hv u).1 hu, rfl⟩
      · rintro ⟨⟨u, w⟩, hu, e⟩
        rw [Prod.mk.injEq] at e
        obtain rfl : w = v := hinj (hE _ hu).2 hv e.2
        exact ⟨u, (h.pars_iff w hv u).2 hu, e.1⟩
    · rw [(ht v hv).2.1, List.map_cons, List.map_cons, hcard v hv, List.map_map]
      congr 1
      exact List.map_congr_left fun u hu => (hcard u (hpar v hv u hu)).symm
  · rw [pgmLaw, m2, hnodes, Finset.prod_image hinj, law, joint]
    refine Finset.prod_congr rfl fun v hv => ?_
    rw [hcpd v hv]
    dsimp only
    rw [← (ht v hv).2.2 (x ∘ lab) fun u hu => ?_]
    · simp
    · rcases List.mem_cons.1 hu with rfl | hu
      · exact hx _ hv
      · exact hx u (hpar v hv u hu)

section From

variable {M : Pgm β} {card : β → ℕ} {on : SetOrder Unit β} {op : SetOrder β β}

theorem fromPgm_spec (h : PgmFits M card)
    (hord : ∀ v ∈ M.nodes, ∀ ev t, M.cpd v = some (ev, t) → op.ord v (M.nodes.filter fun u => (u, v) ∈ M.arcs) = ev)
    (o : SetOrder (Option ℕ) ℕ) (oa : SetOrder Bool (ℕ × ℕ)) :
    ∃ D, fromPgm M on op o oa = some (.ok (D, on.ord () M.nodes)) ∧ D.Shaped ∧ D.dag.nodes = Finset.range (on.ord () M.nodes).length ∧
      (∀ u v : β, u ∈ M.nodes → v ∈ M.nodes →
        (((on.ord () M.nodes).idxOf u, (on.ord () M.nodes).idxOf v) ∈ D.dag.arcs ↔ (u, v) ∈ M.arcs)) ∧
      (∀ v ∈ M.nodes, D.alph ((on.ord () M.nodes).idxOf v) = (List.range (card v)).map Int.ofNat) ∧
      ∀ x : β → ℕ, ∀ y : ℕ → ℕ, (∀ v ∈ M.nodes, y ((on.ord () M.nodes).idxOf v) = x v) → D.law y = pgmLaw M x := by
  set order := on.ord () M.nodes with horder
  have hnd : order.Nodup := on.nodup _ _
  have hmem : ∀ v, v ∈ order ↔ v ∈ M.nodes := fun v => on.mem_iff _ _ _
  have hget : ∀ v ∈ M.nodes, order[order.idxOf v]? = some v := fun v hv => by
    rw [List.getElem?_eq_getElem (List.idxOf_lt_length_iff.2 ((hmem v).2 hv)), List.getElem_idxOf]
  have hlt : ∀ v ∈ M.nodes, order.idxOf v < order.length := fun v hv => List.idxOf_lt_length_iff.2 ((hmem v).2 hv)
  have hinj : Set.InjOn order.idxOf M.nodes := fun u hu v hv e => by
    change order.idxOf u = order.idxOf v at e
    have := hget u hu
    rw [e, hget v hv] at this
    exact (Option.some.inj this).symm
  have hex : ∀ i < order.length, ∃ v ∈ M.nodes, order.idxOf v = i := fun i hi =>
    ⟨order[i], (hmem _).1 (List.getElem_mem hi), hnd.idxOf_getElem i hi⟩
  have : Inhabited (Tensor ℝ≥0) := ⟨⟨[], fun _ => 0⟩⟩
  choose! ev t hc hev hpar hsh using h.table
  unfold fromPgm
  dsimp only
  rw [← horder]
  set pars : ℕ → List ℕ := fun i =>
    (order[i]?.map fun v => (op.ord v (M.nodes.filter fun u => (u, v) ∈ M.arcs)).map order.idxOf).getD [] with hpars
  set values : ℕ → Tensor ℝ≥0 := fun i => ((order[i]?.bind M.cpd).map Prod.snd).getD ⟨[], fun _ => 0⟩ with hvalues
  have hp : ∀ v ∈ M.nodes, pars (order.idxOf v) = (ev v).map order.idxOf := fun v hv => by
    simp only [hpars, hget v hv, Option.map_some, Option.getD_some, hord v hv _ _ (hc v hv)]
  have hvv : ∀ v ∈ M.nodes, values (order.idxOf v) = t v := fun v hv => by
    simp only [hvalues, hget v hv, Option.bind_some, hc v hv, Option.map_some, Option.getD_some]
  have hevm : ∀ v ∈ M.nodes, ∀ u ∈ ev v, u ∈ M.nodes := fun v hv u hu => h.fst_mem _ ((hpar v hv u).1 hu)
  rw [if_neg (by rintro ⟨v, hv, e⟩; rw [hc v hv] at e; cases e)]
  set arcs := (Finset.range order.length).biUnion fun i => ((pars i).map fun u => (u, i)).toFinset with harcs
  have ha : arcs = M.arcs.image fun a => (order.idxOf a.1, order.idxOf a.2) := by
    ext ⟨i, j⟩
    simp only [harcs, Finset.mem_biUnion, Finset.mem_range, List.mem_toFinset, List.mem_map, Prod.mk.injEq, Finset.mem_image, Prod.exists]
    constructor
    · rintro ⟨j', hj, u, hu, rfl, rfl⟩
      obtain ⟨v, hv, rfl⟩ := hex _ hj
      rw [hp v hv, List.mem_map] at hu
      obtain ⟨w, hw, rfl⟩ := hu
      exact ⟨w, v, (hpar v hv w).1 hw, rfl, rfl⟩
    · rintro ⟨u, v, huv, rfl, rfl⟩
      have hv := h.snd_mem _ huv
      refine ⟨_, hlt v hv, _, ?_, rfl, rfl⟩
      rw [hp v hv]
      exact List.mem_map_of_mem ((hpar v hv u).2 huv)
  have hdim : ∀ v ∈ M.nodes, (values (order.idxOf v)).shape.headD 0 = card v := fun v hv => by
    rw [hvv v hv, hsh v hv]; rfl
  have hfl : ∀ v ∈ M.nodes, (t v).firstToLast.shape = (ev v ++ [v]).map card := fun v hv => by
    simp [Tensor.firstToLast, hsh v hv]
  obtain ⟨G, g1, g2, g3, g4⟩ := new_ok (α := ℕ) o oa (nodes := Finset.range order.length) (arcs := arcs)
    (cond := fun i => (values i).firstToLast) (pars := pars) (alph := fun i => (List.range ((values i).shape.headD 0)).map Int.ofNat)
    (by rw [ha]; exact acyclic_image (fun a ha => ⟨h.fst_mem a ha, h.snd_mem a ha⟩) hinj h.acyclic)
    (by
      intro a haa
      rw [ha, Finset.mem_image] at haa
      obtain ⟨b, hb, rfl⟩ := haa
      exact ⟨Finset.mem_range.2 (hlt _ (h.fst_mem _ hb)), Finset.mem_range.2 (hlt _ (h.snd_mem _ hb))⟩)
    (by
      intro i hi
      obtain ⟨v, hv, rfl⟩ := hex i (Finset.mem_range.1 hi)
      rw [hp v hv]
      conv_lhs => rw [hvv v hv, hfl v hv]
      simp only [List.map_append, List.map_singleton, List.map_map, List.length_map, List.length_range, hdim v hv]
      congr 1
      exact List.map_congr_left fun u hu => (hdim u (hevm v hv u hu)).symm.trans (by simp))
  have hdims : ∀ v ∈ M.nodes, DiscreteDAG.dims ⟨G, fun i => (values i).firstToLast, pars,
      fun i => (List.range ((values i).shape.headD 0)).map Int.ofNat⟩ (order.idxOf v) = card v := fun v hv => by
    simp only [dims, List.length_map, List.length_range, hdim v hv]
  refine ⟨_, by rw [g1], ⟨g2, ?_, ?_, ?_⟩, g3, ?_, ?_, ?_⟩
  · intro i hi
    obtain ⟨v, hv, rfl⟩ := hex i (Finset.mem_range.1 (g3 ▸ hi))
    dsimp only
    rw [hp v hv]
    exact (List.nodup_map_iff_inj_on (hev v hv)).2 fun a ha b hb e => hinj (hevm v hv a ha) (hevm v hv b hb) e
  · intro i hi u
    obtain ⟨v, hv, rfl⟩ := hex i (Finset.mem_range.1 (g3 ▸ hi))
    dsimp only
    rw [g4, harcs, Finset.mem_biUnion]
    constructor
    · intro hu
      exact ⟨_, Finset.mem_range.2 (hlt v hv), by rw [List.mem_toFinset]; exact List.mem_map.2 ⟨u, hu, rfl⟩⟩
    · rintro ⟨j, hj, huj⟩
      rw [List.mem_toFinset, List.mem_map] at huj
      obtain ⟨w, hw, e⟩ := huj
      rw [Prod.mk.injEq] at e
      obtain ⟨rfl, rfl⟩ := e
      exact hw
  · intro i hi
    obtain ⟨v, hv, rfl⟩ := hex i (Finset.mem_range.1 (g3 ▸ hi))
    dsimp only
    rw [hvv v hv, hfl v hv, hp v hv]
    simp only [List.map_append, List.map_singleton, List.map_map, hdims v hv]
    congr 1
    exact List.map_congr_left fun u hu => (hdims u (hevm v hv u hu)).symm
  · intro u v hu hv
    dsimp only
    rw [g4, ha, Finset.mem_image]
    constructor
    · rintro ⟨⟨a, b⟩, hab, e⟩
      rw [Prod.mk.injEq] at e
      obtain rfl := hinj (h.fst_mem _ hab) hu e.1
      obtain rfl := hinj (h.snd_mem _ hab) hv e.2
      exact hab
    · intro huv
      exact ⟨(u, v), huv, rfl⟩
  · intro v hv
    dsimp only
    rw [hdim v hv]
  · intro x y hxy
    have hr : Finset.range order.length = M.nodes.image order.idxOf := by
      ext i
      rw [Finset.mem_range, Finset.mem_image]
      exact ⟨fun hi => hex i hi, by rintro ⟨v, hv, rfl⟩; exact hlt v hv⟩
    rw [law, joint]
    dsimp only
    rw [g3, hr, Finset.prod_image hinj, pgmLaw]
    refine Finset.prod_congr rfl fun v hv => ?_
    rw [hc v hv, hvv v hv, hp v hv]
    dsimp only [Tensor.firstToLast]
    rw [List.map_append, List.map_singleton, List.getLastD_concat, List.dropLast_concat, List.map_cons, hxy v hv, List.map_map]
    congr 2
    exact List.map_congr_left fun u hu => hxy u (hevm v hv u hu)

end From

end DiscreteDAG

end Model
