import Verif.Proof.DiscreteMarginals
import Verif.Model.DiscreteSample
import Verif.Spec.DiscreteSample

/-! # Sampling of `DiscreteDAG` -/

set_option linter.unusedSectionVars false

namespace Model

open Spec
open scoped NNReal ENNReal

theorem sum_take (f : ℕ → ℝ) (n k : ℕ) (hk : k ≤ n) : (((List.range n).map f).take k).sum = ∑ i ∈ Finset.range k, f i := by
  rw [← List.map_take, List.take_range, Nat.min_eq_left hk]
  clear hk
  induction k with
  | zero => simp
  | succ k ih => rw [List.range_succ, Finset.sum_range_succ, ← ih]; simp

theorem cumsum_eq (f : ℕ → ℝ) (n : ℕ) :
    cumsum ((List.range n).map f) = (List.range n).map fun i => ∑ j ∈ Finset.range (i + 1), f j := by
  rw [cumsum]
  simp only [List.length_map, List.length_range]
  exact List.map_congr_left fun i hi => sum_take f n (i + 1) (List.mem_range.1 hi)

/-- The interval of uniform numbers for which the `k`-th value is drawn. -/
def Drawn (f : ℕ → ℝ) (k : ℕ) (u : ℝ) : Prop := ∑ j ∈ Finset.range k, f j ≤ u ∧ u < ∑ j ∈ Finset.range (k + 1), f j

theorem cum_mono {f : ℕ → ℝ} (hf : ∀ i, 0 ≤ f i) {a b : ℕ} (h : a ≤ b) :
    ∑ j ∈ Finset.range a, f j ≤ ∑ j ∈ Finset.range b, f j :=
  Finset.sum_le_sum_of_subset_of_nonneg (by simpa using h) fun i _ _ => hf i

theorem Drawn.unique {f : ℕ → ℝ} (hf : ∀ i, 0 ≤ f i) {k l : ℕ} {u : ℝ} (hk : Drawn f k u) (hl : Drawn f l u) : k = l := by
  rcases lt_trichotomy k l with h | h | h
  · exact absurd (hk.2.trans_le ((cum_mono hf h).trans hl.1)) (lt_irrefl _)
  · exact h
  · exact absurd (hl.2.trans_le ((cum_mono hf h).trans hk.1)) (lt_irrefl _)

theorem exists_drawn {f : ℕ → ℝ} {n : ℕ} {u : ℝ} (h1 : ∑ j ∈ Finset.range n, f j = 1) (hu : u ∈ Set.Ico (0 : ℝ) 1) :
    ∃ k < n, Drawn f k u := by
  have hex : ∃ k, u < ∑ j ∈ Finset.range k, f j := ⟨n, by rw [h1]; exact hu.2⟩
  classical
  have h2 := Nat.find_spec hex
  have h3 : Nat.find hex ≠ 0 := fun h => by
    rw [h] at h2
    simp only [Finset.range_zero, Finset.sum_empty] at h2
    exact absurd hu.1 (not_le.2 h2)
  obtain ⟨k, hk⟩ := Nat.exists_eq_succ_of_ne_zero h3
  refine ⟨k, ?_, ?_, ?_⟩
  · have : Nat.find hex ≤ n := Nat.find_min' hex (by rw [h1]; exact hu.2)
    omega
  · exact not_lt.1 (Nat.find_min hex (by omega))
  · rw [hk] at h2; exact h2

variable {α : Type} [DecidableEq α]

theorem argmaxAbove_eq {p : ℕ → ℝ≥0} {n k : ℕ} {u : ℝ} (hk : k < n) (h : Drawn (fun i => (p i : ℝ)) k u) :
    argmaxAbove (α := α) ((List.range n).map p) u = .ok (k : ℤ) := by
  have hn : ¬ (List.range n).map p = [] := by
    simp only [List.map_eq_nil_iff, List.range_eq_nil]; omega
  have hfind : (cumsum (((List.range n).map p).map fun x : ℝ≥0 => (x : ℝ))).findIdx (fun x => decide (u < x)) = k := by
    rw [List.map_map, show ((fun x : ℝ≥0 => (x : ℝ)) ∘ p) = fun i => (p i : ℝ) from rfl, cumsum_eq]
    rw [List.findIdx_eq (by simpa using hk)]
    refine ⟨by simpa using h.2, fun j hj => ?_⟩
    simp only [List.getElem_map, List.getElem_range, decide_eq_false_iff_not, not_lt]
    exact (cum_mono (fun i => (p i).2) hj).trans h.1
  rw [argmaxAbove, if_neg hn]
  simp only [hfind, List.length_map, List.length_range, if_pos hk]

theorem npChoice_eq {a : List ℤ} {p : Tensor ℝ≥0} {k : ℕ} {u : ℝ} (hs : p.shape = [a.length]) (hk : k < a.length)
    (h1 : ∑ i ∈ Finset.range a.length, (p.val [i] : ℝ) = 1) (h : Drawn (fun i => (p.val [i] : ℝ)) k u) :
    npChoice (α := α) a p u = .ok (a[k]) := by
  have hn : ¬ (a = [] ∨ p.shape ≠ [a.length]) := by
    rintro (rfl | h')
    · simp at hk
    · exact h' hs
  have hsum : ((List.range a.length).map fun i => (p.val [i] : ℝ)).sum = 1 := by
    rw [← h1, ← sum_take (fun i => (p.val [i] : ℝ)) a.length a.length le_rfl, List.take_of_length_le (by simp)]
  have hlen : (((cumsum ((List.range a.length).map fun i => (p.val [i] : ℝ))).map (· / 1)).filter (fun x => decide (x ≤ u))).length =
      k := by
    rw [cumsum_eq]
    simp only [div_one, List.map_id', List.filter_map, List.length_map]
    have : ((List.range a.length).filter ((fun x => decide (x ≤ u)) ∘ fun i => ∑ j ∈ Finset.range (i + 1), (p.val [j] : ℝ))) =
        (List.range a.length).filter (fun i => decide (i < k)) := by
      refine List.filter_congr fun i _ => ?_
      simp only [Function.comp, decide_eq_decide]
      constructor
      · intro hi
        by_contra hik
        exact absurd (h.2.trans_le ((cum_mono (fun i => (p.val [i]).2) (by omega : k + 1 ≤ i + 1)).trans hi)) (lt_irrefl _)
      · intro hi
        exact (cum_mono (fun i => (p.val [i]).2) (by omega : i + 1 ≤ k)).trans h.1
    rw [this]
    have h2 : (List.range a.length).filter (fun i => decide (i < k)) = List.range k := by
      refine List.Perm.eq_of_pairwise (le := (· < ·)) (fun a b _ _ h h' => absurd h (by omega)) ?_ ?_ ?_
      · exact (List.pairwise_lt_range (n := a.length)).filter _
      · exact List.pairwise_lt_range
      · refine (List.perm_ext_iff_of_nodup (List.nodup_range.filter _) List.nodup_range).2 fun i => ?_
        simp only [List.mem_filter, List.mem_range, decide_eq_true_eq]
        omega
    rw [h2, List.length_range]
  rw [npChoice, if_neg hn]
  simp only [hsum, hlen]
  rw [if_neg (by norm_num)]
  rw [List.getElem?_eq_getElem hk]

theorem npRow_eq {t : Tensor ℝ≥0} {l : List ℕ} {d : List ℕ} {n : ℕ} (hs : t.shape = d ++ [n]) (hl : d.length = l.length)
    (h : ∀ p ∈ d.zip l, p.2 < p.1) :
    npRow (α := α) t (l.map fun i : ℕ => (i : ℤ)) = .ok ((List.range n).map fun i => t.val (l ++ [i])) := by
  have hm : ((t.shape.zip (l.map fun i : ℕ => (i : ℤ))).mapM fun p => npIndex p.1 p.2) = some l := by
    rw [hs]
    clear hs
    induction d generalizing l with
    | nil => 
      obtain rfl : l = [] := List.length_eq_zero_iff.1 hl.symm
      rfl
    | cons m d ih =>
      obtain ⟨i, l, rfl⟩ := List.exists_cons_of_length_pos (l := l) (by rw [← hl]; simp)
      have hi : i < m := h (m, i) (by simp)
      have := ih (l := l) (by simpa using hl) fun p hp => h p (by simp [hp])
      rw [List.map_cons, List.cons_append, List.zip_cons_cons, List.mapM_cons, this]
      have : npIndex m i = some i := by
        rw [npIndex, if_pos ⟨by omega, by omega⟩]; simp
      rw [this]; rfl
  rw [npRow, hm]
  simp [hs, hl]

namespace DiscreteDAG

variable {D : DiscreteDAG α}

/-- The row of the table of `v` at the values `y` of the parents. -/
def rowAt (D : DiscreteDAG α) (v : α) (y : α → ℕ) (i : ℕ) : ℝ≥0 := (D.cond v).val ((D.pars v).map y ++ [i])

theorem rowAt_congr {v : α} {y z : α → ℕ} (h : ∀ p ∈ D.pars v, y p = z p) : D.rowAt v y = D.rowAt v z := by
  funext i
  rw [rowAt, rowAt, List.map_congr_left h]

theorem rowAt_sum (hD : D.Tabled) {v : α} (hv : v ∈ D.dag.nodes) {y : α → ℕ} (hy : ∀ p ∈ D.pars v, y p < D.dims p) :
    ∑ i ∈ Finset.range (D.dims v), (D.rowAt v y i : ℝ) = 1 := by
  have := hD.total v hv y hy
  exact_mod_cast this

/-- The values `z` are drawn with the numbers `u`, except where they are fixed. -/
def Draws (D : DiscreteDAG α) (fixed : α → Option ℕ) (u : α → ℝ) (z : α → ℕ) (v : α) : Prop :=
  (∀ c, fixed v = some c → z v = c) ∧ (fixed v = none → Drawn (fun i => (D.rowAt v z i : ℝ)) (z v) (u v))

theorem Draws.congr {fixed : α → Option ℕ} {u : α → ℝ} {y z : α → ℕ} {v : α} (h : D.Draws fixed u y v) (h1 : y v = z v)
    (h2 : ∀ p ∈ D.pars v, y p = z p) : D.Draws fixed u z v := by
  rw [Draws, ← h1, ← rowAt_congr h2]; exact h

/-- At most one assignment is drawn. -/
theorem Draws.unique (hD : D.Fits) {t : List α} (ht : LinearExtension (D.dag.nodes : Set α) D.dag.E t) {fixed : α → Option ℕ}
    {u : α → ℝ} {y z : α → ℕ} (hy : ∀ v ∈ D.dag.nodes, D.Draws fixed u y v) (hz : ∀ v ∈ D.dag.nodes, D.Draws fixed u z v) :
    ∀ v ∈ D.dag.nodes, y v = z v := by
  suffices H : ∀ pre post, t = pre ++ post → ∀ v ∈ pre, y v = z v from
    fun v hv => H t [] (by simp) v ((ht.mem_iff v).2 hv)
  intro pre
  induction pre using List.reverseRecOn with
  | nil => simp
  | append_singleton pre a ih =>
    intro post e v hv
    have e' : t = pre ++ a :: post := by simpa using e
    have ih' := ih _ e'
    rcases List.mem_append.1 hv with hv | hv
    · exact ih' v hv
    · obtain rfl := List.mem_singleton.1 hv
      obtain ⟨h1, -, h2⟩ := lin_pars ht e'
      have hp : ∀ p ∈ D.pars v, y p = z p := fun p hp => ih' p (h2 p (hD.pars_sub v h1 p hp))
      cases hf : fixed v with
      | some c => rw [(hy v h1).1 c hf, (hz v h1).1 c hf]
      | none =>
        have h3 := (hy v h1).2 hf
        rw [rowAt_congr hp] at h3
        exact h3.unique (fun i => (D.rowAt v z i).2) ((hz v h1).2 hf)

theorem draw_row (hD : D.Tabled) {v : α} (hv : v ∈ D.dag.nodes) {row : ℕ → ℤ} {ix : α → ℕ} {z : α → ℕ}
    (hz : ∀ p ∈ D.pars v, row (ix p) = z p ∧ z p < D.dims p) :
    npRow (α := α) (D.cond v) ((D.pars v).map fun p => row (ix p)) = .ok ((List.range (D.dims v)).map (D.rowAt v z)) := by
  have : ((D.pars v).map fun p => row (ix p)) = ((D.pars v).map z).map fun i : ℕ => (i : ℤ) := by
    rw [List.map_map]
    exact List.map_congr_left fun p hp => (hz p hp).1
  rw [this]
  refine npRow_eq (d := (D.pars v).map D.dims) (by rw [hD.shape v hv]; simp) (by simp) fun p hp => ?_
  rw [List.zip_map'] at hp
  obtain ⟨q, hq, rfl⟩ := List.mem_map.1 hp
  exact (hz q hq).2

theorem choice_alph (hD : D.Tabled) (hA : D.Counting) {v : α} (hv : v ∈ D.dag.nodes) {z : α → ℕ}
    (hz : ∀ p ∈ D.pars v, z p < D.dims p) {t : Tensor ℝ≥0} (hs : t.shape = [D.dims v]) (ht : ∀ i < D.dims v, t.val [i] = D.rowAt v z i)
    {u : ℝ} (hu : u ∈ Set.Ico (0 : ℝ) 1) :
    ∃ k : ℕ, npChoice (α := α) (D.alph v) t u = .ok (k : ℤ) ∧ k < D.dims v ∧ Drawn (fun i => (D.rowAt v z i : ℝ)) k u := by
  obtain ⟨k, hk, hd⟩ := exists_drawn (rowAt_sum hD hv hz) hu
  refine ⟨k, ?_, hk, hd⟩
  have hs2 : ∀ m ≤ D.dims v, ∑ i ∈ Finset.range m, (t.val [i] : ℝ) = ∑ i ∈ Finset.range m, (D.rowAt v z i : ℝ) := fun m hm =>
    Finset.sum_congr rfl fun i hi => by rw [ht i (by have := Finset.mem_range.1 hi; omega)]
  rw [npChoice_eq (k := k) hs hk]
  · congr 1
    simp [hA v hv]
  · rw [← rowAt_sum hD hv hz]; exact hs2 _ le_rfl
  · exact ⟨by rw [hs2 _ hk.le]; exact hd.1, by rw [hs2 _ hk]; exact hd.2⟩

theorem drawSample_spec (hD : D.Tabled) (hA : D.Counting) {v : α} (hv : v ∈ D.dag.nodes) {row : ℕ → ℤ} {ix : α → ℕ} {z : α → ℕ}
    (hz : ∀ p ∈ D.pars v, row (ix p) = z p ∧ z p < D.dims p) {u : α → ℝ} (hu : u v ∈ Set.Ico (0 : ℝ) 1) :
    ∃ k : ℕ, D.drawSample ix u row v = .ok (k : ℤ) ∧ k < D.dims v ∧ Drawn (fun i => (D.rowAt v z i : ℝ)) k (u v) := by
  rw [drawSample]
  split_ifs with hp
  · refine choice_alph hD hA hv (fun p h => (hz p h).2) (by rw [hD.shape v hv, hp]; rfl) (fun i _ => ?_) hu
    rw [rowAt, hp]; rfl
  · rw [draw_row hD hv hz]
    obtain ⟨k, hk, hd⟩ := exists_drawn (rowAt_sum hD hv fun p h => (hz p h).2) hu
    exact ⟨k, argmaxAbove_eq hk hd, hk, hd⟩

theorem drawAlphabet_spec (hD : D.Tabled) (hA : D.Counting) {v : α} (hv : v ∈ D.dag.nodes) {row : ℕ → ℤ} {ix : α → ℕ} {z : α → ℕ}
    (hz : ∀ p ∈ D.pars v, row (ix p) = z p ∧ z p < D.dims p) {u : α → ℝ} (hu : u v ∈ Set.Ico (0 : ℝ) 1) :
    ∃ k : ℕ, D.drawAlphabet ix u row v = .ok (k : ℤ) ∧ k < D.dims v ∧ Drawn (fun i => (D.rowAt v z i : ℝ)) k (u v) := by
  rw [drawAlphabet]
  split_ifs with hp
  · refine choice_alph hD hA hv (fun p h => (hz p h).2) (by rw [hD.shape v hv, hp]; rfl) (fun i _ => ?_) hu
    rw [rowAt, hp]; rfl
  · rw [draw_row hD hv hz]
    refine choice_alph hD hA hv (fun p h => (hz p h).2) (by simp) (fun i hi => ?_) hu
    simp [hi]
    rfl

/-- What holds while the row is filled. -/
def Filled (D : DiscreteDAG α) (fixed : α → Option ℕ) (u : α → ℝ) (ix : α → ℕ) (row : ℕ → ℤ) (v : α) : Prop :=
  row (ix v) = (row (ix v)).toNat ∧ (row (ix v)).toNat < D.dims v ∧ D.Draws fixed u (fun w => (row (ix w)).toNat) v

theorem update_pre {t pre post : List α} {v : α} (ht : LinearExtension (D.dag.nodes : Set α) D.dag.E t)
    (e : t = pre ++ v :: post) {ix : α → ℕ} (hix : Set.InjOn ix D.dag.nodes) (row : ℕ → ℤ) (k : ℤ) :
    ∀ w ∈ pre, Function.update row (ix v) k (ix w) = row (ix w) := by
  intro w hw
  have h3 : w ∈ t := by rw [e]; simp [hw]
  obtain ⟨hv, -, hpv⟩ := lin_pars ht e
  refine Function.update_of_ne (fun h' => ?_) _ _
  have h4 := hix ((ht.mem_iff w).1 h3) hv h'
  have := ht.nodup
  rw [e, List.nodup_append'] at this
  exact this.2.2 hw (by simp [h4])

theorem pars_pre (hD : D.Fits) {t pre post : List α} (ht : LinearExtension (D.dag.nodes : Set α) D.dag.E t)
    (e : t = pre ++ post) {w : α} (hw : w ∈ pre) : ∀ p ∈ D.pars w, p ∈ pre := by
  intro p hp
  have h3 : w ∈ t := by rw [e]; simp [hw]
  obtain ⟨a, b, rfl⟩ := List.append_of_mem hw
  obtain ⟨-, -, h6⟩ := lin_pars ht (pre := a) (v := w) (post := b ++ post) (by rw [e]; simp)
  have := h6 p (hD.pars_sub w ((ht.mem_iff w).1 h3) p hp)
  simp [this]

/-- Filling in the value of the next node. -/
theorem Filled.step (hD : D.Fits) {t pre post : List α} {v : α} (ht : LinearExtension (D.dag.nodes : Set α) D.dag.E t)
    (e : t = pre ++ v :: post) {ix : α → ℕ} (hix : Set.InjOn ix D.dag.nodes) {fixed : α → Option ℕ} {u : α → ℝ} {row : ℕ → ℤ}
    (h : ∀ w ∈ pre, D.Filled fixed u ix row w) {k : ℕ} (hk : k < D.dims v) (h1 : ∀ c, fixed v = some c → k = c)
    (h2 : fixed v = none → Drawn (fun i => (D.rowAt v (fun w => (row (ix w)).toNat) i : ℝ)) k (u v)) :
    ∀ w ∈ pre ++ [v], D.Filled fixed u ix (Function.update row (ix v) k) w := by
  obtain ⟨hv, -, hpv⟩ := lin_pars ht e
  have hne := update_pre ht e hix row k
  intro w hw
  rcases List.mem_append.1 hw with hw | hw
  · obtain ⟨h3, h4, h5⟩ := h w hw
    rw [Filled, hne w hw]
    exact ⟨h3, h4, h5.congr (by rw [hne w hw]) fun p hp => by rw [hne p (pars_pre hD ht e hw p hp)]⟩
  · obtain rfl := List.mem_singleton.1 hw
    rw [Filled, Function.update_self]
    refine ⟨by simp, by simpa using hk, fun c hc => ?_, fun hc => ?_⟩
    · simpa using h1 c hc
    · have h6 := h2 hc
      rw [rowAt_congr fun p hp => by rw [← hne p (hpv p (hD.pars_sub w hv p hp))]] at h6
      simpa using h6

theorem sample_run (hD : D.Tabled) (hA : D.Counting) (ot : SetOrder (Option α) α) {ix : α → ℕ}
    (hix : Set.InjOn ix D.dag.nodes) {u : α → ℝ} (hu : ∀ v, u v ∈ Set.Ico (0 : ℝ) 1) :
    ∃ row, (D.sample ot ix u).run = some (.ok row) ∧ ∀ v ∈ D.dag.nodes, D.Filled (fun _ => none) u ix row v := by
  obtain ⟨t, ht1, ht⟩ := DAG.topologicalSort_ok D.dag ot hD.valid
  have : Wp (D.sample ot ix u) (fun row => ∀ v ∈ t, D.Filled (fun _ => none) u ix row v) (fun _ => False) := by
    rw [sample]
    refine Wp.bind (P := fun t' => t' = t) (Or.inl ⟨t, ht1, rfl⟩) ?_
    rintro t' rfl
    refine Wp.foldlM (fun pre row => ∀ v ∈ pre, D.Filled (fun _ => none) u ix row v) _ _ (by simp) ?_
    intro pre v post row e hI
    obtain ⟨hv, -, hpv⟩ := lin_pars ht e
    obtain ⟨k, h1, h2, h3⟩ := drawSample_spec (row := row) (ix := ix) (z := fun w => (row (ix w)).toNat) hD hA hv
      (fun p hp => ⟨(hI p (hpv p (hD.pars_sub v hv p hp))).1, (hI p (hpv p (hD.pars_sub v hv p hp))).2.1⟩) (hu v)
    refine Wp.bind (P := fun x => x = (k : ℤ)) (Or.inl ⟨k, congrArg some h1, rfl⟩) ?_
    rintro x rfl
    exact Wp.pure (Filled.step hD.toFits ht e hix hI h2 (by simp) fun _ => h3)
  rcases this with ⟨row, h1, h2⟩ | ⟨e, -, h⟩
  · exact ⟨row, h1, fun v hv => h2 v ((ht.mem_iff v).2 hv)⟩
  · exact h.elim

/-- The row that is filled in is the one drawn. -/
theorem Filled.iff (hD : D.Tabled) (ot : SetOrder (Option α) α) {fixed : α → Option ℕ} {u : α → ℝ} {ix : α → ℕ} {row : ℕ → ℤ}
    (h : ∀ v ∈ D.dag.nodes, D.Filled fixed u ix row v) (y : α → ℕ) :
    (∀ v ∈ D.dag.nodes, row (ix v) = y v) ↔ ∀ v ∈ D.dag.nodes, D.Draws fixed u y v := by
  obtain ⟨t, -, ht⟩ := DAG.topologicalSort_ok D.dag ot hD.valid
  constructor
  · intro hy v hv
    refine (h v hv).2.2.congr (by rw [hy v hv]; simp) fun p hp => ?_
    rw [hy p (hD.valid.fst_mem _ _ (hD.pars_sub v hv p hp))]; simp
  · intro hy v hv
    rw [(h v hv).1, Draws.unique hD.toFits ht (fun w hw => (h w hw).2.2) hy v hv]

/-- The values of the intervention. -/
def fixAt (targets : Finset ℕ) (values : ℕ → ℕ) (v : ℕ) : Option ℕ := if v ∈ targets then some (values v) else none

theorem sampleInterventional_run {D : DiscreteDAG ℕ} (hD : D.Tabled) (hA : D.Counting) (ot : SetOrder (Option ℕ) ℕ) {ix : ℕ → ℕ}
    (hix : ∀ v ∈ D.dag.nodes, ix v = v) {u : ℕ → ℝ} (hu : ∀ v, u v ∈ Set.Ico (0 : ℝ) 1) {targets : Finset ℕ} (h0 : targets.Nonempty)
    {values : ℕ → ℕ} (hval : ∀ v ∈ targets, v ∈ D.dag.nodes → values v < D.dims v) :
    ∃ row, (D.sampleInterventional ot ix u targets fun v => (values v : ℤ)).run = some (.ok row) ∧
      ∀ v ∈ D.dag.nodes, D.Filled (fixAt targets values) u ix row v := by
  obtain ⟨t, ht1, ht⟩ := DAG.topologicalSort_ok D.dag ot hD.valid
  have hinj : Set.InjOn ix D.dag.nodes := fun a ha b hb h => by rwa [hix a ha, hix b hb] at h
  have : Wp (D.sampleInterventional ot ix u targets fun v => (values v : ℤ))
      (fun row => ∀ v ∈ t, D.Filled (fixAt targets values) u ix row v) (fun _ => False) := by
    rw [sampleInterventional, if_neg h0.ne_empty]
    refine Wp.bind (P := fun t' => t' = t) (Or.inl ⟨t, ht1, rfl⟩) ?_
    rintro t' rfl
    refine Wp.foldlM (fun pre row => ∀ v ∈ pre, D.Filled (fixAt targets values) u ix row v) _ _ (by simp) ?_
    intro pre v post row e hI
    obtain ⟨hv, -, hpv⟩ := lin_pars ht e
    by_cases hvt : v ∈ targets
    · refine Or.inl ⟨Function.update row (ix v) (values v : ℤ), congrArg some ?_, ?_⟩
      · simp only [intervenedStep, if_pos hvt, Option.isSome_some, hix v hv, if_true]
      · exact Filled.step hD.toFits ht e hinj hI (hval v hvt hv) (fun c hc => by simpa [fixAt, hvt] using hc)
          (by simp [fixAt, hvt])
    · obtain ⟨k, h1, h2, h3⟩ := drawAlphabet_spec (row := row) (ix := ix) (z := fun w => (row (ix w)).toNat) hD hA hv
        (fun p hp => ⟨(hI p (hpv p (hD.pars_sub v hv p hp))).1, (hI p (hpv p (hD.pars_sub v hv p hp))).2.1⟩) (hu v)
      refine Or.inl ⟨Function.update row (ix v) (k : ℤ), congrArg some ?_, ?_⟩
      · simp [intervenedStep, hvt, h1]
      · exact Filled.step hD.toFits ht e hinj hI h2 (by simp [fixAt, hvt]) fun _ => h3
  rcases this with ⟨row, h1, h2⟩ | ⟨e, -, h⟩
  · exact ⟨row, h1, fun v hv => h2 v ((ht.mem_iff v).2 hv)⟩
  · exact h.elim

theorem fold_update_not_mem (l : List (ℕ × ℕ)) (r : ℕ → ℤ) {k : ℕ} (hk : ∀ p ∈ l, p.1 ≠ k) :
    l.foldl (fun r p => Function.update r p.1 (p.2 : ℤ)) r k = r k := by
  induction l generalizing r with
  | nil => rfl
  | cons p l ih =>
    rw [List.foldl_cons, ih _ fun q hq => hk q (by simp [hq]), Function.update_of_ne (hk p (by simp)).symm]

theorem fold_update (l : List (ℕ × ℕ)) (hl : (l.map Prod.fst).Nodup) (r : ℕ → ℤ) {p : ℕ × ℕ} (hp : p ∈ l) :
    l.foldl (fun r p => Function.update r p.1 (p.2 : ℤ)) r p.1 = p.2 := by
  induction l generalizing r with
  | nil => simp at hp
  | cons q l ih =>
    rw [List.map_cons, List.nodup_cons] at hl
    rw [List.foldl_cons]
    rcases List.mem_cons.1 hp with rfl | hp
    · rw [fold_update_not_mem _ _ fun q hq h => hl.1 (List.mem_map.2 ⟨q, hq, h⟩), Function.update_self]
    · exact ih hl.2 _ hp

theorem weightedSamples_run {D : DiscreteDAG ℕ} (hD : D.Tabled) (hA : D.Counting) (ot : SetOrder (Option ℕ) ℕ) {n : ℕ} {ix : ℕ → ℕ}
    (hn : ∀ v ∈ D.dag.nodes, v < n) (hix : ∀ v ∈ D.dag.nodes, ix v = v) {u : ℕ → ℝ} (hu : ∀ v, u v ∈ Set.Ico (0 : ℝ) 1)
    {N vals : List ℕ} (hN : N.Nodup) (hNn : ∀ v ∈ N, v ∈ D.dag.nodes) (hlen : N.length = vals.length)
    (hval : ∀ v ∈ N, vals.getD (N.idxOf v) 0 < D.dims v) :
    ∃ row w, (D.weightedSamples ot n ix u N vals).run = some (.ok (row, w)) ∧
      (∀ v ∈ D.dag.nodes, D.Filled (fixAt N.toFinset fun v => vals.getD (N.idxOf v) 0) u ix row v) ∧
      w = N.map fun v => D.rowAt v (fun w => (row (ix w)).toNat) (vals.getD (N.idxOf v) 0) := by
  obtain ⟨t, ht1, ht⟩ := DAG.topologicalSort_ok D.dag ot hD.valid
  have hinj : Set.InjOn ix D.dag.nodes := fun a ha b hb h => by rwa [hix a ha, hix b hb] at h
  set val := fun v => vals.getD (N.idxOf v) 0 with hvaldef
  have : Wp (D.weightedSamples ot n ix u N vals)
      (fun s => (∀ v ∈ N, s.1 (ix v) = val v) ∧ (∀ v ∈ t, D.Filled (fixAt N.toFinset val) u ix s.1 v) ∧
        s.2.length = N.length ∧ ∀ v ∈ t, v ∈ N → s.2.getD (N.idxOf v) 0 = D.rowAt v (fun w => (s.1 (ix w)).toNat) (val v))
      (fun _ => False) := by
    rw [weightedSamples, if_neg (by push Not; exact fun v hv => hn v (hNn v hv)), if_neg (by simpa using hlen)]
    refine Wp.bind (P := fun t' => t' = t) (Or.inl ⟨t, ht1, rfl⟩) ?_
    rintro t' rfl
    refine Wp.foldlM (fun pre (s : (ℕ → ℤ) × List ℝ≥0) => (∀ v ∈ N, s.1 (ix v) = val v) ∧ (∀ v ∈ pre, D.Filled (fixAt N.toFinset val) u ix s.1 v) ∧
        s.2.length = N.length ∧ ∀ v ∈ pre, v ∈ N → s.2.getD (N.idxOf v) 0 = D.rowAt v (fun w => (s.1 (ix w)).toNat) (val v))
      _ _ ⟨fun v hv => ?_, by simp, by simp, by simp⟩ ?_
    · rw [hix v (hNn v hv)]
      have hi : N.idxOf v < N.length := List.idxOf_lt_length_of_mem hv
      refine fold_update (N.zip vals) (by rw [List.map_fst_zip hlen.le]; exact hN) _ (p := (v, val v)) ?_
      refine List.mem_iff_getElem.2 ⟨N.idxOf v, by simp [← hlen, hi], ?_⟩
      have hi' : N.idxOf v < vals.length := by rw [← hlen]; exact hi
      simp [hvaldef, List.getElem_zip, hi']
    · rintro pre v post ⟨row, w⟩ e ⟨hI0, hI1, hI2, hI3⟩
      obtain ⟨hv, hvp, hpv⟩ := lin_pars ht e
      have hz : ∀ p ∈ D.pars v, row (ix p) = (row (ix p)).toNat ∧ (row (ix p)).toNat < D.dims p := fun p hp =>
        ⟨(hI1 p (hpv p (hD.pars_sub v hv p hp))).1, (hI1 p (hpv p (hD.pars_sub v hv p hp))).2.1⟩
      by_cases hvt : v ∈ N
      · have hrow := draw_row hD hv (row := row) (ix := ix) (z := fun w => (row (ix w)).toNat) hz
        have hi : N.idxOf v < N.length := List.idxOf_lt_length_of_mem hvt
        refine Or.inl ⟨(row, w.set (N.idxOf v) (D.rowAt v (fun w => (row (ix w)).toNat) (val v))), congrArg some ?_, hI0, ?_, ?_, ?_⟩
        · have hd : vals.getD (N.idxOf v) 0 < D.dims v := hval v hvt
          have hd' : (List.map (D.rowAt v fun w => (row (ix w)).toNat) (List.range (D.dims v))).getD (vals.getD (N.idxOf v) 0) 0 =
              D.rowAt v (fun w => (row (ix w)).toNat) (val v) := by
            rw [List.getD_eq_getElem?_getD, List.getElem?_eq_getElem (by simpa using hd)]
            simp [hvaldef]
            rfl
          rw [weightedStep, if_neg (not_not.2 hvt)]
          simp only [hrow, List.length_map, List.length_range, if_pos hd, hd']
        · have h4 := Filled.step hD.toFits ht e hinj hI1 (k := val v) (hval v hvt) (fun c hc => by simpa [fixAt, hvt] using hc)
            (by simp [fixAt, hvt])
          have h5 : Function.update row (ix v) (val v : ℤ) = row := by
            rw [← hI0 v hvt, Function.update_eq_self]
          rwa [h5] at h4
        · simpa using hI2
        · intro x hx hxN
          rcases List.mem_append.1 hx with hx | hx
          · rw [← hI3 x hx hxN]
            have hne : N.idxOf v ≠ N.idxOf x := fun h => hvp ((List.idxOf_inj hvt).1 h ▸ hx)
            simp [List.getD_eq_getElem?_getD, List.getElem?_set_ne hne]
          · obtain rfl := List.mem_singleton.1 hx
            have hi' : N.idxOf x < w.length := by rw [hI2]; exact hi
            simp [List.getD_eq_getElem?_getD, hi']
            rfl
      · obtain ⟨k, h1, h2, h3⟩ := drawSample_spec (row := row) (ix := ix) (z := fun w => (row (ix w)).toNat) hD hA hv hz (hu v)
        have hne := update_pre ht e hinj row k
        refine Or.inl ⟨(Function.update row (ix v) (k : ℤ), w), congrArg some ?_, ?_, ?_, hI2, ?_⟩
        · simp [weightedStep, hvt, h1]
        · intro x hx
          have : ix x ≠ ix v := fun h => hvt (hinj (hNn x hx) hv h ▸ hx)
          simp only [Function.update_of_ne this]
          exact hI0 x hx
        · exact Filled.step hD.toFits ht e hinj hI1 h2 (by simp [fixAt, hvt]) fun _ => h3
        · intro x hx hxN
          have hxp : x ∈ pre := (List.mem_append.1 hx).resolve_right fun h => hvt (List.mem_singleton.1 h ▸ hxN)
          refine (hI3 x hxp hxN).trans (congrFun (rowAt_congr fun p hp => ?_) _)
          exact congrArg Int.toNat (hne p (pars_pre hD.toFits ht e hxp p hp)).symm
  rcases this with ⟨⟨row, w⟩, h1, -, h2, h3, h4⟩ | ⟨e, -, h⟩
  · refine ⟨row, w, h1, fun v hv => h2 v ((ht.mem_iff v).2 hv), ?_⟩
    refine List.ext_getElem (by simpa using h3) fun i hi hi' => ?_
    have hiN : i < N.length := by simpa using hi'
    have := h4 N[i] ((ht.mem_iff _).2 (hNn _ (List.getElem_mem hiN))) (List.getElem_mem hiN)
    rw [List.Nodup.idxOf_getElem hN i hiN, List.getD_eq_getElem?_getD, List.getElem?_eq_getElem hi] at this
    rw [List.getElem_map]
    exact this
  · exact h.elim

section Measure

open MeasureTheory ProbabilityTheory

variable {Ω : Type} [MeasurableSpace Ω] {μ : Measure Ω}

theorem drawn_measure {f : ℕ → ℝ≥0} {n k : ℕ} (hk : k < n) (h1 : ∑ i ∈ Finset.range n, (f i : ℝ) = 1) {u : Ω → ℝ}
    (hm : Measurable u) (hu : μ.map u = volume.restrict (Set.Ico (0 : ℝ) 1)) :
    μ (u ⁻¹' {x | Drawn (fun i => (f i : ℝ)) k x}) = f k := by
  have hset : {x | Drawn (fun i => (f i : ℝ)) k x} =
      Set.Ico (∑ j ∈ Finset.range k, (f j : ℝ)) (∑ j ∈ Finset.range (k + 1), (f j : ℝ)) := rfl
  rw [hset, ← Measure.map_apply hm measurableSet_Ico, hu, Measure.restrict_apply measurableSet_Ico,
    Set.inter_eq_left.2, Real.volume_Ico, Finset.sum_range_succ, add_sub_cancel_left, ENNReal.ofReal_coe_nnreal]
  refine Set.Ico_subset_Ico (Finset.sum_nonneg fun i _ => (f i).2) ?_
  rw [← h1]
  exact cum_mono (fun i => (f i).2) hk

theorem draws_measurable {u : α → Ω → ℝ} (hu : UniformNoise μ u) (fixed : α → Option ℕ) (y : α → ℕ) :
    MeasurableSet {ω | ∀ v ∈ D.dag.nodes, D.Draws fixed (fun v => u v ω) y v} := by
  have : {ω | ∀ v ∈ D.dag.nodes, D.Draws fixed (fun v => u v ω) y v} = ⋂ v ∈ D.dag.nodes,
      {ω | D.Draws fixed (fun v => u v ω) y v} := by
    ext ω; simp
  rw [this]
  refine D.dag.nodes.measurableSet_biInter fun v _ => ?_
  have h2 : {ω | D.Draws fixed (fun v => u v ω) y v} = {ω | (∀ c, fixed v = some c → y v = c)} ∩
      {ω | fixed v = none → Drawn (fun i => (D.rowAt v y i : ℝ)) (y v) (u v ω)} := rfl
  rw [h2]
  refine (MeasurableSet.const _).inter ?_
  by_cases hf : fixed v = none
  · simp only [hf, true_implies]
    exact (hu.meas v) (measurableSet_Ico (a := ∑ j ∈ Finset.range (y v), (D.rowAt v y j : ℝ)))
  · simp [hf]

/-- The probability that an assignment is drawn. -/
theorem draws_measure [IsProbabilityMeasure μ] (hD : D.Tabled) {u : α → Ω → ℝ} (hu : UniformNoise μ u) (fixed : α → Option ℕ) {y : α → ℕ}
    (hy : ∀ v ∈ D.dag.nodes, y v < D.dims v) :
    μ {ω | ∀ v ∈ D.dag.nodes, D.Draws fixed (fun v => u v ω) y v} = D.lawDo fixed y := by
  classical
  rw [lawDo]
  split_ifs with hc
  · have : {ω | ∀ v ∈ D.dag.nodes, D.Draws fixed (fun v => u v ω) y v} =
        ⋂ v ∈ D.dag.nodes.filter fun v => fixed v = none, u v ⁻¹' {x | Drawn (fun i => (D.rowAt v y i : ℝ)) (y v) x} := by
      ext ω
      simp only [Set.mem_ofPred_eq, Finset.mem_filter, Set.mem_iInter, Set.mem_preimage]
      exact ⟨fun h v hv => (h v hv.1).2 hv.2, fun h v hv => ⟨hc v hv, fun hf => h v ⟨hv, hf⟩⟩⟩
    rw [this, hu.indep.measure_inter_preimage_eq_mul _ (sets := fun v => {x | Drawn (fun i => (D.rowAt v y i : ℝ)) (y v) x}) fun v _ =>
      measurableSet_Ico (a := ∑ j ∈ Finset.range (y v), (D.rowAt v y j : ℝ)), ENNReal.ofNNReal_finsetProd]
    refine Finset.prod_congr rfl fun v hv => ?_
    have hv' := (Finset.mem_filter.1 hv).1
    rw [drawn_measure (hy v hv') (rowAt_sum hD hv' fun p hp => hy p (hD.valid.fst_mem _ _ (hD.pars_sub v hv' p hp))) (hu.meas v)
      (hu.law v), rowAt, List.map_append, List.map_singleton]
  · have : {ω | ∀ v ∈ D.dag.nodes, D.Draws fixed (fun v => u v ω) y v} = ∅ := by
      refine Set.eq_empty_of_forall_notMem fun ω h => hc fun v hv c => ?_
      exact (h v hv).1 c
    rw [this]; simp

theorem lawDo_none (D : DiscreteDAG α) : D.lawDo (fun _ => none) = D.law := by
  funext y
  simp [lawDo, law, joint]

end Measure

end DiscreteDAG

end Model
