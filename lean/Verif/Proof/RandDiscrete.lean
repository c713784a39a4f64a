import Verif.Model.RandDiscrete
import Verif.Spec.Discrete
import Verif.Proof.DiscreteIv

/-! # Lemmas about random discrete models -/

namespace Model

open Spec
open scoped NNReal

/-- The constructor raises nothing if the labels are `0, …, n-1` and the shapes are right. -/
theorem discreteOnRange_ok (o : SetOrder (Option ℕ) ℕ) (oa : SetOrder Bool (ℕ × ℕ)) {G : DAG ℕ} (hG : G.Valid)
    (hn : G.nodes = Finset.range G.nodes.card) {cond : ℕ → Tensor ℝ≥0} {pars : ℕ → List ℕ} {alph : ℕ → List ℤ}
    (hp : ∀ v ∈ G.nodes, ∀ p ∈ pars v, p ∈ G.nodes)
    (hs : ∀ v ∈ G.nodes, (cond v).shape = (pars v ++ [v]).map fun p => (alph p).length) :
    ∃ H : DAG ℕ, discreteOnRange o oa G.nodes.card G.arcs G.nodes G.nodes cond pars alph = some (.ok ⟨H, cond, pars, alph⟩) ∧
      H.Valid ∧ H.nodes = G.nodes ∧ H.arcs = G.arcs := by
  obtain ⟨H, h1, h2, h3, h4⟩ := DAG.new_ok o oa (Finset.range G.nodes.card) G.arcs hG.acyclic
  refine ⟨H, ?_, h2, ?_, h3⟩
  · rw [discreteOnRange, h1]
    dsimp only
    rw [if_neg, if_pos hs]
    rintro ⟨v, hv, p, hp', h⟩
    rcases List.mem_append.1 hp' with h' | h'
    · exact h (hp v hv p h')
    · rw [List.mem_singleton.1 h'] at h
      exact h hv
  · rw [h4, ← hn]
    ext v
    simp only [Finset.mem_union, Finset.mem_image]
    constructor
    · rintro ((h | ⟨a, ha, rfl⟩) | ⟨a, ha, rfl⟩)
      · exact h
      · exact hG.fst_mem _ _ ha
      · exact hG.snd_mem _ _ ha
    · exact fun h => .inl (.inl h)

theorem tensordot_foldl (ps : List ℝ≥0) : ∀ (t : Tensor ℝ≥0) (z : List ℕ), z.length = ps.length → ∀ y : List ℕ,
    ((ps.map fun p => (⟨[2], fun idx => if idx = [0] then 1 else p⟩ : Tensor ℝ≥0)).foldl tensordot t).shape =
        t.shape ++ List.replicate ps.length 2 ∧
      ((ps.map fun p => (⟨[2], fun idx => if idx = [0] then 1 else p⟩ : Tensor ℝ≥0)).foldl tensordot t).val (y ++ z) =
        t.val y * ((ps.zip z).map fun e => if e.2 = 0 then 1 else e.1).prod := by
  induction ps using List.reverseRecOn with
  | nil =>
    intro t z hz y
    simp at hz
    simp [hz]
  | append_singleton ps p ih =>
    intro t z hz y
    rcases List.eq_nil_or_concat z with rfl | ⟨z, i, rfl⟩
    · simp at hz
    · simp only [List.concat_eq_append, List.length_append, List.length_cons, List.length_nil, zero_add, Nat.add_right_cancel_iff] at hz ⊢
      obtain ⟨h1, h2⟩ := ih t z hz y
      rw [List.map_append, List.foldl_append]
      simp only [List.map_cons, List.map_nil, List.foldl_cons, List.foldl_nil, tensordot]
      refine ⟨?_, ?_⟩
      · rw [h1, List.append_assoc, ← List.replicate_succ']
      · rw [← List.append_assoc, List.dropLast_concat, h2, List.getLastD_concat, List.zip_append hz.symm]
        simp [mul_assoc]

theorem noisyOrTable_shape (q r : ℝ≥0) (ps : List ℝ≥0) : (noisyOrTable q r ps).shape = List.replicate (ps.length + 1) 2 := by
  rw [noisyOrTable, List.replicate_succ']
  cases ps with
  | nil => simp
  | cons p ps =>
    simp only [reduceCtorEq, ↓reduceIte, tensorProduct, List.map_cons]
    rw [(tensordot_foldl ps _ (List.replicate ps.length 0) (by simp) [0]).1]
    simp [List.replicate_succ]

/-- The probability of the value zero. -/
theorem noisyOrTable_zero (q r : ℝ≥0) (ps : List ℝ≥0) (z : List ℕ) (hz : z.length = ps.length) :
    (noisyOrTable q r ps).val (z ++ [0]) =
      (if ps = [] then r else 1) * q * ((ps.zip z).map fun e => if e.2 = 0 then 1 else e.1).prod := by
  simp only [noisyOrTable, List.getLastD_concat, ↓reduceIte, List.dropLast_concat]
  cases ps with
  | nil =>
    simp at hz
    simp
  | cons p ps =>
    obtain ⟨i, z, rfl⟩ := List.exists_cons_of_ne_nil (l := z) (by rintro rfl; simp at hz)
    simp only [List.length_cons, Nat.add_right_cancel_iff] at hz
    simp only [reduceCtorEq, ↓reduceIte, tensorProduct, List.map_cons, List.zip_cons_cons, List.prod_cons]
    have := (tensordot_foldl ps ⟨[2], fun idx => if idx = [0] then 1 else p⟩ z hz [i]).2
    rw [List.singleton_append] at this
    rw [this]
    simp only [List.cons.injEq, and_true]
    ring

theorem noisyOrTable_one (q r : ℝ≥0) (ps : List ℝ≥0) (z : List ℕ) :
    (noisyOrTable q r ps).val (z ++ [1]) = 1 - (noisyOrTable q r ps).val (z ++ [0]) := by
  simp [noisyOrTable]

theorem prod_le_one_of (l : List (ℝ≥0 × ℕ)) (h : ∀ e ∈ l, e.1 ≤ 1) : (l.map fun e => if e.2 = 0 then (1 : ℝ≥0) else e.1).prod ≤ 1 := by
  induction l with
  | nil => simp
  | cons e l ih =>
    rw [List.map_cons, List.prod_cons]
    refine mul_le_one' ?_ (ih fun e he => h e (List.mem_cons_of_mem _ he))
    split
    · exact le_rfl
    · exact h e (List.mem_cons_self ..)

theorem noisyOrTable_le {q r : ℝ≥0} {ps : List ℝ≥0} (hq : q ≤ 1) (hr : r ≤ 1) (hp : ∀ p ∈ ps, p ≤ 1) (z : List ℕ)
    (hz : z.length = ps.length) : (noisyOrTable q r ps).val (z ++ [0]) ≤ 1 := by
  rw [noisyOrTable_zero q r ps z hz]
  refine mul_le_one' (mul_le_one' ?_ hq) (prod_le_one_of _ fun e he => hp _ (List.of_mem_zip (a := e.1) (b := e.2) he).1)
  split
  · exact hr
  · exact le_rfl

/-! ### Networks -/

/-- The function of a node without parents gives an array without columns, or raises. -/
theorem Network.visit_root (N : Network) {k v : ℕ} (hk : k ≠ 0) (hv : N.dag.parents v = ∅) : N.visit k v = .error .value := by
  unfold Network.visit
  rw [hv, Finset.card_empty]
  generalize hl : List.range N.layers = l
  clear hl
  suffices H : ∀ (l : List ℕ) (a : ℕ), ((l.foldlM (fun s _ => matmulShape (N.size v) s) (a, 0) : Except (Exn ℕ) _) >>= assignColumn k) =
      .error .value from H l k
  intro l
  induction l with
  | nil =>
    intro a
    change assignColumn k (a, 0) = _
    rw [assignColumn, if_neg]
    rintro ⟨-, h | h⟩
    · simp at h
    · exact hk h.symm
  | cons _ l ih =>
    intro a
    rw [List.foldlM_cons, matmulShape]
    split
    · exact ih _
    · rfl

end Model
