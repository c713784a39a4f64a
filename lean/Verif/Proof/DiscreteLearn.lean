import Verif.Spec.Classifier
import Verif.Proof.DiscreteFit
import Verif.Proof.Pgm
import Verif.Proof.Tangent
import Mathlib.Data.List.GetD

/-! # Tables made by classifiers -/

set_option linter.unusedSectionVars false

namespace Model

open Spec
open scoped NNReal

theorem length_products {β : Type} (L : List (List β)) : (products L).length = (L.map List.length).prod := by
  induction L with
  | nil => rfl
  | cons l L ih => simp [products, List.length_flatMap, ih]

theorem getD_flatMap {β γ : Type} {l : List β} {f : β → List γ} {k : ℕ} (hf : ∀ a ∈ l, (f a).length = k) {i j : ℕ} (hi : i < l.length)
    (hj : j < k) (d : γ) : (l.flatMap f).getD (i * k + j) d = (f l[i]).getD j d := by
  induction l generalizing i with
  | nil => simp at hi
  | cons a l ih =>
    have ha := hf a (by simp)
    rw [List.flatMap_cons]
    cases i with
    | zero => rw [Nat.zero_mul, Nat.zero_add, List.getD_append _ _ _ _ (by omega)]; rfl
    | succ i =>
      rw [List.getD_append_right _ _ _ _ (by rw [ha]; nlinarith), ha,
        show (i + 1) * k + j - k = i * k + j by rw [Nat.succ_mul]; omega, ih (fun b hb => hf b (by simp [hb])) (by simpa using hi)]
      rfl

theorem getD_products {β : Type} (d : β) {L : List (List β)} {idx : List ℕ} (h : List.Forall₂ (· < ·) idx (L.map List.length)) :
    (products L).getD (ravel (L.map List.length) idx) [] = List.zipWith (fun i l => l.getD i d) idx L := by
  induction L generalizing idx with
  | nil => cases h; rfl
  | cons l L ih =>
    cases h with
    | @cons i _ is _ hi hs =>
      have hlt := ravel_lt hs
      rw [List.map_cons, ravel, products, getD_flatMap (k := (L.map List.length).prod) (fun a _ => by rw [List.length_map, length_products]) hi
        hlt, List.getD_eq_getElem?_getD, List.getElem?_map, List.zipWith_cons_cons, ← ih hs]
      rw [List.getD_eq_getElem?_getD, List.getElem?_eq_getElem (by rw [length_products]; exact hlt)]
      simp [hi, List.getElem?_eq_getElem (show _ < (products L).length by rw [length_products]; exact hlt)]

/-- The table of a classifier, before the columns are moved. -/
theorem probs_reshape (m : Classifier) (L : List (List ℤ)) :
    ∃ t : Tensor ℝ≥0, ((⟨[(products L).length, m.classes.length], fun idx => m.proba ((products L).getD (idx.getD 0 0) []) (idx.getD 1 0)⟩ :
        Tensor ℝ≥0).reshape (L.map List.length ++ [m.classes.length]) : Except (Exn ℕ) _) = .ok t ∧
      t.shape = L.map List.length ++ [m.classes.length] ∧
      ∀ idx k, List.Forall₂ (· < ·) idx (L.map List.length) → k < m.classes.length →
        t.val (idx ++ [k]) = m.proba (List.zipWith (fun i l => l.getD i 0) idx L) k := by
  refine ⟨_, if_pos (by simp [length_products]), rfl, fun idx k hi hk => ?_⟩
  have hK : 0 < m.classes.length := by omega
  dsimp only
  rw [ravel_snoc (by simpa using hi.length_eq)]
  have e : unravel [(products L).length, m.classes.length] (ravel (L.map List.length) idx * m.classes.length + k) =
      [ravel (L.map List.length) idx, k] := by
    simp only [unravel, List.prod_cons, List.prod_nil, mul_one, Nat.div_one]
    rw [Nat.add_comm, Nat.add_mul_div_right _ _ hK, Nat.div_eq_of_lt hk, Nat.zero_add, Nat.add_mul_mod_self_right, Nat.mod_eq_of_lt hk]
  rw [e]
  simp only [List.getD_cons_zero, List.getD_cons_succ]
  rw [getD_products 0 hi]

theorem sorted_range {l : List ℕ} (h : l.Pairwise (· < ·)) {k : ℕ} (hk : ∀ c ∈ l, c < k) (hl : l.length = k) : l = List.range k := by
  have hp : l.Perm (List.range k) := by
    have hs : List.Subperm l (List.range k) := (List.subperm_of_subset (h.imp fun h => h.ne) fun c hc => List.mem_range.2 (hk c hc))
    exact hs.perm_of_length_le (by simp [hl])
  exact hp.eq_of_pairwise (fun a b _ _ h1 h2 => absurd h1 (by omega)) h List.pairwise_lt_range

/-- The columns of the table, if the alphabet is `0..k-1`. -/
theorem extractConditional_ok {m : Classifier} {L : List (List ℤ)} {vals : List ℤ} (hs : m.classes.Pairwise (· < ·))
    (hc : ∀ c ∈ m.classes, c < vals.length) :
    ∃ t, extractConditional m L vals = .ok t ∧ t.shape = L.map List.length ++ [vals.length] ∧
      ∀ idx k, List.Forall₂ (· < ·) idx (L.map List.length) → k < vals.length →
        t.val (idx ++ [k]) = m.prob (List.zipWith (fun i l => l.getD i 0) idx L) k := by
  obtain ⟨t, h1, h2, h3⟩ := probs_reshape m L
  rw [extractConditional, h1]
  dsimp only
  have hnd : m.classes.Nodup := hs.imp fun h => h.ne
  by_cases hl : m.classes.length = vals.length
  · refine ⟨t, if_pos hl, by rw [h2, hl], fun idx k hi hk => ?_⟩
    rw [h3 idx k hi (by omega), Classifier.prob]
    have hr := sorted_range hs hc hl
    have hkm : k ∈ m.classes := by rw [hr]; exact List.mem_range.2 hk
    rw [if_pos hkm]
    congr 1
    have : m.classes[k]'(by omega) = k := by simp [hr]
    conv_lhs => rw [← hnd.idxOf_getElem k (by omega)]
    rw [this]
  · rw [if_neg hl, if_neg (by push Not; exact hc)]
    refine ⟨_, rfl, rfl, fun idx k hi hk => ?_⟩
    dsimp only
    rw [List.getLastD_concat, List.dropLast_concat, Classifier.prob]
    split_ifs with hkm
    · exact h3 idx _ hi (List.idxOf_lt_length_iff.2 hkm)
    · rfl

theorem sum_prob {m : Classifier} (hs : m.classes.Pairwise (· < ·)) {k : ℕ} (hc : ∀ c ∈ m.classes, c < k) {z : List ℤ}
    (h1 : ∑ i ∈ Finset.range m.classes.length, m.proba z i = 1) : ∑ c ∈ Finset.range k, m.prob z c = 1 := by
  have hnd : m.classes.Nodup := hs.imp fun h => h.ne
  rw [← h1]
  have e : ∑ c ∈ Finset.range k, m.prob z c = ∑ c ∈ m.classes.toFinset, m.proba z (m.classes.idxOf c) := by
    rw [← Finset.sum_filter_add_sum_filter_not (Finset.range k) (· ∈ m.classes)]
    rw [Finset.sum_eq_zero (s := (Finset.range k).filter fun c => c ∉ m.classes) (fun c hcm => by
      rw [Classifier.prob, if_neg (Finset.mem_filter.1 hcm).2]), add_zero]
    refine Finset.sum_congr (Finset.ext fun c => ?_) fun c hcm => ?_
    · simp only [Finset.mem_filter, Finset.mem_range, List.mem_toFinset]
      exact ⟨fun h => h.2, fun h => ⟨hc c h, h⟩⟩
    · rw [Classifier.prob, if_pos (List.mem_toFinset.1 hcm)]
  rw [e]
  refine Finset.sum_bij (fun c _ => m.classes.idxOf c) (fun c hcm => ?_) (fun c hcm d hdm h => ?_) (fun i hi => ?_) fun _ _ => rfl
  · exact Finset.mem_range.2 (List.idxOf_lt_length_iff.2 (List.mem_toFinset.1 hcm))
  · exact (List.idxOf_inj (List.mem_toFinset.1 hcm)).1 h
  · have hi' := Finset.mem_range.1 hi
    exact ⟨m.classes[i], List.mem_toFinset.2 (List.getElem_mem hi'), hnd.idxOf_getElem i hi'⟩

variable {N n : ℕ} {data : Fin N → ℕ → ℕ}

/-- `fit`, given the tables of the nodes. -/
theorem fitLearned_run (o ot : SetOrder (Option ℕ) ℕ) (oa : SetOrder Bool (ℕ × ℕ)) (op : SetOrder ℕ ℕ) (oz : SetOrder ℕ (List ℕ))
    (train : Trainer N) {G : DAG ℕ} (hG : G.Valid) {alphabets : Option (ℕ → List ℤ)} {alph : ℕ → List ℤ}
    (ha : (match alphabets with
      | some a => Except.ok a
      | none => defaultAlphabets n data G.nodes) = .ok alph) {T : ℕ → Tensor ℝ≥0}
    (hT : ∀ v ∈ G.nodes, learnTable train oz n data alph v (op.ord v (G.parents v)) = .ok (T v) ∧
      (T v).shape = (op.ord v (G.parents v) ++ [v]).map fun p => (alph p).length) :
    ∃ D, (fitLearned o ot oa op oz train G n data alphabets).run = some (.ok D) ∧ D.dag.Valid ∧ D.dag.nodes = G.nodes ∧
      D.dag.arcs = G.arcs ∧ D.alph = alph ∧ (D.pars = fun v => op.ord v (G.parents v)) ∧ ∀ v ∈ G.nodes, D.cond v = T v := by
  obtain ⟨t, ht1, ht⟩ := DAG.topologicalSort_ok G ot hG
  set pars : ℕ → List ℕ := fun v => op.ord v (G.parents v) with hpars
  have fold : ∀ (L : List ℕ), (∀ v ∈ L, v ∈ G.nodes) → ∀ c : ℕ → Tensor ℝ≥0, ∃ c' : ℕ → Tensor ℝ≥0,
      (L.foldlM (fun (c : ℕ → Tensor ℝ≥0) v => do
        let x ← (ExceptT.mk (some (learnTable train oz n data alph v (pars v))) : Run ℕ (Tensor ℝ≥0))
        return Function.update c v x) c : Run ℕ (ℕ → Tensor ℝ≥0)).run = some (.ok c') ∧ (∀ v, v ∉ L → c' v = c v) ∧
      ∀ v ∈ L, c' v = T v := by
    intro L
    induction L with
    | nil => exact fun _ c => ⟨c, rfl, fun _ _ => rfl, by simp⟩
    | cons v L ih =>
        intro hL c
        have hx := (hT v (hL v (by simp))).1
        obtain ⟨c', h1, h2, h3⟩ := ih (fun w hw => hL w (by simp [hw])) (Function.update c v (T v))
        refine ⟨c', ?_, fun w hw => ?_, fun w hw => ?_⟩
        · rw [List.foldlM_cons]
          refine Eq.trans (DiscreteDAG.run_bind_ok (b := Function.update c v (T v)) ?_ _) h1
          rw [hx]
          rfl
        · rw [h2 w (fun h => hw (by simp [h])), Function.update_of_ne]
          rintro rfl
          simp at hw
        · by_cases hwL : w ∈ L
          · exact h3 w hwL
          · have hwv : w = v := by simpa [hwL] using hw
            subst hwv
            rw [h2 w hwL, Function.update_self]
  obtain ⟨c', h1, -, h3⟩ := fold t (fun v hv => (ht.mem_iff v).1 hv) fun _ => ⟨[], fun _ => 0⟩
  have h3' : ∀ v ∈ G.nodes, c' v = T v := fun v hv => h3 v ((ht.mem_iff v).2 hv)
  obtain ⟨G', g1, g2, g3, g4⟩ := DiscreteDAG.new_ok o oa (nodes := G.nodes) (arcs := G.arcs) hG.acyclic
    (fun a ha => ⟨hG.fst_mem _ _ ha, hG.snd_mem _ _ ha⟩) (cond := c') (pars := pars) (alph := alph) fun v hv => by
      rw [h3' v hv]; exact (hT v hv).2
  refine ⟨⟨G', c', pars, alph⟩, ?_, g2, g3, g4, rfl, rfl, h3'⟩
  have tail : ((do
      let t ← G.topologicalSort ot
      let cond ← t.foldlM (fun (c : ℕ → Tensor ℝ≥0) v => do
        let x ← (ExceptT.mk (some (learnTable train oz n data alph v (pars v))) : Run ℕ (Tensor ℝ≥0))
        return Function.update c v x) fun _ => ⟨[], fun _ => 0⟩
      ExceptT.mk (DiscreteDAG.new o oa G.nodes G.arcs cond pars alph)) : Run ℕ (DiscreteDAG ℕ)).run =
      some (.ok ⟨G', c', pars, alph⟩) := by
    rw [DiscreteDAG.run_bind_ok ht1, DiscreteDAG.run_bind_ok h1]
    exact g1
  unfold fitLearned
  cases alphabets with
  | some a =>
      cases ha
      exact tail
  | none =>
      refine Eq.trans (DiscreteDAG.run_bind_ok (b := alph) ?_ _) tail
      exact congrArg some ha

theorem zipWith_count {ps : List ℕ} {k : ℕ → ℕ} {y : ℕ → ℕ} (hy : ∀ p ∈ ps, y p < k p) :
    List.zipWith (fun i (l : List ℤ) => l.getD i 0) (ps.map y) (ps.map fun p => (List.range (k p)).map fun i : ℕ => (i : ℤ)) =
      ps.map fun p => (y p : ℤ) := by
  induction ps with
  | nil => rfl
  | cons p ps ih =>
    simp only [List.map_cons, List.zipWith_cons_cons]
    rw [ih fun q hq => hy q (by simp [hq])]
    congr 1
    rw [List.getD_eq_getElem?_getD]
    simp [hy p (by simp)]

theorem forall₂_lt {ps : List ℕ} {k : ℕ → ℕ} {y : ℕ → ℕ} (hy : ∀ p ∈ ps, y p < k p) : List.Forall₂ (· < ·) (ps.map y) (ps.map k) := by
  induction ps with
  | nil => exact .nil
  | cons p ps ih => exact .cons (hy p (by simp)) (ih fun q hq => hy q (by simp [hq]))

/-- What is in the table of a node. -/
structure Learned (train : Trainer N) (data : Fin N → ℕ → ℕ) (k : ℕ → ℕ) (v : ℕ) (ps : List ℕ) (t : Tensor ℝ≥0) : Prop where
  shape : t.shape = (ps ++ [v]).map k
  root : ps = [] → ∀ i < k v, t.val [i] = ((Finset.univ.filter fun j => data j v = i).card : ℝ≥0) / N
  const : ps ≠ [] → ∀ c, (∀ j, data j v = c) → ∀ y : ℕ → ℕ, t.val ((ps ++ [v]).map y) = if y v = c then 1 else 0
  model : ps ≠ [] → (∃ i j, data i v ≠ data j v) → ∀ m, train (fun j => ps.map (data j)) (fun j => data j v) = .ok m →
    ∀ y : ℕ → ℕ, (∀ u ∈ ps ++ [v], y u < k u) → t.val ((ps ++ [v]).map y) = m.prob (ps.map fun p => (y p : ℤ)) (y v)
  total : ∀ y : ℕ → ℕ, (∀ u ∈ ps, y u < k u) → ∑ i ∈ Finset.range (k v), t.val (ps.map y ++ [i]) = 1

theorem learnTable_ok {train : Trainer N} (htr : Trains train) (oz : SetOrder ℕ (List ℕ)) (hN : N ≠ 0) {k : ℕ → ℕ} {v : ℕ} (hv : v < n)
    {ps : List ℕ} (hps : ∀ p ∈ ps, p < n) (hvp : v ∉ ps) (hd : ∀ j, ∀ u ∈ ps ++ [v], data j u < k u) :
    ∃ t, learnTable train oz n data (fun v => (List.range (k v)).map fun i : ℕ => (i : ℤ)) v ps = .ok t ∧ Learned train data k v ps t := by
  have hdv : ∀ j, data j v < k v := fun j => hd j v (by simp)
  have hN' : (N : ℝ≥0) ≠ 0 := by simpa using hN
  have hdims : (ps.map fun v => (List.range (k v)).map fun i : ℕ => (i : ℤ)).map List.length = ps.map k := by
    simp [Function.comp_def]
  rw [learnTable]
  by_cases h0 : ps = []
  · subst h0
    rw [if_pos rfl]
    have hval : ∀ i < k v, frequencies data Finset.univ v ((List.range (k v)).map fun i : ℕ => (i : ℤ)) 0 i =
        ((Finset.univ.filter fun j => data j v = i).card : ℝ≥0) / N := fun i hi => by
      rw [frequencies_eq rfl (fun j _ => hdv j) hi]
      simp
    refine ⟨_, by rw [fitConditional, if_neg (not_le.2 hv), if_pos rfl], ?_, fun _ i hi => hval i hi, fun h => absurd rfl h,
      fun h => absurd rfl h, fun y _ => ?_⟩
    · simp
    · have := sum_frequencies (data := data) (S := Finset.univ) (node := v) (k := k v) rfl (fun j _ => hdv j) (add := 0) (by simpa using hN)
      exact this
  rw [if_neg h0, if_neg (not_le.2 hv)]
  by_cases hcst : ∃ c, ∀ j, data j v = c
  · obtain ⟨c, hc⟩ := hcst
    have hcard : (Finset.univ.image fun j => data j v).card = 1 ∧ 0 < N := by
      refine ⟨Finset.card_eq_one.2 ⟨c, Finset.ext fun x => ?_⟩, Nat.pos_of_ne_zero hN⟩
      simp only [Finset.mem_image, Finset.mem_univ, true_and, Finset.mem_singleton, hc]
      exact ⟨fun ⟨_, h⟩ => h.symm, fun h => ⟨⟨0, Nat.pos_of_ne_zero hN⟩, h.symm⟩⟩
    have hck : c < k v := hc ⟨0, Nat.pos_of_ne_zero hN⟩ ▸ hdv _
    have hidx : ((List.range (k v)).map fun i : ℕ => (i : ℤ)).idxOf (c : ℤ) = c := by
      have hnd : ((List.range (k v)).map fun i : ℕ => (i : ℤ)).Nodup := List.nodup_range.map Nat.cast_injective
      have := hnd.idxOf_getElem c (by simpa using hck)
      simpa using this
    rw [dif_pos hcard, indicatorConditional, if_pos (by rw [hc]; simpa using hck)]
    refine ⟨_, rfl, ?_, fun h => absurd h h0, fun _ c' hc' y => ?_, fun _ ⟨i, j, h⟩ => absurd (by rw [hc, hc]) h, fun y _ => ?_⟩
    · simp only [hdims]
      simp
    · obtain rfl : c' = c := by rw [← hc ⟨0, Nat.pos_of_ne_zero hN⟩, hc']
      dsimp only
      rw [hc, hidx, List.map_append, List.map_singleton, List.getLastD_concat]
    · dsimp only
      simp only [hc, hidx, List.getLastD_concat]
      rw [Finset.sum_ite_eq' (Finset.range (k v)) c, if_pos (Finset.mem_range.2 hck)]
  · have hcard : ¬ ((Finset.univ.image fun j => data j v).card = 1 ∧ 0 < N) := by
      rintro ⟨h, -⟩
      obtain ⟨c, hc⟩ := Finset.card_eq_one.1 h
      refine hcst ⟨c, fun j => ?_⟩
      have : data j v ∈ Finset.univ.image fun j => data j v := Finset.mem_image_of_mem _ (Finset.mem_univ j)
      rw [hc] at this
      simpa using this
    have hne : ∃ i j, data i v ≠ data j v := by
      push Not at hcst
      obtain ⟨j, hj⟩ := hcst (data ⟨0, Nat.pos_of_ne_zero hN⟩ v)
      exact ⟨j, _, hj⟩
    rw [dif_neg hcard, if_neg (by push Not; exact hps)]
    obtain ⟨m, hm, hs, hcl, hsum⟩ := htr (fun j => ps.map (data j)) (fun j => data j v) hne
    have hck : ∀ c ∈ m.classes, c < k v := fun c hc => by
      obtain ⟨j, rfl⟩ := (hcl c).1 hc
      exact hdv j
    obtain ⟨t, h1, h2, h3⟩ := extractConditional_ok (L := ps.map fun v => (List.range (k v)).map fun i : ℕ => (i : ℤ))
      (vals := (List.range (k v)).map fun i : ℕ => (i : ℤ)) hs (by simpa using hck)
    rw [hdims] at h2 h3
    have hval : ∀ y : ℕ → ℕ, (∀ u ∈ ps, y u < k u) → ∀ i < k v, t.val (ps.map y ++ [i]) = m.prob (ps.map fun p => (y p : ℤ)) i :=
      fun y hy i hi => by rw [h3 _ i (forall₂_lt hy) (by simpa using hi), zipWith_count hy]
    refine ⟨t, by rw [hm]; exact h1, ?_, fun h => absurd h h0, fun _ c hc => absurd ⟨c, hc⟩ hcst, fun _ _ m' hm' y hy => ?_, fun y hy => ?_⟩
    · rw [h2]; simp
    · rw [hm] at hm'
      cases hm'
      rw [List.map_append, List.map_singleton]
      exact hval y (fun u hu => hy u (by simp [hu])) _ (hy v (by simp))
    · rw [Finset.sum_congr rfl fun i hi => hval y hy i (Finset.mem_range.1 hi)]
      exact sum_prob hs hck (hsum _)

/-- The result of `fit` with a classifier. -/
theorem fitLearned_ok (o ot : SetOrder (Option ℕ) ℕ) (oa : SetOrder Bool (ℕ × ℕ)) (op : SetOrder ℕ ℕ) (oz : SetOrder ℕ (List ℕ))
    {train : Trainer N} (htr : Trains train) {G : DAG ℕ} (hG : G.Valid) (hn : ∀ v ∈ G.nodes, v < n) (hN : N ≠ 0)
    {alphabets : Option (ℕ → List ℤ)} {k : ℕ → ℕ}
    (ha : (match alphabets with
      | some a => Except.ok a
      | none => defaultAlphabets n data G.nodes) = .ok fun v => (List.range (k v)).map fun i : ℕ => (i : ℤ))
    (hd : ∀ j, ∀ v ∈ G.nodes, data j v < k v) :
    ∃ D, (fitLearned o ot oa op oz train G n data alphabets).run = some (.ok D) ∧ D.Proper ∧ D.dag.nodes = G.nodes ∧
      D.dag.arcs = G.arcs ∧ (D.alph = fun v => (List.range (k v)).map fun i : ℕ => (i : ℤ)) ∧
      ∀ v ∈ G.nodes, Learned train data k v (D.pars v) (D.cond v) := by
  have hpi : ∀ v u, u ∈ op.ord v (G.parents v) ↔ (u, v) ∈ G.arcs := fun v u => by rw [op.mem_iff, hG.parents_iff]
  have hpn : ∀ v, ∀ p ∈ op.ord v (G.parents v), p ∈ G.nodes := fun v p hp => hG.fst_mem _ _ ((hpi v p).1 hp)
  have hex : ∀ v, ∃ t, v ∈ G.nodes → learnTable train oz n data (fun v => (List.range (k v)).map fun i : ℕ => (i : ℤ)) v (op.ord v (G.parents v)) = .ok t ∧
      Learned train data k v (op.ord v (G.parents v)) t := fun v => by
    by_cases hv : v ∈ G.nodes
    · obtain ⟨t, h⟩ := learnTable_ok (data := data) (n := n) htr oz hN (k := k) (hn v hv) (fun p hp => hn p (hpn v p hp))
        (fun h => hG.acyclic v (.single ((hpi v v).1 h))) (fun j u hu => hd j u (by
          rcases List.mem_append.1 hu with h | h
          · exact hpn v u h
          · rwa [List.mem_singleton.1 h]))
      exact ⟨t, fun _ => h⟩
    · exact ⟨⟨[], fun _ => 0⟩, fun h => absurd h hv⟩
  choose T hT using hex
  obtain ⟨D, g1, g2, g3, g4, g5, g6, g7⟩ := fitLearned_run o ot oa op oz train (n := n) (data := data) (alphabets := alphabets) hG ha (T := T)
    fun v hv => ⟨(hT v hv).1, by rw [(hT v hv).2.shape]; simp⟩
  have hL : ∀ v ∈ G.nodes, Learned train data k v (D.pars v) (D.cond v) := fun v hv => by
    rw [g6, g7 v hv]; exact (hT v hv).2
  have hdims : D.dims = k := by
    funext v
    simp [DiscreteDAG.dims, g5]
  refine ⟨D, g1, ⟨⟨g2, fun v _ => by rw [g6]; exact op.nodup v _, fun v _ u => by rw [g6, g4]; exact hpi v u, fun v hv => ?_⟩,
    fun v hv y hy => ?_⟩, g3, g4, g5, hL⟩
  · rw [(hL v (g3 ▸ hv)).shape, hdims]
  · rw [hdims] at hy ⊢
    exact (hL v (g3 ▸ hv)).total y hy

namespace DiscreteDAG

theorem pyIndex_nat {len i : ℕ} (h : i < len) : pyIndex len (i : ℤ) = some i := by
  rw [pyIndex, if_pos ⟨by omega, by omega⟩, Int.toNat_natCast]

theorem pyIndex_neg {len i : ℕ} (h : i < len) : pyIndex len ((i : ℤ) - len) = some i := by
  rw [pyIndex, if_neg (by omega), if_pos ⟨by omega, by omega⟩, Int.sub_add_cancel, Int.toNat_natCast]

/-- The rows of the table. -/
theorem predict_ok {D : DiscreteDAG ℕ} (hD : D.Shaped) {v : ℕ} (hv : v ∈ D.dag.nodes) (hp : D.pars v ≠ []) {x : Fin N → ℕ → ℕ}
    (hx : ∀ j, ∀ p ∈ D.pars v, x j p < D.dims p) {vals : Fin N → ℕ → ℤ}
    (hvals : ∀ j c, ∀ h : c < (D.pars v).length, vals j c = (x j ((D.pars v)[c]) : ℤ) ∨
      vals j c = (x j ((D.pars v)[c]) : ℤ) - D.dims ((D.pars v)[c])) :
    ∃ t, D.predictFromParents v (D.pars v).length vals = .ok t ∧ t.shape = [N, D.dims v] ∧
      ∀ j i, t.val [(j : Fin N).val, i] = (D.cond v).val ((D.pars v).map (x j) ++ [i]) := by
  have hs := hD.shape v hv
  have hget : ∀ c, ∀ h : c < (D.pars v).length, (D.cond v).shape.getD c 0 = D.dims ((D.pars v)[c]) := fun c h => by
    rw [hs, List.getD_eq_getElem?_getD, List.map_append, List.getElem?_append_left (by simpa using h)]
    simp [h]
  have hix : ∀ j c, c < (D.pars v).length → pyIndex ((D.cond v).shape.getD c 0) (vals j c) = some (x j ((D.pars v).getD c 0)) := fun j c h => by
    rw [hget c h, List.getD_eq_getElem _ _ h]
    rcases hvals j c h with k | k <;> rw [k]
    · exact pyIndex_nat (hx j _ (List.getElem_mem h))
    · exact pyIndex_neg (hx j _ (List.getElem_mem h))
  rw [predictFromParents]
  rw [if_neg (by simpa using hp), if_neg (by rw [hs]; simp), if_neg]
  · refine ⟨_, rfl, ?_, fun j i => ?_⟩
    · dsimp only
      rw [hs, List.map_append, List.drop_left' (by simp)]
      rfl
    · dsimp only
      congr 2
      refine List.ext_getElem (by simp) fun c h1 h2 => ?_
      have hc : c < (D.pars v).length := by simpa using h1
      simp only [List.getElem_map, List.getElem_range, List.headD_cons, dif_pos j.2]
      rw [hix _ c hc, List.getD_eq_getElem _ _ hc]
      rfl
  · rintro ⟨j, c, hc, h⟩
    rw [hix j c hc] at h
    cases h

/-- The row for given values of the parents is the conditional distribution. -/
theorem pr_row {D : DiscreteDAG ℕ} (hD : D.Proper) (ot : SetOrder (Option ℕ) ℕ) {v : ℕ} (hv : v ∈ D.dag.nodes) {x : ℕ → ℕ} {i : ℕ}
    (hi : i < D.dims v) :
    D.pr (D.pars v ++ [v]) (Function.update x v i) = (D.cond v).val ((D.pars v).map x ++ [i]) * D.pr (D.pars v) x := by
  have hvp : v ∉ D.pars v := hD.toShaped.not_mem_pars hv
  have hk := part_kern hD ot hv (x := Function.update x v i) (by simpa using hi)
  have hpa : ∀ u, u ∈ D.pars v ↔ u ∈ D.dag.parents v := fun u => by rw [hD.pars_iff v hv, hD.valid.parents_iff]
  rw [part_one D (L := D.pars v ++ [v]) (fun u => by simp [hpa, or_comm]), part_one D hpa] at hk
  have e1 : D.pr (D.pars v) (Function.update x v i) = D.pr (D.pars v) x := by
    rw [pr, pr]
    congr 1
    funext y
    refine propext (forall₂_congr fun u hu => ?_)
    rw [Function.update_of_ne (ne_of_mem_of_not_mem hu hvp)]
  have e2 : D.kern v (Function.update x v i) = (D.cond v).val ((D.pars v).map x ++ [i]) := by
    rw [kern, List.map_append, List.map_singleton, Function.update_self]
    congr 2
    exact List.map_congr_left fun u hu => Function.update_of_ne (ne_of_mem_of_not_mem hu hvp) _ _
  rw [e1, e2] at hk
  exact_mod_cast hk

end DiscreteDAG

end Model
