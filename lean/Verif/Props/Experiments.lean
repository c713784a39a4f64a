import Verif.Proof.PerfectExperiments
import Verif.Props.DiscreteFaithful

/-! # Interventional equivalence and the distributions of experiments (properties C233, C234) -/

namespace Props

open Model Model.DAG Spec
open scoped NNReal

variable {α : Type} [DecidableEq α] {G H : DAG α} {ι : Type}

/-- In every experiment on `G` that leaves `b` alone, the distribution of `b` given its parents stays the same. -/
theorem stays {J : ι → Finset α} (hG : G.Valid) (hJ : ∀ k, J k ⊆ G.nodes) {Y : DiscreteDAG α} {Z : ι → DiscreteDAG α}
    (hX : Experiment G J Y Z) {k : ι} {b : α} (hb : b ∉ J k) (hbn : b ∈ G.nodes) {x : α → ℕ} (hx : ∀ v ∈ b :: (G.parents b).toList, x v < Y.dims v) :
    Y.pr (b :: (G.parents b).toList) x * (Z k).pr (G.parents b).toList x = (Z k).pr (b :: (G.parents b).toList) x * Y.pr (G.parents b).toList x := by
  have hCm : ∀ u, u ∈ (G.parents b).toList ↔ G.E u b := fun u => by rw [Finset.mem_toList]; exact hG.parents_iff u b
  have hset : {p | G.E p b} = {p | p ∈ (G.parents b).toList} := Set.ext fun p => (hCm p).symm
  have hsh := parents_shield (I := {i | i ∈ J k}) hG.acyclic (v := b) hb
  rw [hset] at hsh
  exact DiscreteDAG.pr_invariant hX.proper (hX.proper' k) (I := J k) (fun i hi => by rw [hX.dag]; exact hJ k hi)
    ⟨by rw [hX.dag, hX.dag'], hX.alph' k, by rw [hX.dag, hX.dag']; exact fun a h => h, fun u hu huI y _ => by
      rw [hX.dag] at hu
      rw [DiscreteDAG.kern, DiscreteDAG.kern, (hX.same k u hu huI).1, (hX.same k u hu huI).2]⟩
    (A := [b]) (C := (G.parents b).toList) (x := x)
    (List.nodup_cons.2 ⟨fun h => hG.acyclic.irrefl ((hCm b).1 h), Finset.nodup_toList _⟩) (by
      rw [hX.dag]
      intro v hv
      rcases List.mem_cons.1 hv with rfl | hv
      · exact hbn
      · exact hG.fst_mem _ _ ((hCm v).1 hv)) (by rw [hX.dag]; simpa using hsh) hx

/-- An arc out of a target that `H` reverses: `H` explains observations that `G` does not. -/
theorem arc_of_explains [DecidableEq ι] {J : ι → Finset α} (hG : G.Valid) (hH : H.Valid) (hn : H.nodes = G.nodes) (hJ : ∀ k, J k ⊆ G.nodes)
    (h : ∀ a p q, Explains H J a p q → Explains G J a p q) {k : ι} {a b : α} (ha : a ∈ J k) (hb : b ∉ J k) (hab : G.E a b) : ¬ H.E b a := by
  intro hba
  obtain ⟨D, D', e, e', hD, hD', -, -, hal, hal', hs, hpos, hf⟩ := DiscreteDAG.exists_variation hH (I := J k) fun i hi => hn ▸ hJ k hi
  obtain ⟨Y, Z, hX, h1, h2, h3⟩ := h D.alph D.pr (fun i => (if i = k then D' else D).pr) ⟨D, fun i => if i = k then D' else D, ⟨e, hD,
    fun i => by split_ifs <;> assumption, fun i => by split_ifs <;> assumption,
    fun i => by split_ifs; exacts [funext fun v => by rw [hal, hal'], rfl],
    fun i v _ hv => by split_ifs with hi; exacts [hs v (hi ▸ hv), ⟨rfl, rfl⟩]⟩, rfl, rfl, fun _ => rfl⟩
  set C := (G.parents b).toList with hC
  have hCm : ∀ u, u ∈ C ↔ G.E u b := fun u => by rw [hC, Finset.mem_toList]; exact hG.parents_iff u b
  have hnd : (b :: C).Nodup := List.nodup_cons.2 ⟨fun h => hG.acyclic.irrefl ((hCm b).1 h), Finset.nodup_toList _⟩
  have hmem : ∀ v ∈ b :: C, v ∈ G.nodes := by
    intro v hv
    rcases List.mem_cons.1 hv with rfl | hv
    · exact hG.snd_mem _ _ hab
    · exact hG.fst_mem _ _ ((hCm v).1 hv)
  have hdims : ∀ v, Y.dims v = 2 := fun v => by rw [DiscreteDAG.dims, h1, hal]; rfl
  have key := stays hG hJ hX hb (hG.snd_mem _ _ hab) (x := fun _ => 1) (fun v _ => by rw [hdims]; norm_num)
  rw [h2, h3 k] at key
  simp only [if_true] at key
  have hd := hf b C hnd (fun v hv => hn ▸ hmem v hv) key
  rw [dsep_iff] at hd
  exact hd (some b) rfl none rfl (dconn_collider (.old hba) (.target ha) ⟨some a, ⟨a, (hCm a).2 hab, rfl⟩, .refl⟩)

/-- The same for perfect interventions. -/
theorem arc_of_explainsPerfect {J : ι → Finset α} (hG : G.Valid) (hH : H.Valid) (hn : H.nodes = G.nodes) (hJ : ∀ k, J k ⊆ G.nodes)
    (h : ∀ a p q, ExplainsPerfect H J a p q → ExplainsPerfect G J a p q) {k : ι} {a b : α} (ha : a ∈ J k) (hb : b ∉ J k) (hab : G.E a b) :
    ¬ H.E b a := by
  intro hba
  obtain ⟨D, X, hX, hP, hal, hf⟩ := DiscreteDAG.perfect_variation (J := J) hH ha hba
  obtain ⟨Y, Z, hY, -, h1, h2, h3⟩ := h D.alph D.pr (fun i => (X i).pr) ⟨D, X, hX, hP, rfl, rfl, fun _ => rfl⟩
  have hCm : ∀ u, u ∈ (G.parents b).toList ↔ G.E u b := fun u => by rw [Finset.mem_toList]; exact hG.parents_iff u b
  have hdims : ∀ v, Y.dims v = 2 := fun v => by rw [DiscreteDAG.dims, h1, hal]; rfl
  refine hf (G.parents b).toList ((hCm a).2 hab) (List.nodup_cons.2 ⟨fun h => hG.acyclic.irrefl ((hCm b).1 h), Finset.nodup_toList _⟩)
    (fun v hv => ?_) fun i hi => ?_
  · rw [hn]
    rcases List.mem_cons.1 hv with rfl | hv
    · exact hG.snd_mem _ _ hab
    · exact hG.fst_mem _ _ ((hCm v).1 hv)
  · rw [← h2, ← show (Z k).pr = (X k).pr from h3 k]
    refine stays hG hJ hY hb (hG.snd_mem _ _ hab) fun v _ => ?_
    rw [hdims]
    by_cases hv : v = b
    · rw [hv, Function.update_self]; exact hi
    · rw [Function.update_of_ne hv]; norm_num

/-- What both theorems share: `K` is one of the two ways to explain observations. -/
theorem interventional_iff (iv : List (Finset α)) {K : DAG α → (α → List ℤ) → (List α → (α → ℕ) → ℝ≥0) → (Fin iv.length → List α → (α → ℕ) → ℝ≥0) → Prop}
    (fwd : ∀ {G H : DAG α}, G.Valid → H.Valid → H.nodes = G.nodes → (∀ k : Fin iv.length, iv[k] ⊆ G.nodes) → SameSkelV H.E G.E →
      (∀ k : Fin iv.length, ∀ a b, a ∈ iv[k] → b ∉ iv[k] → (G.E a b ↔ H.E a b) ∧ (G.E b a ↔ H.E b a)) → ∀ {a p q}, K G a p q → K H a p q)
    (obs : ∀ D : DiscreteDAG α, D.Proper → ∃ q, K D.dag D.alph D.pr q)
    (net : ∀ G a p q, K G a p q → ∃ D : DiscreteDAG α, D.dag = G ∧ D.Proper ∧ D.alph = a ∧ D.pr = p)
    (arc : ∀ {G H : DAG α}, G.Valid → H.Valid → H.nodes = G.nodes → (∀ k : Fin iv.length, iv[k] ⊆ G.nodes) →
      (∀ a p q, K H a p q → K G a p q) → ∀ {k : Fin iv.length} {a b : α}, a ∈ iv[k] → b ∉ iv[k] → G.E a b → ¬ H.E b a)
    (hG : G.Valid) (hH : H.Valid) (oa oa' : SetOrder Unit (α × α)) (o o' : PDAG.OrientOracle α) (hiv : ∀ I ∈ iv, I ⊆ G.nodes) :
    ∃ r : Bool, (G.markovEquivalent oa oa' o o' H (some iv)).run = some (.ok ⟨r⟩) ∧
      (r = true ↔ H.nodes = G.nodes ∧ ∀ a p q, K G a p q ↔ K H a p q) := by
  obtain ⟨r, h1, h2⟩ := C65_interventional_equivalence G H hG hH oa oa' o o' iv
  refine ⟨r, h1, h2.trans ?_⟩
  rw [eq_comm]
  refine and_congr_right fun hn => ?_
  have hJ : ∀ k : Fin iv.length, iv[k] ⊆ G.nodes := fun k => hiv _ (List.getElem_mem k.2)
  have hJ' : ∀ k : Fin iv.length, iv[k] ⊆ H.nodes := fun k => hn ▸ hJ k
  constructor
  · rintro ⟨hs, hm⟩ a p q
    have cut : ∀ k : Fin iv.length, ∀ a b, a ∈ iv[k] → b ∉ iv[k] → (G.E a b ↔ H.E a b) ∧ (G.E b a ↔ H.E b a) := by
      intro k a b ha hb
      have out : ∀ {E F : α → α → Prop}, (∀ a b, Adj (Mutilated E iv[k]) a b → Adj (Mutilated F iv[k]) a b) → E a b → F a b := by
        intro E F hm h
        rcases hm a b (Or.inl ⟨h, hb⟩) with h | h
        · exact h.1
        · exact absurd ha h.2
      have hk : iv[k] ∈ iv := List.getElem_mem k.2
      have h1 : G.E a b ↔ H.E a b := ⟨out fun a b => (hm _ hk a b).1, out fun a b => (hm _ hk a b).2⟩
      have h2 := hs.skel b a
      refine ⟨h1, fun h => ?_, fun h => ?_⟩
      · rcases h2.1 (Or.inl h) with h' | h'
        · exact h'
        · exact absurd (h1.2 h') (hG.acyclic.asymm h)
      · rcases h2.2 (Or.inl h) with h' | h'
        · exact h'
        · exact absurd (h1.1 h') (hH.acyclic.asymm h)
    refine ⟨fwd hG hH hn hJ ⟨fun a b => (hs.skel a b).symm, fun a c b => (hs.vstr a c b).symm⟩ cut,
      fwd hH hG hn.symm hJ' hs fun k a b ha hb => ?_⟩
    obtain ⟨c1, c2⟩ := cut k a b ha hb
    exact ⟨c1.symm, c2.symm⟩
  · intro h
    have plain : ∀ {G H : DAG α}, (∀ a p q, K G a p q → K H a p q) →
        ∀ D : DiscreteDAG α, D.dag = G → D.Proper → ∃ D' : DiscreteDAG α, D'.dag = H ∧ D'.alph = D.alph ∧ D'.Proper ∧ ∀ S x, D'.pr S x = D.pr S x := by
      rintro G H h D rfl hp
      obtain ⟨q, hq⟩ := obs D hp
      obtain ⟨Y, y1, y2, y3, y4⟩ := net _ _ _ _ (h _ _ _ hq)
      exact ⟨Y, y1, y3, y2, fun S x => by rw [y4]⟩
    have hs : SameSkelV G.E H.E := by
      rw [sameSkelV_iff hG.acyclic hH.acyclic G.nodes (nodes_of_valid hG) (by rw [← hn]; exact nodes_of_valid hH)]
      refine ⟨?_, subModel_of_tables hG hH hn (plain fun a p q => (h a p q).1)⟩
      rw [← hn]
      exact subModel_of_tables hH hG hn.symm (plain fun a p q => (h a p q).2)
    refine ⟨hs, fun I hI a b => ?_⟩
    obtain ⟨n, hk, rfl⟩ := List.getElem_of_mem hI
    have half : ∀ {E F : α → α → Prop}, (∀ a b, Adj E a b ↔ Adj F a b) → (∀ a b, a ∈ iv[n] → b ∉ iv[n] → E a b → ¬ F b a) →
        ∀ a b, Mutilated E iv[n] a b → Adj (Mutilated F iv[n]) a b := by
      rintro E F hs hr a b ⟨h1, h2⟩
      by_cases ha : a ∈ iv[n]
      · exact Or.inl ⟨((hs a b).1 (Or.inl h1)).resolve_right (hr a b ha h2 h1), h2⟩
      · exact ((hs a b).1 (Or.inl h1)).imp (fun h => ⟨h, h2⟩) fun h => ⟨h, ha⟩
    have r1 : ∀ a b, a ∈ iv[n] → b ∉ iv[n] → G.E a b → ¬ H.E b a := fun a b ha hb =>
      arc hG hH hn hJ (fun a p q => (h a p q).2) (k := ⟨n, hk⟩) ha hb
    have r2 : ∀ a b, a ∈ iv[n] → b ∉ iv[n] → H.E a b → ¬ G.E b a := fun a b ha hb =>
      arc hH hG hn.symm hJ' (fun a p q => (h a p q).1) (k := ⟨n, hk⟩) ha hb
    have hs' : ∀ a b, Adj H.E a b ↔ Adj G.E a b := fun a b => (hs.skel a b).symm
    exact ⟨fun hh => hh.elim (half hs.skel r1 a b) fun hh => (half hs.skel r1 b a hh).symm,
      fun hh => hh.elim (half hs' r2 a b) fun hh => (half hs' r2 b a hh).symm⟩

/-- C233. `markov_equivalent(other, interventions)` answers `True` exactly if the graphs have the same nodes and explain the same
distributions before and after interventions that change the tables of the targets. -/
theorem C233_interventional (hG : G.Valid) (hH : H.Valid) (oa oa' : SetOrder Unit (α × α)) (o o' : PDAG.OrientOracle α) (iv : List (Finset α))
    (hiv : ∀ I ∈ iv, I ⊆ G.nodes) :
    ∃ r : Bool, (G.markovEquivalent oa oa' o o' H (some iv)).run = some (.ok ⟨r⟩) ∧
      (r = true ↔ H.nodes = G.nodes ∧ ∀ (a : α → List ℤ) (p : List α → (α → ℕ) → ℝ≥0) (q : Fin iv.length → List α → (α → ℕ) → ℝ≥0),
        Explains G (fun k => iv[k]) a p q ↔ Explains H (fun k => iv[k]) a p q) :=
  interventional_iff iv (K := fun G => Explains G fun k => iv[k]) (fun hG hH hn hJ hs hc _ _ _ h => DiscreteDAG.explains_of_equivalent hG hH hn hJ hs hc h)
    (fun D hD => ⟨fun _ => D.pr, D, fun _ => D, ⟨rfl, hD, fun _ => rfl, fun _ => hD, fun _ => rfl, fun _ _ _ _ => ⟨rfl, rfl⟩⟩, rfl, rfl, fun _ => rfl⟩)
    (fun _ _ _ _ h => by obtain ⟨D, _, hX, h1, h2, _⟩ := h; exact ⟨D, hX.dag, hX.proper, h1, h2⟩) (fun hG hH hn hJ h _ _ _ => arc_of_explains hG hH hn hJ h) hG hH oa oa' o o' hiv

/-- C234. The same for perfect interventions, which make the targets independent of their parents. -/
theorem C234_perfect_interventions (hG : G.Valid) (hH : H.Valid) (oa oa' : SetOrder Unit (α × α)) (o o' : PDAG.OrientOracle α)
    (iv : List (Finset α)) (hiv : ∀ I ∈ iv, I ⊆ G.nodes) :
    ∃ r : Bool, (G.markovEquivalent oa oa' o o' H (some iv)).run = some (.ok ⟨r⟩) ∧
      (r = true ↔ H.nodes = G.nodes ∧ ∀ (a : α → List ℤ) (p : List α → (α → ℕ) → ℝ≥0) (q : Fin iv.length → List α → (α → ℕ) → ℝ≥0),
        ExplainsPerfect G (fun k => iv[k]) a p q ↔ ExplainsPerfect H (fun k => iv[k]) a p q) :=
  interventional_iff iv (K := fun G => ExplainsPerfect G fun k => iv[k])
    (fun hG hH hn hJ hs hc _ _ _ h => DiscreteDAG.explainsPerfect_of_equivalent hG hH hn hJ hs hc h)
    (fun D hD => ⟨_, D, _, (DiscreteDAG.levelNet_experiment hD fun k : Fin iv.length => iv[k]).1, (DiscreteDAG.levelNet_experiment hD _).2, rfl, rfl,
      fun _ => rfl⟩)
    (fun _ _ _ _ h => by obtain ⟨D, _, hX, _, h1, h2, _⟩ := h; exact ⟨D, hX.dag, hX.proper, h1, h2⟩) (fun hG hH hn hJ h _ _ _ => arc_of_explainsPerfect hG hH hn hJ h)
    hG hH oa oa' o o' hiv

/-- An intervention on 0 tells `0 → 1` from `0 ← 1`: one of the graphs explains observations that the other does not. -/
example : ∃ a p q, ¬ (Explains Sample.right (fun _ : Fin 1 => {0}) a p q ↔ Explains Sample.left (fun _ : Fin 1 => {0}) a p q) := by
  obtain ⟨r, h1, h2⟩ := C233_interventional Sample.right_valid Sample.left_valid Sample.order Sample.order ⟨Sample.order, Sample.order⟩
    ⟨Sample.order, Sample.order⟩ [{0}] (by decide)
  obtain ⟨r', k1, k2⟩ := C65_interventional_equivalence Sample.right Sample.left Sample.right_valid Sample.left_valid Sample.order Sample.order
    ⟨Sample.order, Sample.order⟩ ⟨Sample.order, Sample.order⟩ [{0}]
  rw [h1] at k1
  cases k1
  by_contra hc
  push Not at hc
  have := (k2.1 (h2.2 ⟨by decide, fun a p q => by
    have e : (fun k : Fin [({0} : Finset (Fin 3))].length => [({0} : Finset (Fin 3))][k]) = fun _ => {0} := by funext k; fin_cases k; rfl
    rw [e]
    exact hc a p q⟩)).2.2 {0} (by simp) 0 1
  unfold Adj Mutilated at this
  revert this
  decide

/-- A perfect intervention on 0 also tells `0 → 1` from `0 ← 1`: one of the graphs explains observations that the other does not. -/
example : ∃ a p q, ¬ (ExplainsPerfect Sample.right (fun _ : Fin 1 => {0}) a p q ↔ ExplainsPerfect Sample.left (fun _ : Fin 1 => {0}) a p q) := by
  obtain ⟨r, h1, h2⟩ := C234_perfect_interventions Sample.right_valid Sample.left_valid Sample.order Sample.order ⟨Sample.order, Sample.order⟩
    ⟨Sample.order, Sample.order⟩ [{0}] (by decide)
  obtain ⟨r', k1, k2⟩ := C65_interventional_equivalence Sample.right Sample.left Sample.right_valid Sample.left_valid Sample.order Sample.order
    ⟨Sample.order, Sample.order⟩ ⟨Sample.order, Sample.order⟩ [{0}]
  rw [h1] at k1
  cases k1
  by_contra hc
  push Not at hc
  have := (k2.1 (h2.2 ⟨by decide, fun a p q => by
    have e : (fun k : Fin [({0} : Finset (Fin 3))].length => [({0} : Finset (Fin 3))][k]) = fun _ => {0} := by funext k; fin_cases k; rfl
    rw [e]
    exact hc a p q⟩)).2.2 {0} (by simp) 0 1
  unfold Adj Mutilated at this
  revert this
  decide

end Props
