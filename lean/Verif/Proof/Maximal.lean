import Verif.Model.Maximal
import Verif.Proof.AGMarkov
import Verif.Proof.Districts
import Verif.Proof.InducingAdd
import Verif.Proof.PDAG
import Verif.Proof.CoreUtils

/-! # `to_maximal` and `is_maximal` -/

namespace Model.AG

universe u
variable {α : Type u} [DecidableEq α] {A : AG α}
open Relation Spec

theorem reachableB_spec (A : AG α) (pred : α → Bool) (o : SetOrder (α × Finset α) α) (fin : α) (U : Finset α)
    (hU : ∀ x, A.spouses x ⊆ U) : ∀ (n : ℕ) (v : Finset α) (start : α), (U \ v).card = n →
    ∃ N b, reachableB A pred o fin v start = some (v ∪ N, b) ∧ Disjoint N v ∧
      (∀ x ∈ N, TransGen (fun a b => b ∈ A.spouses a ∧ pred b = true) start x) ∧ (b = true ↔ fin ∈ N) ∧
      (b = false → (A.spouses start).filter (fun x => pred x) ⊆ v ∪ N ∧
        ∀ x ∈ N, (A.spouses x).filter (fun x => pred x) ⊆ v ∪ N) := by
  intro n
  induction n using Nat.strong_induction_on with
  | _ n ih =>
  intro v start hn
  rw [reachableB]
  obtain ⟨s, hs, N, h1, h2, h3, h4, h5⟩ := foldlM_option
    (f := fun (st : ReachState α) nbr =>
      if st.returned then some st
      else if nbr ∈ st.visited then some st
      else if nbr = fin then some { st with visited := insert nbr st.visited, returned := true }
      else do
        let r ← reachableB A pred o fin (insert nbr st.visited) nbr
        return { visited := r.1, returned := false, any := st.any || r.2 })
    (fun pre s => ∃ N, s.visited = v ∪ N ∧ Disjoint N v ∧
      (∀ x ∈ N, TransGen (fun a b => b ∈ A.spouses a ∧ pred b = true) start x) ∧
      ((s.returned || s.any) = true ↔ fin ∈ N) ∧
      ((s.returned || s.any) = false → (∀ x ∈ pre, x ∈ v ∪ N) ∧
        ∀ x ∈ N, (A.spouses x).filter (fun x => pred x) ⊆ v ∪ N))
    (o.ord (start, v) ((A.spouses start).filter fun x => pred x)) { visited := v, returned := false, any := false }
    ⟨∅, by simp, by simp, by simp, by simp, by simp⟩
    (by
      rintro pre x post s hl ⟨N, k1, k2, k3, k4, k5⟩
      have hx : x ∈ (A.spouses start).filter fun x => pred x := by rw [← o.mem_iff (start, v), hl]; simp
      obtain ⟨hx1, hx2⟩ := Finset.mem_filter.1 hx
      by_cases hr : s.returned = true
      · refine ⟨s, by simp [hr], N, k1, k2, k3, k4, ?_⟩
        intro hf; simp [hr] at hf
      by_cases hv : x ∈ s.visited
      · refine ⟨s, by simp [hr, hv], N, k1, k2, k3, k4, ?_⟩
        intro hf
        refine ⟨?_, (k5 hf).2⟩
        intro y hy
        rcases List.mem_append.1 hy with hy | hy
        · exact (k5 hf).1 y hy
        · simp at hy; subst hy; rw [← k1]; exact hv
      have hv' : x ∉ v ∧ x ∉ N := by rw [k1] at hv; simpa using hv
      by_cases hfin : x = fin
      · refine ⟨_, by simp only [hr, hv, if_false, if_pos hfin]; rfl, insert x N, ?_, ?_, ?_, ?_, ?_⟩
        · simp [k1]
        · simp [k2, hv'.1]
        · intro y hy
          rcases Finset.mem_insert.1 hy with rfl | hy
          · exact .single ⟨hx1, hx2⟩
          · exact k3 y hy
        · simp [hfin]
        · simp
      · have hc : (U \ insert x (v ∪ N)).card < n := by
          rw [← hn]
          refine Finset.card_lt_card ⟨?_, ?_⟩
          · intro y hy; simp at hy ⊢; tauto
          · intro hsub
            have := hsub (show x ∈ U \ v by simp [hv'.1, hU _ hx1])
            simp at this
        obtain ⟨M, b, m1, m2, m3, m4, m5⟩ := ih _ hc (insert x (v ∪ N)) x rfl
        have e : insert x (v ∪ N) ∪ M = v ∪ insert x (N ∪ M) := by
          ext y; simp
        refine ⟨⟨insert x (v ∪ N) ∪ M, false, s.any || b⟩, ?_, insert x (N ∪ M), e, ?_, ?_, ?_, ?_⟩
        · rw [if_neg hr, if_neg hv, if_neg hfin, k1, m1]; rfl
        · rw [Finset.disjoint_left] at m2 k2 ⊢
          intro y hy
          rcases Finset.mem_insert.1 hy with rfl | hy
          · exact hv'.1
          · rcases Finset.mem_union.1 hy with hy | hy
            · exact k2 hy
            · intro hyv; exact m2 hy (by simp [hyv])
        · intro y hy
          rcases Finset.mem_insert.1 hy with rfl | hy
          · exact .single ⟨hx1, hx2⟩
          · rcases Finset.mem_union.1 hy with hy | hy
            · exact k3 y hy
            · exact TransGen.head ⟨hx1, hx2⟩ (m3 y hy)
        · have hr' : s.returned = false := by simpa using hr
          rw [hr', Bool.false_or] at k4
          simp only [Bool.false_or, Bool.or_eq_true, k4, m4, Finset.mem_insert, Finset.mem_union, Ne.symm hfin, false_or]
        · intro hf
          have hr' : s.returned = false := by simpa using hr
          simp only [Bool.false_or, Bool.or_eq_false_iff] at hf
          obtain ⟨j1, j2⟩ := k5 (by simp [hr', hf.1])
          obtain ⟨j3, j4⟩ := m5 hf.2
          rw [← e]
          refine ⟨?_, ?_⟩
          · intro y hy
            rcases List.mem_append.1 hy with hy | hy
            · have := j1 y hy; simp at this ⊢; tauto
            · simp at hy; subst hy; simp
          · intro y hy
            rcases Finset.mem_insert.1 hy with rfl | hy
            · exact j3
            · rcases Finset.mem_union.1 hy with hy | hy
              · refine (j2 y hy).trans fun z hz => ?_
                simp at hz ⊢; tauto
              · exact j4 y hy)
  refine ⟨N, s.returned || s.any, ?_, h2, h3, h4, fun hf => ⟨fun y hy => ?_, (h5 hf).2⟩⟩
  · have hs' := hs
    rw [← h1]
    rw [hs']; rfl
  · exact (h5 hf).1 y ((o.mem_iff _ _ _).2 hy)

/-- `_reachable` decides reachability along bidirected edges whose ends satisfy the predicate. -/
theorem reachableB_iff (hA : A.Good) (pred : α → Bool) (o : SetOrder (α × Finset α) α) (v w : α) :
    ∃ r : Finset α × Bool, reachableB A pred o w ∅ v = some r ∧
      (r.2 = true ↔ TransGen (fun a b => A.mixed.bi a b ∧ pred b = true) v w) := by
  have hU : ∀ x, A.spouses x ⊆ A.nodes := by
    intro x y hy
    exact hA.1.bi_mem _ ((hA.1.spouses_iff _ _).1 hy) (by simp)
  have hrel : (fun a b => b ∈ A.spouses a ∧ pred b = true) = fun a b => A.mixed.bi a b ∧ pred b = true := by
    funext a b
    rw [hA.1.spouses_iff, Finset.pair_comm]; rfl
  obtain ⟨N, b, h1, -, h3, h4, h5⟩ := reachableB_spec A pred o w A.nodes hU _ ∅ v rfl
  rw [hrel] at h3
  refine ⟨_, h1, ⟨fun hb => h3 _ (h4.1 hb), fun hp => ?_⟩⟩
  by_contra hb
  have hb : b = false := by simpa using hb
  obtain ⟨j1, j2⟩ := h5 hb
  have : ∀ x, TransGen (fun a b => A.mixed.bi a b ∧ pred b = true) v x → x ∈ N := by
    intro x hx
    rw [← hrel] at hx
    induction hx with
    | single h => have := j1 (Finset.mem_filter.2 ⟨h.1, h.2⟩); simpa using this
    | tail _ h ih => have := j2 _ ih (Finset.mem_filter.2 ⟨h.1, h.2⟩); simpa using this
  have := h4.2 (this w hp)
  simp [hb] at this

/-! ## Adding the edges -/

/-- Nodes joined by an inducing path in a good ancestral graph: `add_bidirected` succeeds. -/
theorem addBidirected_ind (hA : A.Good) (hanc : A.mixed.Ancestral) {i j : α} (hij : i ≠ j) (hadj : ¬ A.mixed.Adj i j)
    (hI : A.mixed.Ind i j) : ∃ B, A.addBidirected i j = (B, none) ∧ B.Good ∧ B.bidirected = insert {i, j} A.bidirected ∧
      B.nodes = insert j (insert i A.nodes) ∧ B.directed = A.directed ∧ B.undirected = A.undirected ∧
      Mixed.AddBi A.mixed B.mixed i j := by
  obtain ⟨v, w, b1, hvj, -, b2, hwi⟩ := hI.ends hA.proper hanc
  have tail : ∀ {x y}, Path A.mixed.dir x y → ¬ (A.neighbors y).Nonempty := by
    rintro x y k ⟨z, hz⟩
    obtain ⟨c, -, hc⟩ := TransGen.tail'_iff.1 k
    rw [hA.1.neighbors_iff, Finset.pair_comm] at hz
    exact (hA.2.tails y z c hz).1 hc
  have hno : (A.addBidirectedRaw i j).2 = none := by
    unfold addBidirectedRaw
    split_ifs with c1 c2 c3 c4
    · rfl
    · exact absurd c2 (tail hwi)
    · exact absurd c3 (tail hvj)
    · rw [hA.1.adjacent_iff] at c4
      exact absurd c4 hadj
    · rfl
  obtain ⟨h1, h2, -⟩ := addBidirectedRaw_spec hA hij
  obtain ⟨k1, k2, k3, k4⟩ := h2 hno
  refine ⟨(A.addBidirectedRaw i j).1, ?_, h1, k1, k2, k3, k4, ⟨?_, ?_, ?_⟩⟩
  · rw [addBidirected_eq hA hij]; exact Prod.ext rfl hno
  · intro a b; change _ ∈ _ ↔ _ ∈ _; rw [k3]
  · intro a b; change _ ∈ _ ↔ _ ∈ _; rw [k4]
  · intro a b
    change ({a, b} : Finset α) ∈ _ ↔ ({a, b} : Finset α) ∈ A.bidirected ∨ _
    rw [k1, Finset.mem_insert, or_comm, PDAG.pair_eq_iff]

/-- What repeated adding does. -/
structure Grown (A B : AG α) : Prop where
  good : B.Good
  ancestral : B.mixed.Ancestral
  nodes : B.nodes = A.nodes
  directed : B.directed = A.directed
  undirected : B.undirected = A.undirected
  sub : A.bidirected ⊆ B.bidirected
  ind : ∀ i j, A.mixed.Ind i j → B.mixed.Ind i j
  msep : ∀ S T C : Set α, Disjoint S C → (B.mixed.MSep S T C ↔ A.mixed.MSep S T C)
  new : ∀ e ∈ B.bidirected, e ∉ A.bidirected → ∃ i j, e = {i, j} ∧ i ∈ A.nodes ∧ j ∈ A.nodes ∧ i ≠ j ∧ ¬ A.mixed.Adj i j ∧
    ∀ Z ⊆ {v | v ∈ A.nodes} \ {i, j}, ¬ A.mixed.MSep {i} {j} Z

theorem Grown.refl (hA : A.Good) (hanc : A.mixed.Ancestral) : Grown A A :=
  ⟨hA, hanc, rfl, rfl, rfl, subset_rfl, fun _ _ h => h, fun _ _ _ _ => Iff.rfl, fun _ h h' => absurd h h'⟩

theorem Grown.adj {B : AG α} (h : Grown A B) {i j : α} (hadj : ¬ B.mixed.Adj i j) : ¬ A.mixed.Adj i j := by
  rintro (k | k | k | k)
  · exact hadj (Or.inl (by change _ ∈ _; rw [h.directed]; exact k))
  · exact hadj (Or.inr (Or.inl (by change _ ∈ _; rw [h.directed]; exact k)))
  · exact hadj (Or.inr (Or.inr (Or.inl (h.sub k))))
  · exact hadj (Or.inr (Or.inr (Or.inr (by change _ ∈ _; rw [h.undirected]; exact k))))

theorem Grown.trans {B C : AG α} (h1 : Grown A B) (h2 : Grown B C) : Grown A C where
  good := h2.good
  ancestral := h2.ancestral
  nodes := h2.nodes.trans h1.nodes
  directed := h2.directed.trans h1.directed
  undirected := h2.undirected.trans h1.undirected
  sub := h1.sub.trans h2.sub
  ind i j k := h2.ind i j (h1.ind i j k)
  msep S T D hd := (h2.msep S T D hd).trans (h1.msep S T D hd)
  new e he hn := by
    by_cases hB : e ∈ B.bidirected
    · exact h1.new e hB hn
    · obtain ⟨i, j, rfl, hi, hj, hij, hadj, hZ⟩ := h2.new e he hB
      rw [h1.nodes] at hi hj hZ
      refine ⟨i, j, rfl, hi, hj, hij, h1.adj hadj, fun Z hZs hs => hZ Z hZs ?_⟩
      rw [h1.msep]
      · exact hs
      · rw [Set.disjoint_singleton_left]
        intro k; exact (hZs k).2 (by simp)

theorem Grown.step (hA : A.Good) (hanc : A.mixed.Ancestral) {i j : α} (hi : i ∈ A.nodes) (hj : j ∈ A.nodes) (hij : i ≠ j)
    (hadj : ¬ A.mixed.Adj i j) (hI : A.mixed.Ind i j) :
    ∃ B, A.addBidirected i j = (B, none) ∧ Grown A B ∧ {i, j} ∈ B.bidirected := by
  obtain ⟨B, h1, h2, h3, h4, h5, h6, h7⟩ := addBidirected_ind hA hanc hij hadj hI
  have hV : ∀ x y, A.mixed.Adj x y → x ∈ {v | v ∈ A.nodes} := fun _ _ k => (hA.adj_mem k).1
  refine ⟨B, h1, ⟨h2, h7.ancestral hA.proper hanc hI, ?_, h5, h6, ?_, fun _ _ => h7.ind, ?_, ?_⟩, ?_⟩
  · rw [h4, Finset.insert_eq_of_mem hi, Finset.insert_eq_of_mem hj]
  · rw [h3]; exact Finset.subset_insert _ _
  · intro S T C hd
    exact h7.msep hA.proper h2.proper hanc hadj hI hd
  · intro e he hn
    rw [h3, Finset.mem_insert] at he
    obtain rfl := he.resolve_right hn
    exact ⟨i, j, rfl, hi, hj, hij, hadj, (Mixed.ind_iff hA.proper hV hij hadj).1 hI⟩
  · rw [h3]; exact Finset.mem_insert_self _ _

theorem addAll_spec : ∀ (ps : List (α × α)) (A : AG α), A.Good → A.mixed.Ancestral →
    (∀ p ∈ ps, p.1 ∈ A.nodes ∧ p.2 ∈ A.nodes ∧ p.1 ≠ p.2 ∧ A.mixed.Ind p.1 p.2 ∧
      (¬ A.mixed.Adj p.1 p.2 ∨ {p.1, p.2} ∈ A.bidirected)) →
    ∃ B, forEach (fun A e => A.addBidirected e.1 e.2) ps A = (B, none) ∧ Grown A B ∧
      ∀ p ∈ ps, {p.1, p.2} ∈ B.bidirected := by
  intro ps
  induction ps with
  | nil => intro A hA hanc _; exact ⟨A, rfl, .refl hA hanc, by simp⟩
  | cons p ps ih =>
    intro A hA hanc hps
    obtain ⟨hi, hj, hij, hI, hor⟩ := hps p List.mem_cons_self
    have step : ∃ B, A.addBidirected p.1 p.2 = (B, none) ∧ Grown A B ∧ {p.1, p.2} ∈ B.bidirected := by
      by_cases hb : ({p.1, p.2} : Finset α) ∈ A.bidirected
      · refine ⟨A, ?_, .refl hA hanc, hb⟩
        rw [addBidirected_eq hA hij, addBidirectedRaw, if_pos hb]
      · exact Grown.step hA hanc hi hj hij (hor.resolve_right hb) hI
    obtain ⟨B, h1, h2, h3⟩ := step
    obtain ⟨C, k1, k2, k3⟩ := ih B h2.good h2.ancestral (by
      intro q hq
      obtain ⟨q1, q2, q3, q4, q5⟩ := hps q (List.mem_cons_of_mem _ hq)
      rw [h2.nodes]
      refine ⟨q1, q2, q3, h2.ind _ _ q4, ?_⟩
      rcases q5 with q5 | q5
      · by_cases hb : ({q.1, q.2} : Finset α) ∈ B.bidirected
        · exact Or.inr hb
        · refine Or.inl ?_
          rintro (k | k | k | k)
          · exact q5 (Or.inl (by change _ ∈ _; rw [← h2.directed]; exact k))
          · exact q5 (Or.inr (Or.inl (by change _ ∈ _; rw [← h2.directed]; exact k)))
          · exact hb k
          · exact q5 (Or.inr (Or.inr (Or.inr (by change _ ∈ _; rw [← h2.undirected]; exact k))))
      · exact Or.inr (h2.sub q5))
    refine ⟨C, ?_, h2.trans k2, ?_⟩
    · rw [forEach, h1]; exact k1
    · intro q hq
      rcases List.mem_cons.1 hq with rfl | hq
      · exact k2.sub h3
      · exact k3 q hq

/-! ## The search -/

theorem node2component_same {cs : List (Finset α)} (hd : cs.Pairwise Disjoint) {c : Finset α} (hc : c ∈ cs) {v w : α}
    (hv : v ∈ c) (hw : w ∈ c) : node2component cs v = node2component cs w := by
  have hsame : ∀ c' ∈ cs, (v ∈ c' ↔ w ∈ c') := by
    intro c' hc'
    by_cases h : c = c'
    · subst h; simp [hv, hw]
    · have := hd.forall hc hc' h
      rw [Finset.disjoint_left] at this
      exact iff_of_false (this hv) (this hw)
  have key : ∀ (l : List (Finset α × ℕ)) (d : α → Option ℕ), (∀ p ∈ l, v ∈ p.1 ↔ w ∈ p.1) → d v = d w →
      l.foldl (fun d c v => if v ∈ c.1 then some c.2 else d v) d v =
        l.foldl (fun d c v => if v ∈ c.1 then some c.2 else d v) d w := by
    intro l
    induction l with
    | nil => intro d _ h; exact h
    | cons p l ih =>
      intro d hl h
      refine ih _ (fun q hq => hl q (List.mem_cons_of_mem _ hq)) ?_
      simp only [hl p List.mem_cons_self, h]
  exact key _ _ (fun p hp => hsame _ (List.fst_mem_of_mem_zipIdx hp)) rfl

theorem node2component_some {cs : List (Finset α)} {v : α} (h : ∃ c ∈ cs, v ∈ c) : node2component cs v ≠ none := by
  have key : ∀ (l : List (Finset α × ℕ)) (d : α → Option ℕ), (d v ≠ none ∨ ∃ p ∈ l, v ∈ p.1) →
      l.foldl (fun d c v => if v ∈ c.1 then some c.2 else d v) d v ≠ none := by
    intro l
    induction l with
    | nil => intro d h; simpa using h
    | cons p l ih =>
      intro d h
      refine ih _ ?_
      rcases h with h | ⟨q, hq, hv⟩
      · left; dsimp only; split_ifs
        · simp
        · exact h
      · rcases List.mem_cons.1 hq with rfl | hq
        · left; simp [hv]
        · exact Or.inr ⟨q, hq, hv⟩
  obtain ⟨c, hc, hv⟩ := h
  obtain ⟨k, hk, rfl⟩ := List.mem_iff_getElem.1 hc
  refine key _ _ (Or.inr ⟨(cs[k], k), ?_, hv⟩)
  rw [List.mem_zipIdx_iff_getElem?]
  simp [hk]

theorem inducedPairs_spec (hA : A.Good) (hanc : A.mixed.Ancestral) (w : MaxOracle α) :
    ∃ ps, (inducedPairs A w).run = some (.ok ps) ∧
      (∀ p ∈ ps, p.1 ∈ A.nodes ∧ p.2 ∈ A.nodes ∧ p.1 ≠ p.2 ∧ A.mixed.Ind p.1 p.2 ∧ ¬ A.mixed.Adj p.1 p.2) ∧
      ∀ i ∈ A.nodes, ∀ j ∈ A.nodes, i ≠ j → ¬ A.mixed.Adj i j → A.mixed.Ind i j → (i, j) ∈ ps ∨ (j, i) ∈ ps := by
  obtain ⟨anc, ha1, ha2⟩ := ancestorDict_spec hA hanc w.top w.spouse w.kids
  obtain ⟨cs, hc1, hc2, hc3, hc4, -⟩ := districts_spec hA w.comp w.pop
  have houtset : ∀ v x, x ∈ A.outSet v ↔ A.mixed.Into v x := by
    intro v x
    rw [outSet, Finset.mem_union, hA.1.children_iff, hA.1.spouses_iff, Finset.pair_comm]; rfl
  have houtmem : ∀ {v x}, x ∈ A.outSet v → x ∈ A.nodes := by
    intro v x k
    exact (hA.adj_mem (hA.proper.ok.into_adj _ _ ((houtset v x).1 k))).2
  -- one candidate pair
  have cand : ∀ (n : α × α), n.1 ∈ A.nodes → n.2 ∈ A.nodes → ∀ acc0 : List (α × α),
      Wp (((w.nbrs.ord (n.1, n.2, false) (A.outSet n.1)).product (w.nbrs.ord (n.1, n.2, true) (A.outSet n.2))).foldlM
        (checkNbrs A w anc (node2component cs) n) acc0)
        (fun acc => (∀ p ∈ acc, p ∈ acc0 ∨ (p = n ∧ A.mixed.Ind n.1 n.2)) ∧ (∀ p ∈ acc0, p ∈ acc) ∧
          (A.mixed.Ind n.1 n.2 → n ∈ acc)) (fun _ => False) := by
    intro n hn1 hn2 acc0
    have hpred : ∀ x, decide (x ∈ anc n.1 ∨ x ∈ anc n.2) = true ↔ A.mixed.Anc2 n.1 n.2 x := by
      intro x; rw [decide_eq_true_iff, ha2 _ hn1, ha2 _ hn2]; rfl
    refine Wp.mono (Wp.foldlM (fun pre acc => (∀ p ∈ acc, p ∈ acc0 ∨ (p = n ∧ A.mixed.Ind n.1 n.2)) ∧ (∀ p ∈ acc0, p ∈ acc) ∧
      ∀ b ∈ pre, Path A.mixed.dir b.1 n.2 → Path A.mixed.dir b.2 n.1 →
        TransGen (fun a b => A.mixed.bi a b ∧ A.mixed.Anc2 n.1 n.2 b) b.1 b.2 → n ∈ acc) _ _ ?_ ?_) ?_ (fun _ h => h)
    · exact ⟨fun p h => Or.inl h, fun p h => h, by simp⟩
    · rintro pre b post acc hl ⟨i1, i2, i3⟩
      have hb : b ∈ (w.nbrs.ord (n.1, n.2, false) (A.outSet n.1)).product (w.nbrs.ord (n.1, n.2, true) (A.outSet n.2)) := by
        rw [hl]; simp
      have hb' : b.1 ∈ A.outSet n.1 ∧ b.2 ∈ A.outSet n.2 := by
        have := List.mem_product.1 (show (b.1, b.2) ∈ _ from hb)
        rwa [w.nbrs.mem_iff, w.nbrs.mem_iff] at this
      have hs1 := node2component_some ((hc3 b.1).2 (houtmem hb'.1))
      have hs2 := node2component_some ((hc3 b.2).2 (houtmem hb'.2))
      unfold checkNbrs
      rw [if_neg (by simp [hs1, hs2])]
      split_ifs with hcond
      · obtain ⟨hk, hp1, hp2⟩ := hcond
        rw [ha2 _ hn2] at hp1
        rw [ha2 _ hn1] at hp2
        obtain ⟨r, hr1, hr2⟩ := reachableB_iff hA (fun x => decide (x ∈ anc n.1 ∨ x ∈ anc n.2)) w.reach b.1 b.2
        simp only [hpred] at hr2
        refine Or.inl ⟨if r.2 then acc ++ [n] else acc, ?_, ?_, ?_, ?_⟩
        · rw [hr1]; rfl
        · intro p hp
          by_cases hr : r.2 = true
          · rw [if_pos hr] at hp
            rcases List.mem_append.1 hp with hp | hp
            · exact i1 p hp
            · simp at hp
              refine Or.inr ⟨hp, b.1, b.2, (houtset _ _).1 hb'.1, Or.inr hp1, (hr2.1 hr).to_reflTransGen, (houtset _ _).1 hb'.2⟩
          · rw [if_neg hr] at hp; exact i1 p hp
        · intro p hp
          split_ifs
          · exact List.mem_append_left _ (i2 p hp)
          · exact i2 p hp
        · intro b' hb'' q1 q2 q3
          rcases List.mem_append.1 hb'' with hb'' | hb''
          · have := i3 b' hb'' q1 q2 q3
            split_ifs
            · exact List.mem_append_left _ this
            · exact this
          · simp at hb''; subst hb''
            rw [if_pos (hr2.2 q3)]; simp
      · refine Or.inl ⟨acc, rfl, i1, i2, ?_⟩
        intro b' hb'' q1 q2 q3
        rcases List.mem_append.1 hb'' with hb'' | hb''
        · exact i3 b' hb'' q1 q2 q3
        · simp at hb''; subst hb''
          refine absurd ⟨?_, (ha2 _ hn2 _).2 q1, (ha2 _ hn1 _).2 q2⟩ hcond
          have : ReflTransGen (fun a b => ({a, b} : Finset α) ∈ A.bidirected) b'.1 b'.2 :=
            path0_mono (fun a b k => k.1) q3.to_reflTransGen
          obtain ⟨c, hc, k1, k2⟩ := (hc4 b'.1 (houtmem hb'.1) b'.2).2 this
          exact node2component_same hc2 hc k1 k2
    · rintro acc ⟨i1, i2, i3⟩
      refine ⟨i1, i2, fun hI => ?_⟩
      obtain ⟨v, x, b1, hvj, hch, b2, hwi⟩ := hI.ends hA.proper hanc
      refine i3 (v, x) ?_ hvj hwi hch
      refine List.mem_product.2 ⟨?_, ?_⟩
      · rw [w.nbrs.mem_iff]; exact (houtset _ _).2 (Or.inr b1)
      · rw [w.nbrs.mem_iff]; exact (houtset _ _).2 (Or.inr b2)
  have hmemf : ∀ n, n ∈ (DAG.pairs (w.nodes.ord () A.nodes)).filter (fun p => !A.hasAnyEdge p.1 p.2) →
      n.1 ∈ A.nodes ∧ n.2 ∈ A.nodes ∧ n.1 ≠ n.2 ∧ ¬ A.mixed.Adj n.1 n.2 := by
    intro n hn
    obtain ⟨h1, h2⟩ := List.mem_filter.1 hn
    obtain ⟨h3, h4, h5⟩ := (mem_pairs (w.nodes.nodup () A.nodes)).1 (Or.inl (show (n.1, n.2) ∈ _ from h1))
    rw [Bool.not_eq_true', ← Bool.not_eq_true, hasAnyEdge_iff] at h2
    exact ⟨(w.nodes.mem_iff _ _ _).1 h3, (w.nodes.mem_iff _ _ _).1 h4, h5, h2⟩
  have loop : Wp (((DAG.pairs (w.nodes.ord () A.nodes)).filter fun p => !A.hasAnyEdge p.1 p.2).foldlM
      (fun acc n => ((w.nbrs.ord (n.1, n.2, false) (A.outSet n.1)).product
        (w.nbrs.ord (n.1, n.2, true) (A.outSet n.2))).foldlM (checkNbrs A w anc (node2component cs) n) acc) [])
      (fun acc => (∀ p ∈ acc, p ∈ (DAG.pairs (w.nodes.ord () A.nodes)).filter (fun p => !A.hasAnyEdge p.1 p.2) ∧
        A.mixed.Ind p.1 p.2) ∧
        ∀ p ∈ (DAG.pairs (w.nodes.ord () A.nodes)).filter (fun p => !A.hasAnyEdge p.1 p.2), A.mixed.Ind p.1 p.2 → p ∈ acc)
      (fun _ => False) := by
    refine Wp.foldlM (fun (pre : List (α × α)) (acc : List (α × α)) =>
      (∀ p ∈ acc, p ∈ (DAG.pairs (w.nodes.ord () A.nodes)).filter (fun p => !A.hasAnyEdge p.1 p.2) ∧
        A.mixed.Ind p.1 p.2) ∧ ∀ p ∈ pre, A.mixed.Ind p.1 p.2 → p ∈ acc) _ _
      ⟨fun p hp => absurd hp List.not_mem_nil, fun p hp => absurd hp List.not_mem_nil⟩ ?_
    rintro pre n post acc hl ⟨i1, i2⟩
    have hn : n ∈ (DAG.pairs (w.nodes.ord () A.nodes)).filter (fun p => !A.hasAnyEdge p.1 p.2) := by rw [hl]; simp
    obtain ⟨n1, n2, -, -⟩ := hmemf n hn
    refine Wp.mono (cand n n1 n2 acc) ?_ (fun _ h => h)
    rintro acc' ⟨j1, j2, j3⟩
    refine ⟨?_, ?_⟩
    · intro p hp
      rcases j1 p hp with k | ⟨rfl, k⟩
      · exact i1 p k
      · exact ⟨hn, k⟩
    · intro p hp hI
      rcases List.mem_append.1 hp with hp | hp
      · exact j2 p (i2 p hp hI)
      · simp at hp; subst hp; exact j3 hI
  rcases loop with ⟨ps, hps, k1, k2⟩ | ⟨_, _, hf⟩
  · refine ⟨ps, ?_, ?_, ?_⟩
    · have hlift : (liftM (cComponents A w.comp w.pop) : Run α (List (Finset α))).run = some (.ok cs) := by
        rw [hc1]; rfl
      rw [inducedPairs]
      simp only [ExceptT.run_bind, ha1, hlift]
      exact hps
    · intro p hp
      obtain ⟨h1, h2⟩ := k1 p hp
      obtain ⟨m1, m2, m3, m4⟩ := hmemf p h1
      exact ⟨m1, m2, m3, h2, m4⟩
    · intro i hi j hj hij hadj hI
      have key : ∀ {i j}, ¬ A.mixed.Adj i j → (i, j) ∈ DAG.pairs (w.nodes.ord () A.nodes) →
          (i, j) ∈ (DAG.pairs (w.nodes.ord () A.nodes)).filter fun p => !A.hasAnyEdge p.1 p.2 := by
        intro i j k hp
        refine List.mem_filter.2 ⟨hp, ?_⟩
        rw [Bool.not_eq_true', ← Bool.not_eq_true, hasAnyEdge_iff]
        exact k
      rcases (mem_pairs (w.nodes.nodup () A.nodes)).2
        ⟨(w.nodes.mem_iff _ _ _).2 hi, (w.nodes.mem_iff _ _ _).2 hj, hij⟩ with k | k
      · exact Or.inl (k2 _ (key hadj k) hI)
      · exact Or.inr (k2 _ (key (fun a => hadj (hA.proper.ok.symm _ _ a)) k) (hI.symm hA.proper))
  · exact hf.elim

/-! ## The results -/

theorem hV (hA : A.Good) : ∀ x y, A.mixed.Adj x y → x ∈ {v | v ∈ A.nodes} := fun _ _ k => (hA.adj_mem k).1

/-- Edges of a grown graph that is maximal. -/
theorem Grown.exact (hA : A.Good) {B : AG α} (h : Grown A B)
    (hmax : B.mixed.Maximal {v | v ∈ B.nodes}) (e : Finset α) :
    e ∈ B.bidirected ↔ e ∈ A.bidirected ∨ ∃ i j, e = {i, j} ∧ i ∈ A.nodes ∧ j ∈ A.nodes ∧ i ≠ j ∧ ¬ A.mixed.Adj i j ∧
      ∀ Z ⊆ {v | v ∈ A.nodes} \ {i, j}, ¬ A.mixed.MSep {i} {j} Z := by
  constructor
  · intro he
    by_cases hn : e ∈ A.bidirected
    · exact Or.inl hn
    · exact Or.inr (h.new e he hn)
  · rintro (he | ⟨i, j, rfl, hi, hj, hij, hadj, hZ⟩)
    · exact h.sub he
    · by_contra hn
      have hIA : A.mixed.Ind i j := (Mixed.ind_iff hA.proper (hV hA) hij hadj).2 hZ
      refine h.good.maximal_iff.1 hmax i (by rw [h.nodes]; exact hi) j (by rw [h.nodes]; exact hj) hij ?_ (h.ind i j hIA)
      rintro (k | k | k | k)
      · exact hadj (Or.inl (by change _ ∈ _; rw [← h.directed]; exact k))
      · exact hadj (Or.inr (Or.inl (by change _ ∈ _; rw [← h.directed]; exact k)))
      · exact hn k
      · exact hadj (Or.inr (Or.inr (Or.inr (by change _ ∈ _; rw [← h.undirected]; exact k))))

/-- Pairs of nodes not joined by a bidirected edge. -/
def freePairs (A : AG α) : Finset (α × α) := (A.nodes ×ˢ A.nodes).filter fun p => ({p.1, p.2} : Finset α) ∉ A.bidirected

theorem toMaximal_spec (w : ℕ → MaxOracle α) : ∀ (m n : ℕ) (A : AG α), A.freePairs.card = m → A.Good →
    A.mixed.Ancestral → ∃ B, toMaximal w n A = some (B, none) ∧ Grown A B ∧ B.mixed.Maximal {v | v ∈ B.nodes} := by
  intro m
  induction m using Nat.strong_induction_on with
  | _ m ih =>
  intro n A hm hA hanc
  obtain ⟨ps, h1, h2, h3⟩ := inducedPairs_spec hA hanc (w n)
  obtain ⟨B, k1, k2, k3⟩ := addAll_spec ps A hA hanc fun p hp =>
    have ⟨a, b, c, d, e⟩ := h2 p hp
    ⟨a, b, c, d, Or.inl e⟩
  rw [toMaximal, h1]
  simp only [Option.bind_eq_bind, Option.bind_some, k1]
  by_cases hl : ps.length = 0
  · rw [if_pos hl]
    have hps : ps = [] := List.length_eq_zero_iff.1 hl
    subst hps
    have hAB : A = B := by simpa [forEach] using k1
    subst hAB
    refine ⟨A, rfl, k2, hA.maximal_iff.2 ?_⟩
    intro i hi j hj hij hadj hI
    rcases h3 i hi j hj hij hadj hI with k | k <;> simp at k
  · rw [if_neg hl]
    have hlt : B.freePairs.card < A.freePairs.card := by
      obtain ⟨p, hp⟩ := List.exists_mem_of_length_pos (Nat.pos_of_ne_zero hl)
      obtain ⟨p1, p2, p3, p4, p5⟩ := h2 p hp
      refine Finset.card_lt_card ⟨?_, ?_⟩
      · intro q hq
        simp only [freePairs, Finset.mem_filter, k2.nodes] at hq ⊢
        exact ⟨hq.1, fun k => hq.2 (k2.sub k)⟩
      · intro hs
        have := hs (show p ∈ A.freePairs by
          simp only [freePairs, Finset.mem_filter, Finset.mem_product]
          exact ⟨⟨p1, p2⟩, fun k => p5 (Or.inr (Or.inr (Or.inl k)))⟩)
        simp only [freePairs, Finset.mem_filter] at this
        exact this.2 (k3 p hp)
    obtain ⟨C, c1, c2, c3⟩ := ih _ (hm ▸ hlt) (n + 1) B rfl k2.good k2.ancestral
    exact ⟨C, c1, k2.trans c2, c3⟩

theorem anySep_spec (hA : A.Good) (o : SepOracle α) {i j : α} : ∀ Ss : List (Finset α), (∀ S ∈ Ss, i ∉ S) →
    ∃ r, anySep A o i j Ss = some r ∧ (r = true ↔ ∃ S ∈ Ss, A.mixed.MSep {i} {j} {x | x ∈ S}) := by
  intro Ss
  induction Ss with
  | nil => intro _; exact ⟨false, rfl, by simp⟩
  | cons S Ss ih =>
    intro hS
    obtain ⟨r, h1, h2⟩ := msep_decides hA o {i} {j} S (by simpa using hS S List.mem_cons_self)
    obtain ⟨r', h3, h4⟩ := ih fun S hS' => hS S (List.mem_cons_of_mem _ hS')
    simp only [Finset.coe_singleton] at h2
    rw [anySep, h1, Option.bind_some]
    cases r with
    | true =>
      refine ⟨true, rfl, iff_of_true rfl ⟨S, List.mem_cons_self, h2.1 rfl⟩⟩
    | false =>
      refine ⟨r', by simpa using h3, ?_⟩
      rw [h4]
      constructor
      · rintro ⟨T, hT, k⟩; exact ⟨T, List.mem_cons_of_mem _ hT, k⟩
      · rintro ⟨T, hT, k⟩
        rcases List.mem_cons.1 hT with rfl | hT
        · have := h2.2 k; simp at this
        · exact ⟨T, hT, k⟩

theorem toMaximalOld_loop (o : SepOracle α) (oS : SetOrder (α × α) α) : ∀ (ps : List (α × α)) (A : AG α), A.Good →
    A.mixed.Ancestral → (∀ p ∈ ps, p.1 ∈ A.nodes ∧ p.2 ∈ A.nodes ∧ p.1 ≠ p.2) →
    ∃ B, toMaximalOld o oS ps A = some (B, none) ∧ Grown A B ∧
      ∀ p ∈ ps, ¬ B.mixed.Adj p.1 p.2 → ∃ Z ⊆ {v | v ∈ A.nodes} \ {p.1, p.2}, A.mixed.MSep {p.1} {p.2} Z := by
  intro ps
  induction ps with
  | nil => intro A hA hanc _; exact ⟨A, rfl, .refl hA hanc, by simp⟩
  | cons p ps ih =>
    intro A hA hanc hps
    obtain ⟨hi, hj, hij⟩ := hps p List.mem_cons_self
    have hps' : ∀ q ∈ ps, q.1 ∈ A.nodes ∧ q.2 ∈ A.nodes ∧ q.1 ≠ q.2 := fun q hq => hps q (List.mem_cons_of_mem _ hq)
    rw [toMaximalOld]
    by_cases hadj : A.mixed.Adj p.1 p.2
    · rw [if_pos (hasAnyEdge_iff.2 hadj)]
      obtain ⟨B, h1, h2, h3⟩ := ih A hA hanc hps'
      refine ⟨B, h1, h2, fun q hq hn => ?_⟩
      rcases List.mem_cons.1 hq with rfl | hq
      · exact absurd hadj (h2.adj hn)
      · exact h3 q hq hn
    · rw [if_neg (by rw [hasAnyEdge_iff]; exact hadj)]
      have hpw := (powerset_spec (oS.nodup p (A.nodes \ {p.1, p.2})) 0 none).2
      have hmem : ∀ S, S ∈ powerset (oS.ord p (A.nodes \ {p.1, p.2})) 0 none ↔ S ⊆ A.nodes \ {p.1, p.2} := by
        intro S
        rw [hpw]
        have : (oS.ord p (A.nodes \ {p.1, p.2})).toFinset = A.nodes \ {p.1, p.2} := by
          ext x; rw [List.mem_toFinset, oS.mem_iff]
        simp [this]
      obtain ⟨r, hr1, hr2⟩ := anySep_spec hA o (i := p.1) (j := p.2) (powerset (oS.ord p (A.nodes \ {p.1, p.2})) 0 none) (by
        intro S hS k
        have := (hmem S).1 hS k
        simp at this)
      have hr3 : r = true ↔ ∃ Z ⊆ {v | v ∈ A.nodes} \ {p.1, p.2}, A.mixed.MSep {p.1} {p.2} Z := by
        rw [hr2]
        constructor
        · rintro ⟨S, hS, k⟩
          refine ⟨_, ?_, k⟩
          intro x hx
          have := (hmem S).1 hS hx
          simpa using this
        · rintro ⟨Z, hZ, k⟩
          classical
          refine ⟨(A.nodes \ {p.1, p.2}).filter (· ∈ Z), (hmem _).2 (Finset.filter_subset _ _), ?_⟩
          have : {x | x ∈ (A.nodes \ {p.1, p.2}).filter (· ∈ Z)} = Z := by
            ext x
            change x ∈ Finset.filter _ _ ↔ _
            simp only [Finset.mem_filter, Finset.mem_sdiff, Finset.mem_insert, Finset.mem_singleton]
            refine ⟨And.right, fun hx => ⟨?_, hx⟩⟩
            have := hZ hx
            simpa using this
          rw [this]; exact k
      rw [hr1, Option.bind_some]
      by_cases hr : r = true
      · rw [if_pos hr]
        obtain ⟨B, h1, h2, h3⟩ := ih A hA hanc hps'
        refine ⟨B, h1, h2, fun q hq hn => ?_⟩
        rcases List.mem_cons.1 hq with rfl | hq
        · exact hr3.1 hr
        · exact h3 q hq hn
      · rw [if_neg hr]
        have hI : A.mixed.Ind p.1 p.2 := by
          rw [Mixed.ind_iff hA.proper (hV hA) hij hadj]
          intro Z hZ hs
          exact hr (hr3.2 ⟨Z, hZ, hs⟩)
        obtain ⟨B, b1, b2, b3⟩ := Grown.step hA hanc hi hj hij hadj hI
        simp only [b1]
        obtain ⟨C, h1, h2, h3⟩ := ih B b2.good b2.ancestral (by rw [b2.nodes]; exact hps')
        refine ⟨C, h1, b2.trans h2, fun q hq hn => ?_⟩
        rcases List.mem_cons.1 hq with rfl | hq
        · exact absurd (Or.inr (Or.inr (Or.inl b3))) (h2.adj hn)
        · obtain ⟨Z, hZ, hs⟩ := h3 q hq hn
          rw [b2.nodes] at hZ
          refine ⟨Z, hZ, ?_⟩
          rwa [b2.msep] at hs
          rw [Set.disjoint_singleton_left]
          intro k; exact (hZ k).2 (by simp)

theorem toMaximalOld_spec (hA : A.Good) (hanc : A.mixed.Ancestral) (o : SepOracle α) (oS : SetOrder (α × α) α)
    (on : SetOrder Unit α) : ∃ B, toMaximalOld o oS (DAG.pairs (on.ord () A.nodes)) A = some (B, none) ∧ Grown A B ∧
      B.mixed.Maximal {v | v ∈ B.nodes} := by
  have hp : ∀ {i j}, ((i, j) ∈ DAG.pairs (on.ord () A.nodes) ∨ (j, i) ∈ DAG.pairs (on.ord () A.nodes)) ↔
      i ∈ A.nodes ∧ j ∈ A.nodes ∧ i ≠ j := by
    intro i j; rw [mem_pairs (on.nodup () A.nodes), on.mem_iff, on.mem_iff]
  obtain ⟨B, h1, h2, h3⟩ := toMaximalOld_loop o oS (DAG.pairs (on.ord () A.nodes)) A hA hanc
    (fun p hp' => hp.1 (Or.inl (show (p.1, p.2) ∈ _ from hp')))
  refine ⟨B, h1, h2, ?_⟩
  rw [h2.good.maximal_iff]
  have key : ∀ {i j}, i ∈ A.nodes → j ∈ A.nodes → i ≠ j → (i, j) ∈ DAG.pairs (on.ord () A.nodes) → ¬ B.mixed.Adj i j →
      ¬ B.mixed.Ind i j := by
    intro i j hi hj hij hm hadj hI
    obtain ⟨Z, hZ, hs⟩ := h3 (i, j) hm hadj
    refine Mixed.not_msep_of_ind h2.good.proper hI (Z := Z) (fun k => (hZ k).2 (by simp)) ?_
    rw [h2.msep]
    · exact hs
    · rw [Set.disjoint_singleton_left]
      intro k; exact (hZ k).2 (by simp)
  intro i hi j hj hij hadj
  rw [h2.nodes] at hi hj
  rcases hp.2 ⟨hi, hj, hij⟩ with k | k
  · exact key hi hj hij k hadj
  · intro hI
    exact key hj hi hij.symm k (fun a => hadj (h2.good.proper.ok.symm _ _ a)) (hI.symm h2.good.proper)

theorem beq_iff {B : AG α} : A.beq B = true ↔ A.nodes = B.nodes ∧ A.directed = B.directed ∧ A.bidirected = B.bidirected ∧
    A.undirected = B.undirected := by
  simp [beq, and_assoc]

/-- Equality with the maximal graph decides maximality. -/
theorem beq_maximal {B : AG α} (h : Grown A B) (hmax : B.mixed.Maximal {v | v ∈ B.nodes}) (hA : A.Good) :
    B.beq A = true ↔ A.mixed.Maximal {v | v ∈ A.nodes} := by
  rw [beq_iff]
  constructor
  · rintro ⟨h1, h2, h3, h4⟩
    have : B.mixed = A.mixed := by unfold mixed; rw [h2, h3, h4]
    rw [← this, ← h1]; exact hmax
  · intro hm
    refine ⟨h.nodes, h.directed, ?_, h.undirected⟩
    ext e
    rw [h.exact hA hmax]
    constructor
    · rintro (he | ⟨i, j, -, hi, hj, hij, hadj, hZ⟩)
      · exact he
      · obtain ⟨Z, hZ1, hZ2⟩ := hm i hi j hj hij hadj
        exact absurd hZ2 (hZ Z hZ1)
    · exact Or.inl

theorem isMaximal_spec (hA : A.Good) (hanc : A.mixed.Ancestral) (o : SetOrder (Fin 3) (α × α)) (up : Unpack α)
    (w : ℕ → MaxOracle α) : ∃ r, A.isMaximal o up w = some (.ok r) ∧ (r = true ↔ A.mixed.Maximal {v | v ∈ A.nodes}) := by
  obtain ⟨B, h1, h2, h3⟩ := toMaximal_spec w _ 0 A rfl hA hanc
  refine ⟨B.beq A, ?_, beq_maximal h2 h3 hA⟩
  rw [isMaximal, copy_spec hA]
  simp [h1]

theorem isMaximalOld_spec (hA : A.Good) (hanc : A.mixed.Ancestral) (o : SetOrder (Fin 3) (α × α)) (up : Unpack α)
    (os : SepOracle α) (on : SetOrder Unit α) (oS : SetOrder (α × α) α) :
    ∃ r, A.isMaximalOld o up os on oS = some (.ok r) ∧ (r = true ↔ A.mixed.Maximal {v | v ∈ A.nodes}) := by
  obtain ⟨B, h1, h2, h3⟩ := toMaximalOld_spec hA hanc os oS on
  refine ⟨B.beq A, ?_, beq_maximal h2 h3 hA⟩
  rw [isMaximalOld, copy_spec hA]
  simp [h1]

end Model.AG
