import Verif.Model.PDAGMore
import Verif.Spec.Chordal
import Verif.Proof.CPDAG
import Verif.Proof.UGConvert
import Verif.Proof.DAGSimple
import Verif.Props.Components
import Mathlib.Combinatorics.Enumerative.DoubleCounting
import Verif.Model.PDAGCompare

/-! # Lemmas for `Props.PDAGMore` -/

namespace Spec

open Relation
universe u
variable {α : Type u} [DecidableEq α] {E B : α → α → Prop}

theorem Elim.exists_simplicial {U : α → α → Prop} {V : Finset α} (h : Elim U V) (hne : V.Nonempty) : ∃ v ∈ V, Simplicial U (V.erase v) v := by
  cases h with
  | empty => simp at hne
  | @cons v W hv hs _ => exact ⟨v, by simp, by rwa [Finset.erase_insert hv]⟩

theorem fin_succ_ne {n : ℕ} (i : Fin (n + 4)) : i + 1 ≠ i ∧ i - 1 ≠ i ∧ i - 1 ≠ i + 1 ∧ i - 1 ≠ i + 1 + 1 := by
  have e1 : ((1 : Fin (n + 4)) : ℕ) = 1 := by simp
  have e2 : ((1 + 1 : Fin (n + 4)) : ℕ) = 2 := by rw [Fin.val_add, e1, Nat.mod_eq_of_lt (by omega)]
  have e3 : ((1 + 1 + 1 : Fin (n + 4)) : ℕ) = 3 := by rw [Fin.val_add, e2, e1, Nat.mod_eq_of_lt (by omega)]
  have e0 : ((0 : Fin (n + 4)) : ℕ) = 0 := rfl
  refine ⟨fun h => ?_, fun h => ?_, fun h => ?_, fun h => ?_⟩
  · rw [add_eq_left] at h
    rw [h, e0] at e1; cases e1
  · rw [sub_eq_self] at h
    rw [h, e0] at e1; cases e1
  · rw [sub_eq_iff_eq_add, add_assoc, left_eq_add] at h
    rw [h, e0] at e2; cases e2
  · rw [sub_eq_iff_eq_add, add_assoc, add_assoc, left_eq_add, ← add_assoc] at h
    rw [h, e0] at e3; cases e3

theorem chordal_of_elim {U : α → α → Prop} (hs : ∀ a b, U a b → U b a) {V : Finset α} (hU : ∀ a b, U a b → a ∈ V) (h : Elim U V) :
    Chordal U := by
  intro n c hc hU'
  have hsub : Finset.univ.image c ⊆ V := by
    intro x hx
    obtain ⟨i, -, rfl⟩ := Finset.mem_image.1 hx
    exact hU _ _ (hU' i)
  obtain ⟨v, hv, hv'⟩ := (h.mono hsub).exists_simplicial ⟨c 0, Finset.mem_image_of_mem _ (Finset.mem_univ _)⟩
  obtain ⟨i, -, rfl⟩ := Finset.mem_image.1 hv
  obtain ⟨n1, n2, n3, n4⟩ := fin_succ_ne i
  have hm : ∀ k, k ≠ i → c k ∈ (Finset.univ.image c).erase (c i) := fun k hk =>
    Finset.mem_erase.2 ⟨fun e => hk (hc e), Finset.mem_image_of_mem _ (Finset.mem_univ _)⟩
  have hp : U (c i) (c (i - 1)) := hs _ _ (by simpa using hU' (i - 1))
  refine ⟨i + 1, i - 1, n3, n4, ?_, ?_⟩
  · rw [sub_add_cancel]; exact n1
  · exact hv' _ (hm _ n1) _ (hm _ n2) (hU' i) hp fun e => n3 (hc e).symm

theorem undec_elim (hE : Acyclic E) (hB : Cotrans B) (V : Finset α) : Elim (Undec E B) V := by
  classical
  refine elim_of_acyclic (D := fun x y => E x y ∧ ¬ Meek E B x y) ?_ (fun x y => Iff.rfl) ?_ _ V rfl
  · exact acyclic_mono (fun _ _ h => h.1) hE
  · rintro x y z ⟨hx, hx'⟩ ⟨hy, hy'⟩ hne
    have hadj : Adj E x y := by
      by_contra hc; exact hx' (.vstr ⟨hne, hx, hy, hc⟩)
    have hux : Undec E B x z := Or.inl ⟨hx, hx'⟩
    have huy : Undec E B y z := Or.inl ⟨hy, hy'⟩
    exact undec_of_adj hadj (fun h1 => hx' (meek_mixed hE hB h1 _ huy)) (fun h1 => hy' (meek_mixed hE hB h1 _ hux))

omit [DecidableEq α] in
theorem meek_not_joined (hE : Acyclic E) (hB : Cotrans B) {a b : α} (h : Meek E B a b) : ¬ ReflTransGen (Undec E B) a b := by
  intro hp
  have key : ∀ x, ReflTransGen (Undec E B) b x → Meek E B a x := by
    intro x hx
    induction hx with
    | refl => exact h
    | tail _ h1 ih => exact meek_mixed hE hB ih _ h1
  have hsym : ∀ {x y}, ReflTransGen (Undec E B) x y → ReflTransGen (Undec E B) y x := by
    intro x y h
    induction h with
    | refl => exact .refl
    | tail _ h ih => exact .head h.symm ih
  exact hE.irrefl (key a (hsym hp)).sub

end Spec

namespace Model.PDAG

open Spec Relation
universe u
variable {α : Type u} [DecidableEq α] {P Q : PDAG α}

theorem Shows.no_arc {G : DAG α} (hG : G.Valid) {B : α → α → Prop} (hB : Cotrans B) (h : Shows G B P) {i j : α} (ha : (i, j) ∈ P.arcs) :
    ¬ ReflTransGen (Joined P.edges) i j := by
  have : Joined P.edges = Undec G.E B := by funext a b; exact propext (h.edges a b)
  rw [this]
  exact meek_not_joined hG.acyclic hB ((h.arcs i j).1 ha)

theorem Shows.chordal {G : DAG α} (hG : G.Valid) {B : α → α → Prop} (hB : Cotrans B) (h : Shows G B P) : Chordal (Joined P.edges) := by
  have : Joined P.edges = Undec G.E B := by funext a b; exact propext (h.edges a b)
  rw [this]
  refine chordal_of_elim (fun a b h => h.symm) (V := G.nodes) (fun a b h => ?_) (undec_elim hG.acyclic hB _)
  rcases h.adj with h | h
  · exact hG.fst_mem _ _ h
  · exact hG.snd_mem _ _ h

theorem chordal_sub {E F : Finset (Finset α)} {S : Finset α} (h : Chordal (Joined E)) (hF : ∀ e, e ∈ F ↔ e ∈ E ∧ e ⊆ S) :
    Chordal (Joined F) := by
  intro n c hc hj
  obtain ⟨i, j, h1, h2, h3, h4⟩ := h n c hc fun i => ((hF _).1 (hj i)).1
  have hm : ∀ k, c k ∈ S := fun k => ((hF _).1 (hj k)).2 (by simp)
  refine ⟨i, j, h1, h2, h3, (hF _).2 ⟨h4, fun x hx => ?_⟩⟩
  simp only [Finset.mem_insert, Finset.mem_singleton] at hx
  rcases hx with rfl | rfl
  · exact hm i
  · exact hm j

/-- The maximal cliques of at least two nodes of the undirected part. -/
def Big (P : PDAG α) (c : Finset α) : Prop := 2 ≤ c.card ∧ MaxClique P.nodes (Joined P.edges) c

theorem adj_joined {E : Finset (Finset α)} {i j : α} : Adj (Joined E) i j ↔ {i, j} ∈ E := by
  unfold Adj Joined
  rw [Finset.pair_comm j i, or_self]

theorem clique_pair {E : Finset (Finset α)} {i j : α} (h : {i, j} ∈ E) : Clique (Joined E) {i, j} := by
  intro x hx y hy hxy
  rw [adj_joined]
  simp only [Finset.mem_insert, Finset.mem_singleton] at hx hy
  rcases hx with rfl | rfl <;> rcases hy with rfl | rfl
  · exact absurd rfl hxy
  · exact h
  · rwa [Finset.pair_comm]
  · exact absurd rfl hxy

/-- The maximal cliques of the graph made of the edges alone. -/
theorem big_iff (hP : P.Consistent) (c : Finset α) : MaxClique (P.edges.biUnion id) (Joined P.edges) c ↔ Big P c := by
  have hsub : P.edges.biUnion id ⊆ P.nodes := by
    intro x hx
    obtain ⟨e, he, h⟩ := Finset.mem_biUnion.1 hx
    exact hP.edge_mem e he h
  have hin : ∀ {d}, Clique (Joined P.edges) d → 2 ≤ d.card → d ⊆ P.edges.biUnion id := by
    intro d hd h2 x hx
    obtain ⟨y, hy, hyx⟩ := Finset.exists_mem_ne h2 x
    exact Finset.mem_biUnion.2 ⟨{x, y}, adj_joined.1 (hd x hx y hy hyx.symm), by simp⟩
  constructor
  · rintro ⟨h1, h2, h3, h4⟩
    have hc : 2 ≤ c.card := by
      obtain ⟨x, hx⟩ := h1
      obtain ⟨e, he, hxe⟩ := Finset.mem_biUnion.1 (h2 hx)
      obtain ⟨i, j, hij, rfl⟩ := hP.edge_pair e he
      by_contra hlt
      have hpos : 0 < c.card := Finset.card_pos.2 ⟨x, hx⟩
      obtain ⟨y, hy⟩ := Finset.card_eq_one.1 (show c.card = 1 by omega)
      have hcx : c = {x} := by
        rw [hy] at hx ⊢; rw [Finset.mem_singleton.1 hx]
      have := h4 {i, j} (fun y hy => Finset.mem_biUnion.2 ⟨_, he, hy⟩) (clique_pair he) (by
        rw [hcx]; exact Finset.singleton_subset_iff.2 hxe)
      rw [← this, Finset.card_pair hij] at hlt
      omega
    refine ⟨hc, h1, h2.trans hsub, h3, fun d hd hcl hcd => h4 d (hin hcl (hc.trans (Finset.card_le_card hcd))) hcl hcd⟩
  · rintro ⟨hc, h1, h2, h3, h4⟩
    exact ⟨h1, hin h3 hc, h3, fun d hd => h4 d (hd.trans hsub)⟩

theorem big_sub (hn : Q.nodes ⊆ P.nodes) (he : ∀ e, e ∈ Q.edges ↔ e ∈ P.edges ∧ e ⊆ Q.nodes)
    (hcl : ∀ x ∈ Q.nodes, ∀ y, {x, y} ∈ P.edges → y ∈ Q.nodes) (c : Finset α) : Big Q c ↔ Big P c ∧ c ⊆ Q.nodes := by
  have hj : ∀ d, d ⊆ Q.nodes → (Clique (Joined Q.edges) d ↔ Clique (Joined P.edges) d) := by
    intro d hd
    refine forall_congr' fun x => forall_congr' fun hx => forall_congr' fun y => forall_congr' fun hy => forall_congr' fun _ => ?_
    rw [adj_joined, adj_joined, he]
    refine and_iff_left fun z hz => ?_
    simp only [Finset.mem_insert, Finset.mem_singleton] at hz
    rcases hz with rfl | rfl
    · exact hd hx
    · exact hd hy
  constructor
  · rintro ⟨hc, h1, h2, h3, h4⟩
    refine ⟨⟨hc, h1, h2.trans hn, (hj c h2).1 h3, fun d hd hcd hsub => ?_⟩, h2⟩
    have hdQ : d ⊆ Q.nodes := by
      obtain ⟨x, hx⟩ := h1
      intro y hy
      by_cases hxy : x = y
      · rw [← hxy]; exact h2 hx
      · exact hcl x (h2 hx) y (adj_joined.1 (hcd x (hsub hx) y hy hxy))
    exact h4 d hdQ ((hj d hdQ).2 hcd) hsub
  · rintro ⟨⟨hc, h1, h2, h3, h4⟩, h5⟩
    exact ⟨hc, h1, h5, (hj c h5).2 h3, fun d hd hcd => h4 d (hd.trans hn) ((hj d hd).1 hcd)⟩

/-- What is known about `nx.chordal_graph_cliques`: for a chordal graph it returns the maximal cliques. -/
def Documented (nx : NxCliques α) : Prop :=
  ∀ g : NxGraph α, (∀ e ∈ g.edges, e ⊆ g.nodes ∧ e.card = 2) → Chordal (Joined g.edges) →
    ∃ M, nx g = .ok M ∧ ∀ c, c ∈ M ↔ MaxClique g.nodes (Joined g.edges) c

theorem toNx_ok (h : P.arcs = ∅) : P.toNx = .ok ⟨P.edges.biUnion id, P.edges⟩ := by
  unfold toNx
  rw [h, if_neg Finset.not_nonempty_empty]

/-- The case without arcs. -/
theorem nx_big {nx : NxCliques α} (hnx : Documented nx) (hP : P.Consistent) (ha : P.arcs = ∅) (hc : Chordal (Joined P.edges)) :
    ∃ M, P.toNx.bind nx = .ok M ∧ ∀ c, c ∈ M ↔ Big P c := by
  obtain ⟨M, h1, h2⟩ := hnx ⟨P.edges.biUnion id, P.edges⟩ (fun e he => ⟨fun x hx => Finset.mem_biUnion.2 ⟨e, he, hx⟩, by
    obtain ⟨i, j, hij, rfl⟩ := hP.edge_pair e he
    exact Finset.card_pair hij⟩) hc
  exact ⟨M, by rw [toNx_ok ha]; exact h1, fun c => (h2 c).trans (big_iff hP c)⟩

theorem mapM_run {ε β γ : Type u} {f : β → ExceptT ε Option γ} : ∀ {l : List β}, (∀ x ∈ l, ∃ y, (f x).run = some (.ok y)) →
    ∃ ys, (l.mapM f).run = some (.ok ys) ∧ ys.length = l.length ∧ (∀ x ∈ l, ∃ y ∈ ys, (f x).run = some (.ok y)) ∧
      ∀ y ∈ ys, ∃ x ∈ l, (f x).run = some (.ok y)
  | [], _ => ⟨[], rfl, rfl, by simp, by simp⟩
  | x :: l, h => by
    obtain ⟨y, hy⟩ := h x (by simp)
    obtain ⟨ys, h1, h2, h3, h4⟩ := mapM_run (l := l) fun z hz => h z (by simp [hz])
    refine ⟨y :: ys, ?_, by simp [h2], ?_, ?_⟩
    · rw [List.mapM_cons, ExceptT.run_bind, hy]
      simp only [Option.bind_eq_bind, Option.bind_some]
      rw [ExceptT.run_bind, h1]
      rfl
    · intro z hz
      rcases List.mem_cons.1 hz with rfl | hz
      · exact ⟨y, by simp, hy⟩
      · obtain ⟨v, hv, hv'⟩ := h3 z hz
        exact ⟨v, by simp [hv], hv'⟩
    · intro z hz
      rcases List.mem_cons.1 hz with rfl | hz
      · exact ⟨x, by simp, hy⟩
      · obtain ⟨v, hv, hv'⟩ := h4 z hz
        exact ⟨v, by simp [hv], hv'⟩

theorem unionAll_ok {l : List (Finset (Finset α))} (h : l ≠ []) : ∃ M, unionAll l = .ok M ∧ ∀ c, c ∈ M ↔ ∃ r ∈ l, c ∈ r := by
  cases l with
  | nil => exact absurd rfl h
  | cons r rs =>
    refine ⟨_, rfl, fun c => ?_⟩
    have : ∀ (rs : List (Finset (Finset α))) (r : Finset (Finset α)), c ∈ rs.foldl (· ∪ ·) r ↔ c ∈ r ∨ ∃ s ∈ rs, c ∈ s := by
      intro rs
      induction rs with
      | nil => simp
      | cons s rs ih =>
        intro r
        rw [List.foldl_cons, ih, Finset.mem_union]
        simp only [List.mem_cons, exists_eq_or_imp, or_assoc]
    rw [this]
    simp only [List.mem_cons, exists_eq_or_imp]

omit [DecidableEq α] in
theorem foldMax_spec (s : Finset (Finset α)) : ∀ m : ℤ, (∀ c ∈ s, (c.card : ℤ) ≤ s.fold max m (fun c => (c.card : ℤ))) ∧
    m ≤ s.fold max m (fun c => (c.card : ℤ)) ∧ (s.fold max m (fun c => (c.card : ℤ)) = m ∨ ∃ c ∈ s, s.fold max m (fun c => (c.card : ℤ)) = c.card) := by
  intro m
  refine ⟨fun c hc => (Finset.le_fold_max _).2 (.inr ⟨c, hc, le_rfl⟩), (Finset.le_fold_max _).2 (.inl le_rfl), ?_⟩
  rcases ((Finset.le_fold_max (s := s) (f := fun c => (c.card : ℤ)) (b := m) _).1 le_rfl) with h | ⟨c, hc, h⟩
  · exact .inl (le_antisymm h ((Finset.le_fold_max _).2 (.inl le_rfl)))
  · exact .inr ⟨c, hc, le_antisymm h ((Finset.le_fold_max _).2 (.inr ⟨c, hc, le_rfl⟩))⟩

theorem nx_size {nx : NxCliques α} (hnx : Documented nx) (hP : P.Consistent) (ha : P.arcs = ∅) (hc : Chordal (Joined P.edges))
    (hb : ∃ c, Big P c) :
    ∃ k : ℕ, (P.toNx.bind fun g => (nx.treewidth g).map fun t => ⟨t.down + 1⟩ : Except (Exn α) (ULift.{u} ℤ)) = .ok ⟨k⟩ ∧
      (∃ c, Big P c ∧ c.card = k) ∧ ∀ c, Big P c → c.card ≤ k := by
  obtain ⟨M, h1, h2⟩ := nx_big hnx hP ha hc
  rw [toNx_ok ha] at h1 ⊢
  obtain ⟨f1, f2, f3⟩ := foldMax_spec M (-1)
  obtain ⟨c0, hc0⟩ := hb
  have hp := f1 c0 ((h2 c0).2 hc0)
  rcases f3 with f3 | ⟨c, hcM, f3⟩
  · rw [f3] at hp; omega
  · refine ⟨c.card, ?_, ⟨c, (h2 c).1 hcM, rfl⟩, fun d hd => ?_⟩
    · change ((nx.treewidth ⟨P.edges.biUnion id, P.edges⟩).map fun t => (⟨t.down + 1⟩ : ULift.{u} ℤ)) = _
      change nx ⟨P.edges.biUnion id, P.edges⟩ = _ at h1
      rw [NxCliques.treewidth, h1]
      simp only [Except.map]
      rw [f3, sub_add_cancel]
    · have := f1 d ((h2 d).2 hd)
      rw [f3] at this
      exact_mod_cast this

omit [DecidableEq α] in
theorem maxAll_ok {l : List (ULift.{u} ℤ)} (h : l ≠ []) : ∃ m, maxAll (α := α) l = .ok m ∧ m ∈ l ∧ ∀ x ∈ l, x.down ≤ m.down := by
  cases l with
  | nil => exact absurd rfl h
  | cons r rs =>
    have : ∀ (rs : List (ULift.{u} ℤ)) (r : ℤ), (rs.foldl (fun m x => max m x.down) r = r ∨ ∃ x ∈ rs, rs.foldl (fun m x => max m x.down) r = x.down) ∧
        r ≤ rs.foldl (fun m x => max m x.down) r ∧ ∀ x ∈ rs, x.down ≤ rs.foldl (fun m x => max m x.down) r := by
      intro rs
      induction rs with
      | nil => intro r; exact ⟨.inl rfl, le_rfl, by simp⟩
      | cons s rs ih =>
        intro r
        obtain ⟨i1, i2, i3⟩ := ih (max r s.down)
        rw [List.foldl_cons]
        refine ⟨?_, (le_max_left _ _).trans i2, fun x hx => ?_⟩
        · rcases i1 with i1 | ⟨x, hx, i1⟩
          · rcases max_choice r s.down with e | e
            · left; rw [i1, e]
            · right; exact ⟨s, by simp, by rw [i1, e]⟩
          · right; exact ⟨x, by simp [hx], i1⟩
        · rcases List.mem_cons.1 hx with rfl | hx
          · exact (le_max_right _ _).trans i2
          · exact i3 x hx
    obtain ⟨i1, i2, i3⟩ := this rs r.down
    refine ⟨_, rfl, ?_, fun x hx => ?_⟩
    · rcases i1 with i1 | ⟨x, hx, i1⟩
      · rw [i1]; simp
      · rw [i1]; simp [hx]
    · rcases List.mem_cons.1 hx with rfl | hx
      · exact i2
      · exact i3 x hx

/-- Every clique is contained in a maximal one. -/
theorem exists_maxClique {V : Finset α} {E : α → α → Prop} : ∀ (n : ℕ) {c : Finset α}, V.card - c.card = n → c.Nonempty → c ⊆ V → Clique E c →
    ∃ d, MaxClique V E d ∧ c ⊆ d := by
  intro n
  induction n using Nat.strong_induction_on with
  | _ n ih =>
    intro c hn h1 h2 h3
    by_cases hm : ∀ d, d ⊆ V → Clique E d → c ⊆ d → d = c
    · exact ⟨c, ⟨h1, h2, h3, hm⟩, subset_rfl⟩
    · push Not at hm
      obtain ⟨d, d1, d2, d3, d4⟩ := hm
      have hlt : c.card < d.card := Finset.card_lt_card (Finset.ssubset_iff_subset_ne.2 ⟨d3, d4.symm⟩)
      have := Finset.card_le_card d1
      obtain ⟨m, m1, m2⟩ := ih (V.card - d.card) (by omega) rfl (h1.mono d3) d1 d2
      exact ⟨m, m1, d3.trans m2⟩

theorem exists_big {c : Finset α} (h2 : 2 ≤ c.card) (hs : c ⊆ P.nodes) (hc : Clique (Joined P.edges) c) :
    ∃ d, Big P d ∧ c ⊆ d := by
  obtain ⟨d, d1, d2⟩ := exists_maxClique _ rfl (Finset.card_pos.1 (by omega)) hs hc
  exact ⟨d, ⟨h2.trans (Finset.card_le_card d2), d1⟩, d2⟩

/-- The chain components cut the maximal cliques of at least two nodes into classes. -/
theorem chain_big (hP : P.Consistent) (hc : Chordal (Joined P.edges))
    (ha : ∀ i j, (i, j) ∈ P.arcs → ¬ ReflTransGen (Joined P.edges) i j) (w : ChainOracle α) :
    ∃ Qs, P.chainComponents w.o w.pk w.oa w.oe w.up = some Qs ∧ (P.edges.Nonempty → Qs ≠ []) ∧
      (∀ Q ∈ Qs, Q.Consistent ∧ Q.arcs = ∅ ∧ Chordal (Joined Q.edges) ∧ (∃ c, Big Q c) ∧ ∀ c, Big Q c → Big P c) ∧
      ∀ c, Big P c → ∃ Q ∈ Qs, Big Q c := by
  obtain ⟨Qs, q1, q2, q3, q4, q5⟩ := Props.C56_chain_components P hP w.o w.pk w.oa w.oe w.up
  have q6 : ∀ {Q R x}, Q ∈ Qs → R ∈ Qs → x ∈ Q.nodes → x ∈ R.nodes → Q = R := by
    intro Q R x hQ hR h1 h2
    by_contra hne
    have : Std.Symm (fun Q R : PDAG α => Disjoint Q.nodes R.nodes) := ⟨fun _ _ h => h.symm⟩
    exact Finset.disjoint_left.1 (q2.forall hQ hR hne) h1 h2
  have hQ : ∀ Q ∈ Qs, ∀ c, Big Q c ↔ Big P c ∧ c ⊆ Q.nodes := by
    intro Q hQ c
    obtain ⟨-, -, -, k3⟩ := q5 Q hQ
    refine big_sub ?_ k3 ?_ c
    · intro x hx
      obtain ⟨y, hy⟩ := (q3 x).1 ⟨Q, hQ, hx⟩
      exact hP.edge_mem _ hy (by simp)
    · intro x hx y hxy
      obtain ⟨R, hR, r1, r2⟩ := (q4 x y).2 ⟨⟨y, hxy⟩, .single hxy⟩
      rwa [q6 hQ hR hx r1]
  have hin : ∀ c, Big P c → ∃ Q ∈ Qs, Big Q c := by
    intro c hb
    obtain ⟨x, hx, y, hy, hxy⟩ := Finset.one_lt_card.1 hb.1
    have hadj : ∀ y ∈ c, x ≠ y → {x, y} ∈ P.edges := fun y hy hxy => adj_joined.1 (hb.2.clique x hx y hy hxy)
    obtain ⟨Q, h1, h2⟩ := (q3 x).2 ⟨y, hadj y hy hxy⟩
    refine ⟨Q, h1, (hQ Q h1 c).2 ⟨hb, fun z hz => ?_⟩⟩
    by_cases hxz : x = z
    · rwa [← hxz]
    · obtain ⟨R, hR, r1, r2⟩ := (q4 x z).2 ⟨⟨z, hadj z hz hxz⟩, .single (hadj z hz hxz)⟩
      rwa [q6 h1 hR h2 r1]
  refine ⟨Qs, q1, ?_, fun Q h => ?_, hin⟩
  · rintro ⟨e, he⟩ rfl
    obtain ⟨i, j, -, rfl⟩ := hP.edge_pair e he
    obtain ⟨Q, hQ, -⟩ := (q3 i).2 ⟨j, he⟩
    simp at hQ
  · obtain ⟨k0, k1, k2, k3⟩ := q5 Q h
    refine ⟨k1, Finset.eq_empty_of_forall_notMem fun a h' => ?_, chordal_sub hc k3, ?_, fun c hb => ((hQ Q h c).1 hb).1⟩
    · obtain ⟨m1, m2, m3⟩ := (k2 a.1 a.2).1 h'
      exact ha _ _ m1 ((q4 _ _).1 ⟨Q, h, m2, m3⟩).2
    · obtain ⟨x, hx⟩ := Finset.card_pos.1 (show 0 < Q.nodes.card by omega)
      obtain ⟨y, hy⟩ := (q3 x).1 ⟨Q, h, hx⟩
      obtain ⟨R, hR, r1, r2⟩ := (q4 x y).2 ⟨⟨y, hy⟩, .single hy⟩
      rw [← q6 h hR hx r1] at r2
      have hyQ : {x, y} ∈ Q.edges := (k3 _).2 ⟨hy, fun z hz => by
        simp only [Finset.mem_insert, Finset.mem_singleton] at hz
        rcases hz with rfl | rfl
        · exact hx
        · exact r2⟩
      obtain ⟨d, hd, -⟩ := exists_big (by rw [Finset.card_pair (hP.edge_ne hy)]) (k1.edge_mem _ hyQ) (clique_pair hyQ)
      exact ⟨d, hd⟩

/-- `max_cliques` if the chain components carry no arcs. -/
theorem max_cliques_ok {nx : NxCliques α} (hnx : Documented nx) (hP : P.Consistent) (hc : Chordal (Joined P.edges))
    (ha : ∀ i j, (i, j) ∈ P.arcs → ¬ ReflTransGen (Joined P.edges) i j) (he : P.edges.Nonempty) (w : ℕ → ChainOracle α) (n : ℕ) :
    ∃ M, (P.maxCliques nx w n).run = some (.ok M) ∧ ∀ c, c ∈ M ↔ Big P c := by
  by_cases h0 : P.arcs.card = 0
  · obtain ⟨M, h1, h2⟩ := nx_big hnx hP (Finset.card_eq_zero.1 h0) hc
    refine ⟨M, ?_, h2⟩
    rw [maxCliques, if_pos h0, h1]
    rfl
  · obtain ⟨Qs, q1, q2, q3, q4⟩ := chain_big hP hc ha (w n)
    have hQ : ∀ Q ∈ Qs, ∃ M, (Q.maxCliques nx w (n + 1)).run = some (.ok M) ∧ ∀ c, c ∈ M ↔ Big Q c := by
      intro Q hQ
      obtain ⟨k1, k2, k3, -⟩ := q3 Q hQ
      obtain ⟨M, h1, h2⟩ := nx_big hnx k1 k2 k3
      refine ⟨M, ?_, h2⟩
      rw [maxCliques, if_pos (by rw [k2]; rfl), h1]
      rfl
    obtain ⟨rs, r1, r2, r3, r4⟩ := mapM_run (f := fun Q => maxCliques nx w (n + 1) Q) fun Q h => (hQ Q h).imp fun _ h => h.1
    have hne : rs ≠ [] := by
      rintro rfl
      exact q2 he (List.length_eq_zero_iff.1 (by simpa using r2.symm))
    obtain ⟨M, m1, m2⟩ := unionAll_ok hne
    refine ⟨M, ?_, fun c => ?_⟩
    · rw [maxCliques, if_neg h0, q1, ExceptT.run_bind]
      change (ExceptT.run (Qs.mapM (fun Q => maxCliques nx w (n + 1) Q) >>= _)) = _
      rw [ExceptT.run_bind, r1]
      change some (unionAll rs) = _
      rw [m1]
    · rw [m2]
      constructor
      · rintro ⟨r, hr, hcr⟩
        obtain ⟨Q, h1, h2⟩ := r4 r hr
        obtain ⟨M', k1, k2⟩ := hQ Q h1
        rw [k1] at h2
        obtain rfl : M' = r := Except.ok.inj (Option.some.inj h2)
        exact (q3 Q h1).2.2.2.2 c ((k2 c).1 hcr)
      · intro hb
        obtain ⟨Q, h1, h2⟩ := q4 c hb
        obtain ⟨M', k1, k2⟩ := hQ Q h1
        obtain ⟨r, l1, l2⟩ := r3 Q h1
        rw [k1] at l2
        obtain rfl : M' = r := Except.ok.inj (Option.some.inj l2)
        exact ⟨_, l1, (k2 c).2 h2⟩

/-- `clique_size` if the chain components carry no arcs. -/
theorem clique_size_ok {nx : NxCliques α} (hnx : Documented nx) (hP : P.Consistent) (hc : Chordal (Joined P.edges))
    (ha : ∀ i j, (i, j) ∈ P.arcs → ¬ ReflTransGen (Joined P.edges) i j) (he : P.edges.Nonempty) (w : ℕ → ChainOracle α) (n : ℕ) :
    ∃ k : ℕ, (P.cliqueSize nx w n).run = some (.ok ⟨k⟩) ∧ (∃ c, Big P c ∧ c.card = k) ∧ ∀ c, Big P c → c.card ≤ k := by
  by_cases h0 : P.arcs.card = 0
  · have hb : ∃ c, Big P c := by
      obtain ⟨e, he⟩ := he
      obtain ⟨i, j, hij, rfl⟩ := hP.edge_pair e he
      obtain ⟨d, hd, -⟩ := exists_big (by rw [Finset.card_pair hij]) (hP.edge_mem _ he) (clique_pair he)
      exact ⟨d, hd⟩
    obtain ⟨k, h1, h2⟩ := nx_size hnx hP (Finset.card_eq_zero.1 h0) hc hb
    refine ⟨k, ?_, h2⟩
    rw [cliqueSize, if_pos h0, h1]
    rfl
  · obtain ⟨Qs, q1, q2, q3, q4⟩ := chain_big hP hc ha (w n)
    have hQ : ∀ Q ∈ Qs, ∃ k : ℕ, (Q.cliqueSize nx w (n + 1)).run = some (.ok ⟨k⟩) ∧ (∃ c, Big Q c ∧ c.card = k) ∧ ∀ c, Big Q c → c.card ≤ k := by
      intro Q hQ
      obtain ⟨k1, k2, k3, k4, -⟩ := q3 Q hQ
      obtain ⟨k, h1, h2⟩ := nx_size hnx k1 k2 k3 k4
      refine ⟨k, ?_, h2⟩
      rw [cliqueSize, if_pos (by rw [k2]; rfl), h1]
      rfl
    obtain ⟨rs, r1, r2, r3, r4⟩ := mapM_run (f := fun Q => cliqueSize nx w (n + 1) Q) fun Q h => by
      obtain ⟨k, hk, -⟩ := hQ Q h
      exact ⟨_, hk⟩
    have hne : rs ≠ [] := by
      rintro rfl
      exact q2 he (List.length_eq_zero_iff.1 (by simpa using r2.symm))
    obtain ⟨m, m1, m2, m3⟩ := maxAll_ok (α := α) hne
    obtain ⟨Q, h1, h2⟩ := r4 m m2
    obtain ⟨k, k1, ⟨c, k2, k3⟩, k4⟩ := hQ Q h1
    rw [k1] at h2
    obtain rfl : ⟨k⟩ = m := Except.ok.inj (Option.some.inj h2)
    refine ⟨k, ?_, ⟨c, (q3 Q h1).2.2.2.2 c k2, k3⟩, fun d hd => ?_⟩
    · rw [cliqueSize, if_neg h0, q1, ExceptT.run_bind]
      change (ExceptT.run (Qs.mapM (fun Q => cliqueSize nx w (n + 1) Q) >>= _)) = _
      rw [ExceptT.run_bind, r1]
      change some (maxAll rs) = _
      rw [m1]
    · obtain ⟨R, g1, g2⟩ := q4 d hd
      obtain ⟨l, l1, -, l3⟩ := hQ R g1
      obtain ⟨r, p1, p2⟩ := r3 R g1
      rw [l1] at p2
      obtain rfl : ⟨l⟩ = r := Except.ok.inj (Option.some.inj p2)
      have := m3 _ p1
      have := l3 d g2
      simp only at *
      omega

/-- All undirected edges hang together, and there is an arc between two of their ends. -/
structure Stuck (P : PDAG α) : Prop where
  cons : P.Consistent
  arc : ∃ i j x y, (i, j) ∈ P.arcs ∧ {i, x} ∈ P.edges ∧ {j, y} ∈ P.edges
  conn : ∀ i x j y, {i, x} ∈ P.edges → {j, y} ∈ P.edges → ReflTransGen (Joined P.edges) i j

theorem Stuck.chain (h : Stuck P) (w : ChainOracle α) :
    ∃ Q Qs, P.chainComponents w.o w.pk w.oa w.oe w.up = some (Q :: Qs) ∧ Stuck Q := by
  obtain ⟨Qs, q1, q2, q3, q4, q5⟩ := Props.C56_chain_components P h.cons w.o w.pk w.oa w.oe w.up
  obtain ⟨i, j, x, y, ha, hi, hj⟩ := h.arc
  cases Qs with
  | nil =>
    obtain ⟨Q, hQ, -⟩ := (q3 i).2 ⟨x, hi⟩
    simp at hQ
  | cons Q Qs =>
    refine ⟨Q, Qs, q1, ?_⟩
    obtain ⟨k0, k1, k2, k3⟩ := q5 Q (by simp)
    obtain ⟨z, hz⟩ := Finset.card_pos.1 (show 0 < Q.nodes.card by omega)
    obtain ⟨z', hz'⟩ := (q3 z).1 ⟨Q, by simp, hz⟩
    have q6 : ∀ {R x}, R ∈ Q :: Qs → x ∈ Q.nodes → x ∈ R.nodes → Q = R := by
      intro R x hR h1 h2
      by_contra hne
      have : Std.Symm (fun Q R : PDAG α => Disjoint Q.nodes R.nodes) := ⟨fun _ _ h => h.symm⟩
      exact Finset.disjoint_left.1 (q2.forall (by simp) hR hne) h1 h2
    have hin : ∀ v v', {v, v'} ∈ P.edges → v ∈ Q.nodes := by
      intro v v' hv
      obtain ⟨R, hR, r1, r2⟩ := (q4 z v).2 ⟨⟨z', hz'⟩, h.conn _ _ _ _ hz' hv⟩
      rwa [q6 hR hz r1]
    have hed : ∀ e, e ∈ Q.edges ↔ e ∈ P.edges := by
      intro e
      rw [k3]
      refine and_iff_left_of_imp fun he => ?_
      obtain ⟨a, b, -, rfl⟩ := h.cons.edge_pair e he
      intro v hv
      simp only [Finset.mem_insert, Finset.mem_singleton] at hv
      rcases hv with rfl | rfl
      · exact hin _ _ he
      · exact hin _ a (by rwa [Finset.pair_comm])
    have hQe : Q.edges = P.edges := Finset.ext hed
    refine ⟨k1, ⟨i, j, x, y, (k2 i j).2 ⟨ha, hin i x hi, hin j y hj⟩, (hed _).2 hi, (hed _).2 hj⟩, ?_⟩
    rw [hQe]
    exact h.conn

theorem Stuck.arcs_ne (h : Stuck P) : P.arcs.card ≠ 0 := by
  obtain ⟨i, j, x, y, ha, -⟩ := h.arc
  exact Finset.card_ne_zero_of_mem ha

theorem maxCliques_stuck (nx : NxCliques α) (w : ℕ → ChainOracle α) : ∀ n (P : PDAG α), Stuck P → (P.maxCliques nx w n).run = none := by
  suffices h : ∀ n (P : PDAG α), ∀ r, (P.maxCliques nx w n).run = some r → ¬ Stuck P by
    intro n P hP
    cases hr : (P.maxCliques nx w n).run with
    | none => rfl
    | some r => exact absurd hP (h n P r hr)
  refine maxCliques.fixpoint_induct nx w (fun f => ∀ n (P : PDAG α), ∀ r, (f n P).run = some r → ¬ Stuck P) ?_ ?_
  · refine Lean.Order.admissible_pi_apply (fun (_ : ℕ) (f : PDAG α → Run α (Finset (Finset α))) => ∀ P : PDAG α, ∀ r, (f P).run = some r → ¬ Stuck P) fun n => ?_
    refine Lean.Order.admissible_pi_apply (fun P (f : Run α (Finset (Finset α))) => ∀ r, f.run = some r → ¬ Stuck P) fun P => ?_
    refine Lean.Order.admissible_pi _ fun r => ?_
    exact Lean.Order.Option.admissible_eq_some _ _
  · intro f ih n P r h hP
    obtain ⟨Q, Qs, q1, q2⟩ := hP.chain (w n)
    beta_reduce at h
    rw [if_neg hP.arcs_ne, q1, ExceptT.run_bind] at h
    change (ExceptT.run (((Q :: Qs).mapM fun Q => f (n + 1) Q) >>= _)) = _ at h
    rw [ExceptT.run_bind, List.mapM_cons, ExceptT.run_bind] at h
    cases hQ : (f (n + 1) Q).run with
    | none => rw [hQ] at h; cases h
    | some r => exact ih _ _ _ hQ q2

theorem cliqueSize_stuck (nx : NxCliques α) (w : ℕ → ChainOracle α) : ∀ n (P : PDAG α), Stuck P → (P.cliqueSize nx w n).run = none := by
  suffices h : ∀ n (P : PDAG α), ∀ r, (P.cliqueSize nx w n).run = some r → ¬ Stuck P by
    intro n P hP
    cases hr : (P.cliqueSize nx w n).run with
    | none => rfl
    | some r => exact absurd hP (h n P r hr)
  refine cliqueSize.fixpoint_induct nx w (fun f => ∀ n (P : PDAG α), ∀ r, (f n P).run = some r → ¬ Stuck P) ?_ ?_
  · refine Lean.Order.admissible_pi_apply (fun (_ : ℕ) (f : PDAG α → Run α (ULift.{u} ℤ)) => ∀ P : PDAG α, ∀ r, (f P).run = some r → ¬ Stuck P) fun n => ?_
    refine Lean.Order.admissible_pi_apply (fun P (f : Run α (ULift.{u} ℤ)) => ∀ r, f.run = some r → ¬ Stuck P) fun P => ?_
    refine Lean.Order.admissible_pi _ fun r => ?_
    exact Lean.Order.Option.admissible_eq_some _ _
  · intro f ih n P r h hP
    obtain ⟨Q, Qs, q1, q2⟩ := hP.chain (w n)
    beta_reduce at h
    rw [if_neg hP.arcs_ne, q1, ExceptT.run_bind] at h
    change (ExceptT.run (((Q :: Qs).mapM fun Q => f (n + 1) Q) >>= _)) = _ at h
    rw [ExceptT.run_bind, List.mapM_cons, ExceptT.run_bind] at h
    cases hQ : (f (n + 1) Q).run with
    | none => rw [hQ] at h; cases h
    | some r => exact ih _ _ _ hQ q2

/-- Without undirected edges there are no chain components. -/
theorem chain_empty (hP : P.Consistent) (he : P.edges = ∅) (w : ChainOracle α) :
    P.chainComponents w.o w.pk w.oa w.oe w.up = some [] := by
  obtain ⟨Qs, q1, -, q3, -, q5⟩ := Props.C56_chain_components P hP w.o w.pk w.oa w.oe w.up
  cases Qs with
  | nil => exact q1
  | cons Q Qs =>
    obtain ⟨x, hx⟩ := Finset.card_pos.1 (show 0 < Q.nodes.card by have := (q5 Q (by simp)).1; omega)
    obtain ⟨y, hy⟩ := (q3 x).1 ⟨Q, by simp, hx⟩
    simp [he] at hy

theorem maxCliques_directed (nx : NxCliques α) (w : ℕ → ChainOracle α) (n : ℕ) (hP : P.Consistent) (he : P.edges = ∅) (ha : P.arcs.Nonempty) :
    (P.maxCliques nx w n).run = some (.error .type) ∧ (P.cliqueSize nx w n).run = some (.error .value) := by
  have h0 : P.arcs.card ≠ 0 := Finset.card_ne_zero.2 ha
  constructor
  · rw [maxCliques, if_neg h0, chain_empty hP he]
    rfl
  · rw [cliqueSize, if_neg h0, chain_empty hP he]
    rfl

theorem card_undirected (hP : P.Consistent) (v : α) : P.undirectedDegreeOf v = (P.edges.filter (v ∈ ·)).card := by
  refine Finset.card_bij (fun w _ => {w, v}) (fun w hw => ?_) (fun w hw x hx h => ?_) fun e he => ?_
  · rw [Finset.mem_filter]
    exact ⟨(hP.undirected_iff w v).1 hw, by simp⟩
  · have h1 := hP.edge_ne ((hP.undirected_iff w v).1 hw)
    have : w ∈ ({x, v} : Finset α) := h ▸ by simp
    simp only [Finset.mem_insert, Finset.mem_singleton] at this
    exact this.resolve_right h1
  · obtain ⟨he, hv⟩ := Finset.mem_filter.1 he
    obtain ⟨i, j, hij, rfl⟩ := hP.edge_pair e he
    simp only [Finset.mem_insert, Finset.mem_singleton] at hv
    rcases hv with rfl | rfl
    · exact ⟨j, (hP.undirected_iff j v).2 (by rwa [Finset.pair_comm]), Finset.pair_comm _ _⟩
    · exact ⟨i, (hP.undirected_iff i v).2 he, rfl⟩

theorem card_edge (hP : P.Consistent) {e : Finset α} (he : e ∈ P.edges) : e.card = 2 := by
  obtain ⟨i, j, hij, rfl⟩ := hP.edge_pair e he
  exact Finset.card_pair hij

theorem sum_undirected (hP : P.Consistent) : ∑ v ∈ P.nodes, P.undirectedDegreeOf v = 2 * P.edges.card := by
  have h1 : ∀ v ∈ P.nodes, P.undirectedDegreeOf v = (Finset.bipartiteAbove (fun v e => v ∈ e) P.edges v).card := fun v _ =>
    card_undirected hP v
  rw [Finset.sum_congr rfl h1, Finset.sum_card_bipartiteAbove_eq_sum_card_bipartiteBelow]
  rw [Finset.sum_congr rfl (g := fun _ => 2) fun e he => ?_]
  · rw [Finset.sum_const, smul_eq_mul, mul_comm]
  · have : Finset.bipartiteBelow (fun v (e : Finset α) => v ∈ e) P.nodes e = e := by
      ext x
      rw [Finset.mem_bipartiteBelow]
      exact ⟨fun h => h.2, fun h => ⟨hP.edge_mem e he h, h⟩⟩
    rw [this, card_edge hP he]

theorem sum_in (hP : P.Consistent) : ∑ v ∈ P.nodes, P.indegreeOf v = P.arcs.card := by
  rw [Finset.card_eq_sum_card_fiberwise (f := Prod.snd) (t := P.nodes) fun a ha => (hP.arc_mem a.1 a.2 ha).2]
  refine Finset.sum_congr rfl fun v _ => ?_
  refine Finset.card_bij (fun w _ => (w, v)) (fun w hw => ?_) (fun _ _ _ _ h => (Prod.mk.inj h).1) fun a ha => ?_
  · exact Finset.mem_filter.2 ⟨(hP.parents_iff w v).1 hw, rfl⟩
  · obtain ⟨h1, h2⟩ := Finset.mem_filter.1 ha
    obtain ⟨x, y⟩ := a
    obtain rfl : y = v := h2
    exact ⟨x, (hP.parents_iff x y).2 h1, rfl⟩

theorem sum_out (hP : P.Consistent) : ∑ v ∈ P.nodes, P.outdegreeOf v = P.arcs.card := by
  rw [Finset.card_eq_sum_card_fiberwise (f := Prod.fst) (t := P.nodes) fun a ha => (hP.arc_mem a.1 a.2 ha).1]
  refine Finset.sum_congr rfl fun v _ => ?_
  refine Finset.card_bij (fun w _ => (v, w)) (fun w hw => ?_) (fun _ _ _ _ h => (Prod.mk.inj h).2) fun a ha => ?_
  · exact Finset.mem_filter.2 ⟨(hP.children_iff v w).1 hw, rfl⟩
  · obtain ⟨h1, h2⟩ := Finset.mem_filter.1 ha
    obtain ⟨x, y⟩ := a
    obtain rfl : x = v := h2
    exact ⟨y, (hP.children_iff x y).2 h1, rfl⟩

theorem total_degree (hP : P.Consistent) (hS : P.Simple) (v : α) :
    P.totalDegreeOf v = P.indegreeOf v + P.outdegreeOf v + P.undirectedDegreeOf v := by
  have h1 : Disjoint (P.parents v) (P.children v) := Finset.disjoint_left.2 fun x h1 h2 =>
    hS.one_arc _ _ ((hP.parents_iff x v).1 h1) ((hP.children_iff v x).1 h2)
  have h2 : Disjoint (P.parents v ∪ P.children v) (P.undirected v) := Finset.disjoint_left.2 fun x h1 h2 => by
    have h2 := (hP.undirected_iff x v).1 h2
    rcases Finset.mem_union.1 h1 with h1 | h1
    · exact hS.no_edge _ _ ((hP.parents_iff x v).1 h1) h2
    · exact hS.no_edge _ _ ((hP.children_iff v x).1 h1) (by rwa [Finset.pair_comm])
  unfold totalDegreeOf indegreeOf outdegreeOf undirectedDegreeOf
  rw [← Finset.card_union_of_disjoint h1, ← Finset.card_union_of_disjoint h2]
  congr 1
  ext x
  rw [hP.neighbors_iff, Finset.mem_union, Finset.mem_union, hP.parents_iff, hP.children_iff, hP.undirected_iff, or_assoc]

theorem skeleton_card (hS : P.Simple) : P.skeleton.card = P.numAdjacencies := by
  unfold skeleton numAdjacencies
  rw [Finset.card_union_of_disjoint, Finset.card_image_of_injOn]
  · intro a ha b hb h
    obtain ⟨a1, a2⟩ := a
    obtain ⟨b1, b2⟩ := b
    simp only at h
    rcases UG.pair_eq.1 h with ⟨rfl, rfl⟩ | ⟨rfl, rfl⟩
    · rfl
    · exact absurd hb (hS.one_arc _ _ ha)
  · refine Finset.disjoint_left.2 fun e h1 h2 => ?_
    obtain ⟨a, ha, rfl⟩ := Finset.mem_image.1 h1
    exact hS.no_edge a.1 a.2 ha h2

theorem unpack_edge (hP : P.Consistent) (up : Unpack α) {e : Finset α} (he : e ∈ P.edges) :
    (up.fn e).1 ≠ (up.fn e).2 ∧ e = {(up.fn e).1, (up.fn e).2} := by
  obtain ⟨i, j, hij, rfl⟩ := hP.edge_pair e he
  rcases up.spec i j hij with h | h <;> rw [h]
  · exact ⟨hij, rfl⟩
  · exact ⟨hij.symm, Finset.pair_comm _ _⟩

omit [DecidableEq α] in
theorem lookup_ok {β : Type u} {f : α → Option β} {v : α} {w : β} : UG.lookup f v = .ok w ↔ f v = some w := by
  unfold UG.lookup
  cases f v <;> simp

omit [DecidableEq α] in
theorem lookup_error {β : Type u} {f : α → Option β} {v : α} (h : f v = none) : UG.lookup f v = .error .key := by
  unfold UG.lookup
  rw [h]

theorem renameNodes_ok {β : Type u} [DecidableEq β] (hP : P.Consistent) (on : SetOrder Unit α) (oa : SetOrder Unit (α × α))
    (oe : SetOrder Unit (Finset α)) (up : Unpack α) (oa' oe' : SetOrder Unit (β × β)) (f : α → Option β)
    (hf : ∀ v ∈ P.nodes, ∃ w, f v = some w) (hi : ∀ v ∈ P.nodes, ∀ v' ∈ P.nodes, f v = f v' → v = v') :
    ∃ ns as es, P.renameNodes on oa oe up oa' oe' f = .ok (new oa' oe' ns as es ∅) ∧ (∀ w, w ∈ ns ↔ ∃ v ∈ P.nodes, f v = some w) ∧
      (∀ x y, (x, y) ∈ as ↔ ∃ i j, (i, j) ∈ P.arcs ∧ f i = some x ∧ f j = some y) ∧
      (∀ x y, (x, y) ∈ es → x ≠ y ∧ ∃ i j, {i, j} ∈ P.edges ∧ f i = some x ∧ f j = some y) ∧
      ∀ i j x y, {i, j} ∈ P.edges → f i = some x → f j = some y → (x, y) ∈ es ∨ (y, x) ∈ es := by
  obtain ⟨ns, n1, n2⟩ := mapM_except_ok (f := UG.lookup f) (l := on.ord () P.nodes) fun v hv => by
    obtain ⟨w, hw⟩ := hf v ((on.mem_iff () P.nodes v).1 hv)
    exact ⟨w, lookup_ok.2 hw⟩
  have two : ∀ i j x y, f i = some x → f j = some y →
      ((UG.lookup f i).bind fun i => (UG.lookup f j).map fun j => (i, j)) = .ok (x, y) := by
    intro i j x y hi hj
    rw [lookup_ok.2 hi, lookup_ok.2 hj]
    rfl
  obtain ⟨as, a1, a2⟩ := mapM_except_ok (f := fun a : α × α => (UG.lookup f a.1).bind fun i => (UG.lookup f a.2).map fun j => (i, j))
    (l := oa.ord () P.arcs) fun a ha => by
      obtain ⟨h1, h2⟩ := hP.arc_mem a.1 a.2 ((oa.mem_iff () P.arcs a).1 ha)
      obtain ⟨x, hx⟩ := hf _ h1
      obtain ⟨y, hy⟩ := hf _ h2
      exact ⟨_, two _ _ _ _ hx hy⟩
  have hed : ∀ e ∈ P.edges, (up.fn e).1 ∈ P.nodes ∧ (up.fn e).2 ∈ P.nodes := by
    intro e he
    have hm : ∀ x, x = (up.fn e).1 ∨ x = (up.fn e).2 → x ∈ e := by
      intro x hx
      rw [(unpack_edge hP up he).2, Finset.mem_insert, Finset.mem_singleton]
      exact hx
    exact ⟨hP.edge_mem e he (hm _ (.inl rfl)), hP.edge_mem e he (hm _ (.inr rfl))⟩
  obtain ⟨es, e1, e2⟩ := mapM_except_ok
    (f := fun e : Finset α => (UG.lookup f (up.fn e).1).bind fun i => (UG.lookup f (up.fn e).2).map fun j => (i, j))
    (l := oe.ord () P.edges) fun e he => by
      obtain ⟨h1, h2⟩ := hed e ((oe.mem_iff () P.edges e).1 he)
      obtain ⟨x, hx⟩ := hf _ h1
      obtain ⟨y, hy⟩ := hf _ h2
      exact ⟨_, two _ _ _ _ hx hy⟩
  refine ⟨ns.toFinset, as.toFinset, es.toFinset, ?_, fun w => ?_, fun x y => ?_, fun x y h => ?_, fun i j x y h hx hy => ?_⟩
  · unfold renameNodes
    rw [n1, a1, e1]
    rfl
  · rw [List.mem_toFinset, n2]
    simp only [on.mem_iff, lookup_ok]
  · rw [List.mem_toFinset, a2]
    constructor
    · rintro ⟨a, ha, h⟩
      have ha := (oa.mem_iff () P.arcs a).1 ha
      obtain ⟨h1, h2⟩ := hP.arc_mem a.1 a.2 ha
      obtain ⟨x', hx⟩ := hf _ h1
      obtain ⟨y', hy⟩ := hf _ h2
      rw [two _ _ _ _ hx hy] at h
      cases h
      exact ⟨_, _, ha, hx, hy⟩
    · rintro ⟨i, j, ha, hx, hy⟩
      exact ⟨(i, j), (oa.mem_iff () P.arcs _).2 ha, two _ _ _ _ hx hy⟩
  · rw [List.mem_toFinset, e2] at h
    obtain ⟨e, he, h⟩ := h
    have he := (oe.mem_iff () P.edges e).1 he
    obtain ⟨h1, h2⟩ := hed e he
    obtain ⟨k1, k2⟩ := unpack_edge hP up he
    obtain ⟨x', hx⟩ := hf _ h1
    obtain ⟨y', hy⟩ := hf _ h2
    rw [two _ _ _ _ hx hy] at h
    cases h
    refine ⟨?_, _, _, k2 ▸ he, hx, hy⟩
    rintro rfl
    exact k1 (hi _ h1 _ h2 (hx.trans hy.symm))
  · simp only [List.mem_toFinset, e2]
    have hne := hP.edge_ne h
    rcases up.spec i j hne with k | k
    · exact .inl ⟨{i, j}, (oe.mem_iff () P.edges _).2 h, by rw [k]; exact two _ _ _ _ hx hy⟩
    · exact .inr ⟨{i, j}, (oe.mem_iff () P.edges _).2 h, by rw [k]; exact two _ _ _ _ hy hx⟩

theorem renameNodes_error {β : Type u} [DecidableEq β] (on : SetOrder Unit α) (oa : SetOrder Unit (α × α))
    (oe : SetOrder Unit (Finset α)) (up : Unpack α) (oa' oe' : SetOrder Unit (β × β)) (f : α → Option β) {v : α} (hv : v ∈ P.nodes)
    (h : f v = none) : P.renameNodes on oa oe up oa' oe' f = .error .key := by
  unfold renameNodes
  rw [mapM_except_error .key (fun x _ => ?_) ⟨v, (on.mem_iff () P.nodes v).2 hv, lookup_error h⟩]
  · rfl
  · cases hx : f x with
    | none => exact .inr (lookup_error hx)
    | some y => exact .inl ⟨y, lookup_ok.2 hx⟩

theorem Consistent.ext' (hP : P.Consistent) (hQ : Q.Consistent) (hn : P.nodes = Q.nodes) (ha : P.arcs = Q.arcs) (he : P.edges = Q.edges)
    (hk : P.known = Q.known) : P = Q := by
  refine PDAG.ext hn ha he ?_ ?_ ?_ ?_ hk <;> funext v <;> ext x
  · rw [hP.parents_iff, hQ.parents_iff, ha]
  · rw [hP.children_iff, hQ.children_iff, ha]
  · rw [hP.neighbors_iff, hQ.neighbors_iff, ha, he]
  · rw [hP.undirected_iff, hQ.undirected_iff, he]

end Model.PDAG
