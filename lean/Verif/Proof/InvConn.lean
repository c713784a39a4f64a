import Mathlib.Data.Set.Card
import Verif.Proof.InvArc
import Verif.Proof.AGMec

/-! # Markov equivalent directed maximal ancestral graphs are connected by legitimate mark changes (Zhang and Spirtes 2005) -/

namespace Spec.Mixed

universe u
variable {α : Type u} {M N K : Mixed α} {V : Finset α} {i j : α}
open Relation

/-- A directed maximal ancestral graph with nodes `V`, symmetric bidirected edges and no loops. -/
structure Mag (V : Finset α) (M : Mixed α) : Prop where
  anc : M.Anc
  un : ∀ u v, ¬ M.un u v
  mem : ∀ x y, M.Adj x y → x ∈ V
  max : M.Maximal {v | v ∈ V}

theorem Mag.dmag (h : Mag V M) : M.DMAG {v | v ∈ V} := ⟨h.un, h.anc.anc, h.max⟩

theorem Mag.no_ind (h : Mag V M) : ∀ i j, i ≠ j → ¬ M.Adj i j → ¬ M.Ind i j := by
  intro x y hxy hna hI
  have hx : x ∈ V := by
    obtain ⟨v, w, k1, -, -, -⟩ := hI
    exact h.mem _ _ (h.anc.adj_into k1)
  have hy : y ∈ V := by
    obtain ⟨v, w, -, -, -, k1⟩ := hI
    exact h.mem _ _ (h.anc.adj_into k1)
  exact (maximal_iff h.anc.proper h.mem).1 h.max x hx y hy hxy hna hI

theorem Mag.eqv (hM : Mag V M) (hN : Mag V N) (h : M.MarkovEquiv N {v | v ∈ V}) : Eqv M N :=
  ⟨hM.anc, hN.anc, hM.un, hN.un, (markovEquiv_iff hM.anc hN.anc hM.max hN.max hM.mem hN.mem).1 h, hM.no_ind, hN.no_ind⟩

theorem MarkovEquiv.symm {V : Set α} (h : M.MarkovEquiv N V) : N.MarkovEquiv M V :=
  fun S T Z h1 h2 h3 h4 h5 h6 => (h S T Z h1 h2 h3 h4 h5 h6).symm

theorem MarkovEquiv.trans {V : Set α} (h : M.MarkovEquiv N V) (k : N.MarkovEquiv K V) : M.MarkovEquiv K V :=
  fun S T Z h1 h2 h3 h4 h5 h6 => (h S T Z h1 h2 h3 h4 h5 h6).trans (k S T Z h1 h2 h3 h4 h5 h6)

theorem Mag.wf (h : Mag V M) : WellFounded M.dir := by
  classical
  refine Subrelation.wf (r := fun a b => (V.filter fun z => Path M.dir z a).card < (V.filter fun z => Path M.dir z b).card) ?_
    (measure fun a => (V.filter fun z => Path M.dir z a).card).wf
  intro a b hab
  refine Finset.card_lt_card ⟨fun z hz => ?_, fun hs => ?_⟩
  · rw [Finset.mem_filter] at hz ⊢
    exact ⟨hz.1, .tail hz.2 hab⟩
  · have : a ∈ V.filter fun z => Path M.dir z a :=
      hs (Finset.mem_filter.2 ⟨h.mem _ _ (.inl hab), .single hab⟩)
    exact h.anc.anc.acyclic a (Finset.mem_filter.1 this).2

theorem Mag.wf' (h : Mag V M) : WellFounded fun a b => M.dir b a := by
  classical
  refine Subrelation.wf (r := fun a b => (V.filter fun z => Path M.dir a z).card < (V.filter fun z => Path M.dir b z).card) ?_
    (measure fun a => (V.filter fun z => Path M.dir a z).card).wf
  intro a b hab
  refine Finset.card_lt_card ⟨fun z hz => ?_, fun hs => ?_⟩
  · rw [Finset.mem_filter] at hz ⊢
    exact ⟨hz.1, .head hab hz.2⟩
  · have : a ∈ V.filter fun z => Path M.dir a z :=
      hs (Finset.mem_filter.2 ⟨h.mem _ _ (.inr (.inl hab)), .single hab⟩)
    exact h.anc.anc.acyclic a (Finset.mem_filter.1 this).2

/-! ## Single steps -/

theorem toBi_toDir (hM : M.Anc) (hun : ∀ u v, ¬ M.un u v) (h : M.dir i j) : (M.toBi i j).toDir i j = M := by
  have f := flip_toBi hM hun h
  refine Model.AG.mixed_ext (fun u v => (f.dir_iff u v).symm) (fun u v => ?_) (fun _ _ => Iff.rfl)
  change (M.toBi i j).bi u v ∧ _ ↔ _
  rw [f.bi_iff]
  constructor
  · rintro ⟨k | k | k, h1, h2⟩
    · exact k
    · exact absurd k h1
    · exact absurd k h2
  · exact fun k => ⟨.inl k, fun m => f.bi_M (by rwa [m.1, m.2] at k), fun m => f.bi_M' (by rwa [m.1, m.2] at k)⟩

theorem toDir_toBi (hM : M.Anc) (hun : ∀ u v, ¬ M.un u v) (h : M.bi i j) : (M.toDir i j).toBi i j = M := by
  have f := flip_toDir hM hun h
  refine Model.AG.mixed_ext (fun u v => ?_) (fun u v => (f.bi_iff u v).symm) (fun _ _ => Iff.rfl)
  change (M.toDir i j).dir u v ∧ _ ↔ _
  rw [f.dir_iff]
  constructor
  · rintro ⟨k | k, h1⟩
    · exact k
    · exact absurd k h1
  · exact fun k => ⟨.inl k, fun m => f.dir_N (by rwa [m.1, m.2] at k)⟩

theorem Mag.toBi (h : Mag V M) (hd : M.dir i j) (hl : M.Legit i j) : Mag V (M.toBi i j) ∧
    MarkStep {v | v ∈ V} M (M.toBi i j) ∧ MarkStep {v | v ∈ V} (M.toBi i j) M := by
  have f := flip_toBi h.anc h.un hd
  obtain ⟨h1, h2, h3⟩ := (f.legit_N h.anc h.mem h.max).2 hl
  have hN : Mag V (M.toBi i j) := ⟨f.anc_of_N h.anc h1, f.un_N, fun x y k => h.mem x y ((f.adj _ _).2 k), h2⟩
  exact ⟨hN, ⟨hN.dmag, h3, .inl ⟨i, j, hd, rfl⟩⟩, h.dmag, h3.symm, .inr ⟨i, j, f.bi, (toBi_toDir h.anc h.un hd).symm⟩⟩

theorem Mag.toDir (h : Mag V M) (hb : M.bi i j) (hl : M.Legit i j) : Mag V (M.toDir i j) ∧
    MarkStep {v | v ∈ V} M (M.toDir i j) ∧ MarkStep {v | v ∈ V} (M.toDir i j) M := by
  have f := flip_toDir h.anc h.un hb
  obtain ⟨h1, h2, h3⟩ := (f.legit_M h.anc h.mem h.max).2 hl
  have hN : Mag V (M.toDir i j) := ⟨f.anc_of_M h.anc h1, f.un_M, fun x y k => h.mem x y ((f.adj _ _).1 k), h2⟩
  exact ⟨hN, ⟨hN.dmag, h3, .inr ⟨i, j, hb, rfl⟩⟩, h.dmag, h3.symm, .inl ⟨i, j, f.dir, (toDir_toBi h.anc h.un hb).symm⟩⟩

/-! ## Going down -/

theorem Mag.descend : ∀ (n : ℕ) (M : Mixed α), Mag V M → {e : α × α | e ∈ V ×ˢ V ∧ M.bi e.1 e.2}.ncard = n →
    ∃ K, Mag V K ∧ K.Blocked ∧ ReflTransGen (MarkStep {v | v ∈ V}) M K ∧ ReflTransGen (MarkStep {v | v ∈ V}) K M := by
  intro n
  induction n using Nat.strong_induction_on with
  | _ n ih =>
  intro M hM hn
  by_cases hB : M.Blocked
  · exact ⟨M, hM, hB, .refl, .refl⟩
  unfold Blocked at hB
  push Not at hB
  obtain ⟨x, u, hb, hl⟩ := hB
  obtain ⟨h1, h2, h3⟩ := hM.toDir hb hl
  obtain ⟨K, k1, k2, k3, k4⟩ := ih _ (by
    rw [← hn]
    refine Set.ncard_lt_ncard ⟨fun e he => ⟨he.1, he.2.1⟩, fun hs => ?_⟩ ((V ×ˢ V).finite_toSet.subset fun e he => he.1)
    have : (x, u) ∈ {e : α × α | e ∈ V ×ˢ V ∧ (M.toDir x u).bi e.1 e.2} := hs ⟨Finset.mem_product.2
      ⟨hM.mem _ _ (.inr (.inr (.inl hb))), hM.mem _ _ (.inr (.inr (.inl (hM.anc.bi_symm _ _ hb))))⟩, hb⟩
    exact this.2.2.1 ⟨rfl, rfl⟩) _ h1 rfl
  exact ⟨K, k1, k2, .head h2 k3, .tail k4 h3⟩

/-! ## Reversing arcs -/

theorem Mag.reverse : ∀ (n : ℕ) (M N : Mixed α), Mag V M → Mag V N → M.Blocked → N.Blocked → M.MarkovEquiv N {v | v ∈ V} →
    {e : α × α | e ∈ V ×ˢ V ∧ Rev M N e.1 e.2}.ncard = n → ReflTransGen (MarkStep {v | v ∈ V}) M N := by
  intro n
  induction n using Nat.strong_induction_on with
  | _ n ih =>
  intro M N hM hN bM bN hq hn
  have e := hM.eqv hN hq
  have hb : ∀ u v, M.bi u v ↔ N.bi u v := fun u v =>
    ⟨e.bi_invariant hM.wf hM.wf' bM, e.symm.bi_invariant hN.wf hN.wf' bN⟩
  by_cases hr : ∃ x y, Rev M N x y
  · obtain ⟨x, y, h, h1, h2⟩ := exists_rev hM.wf hM.wf' hr
    have l1 := e.legit_rev hb h h1 h2
    have f := flip_toBi hM.anc hM.un h.1
    obtain ⟨m1, s1, -⟩ := hM.toBi h.1 l1
    have l2 := e.legit_rev' hb hM.wf hM.wf' bM hN.wf hN.wf' bN f h l1
    obtain ⟨m2, s2, -⟩ := m1.toDir f.bi' l2
    have q2 : M.MarkovEquiv ((M.toBi x y).toDir y x) {v | v ∈ V} := s1.2.1.trans s2.2.1
    have bi2 : ∀ u v, ((M.toBi x y).toDir y x).bi u v → M.bi u v := by
      rintro u v ⟨k, k1, k2⟩
      rcases (f.bi_iff u v).1 k with k | k | k
      · exact k
      · exact absurd k k2
      · exact absurd k k1
    have b2 : ((M.toBi x y).toDir y x).Blocked := by
      intro a b hab hl
      obtain ⟨m3, s3, -⟩ := m2.toDir hab hl
      have := (hM.eqv m3 (q2.trans s3.2.1)).bi_invariant hM.wf hM.wf' bM (bi2 _ _ hab)
      exact this.2.1 ⟨rfl, rfl⟩
    refine .head s1 (.head s2 (ih _ ?_ _ N m2 hN b2 bN (q2.symm.trans hq) rfl))
    rw [← hn]
    have sub : ∀ a b, Rev ((M.toBi x y).toDir y x) N a b → Rev M N a b ∧ ¬ (a = x ∧ b = y) := by
      rintro a b ⟨k1 | k1, k2⟩
      · exact ⟨⟨k1.1, k2⟩, k1.2⟩
      · rw [k1.1, k1.2] at k2
        exact absurd (.inl k2) (hN.anc.proper.excl _ _ h.2)
    refine Set.ncard_lt_ncard ⟨fun e he => ⟨he.1, (sub _ _ he.2).1⟩, fun hs => ?_⟩ ((V ×ˢ V).finite_toSet.subset fun e he => he.1)
    have : (x, y) ∈ {e : α × α | e ∈ V ×ˢ V ∧ Rev ((M.toBi x y).toDir y x) N e.1 e.2} := hs ⟨Finset.mem_product.2
      ⟨hM.mem _ _ (.inl h.1), hM.mem _ _ (.inr (.inl h.1))⟩, h⟩
    exact (sub _ _ this.2).2 ⟨rfl, rfl⟩
  · push Not at hr
    have : M = N := by
      refine Model.AG.mixed_ext (fun u v => ⟨fun k => ?_, fun k => ?_⟩) hb (fun u v => ⟨fun k => absurd k (hM.un _ _), fun k => absurd k (hN.un _ _)⟩)
      · exact (e.arc hb k).resolve_right fun m => hr _ _ ⟨k, m⟩
      · exact (e.symm.arc (fun u v => (hb u v).symm) k).resolve_right fun m => hr _ _ ⟨m, k⟩
    rw [this]

/-- Any two Markov equivalent directed maximal ancestral graphs are connected by legitimate mark changes. -/
theorem Mag.connected (hM : Mag V M) (hN : Mag V N) (h : M.MarkovEquiv N {v | v ∈ V}) :
    ReflTransGen (MarkStep {v | v ∈ V}) M N := by
  obtain ⟨M0, m1, m2, m3, m4⟩ := Mag.descend _ M hM rfl
  obtain ⟨N0, n1, n2, n3, n4⟩ := Mag.descend _ N hN rfl
  refine m3.trans ((Mag.reverse _ M0 N0 m1 n1 m2 n2 ?_ rfl).trans n4)
  exact (Model.AG.markSteps_equiv m4).trans (h.trans (Model.AG.markSteps_equiv n3))

end Spec.Mixed
