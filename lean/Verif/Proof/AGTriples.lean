import Verif.Model.AGTriples
import Verif.Proof.Triples
import Verif.Proof.AGEquiv
import Verif.Proof.Districts

/-! # `discriminating_triples` and `fast_markov_equivalent` -/

namespace Spec.Mixed

universe u
variable {α : Type u} {M : Mixed α}
open Relation

theorem Head2.symm (h : M.Proper) {v w z : α} (k : M.Head2 v w z) : M.Head2 w v z := by
  obtain ⟨h1, h2, h3, d, h4, h5⟩ := k
  refine ⟨h.bi_symm _ _ h1, h3, h2, d, ReflTransGen.head ⟨h.bi_symm _ _ h1, Or.inr .refl⟩
    (path0_mono (fun _ _ k => ⟨k.1, k.2.symm⟩) h4), h5.imp_right fun k => ⟨k.1, k.2.symm⟩⟩

theorem Head3.symm (h : M.Proper) {v w z : α} (k : M.Head3 v w z) : M.Head3 w v z := by
  obtain ⟨h1, ⟨h2, h3, h3'⟩, d, h4, h5⟩ := k
  refine ⟨h.bi_symm _ _ h1, ⟨fun k => h2 k.symm, h3', h3⟩, d, ReflTransGen.head ⟨h.bi_symm _ _ h1, Or.inr (Or.inl .refl)⟩
    (path0_mono (fun _ _ k => ⟨k.1, by have := k.2; unfold An3 at this ⊢; tauto⟩) h4), h5⟩

end Spec.Mixed

namespace Model

universe u
variable {α : Type u} [DecidableEq α]
open Relation Spec

omit [DecidableEq α] in
/-- A loop that adds the members of `T e` for each `e`. -/
theorem foldlM_union {β : Type u} {γ : Type u} [DecidableEq β] [DecidableEq γ] {f : Finset γ → β → Run α (Finset γ)}
    {T : β → Finset γ} : ∀ (l : List β) (d : Finset γ), (∀ e ∈ l, ∀ d, f d e = pure (d ∪ T e)) →
      l.foldlM f d = pure (d ∪ l.toFinset.biUnion T) := by
  intro l
  induction l with
  | nil => intro d _; simp
  | cons e l ih =>
    intro d h
    rw [List.foldlM_cons, h e (by simp) d, pure_bind, ih (d ∪ T e) fun e' he' => h e' (by simp [he'])]
    simp [Finset.union_assoc, Finset.biUnion_insert]

namespace AG

variable {A B : AG α}

theorem districtOfIn_spec (hA : A.Good) (o : SetOrder (α × Finset α) α) {S : Finset α} {v : α} (hv : v ∈ S) :
    ∃ N, A.districtOfIn o S v = some N ∧ ∀ x, x ∈ N ↔ ReflTransGen (fun a b => A.mixed.bi a b ∧ b ∈ S) v x := by
  obtain ⟨N, h1, h2, -, h3, h4⟩ := reachable_spec (fun x => A.spouses x ∩ S) o S (fun _ _ => Finset.inter_subset_right) _ ∅ ∅ v
    le_rfl hv (by simp)
  have hrel : (fun a b => b ∈ A.spouses a ∩ S) = fun a b => A.mixed.bi a b ∧ b ∈ S := by
    funext a b
    rw [Finset.mem_inter, hA.1.spouses_iff, Finset.pair_comm]
    rfl
  rw [hrel] at h3
  refine ⟨N, by rw [districtOfIn, h1]; simp, fun x => ⟨h3 x, fun hx => ?_⟩⟩
  induction hx with
  | refl => exact h2
  | @tail b c _ hbc ih =>
    have := h4 b ih ((congrFun (congrFun hrel b) c).mpr hbc)
    simpa using this

variable (hA : A.Good) (hanc : A.mixed.Ancestral) {anc desc : α → Finset α}
  (ha : ∀ v ∈ A.nodes, ∀ x, x ∈ anc v ↔ Path A.mixed.dir x v) (hd : ∀ v ∈ A.nodes, ∀ x, x ∈ desc v ↔ Path A.mixed.dir v x)
include hA ha

omit hA in
theorem mem_an {v w : α} (hv : v ∈ A.nodes) (hw : w ∈ A.nodes) (x : α) :
    x ∈ anc v ∪ anc w ∪ {v, w} ↔ A.mixed.An2 v w x := by
  simp only [Finset.mem_union, Finset.mem_insert, Finset.mem_singleton, ha v hv, ha w hw, Mixed.An2, Path0, Path,
    reflTransGen_iff_eq_or_transGen, eq_comm]
  tauto

include hd in
omit ha hA in
theorem mem_de {v w : α} (hv : v ∈ A.nodes) (hw : w ∈ A.nodes) (x : α) :
    x ∈ desc v ∪ desc w ∪ {v, w} ↔ Path0 A.mixed.dir v x ∨ Path0 A.mixed.dir w x := by
  simp only [Finset.mem_union, Finset.mem_insert, Finset.mem_singleton, hd v hv, hd w hw, Path0, Path,
    reflTransGen_iff_eq_or_transGen]
  tauto

include hanc

theorem tailOf_spec (o : SetOrder (α × Finset α) α) {v w : α} (hvw : A.mixed.bi v w) :
    ∃ t, A.tailOf o anc v w = pure t ∧ ∀ z, z ∈ t ↔ A.mixed.Head2 v w z := by
  have h := hA.proper
  have hM := hA.anc hanc
  have hv := (hA.adj_mem (Or.inr (Or.inr (Or.inl hvw)))).1
  have hw := (hA.adj_mem (Or.inr (Or.inr (Or.inl hvw)))).2
  obtain ⟨N, h1, h2⟩ := districtOfIn_spec hA o (S := anc v ∪ anc w ∪ {v, w}) (v := v) (by simp)
  have hN : N ≠ ∅ := Finset.nonempty_iff_ne_empty.1 ⟨v, (h2 v).2 .refl⟩
  refine ⟨N.biUnion A.parents ∪ (N \ {v, w}), ?_, fun z => ?_⟩
  · rw [tailOf, h1]
    change (A.parentsOfSet N >>= fun p => pure (p ∪ (N \ {v, w}))) = _
    rw [parentsOfSet, if_neg hN]; rfl
  · have h2' : ∀ x, x ∈ N ↔ ReflTransGen (fun a b => A.mixed.bi a b ∧ A.mixed.An2 v w b) v x := by
      intro x; rw [h2]
      simp only [mem_an ha hv hw]
    have hin : ∀ {x}, ReflTransGen (fun a b => A.mixed.bi a b ∧ A.mixed.An2 v w b) v x → A.mixed.An2 v w x := by
      intro x hx
      rcases ReflTransGen.cases_tail hx with rfl | ⟨y, -, hy⟩
      · exact Or.inl .refl
      · exact hy.2
    simp only [Finset.mem_union, Finset.mem_biUnion, Finset.mem_sdiff, Finset.mem_insert, Finset.mem_singleton, h2',
      hA.1.parents_iff]
    constructor
    · rintro (⟨d, hd, hz⟩ | ⟨hz, hne⟩)
      · have hz : A.mixed.dir z d := hz
        refine ⟨hvw, ?_, ?_, d, hd, Or.inl hz⟩
        · rintro rfl
          rcases hin hd with k | k
          · exact hanc.acyclic z (TransGen.head' hz k)
          · exact hanc.almost _ _ hvw (TransGen.head' hz k)
        · rintro rfl
          rcases hin hd with k | k
          · exact hanc.almost _ _ (h.bi_symm _ _ hvw) (TransGen.head' hz k)
          · exact hanc.acyclic z (TransGen.head' hz k)
      · rw [not_or] at hne
        refine ⟨hvw, hne.1, hne.2, ?_⟩
        rcases ReflTransGen.cases_tail hz with rfl | ⟨d, hd, hdz⟩
        · exact absurd rfl hne.1
        · exact ⟨d, hd, Or.inr ⟨h.bi_symm _ _ hdz.1, hdz.2⟩⟩
    · rintro ⟨-, h1, h2, d, hd, hz | hz⟩
      · exact Or.inl ⟨d, hd, hz⟩
      · exact Or.inr ⟨hd.tail ⟨h.bi_symm _ _ hz.1, hz.2⟩, by simp [h1, h2]⟩

omit hA ha hanc in
theorem notBoth_iff {v w z : α} : A.notBoth v w z = true ↔ ¬ (A.mixed.Adj v z ∧ A.mixed.Adj w z) := by
  unfold notBoth
  rw [← hasAnyEdge_iff, ← hasAnyEdge_iff]
  cases A.hasAnyEdge v z <;> cases A.hasAnyEdge w z <;> simp

include hd in
theorem tripleStep_spec (o : TripleOracle α) {v w : α} (hvw : A.mixed.bi v w) :
    ∃ T : Finset (Finset α), (∀ d, A.tripleStep o anc desc d (v, w) = pure (d ∪ T)) ∧
      ∀ s, s ∈ T ↔ ∃ z, s = {v, w, z} ∧ (A.mixed.Head2 v w z ∨ A.mixed.Head3 v w z) ∧
        ¬ (A.mixed.Adj v z ∧ A.mixed.Adj w z) := by
  have h := hA.proper
  have hM := hA.anc hanc
  have hv := (hA.adj_mem (Or.inr (Or.inr (Or.inl hvw)))).1
  have hw := (hA.adj_mem (Or.inr (Or.inr (Or.inl hvw)))).2
  obtain ⟨t, ht, ht'⟩ := tailOf_spec hA hanc ha o.dist hvw
  obtain ⟨N, hN, hN'⟩ := districtOfIn_spec hA o.dist hv
  set a := anc v ∪ anc w ∪ {v, w} with ea
  have ma := mem_an ha hv hw
  rw [← ea] at ma
  have hne : a ≠ ∅ := Finset.nonempty_iff_ne_empty.1 ⟨v, (ma v).2 (Or.inl .refl)⟩
  set L := o.zs.ord (v, w) (a.biUnion A.spouses ∩ (N \ (a ∪ (desc v ∪ desc w ∪ {v, w})))) with eL
  have bi_mem : ∀ {x y}, A.mixed.bi x y → x ∈ A.nodes ∧ y ∈ A.nodes := fun k => hA.adj_mem (Or.inr (Or.inr (Or.inl k)))
  have mN : ∀ x, x ∈ N ↔ ReflTransGen A.mixed.bi v x := by
    intro x; rw [hN']
    exact ⟨path0_mono fun _ _ k => k.1, path0_mono fun _ _ k => ⟨k, (bi_mem k).2⟩⟩
  have mL : ∀ z, z ∈ L ↔ (∃ d, A.mixed.An2 v w d ∧ A.mixed.bi z d) ∧ ReflTransGen A.mixed.bi v z ∧ ¬ A.mixed.An2 v w z ∧
      ¬ Path0 A.mixed.dir v z ∧ ¬ Path0 A.mixed.dir w z := by
    intro z
    rw [eL, o.zs.mem_iff]
    simp only [Finset.mem_inter, Finset.mem_sdiff, Finset.mem_biUnion, hA.1.spouses_iff]
    rw [mN, Finset.mem_union, mem_de hd hv hw, ma]
    simp only [ma, not_or]
    rfl
  classical
  have step : ∀ z ∈ L, ∀ d, A.headStep o.dist anc v w d z =
      pure (d ∪ if A.mixed.Head3 v w z ∧ ¬ (A.mixed.Adj v z ∧ A.mixed.Adj w z) then {{v, w, z}} else ∅) := by
    intro z hz d
    obtain ⟨-, h1, h2, h3, h4⟩ := (mL z).1 hz
    have hzn : z ∈ A.nodes := by
      rcases ReflTransGen.cases_tail h1 with rfl | ⟨y, -, hy⟩
      · exact hv
      · exact (bi_mem hy).2
    unfold headStep
    by_cases hb : A.notBoth v w z = true
    · have hb' := notBoth_iff.1 hb
      obtain ⟨D, k1, k2⟩ := districtOfIn_spec hA o.dist (S := a ∪ anc z ∪ {z}) (v := v) (by simp [ea])
      have mS : ∀ x, x ∈ a ∪ anc z ∪ {z} ↔ A.mixed.An3 v w z x := by
        intro x
        rw [Finset.mem_union, Finset.mem_union, ma, ha z hzn, Finset.mem_singleton]
        have : Path0 A.mixed.dir x z ↔ z = x ∨ Path A.mixed.dir x z := reflTransGen_iff_eq_or_transGen
        rw [Mixed.An2, Mixed.An3, this, eq_comm (a := z)]
        clear * -; tauto
      simp only [mS] at k2
      rw [if_pos hb, k1]
      have hh : z ∈ D ↔ A.mixed.Head3 v w z := by
        rw [k2]
        constructor
        · intro k
          rcases ReflTransGen.cases_tail k with rfl | ⟨y, hy, hyz⟩
          · exact absurd .refl h3
          · exact ⟨hvw, ⟨h2, h3, h4⟩, y, hy, h.bi_symm _ _ hyz.1⟩
        · rintro ⟨-, -, y, hy, hyz⟩
          exact hy.tail ⟨h.bi_symm _ _ hyz, Or.inr (Or.inr .refl)⟩
      change (pure (if z ∈ D then insert {v, w, z} d else d) : Run α _) = _
      by_cases hzD : z ∈ D
      · rw [if_pos hzD, if_pos ⟨hh.1 hzD, hb'⟩]; congr 1; ext s; simp [or_comm]
      · rw [if_neg hzD, if_neg fun k => hzD (hh.2 k.1)]; simp
    · rw [if_neg hb, if_neg fun k => hb (notBoth_iff.2 k.2)]; simp
  refine ⟨((t.filter fun z => A.notBoth v w z).image fun z => {v, w, z}) ∪ L.toFinset.biUnion fun z =>
    if A.mixed.Head3 v w z ∧ ¬ (A.mixed.Adj v z ∧ A.mixed.Adj w z) then {{v, w, z}} else ∅, fun d => ?_, fun s => ?_⟩
  · rw [tripleStep, ht, districtOf, hN]
    change (A.spousesOfSet a >>= fun sp => (o.zs.ord (v, w) (sp ∩ (N \ (a ∪ (desc v ∪ desc w ∪ {v, w}))))).foldlM
      (A.headStep o.dist anc v w) _) = _
    rw [spousesOfSet, if_neg hne, pure_bind, ← eL, foldlM_union L _ step, Finset.union_assoc]
  · simp only [Finset.mem_union, Finset.mem_image, Finset.mem_filter, Finset.mem_biUnion, List.mem_toFinset, ht', notBoth_iff]
    constructor
    · rintro (⟨z, ⟨k1, k2⟩, rfl⟩ | ⟨z, hz, hs⟩)
      · exact ⟨z, rfl, Or.inl k1, k2⟩
      · split_ifs at hs with k
        · exact ⟨z, by simpa using hs, Or.inr k.1, k.2⟩
        · simp at hs
    · rintro ⟨z, rfl, k1 | k1, k2⟩
      · exact Or.inl ⟨z, ⟨k1, k2⟩, rfl⟩
      · refine Or.inr ⟨z, (mL z).2 ?_, by rw [if_pos ⟨k1, k2⟩]; simp⟩
        obtain ⟨-, hno, d, hd, hzd⟩ := k1
        refine ⟨⟨d, ?_, hzd⟩, (path0_mono (fun _ _ k => k.1) hd).tail (h.bi_symm _ _ hzd), hno⟩
        have : A.mixed.An3 v w z d := by
          rcases ReflTransGen.cases_tail hd with rfl | ⟨y, -, hy⟩
          · exact Or.inl .refl
          · exact hy.2
        rcases this with k | k | k
        · exact Or.inl k
        · exact Or.inr k
        · exfalso
          rcases reflTransGen_iff_eq_or_transGen.1 k with rfl | k
          · exact hM.loop _ (Or.inr (Or.inr (Or.inl hzd)))
          · exact hanc.almost _ _ (h.bi_symm _ _ hzd) k

omit ha in
theorem discriminatingTriples_spec (o : TripleOracle α) (srt : Unpack α) :
    ∃ S, A.discriminatingTriples o srt = pure S ∧ ∀ s, s ∈ S ↔ A.mixed.CodeTriple s := by
  classical
  have h := hA.proper
  obtain ⟨anc, h1, ha⟩ := ancestorDict_spec hA hanc o.top o.spouse o.kids
  obtain ⟨desc, h2, hd⟩ := descendantDict_spec hA hanc o.top o.spouse o.pars
  have hT : ∀ e : α × α, ∃ T : Finset (Finset α), A.mixed.bi e.1 e.2 → (∀ d, A.tripleStep o anc desc d e = pure (d ∪ T)) ∧
      ∀ s, s ∈ T ↔ ∃ z, s = {e.1, e.2, z} ∧ (A.mixed.Head2 e.1 e.2 z ∨ A.mixed.Head3 e.1 e.2 z) ∧
        ¬ (A.mixed.Adj e.1 z ∧ A.mixed.Adj e.2 z) := by
    intro e
    by_cases k : A.mixed.bi e.1 e.2
    · obtain ⟨T, hT⟩ := tripleStep_spec hA hanc ha hd o k
      exact ⟨T, fun _ => hT⟩
    · exact ⟨∅, fun k' => absurd k' k⟩
  choose T hT using hT
  have up : ∀ e ∈ (o.bis.ord () A.bidirected).map o.up.fn, A.mixed.bi e.1 e.2 := by
    intro e he
    obtain ⟨x, hx, rfl⟩ := List.mem_map.1 he
    rw [o.bis.mem_iff] at hx
    obtain ⟨i, j, hij, rfl⟩ := hA.1.bi_pair x hx
    change ({_, _} : Finset α) ∈ A.bidirected
    rcases o.up.spec i j hij with k | k <;> rw [k]
    · exact hx
    · rwa [Finset.pair_comm]
  refine ⟨(∅ ∪ ((o.bis.ord () A.bidirected).map o.up.fn).toFinset.biUnion T) ∪
    (A.vstructures o.vstruct srt).image fun t => {t.1, t.2.1, t.2.2}, ?_, ?_⟩
  · rw [discriminatingTriples]
    have h1 : ancestorDict A o.top o.spouse o.kids = pure anc := h1
    have h2 : descendantDict A o.top o.spouse o.pars = pure desc := h2
    rw [h1, pure_bind, h2, pure_bind, foldlM_union _ _ (fun e he d => (hT e (up e he)).1 d), pure_bind]
  · intro s
    simp only [Finset.mem_union, Finset.mem_image, Finset.mem_biUnion, List.mem_toFinset, Finset.notMem_empty, false_or]
    constructor
    · rintro (⟨e, he, hs⟩ | ⟨⟨u, v, w⟩, hv, rfl⟩)
      · obtain ⟨z, rfl, k1, k2⟩ := ((hT e (up e he)).2 s).1 hs
        exact ⟨e.1, e.2, z, rfl, Or.inl ⟨k1, k2⟩⟩
      · exact ⟨u, v, w, rfl, Or.inr ((mem_vstructures hA _ _ _ _ _).1 hv).1⟩
    · rintro ⟨v, w, z, rfl, ⟨k1, k2⟩ | k⟩
      · left
        have hvw : A.mixed.bi v w := k1.elim (·.1) (·.1)
        have hne : v ≠ w := by rintro rfl; exact (hA.anc hanc).loop _ (Or.inr (Or.inr (Or.inl hvw)))
        refine ⟨o.up.fn {v, w}, List.mem_map.2 ⟨_, (o.bis.mem_iff _ _ _).2 hvw, rfl⟩, ?_⟩
        rcases o.up.spec v w hne with e | e <;> rw [e]
        · exact ((hT (v, w) hvw).2 _).2 ⟨z, rfl, k1, k2⟩
        · refine ((hT (w, v) (h.bi_symm _ _ hvw)).2 _).2 ⟨z, ?_, k1.imp (Mixed.Head2.symm h) (Mixed.Head3.symm h), fun k => k2 k.symm⟩
          exact Finset.insert_comm _ _ _
      · right
        rcases srt.spec v z k.1 with e | e
        · exact ⟨(v, w, z), (mem_vstructures hA _ _ _ _ _).2 ⟨k, e⟩, rfl⟩
        · refine ⟨(z, w, v), (mem_vstructures hA _ _ _ _ _).2 ⟨vstruct_symm h k, by rw [Finset.pair_comm]; exact e⟩, ?_⟩
          ext x; simp; clear * -; tauto

omit ha hanc hA in
theorem fastMarkovEquivalent_spec (hA : A.Good) (hB : B.Good) (aA : A.mixed.Ancestral) (aB : B.mixed.Ancestral)
    (mA : A.mixed.Maximal {v | v ∈ A.nodes}) (mB : B.mixed.Maximal {v | v ∈ B.nodes}) (hn : A.nodes = B.nodes)
    (o1 o2 : TripleOracle α) (srt : Unpack α) :
    ∃ r, A.fastMarkovEquivalent o1 o2 srt B = pure ⟨r⟩ ∧ (r = true ↔ A.mixed.MarkovEquiv B.mixed {v | v ∈ A.nodes}) := by
  rw [← hn] at mB
  rw [Mixed.markovEquiv_iff_triples (hA.anc aA) (hB.anc aB) mA mB (fun x y k => (hA.adj_mem k).1)
    (fun x y k => by change x ∈ A.nodes; rw [hn]; exact (hB.adj_mem k).1), ← skeleton_eq_iff hA hB,
    ← vstructures_eq_iff hA hB o1.vstruct o2.vstruct srt]
  unfold fastMarkovEquivalent
  by_cases h1 : A.skeleton = B.skeleton
  · rw [if_neg (not_not.2 h1)]
    by_cases h2 : A.vstructures o1.vstruct srt = B.vstructures o2.vstruct srt
    · rw [if_neg (not_not.2 h2)]
      obtain ⟨S, hS, kS⟩ := discriminatingTriples_spec hA aA o1 srt
      obtain ⟨T, hT, kT⟩ := discriminatingTriples_spec hB aB o2 srt
      refine ⟨decide (S = T), by rw [hS, hT]; rfl, ?_⟩
      simp only [decide_eq_true_iff, h1, h2, true_and]
      simp only [← kS, ← kT, Finset.ext_iff]
    · rw [if_pos h2]; exact ⟨false, rfl, by simp [h2]⟩
  · rw [if_pos h1]; exact ⟨false, rfl, by simp [h1]⟩

end AG

end Model
