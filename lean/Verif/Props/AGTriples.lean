import Verif.Proof.AGTriples
import Verif.Props.AGEquiv

/-! # C101, C102: discriminating triples and the fast test of Markov equivalence -/

namespace Props

open Model Relation Spec

universe u
variable {α : Type u} [DecidableEq α]

/-! ## C101 -/

/-- C101. On a maximal ancestral graph `discriminating_triples()` terminates without raising, for all iteration orders. The
result consists exactly of the sets of three nodes, some but not all of them adjacent, no two of which are m-separated by a set
that contains the third. -/
theorem C101_discriminating_triples (A : AG α) (h : AG.Reachable A) (ha : A.mixed.Ancestral)
    (hm : A.mixed.Maximal {v | v ∈ A.nodes}) (o : TripleOracle α) (srt : Unpack α) :
    ∃ S, A.discriminatingTriples o srt = pure S ∧ ∀ s, s ∈ S ↔ A.mixed.InsepTriple {v | v ∈ A.nodes} s := by
  obtain ⟨S, h1, h2⟩ := AG.discriminatingTriples_spec h.good ha o srt
  exact ⟨S, h1, fun s => (h2 s).trans
    (Mixed.codeTriple_iff (h.good.anc ha) hm (fun x y k => (h.good.adj_mem k).1) s)⟩

namespace Sample

theorem discCol_triple : discCol.mixed.CodeTriple {2, 3, 0} := by
  refine ⟨2, 3, 0, rfl, Or.inl ⟨Or.inl ⟨by unfold AG.mixed; decide, by decide, by decide, 1, .single ⟨?_, Or.inr (.single ?_)⟩,
    Or.inl ?_⟩, by decide⟩⟩
  all_goals unfold AG.mixed; decide

/-- In `discNon` the nodes 0 and 3 are separated by 1 and 2. -/
theorem discNon_triple : ¬ discNon.mixed.InsepTriple {v | v ∈ discNon.nodes} {2, 3, 0} := by
  intro h
  have e : ({0, 3, 2} : Finset (Fin 4)) = {2, 3, 0} := by decide
  refine absurd (Mixed.adj_of_insep discNon_good.proper discNon_maximal (fun x y k => (discNon_good.adj_mem k).1) (a := 0)
    (b := 3) (c := 2) (by rw [e]; exact h.sub) (by decide) (by rw [e]; exact h.insep) (Or.inr (.single ?_))) (by decide)
  unfold AG.mixed; decide

end Sample

/-- `0 → 1 ↔ 2 ↔ 3`, `1 → 3`: the set of 0, 2 and 3 is found; it is no unshielded collider. With `2 → 3` in place of
`2 ↔ 3` it is not found. -/
example (o : TripleOracle (Fin 4)) (srt : Unpack (Fin 4)) :
    (∃ S, Sample.discCol.discriminatingTriples o srt = pure S ∧ {2, 3, 0} ∈ S) ∧
      ∃ S, Sample.discNon.discriminatingTriples o srt = pure S ∧ {2, 3, 0} ∉ S := by
  obtain ⟨S, h1, h2⟩ := AG.discriminatingTriples_spec Sample.discCol_good Sample.discCol_ancestral o srt
  obtain ⟨T, k1, k2⟩ := C101_discriminating_triples _ Sample.discNon_reachable Sample.discNon_ancestral Sample.discNon_maximal o srt
  exact ⟨⟨S, h1, (h2 _).2 Sample.discCol_triple⟩, T, k1, fun k => Sample.discNon_triple ((k2 _).1 k)⟩

/-! ## C102 -/

/-- C102. For maximal ancestral graphs on the same nodes `fast_markov_equivalent` terminates without raising, for all iteration
orders, and returns `True` exactly if the two graphs have the same m-separations. -/
theorem C102_fast_markov_equivalent (A B : AG α) (hA : AG.Reachable A) (hB : AG.Reachable B) (aA : A.mixed.Ancestral)
    (aB : B.mixed.Ancestral) (mA : A.mixed.Maximal {v | v ∈ A.nodes}) (mB : B.mixed.Maximal {v | v ∈ B.nodes})
    (hn : A.nodes = B.nodes) (o1 o2 : TripleOracle α) (srt : Unpack α) :
    ∃ r, A.fastMarkovEquivalent o1 o2 srt B = pure ⟨r⟩ ∧
      (r = true ↔ A.mixed.MarkovEquiv B.mixed {v | v ∈ A.nodes}) :=
  AG.fastMarkovEquivalent_spec hA.good hB.good aA aB mA mB hn o1 o2 srt

/-- C102. It agrees with `markov_equivalent`. -/
theorem C102_agrees (A B : AG α) (hA : AG.Reachable A) (hB : AG.Reachable B) (aA : A.mixed.Ancestral)
    (aB : B.mixed.Ancestral) (mA : A.mixed.Maximal {v | v ∈ A.nodes}) (mB : B.mixed.Maximal {v | v ∈ B.nodes})
    (hn : A.nodes = B.nodes) (o1 o2 : TripleOracle α) (d1 d2 : DiscOracle α) (srt srt' : Unpack α) :
    A.fastMarkovEquivalent o1 o2 srt B = A.markovEquivalent d1 d2 srt' B := by
  obtain ⟨r, h1, h2⟩ := C102_fast_markov_equivalent A B hA hB aA aB mA mB hn o1 o2 srt
  obtain ⟨r', h1', h2'⟩ := C95_markov_equivalent A B hA hB aA aB mA mB hn d1 d2 srt'
  have : r = r' := by rw [Bool.eq_iff_iff, h2, h2']
  rw [h1, h1', this]

/-- Two graphs with the same adjacencies and unshielded colliders that are told apart by a triple. -/
example (o1 o2 : TripleOracle (Fin 4)) (srt : Unpack (Fin 4)) :
    Sample.discCol.fastMarkovEquivalent o1 o2 srt Sample.discNon = pure ⟨false⟩ := by
  obtain ⟨r, h1, h2⟩ := C102_fast_markov_equivalent _ _ Sample.discCol_reachable Sample.discNon_reachable Sample.discCol_ancestral
    Sample.discNon_ancestral Sample.discCol_maximal Sample.discNon_maximal rfl o1 o2 srt
  have : r = false := by
    rw [Bool.eq_false_iff, Ne, h2, Mixed.markovEquiv_iff_triples (Sample.discCol_good.anc Sample.discCol_ancestral)
      (Sample.discNon_good.anc Sample.discNon_ancestral) Sample.discCol_maximal Sample.discNon_maximal
      (fun x y k => (Sample.discCol_good.adj_mem k).1) (fun x y k => (Sample.discNon_good.adj_mem k).1)]
    rintro ⟨-, -, h⟩
    exact Sample.discNon_triple ((Mixed.codeTriple_iff (Sample.discNon_good.anc Sample.discNon_ancestral) Sample.discNon_maximal
      (fun x y k => (Sample.discNon_good.adj_mem k).1) _).1 ((h _).1 Sample.discCol_triple))
  rw [h1, this]

end Props
