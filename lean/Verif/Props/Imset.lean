import Verif.Props.Covered
import Verif.Props.CPDAG
import Verif.Model.Imset

/-! # C219: the standard imset characterises the Markov equivalence class -/

namespace Props

open Model Model.DAG Spec

universe u
variable {α : Type u} [DecidableEq α]

theorem imset_superset {G : DAG α} (hG : G.Valid) {U : Finset α} (hU : G.nodes ⊆ U) (S : Finset α) :
    ∑ T ∈ U.powerset with S ⊆ T, standardImset G ∅ T =
      ∑ v ∈ G.nodes, if v ∈ S ∧ S.erase v ⊆ G.parents v then (1 : ℤ) else 0 := by
  simp only [standardImset, Finset.sdiff_empty]
  rw [Finset.sum_comm]
  refine Finset.sum_congr rfl fun v hv => ?_
  have hpa : G.parents v ⊆ U := fun p hp => hU (hG.fst_mem _ _ ((hG.parents_iff _ _).1 hp))
  have hvp : v ∉ G.parents v := fun h => hG.acyclic.irrefl ((hG.parents_iff _ _).1 h)
  have hin : insert v (G.parents v) ⊆ U := Finset.insert_subset (hU hv) hpa
  rw [Finset.sum_sub_distrib, Finset.sum_ite_eq', Finset.sum_ite_eq']
  simp only [Finset.mem_filter, Finset.mem_powerset, hin, hpa, true_and]
  by_cases h : v ∈ S
  · have h1 : ¬ S ⊆ G.parents v := fun hs => hvp (hs h)
    have h2 : S ⊆ insert v (G.parents v) ↔ S.erase v ⊆ G.parents v := by 
      rw [Finset.subset_insert_iff]
    simp only [h1, h2, h, true_and, if_false, sub_zero]
  · have h1 : S ⊆ insert v (G.parents v) ↔ S ⊆ G.parents v := Finset.subset_insert_iff_of_notMem h
    simp only [h1, h, false_and, if_false, sub_self]

/-- What can be read off the imset: whether some node of a set has the others as parents. -/
theorem imset_pos {G : DAG α} (hG : G.Valid) {U : Finset α} (hU : G.nodes ⊆ U) (S : Finset α) :
    0 < ∑ T ∈ U.powerset with S ⊆ T, standardImset G ∅ T ↔ ∃ v ∈ S, v ∈ G.nodes ∧ ∀ x ∈ S, x ≠ v → G.E x v := by
  rw [imset_superset hG hU, Finset.sum_pos_iff_of_nonneg (fun v _ => by split <;> simp)]
  constructor
  · rintro ⟨v, hv, h⟩
    by_cases hc : v ∈ S ∧ S.erase v ⊆ G.parents v
    · exact ⟨v, hc.1, hv, fun x hx hne => (hG.parents_iff _ _).1 (hc.2 (Finset.mem_erase.2 ⟨hne, hx⟩))⟩
    · rw [if_neg hc] at h
      exact absurd h (lt_irrefl _)
  · rintro ⟨v, hv, hn, h⟩
    refine ⟨v, hn, ?_⟩
    rw [if_pos ⟨hv, fun x hx => (hG.parents_iff _ _).2 (h x (Finset.mem_of_mem_erase hx) (Finset.ne_of_mem_erase hx))⟩]
    exact one_pos

/-- The counts of two graphs agree iff the graphs have the same nodes, skeleton and v-structures. -/
theorem imset_eq_iff (G H : DAG α) (hG : G.Valid) (hH : H.Valid) :
    standardImset G ∅ = standardImset H ∅ ↔ G.nodes = H.nodes ∧ SameSkelV G.E H.E := by
  constructor
  · intro h
    have key : ∀ S : Finset α, (∃ v ∈ S, v ∈ G.nodes ∧ ∀ x ∈ S, x ≠ v → G.E x v) ↔ ∃ v ∈ S, v ∈ H.nodes ∧ ∀ x ∈ S, x ≠ v → H.E x v := by
      intro S
      rw [← imset_pos hG (U := G.nodes ∪ H.nodes) Finset.subset_union_left, ← imset_pos hH (U := G.nodes ∪ H.nodes) Finset.subset_union_right,
        h]
    have hnodes : G.nodes = H.nodes := by
      ext v
      simpa using key {v}
    have hpair : ∀ {K : DAG α}, K.Valid → ∀ a b, a ≠ b → ((∃ v ∈ ({a, b} : Finset α), v ∈ K.nodes ∧ ∀ x ∈ ({a, b} : Finset α), x ≠ v → K.E x v) ↔
        Adj K.E a b) := by
      intro K hK a b hab
      simp only [Finset.mem_insert, Finset.mem_singleton, exists_eq_or_imp, exists_eq_left, forall_eq_or_imp, forall_eq]
      constructor
      · rintro (⟨-, -, h⟩ | ⟨-, h, -⟩)
        · exact Or.inr (h hab.symm)
        · exact Or.inl (h hab)
      · rintro (h | h)
        · exact Or.inr ⟨hK.snd_mem _ _ h, fun _ => h, fun hne => absurd rfl hne⟩
        · exact Or.inl ⟨hK.snd_mem _ _ h, fun hne => absurd rfl hne, fun _ => h⟩
    have hadj : ∀ a b, Adj G.E a b ↔ Adj H.E a b := by
      intro a b
      by_cases hab : a = b
      · subst hab
        constructor
        · rintro (h | h) <;> exact absurd h hG.acyclic.irrefl
        · rintro (h | h) <;> exact absurd h hH.acyclic.irrefl
      · rw [← hpair hG a b hab, ← hpair hH a b hab]
        exact key _
    have hv : ∀ {K L : DAG α}, K.Valid → L.Valid → (∀ S : Finset α, (∃ v ∈ S, v ∈ K.nodes ∧ ∀ x ∈ S, x ≠ v → K.E x v) →
        ∃ v ∈ S, v ∈ L.nodes ∧ ∀ x ∈ S, x ≠ v → L.E x v) → (∀ a b, Adj K.E a b ↔ Adj L.E a b) →
        ∀ a c b, VStruct K.E a c b → VStruct L.E a c b := by
      rintro K L hK hL hS hA a c b ⟨hne, hac, hbc, hn⟩
      have hnac : a ≠ c := fun h => hK.acyclic.irrefl (h ▸ hac)
      have hnbc : b ≠ c := fun h => hK.acyclic.irrefl (h ▸ hbc)
      have hn' : ¬ Adj L.E a b := fun h => hn ((hA a b).2 h)
      obtain ⟨v, hv, -, h⟩ := hS {a, b, c} ⟨c, by simp, hK.snd_mem _ _ hac, by
        intro x hx hxc
        simp only [Finset.mem_insert, Finset.mem_singleton] at hx
        rcases hx with rfl | rfl | rfl
        · exact hac
        · exact hbc
        · exact absurd rfl hxc⟩
      simp only [Finset.mem_insert, Finset.mem_singleton] at hv
      rcases hv with rfl | rfl | rfl
      · exact absurd (Or.inr (h b (by simp) hne.symm)) hn'
      · exact absurd (Or.inl (h a (by simp) hne)) hn'
      · exact ⟨hne, h a (by simp) hnac, h b (by simp) hnbc, hn'⟩
    exact ⟨hnodes, hadj, fun a c b => ⟨hv hG hH (fun S => (key S).1) hadj a c b, hv hH hG (fun S => (key S).2) (fun a b => (hadj a b).symm) a c b⟩⟩
  · rintro ⟨h1, h2⟩
    exact C48_imset G H hG hH h1 h2

theorem imset_mem_keys {G : DAG α} {ignored s : Finset α} (h : standardImset G ignored s ≠ 0) : s ∈ G.imsetKeys ignored := by
  obtain ⟨v, hv, hne⟩ := Finset.exists_ne_zero_of_sum_ne_zero h
  simp only [imsetKeys, Finset.mem_union, Finset.mem_image]
  by_cases h1 : s = insert v (G.parents v)
  · exact Or.inl ⟨v, hv, h1.symm⟩
  · by_cases h2 : s = G.parents v
    · exact Or.inr ⟨v, hv, h2.symm⟩
    · simp [h1, h2] at hne

/-- The items of the dictionary: the sets with a non-zero count, each under its tuple. -/
theorem mem_getStandardImset {o : SetOrder Unit α} {G : DAG α} {ignored : Finset α} {l : List α} {c : ℤ} :
    (l, c) ∈ getStandardImset o G ignored ↔ ∃ s, l = o.ord () s ∧ c = standardImset G ignored s ∧ c ≠ 0 := by
  simp only [getStandardImset, Finset.mem_image, Finset.mem_filter, Prod.mk.injEq]
  constructor
  · rintro ⟨s, ⟨-, h⟩, rfl, rfl⟩
    exact ⟨s, rfl, rfl, h⟩
  · rintro ⟨s, rfl, rfl, h⟩
    exact ⟨s, ⟨imset_mem_keys h, h⟩, rfl, rfl⟩

omit [DecidableEq α] in
theorem SetOrder.ord_injective (o : SetOrder Unit α) : Function.Injective (o.ord ()) := by
  intro s t h
  ext x
  rw [← o.mem_iff () s, ← o.mem_iff () t, h]

/-- C219. If equal sets are enumerated alike in the two calls, the dictionaries returned by `get_standard_imset` are equal exactly
when `markov_equivalent` answers `True`. -/
theorem C219_imset_markov_partial (G H : DAG α) (hG : G.Valid) (hH : H.Valid) (o : SetOrder Unit α) (oa oa' : SetOrder Unit (α × α))
    (q q' : PDAG.OrientOracle α) :
    ∃ r : Bool, (G.markovEquivalent oa oa' q q' H none).run = some (.ok ⟨r⟩) ∧
      (r = true ↔ getStandardImset o G ∅ = getStandardImset o H ∅) := by
  obtain ⟨r, h1, h2⟩ := markovEquivalent_spec G H hG hH oa oa' q q'
  refine ⟨r, h1, h2.trans ((imset_eq_iff G H hG hH).symm.trans ⟨fun h => ?_, fun h => ?_⟩)⟩
  · ext ⟨l, c⟩
    rw [mem_getStandardImset, mem_getStandardImset, h]
  · have key : ∀ {G H : DAG α}, getStandardImset o G ∅ = getStandardImset o H ∅ → ∀ s, standardImset G ∅ s ≠ 0 →
        standardImset H ∅ s = standardImset G ∅ s := by
      intro G H h s hs
      have hm : (o.ord () s, standardImset G ∅ s) ∈ getStandardImset o G ∅ := mem_getStandardImset.2 ⟨s, rfl, rfl, hs⟩
      rw [h] at hm
      obtain ⟨t, ht, hc, -⟩ := mem_getStandardImset.1 hm
      rw [hc, ← SetOrder.ord_injective o ht]
    funext s
    by_cases hs : standardImset G ∅ s = 0
    · by_cases ht : standardImset H ∅ s = 0
      · rw [hs, ht]
      · exact key h.symm s ht
    · exact (key h s hs).symm

/-- Enumeration in increasing and in decreasing order. -/
def Sample.up : SetOrder Unit (Fin 3) :=
  ⟨fun _ s => (List.finRange 3).filter (· ∈ s), fun _ _ => (List.nodup_finRange 3).filter _, fun _ s x => by simp⟩

def Sample.down : SetOrder Unit (Fin 3) :=
  ⟨fun _ s => ((List.finRange 3).filter (· ∈ s)).reverse, fun _ _ => List.nodup_reverse.2 ((List.nodup_finRange 3).filter _),
    fun _ s x => by simp⟩

example : ∃ r : Bool, (Sample.right.markovEquivalent Sample.order Sample.order ⟨Sample.order, Sample.order⟩ ⟨Sample.order, Sample.order⟩
    Sample.left none).run = some (.ok ⟨r⟩) ∧ r = true ∧
    getStandardImset Sample.up Sample.right ∅ = {([], -1), ([1], -1), ([0, 1], 1), ([1, 2], 1)} := by
  obtain ⟨r, h1, h2⟩ := C219_imset_markov_partial Sample.right Sample.left Sample.right_valid Sample.left_valid Sample.up Sample.order
    Sample.order ⟨Sample.order, Sample.order⟩ ⟨Sample.order, Sample.order⟩
  exact ⟨r, h1, h2.2 (by decide), by decide⟩

/-- C219. The order of a tuple depends on how its set was filled, so `markov_equivalent` graphs can return different dictionaries:
in CPython `frozenset({0}) | {8}` is listed as `0, 8` but `frozenset({8}) | {0}` as `8, 0`, and so `DAG(arcs={(0, 8)})` and
`DAG(arcs={(8, 0)})` do not return equal dictionaries. -/
theorem C219_violated : ∃ (G H : DAG (Fin 3)) (o o' : SetOrder Unit (Fin 3)), G.Valid ∧ H.Valid ∧
    (∀ oa oa' q q', (G.markovEquivalent oa oa' q q' H none).run = some (.ok ⟨true⟩)) ∧
    getStandardImset o G ∅ ≠ getStandardImset o' H ∅ := by
  refine ⟨Sample.right, Sample.left, Sample.up, Sample.down, Sample.right_valid, Sample.left_valid, fun oa oa' q q' => ?_, by decide⟩
  obtain ⟨r, h1, h2⟩ := markovEquivalent_spec _ _ Sample.right_valid Sample.left_valid oa oa' q q'
  rw [h1, h2.2 ⟨rfl, Sample.left_right⟩]

end Props
