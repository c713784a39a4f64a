import Verif.Model.Queries
import Verif.Proof.TopoSort
import Verif.Proof.Metric

/-! # `is_topological`, `permutation_score` and `chickering_distance` -/

namespace Model.DAG

open Spec
universe u
variable {α : Type u} [DecidableEq α] {G H : DAG α}

theorem node2ix_nodup {l : List α} (hl : l.Nodup) {x : α} (hx : x ∈ l) : node2ix l x = some (l.idxOf x) := by
  rw [node2ix, if_pos hx]
  have h1 : l.idxOf x < l.length := List.idxOf_lt_length_iff.2 hx
  have h2 : l.length - 1 - l.idxOf x < l.reverse.length := by rw [List.length_reverse]; omega
  have h3 : l.reverse[l.length - 1 - l.idxOf x] = x := by
    rw [List.getElem_reverse]
    have : l.length - 1 - (l.length - 1 - l.idxOf x) = l.idxOf x := by omega
    simp only [this, List.getElem_idxOf]
  have h4 := (List.nodup_reverse.2 hl).idxOf_getElem _ h2
  rw [h3] at h4
  rw [h4]
  congr 1
  omega

theorem node2ix_none {l : List α} {x : α} : node2ix l x = none ↔ x ∉ l := by
  rw [node2ix]; split_ifs with h <;> simp [h]

theorem sublist_of_idxOf_lt {p : List α} {x y : α} (h : p.idxOf x < p.idxOf y) (hy : y ∈ p) : List.Sublist [x, y] p := by
  induction p with
  | nil => simp at hy
  | cons a p ih =>
    by_cases hax : a = x
    · subst hax
      have : y ≠ a := by rintro rfl; exact lt_irrefl _ h
      have : y ∈ p := (List.mem_cons.1 hy).resolve_left this
      exact List.Sublist.cons_cons _ (List.singleton_sublist.2 this)
    · by_cases hay : a = y
      · subst hay; simp at h
      · rw [List.idxOf_cons_ne _ hax, List.idxOf_cons_ne _ hay] at h
        refine (ih (by omega) ((List.mem_cons.1 hy).resolve_left fun e => hay e.symm)).trans (List.sublist_cons_self _ _)

theorem sublist_iff_idxOf {l : List α} (hl : l.Nodup) {i j : α} (hj : j ∈ l) : List.Sublist [i, j] l ↔ l.idxOf i < l.idxOf j :=
  ⟨idxOf_lt_of_sublist hl, fun h => sublist_of_idxOf_lt h hj⟩

theorem isTopological_go {l : List α} (hl : l.Nodup) {L : List (α × α)} (h : ∀ a ∈ L, a.1 ∈ l ∧ a.2 ∈ l) :
    ∃ b, isTopological.go l L = some b ∧ (b = true ↔ ∀ a ∈ L, List.Sublist [a.1, a.2] l) := by
  induction L with
  | nil => exact ⟨true, rfl, by simp⟩
  | cons a L ih =>
    obtain ⟨b, h1, h2⟩ := ih fun a ha => h a (List.mem_cons_of_mem _ ha)
    obtain ⟨ha1, ha2⟩ := h a List.mem_cons_self
    rw [isTopological.go, node2ix_nodup hl ha1, node2ix_nodup hl ha2]
    simp only [Option.bind_some]
    by_cases hlt : l.idxOf a.1 < l.idxOf a.2
    · rw [if_pos hlt]
      exact ⟨b, h1, by rw [h2, List.forall_mem_cons, sublist_iff_idxOf hl ha2]; simp [hlt]⟩
    · rw [if_neg hlt]
      exact ⟨false, rfl, by rw [List.forall_mem_cons, sublist_iff_idxOf hl ha2]; simp [hlt]⟩

/-- Without a position for some end of an arc the answer is never `True`. -/
theorem isTopological_go_missing {l : List α} {L : List (α × α)} (h : ∃ a ∈ L, a.1 ∉ l ∨ a.2 ∉ l) : isTopological.go l L ≠ some true := by
  induction L with
  | nil => simp at h
  | cons a L ih =>
    rw [isTopological.go]
    by_cases h1 : a.1 ∈ l
    · by_cases h2 : a.2 ∈ l
      · obtain ⟨b, hb, hb'⟩ := h
        have hb : b ∈ L := by
          rcases List.mem_cons.1 hb with rfl | hb
          · tauto
          · exact hb
        cases e1 : node2ix l a.1 with
        | none => simp
        | some x =>
          cases e2 : node2ix l a.2 with
          | none => simp
          | some y =>
            simp only [Option.bind_some]
            split_ifs
            · exact ih ⟨b, hb, hb'⟩
            · simp
      · rw [node2ix_none.2 h2]
        cases node2ix l a.1 <;> simp
    · rw [node2ix_none.2 h1]; simp

theorem score_fold {l : List α} (hl : l.Nodup) {L : List (α × α)} (h : ∀ a ∈ L, a.1 ∈ l ∧ a.2 ∈ l) (n : ℕ) :
    L.foldlM (fun n a => (node2ix l a.1).bind fun x => (node2ix l a.2).map fun y => if x > y then n + 1 else n) n =
      some (n + (L.filter fun a => decide (l.idxOf a.2 < l.idxOf a.1)).length) := by
  induction L generalizing n with
  | nil => rfl
  | cons a L ih =>
    obtain ⟨ha1, ha2⟩ := h a List.mem_cons_self
    rw [List.foldlM_cons, node2ix_nodup hl ha1, node2ix_nodup hl ha2]
    simp only [Option.bind_some, Option.map_some, Option.bind_eq_bind]
    rw [ih fun a ha => h a (List.mem_cons_of_mem _ ha), List.filter_cons]
    by_cases hlt : l.idxOf a.2 < l.idxOf a.1
    · simp [hlt]; omega
    · simp [hlt]

theorem score_missing {l : List α} {L : List (α × α)} (n : ℕ) :
    L.foldlM (fun n a => (node2ix l a.1).bind fun x => (node2ix l a.2).map fun y => if x > y then n + 1 else n) n = none ↔
      ∃ a ∈ L, a.1 ∉ l ∨ a.2 ∉ l := by
  induction L generalizing n with
  | nil => simp
  | cons a L ih =>
    rw [List.foldlM_cons]
    by_cases h1 : a.1 ∈ l
    · by_cases h2 : a.2 ∈ l
      · have e1 : ∃ x, node2ix l a.1 = some x := by simp [node2ix, h1]
        have e2 : ∃ x, node2ix l a.2 = some x := by simp [node2ix, h2]
        obtain ⟨x, e1⟩ := e1
        obtain ⟨y, e2⟩ := e2
        rw [e1, e2]
        simp only [Option.bind_some, Option.map_some, Option.bind_eq_bind]
        rw [ih]
        simp [h1, h2]
      · rw [node2ix_none.2 h2]
        cases node2ix l a.1 <;> simp [h2]
    · rw [node2ix_none.2 h1]
      simp [h1]

theorem card_skeleton_sdiff (hG : G.Valid) : (G.skeleton \ H.skeleton).card = ((G.arcs \ H.arcs) \ H.arcs.image Prod.swap).card := by
  have hm : ∀ i j, (i, j) ∈ (G.arcs \ H.arcs) \ H.arcs.image Prod.swap ↔ G.E i j ∧ ¬ Adj H.E i j := by
    intro i j; simp [E, Adj, and_assoc]
  rw [← Finset.card_image_of_injOn (s := (G.arcs \ H.arcs) \ H.arcs.image Prod.swap) (f := fun a : α × α => ({a.1, a.2} : Finset α))]
  · congr 1
    ext s
    rw [Finset.mem_sdiff, Finset.mem_image]
    constructor
    · rintro ⟨h1, h2⟩
      obtain ⟨⟨i, j⟩, h3, rfl⟩ := Finset.mem_image.1 h1
      exact ⟨(i, j), (hm i j).2 ⟨h3, fun h => h2 (mem_skeleton.2 h)⟩, rfl⟩
    · rintro ⟨⟨i, j⟩, h1, rfl⟩
      obtain ⟨h1, h2⟩ := (hm i j).1 h1
      exact ⟨Finset.mem_image_of_mem _ h1, fun h => h2 (mem_skeleton.1 h)⟩
  · rintro ⟨i, j⟩ h1 ⟨k, l⟩ h2 h3
    have h1 := ((hm i j).1 h1).1
    have h2 := ((hm k l).1 h2).1
    rcases Model.PDAG.pair_eq_iff.1 h3 with ⟨h4, h5⟩ | ⟨h4, h5⟩
    · exact Prod.ext h4 h5
    · simp only at h4 h5
      subst h4 h5
      exact absurd h1 (hG.acyclic.asymm h2)

theorem chickeringDistance_eq (hG : G.Valid) (hH : H.Valid) : chickeringDistance G H = shd G H + shdSkeleton G H := by
  have h : shdSkeleton G H = ((G.arcs \ H.arcs) \ H.arcs.image Prod.swap).card + ((H.arcs \ G.arcs) \ G.arcs.image Prod.swap).card := by
    rw [shdSkeleton, symmDiff, Finset.sup_eq_union, Finset.card_union_of_disjoint, card_skeleton_sdiff hG, card_skeleton_sdiff hH]
    exact disjoint_sdiff_sdiff
  rw [chickeringDistance, shd]
  omega

end Model.DAG
