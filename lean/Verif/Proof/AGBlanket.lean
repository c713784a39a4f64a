import Verif.Model.AGBlanket
import Verif.Proof.AGTriples
import Verif.Proof.Graphoid

/-! # Markov blankets of ancestral graphs -/

namespace Spec.Mixed

universe u

open Relation

variable {α : Type u} {M : Mixed α}

/-- In the district of `v`. -/
def Dis (M : Mixed α) (v x : α) : Prop := ReflTransGen M.bi v x

/-- In the district of `v` or a parent of a member. -/
def DisPa (M : Mixed α) (v x : α) : Prop := M.Dis v x ∨ ∃ d, M.Dis v d ∧ M.dir x d

/-- A path that came to a member of the district through an arrowhead stays in the blanket. -/
theorem mb_stays (hM : M.Proper) {v b : α} (hb : ¬ M.DisPa v b) {C : Set α} (hC : ∀ x, M.DisPa v x → x ≠ v → x ∈ C) (hch : ∀ x, ¬ M.dir v x) :
    ∀ (l : List α) (u x : α), M.Into u x → M.Dis v x → x ≠ v → v ∉ l → (u :: x :: l).getLast? = some b →
      (∀ a c, [a, c] <:+: u :: x :: l → M.Adj a c) → (∀ a c d, [a, c, d] <:+: u :: x :: l → M.TripleOpen C a c d) → False := by
  intro l
  induction l with
  | nil =>
    intro u x _ hx _ _ hl _ _
    simp only [List.getLast?_cons_cons, List.getLast?_singleton, Option.some.injEq] at hl
    subst hl
    exact hb (.inl hx)
  | cons y l ih =>
    intro u x hux hx hxv hvl hl hadj hop
    have hopen := hop u x y ⟨[], l, rfl⟩
    have hin : M.Into y x := by
      by_contra hno
      exact hopen.2 (fun h => hno h.2) (hC x (.inl hx) hxv)
    rw [List.mem_cons, not_or] at hvl
    rcases hin with hin | hin
    · -- a parent is not a collider
      have hmb : M.DisPa v y := .inr ⟨x, hx, hin⟩
      cases l with
      | nil =>
        simp only [List.getLast?_cons_cons, List.getLast?_singleton, Option.some.injEq] at hl
        subst hl
        exact hb hmb
      | cons z l =>
        have := hop x y z ⟨[u], l, rfl⟩
        exact this.2 (fun h => hM.excl y x hin h.1) (hC y hmb fun h => hch x (h ▸ hin))
    · refine ih x y (.inr (hM.bi_symm _ _ hin)) (hx.tail (hM.bi_symm _ _ hin)) (Ne.symm hvl.1) hvl.2 (by rwa [List.getLast?_cons_cons] at hl) ?_ ?_
      · exact fun a c h => hadj a c (h.trans ⟨[u], [], by simp⟩)
      · exact fun a c d h => hop a c d (h.trans ⟨[u], [], by simp⟩)

theorem mb_separates (hM : M.Proper) {v : α} (hch : ∀ x, ¬ M.dir v x) (hnb : ∀ x, ¬ M.un v x) {B C : Set α} (hC : ∀ x, M.DisPa v x → x ≠ v → x ∈ C)
    (hB : ∀ b ∈ B, ¬ M.DisPa v b) : M.MSep {v} B C := by
  rintro a rfl b hb l hl
  have hbm := hB b hb
  have e1 := hl.head
  have e2 := hl.last
  have hn := hl.nodup
  have hadj := hl.adj
  have hop := hl.opn
  rcases l with - | ⟨x, - | ⟨y, l⟩⟩
  · simp at e1
  · simp only [List.head?_cons, Option.some.injEq] at e1
    simp only [List.getLast?_singleton, Option.some.injEq] at e2
    subst e1; subst e2
    exact hbm (.inl .refl)
  · simp only [List.head?_cons, Option.some.injEq] at e1
    subst e1
    simp only [List.nodup_cons, List.mem_cons, not_or] at hn
    rcases hadj x y ⟨[], l, rfl⟩ with h | h | h | h
    · exact hch y h
    · have hmb : M.DisPa x y := .inr ⟨x, .refl, h⟩
      cases l with
      | nil =>
        simp only [List.getLast?_cons_cons, List.getLast?_singleton, Option.some.injEq] at e2
        subst e2
        exact hbm hmb
      | cons z l =>
        exact (hop x y z ⟨[], l, rfl⟩).2 (fun k => hM.excl y x h k.1) (hC y hmb (Ne.symm hn.1.1))
    · exact mb_stays hM hbm hC hch l x y (.inr h) (.single h) (Ne.symm hn.1.1) hn.1.2 e2 hadj hop
    · exact hnb y h

/-- Every set that separates `v` from the rest contains the blanket. -/
theorem mb_least (hM : M.Proper) {v : α} {V Z : Set α} (hV : ∀ x y, M.Adj x y → x ∈ V) (hv : v ∉ Z) (hs : M.MSep {v} (V \ (Z ∪ {v})) Z) {w : α}
    (hw : M.DisPa v w) (hwv : w ≠ v) : w ∈ Z := by
  classical
  rw [msep_moves hM (by simpa using hv)] at hs
  replace hs := hs v rfl
  have stop : ∀ t : α × Bool, ReflTransGen (M.mg.Move Z) (v, false) t → t.1 ∈ V → t.1 ≠ v → t.1 ∈ Z := by
    intro t ht h1 h2
    by_contra h3
    exact hs t ⟨h1, fun h => h.elim h3 h2⟩ ht
  have next : ∀ x y, (x = v ∨ (x ∈ Z ∧ ReflTransGen (M.mg.Move Z) (v, false) (x, true))) → M.Into y x → ∃ d, (d = true ↔ M.Into x y) ∧
      ReflTransGen (M.mg.Move Z) (v, false) (y, d) := by
    intro x y hx hyx
    have hadj : M.Adj x y := hM.ok.symm _ _ (hM.ok.into_adj _ _ hyx)
    refine ⟨decide (M.Into x y), by simp, ?_⟩
    rcases hx with rfl | ⟨hx, hr⟩
    · exact .single ⟨hadj, by simp [mg], by simp, fun _ => hv⟩
    · exact hr.tail ⟨hadj, by simp [mg], fun _ => ⟨x, hx, .refl⟩, fun h => absurd ⟨rfl, hyx⟩ h⟩
  have dis : ∀ x, M.Dis v x → x = v ∨ (x ∈ Z ∧ ReflTransGen (M.mg.Move Z) (v, false) (x, true)) := by
    intro x hx
    induction hx with
    | refl => exact .inl rfl
    | @tail b c _ hbc ih =>
      obtain ⟨d, hd, hr⟩ := next b c ih (.inr (hM.bi_symm _ _ hbc))
      rw [hd.2 (.inr hbc)] at hr
      by_cases hcv : c = v
      · exact .inl hcv
      · exact .inr ⟨stop _ hr (hV _ _ (.inr (.inr (.inl (hM.bi_symm _ _ hbc))))) hcv, hr⟩
  rcases hw with hw | ⟨d, hd, hwd⟩
  · exact ((dis w hw).resolve_left hwv).1
  · obtain ⟨e, -, hr⟩ := next d w (dis d hd) (.inl hwd)
    exact stop _ hr (hV _ _ (.inl hwd)) hwv

end Spec.Mixed

namespace Model.AG

universe u

open Relation Spec

variable {α : Type u} [DecidableEq α] {A : AG α}

theorem markovBlanketFlat_spec (hA : A.Good) (o : SetOrder (α × Finset α) α) {v : α} (hv : v ∈ A.nodes) :
    ∃ S, A.markovBlanketFlat o v = some S ∧ ∀ x, x ∈ S ↔ A.mixed.DisPa v x := by
  obtain ⟨N, h1, h2⟩ := districtOfIn_spec hA o hv
  have hN : ∀ x, x ∈ N ↔ A.mixed.Dis v x := by
    intro x
    rw [h2]
    refine ⟨fun h => ?_, fun h => ?_⟩
    · induction h with
      | refl => exact .refl
      | tail _ hs ih => exact ih.tail hs.1
    · induction h with
      | refl => exact .refl
      | @tail b c _ hs ih => exact ih.tail ⟨hs, hA.1.bi_mem _ hs (by simp)⟩
  refine ⟨N ∪ N.biUnion A.parents ∪ {v}, by rw [markovBlanketFlat, districtOf, h1]; rfl, fun x => ?_⟩
  simp only [Finset.mem_union, Finset.mem_biUnion, Finset.mem_singleton, hN, hA.1.parents_iff]
  constructor
  · rintro ((h | h) | rfl)
    · exact .inl h
    · exact .inr h
    · exact .inl .refl
  · rintro (h | h)
    · exact .inl (.inl h)
    · exact .inl (.inr h)

end Model.AG
