import Verif.Prelude
import Verif.Model.Base




/-! # Generic facts about loops -/

namespace Model

universe u v
open Relation

section Wp
variable {ε β γ : Type u}

/-- Total correctness: the run terminates, normally with `P` or with an exception satisfying `Q`. -/
def Wp (m : ExceptT ε Option β) (P : β → Prop) (Q : ε → Prop) : Prop :=
  (∃ b, m.run = some (.ok b) ∧ P b) ∨ (∃ e, m.run = some (.error e) ∧ Q e)

theorem Wp.pure {b : β} {P : β → Prop} {Q : ε → Prop} (h : P b) :
    Wp (Pure.pure b : ExceptT ε Option β) P Q := Or.inl ⟨b, rfl, h⟩

theorem Wp.throw {e : ε} {P : β → Prop} {Q : ε → Prop} (h : Q e) :
    Wp (MonadExcept.throw e : ExceptT ε Option β) P Q := Or.inr ⟨e, rfl, h⟩

theorem Wp.bind {m : ExceptT ε Option β} {f : β → ExceptT ε Option γ} {P : β → Prop}
    {R : γ → Prop} {Q : ε → Prop} (h : Wp m P Q) (hf : ∀ b, P b → Wp (f b) R Q) :
    Wp (m >>= f) R Q := by
  rcases h with ⟨b, hm, hb⟩ | ⟨e, hm, he⟩
  · rcases hf b hb with ⟨c, hc, hR⟩ | ⟨e, hc, hQ⟩
    · exact Or.inl ⟨c, by simp [ExceptT.run_bind, hm, hc], hR⟩
    · exact Or.inr ⟨e, by simp [ExceptT.run_bind, hm, hc], hQ⟩
  · exact Or.inr ⟨e, by simp [ExceptT.run_bind, hm], he⟩

theorem Wp.mono {m : ExceptT ε Option β} {P P' : β → Prop} {Q Q' : ε → Prop} (h : Wp m P Q)
    (hP : ∀ b, P b → P' b) (hQ : ∀ e, Q e → Q' e) : Wp m P' Q' := by
  rcases h with ⟨b, hm, hb⟩ | ⟨e, hm, he⟩
  · exact Or.inl ⟨b, hm, hP _ hb⟩
  · exact Or.inr ⟨e, hm, hQ _ he⟩

/-- Loop rule for `for x in l`. -/
theorem Wp.foldlM {f : γ → β → ExceptT ε Option γ} {Q : ε → Prop} (I : List β → γ → Prop)
    (l : List β) (s : γ) (h0 : I [] s)
    (step : ∀ pre x post s, l = pre ++ x :: post → I pre s → Wp (f s x) (I (pre ++ [x])) Q) :
    Wp (l.foldlM f s) (I l) Q := by
  suffices H : ∀ (post pre : List β) (s : γ), l = pre ++ post → I pre s →
      Wp (post.foldlM f s) (I l) Q from H l [] s rfl h0
  intro post
  induction post with
  | nil => intro pre s hl hI; simp at hl; subst hl; exact Wp.pure hI
  | cons x post ih =>
    intro pre s hl hI
    rw [List.foldlM_cons]
    exact Wp.bind (step pre x post s hl hI) fun s' hs' => ih (pre ++ [x]) s' (by simp [hl]) hs'

end Wp

section Pop
variable {σ : Type u} [DecidableEq σ]

/-- The pop loop terminates on finite state spaces and decides reachability of a stop state, for every
pop order. -/
theorem popLoop_spec (pk : Pick σ) (stop : σ → Bool) (succ : σ → Finset σ) (U : Finset σ)
    (hU : ∀ s ∈ U, succ s ⊆ U) :
    ∀ (k n : Nat) (sched visited : Finset σ), sched ⊆ U → visited ⊆ U →
      (U \ visited).card * (U.card + 1) + sched.card ≤ k →
      (∀ s ∈ visited, stop s = false ∧ succ s ⊆ visited ∪ sched) →
      ∃ b, popLoop pk stop succ n sched visited = some b ∧
        (b = false ↔ ∃ s ∈ visited ∪ sched, ∃ t, ReflTransGen (fun a b => b ∈ succ a) s t ∧
          stop t = true) := by
  intro k
  induction k with
  | zero =>
    intro n sched visited hs hv hk hinv
    have : sched = ∅ := by
      rw [← Finset.card_eq_zero]; omega
    subst this
    rw [popLoop]
    refine ⟨true, by simp, ?_⟩
    simp only [Bool.true_eq_false, false_iff, not_exists, not_and, Finset.union_empty]
    intro s hs t hst
    have : t ∈ visited := by
      induction hst with
      | refl => exact hs
      | tail _ hbc ih => exact by simpa using (hinv _ ih).2 hbc
    simp [(hinv t this).1]
  | succ k ih =>
    intro n sched visited hs hv hk hinv
    rw [popLoop]
    by_cases hne : sched.Nonempty
    · rw [dif_pos hne]
      have hmem := pk.mem n sched hne
      generalize pk.pick n sched hne = s at *
      by_cases hstop : stop s = true
      · refine ⟨false, by simp [hstop], by simp; exact ⟨s, Or.inr hmem, s, .refl, hstop⟩⟩
      · simp only [Bool.not_eq_true] at hstop
        have hcard : (sched.erase s).card + 1 = sched.card := Finset.card_erase_add_one hmem
        by_cases hvis : s ∈ visited
        · simp only [hstop, hvis, if_true, Bool.false_eq_true, if_false]
          have hun : visited ∪ sched.erase s = visited ∪ sched := by
            ext x; by_cases hx : x = s <;> simp [hx, hvis]
          obtain ⟨b, hb, hb'⟩ := ih (n+1) (sched.erase s) visited
            ((Finset.erase_subset _ _).trans hs) hv (by omega)
            (fun t ht => by rw [hun]; exact hinv t ht)
          exact ⟨b, hb, by rw [hb', hun]⟩
        · simp only [hstop, hvis, Bool.false_eq_true, if_false]
          have hsU := hs hmem
          have hun : insert s visited ∪ (sched.erase s ∪ succ s) = visited ∪ sched ∪ succ s := by
            ext x; by_cases hx : x = s
            · simp [hx, hmem]
            · simp [hx]
          have hsub : sched.erase s ∪ succ s ⊆ U :=
            Finset.union_subset ((Finset.erase_subset _ _).trans hs) (hU s hsU)
          have hc1 : (U \ insert s visited).card + 1 = (U \ visited).card := by
            rw [Finset.sdiff_insert]
            exact Finset.card_erase_add_one (by simp [hsU, hvis])
          have hc2 := Finset.card_le_card hsub
          obtain ⟨b, hb, hb'⟩ := ih (n+1) (sched.erase s ∪ succ s) (insert s visited) hsub
            (Finset.insert_subset hsU hv)
            (by
              have hpos : 1 ≤ sched.card := Finset.card_pos.2 hne
              rw [← hc1] at hk; rw [add_mul] at hk; omega)
            (fun t ht => by
              rw [hun]
              rcases Finset.mem_insert.1 ht with rfl | ht
              · exact ⟨hstop, Finset.subset_union_right⟩
              · exact ⟨(hinv t ht).1, (hinv t ht).2.trans Finset.subset_union_left⟩)
          refine ⟨b, hb, ?_⟩
          rw [hb', hun]
          constructor
          · rintro ⟨x, hx, t, hxt, ht⟩
            rcases Finset.mem_union.1 hx with hx | hx
            · exact ⟨x, hx, t, hxt, ht⟩
            · exact ⟨s, Finset.mem_union_right _ hmem, t, .head hx hxt, ht⟩
          · rintro ⟨x, hx, t, hxt, ht⟩
            exact ⟨x, Finset.mem_union_left _ hx, t, hxt, ht⟩
    · rw [dif_neg hne]
      rw [Finset.not_nonempty_iff_eq_empty] at hne
      subst hne
      refine ⟨true, by simp, ?_⟩
      simp only [Bool.true_eq_false, false_iff, not_exists, not_and, Finset.union_empty]
      intro s hs t hst
      have : t ∈ visited := by
        induction hst with
        | refl => exact hs
        | tail _ hbc ih => exact by simpa using (hinv _ ih).2 hbc
      simp [(hinv t this).1]

/-- Packaged form, starting with nothing visited. -/
theorem popLoop_decides (pk : Pick σ) (stop : σ → Bool) (succ : σ → Finset σ) (U : Finset σ)
    (hU : ∀ s ∈ U, succ s ⊆ U) (sched : Finset σ) (hs : sched ⊆ U) :
    ∃ b, popLoop pk stop succ 0 sched ∅ = some b ∧
        (b = false ↔ ∃ s ∈ sched, ∃ t, ReflTransGen (fun a b => b ∈ succ a) s t ∧
          stop t = true) := by
  simpa using popLoop_spec pk stop succ U hU _ 0 sched ∅ hs (by simp) le_rfl (by simp)

end Pop

end Model
