import Verif.Proof.TopoSort

/-! # The recursive accumulation of ancestors / descendants -/

namespace Model

set_option linter.unusedSectionVars false
set_option linter.unusedVariables false
universe u
variable {α : Type u} [DecidableEq α]
open Relation

/-- Loop rule for `Option`-valued bodies. -/
theorem foldlM_option {γ β : Type u} {f : γ → β → Option γ} (I : List β → γ → Prop)
    (l : List β) (s : γ) (h0 : I [] s)
    (step : ∀ pre x post s, l = pre ++ x :: post → I pre s → ∃ s', f s x = some s' ∧ I (pre ++ [x]) s') :
    ∃ s', l.foldlM f s = some s' ∧ I l s' := by
  suffices H : ∀ (post pre : List β) (s : γ), l = pre ++ post → I pre s →
      ∃ s', post.foldlM f s = some s' ∧ I l s' from H l [] s rfl h0
  intro post
  induction post with
  | nil => intro pre s hl hI; simp at hl; subst hl; exact ⟨s, rfl, hI⟩
  | cons x post ih =>
    intro pre s hl hI
    obtain ⟨s1, h1, hI1⟩ := step pre x post s hl hI
    obtain ⟨s2, h2, hI2⟩ := ih (pre ++ [x]) s1 (by simp [hl]) hI1
    exact ⟨s2, by simp [List.foldlM_cons, h1, h2], hI2⟩

/-- Any function satisfying the recursion of `_add_descendants` / `_add_ancestors` terminates and
adds exactly what is reachable without passing through what was already there. -/
theorem collect_spec (next : α → Finset α) (o : SetOrder (α × Finset α) α)
    (f : Finset α → α → Option (Finset α))
    (hf : ∀ acc node, f acc node = (o.ord (node, acc) (next node)).foldlM
      (fun acc c => if c ∉ acc then f (insert c acc) c else some acc) acc)
    (U : Finset α) (hU : ∀ x ∈ U, next x ⊆ U) :
    ∀ (n : Nat) (acc : Finset α) (node : α), (U \ acc).card ≤ n → node ∈ U →
      ∃ acc', f acc node = some acc' ∧ acc ⊆ acc' ∧
        (∀ x ∈ acc', x ∈ acc ∨ TransGen (fun a b => b ∈ next a) node x) ∧
        next node ⊆ acc' ∧ (∀ x ∈ acc', x ∉ acc → next x ⊆ acc') := by
  intro n
  induction n with
  | zero =>
    intro acc node hn hN
    have hUacc : U ⊆ acc := by
      rw [← Finset.sdiff_eq_empty_iff_subset, ← Finset.card_eq_zero]; omega
    rw [hf]
    obtain ⟨s, hs, rfl⟩ := foldlM_option (f := fun acc c => if c ∉ acc then f (insert c acc) c else some acc)
      (fun _ s => s = acc) (o.ord (node, acc) (next node)) acc rfl (by
        rintro pre x post s hl rfl
        have hx : x ∈ next node := by rw [← o.mem_iff (node, s), hl]; simp
        exact ⟨s, by simp [hUacc (hU _ hN hx)], rfl⟩)
    exact ⟨s, hs, le_rfl, fun x hx => Or.inl hx, (hU _ hN).trans hUacc, fun x h1 h2 => absurd h1 h2⟩
  | succ n ih =>
    intro acc node hn hN
    rw [hf]
    obtain ⟨s, hs, h1, h2, h3, h4⟩ := foldlM_option
      (f := fun acc c => if c ∉ acc then f (insert c acc) c else some acc)
      (fun pre s => acc ⊆ s ∧ (∀ x ∈ s, x ∈ acc ∨ TransGen (fun a b => b ∈ next a) node x) ∧
        (∀ x ∈ pre, x ∈ s) ∧ (∀ x ∈ s, x ∉ acc → next x ⊆ s))
      (o.ord (node, acc) (next node)) acc
      ⟨le_rfl, fun x hx => Or.inl hx, by simp, fun x h1 h2 => absurd h1 h2⟩ (by
        rintro pre x post s hl ⟨h1, h2, h3, h4⟩
        have hx : x ∈ next node := by rw [← o.mem_iff (node, acc), hl]; simp
        have hxU := hU _ hN hx
        by_cases hxs : x ∈ s
        · refine ⟨s, by simp [hxs], h1, h2, ?_, h4⟩
          intro y hy
          rcases List.mem_append.1 hy with hy | hy
          · exact h3 y hy
          · simp at hy; subst hy; exact hxs
        · have hc : (U \ insert x s).card ≤ n := by
            have e1 : (U \ insert x s).card + 1 = (U \ s).card := by
              rw [Finset.sdiff_insert]; exact Finset.card_erase_add_one (by simp [hxU, hxs])
            have e2 : (U \ s).card ≤ (U \ acc).card :=
              Finset.card_le_card (Finset.sdiff_subset_sdiff le_rfl h1)
            omega
          obtain ⟨s', hs', g1, g2, g3, g4⟩ := ih (insert x s) x hc hxU
          refine ⟨s', by simp [hxs, hs'], ?_, ?_, ?_, ?_⟩
          · exact h1.trans ((Finset.subset_insert _ _).trans g1)
          · intro y hy
            rcases g2 y hy with hy | hy
            · rcases Finset.mem_insert.1 hy with rfl | hy
              · exact Or.inr (.single hx)
              · exact h2 y hy
            · exact Or.inr (.head hx hy)
          · intro y hy
            rcases List.mem_append.1 hy with hy | hy
            · exact g1 (Finset.mem_insert_of_mem (h3 y hy))
            · simp at hy; subst hy; exact g1 (Finset.mem_insert_self _ _)
          · intro y hy hya
            by_cases hyx : y = x
            · subst hyx; exact g3
            · by_cases hys : y ∈ s
              · exact (h4 y hys hya).trans ((Finset.subset_insert _ _).trans g1)
              · exact g4 y hy (by simp [hyx, hys]))
    refine ⟨s, hs, h1, h2, ?_, h4⟩
    intro x hx
    exact h3 x ((o.mem_iff _ _ _).2 hx)

/-- From the empty accumulator: exactly the nodes reachable by a nonempty path. -/
theorem collect_empty (next : α → Finset α) (o : SetOrder (α × Finset α) α)
    (f : Finset α → α → Option (Finset α))
    (hf : ∀ acc node, f acc node = (o.ord (node, acc) (next node)).foldlM
      (fun acc c => if c ∉ acc then f (insert c acc) c else some acc) acc)
    (U : Finset α) (hU : ∀ x ∈ U, next x ⊆ U) (node : α) (hN : node ∈ U) :
    ∃ s, f ∅ node = some s ∧ ∀ x, x ∈ s ↔ TransGen (fun a b => b ∈ next a) node x := by
  obtain ⟨s, hs, _, h2, h3, h4⟩ := collect_spec next o f hf U hU _ ∅ node le_rfl hN
  refine ⟨s, hs, fun x => ⟨fun hx => by simpa using h2 x hx, fun hx => ?_⟩⟩
  induction hx with
  | single h => exact h3 h
  | tail _ hbc ih => exact h4 _ ih (by simp) hbc

namespace DAG

variable {G : DAG α}

theorem children_rel (hG : G.Consistent) : (fun a b => b ∈ G.children a) = G.E := by
  funext a b; exact propext (hG.children_iff a b)

theorem parents_rel (hG : G.Consistent) : (fun a b => b ∈ G.parents a) = Function.swap G.E := by
  funext a b; exact propext (hG.parents_iff b a)

theorem children_sub (hG : G.Consistent) (x : α) : G.children x ⊆ G.nodes := fun y hy =>
  hG.snd_mem _ _ ((hG.children_iff _ _).1 hy)

theorem parents_sub (hG : G.Consistent) (x : α) : G.parents x ⊆ G.nodes := fun y hy =>
  hG.fst_mem _ _ ((hG.parents_iff _ _).1 hy)

theorem descendantsOf_spec (hG : G.Consistent) (o : SetOrder (α × Finset α) α) (v : α) :
    ∃ s, descendantsOf G o v = some s ∧ ∀ x, x ∈ s ↔ Spec.Path G.E v x := by
  obtain ⟨s, hs, h⟩ := collect_empty G.children o (addDescendants G o)
    (fun acc node => by rw [addDescendants]) (insert v G.nodes)
    (fun x _ => (children_sub hG x).trans (Finset.subset_insert _ _)) v (Finset.mem_insert_self _ _)
  exact ⟨s, hs, fun x => by rw [h, children_rel hG]⟩

theorem ancestorsOf_spec (hG : G.Consistent) (o : SetOrder (α × Finset α) α) (v : α) :
    ∃ s, ancestorsOf G o v = some s ∧ ∀ x, x ∈ s ↔ Spec.Path G.E x v := by
  obtain ⟨s, hs, h⟩ := collect_empty G.parents o (addAncestors G o)
    (fun acc node => by rw [addAncestors]) (insert v G.nodes)
    (fun x _ => (parents_sub hG x).trans (Finset.subset_insert _ _)) v (Finset.mem_insert_self _ _)
  exact ⟨s, hs, fun x => by rw [h, parents_rel hG, Spec.Path, ← transGen_swap]⟩

theorem foldlM_union {f : α → Option (Finset α)} {P : α → α → Prop}
    (hf : ∀ v, ∃ s, f v = some s ∧ ∀ x, x ∈ s ↔ P v x) (l : List α) :
    ∃ s, l.foldlM (fun acc v => (f v).map (acc ∪ ·)) ∅ = some s ∧ ∀ x, x ∈ s ↔ ∃ v ∈ l, P v x := by
  refine foldlM_option (fun pre s => ∀ x, x ∈ s ↔ ∃ v ∈ pre, P v x) l ∅ (by simp) ?_
  intro pre y post s hl h
  obtain ⟨t, ht, ht'⟩ := hf y
  refine ⟨s ∪ t, by simp [ht], fun x => ?_⟩
  simp only [Finset.mem_union, h, ht', List.mem_append, List.mem_singleton]
  constructor
  · rintro (⟨v, hv, hp⟩ | hp)
    · exact ⟨v, Or.inl hv, hp⟩
    · exact ⟨y, Or.inr rfl, hp⟩
  · rintro ⟨v, hv | rfl, hp⟩
    · exact Or.inl ⟨v, hv, hp⟩
    · exact Or.inr hp

end DAG
end Model
