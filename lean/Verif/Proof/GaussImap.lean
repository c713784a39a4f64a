import Verif.Props.GGMToDag

/-! # Refitting a covariance matrix on an I-map -/

namespace Spec

open Relation

variable {n : ℕ}

theorem infix_of_map_val {s : List ℕ} {l : List (Fin n)} (h : s <:+: l.map Fin.val) : ∃ t, t <:+: l ∧ t.map Fin.val = s := by
  obtain ⟨p, q, hpq⟩ := h
  obtain ⟨l1, l2, rfl, h1, rfl⟩ := List.map_eq_append_iff.1 hpq.symm
  obtain ⟨l3, l4, rfl, rfl, rfl⟩ := List.map_eq_append_iff.1 h1
  exact ⟨l4, ⟨l3, l2, rfl⟩, rfl⟩

/-- d-separation of labels in a graph gives d-separation of positions in every subgraph. -/
theorem dsep_fin {E : ℕ → ℕ → Prop} (hE : Acyclic E) {R : Fin n → Fin n → Prop} (hR : ∀ x y, R x y → E x.val y.val) {i j : Fin n}
    {C : Set (Fin n)} (hd : DSep E {i.val} {j.val} (Fin.val '' C)) : DSep R {i} {j} C := by
  have h2 : ∀ x y, R x y → ¬ E y.val x.val := fun x y h h' => hE _ ((TransGen.single (hR x y h)).tail h')
  intro a ha b hb l hl
  cases ha; cases hb
  refine hd i.val rfl j.val rfl (l.map Fin.val) ⟨?_, ?_, ?_, ?_, ?_⟩
  · simp [hl.head]
  · simp [List.getLast?_map, hl.last]
  · exact hl.nodup.map Fin.val_injective
  · intro u v huv
    obtain ⟨s, hs, he⟩ := infix_of_map_val huv
    rcases s with _ | ⟨u', _ | ⟨v', _ | ⟨w', s⟩⟩⟩ <;> simp at he
    obtain ⟨rfl, rfl⟩ := he
    rcases hl.adj _ _ hs with h' | h'
    · exact Or.inl (hR _ _ h')
    · exact Or.inr (hR _ _ h')
  · intro u v w huv
    obtain ⟨s, hs, he⟩ := infix_of_map_val huv
    rcases s with _ | ⟨u', _ | ⟨v', _ | ⟨w', _ | ⟨_, s⟩⟩⟩⟩ <;> simp at he
    obtain ⟨rfl, rfl, rfl⟩ := he
    obtain ⟨k1, k2⟩ := hl.opn _ _ _ hs
    constructor
    · rintro ⟨g1, g2⟩
      have e1 : R u' v' := (hl.adj u' v' (List.IsInfix.trans ⟨[], [w'], rfl⟩ hs)).resolve_right fun h => h2 _ _ h g1
      have e2 : R w' v' := (hl.adj v' w' (List.IsInfix.trans ⟨[u'], [], rfl⟩ hs)).resolve_left fun h => h2 _ _ h g2
      obtain ⟨c, hc, hp⟩ := k1 ⟨e1, e2⟩
      exact ⟨c.val, ⟨c, hc, rfl⟩, ReflTransGen.lift Fin.val (fun x y h => hR x y h) _ _ hp⟩
    · intro hn
      have := k2 fun g => hn ⟨hR _ _ g.1, hR _ _ g.2⟩
      rintro ⟨x, hx, he⟩
      rw [Fin.val_injective he] at hx
      exact this hx

/-- The covariance matrix of linear equations on a graph is that of linear equations on every I-map of the graph. -/
theorem sem_on_imap {E F : ℕ → ℕ → Prop} (hE : Acyclic E) (hF : Acyclic F) (himap : SubModel F E {k | k < n})
    {order : Fin n ≃ Fin n} (ho : ∀ i j : Fin n, F i.val j.val → order.symm i < order.symm j) (hFn : ∀ a b, F a b → a < n)
    {A : Matrix (Fin n) (Fin n) ℝ} (hA : ∀ i j, A i j ≠ 0 → E i.val j.val) {v : Fin n → ℝ} (hv : ∀ i, 0 < v i) :
    ∃ (A' : Matrix (Fin n) (Fin n) ℝ) (v' : Fin n → ℝ), AcyclicWeights A' ∧ (∀ i, 0 < v' i) ∧ (∀ i j, A' i j ≠ 0 → F i.val j.val) ∧
      semCov A' v' = semCov A v := by
  have hAa : AcyclicWeights A := by
    intro x hx
    exact hE _ (TransGen.lift Fin.val (fun i j h => hA i j h) _ _ hx)
  have hpd := semCov_posDef hAa hv
  obtain ⟨A', v', hA', hv', ho', hS⟩ := Model.Gauss.exists_sem hpd.inv order
  have hS' : semCov A' v' = semCov A v := by
    rw [← Matrix.nonsing_inv_nonsing_inv (semCov A' v') ((Matrix.isUnit_iff_isUnit_det _).1 (semCov_posDef hA' hv').isUnit), hS,
      Matrix.nonsing_inv_nonsing_inv _ ((Matrix.isUnit_iff_isUnit_det _).1 hpd.isUnit)]
  refine ⟨A', v', hA', hv', fun i j hij => ?_, hS'⟩
  by_contra hne
  have hlt := ho' i j hij
  have hp : ∀ (a : Fin n) (c : ℕ), Path F a.val c → ∀ b : Fin n, b.val = c → order.symm a < order.symm b := by
    intro a c hab
    induction hab with
    | single h => intro b hb; subst hb; exact ho _ _ h
    | tail _ h ih => intro b hb; subst hb; exact (ih ⟨_, hFn _ _ h⟩ rfl).trans (ho _ _ h)
  let P : Set (Fin n) := {k | F k.val j.val}
  let D : Set (Fin n) := {k | order.symm k < order.symm j ∧ k ≠ i ∧ ¬ F k.val j.val}
  have hPv : {p | F p j.val} = Fin.val '' P := by
    ext p
    constructor
    · exact fun h => ⟨⟨p, hFn _ _ h⟩, h, rfl⟩
    · rintro ⟨k, hk, rfl⟩
      exact hk
  have h1 : DSep F {j.val} ({i.val} ∪ Fin.val '' D) (Fin.val '' P) := by
    rw [← hPv]
    refine dsep_mono subset_rfl ?_ (local_markov hF j.val)
    rintro k (rfl | ⟨k, ⟨h1, h2, h3⟩, rfl⟩)
    · exact ⟨fun e => hlt.ne (by rw [Fin.ext e]), fun h => lt_asymm hlt (hp _ _ h _ rfl), hne⟩
    · exact ⟨fun e => h1.ne (by rw [Fin.ext e]), fun h => lt_asymm h1 (hp _ _ h _ rfl), h3⟩
  have h2 := dsep_weak_union hF (by
    rw [← hPv, Set.disjoint_left]; rintro x rfl hx; exact hF.irrefl hx) (by
    rw [Set.disjoint_left]; rintro x rfl ⟨k, hk, he⟩; rw [Fin.ext he] at hk; exact lt_irrefl _ hk.1) h1
  have hC : P ∪ D = {k | order.symm k < order.symm j ∧ k ≠ i} := by
    ext k
    simp only [Set.mem_union, Set.mem_ofPred_eq, D, P]
    constructor
    · rintro (h | ⟨h1, h2, -⟩)
      · refine ⟨ho _ _ h, ?_⟩
        rintro rfl
        exact hne h
      · exact ⟨h1, h2⟩
    · rintro ⟨h1, h2⟩
      by_cases h : F k.val j.val
      · exact Or.inl h
      · exact Or.inr ⟨h1, h2, h⟩
  rw [← Set.image_union, hC] at h2
  set M : Set (Fin n) := {k | order.symm k < order.symm j ∧ k ≠ i} with hM
  have hiM : i ∉ M := fun h => h.2 rfl
  have hjM : j ∉ M := fun h => lt_irrefl _ h.1
  have hij' : i ≠ j := fun e => hlt.ne (by rw [e])
  have h3 : DSep E {i.val} {j.val} (Fin.val '' M) := by
    refine himap _ _ _ (by rintro x rfl; exact i.2) (by rintro x rfl; exact j.2) (by rintro x ⟨k, -, rfl⟩; exact k.2) ?_ ?_ ?_
      (dsep_symm h2)
    · rw [Set.disjoint_singleton]; exact fun e => hij' (Fin.ext e)
    · rw [Set.disjoint_singleton_left]; rintro ⟨k, hk, he⟩; rw [Fin.ext he] at hk; exact hiM hk
    · rw [Set.disjoint_singleton_left]; rintro ⟨k, hk, he⟩; rw [Fin.ext he] at hk; exact hjM hk
  have h4 := dsep_fin hE hA h3
  obtain ⟨ρ, hρ⟩ := Props.partialCorr_exists hpd.inv hij' hiM hjM
  rw [Matrix.nonsing_inv_nonsing_inv _ ((Matrix.isUnit_iff_isUnit_det _).1 hpd.isUnit)] at hρ
  have h0 := partialCorr_dsep hAa hv hij' hiM hjM h4 hρ
  subst h0
  rw [← hS'] at hρ
  exact hij ((partialCorr_blanket hA' hv' (r := fun a => (order.symm a).val) (fun a b hab => ho' a b hab) hlt (fun g hg => hg)
    (fun g h1 h2 _ => ⟨h2, h1⟩) hρ).1 rfl)

end Spec
