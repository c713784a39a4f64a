import Verif.Proof.AllDags

/-! # `all_dags` lists the whole class if the undirected edges contain no triangle -/

namespace Model.SmallDag

open Spec
universe u
variable {α : Type u} [DecidableEq α] {D U : α → α → Prop} {fixed : Finset (α × α)}

/-- What is used of the undirected edges `U` of the class of `D`. -/
structure Loose (D U : α → α → Prop) (fixed : Finset (α × α)) : Prop where
  acyclic : Acyclic D
  edge : ∀ i j, Adj D i j → (i, j) ∉ fixed → (j, i) ∉ fixed → U i j
  symm : ∀ i j, U i j → U j i
  close : ∀ i j k, U i j → U i k → Adj D j k → U j k
  free : ∀ i j k, U i j → U i k → ¬ U j k
  vstr : ∀ i j k, VStruct D i j k → ¬ U i j

/-- The arcs listed as reversible are those that `D` orients in the same way. -/
structure Away (D : α → α → Prop) (fixed : Finset (α × α)) (d : SmallDag α) : Prop where
  ok : Ok D fixed d
  iff : ∀ i j, (i, j) ∈ d.rev ↔ Covered d.E i j ∧ (i, j) ∉ fixed ∧ D i j

/-- The arcs next to a reversed arc that are covered afterwards. -/
theorem Away.next {d : SmallDag α} (h : Away D fixed d) (hL : Loose D U fixed) {i j : α} (hij : (i, j) ∈ d.rev) {p q : α}
    (hc : Covered (Reverse d.E i j) p q) (hf : (p, q) ∉ fixed) (hne : ¬ (p = j ∧ q = i))
    (hin : p = i ∨ q = i ∨ p = j ∨ q = j) : D p q := by
  obtain ⟨h1, h2, h3⟩ := (h.iff i j).1 hij
  have hij' : i ≠ j := by rintro rfl; exact hL.acyclic.irrefl h3
  have hadj : ∀ {a b}, Adj d.E a b → Adj D a b := fun hab => (h.ok.same.skel _ _).2 hab
  have hU : ∀ {a b}, d.E a b → (a, b) ∉ fixed → U a b := by
    intro a b hab hn
    exact hL.edge a b (hadj (Or.inl hab)) hn fun h4 => h.ok.acyclic.asymm hab (h.ok.fixed_sub h4)
  have hUij : U i j := hU h1.1 h2
  have hpq : d.E p q ∧ ¬ (p = i ∧ q = j) := by
    rcases hc.1 with h4 | h4
    · exact h4
    · exact absurd h4 hne
  have hUpq : U p q := hU hpq.1 hf
  have hadj' : ∀ {a b}, Reverse d.E i j a b → Adj D a b := by
    rintro a b (h4 | ⟨rfl, rfl⟩)
    · exact hadj (Or.inl h4.1)
    · exact hadj (Or.inr h1.1)
  by_cases hqi : q = i
  · subst hqi
    have hpj : p ≠ j := fun h4 => hne ⟨h4, rfl⟩
    have h4 := (hc.2 j).2 ⟨Or.inr ⟨rfl, rfl⟩, Ne.symm hpj⟩
    have h5 := hL.close _ _ _ hUij (hL.symm _ _ hUpq) (hadj' h4)
    exact absurd h5 (hL.free _ _ _ hUij (hL.symm _ _ hUpq))
  by_cases hpi : p = i
  · subst hpi
    have h4 := ((hc.2 j).1 (Or.inr ⟨rfl, rfl⟩)).1
    have h5 := hL.close _ _ _ hUij hUpq (hadj' h4)
    exact absurd h5 (hL.free _ _ _ hUij hUpq)
  by_cases hqj : q = j
  · subst hqj
    have h4 : d.E p i := (h1.2 p).2 ⟨hpq.1, hpi⟩
    have h5 := hL.close _ _ _ (hL.symm _ _ hUij) (hL.symm _ _ hUpq) (hadj (Or.inr h4))
    exact absurd h5 (hL.free _ _ _ (hL.symm _ _ hUij) (hL.symm _ _ hUpq))
  obtain rfl : p = j := by tauto
  rcases hadj (Or.inl hpq.1) with h4 | h4
  · exact h4
  · exfalso
    by_cases h5 : Adj D i q
    · exact hL.free _ _ _ (hL.symm _ _ hUij) hUpq (hL.close _ _ _ (hL.symm _ _ hUij) hUpq h5)
    · exact hL.vstr i p q ⟨Ne.symm hqi, h3, h4, h5⟩ hUij

theorem Away.reverse {d : SmallDag α} (h : Away D fixed d) (hL : Loose D U fixed) (o : SetOrder (Fin 4) α) {i j : α}
    (hij : (i, j) ∈ d.rev) : Away D fixed (d.reverse o fixed i j) := by
  obtain ⟨h1, h2, h3⟩ := (h.iff i j).1 hij
  have hok := h.ok.reverse o hij
  have hij' : i ≠ j := by rintro rfl; exact hL.acyclic.irrefl h3
  have hji : ¬ d.E j i := h.ok.acyclic.asymm h1.1
  have hE : (d.reverse o fixed i j).E = Reverse d.E i j := by
    funext a b; exact propext (mem_newArcs d i j a b)
  refine ⟨hok, fun p q => ?_⟩
  rw [h.ok.mem_reverse_rev o hij, hE]
  split_ifs with hin
  · constructor
    · rintro ⟨k1, k2, k3⟩
      exact ⟨k2, k3, h.next hL hij k2 k3 k1 hin⟩
    · rintro ⟨k1, k2, k3⟩
      refine ⟨?_, k1, k2⟩
      rintro ⟨rfl, rfl⟩
      exact hL.acyclic.asymm h3 k3
  · push Not at hin
    rw [h.iff]
    refine and_congr_left fun _ => ?_
    unfold Covered Reverse
    simp [hin.1, hin.2.1, hin.2.2.1, hin.2.2.2]

end Model.SmallDag

namespace Model.PDAG

open Spec
universe u
variable {α : Type u} [DecidableEq α]

/-- Every graph of the class is listed. -/
theorem allDags_complete (o : AllOracle α) {P : PDAG α} {U : α → α → Prop} {G : DAG α} (hG : G.Valid) (hrun : (P.toDag o.dag).run = some (.ok G))
    (hfix : ∀ K, Acyclic K → SameSkelV G.E K → ∀ i j, (i, j) ∈ P.arcs → K i j)
    (hL : SmallDag.Loose G.E U P.arcs) :
    ∃ r, (P.allDags o).run = some (.ok r) ∧
      ∀ A : Finset (α × α), Acyclic (fun i j => (i, j) ∈ A) → SameSkelV G.E (fun i j => (i, j) ∈ A) → A ∈ r := by
  set d : SmallDag α := ⟨G.arcs, G.reversibleArcs \ P.arcs, G.parents, G.children⟩ with hd
  have hok : SmallDag.Ok G.E P.arcs d := by
    refine ⟨hG.parents_iff, hG.children_iff, hG.acyclic, SameSkelV.refl _,
      fun a ha => hfix _ hG.acyclic (SameSkelV.refl _) a.1 a.2 ha, ?_⟩
    intro i j hij
    have := Finset.mem_sdiff.1 hij
    exact ⟨(DAG.mem_reversibleArcs hG).1 this.1, this.2⟩
  have haway : SmallDag.Away G.E P.arcs d := by
    refine ⟨hok, fun i j => ?_⟩
    rw [Finset.mem_sdiff, DAG.mem_reversibleArcs hG]
    exact ⟨fun h => ⟨h.1, h.2, h.1.1⟩, fun h => ⟨h.1, h.2.1⟩⟩
  have hsub : ∀ d, SmallDag.Away G.E P.arcs d → d.arcs ∈ (G.nodes ×ˢ G.nodes).powerset := by
    intro d hd
    rw [Finset.mem_powerset]
    rintro ⟨a, b⟩ hab
    rw [Finset.mem_product]
    rcases (hd.ok.same.skel a b).2 (Or.inl hab) with h | h
    · exact ⟨hG.fst_mem _ _ h, hG.snd_mem _ _ h⟩
    · exact ⟨hG.snd_mem _ _ h, hG.fst_mem _ _ h⟩
  obtain ⟨r, r1, _, r3, r4⟩ := allDagsLoop_spec o _ _ hsub (fun d hd o i j hij => hd.reverse hL o hij) _ _ 0 [d] ∅
    le_rfl le_rfl (by simpa using haway)
  refine ⟨r, ?_, ?_⟩
  · unfold allDags
    rw [ExceptT.run_bind, hrun]
    exact r1
  have key : ∀ (n : ℕ) (A : Finset (α × α)), (A \ G.arcs).card = n → Acyclic (fun i j => (i, j) ∈ A) →
      SameSkelV G.E (fun i j => (i, j) ∈ A) → A ∈ r := by
    intro n
    induction n with
    | zero =>
      intro A hn hac hs
      rw [Finset.card_eq_zero, Finset.sdiff_eq_empty_iff_subset] at hn
      have := eq_of_subset hG.acyclic hs.symm fun a b hab => hn hab
      have hA : A = G.arcs := by
        ext ⟨a, b⟩
        exact iff_of_eq (congrFun (congrFun this a) b)
      rw [hA]; exact r3 d (by simp)
    | succ n ih =>
      intro A hn hac hs
      obtain ⟨⟨a, b⟩, hab⟩ := Finset.card_pos.1 (show 0 < (A \ G.arcs).card by omega)
      rw [Finset.mem_sdiff] at hab
      obtain ⟨i, j, hc, hji⟩ := exists_covered hac hG.acyclic G.nodes (by
        intro a b hab
        rcases (hs.skel a b).2 (Or.inl hab) with h | h
        · exact ⟨hG.fst_mem _ _ h, hG.snd_mem _ _ h⟩
        · exact ⟨hG.snd_mem _ _ h, hG.fst_mem _ _ h⟩) hs.symm ⟨a, b, hab.1, hab.2⟩
      have hij : i ≠ j := by rintro rfl; exact hac.irrefl hc.1
      -- the graph before the reversal
      set B : Finset (α × α) := insert (j, i) (A.erase (i, j)) with hB
      have hBE : (fun x y => (x, y) ∈ B) = Reverse (fun x y => (x, y) ∈ A) i j := by
        funext x y
        simp only [hB, Finset.mem_insert, Finset.mem_erase, Prod.mk.injEq, ne_eq, Reverse, eq_iff_iff]
        tauto
      have hBac : Acyclic fun x y => (x, y) ∈ B := by rw [hBE]; exact covered_reverse_acyclic hac hc
      have hBs : SameSkelV G.E fun x y => (x, y) ∈ B := by rw [hBE]; exact hs.trans (covered_sameSkelV hac hc)
      have hcard : (B \ G.arcs).card = n := by
        have : B \ G.arcs = (A \ G.arcs).erase (i, j) := by
          ext ⟨x, y⟩
          simp only [hB, Finset.mem_sdiff, Finset.mem_insert, Finset.mem_erase, Prod.mk.injEq, ne_eq]
          constructor
          · rintro ⟨⟨rfl, rfl⟩ | ⟨g1, g2⟩, g3⟩
            · exact absurd hji g3
            · exact ⟨g1, g2, g3⟩
          · rintro ⟨g1, g2, g3⟩; exact ⟨Or.inr ⟨g1, g2⟩, g3⟩
        rw [this, Finset.card_erase_of_mem, hn]; · rfl
        exact Finset.mem_sdiff.2 ⟨hc.1, hG.acyclic.asymm hji⟩
      obtain ⟨x, hx, hxA, hxr⟩ := (r4 B (ih B hcard hBac hBs)).resolve_left (by simp)
      have hxE : x.E = Reverse (fun x y => (x, y) ∈ A) i j := by rw [← hBE, ← hxA]
      have hcov : Covered x.E j i := by
        rw [hxE]
        refine ⟨Or.inr ⟨rfl, rfl⟩, fun p => ?_⟩
        rw [reverse_parent_i hac hc, reverse_parent_j hac hc]
        constructor
        · intro h1
          exact ⟨Or.inl h1, by rintro rfl; exact hac.asymm hc.1 h1⟩
        · rintro ⟨h1 | h1, h2⟩
          · exact h1
          · exact absurd h1 h2
      have hnf : (j, i) ∉ P.arcs := fun h => hac.asymm hc.1 (hfix _ hac hs j i h)
      have := hxr (j, i) ((hx.iff j i).2 ⟨hcov, hnf, hji⟩)
      have hA : x.newArcs j i = A := by
        ext ⟨p, q⟩
        rw [SmallDag.mem_newArcs, hxE]
        unfold Reverse
        constructor
        · rintro (⟨(h1 | h1), h2⟩ | ⟨rfl, rfl⟩)
          · exact h1.1
          · exact absurd h1 h2
          · exact hc.1
        · intro h1
          by_cases h2 : p = i ∧ q = j
          · exact Or.inr h2
          · refine Or.inl ⟨Or.inl ⟨h1, h2⟩, ?_⟩
            rintro ⟨rfl, rfl⟩
            exact hac.asymm hc.1 h1
      rw [← hA]; exact this
  intro A hac hs
  exact key _ A rfl hac hs

end Model.PDAG
