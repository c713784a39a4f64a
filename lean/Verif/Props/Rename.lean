import Verif.Props.DSep
import Verif.Proof.Rename

/-! # C32: renaming nodes -/

namespace Props

open Model Model.DAG Spec Relation
universe u
variable {α : Type u} [DecidableEq α] {β : Type u} [DecidableEq β]

/-- C32. If the renaming is injective on the nodes of an acyclic graph, `rename_nodes` succeeds with an acyclic graph whose
nodes and arcs are exactly the renamed ones; `ancestors_of` and `dsep` give the renamed answers, and the topological orders
are the renamed ones. -/
theorem C32_rename (G : DAG α) (hG : G.Valid) (ot : SetOrder (Option β) β) (oa : SetOrder Bool (β × β)) (f : α → β)
    (hf : Set.InjOn f {v | v ∈ G.nodes}) :
    ∃ H, G.renameNodes ot oa f = some (H, none) ∧ H.Valid ∧ (∀ x, x ∈ H.nodes ↔ ∃ v ∈ G.nodes, f v = x) ∧
      (∀ x y, (x, y) ∈ H.arcs ↔ ∃ i j, (i, j) ∈ G.arcs ∧ f i = x ∧ f j = y) ∧
      (∀ o o' v s s', v ∈ G.nodes → ancestorsOf G o v = some s → ancestorsOf H o' (f v) = some s' → s' = s.image f) ∧
      (∀ o o' A B C, A ⊆ G.nodes → B ⊆ G.nodes → C ⊆ G.nodes → Disjoint A C →
        dsep H o' (A.image f) (B.image f) (C.image f) = dsep G o A B C) ∧
      ∀ l, (∀ v ∈ l, v ∈ G.nodes) →
        (LinearExtension {x | x ∈ H.nodes} H.E (l.map f) ↔ LinearExtension {v | v ∈ G.nodes} G.E l) := by
  obtain ⟨H, h1, h2, h3, h4⟩ := renameNodes_spec hG ot oa hf
  have hN : ∀ x, x ∈ H.nodes ↔ ∃ v ∈ G.nodes, f v = x := by
    intro x; rw [h3, Finset.mem_image]
  refine ⟨H, h1, h2, hN, h4.arcs, ?_, ?_, ?_⟩
  · intro o o' v s s' hv hs hs'
    obtain ⟨t, ht, ht'⟩ := ancestorsOf_spec hG.toConsistent o v
    obtain ⟨u, hu, hu'⟩ := ancestorsOf_spec h2.toConsistent o' (f v)
    obtain rfl : t = s := Option.some.inj (ht.symm.trans hs)
    obtain rfl : u = s' := Option.some.inj (hu.symm.trans hs')
    ext x
    rw [hu', Finset.mem_image]
    constructor
    · intro hp
      obtain ⟨y, hy, _⟩ := TransGen.head'_iff.1 hp
      obtain ⟨a, b, he, rfl, _⟩ := (h4.arcs _ _).1 hy
      exact ⟨a, (ht' a).2 ((h4.path (h4.nodes _ _ he).1 hv).1 hp), rfl⟩
    · rintro ⟨a, ha, rfl⟩
      have hp := (ht' a).1 ha
      obtain ⟨y, hy, _⟩ := TransGen.head'_iff.1 hp
      exact (h4.path (h4.nodes _ _ hy).1 hv).2 hp
  · intro o o' A B C hA hB hC hAC
    have hd : Disjoint (A.image f) (C.image f) := by
      rw [Finset.disjoint_left] at hAC ⊢
      intro x hx hx'
      obtain ⟨a, ha, rfl⟩ := Finset.mem_image.1 hx
      obtain ⟨c, hc, e⟩ := Finset.mem_image.1 hx'
      rw [hf (hC hc) (hA ha) e] at hc
      exact hAC ha hc
    obtain ⟨r, hr, hr'⟩ := C11_dsep G hG o A B C hAC
    obtain ⟨q, hq, hq'⟩ := C11_dsep H h2 o' (A.image f) (B.image f) (C.image f) hd
    rw [hr, hq]
    congr 1
    rw [Bool.eq_iff_iff, hr', hq', ← h4.dsep (A := {a | a ∈ A}) (B := {a | a ∈ B}) (C := {a | a ∈ C})
      (fun a ha => hA ha) (fun a ha => hB ha) (fun a ha => hC ha)]
    have hi : ∀ S : Finset α, {x | x ∈ S.image f} = f '' {a | a ∈ S} := by
      intro S; ext x; simp
    rw [hi, hi, hi]
  · intro l hl
    have : {x | x ∈ H.nodes} = f '' {v | v ∈ G.nodes} := by
      ext x; simp only [Set.mem_ofPred_eq, Set.mem_image]; exact hN x
    rw [this]
    exact h4.linear hl

/-- The diamond with shifted names. -/
example : ∃ H : DAG ℕ, Sample.diamond.renameNodes Sample.order Sample.order (fun v => v.val + 10) = some (H, none) ∧
    (13, 14) ∈ H.arcs ∧ dsep H Sample.sep {11} {12} {10} = dsep Sample.diamond Sample.sep {1} {2} {0} := by
  obtain ⟨H, h1, _, _, h4, _, h6, _⟩ := C32_rename Sample.diamond Sample.diamond_valid Sample.order Sample.order
    (fun v => v.val + 10) (by intro a _ b _ h; simp only [Nat.add_right_cancel_iff] at h; exact Fin.ext h)
  refine ⟨H, h1, (h4 _ _).2 ⟨3, 4, by decide, rfl, rfl⟩, ?_⟩
  have := h6 Sample.sep Sample.sep {1} {2} {0} (by decide) (by decide) (by decide) (by decide)
  simpa using this

end Props
