import Verif.Proof.AGNew
import Verif.Proof.Components

/-! # Districts of ancestral graphs -/

namespace Model.AG

universe u
variable {α : Type u} [DecidableEq α] {A : AG α}
open Relation Spec

theorem districts_spec (h : A.Good) (o : SetOrder (α × Finset α) α) (pk : Pick α) :
    ∃ cs, A.cComponents o pk = some cs ∧ cs.Pairwise Disjoint ∧
      (∀ v, (∃ c ∈ cs, v ∈ c) ↔ v ∈ A.nodes) ∧
      (∀ v ∈ A.nodes, ∀ w, (∃ c ∈ cs, v ∈ c ∧ w ∈ c) ↔ ReflTransGen (fun a b => {a, b} ∈ A.bidirected) v w) ∧
      ∀ v ∈ A.nodes, ∀ o', ∃ c ∈ cs, A.districtOf o' v = some c ∧ v ∈ c := by
  have hg := h.1
  have hrel : (fun a b => b ∈ A.spouses a ∩ A.nodes) = fun a b => ({a, b} : Finset α) ∈ A.bidirected := by
    funext a b
    rw [Finset.mem_inter, hg.spouses_iff, Finset.pair_comm, eq_iff_iff]
    exact ⟨And.left, fun k => ⟨k, hg.bi_mem _ k (by simp)⟩⟩
  have hU : ∀ x ∈ A.nodes, A.spouses x ∩ A.nodes ⊆ A.nodes := fun x _ => Finset.inter_subset_right
  have hsym : ∀ x y, y ∈ A.spouses x ∩ A.nodes → x ∈ A.spouses y ∩ A.nodes := by
    intro x y k
    have k : ({x, y} : Finset α) ∈ A.bidirected := (congrFun (congrFun hrel x) y).mp k
    refine (congrFun (congrFun hrel y) x).mpr ?_
    rwa [Finset.pair_comm]
  have symm : ∀ {a b}, ReflTransGen (fun a b => ({a, b} : Finset α) ∈ A.bidirected) a b →
      ReflTransGen (fun a b => ({a, b} : Finset α) ∈ A.bidirected) b a := by
    intro a b h
    induction h with
    | refl => exact .refl
    | tail _ h ih => exact ReflTransGen.head (by rwa [Finset.pair_comm]) ih
  have hmem : ∀ {a b}, a ∈ A.nodes → ReflTransGen (fun a b => ({a, b} : Finset α) ∈ A.bidirected) a b → b ∈ A.nodes := by
    intro a b ha h
    induction h with
    | refl => exact ha
    | tail _ h _ => exact hg.bi_mem _ h (by simp)
  obtain ⟨cs, h1, h2, h3, h4⟩ := components_spec (fun x => A.spouses x ∩ A.nodes) o pk (fun _ => true) A.nodes hU hsym
  rw [hrel] at h3
  have hcls : ∀ c ∈ cs, ∀ v ∈ c, ∀ x, x ∈ c ↔ ReflTransGen (fun a b => ({a, b} : Finset α) ∈ A.bidirected) v x := by
    intro c hc v hv x
    obtain ⟨-, v0, -, -, k⟩ := h3 c hc
    rw [k] at hv ⊢
    exact ⟨fun h => (symm hv).trans h, fun h => hv.trans h⟩
  have hcov : ∀ v, (∃ c ∈ cs, v ∈ c) ↔ v ∈ A.nodes := by
    intro v
    constructor
    · rintro ⟨c, hc, hv⟩
      obtain ⟨-, v0, -, k0, k⟩ := h3 c hc
      exact hmem k0 ((k v).1 hv)
    · intro hv
      rcases h4 v hv with k | ⟨c, k, -⟩
      · exact k
      · simp at k
  refine ⟨cs, h1, h2, hcov, fun v hv w => ?_, fun v hv o' => ?_⟩
  · constructor
    · rintro ⟨c, hc, k1, k2⟩; exact (hcls c hc v k1 w).1 k2
    · intro k
      obtain ⟨c, hc, hvc⟩ := (hcov v).2 hv
      exact ⟨c, hc, hvc, (hcls c hc v hvc w).2 k⟩
  · obtain ⟨c, hc, hvc⟩ := (hcov v).2 hv
    obtain ⟨N, k1, -, -, k4⟩ := reachable_class (fun x => A.spouses x ∩ A.nodes) o' A.nodes hU hsym ∅ (by simp) v hv (by simp)
    rw [hrel] at k4
    have : N = c := by ext x; rw [k4, hcls c hc v hvc]
    refine ⟨c, hc, ?_, hvc⟩
    rw [AG.districtOf, AG.districtOfIn, k1, ← this]; rfl

end Model.AG
