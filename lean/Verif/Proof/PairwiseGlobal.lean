import Verif.Proof.Graphoid
import Verif.Proof.AGMarkov

/-! # The pairwise Markov statements of a graph without undirected edges imply all its m-separations -/

namespace Spec.Mixed

universe u
variable {α : Type u} [DecidableEq α] {M : Mixed α}
open Relation

/-- Rules of an independence relation, for disjoint sets. -/
structure Graphoid (J : Finset α → Finset α → Finset α → Prop) : Prop where
  empty : ∀ B C, J ∅ B C
  symm : ∀ {A B C}, J A B C → J B A C
  mono : ∀ {A B A' B' C}, A' ⊆ A → B' ⊆ B → J A B C → J A' B' C
  comp : ∀ {A B C D}, J A B C → J A D C → J A (B ∪ D) C
  weak : ∀ {A B C D}, Disjoint A C → Disjoint A D → J A (B ∪ D) C → J A B (C ∪ D)
  contr : ∀ {A B C D}, Disjoint A C → Disjoint A B → J A B C → J A D (C ∪ B) → J A (B ∪ D) C
  inter : ∀ {A B C D}, Disjoint A B → Disjoint A C → Disjoint A D → J A B (C ∪ D) → J A D (C ∪ B) → J A (B ∪ D) C

theorem Proper.graphoid (h : M.Proper) : Graphoid (α := α) fun A B C => M.MSep ↑A ↑B ↑C where
  empty B C := by simp [MSep]
  symm := msep_comm h
  mono hA hB := msep_mono (Finset.coe_subset.2 hA) (Finset.coe_subset.2 hB)
  comp h1 h2 := by rw [Finset.coe_union]; exact msep_union h1 h2
  weak hC hD hs := by
    rw [Finset.coe_union] at *; exact msep_weak_union h (Finset.disjoint_coe.2 hC) (Finset.disjoint_coe.2 hD) hs
  contr hC hB h1 h2 := by
    rw [Finset.coe_union] at *; exact msep_contraction h (Finset.disjoint_coe.2 hC) (Finset.disjoint_coe.2 hB) h1 h2
  inter hB hC hD h1 h2 := by
    rw [Finset.coe_union] at *
    exact msep_intersection h (Finset.disjoint_coe.2 hB) (Finset.disjoint_coe.2 hC) (Finset.disjoint_coe.2 hD) h1 h2

/-- Joined by bidirected edges within `T`. -/
def Dist (M : Mixed α) (T : Finset α) : α → α → Prop := ReflTransGen fun a b => M.bi a b ∧ a ∈ T ∧ b ∈ T

def Head (M : Mixed α) (w e : α) : Prop := w = e ∨ M.dir w e

/-- `w` is in the Markov blanket of `v` within `T`. -/
def Mb (M : Mixed α) (T : Finset α) (v w : α) : Prop := ∃ e, M.Dist T v e ∧ M.Head w e

def CCon (M : Mixed α) (T : Finset α) (a b : α) : Prop := ∃ d e, d ∈ T ∧ M.Head a d ∧ M.Dist T d e ∧ M.Head b e

def Closed (M : Mixed α) (T : Finset α) : Prop := ∀ a b, M.dir a b → b ∈ T → a ∈ T

def Sink (M : Mixed α) (T : Finset α) (v : α) : Prop := v ∈ T ∧ ∀ c ∈ T, ¬ M.dir v c

omit [DecidableEq α] in
theorem Dist.symm (h : M.Proper) {T : Finset α} {x y : α} (hd : M.Dist T x y) : M.Dist T y x := by
  induction hd with
  | refl => exact .refl
  | tail _ k ih => exact ReflTransGen.head ⟨h.bi_symm _ _ k.1, k.2.2, k.2.1⟩ ih

omit [DecidableEq α] in
theorem Dist.mono {S T : Finset α} (hST : S ⊆ T) {x y : α} (hd : M.Dist S x y) : M.Dist T x y :=
  path0_mono (fun _ _ k => ⟨k.1, hST k.2.1, hST k.2.2⟩) hd

omit [DecidableEq α] in
theorem Mb.mono {S T : Finset α} (hST : S ⊆ T) {x y : α} : M.Mb S x y → M.Mb T x y
  | ⟨e, h1, h2⟩ => ⟨e, h1.mono hST, h2⟩

omit [DecidableEq α] in
theorem Dist.mem {T : Finset α} {x y : α} (hd : M.Dist T x y) (hx : x ∈ T) : y ∈ T := by
  rcases ReflTransGen.cases_tail hd with h | ⟨z, -, h⟩
  · rwa [h]
  · exact h.2.2

theorem Sink.erase {T : Finset α} {v u : α} (hv : M.Sink T v) (h : v ≠ u) : M.Sink (T.erase u) v :=
  ⟨Finset.mem_erase.2 ⟨h, hv.1⟩, fun c hc => hv.2 c (Finset.mem_of_mem_erase hc)⟩

theorem Closed.erase {T : Finset α} {u : α} (hT : M.Closed T) (hu : M.Sink T u) : M.Closed (T.erase u) := by
  intro a b hab hb
  have hb' := Finset.mem_of_mem_erase hb
  refine Finset.mem_erase.2 ⟨?_, hT a b hab hb'⟩
  rintro rfl; exact hu.2 b hb' hab

/-- In a finite acyclic graph every node of `T` has a sink of `T` among itself and its descendants. -/
theorem exists_sink (hac : Acyclic M.dir) (T : Finset α) {x : α} (hx : x ∈ T) : ∃ s, M.Sink T s ∧ Path0 M.dir x s := by
  by_contra hcon
  push Not at hcon
  have : ∀ n, ∀ S ⊆ T, (T \ S).card = n → ∀ y ∈ T, y ∉ S → Path0 M.dir x y → (∀ s ∈ S, Path M.dir s y) → False := by
    intro n
    induction n with
    | zero =>
      intro S _ hc y hy hyS
      have := Finset.card_eq_zero.1 hc
      exact absurd (Finset.mem_sdiff.2 ⟨hy, hyS⟩) (by rw [this]; simp)
    | succ n ih =>
      intro S hS hc y hy hyS hxy hSy
      have : ¬ M.Sink T y := fun k => hcon y k hxy
      obtain ⟨c, hcT, hyc⟩ : ∃ c ∈ T, M.dir y c := by
        by_contra k; push Not at k; exact this ⟨hy, k⟩
      refine ih (insert y S) (Finset.insert_subset hy hS) ?_ c hcT ?_ (hxy.tail hyc) ?_
      · have : T \ insert y S = (T \ S).erase y := by grind
        rw [this, Finset.card_erase_of_mem (by grind), hc]; rfl
      · intro hcS
        rcases Finset.mem_insert.1 hcS with e | hcS
        · subst e; exact hac _ (.single hyc)
        · exact hac _ ((hSy c hcS).tail hyc)
      · intro s hs
        rcases Finset.mem_insert.1 hs with e | hs
        · rw [e]; exact .single hyc
        · exact (hSy s hs).tail hyc
  exact this _ ∅ (by simp) rfl x hx (by simp) .refl (by simp)

variable {J : Finset α → Finset α → Finset α → Prop}

/-- Composition and weak union. -/
theorem Graphoid.pair (g : Graphoid J) {T : Finset α} {u v w : α} (huv : u ≠ v) (huw : u ≠ w) (hu : u ∈ T)
    (h1 : J {v} {w} ((T.erase u) \ {v, w})) (h2 : J {u} {w} ((T.erase v) \ {u, w})) :
    J {v} {w} (T \ {v, w}) := by
  have e1 : (T.erase u) \ {v, w} = T \ {u, v, w} := by grind
  have e2 : (T.erase v) \ {u, w} = T \ {u, v, w} := by grind
  rw [e1] at h1; rw [e2] at h2
  have h3 := g.weak (by simp) (by simpa using Ne.symm huw) (g.comp (g.symm h1) (g.symm h2))
  have e3 : T \ {u, v, w} ∪ {u} = T \ {v, w} := by grind
  rw [e3] at h3
  exact g.symm h3

/-- A sink of a parent-closed set is independent, given the rest, of any node outside its Markov blanket. -/
theorem pairs_of_pairwise (h : M.Proper) (hac : Acyclic M.dir) (hun : ∀ u v, ¬ M.un u v) (g : Graphoid J) (V : Finset α)
    (hp : ∀ i ∈ V, ∀ j ∈ V, i ≠ j → ¬ M.Adj i j → ∀ S : Finset α, (∀ x, x ∈ S ↔ x ≠ i ∧ x ≠ j ∧ M.Anc2 i j x) → J {i} {j} S) :
    ∀ n, ∀ T ⊆ V, T.card = n → M.Closed T → ∀ v w, M.Sink T v → w ∈ T → v ≠ w → ¬ M.Mb T v w → J {v} {w} (T \ {v, w}) := by
  intro n
  induction n using Nat.strong_induction_on with
  | _ n ih =>
  intro T hTV hn hT
  -- the induction hypothesis after a sink is taken out
  have ih' : ∀ u v w, M.Sink T u → M.Sink T v → w ∈ T → u ≠ v → u ≠ w → v ≠ w → ¬ M.Mb T v w →
      J {v} {w} ((T.erase u) \ {v, w}) := by
    intro u v w hu hv hw h1 h2 h3 hm
    exact ih _ (by rw [← hn]; exact Finset.card_erase_lt_of_mem hu.1) (T.erase u) ((Finset.erase_subset _ _).trans hTV) rfl
      (hT.erase hu) v w (hv.erase h1.symm) (Finset.mem_erase.2 ⟨h2.symm, hw⟩) h3
      fun k => hm (k.mono (Finset.erase_subset _ _))
  -- all sinks are among the two nodes
  have base : ∀ v w, M.Sink T v → w ∈ T → v ≠ w → ¬ M.Mb T v w → (∀ u, M.Sink T u → u = v ∨ u = w) →
      J {v} {w} (T \ {v, w}) := by
    intro v w hv hw hvw hm hs
    refine hp v (hTV hv.1) w (hTV hw) hvw ?_ _ ?_
    · rintro (k | k | k | k)
      · exact hv.2 w hw k
      · exact hm ⟨v, .refl, Or.inr k⟩
      · exact hm ⟨w, .single ⟨k, hv.1, hw⟩, Or.inl rfl⟩
      · exact hun _ _ k
    · intro x
      constructor
      · intro hx
        obtain ⟨hxT, hx2⟩ := Finset.mem_sdiff.1 hx
        simp only [Finset.mem_insert, Finset.mem_singleton, not_or] at hx2
        refine ⟨hx2.1, hx2.2, ?_⟩
        obtain ⟨s, hs1, hs2⟩ := exists_sink hac T hxT
        rcases hs s hs1 with rfl | rfl
        · exact Or.inl ((reflTransGen_iff_eq_or_transGen.1 hs2).resolve_left (Ne.symm hx2.1))
        · exact Or.inr ((reflTransGen_iff_eq_or_transGen.1 hs2).resolve_left (Ne.symm hx2.2))
      · rintro ⟨h1, h2, h3⟩
        have up : ∀ {x y}, Path M.dir x y → y ∈ T → x ∈ T := by
          intro x y hxy
          induction hxy with
          | single k => exact hT _ _ k
          | tail _ k ih => exact fun hy => ih (hT _ _ k hy)
        simp only [Finset.mem_sdiff, Finset.mem_insert, Finset.mem_singleton, not_or]
        exact ⟨h3.elim (fun k => up k hv.1) fun k => up k hw, h1, h2⟩
  -- the Markov blanket of a sink among sinks
  have sink_mb : ∀ v u, M.Sink T v → M.Sink T u → M.Mb T v u → M.Dist T v u := by
    rintro v u hv hu ⟨e, h1, rfl | h2⟩
    · exact h1
    · exact absurd h2 (hu.2 e (h1.mem hv.1))
  have two : ∀ v u, M.Sink T v → M.Sink T u → v ≠ u → ¬ M.Mb T v u → J {v} {u} (T \ {v, u}) := by
    intro v u hv hu hvu hm
    by_cases hs : ∀ t, M.Sink T t → t = v ∨ t = u
    · exact base v u hv hu.1 hvu hm hs
    · push Not at hs
      obtain ⟨t, ht, htv, htu⟩ := hs
      by_cases hm2 : M.Mb T t u
      · have hm3 : ¬ M.Mb T t v := fun k => hm ⟨u, ((sink_mb t v ht hv k).symm h).trans (sink_mb t u ht hu hm2), Or.inl rfl⟩
        have hm' : ¬ M.Mb T u v := fun k => hm ⟨u, (sink_mb u v hu hv k).symm h, Or.inl rfl⟩
        have := g.pair (T := T) (u := t) (v := u) (w := v) htu htv ht.1
          (ih' t u v ht hu hv.1 htu htv hvu.symm hm') (ih' u t v hu ht hv.1 htu.symm hvu.symm htv hm3)
        rw [Finset.pair_comm] at this
        exact g.symm this
      · exact g.pair htv htu ht.1 (ih' t v u ht hv hu.1 htv htu hvu hm)
          (ih' v t u hv ht hu.1 htv.symm hvu htu hm2)
  intro v w hv hw hvw hm
  by_cases hs : ∀ u, M.Sink T u → u = v ∨ u = w
  · exact base v w hv hw hvw hm hs
  push Not at hs
  obtain ⟨u, hu, huv, huw⟩ := hs
  by_cases hmu : M.Mb T u w
  · have hm2 : ¬ M.Mb T v u := by
      intro k
      obtain ⟨e, h1, h2⟩ := hmu
      exact hm ⟨e, (sink_mb v u hv hu k).trans h1, h2⟩
    have h1 := two v u hv hu huv.symm hm2
    have h2 := ih' u v w hu hv hw huv huw hvw hm
    have e1 : T \ {v, u} = (T.erase u) \ {v, w} ∪ {w} := by grind
    rw [e1] at h1
    have h3 := g.weak (by simp) (by simpa using huv.symm) (g.contr (by simp) (by simpa using hvw) h2 h1)
    have e2 : (T.erase u) \ {v, w} ∪ {u} = T \ {v, w} := by have := hu.1; grind
    rwa [e2] at h3
  · exact g.pair huv huw hu.1 (ih' u v w hu hv hw huv huw hvw hm) (ih' v u w hv hu hw huv.symm hvw huw hmu)

/-- The local statement for several nodes outside the Markov blanket. -/
theorem local_of_pairs (g : Graphoid J) {T : Finset α} {v : α}
    (hpair : ∀ w ∈ T, v ≠ w → ¬ M.Mb T v w → J {v} {w} (T \ {v, w})) (W : Finset α) (hW : W ⊆ T) (hvW : v ∉ W)
    (hm : ∀ w ∈ W, ¬ M.Mb T v w) : J {v} W ((T.erase v) \ W) := by
  induction W using Finset.induction_on with
  | empty => exact g.symm (g.empty _ _)
  | @insert w W hw ih =>
    have hvw : v ≠ w := by grind
    have h1 := hpair w (hW (Finset.mem_insert_self _ _)) hvw (hm w (Finset.mem_insert_self _ _))
    have h2 := ih ((Finset.subset_insert _ _).trans hW) (by grind) fun x hx => hm x (Finset.mem_insert_of_mem hx)
    have e1 : T \ {v, w} = (T.erase v) \ (insert w W) ∪ W := by
      ext x; have : x ∈ W → x ∈ T := fun k => hW (Finset.mem_insert_of_mem k); grind
    have e2 : (T.erase v) \ W = (T.erase v) \ (insert w W) ∪ {w} := by
      have := hW (Finset.mem_insert_self w W); grind
    rw [e1] at h1; rw [e2] at h2
    have := g.inter (by simpa using hvw) (by simp) (by simpa using fun k => hvW (Finset.mem_insert_of_mem k)) h1 h2
    rwa [← Finset.insert_eq] at this

/-- From local to global statements, for sets that make up the whole of a parent-closed set. -/
theorem global_of_local (h : M.Proper) (hac : Acyclic M.dir) (g : Graphoid J) (V : Finset α)
    (hpair : ∀ T ⊆ V, M.Closed T → ∀ v w, M.Sink T v → w ∈ T → v ≠ w → ¬ M.Mb T v w → J {v} {w} (T \ {v, w})) :
    ∀ n, ∀ T ⊆ V, T.card = n → M.Closed T → ∀ X Y Z, X ∪ Y ∪ Z = T → Disjoint X Y → Disjoint X Z → Disjoint Y Z →
      (∀ x ∈ X, ∀ y ∈ Y, ¬ M.CCon T x y) → J X Y Z := by
  have csymm : ∀ {T a b}, M.CCon T a b → M.CCon T b a := by
    rintro T a b ⟨d, e, h1, h2, h3, h4⟩
    exact ⟨e, d, h3.mem h1, h4, h3.symm h, h2⟩
  intro n
  induction n with
  | zero =>
    intro T _ hc _ X Y Z hu
    have : X = ∅ := by
      rw [Finset.card_eq_zero.1 hc, Finset.union_eq_empty, Finset.union_eq_empty] at hu
      exact hu.1.1
    intro _ _ _ _
    rw [this]; exact g.empty _ _
  | succ n ih =>
    intro T hTV hc hT
    obtain ⟨x, hx⟩ : T.Nonempty := Finset.card_pos.1 (by omega)
    obtain ⟨v, hv, -⟩ := exists_sink hac T hx
    have hcard : (T.erase v).card = n := by rw [Finset.card_erase_of_mem hv.1, hc]; rfl
    have hsub : T.erase v ⊆ T := Finset.erase_subset _ _
    have loc := fun W hW hvW hm => local_of_pairs (M := M) (v := v) g (fun w hw => hpair T hTV hT v w hv hw) W hW hvW hm
    have cmono : ∀ {a b}, M.CCon (T.erase v) a b → M.CCon T a b := by
      rintro a b ⟨d, e, h1, h2, h3, h4⟩
      exact ⟨d, e, hsub h1, h2, h3.mono hsub, h4⟩
    -- the sink is in the second set
    have inY : ∀ X Y Z, X ∪ Y ∪ Z = T → Disjoint X Y → Disjoint X Z → Disjoint Y Z →
        (∀ x ∈ X, ∀ y ∈ Y, ¬ M.CCon T x y) → v ∈ Y → J X Y Z := by
      intro X Y Z hu h1 h2 h3 hcc hvY
      have k1 := loc X (by grind) (by grind [Finset.disjoint_left]) fun x hx ⟨e, p, q⟩ =>
        hcc x hx v hvY (csymm ⟨v, e, hv.1, Or.inl rfl, p, q⟩)
      have e1 : (T.erase v) \ X = Z ∪ Y.erase v := by
        rw [Finset.disjoint_left] at h1 h2 h3; ext z; specialize @h1 z; specialize @h2 z; specialize @h3 z; grind
      rw [e1] at k1
      have k2 := ih (T.erase v) (hsub.trans hTV) hcard (hT.erase hv) X (Y.erase v) Z
        (by rw [Finset.disjoint_left] at h1 h2 h3; ext z; specialize @h1 z; specialize @h2 z; specialize @h3 z; grind)
        (h1.mono_right (Finset.erase_subset _ _)) h2 (h3.mono_left (Finset.erase_subset _ _))
        fun x hx y hy k => hcc x hx y (Finset.mem_of_mem_erase hy) (cmono k)
      have := g.contr h2 (h1.mono_right (Finset.erase_subset _ _)) k2 (g.symm k1)
      rwa [Finset.union_comm, ← Finset.insert_eq, Finset.insert_erase hvY] at this
    -- the sink is conditioned on and its blanket misses the first set
    have inZ : ∀ X Y Z, X ∪ Y ∪ Z = T → Disjoint X Y → Disjoint X Z → Disjoint Y Z →
        (∀ x ∈ X, ∀ y ∈ Y, ¬ M.CCon T x y) → v ∈ Z → (∀ x ∈ X, ¬ M.Mb T v x) → J X Y Z := by
      intro X Y Z hu h1 h2 h3 hcc hvZ hm
      have k1 := loc X (by grind) (by grind [Finset.disjoint_left]) hm
      have e1 : (T.erase v) \ X = Z.erase v ∪ Y := by
        rw [Finset.disjoint_left] at h1 h2 h3; ext z; specialize @h1 z; specialize @h2 z; specialize @h3 z; grind
      rw [e1] at k1
      have k2 := ih (T.erase v) (hsub.trans hTV) hcard (hT.erase hv) X Y (Z.erase v)
        (by rw [Finset.disjoint_left] at h1 h2 h3; ext z; specialize @h1 z; specialize @h2 z; specialize @h3 z; grind)
        h1 (h2.mono_right (Finset.erase_subset _ _)) (h3.mono_right (Finset.erase_subset _ _))
        fun x hx y hy k => hcc x hx y hy (cmono k)
      have h2' := h2.mono_right (Finset.erase_subset v Z)
      have := g.weak h2' (Finset.disjoint_singleton_right.2 fun k => Finset.disjoint_left.1 h2 k hvZ)
        (g.contr h2' h1 k2 (g.symm k1))
      rwa [Finset.union_comm, ← Finset.insert_eq, Finset.insert_erase hvZ] at this
    intro X Y Z hu h1 h2 h3 hcc
    have hu' : Y ∪ X ∪ Z = T := by rw [Finset.union_comm Y X, hu]
    have hcc' : ∀ y ∈ Y, ∀ x ∈ X, ¬ M.CCon T y x := fun y hy x hx k => hcc x hx y hy (csymm k)
    have hvm : v ∈ X ∪ Y ∪ Z := hu ▸ hv.1
    rcases Finset.mem_union.1 hvm with hvm | hvZ
    · rcases Finset.mem_union.1 hvm with hvX | hvY
      · exact g.symm (inY Y X Z hu' h1.symm h3 h2 hcc' hvX)
      · exact inY X Y Z hu h1 h2 h3 hcc hvY
    · by_cases hm : ∀ x ∈ X, ¬ M.Mb T v x
      · exact inZ X Y Z hu h1 h2 h3 hcc hvZ hm
      · push Not at hm
        obtain ⟨x, hx, e, p, q⟩ := hm
        refine g.symm (inZ Y X Z hu' h1.symm h3 h2 hcc' hvZ ?_)
        rintro y hy ⟨e', p', q'⟩
        exact hcc x hx y hy ⟨e, e', p.mem hv.1, q, (p.symm h).trans p', q'⟩

/-- Every m-separation follows from the pairwise statements by the rules. -/
theorem global_of_pairwise (h : M.Proper) (hac : Acyclic M.dir) (hun : ∀ u v, ¬ M.un u v) (g : Graphoid J) (V : Finset α)
    (hV : M.Closed V)
    (hp : ∀ i ∈ V, ∀ j ∈ V, i ≠ j → ¬ M.Adj i j → ∀ S : Finset α, (∀ x, x ∈ S ↔ x ≠ i ∧ x ≠ j ∧ M.Anc2 i j x) → J {i} {j} S)
    (X Y Z : Finset α) (hXV : X ⊆ V) (hYV : Y ⊆ V) (hZV : Z ⊆ V) (hXZ : Disjoint X Z) (hYZ : Disjoint Y Z)
    (hs : M.MSep ↑X ↑Y ↑Z) : J X Y Z := by
  classical
  let T : Finset α := V.filter fun v => ∃ b ∈ X ∪ Y ∪ Z, Path0 M.dir v b
  have hVup : ∀ {x y}, Path0 M.dir x y → y ∈ V → x ∈ V := by
    intro x y hxy
    induction hxy with
    | refl => exact id
    | tail _ k ih => exact fun hy => ih (hV _ _ k hy)
  have hsub : X ∪ Y ∪ Z ⊆ V := Finset.union_subset (Finset.union_subset hXV hYV) hZV
  have hT : M.Closed T := by
    intro a b hab hb
    obtain ⟨hb1, c, hc, hbc⟩ := Finset.mem_filter.1 hb
    exact Finset.mem_filter.2 ⟨hV a b hab hb1, c, hc, ReflTransGen.head hab hbc⟩
  have hself : X ∪ Y ∪ Z ⊆ T := fun x hx => Finset.mem_filter.2 ⟨hsub hx, x, hx, .refl⟩
  have hmv := (msep_moves (B := ↑Y) h (Finset.disjoint_coe.2 hXZ)).1 hs
  let K : α → Prop := fun d => ∃ x ∈ X, ReflTransGen (M.mg.Move ↑Z) (x, false) (d, true) ∨
    (d ∉ Z ∧ ReflTransGen (M.mg.Move ↑Z) (x, false) (d, false))
  -- the ball can leave such a node along any edge with an arrowhead at it
  have leave : ∀ d ∈ T, K d → ∀ d', M.Into d' d → ∃ x ∈ X, ∃ f, ReflTransGen (M.mg.Move ↑Z) (x, false) (d', f) ∧
      (f = true ↔ M.Into d d') := by
    intro d hd hK d' hi
    have hadj : M.Adj d d' := by
      rcases hi with k | k
      · exact Or.inr (Or.inl k)
      · exact Or.inr (Or.inr (Or.inl (h.bi_symm _ _ k)))
    have out : ∀ x, d ∉ Z → ReflTransGen (M.mg.Move ↑Z) (x, false) (d, false) → ∃ f,
        ReflTransGen (M.mg.Move ↑Z) (x, false) (d', f) ∧ (f = true ↔ M.Into d d') := by
      intro x hdZ hr
      refine ⟨decide (M.Into d d'), hr.tail ⟨hadj, ?_, ?_, ?_⟩, by simp⟩
      · exact decide_eq_true_iff
      · rintro ⟨k, -⟩; simp at k
      · exact fun _ => hdZ
    obtain ⟨x, hx, hr | ⟨hdZ, hr⟩⟩ := hK
    · by_cases hA : M.mg.An ↑Z d
      · refine ⟨x, hx, decide (M.Into d d'), hr.tail ⟨hadj, decide_eq_true_iff, fun _ => hA, ?_⟩, by simp⟩
        intro k; exact absurd ⟨rfl, hi⟩ k
      · have hdZ : d ∉ Z := fun k => hA ⟨d, k, .refl⟩
        obtain ⟨-, c, hc, hdc⟩ := Finset.mem_filter.1 hd
        rcases Finset.mem_union.1 hc with hc | hc
        · rcases Finset.mem_union.1 hc with hc | hc
          · refine ⟨c, hc, ?_⟩
            refine out c hdZ ?_
            rcases reflTransGen_iff_eq_or_transGen.1 hdc with e | k
            · rw [e]
            · exact go_up h k hA
          · exfalso
            rcases reflTransGen_iff_eq_or_transGen.1 hdc with e | k
            · exact hmv x hx (d, true) (by rw [← e]; exact hc) hr
            · exact hmv x hx (c, true) hc (hr.trans (go_down h k hA true))
        · exact absurd ⟨c, hc, hdc⟩ hA
    · exact ⟨x, hx, out x hdZ hr⟩
  let X' : Finset α := (T \ Z).filter fun t => ∃ x ∈ X, ∃ f, ReflTransGen (M.mg.Move ↑Z) (x, false) (t, f)
  let Y' : Finset α := (T \ Z) \ X'
  have hK0 : ∀ x' ∈ X', K x' := by
    intro x' hx'
    obtain ⟨h1, x, hx, f, hr⟩ := Finset.mem_filter.1 hx'
    refine ⟨x, hx, ?_⟩
    cases f
    · exact Or.inr ⟨(Finset.mem_sdiff.1 h1).2, hr⟩
    · exact Or.inl hr
  have hXX : X ⊆ X' := fun x hx => Finset.mem_filter.2 ⟨Finset.mem_sdiff.2 ⟨hself (by simp [hx]),
    Finset.disjoint_left.1 hXZ hx⟩, x, hx, false, .refl⟩
  have hYY : Y ⊆ Y' := by
    intro y hy
    refine Finset.mem_sdiff.2 ⟨Finset.mem_sdiff.2 ⟨hself (by simp [hy]), Finset.disjoint_left.1 hYZ hy⟩, ?_⟩
    intro k
    obtain ⟨-, x, hx, f, hr⟩ := Finset.mem_filter.1 k
    exact hmv x hx (y, f) hy hr
  have hX'T : X' ⊆ T \ Z := Finset.filter_subset _ _
  have hZT : Z ⊆ T := fun z hz => hself (by simp [hz])
  refine g.mono hXX hYY (global_of_local h hac g V (fun T hT' => pairs_of_pairwise h hac hun g V hp _ T hT' rfl) _ T
    (Finset.filter_subset _ _) rfl hT X' Y' Z ?_ Finset.disjoint_sdiff ?_ ?_ ?_)
  · rw [Finset.union_sdiff_of_subset hX'T, Finset.sdiff_union_of_subset hZT]
  · exact Finset.disjoint_left.2 fun x hx => (Finset.mem_sdiff.1 (hX'T hx)).2
  · exact Finset.disjoint_left.2 fun x hx => (Finset.mem_sdiff.1 (Finset.mem_sdiff.1 hx).1).2
  rintro x hx y hy ⟨d, e, hd, h1, h2, h3⟩
  have hKd : K d := by
    rcases h1 with rfl | h1
    · exact hK0 x hx
    · obtain ⟨x0, hx0, hr⟩ := hK0 x hx
      have hxZ : x ∉ Z := (Finset.mem_sdiff.1 (hX'T hx)).2
      have mv : ∀ f, M.mg.Move ↑Z (x, f) (d, true) := fun f =>
        ⟨Or.inl h1, ⟨fun _ => Or.inl h1, fun _ => rfl⟩, fun k => absurd k.2 (h.excl _ _ h1), fun _ => hxZ⟩
      exact ⟨x0, hx0, Or.inl (hr.elim (fun k => k.tail (mv _)) fun k => k.2.tail (mv _))⟩
  have hKe : K e ∧ e ∈ T := by
    clear h3
    induction h2 with
    | refl => exact ⟨hKd, hd⟩
    | @tail a b _ hab ih =>
      obtain ⟨x0, hx0, f, hr, hf⟩ := leave a ih.2 ih.1 b (Or.inr (h.bi_symm _ _ hab.1))
      refine ⟨⟨x0, hx0, Or.inl ?_⟩, hab.2.2⟩
      rw [hf.2 (Or.inr hab.1)] at hr
      exact hr
  obtain ⟨hy1, hy2⟩ := Finset.mem_sdiff.1 hy
  apply hy2
  rcases h3 with rfl | h3
  · obtain ⟨x0, hx0, hr⟩ := hKe.1
    refine Finset.mem_filter.2 ⟨hy1, x0, hx0, ?_⟩
    exact hr.elim (fun k => ⟨_, k⟩) fun k => ⟨_, k.2⟩
  · obtain ⟨x0, hx0, f, hr, -⟩ := leave e hKe.2 hKe.1 y (Or.inl h3)
    exact Finset.mem_filter.2 ⟨hy1, x0, hx0, f, hr⟩

end Spec.Mixed
