import Verif.Proof.EquivIff
import Verif.Spec.MarkChange

/-! # Changing `i → j` into `i ↔ j` and back (Zhang and Spirtes 2005) -/

namespace Spec.Mixed

universe u
variable {α : Type u} {M N X : Mixed α} {i j : α}
open Relation

/-- `N` is `M` with `i → j` replaced by `i ↔ j`; there are no undirected edges. -/
structure Flip (M N : Mixed α) (i j : α) : Prop where
  ne : i ≠ j
  dir_iff : ∀ u v, M.dir u v ↔ N.dir u v ∨ (u = i ∧ v = j)
  bi_iff : ∀ u v, N.bi u v ↔ M.bi u v ∨ (u = i ∧ v = j) ∨ (u = j ∧ v = i)
  un_M : ∀ u v, ¬ M.un u v
  un_N : ∀ u v, ¬ N.un u v
  dir_N : ¬ N.dir i j
  bi_M : ¬ M.bi i j
  bi_M' : ¬ M.bi j i

/-- The conditions checked with `strict=False`. -/
structure Loose (X : Mixed α) (i j : α) : Prop where
  par : ∀ c, X.dir c i → X.dir c j
  sp : ∀ d, d ≠ j → X.bi d i → X.Into d j
  path : ∀ c, X.dir i c → c ≠ j → ¬ Path X.dir c j

/-- The conditions checked with `strict=True`. -/
structure Legit (X : Mixed α) (i j : α) : Prop extends X.Loose i j where
  disc : ∀ x qs, ¬ X.Discriminating x qs i j

namespace Flip

theorem mono (f : Flip M N i j) {u v : α} (h : N.dir u v) : M.dir u v := (f.dir_iff u v).2 (Or.inl h)

theorem bmono (f : Flip M N i j) {u v : α} (h : M.bi u v) : N.bi u v := (f.bi_iff u v).2 (Or.inl h)

theorem dir (f : Flip M N i j) : M.dir i j := (f.dir_iff i j).2 (Or.inr ⟨rfl, rfl⟩)

theorem bi (f : Flip M N i j) : N.bi i j := (f.bi_iff i j).2 (Or.inr (Or.inl ⟨rfl, rfl⟩))

theorem bi' (f : Flip M N i j) : N.bi j i := (f.bi_iff j i).2 (Or.inr (Or.inr ⟨rfl, rfl⟩))

theorem into (f : Flip M N i j) {u v : α} (h : M.Into u v) : N.Into u v := by
  rcases h with h | h
  · rcases (f.dir_iff u v).1 h with h | ⟨rfl, rfl⟩
    · exact Or.inl h
    · exact Or.inr f.bi
  · exact Or.inr (f.bmono h)

theorem of_into (f : Flip M N i j) {u v : α} (h : N.Into u v) : M.Into u v ∨ (u = j ∧ v = i) := by
  rcases h with h | h
  · exact Or.inl (Or.inl (f.mono h))
  · rcases (f.bi_iff u v).1 h with h | ⟨rfl, rfl⟩ | h
    · exact Or.inl (Or.inr h)
    · exact Or.inl (Or.inl f.dir)
    · exact Or.inr h

theorem adj (f : Flip M N i j) (u v : α) : M.Adj u v ↔ N.Adj u v := by
  unfold Adj
  rw [f.dir_iff, f.dir_iff, f.bi_iff]
  have := f.un_M u v
  have := f.un_N u v
  tauto

theorem path_mono (f : Flip M N i j) {u v : α} (h : Path N.dir u v) : Path M.dir u v :=
  TransGen.mono (fun _ _ k => f.mono k) _ _ h

theorem path0_mono (f : Flip M N i j) {u v : α} (h : Path0 N.dir u v) : Path0 M.dir u v :=
  ReflTransGen.mono (fun _ _ k => f.mono k) _ _ h

/-- A directed path of `M` that is none of `N` uses `i → j`. -/
theorem path_cases (f : Flip M N i j) {u v : α} (h : Path M.dir u v) :
    Path N.dir u v ∨ (Path0 N.dir u i ∧ Path0 N.dir j v) := by
  induction h with
  | single h =>
    rcases (f.dir_iff _ _).1 h with h | ⟨rfl, rfl⟩
    · exact Or.inl (.single h)
    · exact Or.inr ⟨.refl, .refl⟩
  | tail _ h ih =>
    rcases (f.dir_iff _ _).1 h with h | ⟨rfl, rfl⟩
    · rcases ih with k | ⟨k1, k2⟩
      · exact Or.inl (.tail k h)
      · exact Or.inr ⟨k1, .tail k2 h⟩
    · rcases ih with k | ⟨k1, k2⟩
      · exact Or.inr ⟨k.to_reflTransGen, .refl⟩
      · exact Or.inr ⟨k1, .refl⟩

theorem discriminating (f : Flip M N i j) {x : α} {qs : List α} :
    M.Discriminating x qs i j ↔ N.Discriminating x qs i j := by
  have key : ∀ {x : α} {qs : List α}, (x :: (qs ++ [i, j])).Nodup → ∀ u v w, [u, v, w] <:+: x :: (qs ++ [i]) →
      u ≠ j ∧ v ≠ j ∧ w ≠ j := by
    intro x qs hn u v w h
    have hj : j ∉ x :: (qs ++ [i]) := by
      rw [show x :: (qs ++ [i, j]) = (x :: (qs ++ [i])) ++ [j] by simp, List.nodup_append] at hn
      exact fun k => hn.2.2 j k j (by simp) rfl
    have hs := h.subset
    refine ⟨?_, ?_, ?_⟩ <;> rintro rfl <;> exact hj (hs (by simp))
  have key' : ∀ {x : α} {qs : List α}, (x :: (qs ++ [i, j])).Nodup → ∀ q ∈ qs, q ≠ i := by
    rintro x qs hn q hq rfl
    rw [show x :: (qs ++ [q, j]) = (x :: qs) ++ [q, j] by simp, List.nodup_append] at hn
    exact hn.2.2 q (by simp [hq]) q (by simp) rfl
  constructor
  · intro h
    refine ⟨h.nonempty, h.nodup, fun k => h.start ((f.adj _ _).2 k), ?_, ?_, (f.adj _ _).1 h.last⟩
    · intro q hq
      rcases (f.dir_iff _ _).1 (h.parent q hq) with k | ⟨k, -⟩
      · exact k
      · exact absurd k (key' h.nodup q hq)
    · intro u v w hi
      exact ⟨f.into (h.collider u v w hi).1, f.into (h.collider u v w hi).2⟩
  · intro h
    refine ⟨h.nonempty, h.nodup, fun k => h.start ((f.adj _ _).1 k), fun q hq => f.mono (h.parent q hq), ?_, (f.adj _ _).2 h.last⟩
    intro u v w hi
    obtain ⟨k1, k2, k3⟩ := key h.nodup u v w hi
    exact ⟨(f.of_into (h.collider u v w hi).1).resolve_right fun k => k1 k.1,
      (f.of_into (h.collider u v w hi).2).resolve_right fun k => k3 k.1⟩

theorem loose_iff (f : Flip M N i j) (hac : ∀ v, ¬ Path N.dir v v) : M.Loose i j ↔ N.Loose i j := by
  constructor
  · intro h
    refine ⟨fun c hc => ?_, fun d hd hb => ?_, fun c hc hcj hp => h.path c (f.mono hc) hcj (f.path_mono hp)⟩
    · rcases (f.dir_iff _ _).1 (h.par c (f.mono hc)) with k | ⟨rfl, -⟩
      · exact k
      · exact absurd (.single hc) (hac _)
    · rcases (f.bi_iff _ _).1 hb with hb | ⟨-, h2⟩ | ⟨h1, -⟩
      · exact f.into (h.sp d hd hb)
      · exact absurd h2 f.ne
      · exact absurd h1 hd
  · intro h
    refine ⟨fun c hc => ?_, fun d hd hb => ?_, fun c hc hcj hp => ?_⟩
    · rcases (f.dir_iff _ _).1 hc with hc | ⟨-, h2⟩
      · exact f.mono (h.par c hc)
      · exact absurd h2 f.ne
    · refine (f.of_into (h.sp d hd (f.bmono hb))).resolve_right fun k => hd k.1
    · have hc' := ((f.dir_iff _ _).1 hc).resolve_right fun k => hcj k.2
      rcases f.path_cases hp with hp | ⟨h1, -⟩
      · exact h.path c hc' hcj hp
      · exact hac i (TransGen.head' hc' h1)

theorem legit_iff (f : Flip M N i j) (hac : ∀ v, ¬ Path N.dir v v) : M.Legit i j ↔ N.Legit i j :=
  ⟨fun h => ⟨(f.loose_iff hac).1 h.toLoose, fun x qs k => h.disc x qs (f.discriminating.2 k)⟩,
    fun h => ⟨(f.loose_iff hac).2 h.toLoose, fun x qs k => h.disc x qs (f.discriminating.1 k)⟩⟩

/-! ## Ancestral graphs -/

theorem anc_N (f : Flip M N i j) (hM : M.Anc) (hl : M.Loose i j) : N.Anc where
  bi_symm u v h := by
    rw [f.bi_iff] at h ⊢
    rcases h with h | ⟨h1, h2⟩ | ⟨h1, h2⟩
    · exact Or.inl (hM.bi_symm _ _ h)
    · exact Or.inr (Or.inr ⟨h2, h1⟩)
    · exact Or.inr (Or.inl ⟨h2, h1⟩)
  un_symm u v h := absurd h (f.un_N u v)
  loop v h := hM.loop v ((f.adj _ _).2 h)
  anc := by
    refine ⟨fun v h => hM.anc.acyclic v (f.path_mono h), fun u v hb h => ?_, fun u v w h => absurd h (f.un_N u v)⟩
    rcases (f.bi_iff u v).1 hb with hb | ⟨rfl, rfl⟩ | ⟨rfl, rfl⟩
    · exact hM.anc.almost _ _ hb (f.path_mono h)
    · obtain ⟨c, h1, h2⟩ := TransGen.head'_iff.1 h
      have hcj : c ≠ v := by rintro rfl; exact f.dir_N h1
      rcases reflTransGen_iff_eq_or_transGen.1 h2 with e | h2
      · exact hcj e.symm
      · exact hl.path c (f.mono h1) hcj (f.path_mono h2)
    · exact hM.anc.acyclic u (.tail (f.path_mono h) f.dir)

/-- A directed path of `M` is one of `N` unless it starts with `i → j`. -/
theorem path_from (f : Flip M N i j) (hl : N.Loose i j) {u v : α} (h : Path M.dir u v) :
    Path N.dir u v ∨ (u = i ∧ Path0 N.dir j v) := by
  rcases f.path_cases h with h | ⟨h1, h2⟩
  · exact Or.inl h
  · rcases reflTransGen_iff_eq_or_transGen.1 h1 with h1 | h1
    · exact Or.inr ⟨h1.symm, h2⟩
    · obtain ⟨c, k1, k2⟩ := TransGen.tail'_iff.1 h1
      exact Or.inl (TransGen.trans_left (TransGen.tail' k1 (hl.par c k2)) h2)

theorem anc_M (f : Flip M N i j) (hN : N.Anc) (hl : N.Loose i j) : M.Anc where
  bi_symm u v h := by
    rcases (f.bi_iff v u).1 (hN.bi_symm _ _ (f.bmono h)) with k | ⟨rfl, rfl⟩ | ⟨rfl, rfl⟩
    · exact k
    · exact absurd h f.bi_M'
    · exact absurd h f.bi_M
  un_symm u v h := absurd h (f.un_M u v)
  loop v h := hN.loop v ((f.adj _ _).1 h)
  anc := by
    refine ⟨fun v h => ?_, fun u v hb h => ?_, fun u v w h => absurd h (f.un_M u v)⟩
    · rcases f.path_from hl h with h | ⟨rfl, h⟩
      · exact hN.anc.acyclic v h
      · rcases reflTransGen_iff_eq_or_transGen.1 h with e | h
        · exact f.ne e
        · exact hN.anc.almost _ _ f.bi' h
    · rcases f.path_from hl h with h | ⟨rfl, h⟩
      · exact hN.anc.almost _ _ (f.bmono hb) h
      · have hvj : v ≠ j := by rintro rfl; exact f.bi_M hb
        have hp : Path N.dir j v := (reflTransGen_iff_eq_or_transGen.1 h).resolve_left hvj
        rcases hl.sp v hvj (hN.bi_symm _ _ (f.bmono hb)) with k | k
        · exact hN.anc.acyclic j (.tail hp k)
        · exact hN.anc.almost _ _ (hN.bi_symm _ _ k) hp

/-! ## Same separations -/

theorem sameColliders (f : Flip M N i j) (hM : M.Anc) (hl : M.Loose i j) : M.SameColliders N := by
  refine ⟨f.adj, fun u v w => ⟨fun h => ⟨h.1, ⟨f.into h.2.1.1, f.into h.2.1.2⟩, fun k => h.2.2 ((f.adj _ _).2 k)⟩, fun h => ?_⟩⟩
  have hna : ¬ M.Adj u w := fun k => h.2.2 ((f.adj _ _).1 k)
  have aux : ∀ t, t ≠ j → M.Into t i → M.Adj t j := by
    rintro t ht (k | k)
    · exact Or.inl (hl.par t k)
    · exact hM.proper.ok.into_adj _ _ (hl.sp t ht k)
  refine ⟨h.1, ?_, hna⟩
  rcases f.of_into h.2.1.1 with k1 | ⟨rfl, rfl⟩
  · rcases f.of_into h.2.1.2 with k2 | ⟨rfl, rfl⟩
    · exact ⟨k1, k2⟩
    · exact absurd (aux u h.1 k1) hna
  · rcases f.of_into h.2.1.2 with k2 | ⟨rfl, -⟩
    · exact absurd (hM.symm (aux w h.1.symm k2)) hna
    · exact absurd rfl h.1

theorem sameMarks (f : Flip M N i j) (hM : M.Anc) (hN : N.Anc) (hl : M.Legit i j) : M.SameMarks N := by
  obtain ⟨e1, e2⟩ := f.sameColliders hM hl.toLoose
  refine ⟨e1, e2, ?_⟩
  · intro x qs q b c h1 h2
    refine ⟨fun k => ⟨f.into k.1, f.into k.2⟩, fun k => ?_⟩
    have hqc := h1.parent q (by simp)
    rcases f.of_into k.1 with k1 | ⟨rfl, rfl⟩
    · rcases f.of_into k.2 with k2 | ⟨rfl, rfl⟩
      · exact ⟨k1, k2⟩
      · exact absurd h1 (hl.disc _ _)
    · exfalso
      have hic := hM.dir_trans f.dir hqc h1.last
      rcases (f.dir_iff _ _).1 hic with k3 | ⟨-, rfl⟩
      · exact hN.proper.excl _ _ k3 k.2
      · exact hM.irrefl _ hqc

/-- The conditions are necessary. -/
theorem loose (f : Flip M N i j) (hM : M.Anc) (hN : N.Anc) (hs : M.SameColliders N) : M.Loose i j := by
  have hij : ¬ M.Into j i := hM.proper.excl _ _ f.dir
  have uns : ∀ t, t ≠ j → M.Into t i → M.Adj t j := by
    intro t ht k
    by_contra hna
    exact hij ((hs.2 t i j).2 ⟨ht, ⟨f.into k, Or.inr f.bi'⟩, fun k => hna ((hs.1 _ _).2 k)⟩).2.1.2
  have hpath : ∀ c, M.dir i c → c ≠ j → ¬ Path M.dir c j := by
    intro c hc hcj hp
    have hc' := ((f.dir_iff _ _).1 hc).resolve_right fun k => hcj k.2
    rcases f.path_cases hp with hp | ⟨h1, -⟩
    · exact hN.anc.almost _ _ f.bi (.head hc' hp)
    · exact hN.anc.acyclic i (TransGen.head' hc' h1)
  refine ⟨fun c hc => ?_, fun d hd hb => ?_, hpath⟩
  · have hcj : c ≠ j := by rintro rfl; exact hij (Or.inl hc)
    exact hM.dir_trans hc f.dir (uns c hcj (Or.inl hc))
  · exact hM.into_trans (Or.inr hb) f.dir (uns d hd (Or.inr hb))

theorem legit (f : Flip M N i j) (hM : M.Anc) (hN : N.Anc) (hs : M.SameMarks N) : M.Legit i j := by
  have hl := f.loose hM hN ⟨hs.adj, hs.vstruct⟩
  have hij : ¬ M.Into j i := hM.proper.excl _ _ f.dir
  refine ⟨hl, fun x qs h => ?_⟩
  · obtain ⟨t, q, rfl⟩ : ∃ t q, qs = t ++ [q] := by
      rcases List.eq_nil_or_concat qs with e | ⟨t, q, e⟩
      · exact absurd e h.nonempty
      · exact ⟨t, q, by simpa using e⟩
    have hqi : M.Into i q := by
      obtain ⟨u, hu⟩ : ∃ u, [u, q, i] <:+: x :: (t ++ [q] ++ [i]) := by
        rcases List.eq_nil_or_concat t with rfl | ⟨s, u, rfl⟩
        · exact ⟨x, [], [], by simp⟩
        · exact ⟨u, x :: s, [], by simp⟩
      exact (h.collider _ _ _ hu).2
    have hqj := h.parent q (by simp)
    have hq : M.bi i q := by
      rcases hqi with k | k
      · have : q ≠ j := by rintro rfl; exact hM.irrefl _ hqj
        exact absurd (.single hqj) (hl.path q k this)
      · exact k
    exact hij ((hs.disc _ _ _ _ _ h (f.discriminating.1 h)).2
      ⟨f.into (Or.inr (hM.bi_symm _ _ hq)), Or.inr f.bi'⟩).2

end Flip

end Spec.Mixed
