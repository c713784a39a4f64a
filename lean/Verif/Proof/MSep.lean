import Verif.Proof.DSep
import Verif.Proof.AG

/-! # Correctness of `msep` and `msep_from_given` -/

namespace Spec.Mixed

universe u
variable {α : Type u}
open Relation

/-- A mixed graph as an abstract graph for walks. -/
def mg (M : Mixed α) : MG α := ⟨M.Adj, M.Into, M.dir⟩

theorem mg_ok {M : Mixed α} (hb : ∀ u v, M.bi u v → M.bi v u) (hu : ∀ u v, M.un u v → M.un v u)
    (ht : ∀ u v w, M.un u v → ¬ M.Into w u) : M.mg.Ok where
  symm := fun u v h => by
    rcases h with h | h | h | h
    · exact .inr (.inl h)
    · exact .inl h
    · exact .inr (.inr (.inl (hb _ _ h)))
    · exact .inr (.inr (.inr (hu _ _ h)))
  into_adj := fun u v h => by
    rcases h with h | h
    · exact .inl h
    · exact .inr (.inr (.inl h))
  dir_into := fun _ _ h => .inl h
  head := fun u v w h1 h2 => by
    rcases h2 with h | h | h | h
    · exact .inr h
    · exact .inl (.inl h)
    · exact .inl (.inr (hb _ _ h))
    · exact absurd h1 (ht v w u h)

theorem mpath_iff {M : Mixed α} {C : Set α} {a b : α} {l : List α} :
    M.MPath C a b l ↔ M.mg.Walk C a b l ∧ l.Nodup :=
  ⟨fun h => ⟨⟨h.head, h.last, h.adj, h.opn⟩, h.nodup⟩, fun h => ⟨h.1.head, h.1.last, h.2, h.1.adj, h.1.opn⟩⟩

theorem msep_iff {M : Mixed α} (hM : M.mg.Ok) {A B C : Set α} :
    M.MSep A B C ↔ ∀ a ∈ A, ∀ b ∈ B, ¬ ∃ l, M.mg.Walk C a b l := by
  constructor
  · rintro h a ha b hb ⟨l, hl⟩
    obtain ⟨l', h1, h2, -⟩ := hl.exists_path hM _ l le_rfl
    exact h a ha b hb l' (mpath_iff.2 ⟨h1, h2⟩)
  · intro h a ha b hb l hl
    exact h a ha b hb ⟨l, (mpath_iff.1 hl).1⟩

end Spec.Mixed

namespace Spec.MG

universe u
variable {α : Type u} {M : MG α} {C : Set α}
open Relation

/-- Legal pairs of consecutive links. -/
def LinkLegal (M : MG α) (C : Set α) (s t : Option α × α) : Prop :=
  t.1 = some s.2 ∧ M.adj s.2 t.2 ∧ s.1 ≠ some t.2 ∧
    (((∃ u, s.1 = some u ∧ M.into u s.2) ∧ M.into t.2 s.2 → M.An C s.2) ∧
     (¬ ((∃ u, s.1 = some u ∧ M.into u s.2) ∧ M.into t.2 s.2) → s.2 ∉ C))

theorem walk_of_linkLegal {M : MG α} {C : Set α} {a : α} {s : Option α × α}
    (h : ReflTransGen (LinkLegal M C) (none, a) s) :
    ∃ l, M.Walk C a s.2 l ∧ ((l = [a] ∧ s.1 = none) ∨ ∃ p y, l = p ++ [y, s.2] ∧ s.1 = some y) := by
  induction h with
  | refl =>
    refine ⟨[a], ⟨rfl, rfl, ?_, ?_⟩, Or.inl ⟨rfl, rfl⟩⟩
    · intro u v h; have := h.length_le; simp at this
    · intro u v w h; have := h.length_le; simp at this
  | tail _ hst ih =>
    rename_i s t _
    obtain ⟨l, hw, hl⟩ := ih
    obtain ⟨h1, h2, h3, h4⟩ := hst
    obtain ⟨p, rfl⟩ : ∃ p, l = p ++ [s.2] := by
      have := hw.last
      rwa [List.getLast?_eq_some_iff] at this
    refine ⟨p ++ [s.2, t.2], ⟨?_, by simp, ?_, ?_⟩, Or.inr ⟨p, s.2, rfl, h1⟩⟩
    · have := hw.head; cases p <;> simpa using this
    · intro x y hxy
      rcases _root_.MG.infix2_append (r := [t.2]) hxy with h | h
      · exact hw.adj x y h
      · have := List.IsInfix.eq_of_length h (by simp)
        simp at this; obtain ⟨rfl, rfl⟩ := this; exact h2
    · intro x y z hxyz
      rcases _root_.MG.infix3_append (r := [t.2]) hxyz with h | h | ⟨rfl, g2, g3⟩
      · exact hw.opn x y z h
      · have := h.length_le; simp at this
      · obtain ⟨p', rfl⟩ := g2
        simp at g3; subst g3
        rcases hl with ⟨hl, _⟩ | ⟨p2, y2, hp2, hs⟩
        · have := congrArg List.length hl; simp at this
        · have : p' ++ [x, s.2] = p2 ++ [y2, s.2] := by simpa using hp2
          obtain ⟨_, h5⟩ := List.append_inj' this rfl
          simp at h5; subst h5
          simpa [hs, MG.Open] using h4

theorem linkLegal_of_path {M : MG α} {C : Set α} {a : α} (ha : a ∉ C) :
    ∀ (l : List α) (b : α), M.Walk C a b l → l.Nodup →
    ∃ s : Option α × α, s.2 = b ∧ ReflTransGen (LinkLegal M C) (none, a) s ∧
      ((l = [a] ∧ s.1 = none) ∨ ∃ p y, l = p ++ [y, b] ∧ s.1 = some y) := by
  intro l
  induction l using List.reverseRecOn with
  | nil => intro b h; have := h.head; simp at this
  | append_singleton l x ih =>
    intro b h hn
    have hb : x = b := by have := h.last; simpa using this
    subst hb
    rcases List.eq_nil_or_concat l with rfl | ⟨p, y, rfl⟩
    · have := h.head; simp at this; subst this
      exact ⟨(none, x), rfl, .refl, Or.inl ⟨rfl, rfl⟩⟩
    · have hw : M.Walk C a y (p ++ [y]) := h.mono_infix ⟨[], [x], by simp⟩
        (by have := h.head; cases p <;> simpa using this) (by simp)
      obtain ⟨s, rfl, hr, hd⟩ := ih y (by simpa using hw) (List.Nodup.of_append_left hn)
      refine ⟨(some s.2, x), rfl, hr.tail ⟨rfl, h.adj s.2 x ⟨p, [], by simp⟩, ?_, ?_⟩,
        Or.inr ⟨p, s.2, by simp, rfl⟩⟩
      · rcases hd with ⟨_, h1⟩ | ⟨p', z, h1, h2⟩
        · simp [h1]
        · rw [h2]
          have h1 : p ++ [s.2] = (p' ++ [z]) ++ [s.2] := by simpa using h1
          obtain ⟨rfl, _⟩ := List.append_inj' h1 rfl
          intro hzx
          simp at hzx; subst hzx
          simp [List.nodup_append] at hn
      · rcases hd with ⟨h1, h2⟩ | ⟨p', z, h1, h2⟩
        · have : s.2 = a := by
            cases p with
            | nil => simpa using h1
            | cons q p => simp at h1
          rw [h2]
          refine ⟨by simp, fun _ => by rw [this]; exact ha⟩
        · have h1 : p ++ [s.2] = (p' ++ [z]) ++ [s.2] := by simpa using h1
          obtain ⟨rfl, _⟩ := List.append_inj' h1 rfl
          have := h.opn z s.2 x ⟨p', [], by simp⟩
          simpa [h2, MG.Open] using this


theorem walk_refl (a : α) : M.Walk C a a [a] :=
  ⟨rfl, rfl, fun _ _ h => by have := h.length_le; simp at this, fun _ _ _ h => by have := h.length_le; simp at this⟩

end Spec.MG

namespace Model.AG

set_option linter.unusedSectionVars false
set_option linter.unusedVariables false
universe u
variable {α : Type u} [DecidableEq α] {G : AG α}
open Relation Spec Spec.MG

theorem Good.mg_ok (hG : G.Good) : G.mixed.mg.Ok := by
  refine Mixed.mg_ok ?_ ?_ ?_
  · intro u v h; change _ ∈ _; rw [Finset.pair_comm]; exact h
  · intro u v h; change _ ∈ _; rw [Finset.pair_comm]; exact h
  · intro u v w h hi
    rcases hi with hi | hi
    · exact (hG.2.tails u v w h).1 hi
    · exact (hG.2.tails u v w h).2 hi

theorem parents_sub (hG : G.Good) (v : α) : G.parents v ⊆ G.nodes := fun x hx =>
  (hG.1.dir_mem _ _ ((hG.1.parents_iff _ _).1 hx)).1

theorem parents_rel (hG : G.Good) : (fun a b => b ∈ G.parents a) = fun a b => (b, a) ∈ G.directed := by
  funext a b; rw [hG.1.parents_iff]

theorem shade_spec (hG : G.Good) (o : SepOracle α) (C : Finset α) :
    ∃ s, shade G o C = some s ∧ ∀ x, x ∈ s ↔ G.mixed.mg.An (C : Set α) x := by
  obtain ⟨s, hs, h1, h2, h3⟩ := foldlM_option (f := fun acc c => addUpstream G o.anc acc c)
    (fun pre s => C ⊆ s ∧ (∀ x ∈ s, G.mixed.mg.An (C : Set α) x) ∧
      (∀ x ∈ s, (x ∈ C → x ∈ pre) → G.parents x ⊆ s)) (o.cs.ord () C) C
    ⟨le_rfl, fun x hx => ⟨x, hx, .refl⟩, fun x hx h => absurd (h hx) (by simp)⟩ (by
      rintro pre x post s hl ⟨h1, h2, h3⟩
      have hx : x ∈ C := by rw [← o.cs.mem_iff (), hl]; simp
      obtain ⟨s', hs', g1, g2, g3, g4⟩ := collect_spec G.parents o.anc (addUpstream G o.anc)
        (fun acc node => by rw [addUpstream]) (insert x G.nodes)
        (fun y _ => (parents_sub hG y).trans (Finset.subset_insert _ _)) _ s x le_rfl
        (Finset.mem_insert_self _ _)
      refine ⟨s', hs', h1.trans g1, ?_, ?_⟩
      · intro y hy
        rcases g2 y hy with hy | hy
        · exact h2 y hy
        · rw [parents_rel hG, transGen_swap] at hy
          exact ⟨x, hx, hy.to_reflTransGen⟩
      · intro y hy hyC
        by_cases hys : y ∈ s
        · by_cases hyx : y = x
          · subst hyx; exact g3
          · refine (h3 y hys fun hC => ?_).trans g1
            have := hyC hC
            simpa [hyx] using this
        · exact g4 y hy hys)
  refine ⟨s, hs, fun x => ⟨h2 x, ?_⟩⟩
  rintro ⟨c, hc, hxc⟩
  induction hxc using ReflTransGen.head_induction_on with
  | refl => exact h1 hc
  | head hab _ ih =>
    exact h3 _ ih (fun h => (o.cs.mem_iff _ _ _).2 h) ((hG.1.parents_iff _ _).2 hab)

theorem ancestorsPlus_spec (hG : G.Good) (o : SepOracle α) (C : Finset α) :
    ∃ s, ancestorsPlus G o C = some s ∧ ∀ x, x ∈ s ↔ G.mixed.mg.An (C : Set α) x := by
  obtain ⟨s, hs, h1, h2, h3⟩ := foldlM_option (f := fun acc c => addUpstream G o.anc (insert c acc) c)
    (fun pre s => (∀ x ∈ pre, x ∈ s) ∧ (∀ x ∈ s, G.mixed.mg.An (C : Set α) x) ∧
      (∀ x ∈ s, G.parents x ⊆ s)) (o.cs.ord () C) ∅ (by simp) (by
      rintro pre x post s hl ⟨h1, h2, h3⟩
      have hx : x ∈ C := by rw [← o.cs.mem_iff (), hl]; simp
      obtain ⟨s', hs', g1, g2, g3, g4⟩ := collect_spec G.parents o.anc (addUpstream G o.anc)
        (fun acc node => by rw [addUpstream]) (insert x G.nodes)
        (fun y _ => (parents_sub hG y).trans (Finset.subset_insert _ _)) _ (insert x s) x le_rfl
        (Finset.mem_insert_self _ _)
      refine ⟨s', hs', ?_, ?_, ?_⟩
      · intro y hy
        rcases List.mem_append.1 hy with hy | hy
        · exact g1 (Finset.mem_insert_of_mem (h1 y hy))
        · simp at hy; subst hy; exact g1 (Finset.mem_insert_self _ _)
      · intro y hy
        rcases g2 y hy with hy | hy
        · rcases Finset.mem_insert.1 hy with rfl | hy
          · exact ⟨y, hx, .refl⟩
          · exact h2 y hy
        · rw [parents_rel hG, transGen_swap] at hy
          exact ⟨x, hx, hy.to_reflTransGen⟩
      · intro y hy
        by_cases hyx : y = x
        · subst hyx; exact g3
        by_cases hys : y ∈ s
        · exact (h3 y hys).trans ((Finset.subset_insert _ _).trans g1)
        · exact g4 y hy (by simp [hyx, hys]))
  refine ⟨s, hs, fun x => ⟨h2 x, ?_⟩⟩
  rintro ⟨c, hc, hxc⟩
  induction hxc using ReflTransGen.head_induction_on with
  | refl => exact h1 c ((o.cs.mem_iff _ _ _).2 hc)
  | head hab _ ih => exact h3 _ ih ((hG.1.parents_iff _ _).2 hab)

theorem ballSucc_iff (hG : G.Good) {C shaded : Finset α} (hs : ∀ x, x ∈ shaded ↔ G.mixed.mg.An (C : Set α) x)
    (s t : α × Bool) (hd : s.2 = true → ∃ u, G.mixed.Into u s.1) :
    t ∈ ballSucc G C shaded s ↔ G.mixed.mg.Move (C : Set α) s t := by
  obtain ⟨v, d⟩ := s
  obtain ⟨w, e⟩ := t
  have hp : w ∈ G.parents v ↔ (w, v) ∈ G.directed := hG.1.parents_iff w v
  have hch : w ∈ G.children v ↔ (v, w) ∈ G.directed := hG.1.children_iff v w
  have hsp : w ∈ G.spouses v ↔ {w, v} ∈ G.bidirected := hG.1.spouses_iff w v
  have hnb : w ∈ G.neighbors v ↔ {w, v} ∈ G.undirected := hG.1.neighbors_iff w v
  have hAn := hs v
  have x1 := hG.2.dir_dir v w
  have x2 := hG.2.dir_bi v w
  have x3 := hG.2.dir_un v w
  have x4 := hG.2.dir_bi w v
  have x5 := hG.2.dir_un w v
  have x6 := hG.2.bi_un {w, v}
  rw [Finset.pair_comm] at x2 x3
  have hadj : G.mixed.mg.adj v w ↔ (v, w) ∈ G.directed ∨ (w, v) ∈ G.directed ∨ {w, v} ∈ G.bidirected ∨ {w, v} ∈ G.undirected := by
    change (_ ∨ _ ∨ _ ∨ _) ↔ _
    unfold mixed
    dsimp only
    rw [Finset.pair_comm v w]
  have hi1 : G.mixed.mg.into v w ↔ (v, w) ∈ G.directed ∨ {w, v} ∈ G.bidirected := by
    change (_ ∨ _) ↔ _
    unfold mixed
    dsimp only
    rw [Finset.pair_comm v w]
  have hi2 : G.mixed.mg.into w v ↔ (w, v) ∈ G.directed ∨ {w, v} ∈ G.bidirected := Iff.rfl
  have hun : d = true → {w, v} ∉ G.undirected := by
    intro hd' hm
    obtain ⟨u, hu⟩ := hd hd'
    rw [Finset.pair_comm] at hm
    rcases hu with hu | hu
    · exact (hG.2.tails v w u hm).1 hu
    · exact (hG.2.tails v w u hm).2 hu
  have himg : ∀ (S : Finset α) (b : Bool), (w, e) ∈ S.image (·, b) ↔ w ∈ S ∧ e = b := by
    intro S b; simp [eq_comm]
  unfold ballSucc MG.Move
  dsimp only
  rw [hadj, hi1, hi2, ← hAn]
  clear hadj hi1 hi2 hs hAn hd
  simp only [Finset.mem_coe]
  generalize ((v, w) ∈ G.directed) = a at *
  generalize ((w, v) ∈ G.directed) = b at *
  generalize (({w, v} : Finset α) ∈ G.bidirected) = c at *
  generalize (({w, v} : Finset α) ∈ G.undirected) = n at *
  have ex : (a ∧ ¬ b ∧ ¬ c ∧ ¬ n) ∨ (¬ a ∧ b ∧ ¬ c ∧ ¬ n) ∨ (¬ a ∧ ¬ b ∧ c ∧ ¬ n) ∨ (¬ a ∧ ¬ b ∧ ¬ c) := by
    clear himg hp hch hsp hnb hun
    tauto
  clear x1 x2 x3 x4 x5 x6
  by_cases h1 : v ∈ C <;> by_cases h2 : v ∈ shaded <;> cases d <;> cases e <;>
    simp only [h1, h2, if_false, not_true_eq_false, not_false_eq_true, Finset.mem_union, himg, hp, hch, hsp, hnb,
      Finset.notMem_empty, Bool.true_eq_false, reduceCtorEq, if_pos, true_implies] at hun ⊢ <;>
    rcases ex with ⟨e1, e2, e3, e4⟩ | ⟨e1, e2, e3, e4⟩ | ⟨e1, e2, e3, e4⟩ | ⟨e1, e2, e3⟩ <;>
    simp_all

theorem ballSucc_sub (hG : G.Good) {C shaded : Finset α} (V : Finset α) (hV : G.nodes ⊆ V)
    (s : α × Bool) : ballSucc G C shaded s ⊆ V ×ˢ Finset.univ := by
  intro t ht
  have h1 := parents_sub hG s.1
  have h2 : ∀ {a}, a ∈ G.children s.1 → a ∈ G.nodes := fun ha => (hG.1.dir_mem _ _ ((hG.1.children_iff _ _).1 ha)).2
  have h3 : ∀ {a}, a ∈ G.spouses s.1 → a ∈ G.nodes := fun ha => hG.1.bi_mem _ ((hG.1.spouses_iff _ _).1 ha) (by simp)
  have h4 : ∀ {a}, a ∈ G.neighbors s.1 → a ∈ G.nodes := fun ha => hG.1.un_mem _ ((hG.1.neighbors_iff _ _).1 ha) (by simp)
  simp only [Finset.mem_product, Finset.mem_univ, and_true]
  apply hV
  have : t.1 ∈ G.parents s.1 ∪ G.children s.1 ∪ G.spouses s.1 ∪ G.neighbors s.1 := by
    unfold ballSucc at ht
    simp only [Finset.mem_union]
    split_ifs at ht <;> simp only [Finset.mem_union, Finset.mem_image, Finset.notMem_empty, or_false, false_or] at ht
    all_goals
      first
      | (rcases ht with ((⟨a, ha, rfl⟩ | ⟨a, ha, rfl⟩) | ⟨a, ha, rfl⟩) | ⟨a, ha, rfl⟩ <;> simp [ha])
      | (rcases ht with (⟨a, ha, rfl⟩ | ⟨a, ha, rfl⟩) | ⟨a, ha, rfl⟩ | ⟨a, ha, rfl⟩ <;> simp [ha])
      | (rcases ht with ⟨a, ha, rfl⟩ | ⟨a, ha, rfl⟩ <;> simp [ha])
  simp only [Finset.mem_union] at this
  rcases this with ((h | h) | h) | h
  · exact h1 h
  · exact h2 h
  · exact h3 h
  · exact h4 h

/-- Exact characterisation of `msep`, for arbitrary sets. -/
theorem msep_spec (hG : G.Good) (o : SepOracle α) (A B C : Finset α) :
    ∃ r, msep G o A B C = some r ∧
      (r = false ↔ ∃ a ∈ A, ∃ b ∈ B, a = b ∨ (a ∉ C ∧ ∃ l, G.mixed.mg.Walk C a b l)) := by
  obtain ⟨sh, hsh, hsh'⟩ := shade_spec hG o C
  obtain ⟨r, hr, hr'⟩ := popLoop_decides o.pop (fun s => decide (s.1 ∈ B)) (ballSucc G C sh)
    ((G.nodes ∪ A) ×ˢ Finset.univ)
    (fun s _ => ballSucc_sub hG _ Finset.subset_union_left s) (A.image (·, false)) (by
      intro x hx; simp at hx; obtain ⟨a, ha, rfl⟩ := hx; simp [ha])
  refine ⟨r, by simp [msep, hsh, hr], ?_⟩
  rw [hr']
  have hrel : ∀ a t, ReflTransGen (fun a b => b ∈ ballSucc G C sh a) (a, false) t ↔
      ReflTransGen (G.mixed.mg.Move (C : Set α)) (a, false) t := by
    intro a t
    constructor
    · intro h
      suffices ReflTransGen (G.mixed.mg.Move (C : Set α)) (a, false) t ∧ (t.2 = true → ∃ u, G.mixed.Into u t.1) from this.1
      induction h with
      | refl => exact ⟨.refl, by simp⟩
      | tail _ hst ih =>
        have := (ballSucc_iff hG hsh' _ _ ih.2).1 hst
        exact ⟨ih.1.tail this, fun h => ⟨_, this.2.1.1 h⟩⟩
    · intro h
      suffices ReflTransGen (fun a b => b ∈ ballSucc G C sh a) (a, false) t ∧ (t.2 = true → ∃ u, G.mixed.Into u t.1) from this.1
      induction h with
      | refl => exact ⟨.refl, by simp⟩
      | tail _ hst ih =>
        have := (ballSucc_iff hG hsh' _ _ ih.2).2 hst
        exact ⟨ih.1.tail this, fun h => ⟨_, hst.2.1.1 h⟩⟩
  constructor
  · rintro ⟨s, hs, t, hst, ht⟩
    simp at hs ht
    obtain ⟨a, ha, rfl⟩ := hs
    rw [hrel] at hst
    refine ⟨a, ha, t.1, ht, ?_⟩
    obtain ⟨l, hw, hl⟩ := MG.walk_of_moves (b := t.1) (d := t.2) hst
    rcases hl with ⟨rfl, _⟩ | ⟨hc, _⟩
    · left; have := hw.last; simpa using this
    · exact Or.inr ⟨by simpa using hc, l, hw⟩
  · rintro ⟨a, ha, b, hb, rfl | ⟨hc, l, hl⟩⟩
    · exact ⟨(a, false), by simp [ha], (a, false), .refl, by simp [hb]⟩
    · obtain ⟨d, hd, -⟩ := MG.moves_of_walk (by simpa using hc) l b hl
      exact ⟨(a, false), by simp [ha], (b, d), (hrel _ _).2 hd, by simp [hb]⟩

/-- `msep` decides m-separation when `A` and `C` are disjoint. -/
theorem msep_decides (hG : G.Good) (o : SepOracle α) (A B C : Finset α) (hAC : Disjoint A C) :
    ∃ r, msep G o A B C = some r ∧ (r = true ↔ G.mixed.MSep A B C) := by
  obtain ⟨r, hr, hr'⟩ := msep_spec hG o A B C
  refine ⟨r, hr, ?_⟩
  rw [← Bool.not_eq_false, hr', Mixed.msep_iff hG.mg_ok]
  push Not
  constructor
  · intro h a ha b hb l hc
    exact (h a ha b hb).2 (Finset.disjoint_left.1 hAC ha) l hc
  · intro h a ha b hb
    exact ⟨fun hab => h a ha b hb [a] (hab ▸ walk_refl _), fun _ => h a ha b hb⟩

theorem nextLinks_iff (hG : G.Good) {C desc : Finset α}
    (hd : ∀ x, x ∈ desc ↔ G.mixed.mg.An (C : Set α) x) (I L : Finset (Option α × α)) (t : Option α × α) :
    t ∈ nextLinks G C desc I L ↔ t ∉ L ∧ ∃ s ∈ I, LinkLegal G.mixed.mg C s t := by
  have hnb : ∀ v w, w ∈ G.adjacent v ↔ G.mixed.mg.adj v w := fun v w => by
    rw [hG.1.adjacent_iff]
    change _ ↔ (_ ∨ _ ∨ _ ∨ _)
    unfold mixed
    dsimp only
    rw [Finset.pair_comm w v]
    tauto
  have hint : ∀ v w, G.mixed.mg.into w v ↔ v ∈ G.children w ∨ v ∈ G.spouses w := fun v w => by
    rw [hG.1.children_iff, hG.1.spouses_iff, Finset.pair_comm]; exact Iff.rfl
  have hcol : ∀ (s : Option α × α) (w : α), G.isCollider s.1 s.2 w ↔
      (∃ u, s.1 = some u ∧ G.mixed.mg.into u s.2) ∧ G.mixed.mg.into w s.2 := by
    rintro ⟨_ | u, v⟩ w
    · simp [isCollider]
    · simp only [isCollider, Option.some.injEq, exists_eq_left', hint]; tauto
  have key : ∀ (s : Option α × α) (w : α), (if G.isCollider s.1 s.2 w then s.2 ∈ desc else s.2 ∉ C) ↔
      (((∃ u, s.1 = some u ∧ G.mixed.mg.into u s.2) ∧ G.mixed.mg.into w s.2 → G.mixed.mg.An C s.2) ∧
     (¬ ((∃ u, s.1 = some u ∧ G.mixed.mg.into u s.2) ∧ G.mixed.mg.into w s.2) → s.2 ∉ (C : Set α))) := by
    intro s w
    rw [← hcol, hd]
    by_cases h : G.isCollider s.1 s.2 w
    · rw [if_pos h]; exact ⟨fun k => ⟨fun _ => k, fun hn => absurd h hn⟩, fun k => k.1 h⟩
    · rw [if_neg h]; exact ⟨fun k => ⟨fun h' => absurd h' h, fun _ => k⟩, fun k => k.2 h⟩
  unfold nextLinks LinkLegal
  simp only [Finset.mem_biUnion, Finset.mem_image, Finset.mem_filter, key, hnb]
  constructor
  · rintro ⟨s, hs, w, ⟨h1, h2, h3, h4⟩, rfl⟩
    exact ⟨h3, s, hs, rfl, h1, h2, h4⟩
  · rintro ⟨h3, s, hs, h0, h1, h2, h4⟩
    exact ⟨s, hs, t.2, ⟨h1, h2, by rw [← h0]; exact h3, h4⟩, by rw [← h0]⟩

theorem linkLoop_spec (hG : G.Good) {C desc : Finset α}
    (hd : ∀ x, x ∈ desc ↔ G.mixed.mg.An (C : Set α) x) (A : Finset α) :
    ∀ (n : Nat) (R : Finset α) (I L : Finset (Option α × α)),
      2 * (((insert none ((G.nodes ∪ A).image some)) ×ˢ (G.nodes ∪ A)) \ L).card +
        (if I ⊆ L then 1 else 0) ≤ n →
      (∀ s ∈ I ∪ L, s ∈ (insert none ((G.nodes ∪ A).image some)) ×ˢ (G.nodes ∪ A)) →
      (∀ s ∈ I ∪ L, ∃ a ∈ A, ReflTransGen (LinkLegal G.mixed.mg C) (none, a) s) →
      (∀ a ∈ A, (none, a) ∈ I ∪ L) →
      (∀ s ∈ L, ∀ t, LinkLegal G.mixed.mg C s t → t ∈ I ∪ L) →
      (∀ x, x ∈ R ↔ ∃ s ∈ I ∪ L, s.2 = x) →
      ∃ R', linkLoop G C desc R I L = some R' ∧
        ∀ x, x ∈ R' ↔ ∃ a ∈ A, ∃ s, ReflTransGen (LinkLegal G.mixed.mg C) (none, a) s ∧ s.2 = x := by
  set U := (insert none ((G.nodes ∪ A).image some)) ×ˢ (G.nodes ∪ A) with hU
  intro n
  induction n with
  | zero =>
    intro R I L hn hsub hreach hA hcl hR
    have h0 : ¬ I ⊆ L := fun h => by simp [h] at hn
    obtain ⟨x, hx, hxL⟩ := Finset.not_subset.1 h0
    have : x ∈ U \ L := by simp [hsub x (Finset.mem_union_left _ hx), hxL]
    have := Finset.card_pos.2 ⟨x, this⟩
    omega
  | succ n ih =>
    intro R I L hn hsub hreach hA hcl hR
    rw [linkLoop]
    have hnext := nextLinks_iff hG hd I L
    generalize nextLinks G C desc I L = N at hnext ⊢
    by_cases hN : N.card = 0
    · rw [if_pos hN]
      rw [Finset.card_eq_zero] at hN
      subst hN
      refine ⟨R, rfl, fun x => ?_⟩
      rw [hR]
      constructor
      · rintro ⟨s, hs, rfl⟩
        obtain ⟨a, ha, h⟩ := hreach s hs
        exact ⟨a, ha, s, h, rfl⟩
      · rintro ⟨a, ha, s, h, rfl⟩
        refine ⟨s, ?_, rfl⟩
        induction h with
        | refl => exact hA a ha
        | tail _ hst ih =>
          rename_i s t _
          rcases Finset.mem_union.1 ih with h1 | h1
          · by_contra hc
            have := (hnext t).2 ⟨fun h => hc (Finset.mem_union_right _ h), s, h1, hst⟩
            simp at this
          · exact hcl s h1 t hst
    · rw [if_neg hN]
      have hNU : ∀ t ∈ N, t ∈ U := by
        intro t ht
        obtain ⟨_, s, hs, h0, h1, _⟩ := (hnext t).1 ht
        have hsU := hsub s (Finset.mem_union_left _ hs)
        have ht2 : t.2 ∈ G.nodes := by
          rcases h1 with h1 | h1 | h1 | h1
          · exact (hG.1.dir_mem _ _ h1).2
          · exact (hG.1.dir_mem _ _ h1).1
          · exact hG.1.bi_mem _ h1 (by simp)
          · exact hG.1.un_mem _ h1 (by simp)
        rw [hU, Finset.mem_product] at hsU ⊢
        rw [h0]
        refine ⟨?_, Finset.mem_union_left _ ht2⟩
        simp only [Finset.mem_insert, reduceCtorEq, Finset.mem_image, Option.some.injEq,
          exists_eq_right, false_or]
        exact hsU.2
      refine ih _ N (L ∪ I) ?_ ?_ ?_ ?_ ?_ ?_
      · by_cases hIL : I ⊆ L
        · have hLI : L ∪ I = L := Finset.union_eq_left.2 hIL
          rw [hLI]
          have : ¬ N ⊆ L := by
            obtain ⟨t, ht⟩ := Finset.card_pos.1 (Nat.pos_of_ne_zero hN)
            exact fun h => ((hnext t).1 ht).1 (h ht)
          simp [this, hIL] at hn ⊢
          omega
        · obtain ⟨x, hx, hxL⟩ := Finset.not_subset.1 hIL
          have h1 : (U \ (L ∪ I)).card < (U \ L).card := by
            refine Finset.card_lt_card ⟨Finset.sdiff_subset_sdiff le_rfl Finset.subset_union_left, ?_⟩
            intro h
            have : x ∈ U \ L := by simp [hsub x (Finset.mem_union_left _ hx), hxL]
            have := h this
            simp [hx] at this
          simp only [hIL, if_false] at hn
          split_ifs <;> omega
      · intro s hs
        rcases Finset.mem_union.1 hs with hs | hs
        · exact hNU s hs
        · exact hsub s (by rwa [Finset.union_comm])
      · intro s hs
        rcases Finset.mem_union.1 hs with hs | hs
        · obtain ⟨_, r, hr, hrs⟩ := (hnext s).1 hs
          obtain ⟨a, ha, h⟩ := hreach r (Finset.mem_union_left _ hr)
          exact ⟨a, ha, h.tail hrs⟩
        · exact hreach s (by rwa [Finset.union_comm])
      · intro a ha
        have := hA a ha
        simp only [Finset.mem_union] at this ⊢
        tauto
      · intro s hs t hst
        by_cases htL : t ∈ L
        · simp [htL]
        rcases Finset.mem_union.1 hs with hs | hs
        · have := hcl s hs t hst
          simp only [Finset.mem_union] at this ⊢
          tauto
        · exact Finset.mem_union_left _ ((hnext t).2 ⟨htL, s, hs, hst⟩)
      · intro x
        simp only [Finset.mem_union, hR, Finset.mem_image]
        constructor
        · rintro (⟨s, hs, rfl⟩ | ⟨s, hs, rfl⟩)
          · exact ⟨s, by tauto, rfl⟩
          · exact ⟨s, by tauto, rfl⟩
        · rintro ⟨s, hs | hs | hs, rfl⟩
          · exact Or.inr ⟨s, hs, rfl⟩
          · exact Or.inl ⟨s, Or.inr hs, rfl⟩
          · exact Or.inl ⟨s, Or.inl hs, rfl⟩

/-- `msep_from_given(A, C)` returns the nodes outside `A ∪ C` that are m-separated from `A`. -/
theorem msepFromGiven_spec (hG : G.Good) (o : SepOracle α) (A C : Finset α) (hAC : Disjoint A C) :
    ∃ s, msepFromGiven G o A C = some s ∧
      ∀ x, x ∈ s ↔ x ∈ G.nodes ∧ x ∉ A ∧ x ∉ C ∧ G.mixed.MSep A {x} C := by
  obtain ⟨desc, hd, hd'⟩ := ancestorsPlus_spec hG o C
  obtain ⟨R, hR, hR'⟩ := linkLoop_spec hG hd' A _ A (A.image (none, ·)) ∅ le_rfl
    (by intro s hs; simp at hs; obtain ⟨a, ha, rfl⟩ := hs; simp [ha])
    (by intro s hs; simp at hs; obtain ⟨a, ha, rfl⟩ := hs; exact ⟨a, ha, .refl⟩)
    (by intro a ha; simp [ha]) (by simp) (by intro x; simp)
  refine ⟨((G.nodes \ A) \ C) \ R, by simp [msepFromGiven, hd, hR], fun x => ?_⟩
  simp only [Finset.mem_sdiff, hR', Mixed.msep_iff hG.mg_ok]
  constructor
  · rintro ⟨⟨⟨h1, h2⟩, h3⟩, h4⟩
    refine ⟨h1, h2, h3, ?_⟩
    rintro a ha b rfl ⟨l, hl⟩
    obtain ⟨l', hw, hn, -⟩ := hl.exists_path hG.mg_ok _ l le_rfl
    obtain ⟨s, hs, hr, _⟩ := linkLegal_of_path (C := (C : Set α))
      (by simpa using Finset.disjoint_left.1 hAC ha) l' b hw hn
    exact h4 ⟨a, ha, s, hr, hs⟩
  · rintro ⟨h1, h2, h3, h4⟩
    refine ⟨⟨⟨h1, h2⟩, h3⟩, ?_⟩
    rintro ⟨a, ha, s, hr, rfl⟩
    obtain ⟨l, hw, _⟩ := walk_of_linkLegal hr
    exact h4 a ha s.2 rfl ⟨l, hw⟩

end Model.AG
