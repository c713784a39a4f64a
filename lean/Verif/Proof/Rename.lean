import Verif.Proof.DSep
import Verif.Proof.Queries
import Mathlib.Data.Set.Function
import Mathlib.Data.Finset.Image

/-! # Renaming nodes -/

namespace Spec

open Relation
universe u
variable {α β : Type u}

/-- `f` is an isomorphism from the graph `E` on `V` to the graph `F`. -/
structure Iso (V : Set α) (E : α → α → Prop) (F : β → β → Prop) (f : α → β) : Prop where
  inj : Set.InjOn f V
  nodes : ∀ a b, E a b → a ∈ V ∧ b ∈ V
  arcs : ∀ x y, F x y ↔ ∃ a b, E a b ∧ f a = x ∧ f b = y

variable {V : Set α} {E : α → α → Prop} {F : β → β → Prop} {f : α → β}

theorem Iso.map (h : Iso V E F f) {a b : α} (hab : E a b) : F (f a) (f b) := (h.arcs _ _).2 ⟨a, b, hab, rfl, rfl⟩

theorem Iso.iff (h : Iso V E F f) {a b : α} (ha : a ∈ V) (hb : b ∈ V) : F (f a) (f b) ↔ E a b := by
  refine ⟨fun hf => ?_, h.map⟩
  obtain ⟨a', b', he, ea, eb⟩ := (h.arcs _ _).1 hf
  obtain ⟨ha', hb'⟩ := h.nodes _ _ he
  rwa [h.inj ha' ha ea, h.inj hb' hb eb] at he

theorem Iso.path (h : Iso V E F f) {a b : α} (ha : a ∈ V) (hb : b ∈ V) : Path F (f a) (f b) ↔ Path E a b := by
  refine ⟨fun hp => ?_, path_map f fun _ _ => h.map⟩
  suffices H : ∀ y, Path F (f a) y → ∃ b, Path E a b ∧ f b = y by
    obtain ⟨b', hb', e⟩ := H _ hp
    obtain ⟨c, _, hc⟩ := TransGen.tail'_iff.1 hb'
    rwa [h.inj (h.nodes _ _ hc).2 hb e] at hb'
  intro y hy
  induction hy with
  | single hf =>
    obtain ⟨a', b', he, ea, eb⟩ := (h.arcs _ _).1 hf
    rw [h.inj (h.nodes _ _ he).1 ha ea] at he
    exact ⟨b', .single he, eb⟩
  | tail _ hf ih =>
    obtain ⟨c, hc, rfl⟩ := ih
    obtain ⟨a', b', he, ea, eb⟩ := (h.arcs _ _).1 hf
    obtain ⟨c', _, hc'⟩ := TransGen.tail'_iff.1 hc
    rw [h.inj (h.nodes _ _ he).1 (h.nodes _ _ hc').2 ea] at he
    exact ⟨b', hc.tail he, eb⟩

theorem Iso.path0 (h : Iso V E F f) {a b : α} (ha : a ∈ V) (hb : b ∈ V) : Path0 F (f a) (f b) ↔ Path0 E a b := by
  unfold Path0
  rw [reflTransGen_iff_eq_or_transGen, reflTransGen_iff_eq_or_transGen]
  have := h.path ha hb
  unfold Path at this
  rw [this]
  refine or_congr ⟨fun e => (h.inj hb ha e), fun e => by rw [e]⟩ Iff.rfl

theorem Iso.acyclic (h : Iso V E F f) (hE : Acyclic E) : Acyclic F := by
  intro x hx
  obtain ⟨y, hy, _⟩ := TransGen.head'_iff.1 hx
  obtain ⟨a, b, he, rfl, _⟩ := (h.arcs _ _).1 hy
  have ha := (h.nodes _ _ he).1
  exact hE a ((h.path ha ha).1 hx)

theorem infix_map {l : List α} {m : List β} (h : m <:+: l.map f) : ∃ k, k <:+: l ∧ m = k.map f := by
  obtain ⟨p, s, h⟩ := h
  obtain ⟨k1, s', rfl, h1, rfl⟩ := List.map_eq_append_iff.1 h.symm
  obtain ⟨p', k, rfl, rfl, rfl⟩ := List.map_eq_append_iff.1 h1
  exact ⟨k, ⟨p', s', rfl⟩, rfl⟩

theorem ActivePath.mem {C : Set α} {a b : α} {l : List α} (hE : ∀ a b, E a b → a ∈ V ∧ b ∈ V)
    (hl : ActivePath E C a b l) (ha : a ∈ V) : ∀ v ∈ l, v ∈ V := by
  intro v hv
  obtain ⟨p, s, rfl⟩ := List.mem_iff_append.1 hv
  rcases List.eq_nil_or_concat p with rfl | ⟨p', u, rfl⟩
  · have := hl.head
    simp at this
    rw [this]; exact ha
  · have := hl.adj u v ⟨p', s, by simp⟩
    rcases this with h | h
    · exact (hE _ _ h).2
    · exact (hE _ _ h).1

theorem Iso.active (h : Iso V E F f) {C : Set α} (hC : C ⊆ V) {a b : α} {l : List α} (ha : a ∈ V)
    (hl : ActivePath E C a b l) : ActivePath F (f '' C) (f a) (f b) (l.map f) := by
  have hmem := hl.mem h.nodes ha
  refine ⟨?_, ?_, ?_, ?_, ?_⟩
  · rw [List.head?_map, hl.head]; rfl
  · rw [List.getLast?_map, hl.last]; rfl
  · exact hl.nodup.map_on fun x hx y hy e => h.inj (hmem x hx) (hmem y hy) e
  · intro u v huv
    obtain ⟨k, hk, e⟩ := infix_map huv
    obtain ⟨u', k', rfl, rfl, e'⟩ := List.map_eq_cons_iff.1 e.symm
    obtain ⟨v', k'', rfl, rfl, e''⟩ := List.map_eq_cons_iff.1 e'
    obtain rfl := List.map_eq_nil_iff.1 e''
    exact (hl.adj _ _ hk).imp h.map h.map
  · intro u v w huvw
    obtain ⟨k, hk, e⟩ := infix_map huvw
    obtain ⟨u', k', rfl, rfl, e'⟩ := List.map_eq_cons_iff.1 e.symm
    obtain ⟨v', k'', rfl, rfl, e''⟩ := List.map_eq_cons_iff.1 e'
    obtain ⟨w', k3, rfl, rfl, e3⟩ := List.map_eq_cons_iff.1 e''
    obtain rfl := List.map_eq_nil_iff.1 e3
    have hu := hmem u' (hk.subset (by simp))
    have hv := hmem v' (hk.subset (by simp))
    have hw := hmem w' (hk.subset (by simp))
    obtain ⟨o1, o2⟩ := hl.opn _ _ _ hk
    unfold TripleOpen
    rw [h.iff hu hv, h.iff hw hv]
    refine ⟨fun hc => ?_, fun hc => ?_⟩
    · obtain ⟨c, hc, hp⟩ := o1 hc
      exact ⟨f c, ⟨c, hc, rfl⟩, (h.path0 hv (hC hc)).2 hp⟩
    · rintro ⟨c, hcC, e⟩
      rw [h.inj (hC hcC) hv e] at hcC
      exact o2 hc hcC

/-- The inverse isomorphism. -/
theorem Iso.inverse [Nonempty α] (h : Iso V E F f) : Iso (f '' V) F E (Function.invFunOn f V) := by
  have hinv : ∀ a ∈ V, Function.invFunOn f V (f a) = a := fun a ha => h.inj.leftInvOn_invFunOn ha
  refine ⟨?_, ?_, ?_⟩
  · rintro _ ⟨a, ha, rfl⟩ _ ⟨b, hb, rfl⟩ e
    rw [hinv a ha, hinv b hb] at e
    rw [e]
  · intro x y hxy
    obtain ⟨a, b, he, rfl, rfl⟩ := (h.arcs _ _).1 hxy
    exact ⟨⟨a, (h.nodes _ _ he).1, rfl⟩, ⟨b, (h.nodes _ _ he).2, rfl⟩⟩
  · intro a b
    constructor
    · intro he
      have := h.nodes _ _ he
      exact ⟨f a, f b, h.map he, hinv a this.1, hinv b this.2⟩
    · rintro ⟨x, y, hxy, rfl, rfl⟩
      obtain ⟨a, b, he, rfl, rfl⟩ := (h.arcs _ _).1 hxy
      have := h.nodes _ _ he
      rwa [hinv a this.1, hinv b this.2]

theorem Iso.dsep (h : Iso V E F f) {A B C : Set α} (hA : A ⊆ V) (hB : B ⊆ V) (hC : C ⊆ V) :
    DSep F (f '' A) (f '' B) (f '' C) ↔ DSep E A B C := by
  constructor
  · intro hs a ha b hb l hl
    exact hs _ ⟨a, ha, rfl⟩ _ ⟨b, hb, rfl⟩ _ (h.active hC (hA ha) hl)
  · rintro hs _ ⟨a, ha, rfl⟩ _ ⟨b, hb, rfl⟩ l hl
    have : Nonempty α := ⟨a⟩
    have hinv : ∀ a ∈ V, Function.invFunOn f V (f a) = a := fun a ha => h.inj.leftInvOn_invFunOn ha
    have := h.inverse.active (C := f '' C) (Set.image_mono hC) ⟨a, hA ha, rfl⟩ hl
    rw [hinv a (hA ha), hinv b (hB hb)] at this
    have hCC : Function.invFunOn f V '' (f '' C) = C := by
      ext x
      constructor
      · rintro ⟨_, ⟨c, hc, rfl⟩, rfl⟩; rwa [hinv c (hC hc)]
      · intro hx; exact ⟨f x, ⟨x, hx, rfl⟩, hinv x (hC hx)⟩
    rw [hCC] at this
    exact hs a ha b hb _ this

theorem Iso.linear (h : Iso V E F f) {l : List α} (hl : ∀ v ∈ l, v ∈ V) :
    LinearExtension (f '' V) F (l.map f) ↔ LinearExtension V E l := by
  have hinj : ∀ x ∈ l, ∀ y ∈ l, f x = f y → x = y := fun x hx y hy e => h.inj (hl x hx) (hl y hy) e
  constructor
  · intro hL
    refine ⟨hL.nodup.of_map f, fun v => ⟨hl v, fun hv => ?_⟩, fun i j hij => ?_⟩
    · obtain ⟨w, hw, e⟩ := List.mem_map.1 ((hL.mem_iff (f v)).2 ⟨v, hv, rfl⟩)
      rwa [← h.inj (hl w hw) hv e]
    · have hs := hL.before _ _ (h.map hij)
      obtain ⟨k, hk, e⟩ := List.sublist_map_iff.1 hs
      obtain ⟨u', k', rfl, ei, e'⟩ := List.map_eq_cons_iff.1 e.symm
      obtain ⟨v', k'', rfl, ej, e''⟩ := List.map_eq_cons_iff.1 e'
      obtain rfl := List.map_eq_nil_iff.1 e''
      have hn := h.nodes _ _ hij
      rwa [h.inj (hl u' (hk.subset (by simp))) hn.1 ei, h.inj (hl v' (hk.subset (by simp))) hn.2 ej] at hk
  · intro hL
    refine ⟨hL.nodup.map_on hinj, fun v => ?_, fun i j hij => ?_⟩
    · rw [List.mem_map]
      exact ⟨fun ⟨a, ha, e⟩ => ⟨a, hl a ha, e⟩, fun ⟨a, ha, e⟩ => ⟨a, (hL.mem_iff a).2 ha, e⟩⟩
    · obtain ⟨a, b, he, rfl, rfl⟩ := (h.arcs _ _).1 hij
      exact (hL.before _ _ he).map f

end Spec

namespace Model

universe u
variable {α : Type u} [DecidableEq α] {β : Type u} [DecidableEq β]

theorem DAG.renameNodes_spec {G : DAG α} (hG : G.Valid) (o : SetOrder (Option β) β) (oa : SetOrder Bool (β × β))
    {f : α → β} (hf : Set.InjOn f {v | v ∈ G.nodes}) :
    ∃ H, G.renameNodes o oa f = some (H, none) ∧ H.Valid ∧ H.nodes = G.nodes.image f ∧
      Spec.Iso {v | v ∈ G.nodes} G.E H.E f := by
  have hiso : Spec.Iso {v | v ∈ G.nodes} G.E (fun x y => (x, y) ∈ G.arcs.image fun a => (f a.1, f a.2)) f := by
    refine ⟨hf, fun a b h => ⟨hG.fst_mem a b h, hG.snd_mem a b h⟩, fun x y => ?_⟩
    simp only [Finset.mem_image, Prod.exists, Prod.mk.injEq]
    rfl
  obtain ⟨H, h1, h2, h3, h4⟩ := new_ok o oa (G.nodes.image f) (G.arcs.image fun a => (f a.1, f a.2))
    (hiso.acyclic hG.acyclic)
  refine ⟨H, h1, h2, ?_, ?_⟩
  · rw [h4]
    ext x
    simp only [Finset.mem_union, Finset.mem_image, Prod.exists, exists_and_right, exists_eq_right, Prod.mk.injEq]
    constructor
    · rintro ((h | ⟨y, a, b, h, rfl, _⟩) | ⟨y, a, b, h, _, rfl⟩)
      · exact h
      · exact ⟨a, hG.fst_mem a b h, rfl⟩
      · exact ⟨b, hG.snd_mem a b h, rfl⟩
    · exact fun h => Or.inl (Or.inl h)
  · have : H.E = fun x y => (x, y) ∈ G.arcs.image fun a => (f a.1, f a.2) := by
      funext x y; unfold DAG.E; rw [h3]
    rw [this]; exact hiso

end Model
