import Verif.Model.UGConvert
import Verif.Proof.UG
import Verif.Proof.Amat

/-! # Conversions of undirected graphs -/

namespace Model

universe u
variable {α : Type u} [DecidableEq α]

theorem mapM_except_ok {ε β γ : Type u} {f : β → Except ε γ} : ∀ {l : List β}, (∀ x ∈ l, ∃ y, f x = .ok y) →
    ∃ ys, l.mapM f = .ok ys ∧ ∀ y, y ∈ ys ↔ ∃ x ∈ l, f x = .ok y
  | [], _ => ⟨[], rfl, by simp⟩
  | x :: l, h => by
    obtain ⟨y, hy⟩ := h x (by simp)
    obtain ⟨ys, h1, h2⟩ := mapM_except_ok (l := l) fun z hz => h z (by simp [hz])
    refine ⟨y :: ys, ?_, fun z => ?_⟩
    · rw [List.mapM_cons, hy, h1]; rfl
    · simp only [List.mem_cons, h2, exists_eq_or_imp, hy, Except.ok.injEq]
      exact or_congr ⟨Eq.symm, Eq.symm⟩ Iff.rfl

theorem mapM_except_error {ε β γ : Type u} {f : β → Except ε γ} (e : ε) : ∀ {l : List β}, (∀ x ∈ l, (∃ y, f x = .ok y) ∨ f x = .error e) →
    (∃ x ∈ l, f x = .error e) → l.mapM f = .error e
  | [], _, ⟨x, hx, _⟩ => by simp at hx
  | x :: l, h, hx => by
    rw [List.mapM_cons]
    rcases h x (by simp) with ⟨y, hy⟩ | hy
    · rw [hy]
      have : l.mapM f = .error e := by
        refine mapM_except_error e (fun z hz => h z (by simp [hz])) ?_
        obtain ⟨z, hz, hz'⟩ := hx
        rcases List.mem_cons.1 hz with rfl | hz
        · rw [hy] at hz'; cases hz'
        · exact ⟨z, hz, hz'⟩
      rw [this]; rfl
    · rw [hy]; rfl

namespace UG

theorem unpack_ok (ou : SetOrder Unit α) {e : Finset α} {i j : α} (hij : i ≠ j) (he : e = {i, j}) :
    ∃ p, unpack ou e = .ok p ∧ p.1 ≠ p.2 ∧ e = {p.1, p.2} := by
  have hl : (ou.ord () e).length = 2 := by
    rw [← List.toFinset_card_of_nodup (ou.nodup () e)]
    have : (ou.ord () e).toFinset = e := by ext x; simp [ou.mem_iff]
    rw [this, he, Finset.card_pair hij]
  obtain ⟨a, b, hab⟩ := List.length_eq_two.1 hl
  refine ⟨(a, b), by rw [unpack, hab], ?_, ?_⟩
  · have := ou.nodup () e
    rw [hab] at this
    simpa using this
  · ext x
    rw [← ou.mem_iff () e x, hab]
    simp

theorem Consistent.unpack {U : UG α} (hU : U.Consistent) (ou : SetOrder Unit α) {e : Finset α} (he : e ∈ U.edges) :
    ∃ p, UG.unpack ou e = .ok p ∧ p.1 ≠ p.2 ∧ e = {p.1, p.2} := by
  obtain ⟨i, j, hij, h⟩ := hU.edge_pair e he
  exact unpack_ok ou hij h

theorem Consistent.ext {U V : UG α} (hU : U.Consistent) (hV : V.Consistent) (hn : U.nodes = V.nodes) (he : U.edges = V.edges) :
    U = V := by
  have h : U.neighbors = V.neighbors := by
    funext i
    ext j
    rw [hU.neighbors_iff, hV.neighbors_iff, he]
  refine UG.ext hn he h ?_
  funext i
  rw [hU.degree, hV.degree, h]

theorem setEdges_spec (ou : SetOrder Unit α) {l : List α} (hl : l.Nodup) : ∀ (es : List (Finset α)) (A : Amat), l.length ≤ A.n →
    (∀ e ∈ es, ∃ i j, i ≠ j ∧ e = {i, j} ∧ i ∈ l ∧ j ∈ l) →
    ∃ B, setEdges ou l es A = .ok B ∧ B.n = A.n ∧ ∀ a b i j, l[a]? = some i → l[b]? = some j →
      B.entry a b = if {i, j} ∈ es then 1 else A.entry a b := by
  intro es
  induction es with
  | nil => intro A _ _; exact ⟨A, rfl, rfl, by simp⟩
  | cons e es ih =>
    intro A hA h
    obtain ⟨i, j, hij, he, hi, hj⟩ := h e (by simp)
    obtain ⟨p, hp, hp1, hp2⟩ := unpack_ok ou hij he
    have hin : p.1 ∈ l ∧ p.2 ∈ l := by
      have h1 : p.1 ∈ e := by rw [hp2]; simp
      have h2 : p.2 ∈ e := by rw [hp2]; simp
      rw [he] at h1 h2
      simp only [Finset.mem_insert, Finset.mem_singleton] at h1 h2
      constructor
      · rcases h1 with h | h <;> rw [h] <;> assumption
      · rcases h2 with h | h <;> rw [h] <;> assumption
    obtain ⟨C, c1, c2, c3⟩ := setOnes_spec hl [(p.1, p.2), (p.2, p.1)] A hA (by simp [hin])
    obtain ⟨B, b1, b2, b3⟩ := ih C (by omega) (fun q hq => h q (by simp [hq]))
    refine ⟨B, ?_, by omega, fun a b x y hx hy => ?_⟩
    · unfold setEdges; rw [hp]; simp only [Except.bind]; rw [c1]; exact b1
    · rw [b3 a b x y hx hy, c3]
      have e1 : (∃ q ∈ [(p.1, p.2), (p.2, p.1)], l[a]? = some q.1 ∧ l[b]? = some q.2) ↔ ({x, y} : Finset α) = e := by
        simp only [List.mem_cons, List.not_mem_nil, or_false, exists_eq_or_imp, exists_eq_left, hx, hy, Option.some.injEq]
        rw [hp2, pair_eq]
      by_cases h1 : ({x, y} : Finset α) ∈ es
      · rw [if_pos h1, if_pos (List.mem_cons_of_mem _ h1)]
      · rw [if_neg h1]
        by_cases h2 : ({x, y} : Finset α) = e
        · rw [if_pos (e1.2 h2), if_pos (h2 ▸ List.mem_cons_self)]
        · rw [if_neg (fun h => h2 (e1.1 h)), if_neg (by simp [h1, h2])]

theorem setEdges_error (ou : SetOrder Unit α) {l : List α} (hl : l.Nodup) : ∀ (es : List (Finset α)) (A : Amat), l.length ≤ A.n →
    (∀ e ∈ es, ∃ i j, i ≠ j ∧ e = {i, j}) → (∃ e ∈ es, ∃ x ∈ e, x ∉ l) → setEdges ou l es A = .error .key := by
  intro es
  induction es with
  | nil => rintro A _ _ ⟨e, he, _⟩; simp at he
  | cons e es ih =>
    intro A hA h hx
    obtain ⟨i, j, hij, he⟩ := h e (by simp)
    obtain ⟨p, hp, hp1, hp2⟩ := unpack_ok ou hij he
    unfold setEdges
    rw [hp]
    simp only [Except.bind]
    by_cases hin : p.1 ∈ l ∧ p.2 ∈ l
    · obtain ⟨C, c1, c2, -⟩ := setOnes_spec hl [(p.1, p.2), (p.2, p.1)] A hA (by simp [hin])
      rw [c1]
      refine ih C (by omega) (fun q hq => h q (by simp [hq])) ?_
      obtain ⟨f, hf, x, hxf, hxl⟩ := hx
      rcases List.mem_cons.1 hf with rfl | hf
      · rw [hp2] at hxf
        simp only [Finset.mem_insert, Finset.mem_singleton] at hxf
        rcases hxf with rfl | rfl
        · exact absurd hin.1 hxl
        · exact absurd hin.2 hxl
      · exact ⟨f, hf, x, hxf, hxl⟩
    · rw [setOnes_error hl _ A hA ⟨(p.1, p.2), by simp, by tauto⟩]

theorem copy_ok {U : UG α} (hU : U.Consistent) (oe : SetOrder Unit (Finset α)) (ou : SetOrder Unit α) :
    ∃ V, U.copy oe ou = .ok V ∧ V.Consistent ∧ V.edges = U.edges ∧ ∀ v, v ∈ V.nodes ↔ v ∈ U.nodes ∨ ∃ e ∈ U.edges, v ∈ e := by
  obtain ⟨ys, h1, h2⟩ := mapM_except_ok (f := UG.unpack ou) (l := oe.ord () U.edges) fun e he => by
    obtain ⟨p, hp, -⟩ := hU.unpack ou ((oe.mem_iff () U.edges e).1 he)
    exact ⟨p, hp⟩
  refine ⟨new oe ou U.nodes ys.toFinset, by rw [copy, h1]; rfl, (new_spec _ _ _ _).1, ?_⟩
  have he : (new oe ou U.nodes ys.toFinset).edges = U.edges := by
    rw [new_edges]
    ext e
    simp only [Finset.mem_image, Finset.mem_filter, List.mem_toFinset, h2]
    constructor
    · rintro ⟨p, ⟨⟨f, hf, hfp⟩, -⟩, rfl⟩
      have hf := (oe.mem_iff () U.edges f).1 hf
      obtain ⟨q, hq, -, hq2⟩ := hU.unpack ou hf
      rw [hfp] at hq
      cases hq
      rwa [← hq2]
    · intro he
      obtain ⟨p, hp, hp1, hp2⟩ := hU.unpack ou he
      exact ⟨p, ⟨⟨e, (oe.mem_iff () U.edges e).2 he, hp⟩, hp1⟩, hp2.symm⟩
  refine ⟨he, fun v => ?_⟩
  rw [(new_spec _ _ _ _).2.2, he]

theorem renameNodes_ok {β : Type u} [DecidableEq β] {U : UG α} (hU : U.Consistent) (hc : U.Closed) (on : SetOrder Unit α)
    (oe : SetOrder Unit (Finset α)) (ou : SetOrder Unit α) (oe' : SetOrder Unit (Finset β)) (ou' : SetOrder Unit β) (f : α → Option β)
    (hf : ∀ v ∈ U.nodes, ∃ w, f v = some w) :
    ∃ V, U.renameNodes on oe ou oe' ou' f = .ok V ∧ V.Consistent ∧ (∀ w, w ∈ V.nodes ↔ ∃ v ∈ U.nodes, f v = some w) ∧
      ∀ a b, ({a, b} : Finset β) ∈ V.edges ↔ a ≠ b ∧ ∃ i j, ({i, j} : Finset α) ∈ U.edges ∧ f i = some a ∧ f j = some b := by
  have hlk : ∀ v w, lookup f v = .ok w ↔ f v = some w := by
    intro v w
    unfold lookup
    cases hw : f v <;> simp
  obtain ⟨ns, n1, n2⟩ := mapM_except_ok (f := lookup f) (l := on.ord () U.nodes) fun v hv => by
    obtain ⟨w, hw⟩ := hf v ((on.mem_iff () U.nodes v).1 hv)
    exact ⟨w, (hlk v w).2 hw⟩
  have key : ∀ e ∈ U.edges, ∃ p q, UG.unpack ou e = .ok p ∧ p.1 ≠ p.2 ∧ e = {p.1, p.2} ∧ f p.1 = some q.1 ∧ f p.2 = some q.2 ∧
      ((UG.unpack ou e).bind fun p => (lookup f p.1).bind fun i => (lookup f p.2).map fun j => (i, j)) = .ok q := by
    intro e he
    obtain ⟨p, hp, hp1, hp2⟩ := hU.unpack ou he
    obtain ⟨a, ha⟩ := hf p.1 (hc e he (by rw [hp2]; simp))
    obtain ⟨b, hb⟩ := hf p.2 (hc e he (by rw [hp2]; simp))
    refine ⟨p, (a, b), hp, hp1, hp2, ha, hb, ?_⟩
    rw [hp]
    simp only [Except.bind]
    rw [(hlk _ _).2 ha, (hlk _ _).2 hb]
    rfl
  obtain ⟨es, e1, e2⟩ := mapM_except_ok
    (f := fun e => (UG.unpack ou e).bind fun p => (lookup f p.1).bind fun i => (lookup f p.2).map fun j => (i, j))
    (l := oe.ord () U.edges) fun e he => by
      obtain ⟨p, q, -, -, -, -, -, h⟩ := key e ((oe.mem_iff () U.edges e).1 he)
      exact ⟨q, h⟩
  have hmem : ∀ q : β × β, q ∈ es → ∃ i j, i ≠ j ∧ ({i, j} : Finset α) ∈ U.edges ∧ f i = some q.1 ∧ f j = some q.2 := by
    intro q hq
    obtain ⟨e, he, h⟩ := (e2 q).1 hq
    have he := (oe.mem_iff () U.edges e).1 he
    obtain ⟨p, q', -, k1, k2, k3, k4, k5⟩ := key e he
    rw [h] at k5
    cases k5
    exact ⟨p.1, p.2, k1, k2 ▸ he, k3, k4⟩
  have hedge : ∀ a b, ({a, b} : Finset β) ∈ (new oe' ou' ns.toFinset es.toFinset).edges ↔
      a ≠ b ∧ ∃ i j, ({i, j} : Finset α) ∈ U.edges ∧ f i = some a ∧ f j = some b := by
    intro a b
    have := new_hasEdge oe' ou' ns.toFinset es.toFinset a b
    rw [hasEdge, decide_eq_true_eq] at this
    rw [this, List.mem_toFinset, List.mem_toFinset]
    refine and_congr_right fun hab => ⟨?_, ?_⟩
    · rintro (h | h)
      · obtain ⟨i, j, -, h1, h2, h3⟩ := hmem _ h
        exact ⟨i, j, h1, h2, h3⟩
      · obtain ⟨i, j, -, h1, h2, h3⟩ := hmem _ h
        exact ⟨j, i, Finset.pair_comm i j ▸ h1, h3, h2⟩
    · rintro ⟨i, j, h1, h2, h3⟩
      obtain ⟨p, q, -, k1, k2, k3, k4, k5⟩ := key _ h1
      have hq : q ∈ es := (e2 q).2 ⟨_, (oe.mem_iff () U.edges _).2 h1, k5⟩
      rcases pair_eq.1 k2 with ⟨h, h'⟩ | ⟨h, h'⟩
      · rw [← h, h2] at k3; rw [← h', h3] at k4
        cases k3; cases k4
        exact .inl hq
      · rw [← h, h2] at k4; rw [← h', h3] at k3
        cases k3; cases k4
        exact .inr hq
  refine ⟨new oe' ou' ns.toFinset es.toFinset, ?_, (new_spec _ _ _ _).1, fun w => ?_, hedge⟩
  · rw [renameNodes, n1]; simp only [Except.bind]
    erw [e1]; rfl
  · rw [(new_spec _ _ _ _).2.2]
    have hns : ∀ w, w ∈ ns.toFinset ↔ ∃ v ∈ U.nodes, f v = some w := by
      intro w
      rw [List.mem_toFinset, n2]
      simp only [hlk, on.mem_iff]
    rw [hns]
    refine ⟨?_, .inl⟩
    rintro (h | ⟨e, he, hw⟩)
    · exact h
    · obtain ⟨a, b, -, rfl⟩ := (new_spec oe' ou' ns.toFinset es.toFinset).1.edge_pair e he
      obtain ⟨-, i, j, h1, h2, h3⟩ := (hedge a b).1 he
      simp only [Finset.mem_insert, Finset.mem_singleton] at hw
      rcases hw with rfl | rfl
      · exact ⟨i, hc _ h1 (by simp), h2⟩
      · exact ⟨j, hc _ h1 (by simp), h3⟩

omit [DecidableEq α] in
theorem renameNodes_error {β : Type u} [DecidableEq β] {U : UG α} (on : SetOrder Unit α)
    (oe : SetOrder Unit (Finset α)) (ou : SetOrder Unit α) (oe' : SetOrder Unit (Finset β)) (ou' : SetOrder Unit β) (f : α → Option β)
    {v : α} (hv : v ∈ U.nodes) (hf : f v = none) : U.renameNodes on oe ou oe' ou' f = .error .key := by
  have : (on.ord () U.nodes).mapM (lookup f) = .error .key := by
    refine mapM_except_error _ (fun x _ => ?_) ⟨v, (on.mem_iff () _ v).2 hv, by simp [lookup, hf]⟩
    unfold lookup
    cases f x with
    | none => exact .inr rfl
    | some y => exact .inl ⟨y, rfl⟩
  rw [renameNodes, this]; rfl

theorem addEdgesFrom_spec : ∀ (l : List (α × α)) {U : UG α}, U.Consistent → (∀ e ∈ l, e.1 ≠ e.2) →
    (U.addEdgesFrom l).Consistent ∧ (U.addEdgesFrom l).nodes = U.nodes ∧
      ∀ e, e ∈ (U.addEdgesFrom l).edges ↔ e ∈ U.edges ∨ ∃ p ∈ l, e = {p.1, p.2}
  | [], U, hU, _ => ⟨hU, rfl, by simp [addEdgesFrom]⟩
  | p :: l, U, hU, h => by
    obtain ⟨h1, h2, h3⟩ := addEdge_spec hU (h p (by simp))
    obtain ⟨k1, k2, k3⟩ := addEdgesFrom_spec l h1 fun e he => h e (by simp [he])
    refine ⟨k1, k2.trans h2, fun e => ?_⟩
    refine (k3 e).trans ?_
    rw [h3]
    simp only [Finset.mem_insert, List.mem_cons, exists_eq_or_imp]
    tauto

/-- Where the loop stops: `l = done ++ rest`, and `rest` starts with an edge that is not there any more. -/
theorem deleteEdgesFrom_spec : ∀ (l : List (α × α)) {U : UG α}, U.Consistent →
    ∃ V done rest, l = done ++ rest ∧ V.Consistent ∧ V.nodes = U.nodes ∧
      (∀ e, e ∈ V.edges ↔ e ∈ U.edges ∧ ∀ p ∈ done, e ≠ {p.1, p.2}) ∧ (∀ p ∈ done, ({p.1, p.2} : Finset α) ∈ U.edges) ∧
      (done.map fun p => ({p.1, p.2} : Finset α)).Nodup ∧
      ((rest = [] ∧ deleteEdgesFrom l U = (V, none)) ∨
        ∃ p r, rest = p :: r ∧ ({p.1, p.2} : Finset α) ∉ V.edges ∧ deleteEdgesFrom l U = (V, some .key))
  | [], U, hU => ⟨U, [], [], rfl, hU, rfl, by simp, by simp, by simp, .inl ⟨rfl, rfl⟩⟩
  | p :: l, U, hU => by
    by_cases hp : ({p.1, p.2} : Finset α) ∈ U.edges
    · obtain ⟨W, w1, w2, w3, w4⟩ := deleteEdge_ok hU hp
      obtain ⟨V, done, rest, h1, h2, h3, h4, h5, h6, h7⟩ := deleteEdgesFrom_spec l w2
      have hrun : deleteEdgesFrom (p :: l) U = deleteEdgesFrom l W := by
        rw [deleteEdgesFrom, w1]; rfl
      refine ⟨V, p :: done, rest, by rw [h1]; rfl, h2, h3.trans w3, fun e => ?_, ?_, ?_, ?_⟩
      · rw [h4, w4, Finset.mem_erase]
        simp only [List.mem_cons, forall_eq_or_imp]
        tauto
      · intro q hq
        rcases List.mem_cons.1 hq with rfl | hq
        · exact hp
        · have := h5 q hq
          rw [w4] at this
          exact Finset.mem_of_mem_erase this
      · rw [List.map_cons, List.nodup_cons]
        refine ⟨?_, h6⟩
        rw [List.mem_map]
        rintro ⟨q, hq, he⟩
        have := h5 q hq
        rw [w4, he] at this
        simp at this
      · rw [hrun]; exact h7
    · refine ⟨U, [], p :: l, rfl, hU, rfl, by simp, by simp, by simp, .inr ⟨p, l, rfl, hp, ?_⟩⟩
      rw [deleteEdgesFrom, deleteEdge_error hp]; rfl

end UG

end Model
