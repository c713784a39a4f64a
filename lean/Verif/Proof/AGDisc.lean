import Verif.Model.AGEquiv
import Verif.Proof.EquivIff
import Verif.Proof.AGMarkov
import Mathlib.Data.List.Infix
import Mathlib.Algebra.Order.BigOperators.Group.List

/-! # `discriminating_paths` finds the discriminating paths -/

namespace Model

universe u
variable {α : Type u} [DecidableEq α]
open Relation Spec

theorem lookup_dictSet {κ ν : Type*} [DecidableEq κ] [BEq κ] [LawfulBEq κ] (d : List (κ × ν)) (k : κ) (v : ν) (l : κ) :
    (dictSet d k v).lookup l = if l = k then some v else d.lookup l := by
  unfold dictSet
  by_cases h : l = k
  · subst h; simp [List.lookup]
  · rw [List.lookup_cons]
    have : (l == k) = false := by simpa using h
    rw [this, if_neg h]
    simp only
    induction d with
    | nil => rfl
    | cons e d ih =>
      rw [List.filter_cons]
      by_cases he : e.1 = k
      · rw [if_neg (by simpa using he), ih]
        obtain ⟨a, b⟩ := e
        simp only at he
        subst he
        rw [List.lookup_cons, this]
      · rw [if_pos (by simpa using he)]
        obtain ⟨a, b⟩ := e
        rw [List.lookup_cons, List.lookup_cons, ih]

namespace AG
variable {A : AG α}

/-- The label of a path, read off its last two nodes. -/
def lab (A : AG α) (l : List α) : Bool :=
  match l.reverse with
  | j :: k :: _ => decide (j ∈ A.spouses k)
  | _ => false

theorem lab_append (A : AG α) (p : List α) (k j : α) : A.lab (p ++ [k, j]) = decide (j ∈ A.spouses k) := by
  simp [lab]

/-- The dictionary has the keys `S`, correctly labelled. -/
def DOk (A : AG α) (d : PathDict α) (S : Set (List α)) : Prop :=
  ∀ l, (l ∈ S → d.lookup l = some (A.lab l)) ∧ (l ∉ S → d.lookup l = none)

theorem DOk.congr {d : PathDict α} {S T : Set (List α)} (h : A.DOk d S) (e : ∀ l, l ∈ S ↔ l ∈ T) : A.DOk d T := by
  have : S = T := Set.ext e
  rwa [← this]

theorem DOk.set {d : PathDict α} {S : Set (List α)} (h : A.DOk d S) {p : List α} {v : Bool} (hv : v = A.lab p) :
    A.DOk (dictSet d p v) (insert p S) := by
  intro l
  rw [lookup_dictSet]
  by_cases hl : l = p
  · subst hl; simp [hv]
  · simp only [Set.mem_insert_iff, hl, if_false, false_or]; exact h l

theorem recordSpouse_ok (hA : A.Good) (j : α) (path : List α) : ∀ (L : List α) (d : PathDict α) (S : Set (List α)), A.DOk d S →
    A.DOk (L.foldl (A.recordSpouse j path) d)
      (S ∪ {l | ∃ k ∈ L, (j ∈ A.spouses k ∨ j ∈ A.children k) ∧ l = path ++ [k, j]})
  | [], d, S, h => by simpa using h
  | k :: L, d, S, h => by
    rw [List.foldl_cons]
    unfold recordSpouse
    split_ifs with h1 h2
    · refine (recordSpouse_ok hA j path L _ _ (h.set (p := path ++ [k, j]) (by simp [lab_append, h1]))).congr fun l => ?_
      simp only [Set.mem_union, Set.mem_insert_iff, Set.mem_ofPred_eq, List.mem_cons, exists_eq_or_imp]
      grind
    · refine (recordSpouse_ok hA j path L _ _ (h.set (p := path ++ [k, j]) (by simp [lab_append, h1]))).congr fun l => ?_
      simp only [Set.mem_union, Set.mem_insert_iff, Set.mem_ofPred_eq, List.mem_cons, exists_eq_or_imp]
      grind
    · refine (recordSpouse_ok hA j path L _ _ h).congr fun l => ?_
      simp only [Set.mem_union, Set.mem_ofPred_eq, List.mem_cons, exists_eq_or_imp]
      grind

theorem recordParent_ok (hA : A.Good) (j : α) (path : List α) : ∀ (L : List α) (d : PathDict α) (S : Set (List α)), A.DOk d S →
    A.DOk (L.foldl (A.recordParent j path) d) (S ∪ {l | ∃ k ∈ L, j ∈ A.children k ∧ l = path ++ [k, j]})
  | [], d, S, h => by simpa using h
  | k :: L, d, S, h => by
    rw [List.foldl_cons]
    unfold recordParent
    split_ifs with h1
    · have : j ∉ A.spouses k := fun hs =>
        hA.2.dir_bi _ _ ((hA.1.children_iff _ _).1 h1) (by rw [Finset.pair_comm]; exact (hA.1.spouses_iff _ _).1 hs)
      refine (recordParent_ok hA j path L _ _ (h.set (p := path ++ [k, j]) (by simp [lab_append, this]))).congr fun l => ?_
      simp only [Set.mem_union, Set.mem_insert_iff, Set.mem_ofPred_eq, List.mem_cons, exists_eq_or_imp]
      grind
    · refine (recordParent_ok hA j path L _ _ h).congr fun l => ?_
      simp only [Set.mem_union, Set.mem_ofPred_eq, List.mem_cons, exists_eq_or_imp]
      grind

/-- The paths recorded while the search works on `path` and its extensions. -/
inductive Ext (A : AG α) (cols : Finset α) (j : α) : List α → List α → Prop
  | done {path : List α} {f k : α} : path.getLast? = some f → k ∉ path →
      (k ∈ A.spouses f ∧ (j ∈ A.spouses k ∨ j ∈ A.children k) ∨ k ∈ A.parents f ∧ j ∈ A.children k) →
      Ext A cols j path (path ++ [k, j])
  | step {path l : List α} {f k : α} : path.getLast? = some f → k ∈ A.spouses f → k ∉ path → k ∈ cols →
      j ∈ A.children k → Ext A cols j (path ++ [k]) l → Ext A cols j path l

theorem record_ok (hA : A.Good) (o : DiscOracle α) (j : α) (path : List α) {f : α} {d : PathDict α} {S : Set (List α)}
    (h : A.DOk d S) : A.DOk (A.record o j path f d) (S ∪ {l | ∃ k, k ∉ path ∧
      (k ∈ A.spouses f ∧ (j ∈ A.spouses k ∨ j ∈ A.children k) ∨ k ∈ A.parents f ∧ j ∈ A.children k) ∧ l = path ++ [k, j]}) := by
  refine (recordParent_ok hA j path _ _ _ (recordSpouse_ok hA j path _ _ _ h)).congr fun l => ?_
  simp only [Set.mem_union, Set.mem_ofPred_eq, List.mem_filter, o.ends.mem_iff, decide_eq_true_eq]
  constructor
  · rintro ((h | ⟨k, ⟨h1, h2⟩, h3, h4⟩) | ⟨k, ⟨h1, h2⟩, h3, h4⟩)
    · exact Or.inl h
    · exact Or.inr ⟨k, h2, Or.inl ⟨h1, h3⟩, h4⟩
    · exact Or.inr ⟨k, h2, Or.inr ⟨h1, h3⟩, h4⟩
  · rintro (h | ⟨k, h2, ⟨h1, h3⟩ | ⟨h1, h3⟩, h4⟩)
    · exact Or.inl (Or.inl h)
    · exact Or.inl (Or.inr ⟨k, ⟨h1, h2⟩, h3, h4⟩)
    · exact Or.inr ⟨k, ⟨h1, h2⟩, h3, h4⟩

/-- The measure of the queue. -/
def qWeight (n : ℕ) (queue : List (List α)) : ℕ := (queue.map fun p => (n + 1) ^ (n + 1 - p.length)).sum

omit [DecidableEq α] in
theorem qWeight_step {n : ℕ} {path : List α} {rest new : List (List α)} (hp : path.length ≤ n)
    (hn : ∀ p ∈ new, p.length = path.length + 1) (hl : new.length ≤ n) :
    qWeight n (rest ++ new) < qWeight n (path :: rest) := by
  unfold qWeight
  rw [List.map_append, List.sum_append, List.map_cons, List.sum_cons]
  have h1 : (new.map fun p => (n + 1) ^ (n + 1 - p.length)).sum ≤ new.length * (n + 1) ^ (n - path.length) := by
    have := List.sum_le_card_nsmul (new.map fun p => (n + 1) ^ (n + 1 - p.length)) ((n + 1) ^ (n - path.length)) (by
      intro x hx
      obtain ⟨p, hp', rfl⟩ := List.mem_map.1 hx
      rw [hn p hp']
      apply le_of_eq
      congr 1
      omega)
    simpa using this
  have h2 : (n + 1) ^ (n + 1 - path.length) = (n + 1) * (n + 1) ^ (n - path.length) := by
    rw [show n + 1 - path.length = (n - path.length) + 1 by omega, pow_succ, mul_comm]
  have h3 : new.length * (n + 1) ^ (n - path.length) ≤ n * (n + 1) ^ (n - path.length) := Nat.mul_le_mul_right _ hl
  have h4 : 0 < (n + 1) ^ (n - path.length) := by positivity
  rw [h2]
  nlinarith

/-- A path in the queue. -/
def QOk (A : AG α) (p : List α) : Prop := p ≠ [] ∧ p.Nodup ∧ ∀ x ∈ p, x ∈ A.nodes

theorem discLoop_ok (hA : A.Good) (o : DiscOracle α) (cols : Finset α) (j : α) (queue : List (List α)) (d : PathDict α)
    (S : Set (List α)) (h : A.DOk d S) (hq : ∀ p ∈ queue, A.QOk p) :
    Wp (A.discLoop o cols j queue d) (fun e => A.DOk e (S ∪ {l | ∃ p ∈ queue, Ext A cols j p l})) (fun _ => False) := by
  generalize hW : qWeight A.nodes.card queue = W
  induction W using Nat.strong_induction_on generalizing queue d S with
  | _ W ih =>
    subst hW
    unfold discLoop
    cases queue with
    | nil => exact Wp.pure (by simpa using h)
    | cons path rest =>
      obtain ⟨h1, h2, h3⟩ := hq path (by simp)
      obtain ⟨f, hf⟩ : ∃ f, path.getLast? = some f := by
        cases hl : path.getLast? with
        | none => exact absurd (List.getLast?_eq_none_iff.1 hl) h1
        | some f => exact ⟨f, rfl⟩
      simp only [hf]
      have hcard : path.length ≤ A.nodes.card := by
        rw [← List.toFinset_card_of_nodup h2]
        exact Finset.card_le_card fun x hx => h3 x (by simpa using hx)
      have hnew : ∀ p ∈ A.extend o cols j path f, ∃ k, p = path ++ [k] ∧ k ∈ A.spouses f ∧ k ∉ path ∧ k ∈ cols ∧ j ∈ A.children k := by
        intro p hp
        simp only [extend, List.mem_map, List.mem_filter, o.ends.mem_iff, decide_eq_true_eq] at hp
        obtain ⟨k, ⟨e1, e2, e3, e4⟩, rfl⟩ := hp
        exact ⟨k, rfl, e1, e2, e3, e4⟩
      have hsp : A.spouses f ⊆ A.nodes := fun k hk =>
        hA.1.bi_mem _ ((hA.1.spouses_iff _ _).1 hk) (by simp)
      have hlen : (A.extend o cols j path f).length ≤ A.nodes.card := by
        rw [extend, List.length_map]
        refine (List.length_filter_le _ _).trans ?_
        rw [← List.toFinset_card_of_nodup (o.ends.nodup _ _)]
        exact Finset.card_le_card fun x hx => hsp (by simpa [o.ends.mem_iff] using hx)
      have hQ : ∀ p ∈ rest ++ A.extend o cols j path f, A.QOk p := by
        intro p hp
        rcases List.mem_append.1 hp with hp | hp
        · exact hq p (by simp [hp])
        · obtain ⟨k, rfl, e1, e2, -, -⟩ := hnew p hp
          refine ⟨by simp, ?_, ?_⟩
          · rw [List.nodup_append]; refine ⟨h2, by simp, ?_⟩
            rintro a ha b hb rfl
            simp at hb; subst hb; exact e2 ha
          · intro x hx
            rcases List.mem_append.1 hx with hx | hx
            · exact h3 x hx
            · simp at hx; subst hx; exact hsp e1
      refine (ih _ (qWeight_step hcard (fun p hp => ?_) hlen) _ _ _ (record_ok hA o j path h) hQ rfl).mono ?_ (fun _ k => k)
      · obtain ⟨k, rfl, -⟩ := hnew p hp; simp
      · intro e he
        refine he.congr fun l => ?_
        simp only [Set.mem_union, Set.mem_ofPred_eq, List.mem_append, List.mem_cons]
        constructor
        · rintro ((k1 | ⟨k, a1, a2, rfl⟩) | ⟨p, hp | hp, k3⟩)
          · exact Or.inl k1
          · exact Or.inr ⟨path, Or.inl rfl, .done hf a1 a2⟩
          · exact Or.inr ⟨p, Or.inr hp, k3⟩
          · obtain ⟨k, rfl, e1, e2, e3, e4⟩ := hnew p hp
            exact Or.inr ⟨path, Or.inl rfl, .step hf e1 e2 e3 e4 k3⟩
        · rintro (k1 | ⟨p, rfl | hp, k3⟩)
          · exact Or.inl (Or.inl k1)
          · cases k3 with
            | done g1 g2 g3 =>
              obtain rfl := Option.some.inj (hf.symm.trans g1)
              exact Or.inl (Or.inr ⟨_, g2, g3, rfl⟩)
            | step g1 g2 g3 g4 g5 g6 =>
              obtain rfl := Option.some.inj (hf.symm.trans g1)
              refine Or.inr ⟨_, Or.inr ?_, g6⟩
              simp only [extend, List.mem_map, List.mem_filter, o.ends.mem_iff, decide_eq_true_eq]
              exact ⟨_, ⟨g2, g3, g4, g5⟩, rfl⟩
          · exact Or.inr ⟨p, Or.inl hp, k3⟩

/-- What is found for the target `j` and the start `i`. -/
def Found (A : AG α) (j i : α) (l : List α) : Prop :=
  i ∈ A.nodes ∧ i ≠ j ∧ A.parents j ≠ ∅ ∧ i ∉ A.parents j ∧ i ∉ A.children j ∧ i ∉ A.spouses j ∧
    ∃ k, k ∈ A.spouses i ∪ A.children i ∧ k ∈ A.colliders ∧ j ∈ A.children k ∧ Ext A A.colliders j [i, k] l

theorem discTarget_ok (hA : A.Good) (o : DiscOracle α) (j : α) {d : PathDict α} {S : Set (List α)} (h : A.DOk d S) :
    Wp (A.discTarget o A.colliders d j) (fun e => A.DOk e (S ∪ {l | ∃ i, A.Found j i l})) (fun _ => False) := by
  unfold discTarget
  split_ifs with hp
  · refine Wp.pure (h.congr fun l => ?_)
    simp [Found, hp]
  · refine (Wp.foldlM (fun pre e => A.DOk e (S ∪ {l | ∃ i ∈ pre, A.Found j i l})) _ d (by simpa using h) ?_).mono ?_ (fun _ k => k)
    · intro pre i post e hl he
      have hi : i ∈ o.starts.ord j ((((A.nodes \ A.parents j) \ A.children j) \ A.spouses j) \ {j}) := by rw [hl]; simp
      simp only [o.starts.mem_iff, Finset.mem_sdiff, Finset.mem_singleton] at hi
      obtain ⟨⟨⟨⟨i1, i2⟩, i3⟩, i4⟩, i5⟩ := hi
      refine (discLoop_ok hA o A.colliders j _ _ _ he ?_).mono (fun e' he' => he'.congr fun l => ?_) (fun _ k => k)
      · intro p hp
        simp only [firstPaths, List.mem_map, List.mem_filter, o.first.mem_iff, decide_eq_true_eq, Finset.mem_union] at hp
        obtain ⟨k, ⟨k1, k2, k3⟩, rfl⟩ := hp
        refine ⟨by simp, ?_, ?_⟩
        · simp only [List.nodup_cons, List.mem_singleton, List.not_mem_nil, not_false_eq_true, List.nodup_nil, and_true]
          rintro rfl
          rcases k1 with k1 | k1
          · exact hA.1.bi_ne ((hA.1.spouses_iff _ _).1 k1) rfl
          · exact hA.1.dir_ne _ ((hA.1.children_iff _ _).1 k1)
        · intro x hx
          simp only [List.mem_cons, List.not_mem_nil, or_false] at hx
          rcases hx with rfl | rfl
          · exact i1
          · exact (Finset.mem_filter.1 k2).1
      · simp only [firstPaths, Set.mem_union, Set.mem_ofPred_eq, List.mem_append, List.mem_singleton, List.mem_map, List.mem_filter,
          o.first.mem_iff, decide_eq_true_eq]
        constructor
        · rintro ((k | ⟨i', hi', k⟩) | ⟨p, ⟨k, ⟨k1, k2, k3⟩, rfl⟩, k4⟩)
          · exact Or.inl k
          · exact Or.inr ⟨i', Or.inl hi', k⟩
          · exact Or.inr ⟨i, Or.inr rfl, i1, i5, hp, i2, i3, i4, k, k1, k2, k3, k4⟩
        · rintro (k | ⟨i', hi' | rfl, k⟩)
          · exact Or.inl (Or.inl k)
          · exact Or.inl (Or.inr ⟨i', hi', k⟩)
          · obtain ⟨-, -, -, -, -, -, k, k1, k2, k3, k4⟩ := k
            exact Or.inr ⟨_, ⟨k, ⟨k1, k2, k3⟩, rfl⟩, k4⟩
    · intro e he
      refine he.congr fun l => ?_
      simp only [Set.mem_union, Set.mem_ofPred_eq, o.starts.mem_iff, Finset.mem_sdiff, Finset.mem_singleton]
      refine or_congr Iff.rfl ⟨fun ⟨i, _, hi⟩ => ⟨i, hi⟩, fun ⟨i, hi⟩ => ⟨i, ?_, hi⟩⟩
      exact ⟨⟨⟨⟨hi.1, hi.2.2.2.1⟩, hi.2.2.2.2.1⟩, hi.2.2.2.2.2.1⟩, hi.2.1⟩

theorem discriminatingPaths_ok (hA : A.Good) (o : DiscOracle α) :
    Wp (A.discriminatingPaths o) (fun e => A.DOk e {l | ∃ j i, A.Found j i l}) (fun _ => False) := by
  unfold discriminatingPaths
  refine (Wp.foldlM (fun pre e => A.DOk e {l | ∃ j ∈ pre, ∃ i, A.Found j i l}) _ [] ?_ ?_).mono ?_ (fun _ k => k)
  · intro l; simp
  · intro pre j post e hl he
    refine (discTarget_ok hA o j he).mono (fun e' he' => he'.congr fun l => ?_) (fun _ k => k)
    simp only [Set.mem_union, Set.mem_ofPred_eq, List.mem_append, List.mem_singleton]
    constructor
    · rintro (⟨j', h1, h2⟩ | h)
      · exact ⟨j', Or.inl h1, h2⟩
      · exact ⟨j, Or.inr rfl, h⟩
    · rintro ⟨j', h1 | rfl, h2⟩
      · exact Or.inl ⟨j', h1, h2⟩
      · exact Or.inr h2
  · intro e he
    refine he.congr fun l => ?_
    simp only [Set.mem_ofPred_eq, o.targets.mem_iff]
    refine ⟨fun ⟨j, _, h⟩ => ⟨j, h⟩, fun ⟨j, i, h⟩ => ⟨j, ?_, i, h⟩⟩
    obtain ⟨-, -, -, -, -, -, k, -, -, k3, -⟩ := h
    exact (hA.1.dir_mem _ _ ((hA.1.children_iff _ _).1 k3)).2

end AG

end Model
