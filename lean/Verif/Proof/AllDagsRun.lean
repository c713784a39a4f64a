import Verif.Proof.AllDags
import Mathlib.Data.Nat.Bitwise

/-! # Running `all_dags` on graphs with eight nodes

Arc sets are coded as natural numbers. -/

namespace Model.AllDagsRun

open Spec

abbrev Arc := Fin 8 × Fin 8

/-- The bit that belongs to an arc. -/
def ix (a : Arc) : ℕ := 8 * a.1.val + a.2.val

theorem ix_inj {a b : Arc} (h : ix a = ix b) : a = b := by
  obtain ⟨⟨a1, h1⟩, ⟨a2, h2⟩⟩ := a
  obtain ⟨⟨b1, h3⟩, ⟨b2, h4⟩⟩ := b
  simp only [ix] at h
  simp only [Prod.mk.injEq, Fin.mk.injEq]
  omega

theorem ix_lt (a : Arc) : ix a < 64 := by
  obtain ⟨⟨a1, h1⟩, ⟨a2, h2⟩⟩ := a
  simp only [ix]; omega

theorem exists_ix {k : ℕ} (h : k < 64) : ∃ a, ix a = k :=
  ⟨(⟨k / 8, by omega⟩, ⟨k % 8, by omega⟩), by simp only [ix]; omega⟩

/-- The arc set with a given code. -/
def dec (A : ℕ) : Finset Arc := Finset.univ.filter fun a => A.testBit (ix a) = true

theorem mem_dec {A : ℕ} {a : Arc} : a ∈ dec A ↔ A.testBit (ix a) = true := by simp [dec]

theorem dec_inj {A B : ℕ} (hA : A < 2 ^ 64) (hB : B < 2 ^ 64) (h : dec A = dec B) : A = B := by
  apply Nat.eq_of_testBit_eq
  intro k
  by_cases hk : k < 64
  · obtain ⟨a, rfl⟩ := exists_ix hk
    have := Finset.ext_iff.1 h a
    rw [mem_dec, mem_dec] at this
    exact Bool.eq_iff_iff.2 this
  · have h1 : 2 ^ 64 ≤ 2 ^ k := Nat.pow_le_pow_right (by omega) (by omega)
    rw [Nat.testBit_lt_two_pow (by omega), Nat.testBit_lt_two_pow (by omega)]

/-- The code after the reversal of an arc. -/
def flip (A : ℕ) (a : Arc) : ℕ := (A ^^^ 2 ^ ix a) ||| 2 ^ ix a.swap

/-- Is an arc covered? -/
def cov (A : ℕ) (a : Arc) : Bool :=
  A.testBit (ix a) && (List.finRange 8).all fun x => A.testBit (ix (x, a.1)) == (A.testBit (ix (x, a.2)) && x != a.1)

/-- The bits of the arcs in a list that have a property. -/
def collect (p : Arc → Bool) (l : List Arc) : ℕ := l.foldr (fun a A => bif p a then 2 ^ ix a ||| A else A) 0

/-- Is an arc listed as reversible after the reversal of `e`? -/
def keep (B R : ℕ) (e a : Arc) : Bool :=
  bif a.1 == e.1 || a.2 == e.1 || a.1 == e.2 || a.2 == e.2 then !(a == e.swap) && cov B a else R.testBit (ix a)

/-- The records pushed. -/
def fpush (L : List Arc) (vis : List ℕ) (A R : ℕ) (l : List Arc) (q : List (ℕ × ℕ)) : List (ℕ × ℕ) :=
  l.foldl (fun q e => bif vis.contains (flip A e) then q else (flip A e, collect (keep (flip A e) R e) L) :: q) q

/-- The loop with a bounded number of rounds. -/
def floop (L : List Arc) : ℕ → List (ℕ × ℕ) → List ℕ → Option (List ℕ)
  | _, [], vis => some vis
  | 0, _ :: _, _ => none
  | n + 1, (A, R) :: q, vis =>
      floop L n (fpush L (A :: vis) A R (L.filter fun a => R.testBit (ix a)) q) (A :: vis)

theorem mem_collect {p : Arc → Bool} {a : Arc} : ∀ l : List Arc, a ∈ dec (collect p l) ↔ a ∈ l ∧ p a = true := by
  intro l
  induction l with
  | nil => simp [collect, mem_dec]
  | cons b l ih =>
    have hc : collect p (b :: l) = bif p b then 2 ^ ix b ||| collect p l else collect p l := rfl
    rw [hc, List.mem_cons]
    cases hb : p b with
    | false =>
      rw [cond_false, ih]
      constructor
      · rintro ⟨h1, h2⟩; exact ⟨Or.inr h1, h2⟩
      · rintro ⟨rfl | h1, h2⟩
        · rw [hb] at h2; simp at h2
        · exact ⟨h1, h2⟩
    | true =>
      rw [cond_true, mem_dec, Nat.testBit_or, Bool.or_eq_true, ← mem_dec (A := collect p l), ih, Nat.testBit_two_pow]
      simp only [decide_eq_true_eq]
      constructor
      · rintro (h1 | ⟨h1, h2⟩)
        · obtain rfl := ix_inj h1; exact ⟨Or.inl rfl, hb⟩
        · exact ⟨Or.inr h1, h2⟩
      · rintro ⟨rfl | h1, h2⟩
        · exact Or.inl rfl
        · exact Or.inr ⟨h1, h2⟩

theorem collect_lt (p : Arc → Bool) : ∀ l : List Arc, collect p l < 2 ^ 64 := by
  intro l
  induction l with
  | nil => simp [collect]
  | cons b l ih =>
    have hc : collect p (b :: l) = bif p b then 2 ^ ix b ||| collect p l else collect p l := rfl
    rw [hc]
    cases p b with
    | false => exact ih
    | true => exact Nat.or_lt_two_pow (Nat.pow_lt_pow_right (by omega) (ix_lt b)) ih

theorem flip_lt {A : ℕ} (h : A < 2 ^ 64) (a : Arc) : flip A a < 2 ^ 64 :=
  Nat.or_lt_two_pow (Nat.xor_lt_two_pow h (Nat.pow_lt_pow_right (by omega) (ix_lt a)))
    (Nat.pow_lt_pow_right (by omega) (ix_lt _))

theorem mem_flip {A : ℕ} {e : Arc} (he : e ∈ dec A) (a : Arc) :
    a ∈ dec (flip A e) ↔ (a ∈ dec A ∧ a ≠ e) ∨ a = e.swap := by
  have h2 : ∀ a b : Arc, (ix b = ix a) ↔ a = b := fun a b => ⟨fun h => (ix_inj h).symm, fun h => by rw [h]⟩
  rw [mem_dec] at he
  simp only [mem_dec, flip, Nat.testBit_or, Nat.testBit_xor, Nat.testBit_two_pow, Bool.or_eq_true, decide_eq_true_eq, h2]
  refine or_congr ?_ Iff.rfl
  by_cases h : a = e
  · subst h; simp [he]
  · simp [h]

theorem cov_iff {A : ℕ} {p q : Fin 8} : cov A (p, q) = true ↔ Covered (fun i j => (i, j) ∈ dec A) p q := by
  simp only [cov, Bool.and_eq_true, List.all_eq_true, List.mem_finRange, true_imp_iff, Covered, mem_dec, beq_iff_eq]
  refine and_congr_right fun _ => forall_congr' fun x => ?_
  rw [Bool.eq_iff_iff, Bool.and_eq_true, bne_iff_ne]

variable {F : Fin 8 → Fin 8 → Prop} {L : List Arc}

/-- The codes belong to the record. -/
structure Rep (F : Fin 8 → Fin 8 → Prop) (c : ℕ × ℕ) (d : SmallDag (Fin 8)) : Prop where
  ok : SmallDag.Ok F ∅ d
  arcs : d.arcs = dec c.1
  rev : d.rev = dec c.2
  lt : c.1 < 2 ^ 64

theorem Rep.flip {c : ℕ × ℕ} {d : SmallDag (Fin 8)} (h : Rep F c d) {e : Arc} (he : e ∈ d.rev) :
    d.newArcs e.1 e.2 = dec (flip c.1 e) := by
  ext ⟨a, b⟩
  have h1 : e ∈ dec c.1 := by rw [← h.arcs]; exact (h.ok.rev e.1 e.2 he).1.1
  rw [SmallDag.mem_newArcs, mem_flip h1, ← h.arcs]
  unfold Reverse SmallDag.E
  simp only [Prod.ext_iff, ne_eq, Prod.fst_swap, Prod.snd_swap]

theorem Rep.reverse {c : ℕ × ℕ} {d : SmallDag (Fin 8)} (h : Rep F c d) (hL : ∀ i j, Adj F i j → (i, j) ∈ L)
    (o : SetOrder (Fin 4) (Fin 8)) {e : Arc} (he : e ∈ d.rev) :
    Rep F (AllDagsRun.flip c.1 e, collect (keep (AllDagsRun.flip c.1 e) c.2 e) L) (d.reverse o ∅ e.1 e.2) := by
  have hok := h.ok.reverse o (i := e.1) (j := e.2) he
  have harcs : (d.reverse o ∅ e.1 e.2).arcs = dec (AllDagsRun.flip c.1 e) := h.flip he
  refine ⟨hok, harcs, ?_, flip_lt h.lt e⟩
  have hE : Reverse d.E e.1 e.2 = fun i j => (i, j) ∈ dec (AllDagsRun.flip c.1 e) := by
    funext a b; rw [← h.flip he]; exact propext (SmallDag.mem_newArcs d _ _ a b).symm
  ext ⟨p, q⟩
  rw [mem_collect]
  have hkeep : keep (AllDagsRun.flip c.1 e) c.2 e (p, q) = true ↔ (p, q) ∈ (d.reverse o ∅ e.1 e.2).rev := by
    rw [h.ok.mem_reverse_rev o he, hE]
    unfold keep
    by_cases hin : p = e.1 ∨ q = e.1 ∨ p = e.2 ∨ q = e.2
    · rw [if_pos hin]
      have : (p == e.1 || q == e.1 || p == e.2 || q == e.2) = true := by
        simp only [Bool.or_eq_true, beq_iff_eq]; tauto
      rw [this, cond_true, Bool.and_eq_true, cov_iff]
      simp only [Bool.not_eq_true', beq_eq_false_iff_ne, ne_eq, Prod.ext_iff, Prod.fst_swap, Prod.snd_swap,
        Finset.notMem_empty, not_false_eq_true, and_true]
    · rw [if_neg hin]
      have : (p == e.1 || q == e.1 || p == e.2 || q == e.2) = false := by
        rw [← Bool.not_eq_true]
        simp only [Bool.or_eq_true, beq_iff_eq]; tauto
      rw [this, cond_false, h.rev, mem_dec]
  rw [hkeep]
  refine ⟨fun hpq => ⟨hL p q ?_, hpq⟩, fun hpq => hpq.2⟩
  exact (hok.same.skel p q).2 (Or.inl (hok.rev p q hpq).1.1)

/-- The list of codes belongs to the set of arc sets. -/
structure Vis (vis : List ℕ) (all : Finset (Finset Arc)) : Prop where
  iff : ∀ X, X ∈ all ↔ ∃ A ∈ vis, dec A = X
  lt : ∀ A ∈ vis, A < 2 ^ 64

theorem Vis.contains {vis : List ℕ} {all : Finset (Finset Arc)} (h : Vis vis all) {A : ℕ} (hA : A < 2 ^ 64) :
    vis.contains A = true ↔ dec A ∈ all := by
  rw [List.contains_iff_mem, h.iff]
  exact ⟨fun h1 => ⟨A, h1, rfl⟩, fun ⟨B, h1, h2⟩ => by rw [← dec_inj (h.lt B h1) hA h2]; exact h1⟩

theorem Vis.cons {vis : List ℕ} {all : Finset (Finset Arc)} (h : Vis vis all) {A : ℕ} (hA : A < 2 ^ 64) :
    Vis (A :: vis) (insert (dec A) all) := by
  refine ⟨fun X => ?_, fun B hB => ?_⟩
  · rw [Finset.mem_insert, h.iff]
    constructor
    · rintro (rfl | ⟨B, h1, h2⟩)
      · exact ⟨A, List.mem_cons_self, rfl⟩
      · exact ⟨B, List.mem_cons_of_mem _ h1, h2⟩
    · rintro ⟨B, h1, h2⟩
      rcases List.mem_cons.1 h1 with rfl | h1
      · exact Or.inl h2.symm
      · exact Or.inr ⟨B, h1, h2⟩
  · rcases List.mem_cons.1 hB with rfl | hB
    · exact hA
    · exact h.lt B hB

theorem push_rep (hL : ∀ i j, Adj F i j → (i, j) ∈ L) (o : SetOrder (Fin 4) (Fin 8)) {vis : List ℕ}
    {all : Finset (Finset Arc)} (hv : Vis vis all) {c : ℕ × ℕ} {d : SmallDag (Fin 8)} (h : Rep F c d) :
    ∀ (l : List Arc), (∀ e ∈ l, e ∈ d.rev) → ∀ (q : List (ℕ × ℕ)) (qs : List (SmallDag (Fin 8))),
      List.Forall₂ (Rep F) q qs → List.Forall₂ (Rep F) (fpush L vis c.1 c.2 l q) (d.push o ∅ all l qs) := by
  intro l
  induction l with
  | nil => intro _ q qs hq; exact hq
  | cons e l ih =>
    intro hl q qs hq
    have he := hl e List.mem_cons_self
    have h1 := hv.contains (flip_lt h.lt e)
    rw [← h.flip he] at h1
    have hs : d.push o ∅ all (e :: l) qs =
      d.push o ∅ all l (if d.newArcs e.1 e.2 ∈ all then qs else d.reverse o ∅ e.1 e.2 :: qs) := rfl
    have hf : fpush L vis c.1 c.2 (e :: l) q = fpush L vis c.1 c.2 l
      (bif vis.contains (AllDagsRun.flip c.1 e) then q else
        (AllDagsRun.flip c.1 e, collect (keep (AllDagsRun.flip c.1 e) c.2 e) L) :: q) := rfl
    rw [hs, hf]
    refine ih (fun x hx => hl x (List.mem_cons_of_mem _ hx)) _ _ ?_
    by_cases hm : d.newArcs e.1 e.2 ∈ all
    · rw [if_pos hm, h1.2 hm]; exact hq
    · rw [if_neg hm]
      have : vis.contains (AllDagsRun.flip c.1 e) = false := by
        rw [← Bool.not_eq_true]; exact fun h2 => hm (h1.1 h2)
      rw [this]
      exact List.Forall₂.cons (h.reverse hL o he) hq

/-- The coded loop computes the result of the loop. -/
theorem floop_spec (hL : ∀ i j, Adj F i j → (i, j) ∈ L) (o : PDAG.AllOracle (Fin 8))
    (hord : ∀ n (s : Finset Arc), (∀ a ∈ s, a ∈ L) → o.arcs.ord n s = L.filter fun a => decide (a ∈ s)) :
    ∀ (k n : ℕ) (q : List (ℕ × ℕ)) (vis v : List ℕ) (qs : List (SmallDag (Fin 8))) (all : Finset (Finset Arc)),
      floop L k q vis = some v → List.Forall₂ (Rep F) q qs → Vis vis all →
      ∃ r, (PDAG.allDagsLoop o ∅ n qs all).run = some (.ok r) ∧ Vis v r := by
  intro k
  induction k with
  | zero =>
    intro n q vis v qs all hr hq hv
    cases hq with
    | nil =>
      rw [floop] at hr
      injection hr with hr; subst hr
      exact ⟨all, by rw [PDAG.allDagsLoop]; rfl, hv⟩
    | cons _ _ => rw [floop] at hr; simp at hr
  | succ k ih =>
    intro n q vis v qs all hr hq hv
    cases hq with
    | nil =>
      rw [floop] at hr
      injection hr with hr; subst hr
      exact ⟨all, by rw [PDAG.allDagsLoop]; rfl, hv⟩
    | cons hd hq =>
      rename_i c d q qs
      obtain ⟨A, R⟩ := c
      rw [floop] at hr
      have hsub : ∀ a ∈ d.rev, a ∈ L := fun a ha =>
        hL a.1 a.2 ((hd.ok.same.skel a.1 a.2).2 (Or.inl (hd.ok.rev a.1 a.2 ha).1.1))
      have hl : o.arcs.ord n d.rev = L.filter fun a => R.testBit (ix a) := by
        rw [hord n _ hsub]
        apply List.filter_congr
        intro a _
        rw [Bool.eq_iff_iff, decide_eq_true_eq, hd.rev, mem_dec]
      have hv' := hv.cons hd.lt
      have harcs : d.arcs = dec A := hd.arcs
      have hp := push_rep hL (o.nodes n) hv' hd (o.arcs.ord n d.rev) (fun e he => (o.arcs.mem_iff _ _ _).1 he) q qs hq
      rw [hl] at hp
      obtain ⟨r, r1, r2⟩ := ih (n + 1) _ _ v _ _ hr hp hv'
      refine ⟨r, ?_, r2⟩
      rw [PDAG.allDagsLoop]
      simp only [harcs]
      rw [hl]
      exact r1

end Model.AllDagsRun
