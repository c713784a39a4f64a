import Verif.Spec.DAGValues

/-! # Objects in memory and objects as values -/

namespace Model

universe u
variable {α : Type u} [DecidableEq α]

namespace Prog

/-- The same method body on a value. -/
def eval : Prog α → DAG α → Option (Step α)
  | .ret e, G => some (G, e)
  | .loop, _ => none
  | .read f, G => eval (f G) G
  | .change s f p, G => eval p (G.put s (f (G.get s)))
  | .changeArcs f p, G => eval p { G with arcs := f G.arcs }
  | .bindArcs f p, G => eval p { G with arcs := f G.arcs }
  | .pop s p, G => eval p (G.put s ∅)

theorem eval_bind (p : Prog α) (q : Option (Exn α) → Prog α) (G : DAG α) :
    (p.bind q).eval G = (p.eval G).bind fun r => (q r.2).eval r.1 := by
  induction p generalizing G with
  | ret e => rfl
  | loop => rfl
  | read f ih => exact ih G G
  | change s f p ih => exact ih _
  | changeArcs f p ih => exact ih _
  | bindArcs f p ih => exact ih _
  | pop s p ih => exact ih _

theorem eval_seq (p q : Prog α) (G : DAG α) :
    (seq p q).eval G = (p.eval G).bind fun r => match r.2 with
      | some e => some (r.1, some e)
      | none => q.eval r.1 := by
  rw [seq, eval_bind]
  congr 1
  funext r
  rcases r.2 with _ | e <;> rfl

theorem eval_seq' {p q : Prog α} {G : DAG α} {r : Step α} {f : DAG α → Step α} (hp : p.eval G = some r)
    (hq : ∀ G, q.eval G = some (f G)) : (seq p q).eval G = some (r.andThen f) := by
  rw [eval_seq, hp]
  rcases r with ⟨G', _ | e⟩
  · exact hq G'
  · rfl

theorem eval_forEach {β : Type u} {body : β → Prog α} {f : DAG α → β → Step α} (h : ∀ x G, (body x).eval G = some (f G x)) (l : List β)
    (G : DAG α) : (forEach body l).eval G = some (Model.forEach f l G) := by
  induction l generalizing G with
  | nil => rfl
  | cons x l ih => exact eval_seq' (h x G) ih

theorem eval_quiet {ig : Bool} {p : Prog α} {G : DAG α} {r : Step α} (hp : p.eval G = some r) :
    (quiet ig p).eval G = some (if ig then (r.1, none) else r) := by
  rw [quiet, eval_bind, hp]
  cases ig <;> rfl

theorem eval_delArc (a : α × α) (G : DAG α) : (delArc a).eval G = some (G.delArc a) := by
  simp only [delArc, eval, DAG.delArc]
  split <;> rfl

theorem put_get (G : DAG α) (s : DSlot α) : G.put s (G.get s) = G := by
  cases s <;> simp [DAG.put, DAG.get]

theorem eval_delPar (k x : α) (G : DAG α) : (delAt (.par k) x).eval G = some (G.delParent k x) := by
  simp only [delAt, eval, DAG.delParent, id, put_get]
  by_cases h : x ∈ G.parents k <;> simp [h, eval, DAG.put, DAG.get]

theorem eval_delChi (k x : α) (G : DAG α) : (delAt (.chi k) x).eval G = some (G.delChild k x) := by
  simp only [delAt, eval, DAG.delChild, id, put_get]
  by_cases h : x ∈ G.children k <;> simp [h, eval, DAG.put, DAG.get]

theorem eval_delNbr (k x : α) (G : DAG α) : (delAt (.nbr k) x).eval G = some (G.delNbr k x) := by
  simp only [delAt, eval, DAG.delNbr, id, put_get]
  by_cases h : x ∈ G.neighbors k <;> simp [h, eval, DAG.put, DAG.get]

theorem eval_removeArc (ig : Bool) (i j : α) (G : DAG α) : (removeArc ig i j).eval G = some (G.removeArc ig i j) :=
  eval_quiet (eval_seq' (eval_seq' (eval_seq' (eval_seq' (eval_delArc _ G) (eval_delPar j i)) (eval_delChi i j)) (eval_delNbr j i))
    (eval_delNbr i j))

theorem eval_link (i j : α) (G : DAG α) : (link i j).eval G = some (G.link i j, none) := rfl

theorem eval_checked (o : SetOrder (Option α) α) {p : Prog α} {f : DAG α → Step α} (hp : ∀ G, p.eval G = some (f G)) (G : DAG α) :
    (checked o p).eval G = match (DAG.topologicalSort G o).run with
      | none => none
      | some (.ok _) => some (G, none)
      | some (.error (.cycle l)) => some ((f G).andThen fun G2 => (G2, some (.cycle l)))
      | some (.error e) => some (G, some e) := by
  simp only [checked, eval]
  rcases (DAG.topologicalSort G o).run with _ | (e | l)
  · rfl
  · cases e <;> first | rfl | exact eval_seq' (hp G) fun _ => rfl
  · rfl

theorem eval_addArc (check : Bool) (o : SetOrder (Option α) α) (i j : α) (G : DAG α) :
    (addArc check o i j).eval G = G.addArc check o i j := by
  simp only [addArc, eval, eval_seq, eval_link, Option.bind_some]
  cases check
  · rfl
  · simp only [if_true, eval_checked o (eval_removeArc false i j), DAG.addArc]
    rfl

theorem eval_links (l : List (α × α)) (G : DAG α) :
    (forEach (fun (a : α × α) => link a.1 a.2) l).eval G = some (l.foldl (fun G a => G.link a.1 a.2) G, none) := by
  rw [eval_forEach (f := fun G a => (G.link a.1 a.2, none)) fun _ _ => rfl]
  congr 1
  induction l generalizing G with
  | nil => rfl
  | cons a l ih => exact ih _

theorem eval_addArcsFrom (check : Bool) (o : SetOrder (Option α) α) (oa : SetOrder Bool (α × α)) (arcs : Finset (α × α)) (G : DAG α) :
    (addArcsFrom check o oa arcs).eval G = G.addArcsFrom check o oa arcs := by
  simp only [addArcsFrom, DAG.addArcsFrom]
  split
  · rfl
  · simp only [eval, eval_seq, eval_links, Option.bind_some]
    cases check
    · rfl
    · simp only [if_true, eval_checked o (eval_forEach (fun (a : α × α) G => eval_removeArc false a.1 a.2 G) (oa.ord true arcs))]
      rfl

theorem eval_removeNode (ig : Bool) (o : SetOrder Bool α) (v : α) (G : DAG α) :
    (removeNode ig o v).eval G = some (G.removeNode ig o v) := by
  refine eval_quiet ?_
  simp only [eval]
  split
  · simp only [eval]
    refine eval_seq' (eval_seq' ?_ ?_) ?_
    · exact eval_forEach (fun p G => eval_seq' (eval_delChi p v G) (eval_delNbr p v)) _ _
    · intro G
      exact eval_forEach (fun p G => eval_seq' (eval_delPar p v G) (eval_delNbr p v)) _ _
    · intro G
      rfl
  · rfl

theorem eval_ofOp (w : DAG.Orders α) (op : DAG.Op α) (G : DAG α) : (ofOp w op).eval G = op.exec w G := by
  cases op with
  | addNode v => rfl
  | addArc check i j => exact eval_addArc ..
  | addArcsFrom check arcs => exact eval_addArcsFrom ..
  | removeArc ig i j => exact eval_removeArc ..
  | removeArcsFrom ig arcs => exact eval_forEach (fun (a : α × α) G => eval_removeArc ig a.1 a.2 G) arcs G
  | reverseArc ig check i j =>
    simp only [ofOp, eval_seq, eval_removeArc, Option.bind_some, DAG.Op.exec, DAG.reverseArc]
    rcases G.removeArc ig i j with ⟨G', _ | e⟩
    · exact eval_addArc ..
    · rfl
  | removeNode ig v => exact eval_removeNode ..

end Prog

namespace DHeap

/-- No two attributes share a set, and none shares one with the caller. -/
structure Apart (h : DHeap α) : Prop where
  arcs : ∀ k < h.count, (h.aslot k).isSome
  lt : ∀ k s l, h.slot k s = some l → l.1 < h.next
  alt : ∀ k l, h.aslot k = some l → l < h.next
  free : ∀ k s l, h.slot k s = some l → l.1 ∉ h.held
  afree : ∀ k l, h.aslot k = some l → l ∉ h.held
  inj : ∀ k s k' s' l, h.slot k s = some l → h.slot k' s' = some l → k = k' ∧ s = s'
  ainj : ∀ k k' l, h.aslot k = some l → h.aslot k' = some l → k = k'
  heldLt : ∀ g ∈ h.held, g < h.next

omit [DecidableEq α] in
theorem start_apart : Apart (start α) :=
  ⟨fun _ h => absurd h (Nat.not_lt_zero _), fun _ _ _ h => by simp [start] at h, fun _ _ h => by simp [start] at h,
    fun _ _ _ h => by simp [start] at h, fun _ _ h => by simp [start] at h, fun _ _ _ _ _ h => by simp [start] at h,
    fun _ _ _ h => by simp [start] at h, fun _ h => by simp [start] at h⟩

omit [DecidableEq α] in
theorem view_get (h : DHeap α) (k : ℕ) (s : DSlot α) : (h.view k).get s = h.val k s := by cases s <;> rfl

omit [DecidableEq α] in
theorem view_eq {h : DHeap α} {k : ℕ} {G : DAG α} (hs : ∀ s, h.val k s = G.get s) (ha : h.arcsOf k = G.arcs) : h.view k = G := by
  refine DAG.ext (hs .nodes) ha (funext fun v => hs (.nbr v)) (funext fun v => hs (.par v)) (funext fun v => hs (.chi v))

omit [DecidableEq α] in
theorem view_congr {h h' : DHeap α} {k k' : ℕ} (hs : ∀ s, h'.val k' s = h.val k s) (ha : h'.arcsOf k' = h.arcsOf k) :
    h'.view k' = h.view k := view_eq (fun s => (hs s).trans (view_get h k s).symm) ha

theorem put_get' (G : DAG α) (s t : DSlot α) (x : Finset α) : (G.put s x).get t = if t = s then x else G.get t := by
  cases s <;> cases t <;> simp [DAG.put, DAG.get, Function.update_apply]

theorem put_arcs (G : DAG α) (s : DSlot α) (x : Finset α) : (G.put s x).arcs = G.arcs := by cases s <;> rfl

/-- The object `k` has become `G`; the others are as before. -/
structure Became (h h' : DHeap α) (k : ℕ) (G : DAG α) : Prop where
  apart : Apart h'
  count : h'.count = h.count
  held : h'.held = h.held
  here : h'.view k = G
  others : ∀ k', k' ≠ k → h'.view k' = h.view k'

theorem change_spec {h : DHeap α} (H : Apart h) (k : ℕ) (s : DSlot α) (f : Finset α → Finset α) :
    Became h (h.change k s f) k ((h.view k).put s (f ((h.view k).get s))) := by
  rw [view_get]
  unfold change
  split
  · next l hl =>
    have hv : ∀ k' s', val { h with ns := Function.update h.ns l (f (h.ns l)) } k' s' =
        if k' = k ∧ s' = s then f (h.val k s) else h.val k' s' := by
      intro k' s'
      unfold val
      simp only
      rcases hs : h.slot k' s' with _ | l'
      · rw [if_neg]
        rintro ⟨rfl, rfl⟩
        rw [hl] at hs
        simp at hs
      · by_cases hll : l' = l
        · subst hll
          rw [if_pos (H.inj _ _ _ _ _ hs hl)]
          simp [hl]
        · rw [if_neg]
          · simp only
            rw [Function.update_of_ne hll]
          rintro ⟨rfl, rfl⟩
          rw [hl] at hs
          exact hll (Option.some.inj hs).symm
    refine ⟨⟨H.arcs, H.lt, H.alt, H.free, H.afree, H.inj, H.ainj, H.heldLt⟩, rfl, rfl, ?_, ?_⟩
    · refine view_eq (fun t => ?_) ?_
      · rw [hv, put_get', view_get]
        simp
      · rw [put_arcs]
        rfl
    · intro k' hk'
      exact view_congr (fun t => by rw [hv, if_neg fun e => hk' e.1]) rfl
  · next hl =>
    have hsl : ∀ k' s' l', Function.update h.slot k (Function.update (h.slot k) s (some (h.next, s))) k' s' = some l' →
        (k' = k ∧ s' = s ∧ l' = (h.next, s)) ∨ (h.slot k' s' = some l') := by
      intro k' s' l' e
      by_cases hk : k' = k
      · subst hk
        rw [Function.update_self] at e
        by_cases hs : s' = s
        · subst hs
          rw [Function.update_self] at e
          exact Or.inl ⟨rfl, rfl, (Option.some.inj e).symm⟩
        · rw [Function.update_of_ne hs] at e
          exact Or.inr e
      · rw [Function.update_of_ne hk] at e
        exact Or.inr e
    refine ⟨⟨H.arcs, ?_, ?_, ?_, H.afree, ?_, H.ainj, ?_⟩, rfl, rfl, ?_, ?_⟩
    · intro k' s' l' e
      rcases hsl k' s' l' e with ⟨_, _, rfl⟩ | e
      · exact Nat.lt_succ_self _
      · exact Nat.lt_succ_of_lt (H.lt _ _ _ e)
    · exact fun k' l e => Nat.lt_succ_of_lt (H.alt k' l e)
    · intro k' s' l' e
      rcases hsl k' s' l' e with ⟨_, _, rfl⟩ | e
      · exact fun hh => lt_irrefl _ (H.heldLt _ hh)
      · exact H.free _ _ _ e
    · intro k1 s1 k2 s2 l' e1 e2
      rcases hsl _ _ _ e1 with ⟨rfl, rfl, rfl⟩ | e3 <;> rcases hsl _ _ _ e2 with ⟨rfl, rfl, h2⟩ | e4
      · exact ⟨rfl, rfl⟩
      · exact absurd (H.lt _ _ _ e4) (lt_irrefl _)
      · subst h2
        exact absurd (H.lt _ _ _ e3) (lt_irrefl _)
      · exact H.inj _ _ _ _ _ e3 e4
    · exact fun g hg => Nat.lt_succ_of_lt (H.heldLt g hg)
    · refine view_eq (fun t => ?_) ?_
      · rw [put_get', view_get]
        unfold val
        simp only [Function.update_self]
        by_cases hts : t = s
        · subst hts
          simp [hl]
        · rw [Function.update_of_ne hts, if_neg hts]
          rcases ht : h.slot k t with _ | l'
          · rfl
          · simp only
            rw [Function.update_of_ne]
            rintro rfl
            exact lt_irrefl _ (H.lt _ _ _ ht)
      · rw [put_arcs]
        rfl
    · intro k' hk'
      refine view_congr (fun t => ?_) rfl
      unfold val
      simp only [Function.update_of_ne hk']
      rcases ht : h.slot k' t with _ | l'
      · rfl
      · simp only
        rw [Function.update_of_ne]
        rintro rfl
        exact lt_irrefl _ (H.lt _ _ _ ht)

omit [DecidableEq α] in
theorem changeArcs_spec {h : DHeap α} (H : Apart h) {k : ℕ} (hk : k < h.count) (f : Finset (α × α) → Finset (α × α)) :
    Became h (h.changeArcs k f) k { h.view k with arcs := f (h.view k).arcs } := by
  unfold changeArcs
  rcases hl : h.aslot k with _ | l
  · exact absurd (H.arcs k hk) (by simp [hl])
  · simp only
    refine ⟨⟨H.arcs, H.lt, H.alt, H.free, H.afree, H.inj, H.ainj, H.heldLt⟩, rfl, rfl, ?_, ?_⟩
    · refine view_eq (fun t => ?_) ?_
      · rw [show DAG.get { h.view k with arcs := f (h.view k).arcs } t = (h.view k).get t by cases t <;> rfl, view_get]
        rfl
      · simp [arcsOf, view, hl]
    · intro k' hk'
      refine view_congr (fun t => rfl) ?_
      unfold arcsOf
      simp only
      rcases hl' : h.aslot k' with _ | l'
      · rfl
      · simp only
        rw [Function.update_of_ne]
        rintro rfl
        exact hk' (H.ainj _ _ _ hl' hl)

omit [DecidableEq α] in
theorem bindArcs_spec {h : DHeap α} (H : Apart h) (k : ℕ) (f : Finset (α × α) → Finset (α × α)) :
    Became h (h.bindArcs k f) k { h.view k with arcs := f (h.view k).arcs } := by
  have hsl : ∀ k' l', Function.update h.aslot k (some h.next) k' = some l' → (k' = k ∧ l' = h.next) ∨ h.aslot k' = some l' := by
    intro k' l' e
    by_cases hk : k' = k
    · subst hk
      rw [Function.update_self] at e
      exact Or.inl ⟨rfl, (Option.some.inj e).symm⟩
    · rw [Function.update_of_ne hk] at e
      exact Or.inr e
  refine ⟨⟨?_, ?_, ?_, H.free, ?_, H.inj, ?_, ?_⟩, rfl, rfl, ?_, ?_⟩
  · intro k' hk'
    by_cases hk : k' = k
    · subst hk
      simp [bindArcs]
    · simp only [bindArcs, Function.update_of_ne hk]
      exact H.arcs k' hk'
  · exact fun k' s' l e => Nat.lt_succ_of_lt (H.lt k' s' l e)
  · intro k' l' e
    rcases hsl k' l' e with ⟨_, rfl⟩ | e
    · exact Nat.lt_succ_self _
    · exact Nat.lt_succ_of_lt (H.alt _ _ e)
  · intro k' l' e
    rcases hsl k' l' e with ⟨_, rfl⟩ | e
    · exact fun hh => lt_irrefl _ (H.heldLt _ hh)
    · exact H.afree _ _ e
  · intro k1 k2 l' e1 e2
    rcases hsl _ _ e1 with ⟨rfl, rfl⟩ | e3 <;> rcases hsl _ _ e2 with ⟨rfl, h2⟩ | e4
    · rfl
    · exact absurd (H.alt _ _ e4) (lt_irrefl _)
    · subst h2
      exact absurd (H.alt _ _ e3) (lt_irrefl _)
    · exact H.ainj _ _ _ e3 e4
  · exact fun g hg => Nat.lt_succ_of_lt (H.heldLt g hg)
  · refine view_eq (fun t => ?_) ?_
    · rw [show DAG.get { h.view k with arcs := f (h.view k).arcs } t = (h.view k).get t by cases t <;> rfl, view_get]
      rfl
    · simp [arcsOf, view, bindArcs]
  · intro k' hk'
    refine view_congr (fun t => rfl) ?_
    unfold arcsOf bindArcs
    simp only [Function.update_of_ne hk']
    rcases hl' : h.aslot k' with _ | l'
    · rfl
    · simp only
      rw [Function.update_of_ne]
      rintro rfl
      exact lt_irrefl _ (H.alt _ _ hl')

theorem pop_spec {h : DHeap α} (H : Apart h) (k : ℕ) (s : DSlot α) : Became h (h.pop k s) k ((h.view k).put s ∅) := by
  have hsl : ∀ k' s' l', Function.update h.slot k (Function.update (h.slot k) s none) k' s' = some l' → h.slot k' s' = some l' := by
    intro k' s' l' e
    by_cases hk : k' = k
    · subst hk
      rw [Function.update_self] at e
      by_cases hs : s' = s
      · subst hs
        simp at e
      · rwa [Function.update_of_ne hs] at e
    · rwa [Function.update_of_ne hk] at e
  refine ⟨⟨H.arcs, fun _ _ _ e => H.lt _ _ _ (hsl _ _ _ e), H.alt, fun _ _ _ e => H.free _ _ _ (hsl _ _ _ e), H.afree,
    fun _ _ _ _ _ e e' => H.inj _ _ _ _ _ (hsl _ _ _ e) (hsl _ _ _ e'), H.ainj, H.heldLt⟩, rfl, rfl, ?_, ?_⟩
  · refine view_eq (fun t => ?_) ?_
    · rw [put_get', view_get]
      by_cases hts : t = s <;> simp [val, pop, hts]
    · rw [put_arcs]
      rfl
  · intro k' hk'
    refine view_congr (fun t => ?_) rfl
    simp [val, pop, hk']

omit [DecidableEq α] in
theorem Became.trans {h h' h'' : DHeap α} {k : ℕ} {G G' : DAG α} (a : Became h h' k G) (b : Became h' h'' k G') : Became h h'' k G' :=
  ⟨b.apart, b.count.trans a.count, b.held.trans a.held, b.here, fun k' hk' => (b.others k' hk').trans (a.others k' hk')⟩

/-- A method body in the memory does to object `k` what it does to the value. -/
theorem exec_spec (p : Prog α) {h : DHeap α} (H : Apart h) {k : ℕ} (hk : k < h.count) :
    match exec k p h with
    | none => p.eval (h.view k) = none
    | some r => ∃ G, p.eval (h.view k) = some (G, r.2) ∧ Became h r.1 k G := by
  induction p generalizing h with
  | ret e => exact ⟨_, rfl, H, rfl, rfl, rfl, fun _ _ => rfl⟩
  | loop => rfl
  | read f ih => exact ih (h.view k) H hk
  | change s f p ih =>
    have B := change_spec H k s f
    have hi := ih B.apart (B.count ▸ hk)
    rw [B.here] at hi
    simp only [exec, Prog.eval]
    split <;> rename_i e <;> rw [e] at hi
    · exact hi
    · obtain ⟨G, e1, B'⟩ := hi
      exact ⟨G, e1, B.trans B'⟩
  | changeArcs f p ih =>
    have B := changeArcs_spec H hk f
    have hi := ih B.apart (B.count ▸ hk)
    rw [B.here] at hi
    simp only [exec, Prog.eval]
    split <;> rename_i e <;> rw [e] at hi
    · exact hi
    · obtain ⟨G, e1, B'⟩ := hi
      exact ⟨G, e1, B.trans B'⟩
  | bindArcs f p ih =>
    have B := bindArcs_spec H k f
    have hi := ih B.apart (B.count ▸ hk)
    rw [B.here] at hi
    simp only [exec, Prog.eval]
    split <;> rename_i e <;> rw [e] at hi
    · exact hi
    · obtain ⟨G, e1, B'⟩ := hi
      exact ⟨G, e1, B.trans B'⟩
  | pop s p ih =>
    have B := pop_spec H k s
    have hi := ih B.apart (B.count ▸ hk)
    rw [B.here] at hi
    simp only [exec, Prog.eval]
    split <;> rename_i e <;> rw [e] at hi
    · exact hi
    · obtain ⟨G, e1, B'⟩ := hi
      exact ⟨G, e1, B.trans B'⟩

omit [DecidableEq α] in
theorem give_spec {h : DHeap α} (H : Apart h) (f : DSlot α → Finset α) (a : Finset (α × α)) :
    Apart (h.give f a) ∧ (h.give f a).count = h.count ∧ ∀ k, (h.give f a).view k = h.view k := by
  refine ⟨⟨H.arcs, ?_, ?_, ?_, ?_, H.inj, H.ainj, ?_⟩, rfl, fun k => view_congr (fun t => ?_) ?_⟩
  · exact fun k s l e => Nat.lt_succ_of_lt (H.lt k s l e)
  · exact fun k l e => Nat.lt_succ_of_lt (H.alt k l e)
  · intro k s l e hh
    rcases Finset.mem_insert.1 hh with hh | hh
    · exact absurd (H.lt k s l e) (by omega)
    · exact H.free k s l e hh
  · intro k l e hh
    rcases Finset.mem_insert.1 hh with hh | hh
    · exact absurd (H.alt k l e) (by omega)
    · exact H.afree k l e hh
  · intro g hg
    rcases Finset.mem_insert.1 hg with hh | hh
    · simp only [give]; omega
    · exact Nat.lt_succ_of_lt (H.heldLt g hh)
  · simp only [val, give]
    rcases ht : h.slot k t with _ | l
    · rfl
    · have := H.lt k t l ht
      simp only
      rw [if_neg (by omega)]
  · simp only [arcsOf, give]
    rcases ht : h.aslot k with _ | l
    · rfl
    · have := H.alt k l ht
      simp only
      rw [Function.update_of_ne (by omega)]

omit [DecidableEq α] in
theorem alloc_spec {h : DHeap α} (H : Apart h) (key : DSlot α → Bool) (f : DSlot α → Finset α) (a : Finset (α × α))
    (hf : ∀ s, key s = false → f s = ∅) :
    Apart (h.alloc key f a) ∧ (h.alloc key f a).count = h.count + 1 ∧
      (h.alloc key f a).view h.count = ⟨f .nodes, a, fun v => f (.nbr v), fun v => f (.par v), fun v => f (.chi v)⟩ ∧
      ∀ k ≠ h.count, (h.alloc key f a).view k = h.view k := by
  have hsl : ∀ k s l, (h.alloc key f a).slot k s = some l → (k = h.count ∧ l = (h.next, s)) ∨ h.slot k s = some l := by
    intro k s l e
    simp only [alloc] at e
    by_cases hk : k = h.count
    · subst hk
      rw [Function.update_self] at e
      split at e
      · exact Or.inl ⟨rfl, (Option.some.inj e).symm⟩
      · simp at e
    · rw [Function.update_of_ne hk] at e
      exact Or.inr e
  have hasl : ∀ k l, (h.alloc key f a).aslot k = some l → (k = h.count ∧ l = h.next) ∨ h.aslot k = some l := by
    intro k l e
    simp only [alloc] at e
    by_cases hk : k = h.count
    · subst hk
      rw [Function.update_self] at e
      exact Or.inl ⟨rfl, (Option.some.inj e).symm⟩
    · rw [Function.update_of_ne hk] at e
      exact Or.inr e
  have hn : h.next ∉ h.held := fun hh => lt_irrefl _ (H.heldLt _ hh)
  refine ⟨⟨?_, ?_, ?_, ?_, ?_, ?_, ?_, ?_⟩, rfl, view_eq (fun t => ?_) ?_, fun k hk => view_congr (fun t => ?_) ?_⟩
  · intro k hk
    simp only [alloc] at hk ⊢
    by_cases hkc : k = h.count
    · subst hkc
      simp
    · rw [Function.update_of_ne hkc]
      exact H.arcs k (by omega)
  · intro k s l e
    rcases hsl k s l e with ⟨_, rfl⟩ | e
    · exact Nat.lt_succ_self _
    · exact Nat.lt_succ_of_lt (H.lt _ _ _ e)
  · intro k l e
    rcases hasl k l e with ⟨_, rfl⟩ | e
    · exact Nat.lt_succ_self _
    · exact Nat.lt_succ_of_lt (H.alt _ _ e)
  · intro k s l e
    rcases hsl k s l e with ⟨_, rfl⟩ | e
    · exact hn
    · exact H.free _ _ _ e
  · intro k l e
    rcases hasl k l e with ⟨_, rfl⟩ | e
    · exact hn
    · exact H.afree _ _ e
  · intro k1 s1 k2 s2 l e1 e2
    rcases hsl _ _ _ e1 with ⟨rfl, rfl⟩ | e1 <;> rcases hsl _ _ _ e2 with ⟨rfl, h2⟩ | e2
    · exact ⟨rfl, (Prod.mk.inj h2).2⟩
    · exact absurd (H.lt _ _ _ e2) (lt_irrefl _)
    · subst h2
      exact absurd (H.lt _ _ _ e1) (lt_irrefl _)
    · exact H.inj _ _ _ _ _ e1 e2
  · intro k1 k2 l e1 e2
    rcases hasl _ _ e1 with ⟨rfl, rfl⟩ | e1 <;> rcases hasl _ _ e2 with ⟨rfl, h2⟩ | e2
    · rfl
    · exact absurd (H.alt _ _ e2) (lt_irrefl _)
    · subst h2
      exact absurd (H.alt _ _ e1) (lt_irrefl _)
    · exact H.ainj _ _ _ e1 e2
  · exact fun g hg => Nat.lt_succ_of_lt (H.heldLt g hg)
  · rw [show DAG.get ⟨f .nodes, a, fun v => f (.nbr v), fun v => f (.par v), fun v => f (.chi v)⟩ t = f t by cases t <;> rfl]
    simp only [val, alloc, Function.update_self]
    rcases ht : key t with _ | _
    · simp [hf t ht]
    · simp
  · simp [arcsOf, alloc]
  · simp only [val, alloc, Function.update_of_ne hk]
    rcases ht : h.slot k t with _ | l
    · rfl
    · have := H.lt k t l ht
      simp only
      rw [if_neg (by omega)]
  · simp only [arcsOf, alloc, Function.update_of_ne hk]
    rcases ht : h.aslot k with _ | l
    · rfl
    · have := H.alt k l ht
      simp only
      rw [Function.update_of_ne (by omega)]

/-! ## The list of objects -/

omit [DecidableEq α] in
theorem views_getElem? (h : DHeap α) (k : ℕ) : h.views[k]? = if k < h.count then some (h.view k) else none := by
  unfold views
  split <;> rename_i hk <;> simp [hk]

omit [DecidableEq α] in
theorem views_congr {h h' : DHeap α} (hc : h'.count = h.count) (hv : ∀ k < h.count, h'.view k = h.view k) : h'.views = h.views := by
  unfold views
  rw [hc]
  exact List.map_congr_left fun k hk => hv k (List.mem_range.1 hk)

omit [DecidableEq α] in
theorem views_set {h h' : DHeap α} {k : ℕ} {G : DAG α} (B : Became h h' k G) (hk : k < h.count) : h'.views = h.views.set k G := by
  refine List.ext_getElem? fun i => ?_
  rw [List.getElem?_set, views_getElem?, views_getElem?, B.count]
  by_cases hi : k = i
  · subst hi
    simp [hk, B.here, views]
  · rw [if_neg hi, B.others i (Ne.symm hi)]

omit [DecidableEq α] in
theorem views_append {h h' : DHeap α} {G : DAG α} (hc : h'.count = h.count + 1) (hv : ∀ k ≠ h.count, h'.view k = h.view k)
    (hG : h'.view h.count = G) : h'.views = h.views ++ [G] := by
  unfold views
  rw [hc, List.range_succ, List.map_append, List.map_singleton, hG]
  congr 1
  exact List.map_congr_left fun k hk => hv k (List.mem_range.1 hk).ne

/-- The memory and the values go on alike. -/
def Alike (r : Option (DHeap α × Out α)) (v : Option (List (DAG α) × Out α)) : Prop :=
  match r with
  | none => v = none
  | some (h, x) => Apart h ∧ v = some (h.views, x)

omit [DecidableEq α] in
theorem alike_obj {h : DHeap α} (H : Apart h) (k : ℕ) {f : DHeap α → DHeap α × Out α} {g : DAG α → Option (List (DAG α) × Out α)}
    (hf : k < h.count → Apart (f h).1 ∧ g (h.view k) = some ((f h).1.views, (f h).2)) :
    Alike (some (onObj k h f)) (onVal k h.views g) := by
  unfold onObj onVal Alike
  rw [views_getElem?]
  by_cases hk : k < h.count
  · simp only [hk, if_true]
    exact hf hk
  · simp only [hk, if_false]
    exact ⟨H, trivial⟩

omit [DecidableEq α] in
theorem alike_give {h : DHeap α} (H : Apart h) (f : DSlot α → Finset α) (a : Finset (α × α)) :
    Apart (h.give f a) ∧ (h.give f a).views = h.views := by
  obtain ⟨h1, h2, h3⟩ := give_spec H f a
  exact ⟨h1, views_congr h2 fun k _ => h3 k⟩

theorem alike_single {h : DHeap α} (H : Apart h) (k : ℕ) (s : DSlot α) :
    Alike (some (onObj k h (single k s))) (onVal k h.views fun G => some (h.views, .nodeSet (G.get s))) := by
  refine alike_obj H k fun hk => ?_
  obtain ⟨h1, h2⟩ := alike_give H (fun t => if t = s then h.val k s else ∅) ∅
  exact ⟨h1, by rw [view_get]; exact congrArg (fun P => some (P, Out.nodeSet (h.val k s))) h2.symm⟩

theorem alike_dictionary {h : DHeap α} (H : Apart h) (k : ℕ) (c : α → DSlot α) :
    Alike (some (onObj k h (dictionary k c))) (onVal k h.views fun G => some (h.views, .dict fun v => G.get (c v))) := by
  refine alike_obj H k fun hk => ?_
  obtain ⟨h1, h2⟩ := alike_give H (fun t => match t with
    | .nodes => ∅
    | .nbr v | .par v | .chi v => if t = c v then h.val k t else ∅) ∅
  exact ⟨h1, by simp only [view_get]; exact congrArg (fun P => some (P, Out.dict fun v => h.val k (c v))) h2.symm⟩

theorem step_spec {h : DHeap α} (H : Apart h) (w : DAG.Orders α) (a : Act α) : Alike (h.step w a) (stepV w h.views a) := by
  cases a with
  | new nodes arcs =>
    obtain ⟨g1, g2⟩ := alike_give H (fun _ => nodes) arcs
    obtain ⟨a1, a2, a3, a4⟩ := alloc_spec g1 (fun s => decide (s = .nodes)) (fun s => if s = .nodes then nodes else ∅) ∅
      (fun s hs => if_neg (of_decide_eq_false hs))
    have he := exec_spec (Prog.addArcsFrom true w.top w.arcs arcs) a1 (k := (h.give (fun _ => nodes) arcs).count)
      (by rw [a2]; exact Nat.lt_succ_self _)
    rw [a3, Prog.eval_addArcsFrom, show (⟨_, _, _, _, _⟩ : DAG α) = DAG.empty nodes by simp [DAG.empty]] at he
    simp only [step, stepV, DAG.new, passed]
    split at he <;> rename_i e
    · rw [e, he]
      exact rfl
    · rename_i r
      obtain ⟨G, e1, B⟩ := he
      rw [e, e1]
      rcases r with ⟨h', _ | x⟩
      · refine ⟨B.apart, ?_⟩
        rw [views_append (h := h.give (fun _ => nodes) arcs) (B.count.trans a2) (fun k hk => (B.others k hk).trans (a4 k hk)) B.here, g2]
      · exact ⟨g1, by rw [g2]⟩
  | copy k =>
    refine alike_obj H k fun hk => ?_
    obtain ⟨a1, a2, a3, a4⟩ := alloc_spec H (fun s => (h.slot k s).isSome) (h.val k) (h.arcsOf k)
      (fun s hs => by simp [val, Option.isSome_eq_false_iff.1 hs |> Option.isNone_iff_eq_none.1])
    exact ⟨a1, by dsimp only; rw [views_append a2 a4 a3]; rfl⟩
  | call k op =>
    simp only [step, stepV, onVal, views_getElem?]
    by_cases hk : k < h.count
    · simp only [hk, if_true]
      have he := exec_spec (Prog.ofOp w op) H hk
      rw [Prog.eval_ofOp] at he
      split at he <;> rename_i e
      · rw [e, he]
        exact rfl
      · rename_i r
        obtain ⟨G, e1, B⟩ := he
        rw [e, e1]
        exact ⟨B.apart, by rw [views_set B hk]⟩
    · simp only [hk, if_false]
      exact ⟨H, rfl⟩
  | nodes k => exact alike_single H k .nodes
  | arcs k =>
    refine alike_obj H k fun hk => ?_
    obtain ⟨h1, h2⟩ := alike_give H (fun _ => ∅) (h.arcsOf k)
    exact ⟨h1, congrArg (fun P => some (P, Out.arcSet (h.arcsOf k))) h2.symm⟩
  | parents k => exact alike_dictionary H k .par
  | children k => exact alike_dictionary H k .chi
  | neighbors k => exact alike_dictionary H k .nbr
  | parentsOf k v => exact alike_single H k (.par v)
  | childrenOf k v => exact alike_single H k (.chi v)
  | neighborsOf k v => exact alike_single H k (.nbr v)
  | change l s =>
    simp only [step, stepV]
    by_cases hl : l.1 ∈ h.held
    · rw [if_pos hl]
      refine ⟨⟨H.arcs, H.lt, H.alt, H.free, H.afree, H.inj, H.ainj, H.heldLt⟩, ?_⟩
      have hv : ({ h with ns := Function.update h.ns l s } : DHeap α).views = h.views := by
        refine views_congr rfl fun k _ => view_congr (fun t => ?_) rfl
        simp only [val]
        rcases ht : h.slot k t with _ | l'
        · rfl
        · simp only
          rw [Function.update_of_ne]
          rintro rfl
          exact H.free _ _ _ ht hl
      rw [hv]
    · rw [if_neg hl]
      exact ⟨H, rfl⟩
  | changeArcs l s =>
    simp only [step, stepV]
    by_cases hl : l ∈ h.held
    · rw [if_pos hl]
      refine ⟨⟨H.arcs, H.lt, H.alt, H.free, H.afree, H.inj, H.ainj, H.heldLt⟩, ?_⟩
      have hv : ({ h with as := Function.update h.as l s } : DHeap α).views = h.views := by
        refine views_congr rfl fun k _ => view_congr (fun t => rfl) ?_
        simp only [arcsOf]
        rcases ht : h.aslot k with _ | l'
        · rfl
        · simp only
          rw [Function.update_of_ne]
          rintro rfl
          exact H.afree _ _ ht hl
      rw [hv]
    · rw [if_neg hl]
      exact ⟨H, rfl⟩

theorem run_spec (l : List (DAG.Orders α × Act α)) {h : DHeap α} (H : Apart h) :
    (run l h).map (fun r => (r.1.views, r.2)) = runV l h.views := by
  induction l generalizing h with
  | nil => rfl
  | cons p l ih =>
    obtain ⟨w, a⟩ := p
    have hs := step_spec H w a
    simp only [run, runV]
    rcases e : h.step w a with _ | ⟨h', x⟩ <;> rw [e] at hs
    · rw [show stepV w h.views a = none from hs]
      rfl
    · obtain ⟨H', e'⟩ := hs
      rw [e']
      simp only
      rw [← ih H', Option.map_map, Option.map_map]
      rfl

theorem run_apart (l : List (DAG.Orders α × Act α)) {h h' : DHeap α} {x : List (Out α)} (H : Apart h) (hr : run l h = some (h', x)) :
    Apart h' := by
  induction l generalizing h h' x with
  | nil =>
    cases hr
    exact H
  | cons p l ih =>
    obtain ⟨w, a⟩ := p
    have hs := step_spec H w a
    simp only [run] at hr
    rcases e : h.step w a with _ | ⟨h1, y⟩ <;> rw [e] at hs hr
    · cases hr
    · obtain ⟨⟨h2, z⟩, e2, e3⟩ := Option.map_eq_some_iff.1 hr
      cases e3
      exact ih hs.1 e2

end DHeap

end Model
