import Verif.Model.DirectEffect

/-! # C263: `direct_effect` -/

namespace Props

open Model

variable {α : Type} [DecidableEq α]

private theorem foldlM_direct (cond : List α) (w : ℕ) : ∀ (l : List (α × ℕ)) (M : ℕ → ℕ → Option ℝ),
    ((∀ p ∈ l, p.1 ∉ cond → p.2 < w) → ∃ M', l.foldlM (Cam.directStep cond w) M = .ok M' ∧
      (∀ r c, M r c = none → M' r c = none) ∧ ∀ p ∈ l, p.1 ∉ cond → ∀ r, M' r p.2 = none) ∧
    ((∃ p ∈ l, p.1 ∉ cond ∧ w ≤ p.2) → l.foldlM (Cam.directStep cond w) M = .error .index) := by
  intro l
  induction l with
  | nil => intro M; exact ⟨fun _ => ⟨M, rfl, fun _ _ h => h, by simp⟩, by simp⟩
  | cons p l ih =>
    intro M
    constructor
    · intro h
      by_cases hp : p.1 ∈ cond
      · obtain ⟨M', h1, h2, h3⟩ := (ih M).1 fun q hq => h q (List.mem_cons_of_mem _ hq)
        refine ⟨M', ?_, h2, ?_⟩
        · rw [List.foldlM_cons, Cam.directStep, if_pos hp]; exact h1
        · intro q hq hqc
          rcases List.mem_cons.1 hq with rfl | hq
          exacts [absurd hp hqc, h3 q hq hqc]
      · obtain ⟨M', h1, h2, h3⟩ := (ih fun r c => if c = p.2 then none else M r c).1 fun q hq => h q (List.mem_cons_of_mem _ hq)
        refine ⟨M', ?_, fun r c hM => h2 r c (by simp [hM]), ?_⟩
        · rw [List.foldlM_cons, Cam.directStep, if_neg hp, if_pos (h p List.mem_cons_self hp)]; exact h1
        · intro q hq hqc
          rcases List.mem_cons.1 hq with rfl | hq
          exacts [fun r => h2 r _ (by simp), h3 q hq hqc]
    · rintro ⟨q, hq, hqc, hw⟩
      rw [List.foldlM_cons, Cam.directStep]
      by_cases hp : p.1 ∈ cond
      · rw [if_pos hp]
        refine (ih M).2 ⟨q, ?_, hqc, hw⟩
        exact (List.mem_cons.1 hq).resolve_left fun h => hqc (h ▸ hp)
      · rw [if_neg hp]
        by_cases hpw : p.2 < w
        · rw [if_pos hpw]
          exact (ih _).2 ⟨q, (List.mem_cons.1 hq).resolve_left fun h => by subst h; omega, hqc, hw⟩
        · rw [if_neg hpw]; rfl

private theorem drop_perm {nodes cond : List α} (hn : nodes.Nodup) (hc : cond.Nodup) (hs : cond ⊆ nodes) :
    (nodes.drop (nodes.length - cond.length)).Perm cond ↔ ∀ p ∈ nodes.zipIdx, p.1 ∉ cond → p.2 < nodes.length - cond.length := by
  have hle : cond.length ≤ nodes.length := (hc.subperm hs).length_le
  constructor
  · rintro h ⟨a, i⟩ hp ha
    by_contra hi
    refine ha (h.mem_iff.1 ?_)
    have := List.mk_mem_zipIdx_iff_getElem?.1 hp
    refine List.mem_of_getElem? (i := i - (nodes.length - cond.length)) ?_
    rw [List.getElem?_drop, ← this]
    congr 1
    simp only at hi
    omega
  · intro h
    refine (((hn.sublist (List.drop_sublist _ _)).subperm fun a ha => ?_).perm_of_length_le (by rw [List.length_drop]; omega))
    obtain ⟨i, hi⟩ := List.mem_iff_getElem?.1 ha
    rw [List.getElem?_drop] at hi
    by_contra hac
    have := h (a, _) (List.mk_mem_zipIdx_iff_getElem?.2 hi) hac
    simp only at this
    omega

/-- C263. `direct_effect` returns an array if the conditioning nodes are the last nodes of the list, and every entry is `nan`. -/
theorem C263_last_partial {nodes cond : List α} (hn : nodes.Nodup) (hc : cond.Nodup) (hs : cond ⊆ nodes)
    (h : (nodes.drop (nodes.length - cond.length)).Perm cond) :
    ∃ M, Cam.directEffect nodes cond = .ok M ∧ ∀ r c, c < nodes.length - cond.length → M r c = none := by
  have hle : cond.length ≤ nodes.length := (hc.subperm hs).length_le
  obtain ⟨M, h1, -, h3⟩ := (foldlM_direct cond (nodes.length - cond.length) nodes.zipIdx fun _ _ => some 0).1 ((drop_perm hn hc hs).1 h)
  refine ⟨M, by rw [Cam.directEffect, if_neg (by omega)]; exact h1, fun r c hcw => ?_⟩
  have hlt : c < nodes.length := by omega
  refine h3 (nodes[c], c) (List.mk_mem_zipIdx_iff_getElem?.2 (List.getElem?_eq_getElem hlt)) (fun hmem => ?_) r
  obtain ⟨i, hi⟩ := List.mem_iff_getElem?.1 (h.mem_iff.2 hmem)
  rw [List.getElem?_drop] at hi
  have hi' : nodes.length - cond.length + i < nodes.length := by
    by_contra hx
    rw [List.getElem?_eq_none (by omega)] at hi
    cases hi
  rw [List.getElem?_eq_getElem hi', Option.some.injEq] at hi
  have := (hn.getElem_inj_iff).1 hi
  omega

example : (([0, 1, 2, 3] : List ℕ).drop 2).Perm [3, 2] := List.Perm.swap _ _ _

/-- C263. In all other cases it raises `IndexError`. -/
theorem C263_raises {nodes cond : List α} (hn : nodes.Nodup) (hc : cond.Nodup) (hs : cond ⊆ nodes)
    (h : ¬ (nodes.drop (nodes.length - cond.length)).Perm cond) : Cam.directEffect nodes cond = .error .index := by
  have hle : cond.length ≤ nodes.length := (hc.subperm hs).length_le
  rw [drop_perm hn hc hs] at h
  push Not at h
  obtain ⟨p, hp, hpc, hw⟩ := h
  rw [Cam.directEffect, if_neg (by omega)]
  exact (foldlM_direct cond _ nodes.zipIdx _).2 ⟨p, hp, hpc, hw⟩

/-- C263, violated: for nodes `[0, 1]`, conditioning on node 0 raises `IndexError`; conditioning on node 1 gives `nan`. -/
theorem C263_violated : Cam.directEffect [0, 1] [0] = .error .index ∧ ∃ M, Cam.directEffect [0, 1] [1] = .ok M ∧ M 0 0 = none := by
  refine ⟨C263_raises (by simp) (by simp) (by simp) (by simp), ?_⟩
  obtain ⟨M, h1, h2⟩ := C263_last_partial (nodes := [0, 1]) (cond := [1]) (by simp) (by simp) (by simp) (by simp)
  exact ⟨M, h1, h2 0 0 (by simp)⟩

end Props
