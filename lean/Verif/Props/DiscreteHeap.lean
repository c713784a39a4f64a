import Verif.Proof.DiscreteHeap
import Verif.Proof.DiscreteIv

/-! # `DiscreteDAG` objects and the dictionaries of the caller (property C259) -/

namespace Props

open Model Model.DiscreteHeap
open scoped NNReal

/-- C259, what holds: whatever objects are built, copied, intervened on and changed with `set_conditional`, in any interleaving, as long as the
caller passes each dictionary to one constructor only and does not change it any more, nor one read off an object, every statement gives what
it would give if dictionaries were passed by value, and every object is in the state its own calls give it. -/
theorem C259_values_partial {α : Type} [DecidableEq α] (o : SetOrder (Option α) α) (oa : SetOrder Bool (α × α)) (l : List (Op α))
    (hp : Val.Polite o oa Val.init l) : (Mem.init.run o oa l).2 = (Val.init.run o oa l).2 ∧
      (Val.init.run o oa l).1.objs = (Mem.init.run o oa l).1.objs.map (Mem.init.run o oa l).1.value := by
  obtain ⟨h1, h2⟩ := run_rel o oa l rel_init hp
  exact ⟨h2, h1.objs⟩

namespace DiscreteCell

/-- The table `[p, 1 - p]` of a node without parents. -/
noncomputable def coin (p : ℝ≥0) : Tensor ℝ≥0 := ⟨[2], fun i => if i = [0] then p else 1 - p⟩

theorem coin_ne : coin 0 ≠ coin 1 := fun h => by
  have := congrFun (congrArg Tensor.val h) [0]
  simp [coin] at this

/-- `DiscreteDAG({0}, set(), x, {0: []}, {0: [0, 1]})`. -/
def make (x : ℕ) : Op ℕ := .new x {0} ∅ (fun _ => []) fun _ => [0, 1]

theorem make_ok (o : SetOrder (Option ℕ) ℕ) (oa : SetOrder Bool (ℕ × ℕ)) : ∃ G : DAG ℕ, ∀ p, DiscreteDAG.new o oa {0} ∅ (fun _ => coin p)
    (fun _ => []) (fun _ => [0, 1]) = some (.ok ⟨G, fun _ => coin p, fun _ => [], fun _ => [0, 1]⟩) := by
  obtain ⟨G, h1, -, -⟩ := DAG.new_ok o oa ({0} : Finset ℕ) ∅ (fun v h => by
    obtain ⟨_, h, -⟩ := Relation.TransGen.head'_iff.1 h
    simp at h)
  refine ⟨G, fun p => ?_⟩
  rw [DiscreteDAG.new, h1]
  exact if_pos fun v _ => rfl

end DiscreteCell

open DiscreteCell

/-- An object, its copy and an intervention, with changes of the tables of each. -/
example (o : SetOrder (Option ℕ) ℕ) (oa : SetOrder Bool (ℕ × ℕ)) (t : Tensor ℝ≥0) : Val.Polite o oa Val.init
    [.dict fun _ => coin 0, .dict fun _ => coin 0, .assign 1 0 t, make 0, .copy 0, .setConditional 0 0 t, .intervene 0 0 1,
      .setConditional 2 0 (coin 1), .conditionals 1, .look 0, .look 1] := by
  refine ⟨by simp, by simp, by simp, by simp, ?_, by simp, by simp [make], ?_, by simp, by simp, by simp, by simp, by simp, by simp, by simp,
    by simp, by simp, by simp, by simp, by simp, by simp, by simp, trivial⟩
  · rintro x v t ⟨⟩
    simp [Val.exec, Val.init]
  · rintro x nodes arcs pars alph ⟨⟩
    simp [Val.exec, Val.init]

/-- `set_conditional` on an object changes neither its copy nor the dictionary of another object. -/
example (o : SetOrder (Option ℕ) ℕ) (oa : SetOrder Bool (ℕ × ℕ)) : ∃ D, (Mem.init.run o oa
    [.dict fun _ => coin 0, make 0, .copy 0, .setConditional 0 0 (coin 1), .look 1]).2 = [.nothing, .nothing, .nothing, .nothing, .object D] ∧
      D.cond 0 = coin 0 := by
  obtain ⟨G, hG⟩ := make_ok o oa
  exact ⟨_, by simp [Mem.run, Mem.exec, Mem.init, Mem.push, make, hG, Mem.value]; rfl, by simp⟩

/-- C259 violated: `d = {0: t}; g = DiscreteDAG({0}, set(), d, ...); h = DiscreteDAG({0}, set(), d, ...); g.set_conditional(0, u)` changes the
table of `h`, and `d[0] = u` changes both. -/
theorem C259_violated (o : SetOrder (Option ℕ) ℕ) (oa : SetOrder Bool (ℕ × ℕ)) :
    (∃ D D', (Mem.init.run o oa [.dict fun _ => coin 0, make 0, make 0, .setConditional 0 0 (coin 1), .look 1]).2 =
        [.nothing, .nothing, .nothing, .nothing, .object D] ∧ D.cond 0 = coin 1 ∧
      (Val.init.run o oa [.dict fun _ => coin 0, make 0, make 0, .setConditional 0 0 (coin 1), .look 1]).2 =
        [.nothing, .nothing, .nothing, .nothing, .object D'] ∧ D'.cond 0 = coin 0) ∧
    ∃ D, (Mem.init.run o oa [.dict fun _ => coin 0, make 0, .assign 0 0 (coin 1), .look 0]).2 =
        [.nothing, .nothing, .nothing, .object D] ∧ D.cond 0 = coin 1 ∧ D.cond 0 ≠ coin 0 := by
  obtain ⟨G, hG⟩ := make_ok o oa
  refine ⟨⟨_, _, by simp [Mem.run, Mem.exec, Mem.init, make, hG, Mem.value]; rfl, by simp,
    by simp [Val.run, Val.exec, Val.init, make, hG]; rfl, by simp⟩, _, by simp [Mem.run, Mem.exec, Mem.init, make, hG, Mem.value]; rfl, by simp, ?_⟩
  simpa using coin_ne.symm

end Props
