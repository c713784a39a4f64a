import Mathlib.Data.Finset.Basic
import Mathlib.Data.Finset.Card

/-!
# Conventions shared by all models

* exceptions are values (`Exn`);
* `none` in `Option` means that the Python code does not terminate;
* iteration orders and `set.pop` are oracles.
-/

namespace Model

universe u v

/-- Exceptions raised by the modelled code. `CycleError` carries the list `cycle`
(dag.py:23-28); `SpouseError` and `Adj/NeighborError` are those of ancestral_graph.py:15-40. -/
inductive Exn (α : Type u) : Type u
  | cycle (l : List α)
  | key
  | spouse (a b : α)
  | adjacent
  | neighbor
  | type
  | assertion
  | index
  | value
  | plain
  deriving DecidableEq

/-- Code that may raise and may fail to terminate. -/
abbrev Run (α : Type u) (β : Type u) := ExceptT (Exn α) Option β

/-- The order in which `for x in s` visits a Python set. `κ` labels the loop (which loop, which iteration of
it, ...), so equal sets may be visited in different orders at different places. The only thing known is
that every element is visited exactly once. -/
structure SetOrder (κ : Type v) (α : Type u) where
  ord : κ → Finset α → List α
  nodup : ∀ k s, (ord k s).Nodup
  mem_iff : ∀ k s x, x ∈ ord k s ↔ x ∈ s

/-- The element returned by `s.pop()` for a nonempty set, at the `n`-th iteration of a loop. -/
structure Pick (σ : Type u) where
  pick : Nat → (s : Finset σ) → s.Nonempty → σ
  mem : ∀ n s h, pick n s h ∈ s

/-- The loop shared by `DAG.dsep` (dag.py:1911-1939), `DAG.is_invariant` (dag.py:2052-2080) and
`AncestralGraph.msep` (ancestral_graph.py:1707-1746):

```
while schedule:
    s = schedule.pop()
    if <stop s>: return False
    if s in visited: continue
    visited.add(s)
    schedule.update(<succ s>)
return True
```
-/
def popLoop {σ : Type u} [DecidableEq σ] (pk : Pick σ) (stop : σ → Bool) (succ : σ → Finset σ)
    (n : Nat) (sched visited : Finset σ) : Option Bool :=
  if h : sched.Nonempty then
    if stop (pk.pick n sched h) then some false
    else if pk.pick n sched h ∈ visited then
      popLoop pk stop succ (n + 1) (sched.erase (pk.pick n sched h)) visited
    else
      popLoop pk stop succ (n + 1) (sched.erase (pk.pick n sched h) ∪ succ (pk.pick n sched h))
        (insert (pk.pick n sched h) visited)
  else some true
partial_fixpoint

end Model
