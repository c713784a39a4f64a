import Verif.Model.Base
import Mathlib.Order.Defs.LinearOrder

/-! # `graphical_models/utils/core_utils.py`: `random_max` -/

namespace Model

variable {κ V : Type} [LinearOrder V]

/-- `max(l)` and `min(l)` as CPython computes them: the first element, replaced by later ones that compare greater (smaller); `ValueError`
for no elements. -/
def extreme (minimize : Bool) : List V → Except (Exn κ) V
  | [] => .error .value
  | v :: l => .ok (l.foldl (fun m x => if (if minimize then x < m else m < x) then x else m) v)

/-- `random_max` (core_utils.py:106-112) of a dictionary given by its items. `draw n` is the number below `n` drawn by `random.choice`. -/
def randomMax (draw : ℕ → ℕ) (d : List (κ × V)) (minimize : Bool) : Except (Exn κ) κ :=
  match extreme minimize (d.map Prod.snd) with
  | .error e => .error e
  | .ok m =>
      let keys := (d.filter fun e => e.2 = m).map Prod.fst
      if keys.length = 1 then
        match keys[0]? with
        | none => .error .index
        | some k => .ok k
      else
        match keys[draw keys.length]? with
        | none => .error .index
        | some k => .ok k

end Model
