import Verif.Model.AllDags
import Mathlib.Data.Nat.Factorial.Basic

/-! # `mec_size` (pdag.py) -/

namespace Model

universe u
variable {α : Type u} [DecidableEq α]

/-- `mec_size` (pdag.py:750-760). Line 757 compares with a float division by two; doubling both sides is exact. -/
def PDAG.mecSize (o : PDAG.AllOracle α) (P : PDAG α) : Option (Except (Exn α) ℕ) :=
  let viaAll := (P.allDags o).run.map fun r => r.map Finset.card
  let m := P.edges.card
  let n := P.nodes.card
  if 0 < P.arcs.card then viaAll
  else if m = n then some (.ok (2 * n))
  else if (m : ℤ) = n - 1 then some (.ok n)
  else if (2 * m : ℤ) = n * (n - 1) then some (.ok n.factorial)
  else viaAll

end Model
