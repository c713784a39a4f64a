import Verif.Spec.AGViews
import Verif.Spec.CyclicViews
import Verif.Model.History

/-! # Sequences of calls on one object -/

namespace Spec

universe u v w

/-- `calls f l s r`: from the state `s`, the calls `l` end one after the other, with or without an exception, in the state `r`. -/
def calls {σ : Type u} {κ : Type v} {ε : Type w} (f : κ → σ → Option (σ × Option ε)) : List κ → σ → σ → Prop
  | [], s, r => s = r
  | c :: l, s, r => ∃ s' e, f c s = some (s', e) ∧ calls f l s' r

end Spec
