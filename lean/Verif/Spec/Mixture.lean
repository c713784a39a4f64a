import Mathlib.Probability.Independence.Basic
import Mathlib.MeasureTheory.Constructions.Pi

/-! # Drawing from a mixture -/

namespace Spec

open MeasureTheory ProbabilityTheory

/-- `choices` are independent draws from `q`; asked for `s` values, source `k` returns `s` independent draws `draws k s` from `P k`; choices
and sources are independent, whatever the numbers of values are. -/
structure MixtureDraws {Ω S : Type} [MeasurableSpace Ω] [MeasurableSpace S] {K m : ℕ} (μ : Measure Ω) (q : Measure (Fin K))
    (P : Fin K → Measure S) (choices : Ω → Fin m → Fin K) (draws : Fin K → (s : ℕ) → Ω → Fin s → S) : Prop where
  meas_choices : Measurable choices
  law_choices : μ.map choices = Measure.pi fun _ => q
  meas : ∀ k s, Measurable (draws k s)
  law : ∀ k s, μ.map (draws k s) = Measure.pi fun _ => P k
  indep : ∀ s : Fin K → ℕ, iIndepFun (fun k => draws k (s k)) μ
  indep_choices : ∀ s : Fin K → ℕ, IndepFun choices (fun ω k => draws k (s k) ω) μ

end Spec
