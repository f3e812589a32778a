import Verif.Spec.Categorical
import Verif.Spec.Density
import Mathlib.MeasureTheory.Measure.WithDensity
import Mathlib.MeasureTheory.Constructions.Pi

/-! Specification side of the Monte Carlo utilities: laws on an arbitrary measurable space with a reference measure
(counting measure for discrete distributions, Lebesgue measure for continuous ones). -/

namespace Distrax.Spec

open MeasureTheory

variable {E : Type} [MeasurableSpace E]

/-- Numeric value of a float; only used where it is known to be finite. -/
def num : XR → ℝ
  | .fin x => x
  | _ => 0

/-- `x` is an ordinary number. -/
def Ordinary (x : XR) : Prop := ∃ r : ℝ, x = .fin r

/-- The log-probability function `lp` reports the density `p` (w.r.t. `μ`) of the probability law `ν`. -/
structure HasLogDensity (μ : Measure E) (lp : E → XR) (p : E → ℝ) (ν : Measure E) : Prop where
  nonneg : ∀ x, 0 ≤ p x
  meas : Measurable p
  report : ∀ x, lp x = xlog (p x)
  law : ν = μ.withDensity fun x => ENNReal.ofReal (p x)
  prob : IsProbabilityMeasure ν

/-- `n` independent draws from `ν`. -/
noncomputable def draws (ν : Measure E) (n : ℕ) : Measure (Fin n → E) := Measure.pi fun _ => ν

end Distrax.Spec
