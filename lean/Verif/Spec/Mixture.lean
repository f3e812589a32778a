import Verif.Spec.MathUtils
import Mathlib.MeasureTheory.Integral.Bochner.Basic

/-! Specification side of mixtures: densities with respect to an arbitrary reference measure (counting measure for
discrete components, Lebesgue for continuous ones). -/

namespace Distrax.Spec

open MeasureTheory

/-- A value a log-density may take: a real number or `-inf`. -/
def IsLogDensity (x : XR) : Prop := x = .ninf ∨ ∃ a, x = .fin a

/-- `f` is a probability density with respect to `μ`. -/
structure IsDensity {E : Type*} [MeasurableSpace E] (μ : Measure E) (f : E → ℝ) : Prop where
  nonneg : ∀ x, 0 ≤ f x
  integrable : Integrable f μ
  one : ∫ x, f x ∂μ = 1

/-- Under the density `f`, the real-valued coordinate `g` has mean `m` and variance `v`. -/
structure HasMoments {E : Type*} [MeasurableSpace E] (μ : Measure E) (f g : E → ℝ) (m v : ℝ) : Prop where
  int1 : Integrable (fun x => f x * g x) μ
  mean : ∫ x, f x * g x ∂μ = m
  int2 : Integrable (fun x => f x * (g x - m) ^ 2) μ
  variance : ∫ x, f x * (g x - m) ^ 2 ∂μ = v

end Distrax.Spec
