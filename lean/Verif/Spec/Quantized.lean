import Verif.Model.Quantized
import Mathlib.MeasureTheory.Measure.Lebesgue.Basic
import Mathlib.MeasureTheory.Measure.WithDensity
import Mathlib.MeasureTheory.Measure.Real

/-! Specification side of `Quantized` and `Clipped`: the base law is an arbitrary probability measure. -/

namespace Distrax.Spec

open MeasureTheory Set

/-- The base object's distribution and survival functions are those of the law `μ`. -/
structure BaseLaw (b : Base) (μ : Measure ℝ) : Prop where
  cdf : ∀ x, b.cdf x = μ.real (Iic x)
  survival : ∀ x, b.survival x = μ.real (Ioi x)
  logCdf : ∀ x, b.logCdf x = XR.log (.fin (b.cdf x))
  logSurvival : ∀ x, b.logSurvival x = XR.log (.fin (b.survival x))

/-- The documented quantisation: round up, then clip to `[ceil(low), floor(high)]`. -/
noncomputable def quantize (low high : Option ℝ) (x : ℝ) : ℤ :=
  let n := ⌈x⌉
  let n := match low with
    | none => n
    | some l => max n ⌈l⌉
  match high with
  | none => n
  | some h => min n ⌊h⌋

/-- Clipping to `[a, b]`. -/
noncomputable def clip (a b x : ℝ) : ℝ := if x < a then a else if x > b then b else x

end Distrax.Spec
