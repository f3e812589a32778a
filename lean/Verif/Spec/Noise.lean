import Verif.Spec.Continuous
import Mathlib.MeasureTheory.Constructions.Pi
import Mathlib.MeasureTheory.Measure.Lebesgue.Basic

/-! Specification side of the random numbers handed to samplers: independent uniform numbers on `(0, 1)`. -/

namespace Distrax.Spec

open MeasureTheory

/-- The uniform probability measure on `(0, 1)`, the idealised `jax.random.uniform`. -/
noncomputable def unit : Measure ℝ := volume.restrict (Set.Ioo 0 1)

/-- `n` independent uniform numbers. -/
noncomputable def unitN (n : ℕ) : Measure (Fin n → ℝ) := Measure.pi fun _ => unit

/-- `jax.random.gumbel`: `-log(-log(uniform))`. -/
noncomputable def gumbelOf (u : ℝ) : ℝ := -Real.log (-Real.log u)

end Distrax.Spec
