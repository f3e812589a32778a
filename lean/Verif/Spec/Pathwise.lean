import Verif.Model.Pathwise
import Verif.Spec.ArrayLaw
import Mathlib.Analysis.Calculus.Deriv.Basic
import Mathlib.MeasureTheory.Integral.Bochner.Basic

/-! Specification side for gradients through samples. -/

namespace Distrax.Spec

open Distrax MeasureTheory Topology

/-- Functions whose expectation is differentiated: differentiable, the derivative of at most linear growth (so `f` may grow
quadratically). -/
def TestFn (f : ℝ → ℝ) : Prop := Differentiable ℝ f ∧ ∃ K, ∀ x, |deriv f x| ≤ K * (1 + |x|)

/-- A parameter as a continuously differentiable function of a scalar `t` (the direction in which one differentiates). -/
structure Curve (g g' : ℝ → ℝ) : Prop where
  deriv : ∀ t, HasDerivAt g (g' t) t
  cont : Continuous g'

/-- `x` is a sample and its tangent, as functions of the noise.  The expectation of `f` exists for parameters near `t`, and
the derivative that automatic differentiation reports for `f(sample)`, averaged over the noise, is the derivative of that
expectation. -/
def PathwiseUnbiased {U : Type} [MeasurableSpace U] (law : ℝ → Measure ℝ) (noise : Measure U) (x : U → Dual) (f : ℝ → ℝ)
    (t : ℝ) : Prop :=
  (∀ᶠ s in 𝓝 t, Integrable f (law s)) ∧ Integrable (fun u => deriv f (x u).val * (x u).tan) noise ∧
    HasDerivAt (fun s => ∫ y, f y ∂law s) (∫ u, deriv f (x u).val * (x u).tan ∂noise) t

end Distrax.Spec
