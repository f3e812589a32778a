import Verif.Spec.Spline
import Verif.Model.SplineGrad
import Mathlib.Analysis.Calculus.Deriv.Basic

/-! Vocabulary for derivatives of the spline: knots and slopes that move with a parameter. -/

namespace Distrax.Spline

/-- Knots and slopes at parameter value `s`. -/
def snap (f : ℕ → ℝ → ℝ) (s : ℝ) : ℕ → ℝ := fun i => f i s

/-- Knots or slopes as jax sees them at parameter value `t`: value and tangent. -/
def seen (f : ℕ → ℝ → ℝ) (f' : ℕ → ℝ) (t : ℝ) : ℕ → Dual := fun i => ⟨f i t, f' i⟩

/-- All knot positions and slopes are differentiable functions of the parameter, with derivatives `xp' yp' sl'` at `t`. -/
structure Moving (K : ℕ) (xp yp sl : ℕ → ℝ → ℝ) (xp' yp' sl' : ℕ → ℝ) (t : ℝ) : Prop where
  x : ∀ i ≤ K, HasDerivAt (xp i) (xp' i) t
  y : ∀ i ≤ K, HasDerivAt (yp i) (yp' i) t
  s : ∀ i ≤ K, HasDerivAt (sl i) (sl' i) t

end Distrax.Spline
