import Mathlib.MeasureTheory.Measure.Lebesgue.Basic
import Mathlib.Algebra.BigOperators.Fin

/-! The probability simplex with `n + 1` vertices, in the coordinates of its first `n` entries. -/

namespace Distrax.Spec

/-- The point of the simplex with first entries `y`: `(y₀, …, y_{n-1}, 1 - Σ y)`. -/
def simplexPoint {n : ℕ} (y : Fin n → ℝ) : Fin (n + 1) → ℝ := Fin.snoc y (1 - ∑ i, y i)

/-- The interior of the simplex: all `n + 1` entries positive. -/
def openSimplex (n : ℕ) : Set (Fin n → ℝ) := {y | ∀ i, 0 < simplexPoint y i}

end Distrax.Spec
