import Verif.Model.Spline

/-! Vocabulary for the rational-quadratic spline properties. -/

namespace Distrax.Spline

/-- A valid knot sequence: at least one bin, strictly increasing positions on both axes, positive slopes. -/
structure Valid (K : ℕ) (xp yp sl : ℕ → ℝ) : Prop where
  pos : 0 < K
  x_lt : ∀ i < K, xp i < xp (i + 1)
  y_lt : ∀ i < K, yp i < yp (i + 1)
  slope : ∀ i ≤ K, 0 < sl i

/-- Every knot slope and every bin's average slope lies in `[m, M]`, and `m, M` are such that the
squared derivative information stays above the smallest float `tiny` (the code clamps a discriminant
there). -/
structure Resolved (tiny : ℝ) (K : ℕ) (xp yp sl : ℕ → ℝ) : Prop where
  ex : ∃ m M : ℝ, 0 < m ∧ tiny ≤ (m * m / M) ^ 2 ∧ (∀ i ≤ K, m ≤ sl i ∧ sl i ≤ M) ∧
    ∀ i < K, m ≤ (yp (i + 1) - yp i) / (xp (i + 1) - xp i) ∧
      (yp (i + 1) - yp i) / (xp (i + 1) - xp i) ≤ M

end Distrax.Spline
