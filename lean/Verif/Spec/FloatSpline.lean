import Verif.Spec.FloatAcc

/-!
What is claimed of the spline in floating point, independent of the code.
-/

namespace Distrax

open XR

/-- `sum` adds the entries of a list of floats in some order. -/
def AddsUp {F : Fmt} (sum : List (FX F) → FX F) : Prop := ∀ xs, xs ≠ [] → FX.SumsTo xs (sum xs)

/-- Knots and slopes of moderate size: positions at most `B` in absolute value, bins at least `1 / B` wide and high, slopes between `1 / B`
and `B`. -/
structure GoodKnots {F : Fmt} (B : ℝ) (K : ℕ) (xp yp sl : ℕ → FX F) : Prop where
  pos : 1 ≤ K
  x_fin : ∀ i ≤ K, (xp i).finite ∧ |(xp i).val| ≤ B
  y_fin : ∀ i ≤ K, (yp i).finite ∧ |(yp i).val| ≤ B
  s_fin : ∀ i ≤ K, (sl i).finite ∧ 1 / B ≤ (sl i).val ∧ (sl i).val ≤ B
  x_gap : ∀ i < K, 1 / B ≤ (xp (i + 1)).val - (xp i).val
  y_gap : ∀ i < K, 1 / B ≤ (yp (i + 1)).val - (yp i).val

/-- The exact rational-quadratic segment of Durkan et al. (2019), equation (4), between the knots `(x0, y0)` and `(x1, y1)` with derivatives `d0`
and `d1`: with `s = (y1 - y0) / (x1 - x0)` and `z = (t - x0) / (x1 - x0)`. -/
noncomputable def rqSegment (x0 x1 y0 y1 d0 d1 t : ℝ) : ℝ :=
  y0 + (y1 - y0) * (((y1 - y0) / (x1 - x0) * ((t - x0) / (x1 - x0)) ^ 2 + d0 * ((t - x0) / (x1 - x0)) * (1 - (t - x0) / (x1 - x0))) /
    ((y1 - y0) / (x1 - x0) + (d1 + d0 - 2 * ((y1 - y0) / (x1 - x0))) * ((t - x0) / (x1 - x0)) * (1 - (t - x0) / (x1 - x0))))

/-- The number format has room for `B`: `4096 * B^6` does not overflow and `1 / (4096 * B^8)` does not underflow. -/
structure Room (F : Fmt) (η B : ℝ) : Prop where
  one : 1 ≤ B
  top : 4096 * B ^ 6 ≤ F.top
  low : η * (4096 * B ^ 8) ≤ 1

end Distrax
