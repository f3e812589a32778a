import Verif.Model.FloatDists

/-! IEEE binary formats with rounding to nearest, and what the theorems about floating point say. -/

namespace Distrax.Spec

open Distrax XR FX

/-- The finite numbers of a binary format with precision `p` and exponents from `emin` to `emax`: `m * 2^e`, `|m| < 2^p`
(subnormals included).  `float32`: `p = 24, emin = -149, emax = 104`. -/
def binary (p : ℕ) (emin emax : ℤ) : Set ℝ :=
  {x | ∃ m e : ℤ, |m| < 2 ^ p ∧ emin ≤ e ∧ e ≤ emax ∧ x = m * (2 : ℝ) ^ e}

/-- `rd` rounds to a nearest number of `R`, overflows to the infinities from `limit` on, and treats both signs alike
(round-to-nearest-even is an instance; nothing is said about ties). -/
structure RoundsToNearest (R : Set ℝ) (limit : ℝ) (rd : ℝ → XR) : Prop where
  near : ∀ x, |x| < limit → ∃ y ∈ R, rd x = fin y ∧ ∀ z ∈ R, |x - y| ≤ |x - z|
  above : ∀ x, limit ≤ x → rd x = pinf
  below : ∀ x, x ≤ -limit → rd x = ninf
  odd : ∀ x, rd (-x) = -(rd x)

/-- Rounding to nearest in the binary format, overflowing from half a unit above the largest number on. -/
def IEEE (p : ℕ) (emin emax : ℤ) (rd : ℝ → XR) : Prop :=
  RoundsToNearest (binary p emin emax) (((2 : ℝ) ^ p - 1 / 2) * (2 : ℝ) ^ emax) rd

variable {F : Fmt}

/-- A positive finite float. -/
def Pos (a : FX F) : Prop := ∃ x, a.1 = fin x ∧ 0 < x

/-- A method with results in [0, 1], never `nan`, and nondecreasing, on finite values. -/
def FloatCdf (f : FX F → FX F) : Prop :=
  (∀ v, v.finite → lit 0 ≤ f v ∧ f v ≤ lit 1) ∧ ∀ v w, v.finite → w.finite → v ≤ w → f v ≤ f w

/-- The same for the complement: in [0, 1] and nonincreasing. -/
def FloatSf (f : FX F → FX F) : Prop :=
  (∀ v, v.finite → lit 0 ≤ f v ∧ f v ≤ lit 1) ∧ ∀ v w, v.finite → w.finite → v ≤ w → f w ≤ f v

/-- A logarithm of a CDF: at most 0, never `nan`, nondecreasing. -/
def FloatLogCdf (f : FX F → FX F) : Prop :=
  (∀ v, v.finite → f v ≤ lit 0) ∧ ∀ v w, v.finite → w.finite → v ≤ w → f v ≤ f w

/-- A logarithm of a survival function: at most 0, never `nan`, nonincreasing. -/
def FloatLogSf (f : FX F → FX F) : Prop :=
  (∀ v, v.finite → f v ≤ lit 0) ∧ ∀ v w, v.finite → w.finite → v ≤ w → f w ≤ f v

/-- Logits as a user may give them: each finite or `-inf`, not all `-inf`. -/
def FloatLogits {n : ℕ} (l : Fin (n + 1) → FX F) : Prop :=
  (∀ i, (l i).finite ∨ (l i).1 = ninf) ∧ ∃ i, (l i).finite

end Distrax.Spec
