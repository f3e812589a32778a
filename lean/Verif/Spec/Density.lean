import Mathlib.MeasureTheory.Integral.Bochner.Set
import Mathlib.Analysis.SpecialFunctions.Log.Basic
import Mathlib.MeasureTheory.Measure.Haar.OfBasis
import Mathlib.Analysis.Calculus.FDeriv.Basic
import Mathlib.Topology.Algebra.Module.Determinant

/-! Densities on a set `S` of a (finite-dimensional) space `E` with reference measure `μ`. -/

namespace Distrax.Spec

open MeasureTheory

variable {E : Type} [MeasurableSpace E]

/-- `p` is a probability density on `S`. -/
structure IsDensityOn (μ : Measure E) (S : Set E) (p : E → ℝ) : Prop where
  nonneg : ∀ x ∈ S, 0 ≤ p x
  integrable : IntegrableOn p S μ
  one : ∫ x in S, p x ∂μ = 1

/-- `E[h(X)] = e` (existence included), for `X` with density `p` on `S`. -/
def ExpOn (μ : Measure E) (S : Set E) (p h : E → ℝ) (e : ℝ) : Prop :=
  IntegrableOn (fun x => p x * h x) S μ ∧ ∫ x in S, p x * h x ∂μ = e

/-- Differential entropy `-E[log p(X)]`. -/
def EntropyOn (μ : Measure E) (S : Set E) (p : E → ℝ) (e : ℝ) : Prop := ExpOn μ S p (fun x => -Real.log (p x)) e

/-- `KL(p ‖ q) = E_p[log p - log q]`. -/
def KLOn (μ : Measure E) (S : Set E) (p q : E → ℝ) (k : ℝ) : Prop :=
  ExpOn μ S p (fun x => Real.log (p x) - Real.log (q x)) k

/-- `E[X] = m`, coordinate by coordinate (tested against every continuous linear functional). -/
def MeanOn [NormedAddCommGroup E] [NormedSpace ℝ E] (μ : Measure E) (S : Set E) (p : E → ℝ) (m : E) : Prop :=
  ∀ φ : E →L[ℝ] ℝ, ExpOn μ S p φ (φ m)

/-- `m` maximises `p` on `S`. -/
def IsModeOn (S : Set E) (p : E → ℝ) (m : E) : Prop := m ∈ S ∧ ∀ x ∈ S, p x ≤ p m

/-- The law of `T U`, for `U` with density `p` on `S`, has density `q` on `R`:
`P(T U ∈ B) = ∫_B q` for every measurable `B`. -/
def LawHasDensity (μ : Measure E) (S : Set E) (p : E → ℝ) (T : E → E) (R : Set E) (q : E → ℝ) : Prop :=
  ∀ B, MeasurableSet B → ∫ x in S ∩ T ⁻¹' B, p x ∂μ = ∫ y in R ∩ B, q y ∂μ

/-- `f` is a differentiable bijection from `S` onto `T` with inverse `g`, and `ld` is the logarithm of the absolute
Jacobian determinant of `f`. -/
structure Diffeo [NormedAddCommGroup E] [NormedSpace ℝ E] (S T : Set E) (f g : E → E) (ld : E → ℝ) : Prop where
  meas : MeasurableSet S
  maps : ∀ x ∈ S, f x ∈ T
  maps_inv : ∀ y ∈ T, g y ∈ S
  left : ∀ x ∈ S, g (f x) = x
  right : ∀ y ∈ T, f (g y) = y
  jac : ∀ x ∈ S, ∃ J : E →L[ℝ] E, HasFDerivWithinAt f J S x ∧ J.det ≠ 0 ∧ ld x = Real.log |J.det|

end Distrax.Spec
