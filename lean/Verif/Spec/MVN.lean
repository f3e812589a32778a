import Verif.Spec.Density
import Mathlib.LinearAlgebra.Matrix.NonsingularInverse

/-! The multivariate Gaussian density with mean `b` and covariance matrix `C`. -/

namespace Distrax.Spec

open MeasureTheory Matrix

variable {n : ℕ}

/-- `log N(x; b, C) = -½ (n log 2π + log det C + (x-b)ᵀ C⁻¹ (x-b))`. -/
noncomputable def gaussLogPdf (b : Fin n → ℝ) (C : Matrix (Fin n) (Fin n) ℝ) (x : Fin n → ℝ) : ℝ :=
  -(1 / 2) * (n * Real.log (2 * Real.pi) + Real.log C.det + (x - b) ⬝ᵥ (C⁻¹ *ᵥ (x - b)))

/-- Its exponential. -/
noncomputable def gaussPdf (b : Fin n → ℝ) (C : Matrix (Fin n) (Fin n) ℝ) (x : Fin n → ℝ) : ℝ :=
  Real.exp (gaussLogPdf b C x)

/-- `C` is the covariance matrix, about the mean `b`, of a vector with density `p`. -/
def HasCovariance (p : (Fin n → ℝ) → ℝ) (b : Fin n → ℝ) (C : Matrix (Fin n) (Fin n) ℝ) : Prop :=
  ∀ i j, ExpOn volume Set.univ p (fun x => (x i - b i) * (x j - b j)) (C i j)

/-- Textbook `KL(N(a, C₁) ‖ N(b, C₂)) = ½ (tr(C₂⁻¹ C₁) + (b-a)ᵀ C₂⁻¹ (b-a) - n + log det C₂ - log det C₁)`. -/
noncomputable def gaussKL (a : Fin n → ℝ) (C1 : Matrix (Fin n) (Fin n) ℝ) (b : Fin n → ℝ)
    (C2 : Matrix (Fin n) (Fin n) ℝ) : ℝ :=
  1 / 2 * ((C2⁻¹ * C1).trace + (b - a) ⬝ᵥ (C2⁻¹ *ᵥ (b - a)) - n + Real.log C2.det - Real.log C1.det)

end Distrax.Spec
