import Verif.Spec.Grad
import Mathlib.Analysis.SpecialFunctions.Log.Basic
import Verif.Model.GradQuant

/-! Specification side for gradients of `Quantized` and `Clipped`. -/

namespace Distrax.Spec

open Distrax

/-- A family of continuous distribution functions `F t` on the line, strictly between 0 and 1 and strictly increasing at the
current parameter `θ`, with derivative `F'` in the parameter, whose differentiated `log_cdf` and `log_survival_function`
are correct. -/
structure SmoothBase (F : ℝ → ℝ → ℝ) (F' : ℝ → ℝ) (θ : ℝ) (logCdf logSf : ℝ → RevP) : Prop where
  pos : ∀ y, 0 < F θ y
  lt_one : ∀ y, F θ y < 1
  mono : StrictMono (F θ)
  deriv : ∀ y, HasDerivAt (fun t => F t y) (F' y) θ
  logCdf_val : ∀ y, (logCdf y).1 = .fin (Real.log (F θ y))
  logCdf_pull : ∀ y c, (logCdf y).2 (.fin c) = .fin (c * (F' y / F θ y))
  logSf_val : ∀ y, (logSf y).1 = .fin (Real.log (1 - F θ y))
  logSf_pull : ∀ y c, (logSf y).2 (.fin c) = .fin (c * (-F' y / (1 - F θ y)))

open Classical in
/-- The distribution function of the quantized variable at whole numbers: everything below `low` is moved to `low`,
everything above `high` to `high`. -/
noncomputable def quantCdf (low high : Option ℤ) (F : ℝ → ℝ) (n : ℤ) : ℝ :=
  if ∃ h ∈ high, h ≤ n then 1 else if ∃ l ∈ low, n < l then 0 else F n

/-- The probability of the whole number `n`. -/
noncomputable def quantProb (low high : Option ℤ) (F : ℝ → ℝ) (n : ℤ) : ℝ :=
  quantCdf low high F n - quantCdf low high F (n - 1)

/-- `n` lies between the cutoffs. -/
def Between (low high : Option ℤ) (n : ℤ) : Prop := (∀ l ∈ low, l ≤ n) ∧ ∀ h ∈ high, n ≤ h

/-- Cutoffs in the right order. -/
def Ordered (low high : Option ℤ) : Prop := ∀ l ∈ low, ∀ h ∈ high, l ≤ h

/-- A stored cutoff as the number the code compares with. -/
noncomputable def cut (c : Option ℤ) : Option ℝ := c.map fun n => (n : ℝ)

/-- The two tail probabilities whose difference is the probability of `n`: upper tails to the right of the median, lower
tails elsewhere (`big`, `small`). -/
noncomputable def tails (low high : Option ℤ) (F : ℝ → ℝ) (n : ℤ) : ℝ × ℝ :=
  open Classical in if 1 - quantCdf low high F n < quantCdf low high F n then
    (1 - quantCdf low high F (n - 1), 1 - quantCdf low high F n)
  else (quantCdf low high F n, quantCdf low high F (n - 1))

/-- The optional `eps` replaces the larger tail: the two tails are closer than a factor `exp eps`. -/
def Clamps (e : ℝ) (t : ℝ × ℝ) : Prop := t.1 ≤ Real.exp e * t.2

end Distrax.Spec
