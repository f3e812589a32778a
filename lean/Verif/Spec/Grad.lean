import Verif.Spec.Categorical
import Verif.Lemmas.XR
import Mathlib.Analysis.Calculus.Deriv.Basic

/-! Specification side for gradients: the softmax of a row that may contain `-inf`, and what it means for a computed pullback
to be the gradient of a real-valued function of such a row. -/

namespace Distrax.Spec

open Distrax

/-- The probabilities denoted by a row of logits; `-inf` denotes an impossible category. -/
noncomputable def softP {n : ℕ} (l : Fin n → XR) (i : Fin n) : ℝ := weight (l i) / ∑ j, weight (l j)

/-- Moving a row along a real direction; an entry `-inf` stays `-inf`. -/
def along {n : ℕ} (l : Fin n → XR) (v : Fin n → ℝ) (t : ℝ) : Fin n → XR := fun i => l i + .fin (t * v i)

/-- `pull` is the gradient of `F` at `l`: for every finite output cotangent `c` it returns `c` times one finite vector, whose
inner product with any direction is the derivative of `F` along that direction. -/
def GradientAt {n : ℕ} (F : (Fin n → XR) → ℝ) (l : Fin n → XR) (pull : XR → Fin n → XR) : Prop :=
  ∃ g : Fin n → ℝ, (∀ c i, pull (.fin c) i = .fin (c * g i)) ∧
    ∀ v : Fin n → ℝ, HasDerivAt (fun t => F (along l v t)) (∑ i, g i * v i) 0

/-- The same for a function of real vectors. -/
def GradientAtReal {n : ℕ} (F : (Fin n → ℝ) → ℝ) (p : Fin n → ℝ) (pull : XR → Fin n → XR) : Prop :=
  ∃ g : Fin n → ℝ, (∀ c i, pull (.fin c) i = .fin (c * g i)) ∧
    ∀ v : Fin n → ℝ, HasDerivAt (fun t => F (fun i => p i + t * v i)) (∑ i, g i * v i) 0

/-- The scalar version: `pull` multiplies every finite cotangent by the derivative of `F` at `x`. -/
def DerivAt (F : ℝ → ℝ) (x : ℝ) (pull : XR → XR) : Prop :=
  ∃ d : ℝ, (∀ c, pull (.fin c) = .fin (c * d)) ∧ HasDerivAt F d x

/-- The logistic function. -/
noncomputable def sig (l : ℝ) : ℝ := 1 / (1 + Real.exp (-l))

/-- The probability of an outcome when `1` has probability `p`. -/
def bernProb (v : Bool) (p : ℝ) : ℝ := if v then p else 1 - p

/-- The numeric encoding of an outcome. -/
def bit (v : Bool) : ℝ := if v then 1 else 0

/-- The entropy of a coin with probability `p`. -/
noncomputable def coinEntropy (p : ℝ) : ℝ := -((1 - p) * Real.log (1 - p) + p * Real.log p)

/-- The Kullback–Leibler divergence between two coins. -/
noncomputable def coinKl (p q : ℝ) : ℝ :=
  p * (Real.log p - Real.log q) + (1 - p) * (Real.log (1 - p) - Real.log (1 - q))

/-- The log-density of a mixture, from the logits of the weights and the components' log-densities. -/
noncomputable def mixLog {n : ℕ} (logits lp : Fin n → XR) : ℝ := Real.log (∑ i, softP logits i * weight (lp i))

end Distrax.Spec
