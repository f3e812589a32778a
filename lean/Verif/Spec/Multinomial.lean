import Verif.Spec.Categorical
import Mathlib.Algebra.Order.Antidiag.Pi
import Mathlib.Data.Nat.Factorial.Basic
import Mathlib.Data.Fintype.Pi

/-! Specification side of the Multinomial: the law of the counts of `n` independent draws. -/

namespace Distrax.Spec

open Distrax

/-- The multinomial probability of the count vector `c` (of total `n`). -/
noncomputable def multPmf {K : ℕ} (n : ℕ) (p : Fin K → ℝ) (c : Fin K → ℕ) : ℝ :=
  (n.factorial : ℝ) / (∏ i, ((c i).factorial : ℝ)) * ∏ i, p i ^ c i

/-- The vectors of `K` counts with total `n`. -/
def countVectors (K n : ℕ) : Finset (Fin K → ℕ) := Finset.piAntidiag Finset.univ n

/-- Expectation of `F` under the multinomial law. -/
noncomputable def multE {K : ℕ} (n : ℕ) (p : Fin K → ℝ) (F : (Fin K → ℕ) → ℝ) : ℝ :=
  ∑ c ∈ countVectors K n, multPmf n p c * F c

/-- How often each category occurs among the draws `f`. -/
def countsOf {K n : ℕ} (f : Fin n → Fin K) (k : Fin K) : ℕ := (Finset.univ.filter fun i => f i = k).card

/-- Probability of the event `E` when the `n` categories are drawn independently with probabilities `p`. -/
noncomputable def iidProb {K : ℕ} (n : ℕ) (p : Fin K → ℝ) (E : (Fin n → Fin K) → Prop) : ℝ :=
  open Classical in ∑ f : Fin n → Fin K, if E f then ∏ i, p (f i) else 0

end Distrax.Spec
