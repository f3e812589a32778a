import Verif.Spec.Categorical
import Verif.Model.Bernoulli

/-! Specification side of Bernoulli. -/

namespace Distrax.Spec

open Distrax

/-- The object describes success probability `p`: it stores `p`, or it stores a logit (possibly infinite) whose
logistic value is `p`. -/
def BernP (d : Bern) (p : ℝ) : Prop :=
  0 ≤ p ∧ p ≤ 1 ∧
  ((d.probs? = some (.fin p) ∧ d.logits? = none) ∨
   (d.probs? = none ∧ ∃ a : ℝ, d.logits? = some (.fin a) ∧ p = 1 / (1 + Real.exp (-a))) ∨
   (d.probs? = none ∧ d.logits? = some .pinf ∧ p = 1) ∨
   (d.probs? = none ∧ d.logits? = some .ninf ∧ p = 0))

end Distrax.Spec
