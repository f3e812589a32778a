import Verif.Lemmas.StdLaws3
import Verif.Props.LocScale

/-! C29, continued: variances of the logistic and Gumbel laws. -/

namespace Distrax

open Spec

/-- Logistic: `variance` is the variance of the law, and `stddev` its nonnegative square root. -/
theorem C29_logistic_variance (d : Logistic) (h : 0 < d.scale) :
    HasVariance d.prob d.variance ∧ 0 ≤ d.stddev ∧ d.stddev ^ 2 = d.variance := by
  refine ⟨?_, (C29_logistic_moments d h).2.1, (C29_logistic_moments d h).2.2.1⟩
  rw [Logistic.prob_eq h]
  have := stdLogistic_variance.affine stdLogistic_law.1 d.loc h
  rwa [show d.scale ^ 2 * (Real.pi ^ 2 / 3) = d.variance by unfold Logistic.variance; ring] at this

/-- Gumbel: `variance` is the variance of the law, and `stddev` its nonnegative square root. -/
theorem C29_gumbel_variance (d : Gumbel) (h : 0 < d.scale) :
    HasVariance d.prob d.variance ∧ 0 ≤ d.stddev ∧ d.stddev ^ 2 = d.variance := by
  refine ⟨?_, (C29_gumbel_moments d h).2.1, (C29_gumbel_moments d h).2.2.1⟩
  rw [Gumbel.prob_eq h]
  have := stdGumbel_variance.affine stdGumbel_law.1 d.loc h
  rwa [show d.scale ^ 2 * (Real.pi ^ 2 / 6) = d.variance by unfold Gumbel.variance; ring] at this

example : HasVariance (Logistic.prob ⟨1, 2⟩) ((2 * Real.pi) ^ 2 / 3) := (C29_logistic_variance ⟨1, 2⟩ (by norm_num)).1
example : HasVariance (Gumbel.prob ⟨1, 2⟩) ((2 * 1 * Real.pi) ^ 2 / 6) := (C29_gumbel_variance ⟨1, 2⟩ (by norm_num)).1

end Distrax
