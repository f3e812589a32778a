import Verif.Spec.Density
import Mathlib.MeasureTheory.Integral.Lebesgue.Basic
import Mathlib.Analysis.SpecialFunctions.Trigonometric.Basic

/-! Circular distributions, stated with integrals over one turn; no Bessel function is mentioned. -/

namespace Distrax.Spec

open MeasureTheory

/-- One turn. -/
def turn : Set ℝ := Set.Ioc (-Real.pi) Real.pi

/-- `p` is the von Mises density with location `loc` and concentration `k`: proportional to `exp (k cos (x - loc))`
everywhere, of total mass one over a turn (so the constant is determined). -/
structure IsVonMises (loc k : ℝ) (p : ℝ → ℝ) : Prop where
  shape : ∃ c : ℝ, 0 < c ∧ ∀ x, p x = c * Real.exp (k * Real.cos (x - loc))
  density : IsDensityOn volume turn p

/-- `m` is a circular mean direction with resultant length `r ≥ 0`: the expected unit vector is `r (cos m, sin m)`. -/
structure CircularMean (p : ℝ → ℝ) (m r : ℝ) : Prop where
  nonneg : 0 ≤ r
  cos : ExpOn volume turn p Real.cos (r * Real.cos m)
  sin : ExpOn volume turn p Real.sin (r * Real.sin m)

/-- `F` is the CDF of the law with density `p` on one turn, regarded as a law on the line. -/
def IsTurnCdf (p F : ℝ → ℝ) : Prop :=
  ∀ v, F v = ∫ x in turn ∩ Set.Iic v, p x

/-- `G` is the survival function. -/
def IsTurnSurvival (p G : ℝ → ℝ) : Prop :=
  ∀ v, G v = ∫ x in turn ∩ Set.Ioi v, p x

/-- `a` and `b` are the same angle. -/
def SameAngle (a b : ℝ) : Prop := ∃ k : ℤ, a = b + 2 * Real.pi * k

/-- Expectation of a function of `n` independent draws from `μ`. -/
noncomputable def roundsExp {E : Type} [MeasurableSpace E] (μ : Measure E) : ℕ → (List E → ENNReal) → ENNReal
  | 0, f => f []
  | n + 1, f => ∫⁻ x, roundsExp μ n (fun xs => f (x :: xs)) ∂μ

open Classical in
/-- Probability of an event about `n` independent draws. -/
noncomputable def roundsProb {E : Type} [MeasurableSpace E] (μ : Measure E) (n : ℕ) (A : List E → Prop) : ENNReal :=
  roundsExp μ n fun xs => if A xs then 1 else 0

end Distrax.Spec
