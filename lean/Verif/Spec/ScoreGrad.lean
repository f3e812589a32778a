import Verif.Spec.Pathwise
import Verif.Model.ScoreGrad
import Mathlib.MeasureTheory.Constructions.Pi

/-! Specification side for score-function gradients and for the gradients of the Monte-Carlo KL estimators. -/

namespace Distrax.Spec

open Distrax MeasureTheory Topology

/-- The law with density `p` with respect to `μ`. -/
noncomputable def densLaw {X : Type*} [MeasurableSpace X] (μ : Measure X) (p : X → ℝ) : Measure X :=
  μ.withDensity fun x => ENNReal.ofReal (p x)

/-- Functions that need not be differentiable or continuous, of at most polynomial growth. -/
def PolyGrowth (f : ℝ → ℝ) : Prop := Measurable f ∧ ∃ K, ∃ k : ℕ, ∀ x, |f x| ≤ K * (1 + |x|) ^ k

/-- The same for functions of a vector. -/
def PolyGrowthV {n : ℕ} (f : (Fin n → ℝ) → ℝ) : Prop := Measurable f ∧ ∃ K, ∃ k : ℕ, ∀ x, |f x| ≤ K * (1 + ∑ i, |x i|) ^ k

/-- The density at parameter `s`. -/
noncomputable def density (s x : ℝ) : ScalarDist → ℝ
  | .normal loc scale => Normal.prob ⟨loc.val s, scale.val s⟩ x
  | .logStddevNormal none loc logScale => Normal.prob ⟨loc.val s, Real.exp (logScale.val s)⟩ x
  | .logStddevNormal (some m) loc logScale =>
    Normal.prob ⟨loc.val s, Real.exp (Real.log m - rsoftplus (Real.log m - logScale.val s))⟩ x
  | .laplace loc scale => Laplace.prob ⟨loc.val s, scale.val s⟩ x
  | .logistic loc scale => Logistic.prob ⟨loc.val s, scale.val s⟩ x
  | .gumbel loc scale => Gumbel.prob ⟨loc.val s, scale.val s⟩ x
  | .mixtureOfTwo probA a b => probA.val s * density s x a + (1 - probA.val s) * density s x b
  | .mixtureSameFamily n logits components =>
    ∑ k : Fin n, Real.exp ((logits k).val s) / (∑ j, Real.exp ((logits j).val s)) * density s x (components k)

/-- The law of a sample at parameter `s`. -/
noncomputable def sampleLaw (d : ScalarDist) (s : ℝ) : Measure ℝ := lawOf fun x => density s x d

/-- The law of a von Mises sample on the circle. -/
noncomputable def vonMisesLaw (loc conc : ℝ) : Measure ℝ :=
  densLaw (volume.restrict (Set.Ioc (-Real.pi) Real.pi)) (VonMises.prob ⟨loc, conc⟩)

/-- Continuously differentiable parameters, positive scales and proper weights at `t`. -/
def Valid (t : ℝ) : ScalarDist → Prop
  | .normal loc scale => Curve loc.val loc.der ∧ Curve scale.val scale.der ∧ 0 < scale.val t
  | .logStddevNormal _ loc logScale => Curve loc.val loc.der ∧ Curve logScale.val logScale.der
  | .laplace loc scale => Curve loc.val loc.der ∧ Curve scale.val scale.der ∧ 0 < scale.val t
  | .logistic loc scale => Curve loc.val loc.der ∧ Curve scale.val scale.der ∧ 0 < scale.val t
  | .gumbel loc scale => Curve loc.val loc.der ∧ Curve scale.val scale.der ∧ 0 < scale.val t
  | .mixtureOfTwo probA a b => Curve probA.val probA.der ∧ 0 < probA.val t ∧ probA.val t < 1 ∧ Valid t a ∧ Valid t b
  | .mixtureSameFamily n logits components =>
    0 < n ∧ (∀ k, Curve (logits k).val (logits k).der) ∧ ∀ k, Valid t (components k)

/-- No Gumbel component anywhere. -/
def NoGumbel : ScalarDist → Prop
  | .gumbel _ _ => False
  | .mixtureOfTwo _ a b => NoGumbel a ∧ NoGumbel b
  | .mixtureSameFamily _ _ components => ∀ k, NoGumbel (components k)
  | _ => True

/-- Normal, log-stddev-normal and Gumbel components only. -/
def LightLeft : ScalarDist → Prop
  | .laplace _ _ => False
  | .logistic _ _ => False
  | .mixtureOfTwo _ a b => LightLeft a ∧ LightLeft b
  | .mixtureSameFamily _ _ components => ∀ k, LightLeft (components k)
  | _ => True

/-- `law s` is the law of a sample at parameter `s`, and `lp x` the log-probability of the (constant) value `x` at parameter
`t` with its derivative by automatic differentiation.  The expectation of `f` exists for parameters near `t`, and its derivative
is the expectation of `f` times the derivative of the log-probability: `jax.grad` of
`stop_gradient(f(sample)) * log_prob(stop_gradient(sample))` is unbiased. -/
def ScoreUnbiased {X : Type*} [MeasurableSpace X] (law : ℝ → Measure X) (lp : X → Dual) (f : X → ℝ) (t : ℝ) : Prop :=
  (∀ᶠ s in 𝓝 t, Integrable f (law s)) ∧ Integrable (fun x => f x * (lp x).tan) (law t) ∧
    HasDerivAt (fun s => ∫ x, f x ∂law s) (∫ x, f x * (lp x).tan ∂law t) t

/-- The Kullback-Leibler divergence of the density `a` from the density `b`. -/
noncomputable def klInt {X : Type*} [MeasurableSpace X] (μ : Measure X) (a b : X → ℝ) : ℝ :=
  ∫ x, a x * (Real.log (a x) - Real.log (b x)) ∂μ

/-- `est` is an estimate, with its derivative by automatic differentiation, computed from draws with law `law`.  Its expected
value is `k t` and its expected derivative is the derivative of `k` at `t`. -/
def EstimatesWithGradient {X : Type*} [MeasurableSpace X] (law : Measure X) (est : X → Dual) (k : ℝ → ℝ) (t : ℝ) : Prop :=
  Integrable (fun x => (est x).val) law ∧ ∫ x, (est x).val ∂law = k t ∧
  Integrable (fun x => (est x).tan) law ∧ HasDerivAt k (∫ x, (est x).tan ∂law) t

end Distrax.Spec
