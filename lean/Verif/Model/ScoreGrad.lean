import Verif.Model.SplineGrad
import Verif.Model.MonteCarlo
import Verif.Model.GammaBeta

/-!
# Forward-mode derivatives of `log_prob` and of the Monte-Carlo KL estimators

`jax.jvp` (and, transposed, `jax.grad`) through `log_prob` with respect to the parameters, on numbers that carry a tangent
(`Dual`).  The value at which `log_prob` is evaluated is a `Dual` too: a constant after `stop_gradient`, a reparameterised
sample otherwise.  Rules of jax used here, from memory of jax's source, besides those of `Model/Pathwise` and
`Model/SplineGrad`: `abs`: `g * sign(x)`; `square`: `g * (2 * x)`; `cos`: `-g * sin(x)`; `i0`: `g * i1(x)`; `lgamma`:
`g * digamma(x)`; `logaddexp(a, b)`: `ta * exp(a - out) + tb * exp(b - out)`; the maximum in `log_softmax` and `logsumexp` is
behind `stop_gradient`.  One batch entry; logarithms of positive numbers only (impossible values are C66).
-/

namespace Distrax

noncomputable section

namespace Dual

/-- `lax.abs`. [external; called e.g. at laplace.py:38] -/
def abs (a : Dual) : Dual := ⟨|a.val|, a.tan * (SignType.sign a.val : ℝ)⟩
/-- `jnp.square`. [external; called e.g. at normal.py:89] -/
def square (a : Dual) : Dual := ⟨a.val ^ 2, a.tan * (2 * a.val)⟩
/-- `jnp.cos`. [external; called e.g. at von_mises.py:60] -/
def cos (a : Dual) : Dual := ⟨Real.cos a.val, -a.tan * Real.sin a.val⟩
/-- `jax.scipy.special.i0`. [external; called e.g. at von_mises.py:140] -/
def i0 (a : Dual) : Dual := ⟨bessel0 a.val, a.tan * bessel1 a.val⟩
/-- `lax.lgamma`. [external; called e.g. at gamma.py:90] -/
def lgamma (a : Dual) : Dual := ⟨Distrax.lgamma a.val, a.tan * digamma a.val⟩
/-- `jnp.logaddexp` of finite numbers. [external; called e.g. at mixture_of_two.py:87] -/
def logaddexp (a b : Dual) : Dual :=
  let out := max a.val b.val + Real.log (1 + Real.exp (-|a.val - b.val|))
  ⟨out, a.tan * Real.exp (a.val - out) + b.tan * Real.exp (b.val - out)⟩
/-- `jax.nn.log_softmax` of a row of finite numbers. [external; called e.g. at mixture_same_family.py:61] -/
def logSoftmax {n : ℕ} (x : Fin n → Dual) : Fin n → Dual := fun i =>
  let m := const (⨆ j, (x j).val)
  let shifted := fun j => x j - m
  shifted i - log (sum fun j => exp (shifted j))
/-- `jax.scipy.special.logsumexp` of a row of finite numbers. [external; called e.g. at mixture_same_family.py:124] -/
def logsumexp {n : ℕ} (x : Fin n → Dual) : Dual :=
  let m := const (⨆ j, (x j).val)
  log (sum fun j => exp (x j - m)) + m

/-- normal.py:110-111 `_standardize`, likewise laplace.py:138-140, logistic.py:126-128, gumbel.py:121-123. -/
def standardize (loc scale v : Dual) : Dual := (v - loc) / scale

/-- normal.py:92-96 `log_prob`. -/
def normalLogProb (loc scale v : Dual) : Dual :=
  let logUnnormalized := const (-0.5) * square (standardize loc scale v)
  let logNormalization := const halfLog2pi + log scale
  logUnnormalized - logNormalization

/-- log_stddev_normal.py:61-68, the scale (`exp` of the possibly thresholded log-scale). -/
def stddev (maxScale : Option ℝ) (logScale : Dual) : Dual :=
  match maxScale with
  | none => exp logScale
  | some m => exp (const (Real.log m) - softplus (const (Real.log m) - logScale))

/-- log_stddev_normal.py:61-68 with normal.py:92-96 `log_prob` (inherited). -/
def logStddevNormalLogProb (maxScale : Option ℝ) (loc logScale v : Dual) : Dual :=
  normalLogProb loc (stddev maxScale logScale) v

/-- laplace.py:98-101 `log_prob`. -/
def laplaceLogProb (loc scale v : Dual) : Dual :=
  -abs (standardize loc scale v) - const (Real.log 2) - log scale

/-- logistic.py:88-91 `log_prob`. -/
def logisticLogProb (loc scale v : Dual) : Dual :=
  let z := standardize loc scale v;
  -z - const 2 * softplus (-z) - log scale

/-- gumbel.py:77-80 `log_prob`. -/
def gumbelLogProb (loc scale v : Dual) : Dual :=
  let z := standardize loc scale v;
  -(z + exp (-z)) - log scale

/-- uniform.py:92-101 `log_prob` of a value inside the support: `log(1 / (high - low))`. -/
def uniformLogProb (low high : Dual) : Dual := log (const 1 / (high - low))

/-- von_mises.py:137-143 `log_prob`. -/
def vonMisesLogProb (loc conc v : Dual) : Dual :=
  conc * cos (v - loc) - const (Real.log (2 * Real.pi)) - log (i0 conc)

/-- gamma.py:84-91 `log_prob` of a positive value. -/
def gammaLogProb (concentration rate v : Dual) : Dual :=
  concentration * log rate + (concentration - const 1) * log v - rate * v - lgamma concentration

/-- utils/math.py:162-174 `log_beta`. -/
def logBeta (a b : Dual) : Dual := lgamma a + lgamma b - lgamma (a + b)

/-- utils/math.py:177-190 `log_beta_multivariate`, one row. -/
def logBetaMultivariate {n : ℕ} (a : Fin n → Dual) : Dual := (sum fun i => lgamma (a i)) - lgamma (sum a)

/-- beta.py:64 and 94-98 `log_prob` of a value strictly between 0 and 1. -/
def betaLogProb (alpha beta v : Dual) : Dual :=
  (alpha - const 1) * log v + (beta - const 1) * log (const 1 - v) - logBeta alpha beta

/-- dirichlet.py:70-71 and 96-99 `log_prob` of a vector of positive entries. -/
def dirichletLogProb {n : ℕ} (concentration v : Fin n → Dual) : Dual :=
  (sum fun i => (concentration i - const 1) * log (v i)) - logBetaMultivariate concentration

/-- mixture_of_two.py:83-87 `log_prob`, from the components' log-probabilities. -/
def mixtureOfTwoLogProb (probA lpA lpB : Dual) : Dual :=
  logaddexp (log probA + lpA) (log (const 1 - probA) + lpB)

/-- mixture_same_family.py:61-62 and 116-124 `log_prob`, from the logits of the mixing Categorical (whose constructor applies
`log_softmax` too, categorical.py:63) and the components' log-probabilities. -/
def mixtureSameFamilyLogProb {n : ℕ} (logits lp : Fin n → Dual) : Dual :=
  let mix := logSoftmax (logSoftmax logits)
  logsumexp fun k => lp k + mix k

/-- independent.py:87-89 `log_prob` with all batch dimensions reinterpreted: the sum over the coordinates. -/
def independentLogProb {n : ℕ} (lp : Fin n → Dual) : Dual := sum lp

end Dual

/-- A parameter as a function of the scalar in whose direction one differentiates, with its derivative.
[no line of its own; part of the model of normal.py:37-146] -/
structure Param where
  val : ℝ → ℝ
  der : ℝ → ℝ

/-- The parameter and its tangent at `t`. [no line of its own; part of the model of normal.py:37-146] -/
def Param.at (p : Param) (t : ℝ) : Dual := ⟨p.val t, p.der t⟩

/-- Distributions over the real line that can be built from the scalar families with positive densities and (nested) mixtures.
[no line of its own; part of the model of normal.py:37-146] -/
inductive ScalarDist : Type where
  | normal (loc scale : Param)
  | logStddevNormal (maxScale : Option ℝ) (loc logScale : Param)
  | laplace (loc scale : Param)
  | logistic (loc scale : Param)
  | gumbel (loc scale : Param)
  | mixtureOfTwo (probA : Param) (a b : ScalarDist)
  | mixtureSameFamily (n : ℕ) (logits : Fin n → Param) (components : Fin n → ScalarDist)

/-- `log_prob` of each of the classes (citations at the functions used). [base class distribution.py:82-90] -/
def ScalarDist.logProb (t : ℝ) (v : Dual) : ScalarDist → Dual
  | .normal loc scale => Dual.normalLogProb (loc.at t) (scale.at t) v
  | .logStddevNormal maxScale loc logScale => Dual.logStddevNormalLogProb maxScale (loc.at t) (logScale.at t) v
  | .laplace loc scale => Dual.laplaceLogProb (loc.at t) (scale.at t) v
  | .logistic loc scale => Dual.logisticLogProb (loc.at t) (scale.at t) v
  | .gumbel loc scale => Dual.gumbelLogProb (loc.at t) (scale.at t) v
  | .mixtureOfTwo probA a b => Dual.mixtureOfTwoLogProb (probA.at t) (a.logProb t v) (b.logProb t v)
  | .mixtureSameFamily _ logits components =>
    Dual.mixtureSameFamilyLogProb (fun k => (logits k).at t) fun k => (components k).logProb t v

namespace Dual

/-- normal.py:85-90 `_sample_n_and_log_prob`, one entry. -/
def normalSampleAndLogProb (loc scale : Dual) (rnd : ℝ) : Dual × Dual :=
  (scale * const rnd + loc, const (-0.5) * square (const rnd) - const halfLog2pi - log scale)

/-- laplace.py:91-96 `_sample_n_and_log_prob`, one entry. -/
def laplaceSampleAndLogProb (loc scale : Dual) (rnd : ℝ) : Dual × Dual :=
  (loc + scale * const rnd, -abs (const rnd) - const (Real.log 2) - log scale)

/-- distribution.py `_sample_n_and_log_prob` (not overridden by logistic.py): `log_prob` of the sample; logistic.py:75-86. -/
def logisticSampleAndLogProb (loc scale : Dual) (u : ℝ) : Dual × Dual :=
  let x := logisticSample loc scale u
  (x, logisticLogProb loc scale x)

/-- gumbel.py:92-97 `_sample_n_and_log_prob`, one entry. -/
def gumbelSampleAndLogProb (loc scale : Dual) (rnd : ℝ) : Dual × Dual :=
  (scale * const rnd + loc, -(const rnd + exp (-const rnd)) - log scale)

/-- monte_carlo.py:95-103 `mc_estimate_kl`: one term, from the log-probabilities under `a`, `b` and the proposal, the latter
behind `stop_gradient`. -/
def diceTerm (logpA logpB : Dual) (logpProposal : ℝ) : Dual :=
  let importanceWeight := exp (logpA - const logpProposal)
  let logRatio := logpB - logpA;
  -importanceWeight * logRatio

/-- monte_carlo.py:103 and 124 `jnp.mean(..., axis=0)`. -/
def mean {n : ℕ} (x : Fin n → Dual) : Dual := sum x / const n

/-- monte_carlo.py:119-124 `mc_estimate_kl_with_reparameterized`: one term. -/
def reparamTerm (logpA logpB : Dual) : Dual := -(logpB - logpA)

end Dual

end

end Distrax
