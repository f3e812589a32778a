import Verif.Model.FloatArith

/-!
The scalar bijectors and distributions evaluated in floating point, operation by operation as in the source.
-/

namespace Distrax

open FX

noncomputable section

variable {F : Fmt}

/-! ### Bijectors -/

namespace FloatBij

/-- bijectors/sigmoid.py:70-71 `_more_stable_sigmoid`. -/
def moreStableSigmoid (x : FX F) : FX F := whr (x < lit (-9)) (exp x) (sigmoid x)

/-- bijectors/sigmoid.py:74-75 `_more_stable_softplus`. -/
def moreStableSoftplus (x : FX F) : FX F := whr (x < lit (-9)) (log1p (exp x)) (softplus x)

/-- bijectors/sigmoid.py `Sigmoid.forward_log_det_jacobian`. -/
def sigmoidFldj (x : FX F) : FX F := -(moreStableSoftplus (-x)) - moreStableSoftplus x

/-- bijectors/sigmoid.py `Sigmoid.inverse_and_log_det`. -/
def sigmoidInverse (y : FX F) : FX F × FX F :=
  let x := log y - log1p (-y)
  (x, -(sigmoidFldj x))

/-- bijectors/tanh.py `Tanh.forward_log_det_jacobian`. -/
def tanhFldj (x : FX F) : FX F := lit 2 * (lit (Real.log 2) - x - softplus (lit (-2) * x))

/-- bijectors/gumbel_cdf.py `GumbelCDF.forward_and_log_det`. -/
def gumbelCdf (x : FX F) : FX F × FX F :=
  let expNegX := exp (-x)
  let y := exp (-expNegX)
  (y, -x - expNegX)

/-- bijectors/scalar_affine.py `ScalarAffine.forward`. -/
def affineForward (shift scale x : FX F) : FX F := scale * x + shift

/-- bijectors/scalar_affine.py:66-74, 114-119 `ScalarAffine.inverse` of an instance built with `scale`: `_inv_scale = 1. / scale`. -/
def affineInverse (shift scale y : FX F) : FX F := lit 1 / scale * (y - shift)

end FloatBij

/-! ### Location-scale families -/

/-- The parameters of a location-scale family. [normal.py:42-51] -/
structure LS (F : Fmt) where
  loc : FX F
  scale : FX F

namespace LS

/-- `_standardize` of Normal, Laplace, Logistic and Gumbel: `(value - loc) / scale`.
[normal.py:114-115, laplace.py:112-113, logistic.py:72-73, gumbel.py:73-75] -/
def standardize (d : LS F) (v : FX F) : FX F := (v - d.loc) / d.scale

end LS

namespace FloatNormal

/-- normal.py:27 `_half_log2pi = 0.5 * math.log(2 * math.pi)` (computed in Python, then converted). -/
def halfLog2pi : FX F := lit (Real.log (2 * Real.pi) / 2)

/-- normal.py `Normal.log_prob`. -/
def logProb (d : LS F) (v : FX F) : FX F :=
  lit (-(1 / 2)) * square (d.standardize v) - (halfLog2pi + log d.scale)

/-- normal.py `Normal.entropy`. -/
def entropy (d : LS F) : FX F := lit (1 / 2) + (halfLog2pi + log d.scale)

/-- normal.py `_kl_divergence_normal_normal`. -/
def kl (p q : LS F) : FX F :=
  let diffLogScale := log p.scale - log q.scale
  lit (1 / 2) * square (p.loc / q.scale - q.loc / q.scale) + lit (1 / 2) * expm1 (lit 2 * diffLogScale) - diffLogScale

end FloatNormal

namespace FloatLaplace

/-- laplace.py `Laplace.log_prob`. -/
def logProb (d : LS F) (v : FX F) : FX F := -(abs (d.standardize v)) - lit (Real.log 2) - log d.scale

/-- laplace.py `Laplace.cdf`. -/
def cdf (d : LS F) (v : FX F) : FX F :=
  let z := d.standardize v
  lit (1 / 2) - lit (1 / 2) * sign z * expm1 (-(abs z))

/-- laplace.py:35-40 `_log_cdf_laplace`. -/
def logCdfStd (z : FX F) : FX F :=
  let lower := z - lit (Real.log 2)
  let e := exp (-(abs z))
  let upper := log1p (lit (-(1 / 2)) * e)
  whr (z ≤ lit 0) lower upper

/-- laplace.py `Laplace.log_cdf`. -/
def logCdf (d : LS F) (v : FX F) : FX F := logCdfStd (d.standardize v)

/-- laplace.py `Laplace.log_survival_function`. -/
def logSf (d : LS F) (v : FX F) : FX F := logCdfStd (-(d.standardize v))

/-- laplace.py `_kl_divergence_laplace_laplace`. -/
def kl (p q : LS F) : FX F :=
  let distance := abs (p.loc - q.loc)
  let diffLogScale := log p.scale - log q.scale;
  -diffLogScale + distance / q.scale - lit 1 + exp (-distance / p.scale + diffLogScale)

end FloatLaplace

namespace FloatLogistic

/-- logistic.py `Logistic.log_prob`. -/
def logProb (d : LS F) (v : FX F) : FX F :=
  let z := d.standardize v;
  -z - lit 2 * softplus (-z) - log d.scale

/-- logistic.py `Logistic.cdf`. -/
def cdf (d : LS F) (v : FX F) : FX F := sigmoid (d.standardize v)

/-- logistic.py `Logistic.survival_function`. -/
def sf (d : LS F) (v : FX F) : FX F := sigmoid (-(d.standardize v))

/-- logistic.py `Logistic.log_cdf`. -/
def logCdf (d : LS F) (v : FX F) : FX F := -(softplus (-(d.standardize v)))

/-- logistic.py `Logistic.log_survival_function`. -/
def logSf (d : LS F) (v : FX F) : FX F := -(softplus (d.standardize v))

end FloatLogistic

namespace FloatGumbel

/-- gumbel.py `Gumbel.log_prob`. -/
def logProb (d : LS F) (v : FX F) : FX F :=
  let z := d.standardize v;
  -(z + exp (-z)) - log d.scale

/-- gumbel.py `Gumbel.log_cdf`. -/
def logCdf (d : LS F) (v : FX F) : FX F := -(exp (-(d.standardize v)))

/-- distribution.py `Distribution.cdf` (inherited by Gumbel): `exp(log_cdf)`. -/
def cdf (d : LS F) (v : FX F) : FX F := exp (logCdf d v)

end FloatGumbel

/-! ### Uniform -/

namespace FloatUniform

/-- uniform.py `Uniform.prob`. -/
def prob (low high v : FX F) : FX F := whr (v < low ∨ high < v) (lit 0) (lit 1 / (high - low))

/-- uniform.py `Uniform.log_prob`. -/
def logProb (low high v : FX F) : FX F := log (prob low high v)

/-- uniform.py `Uniform.cdf`. -/
def cdf (low high v : FX F) : FX F :=
  whr (high < v) (lit 1) (whr (v < low) (lit 0) ((v - low) / (high - low)))

/-- uniform.py `_kl_divergence_uniform_uniform`. -/
def kl (low1 high1 low2 high2 : FX F) : FX F :=
  whr (low2 ≤ low1 ∧ high1 ≤ high2) (log (high2 - low2) - log (high1 - low1)) posInf

end FloatUniform

/-! ### Bernoulli and Categorical -/

/-- utils/math.py:28-47 `multiply_no_nan`. -/
def FX.multiplyNoNan (x y : FX F) : FX F := whr (y.1 = .fin 0) (lit 0) (x * y)

/-- utils/math.py `mul_exp`. -/
def FX.mulExp (x logp : FX F) : FX F :=
  let p := exp logp
  whr (p.1 = .fin 0) (lit 0) x * p

namespace FloatBern

/-- bernoulli.py `_log_probs_parameter` from `logits`: the pair (log P(0), log P(1)). -/
def logProbs (logits : FX F) : FX F × FX F := (-(softplus logits), -(softplus (lit (-1) * logits)))

/-- bernoulli.py `_log_probs_parameter` from `probs`. -/
def logProbsP (probs : FX F) : FX F × FX F := (log1p (lit (-1) * probs), log probs)

/-- bernoulli.py `Bernoulli.log_prob`. -/
def logProb (lp : FX F × FX F) (v : FX F) : FX F := multiplyNoNan lp.1 (lit 1 - v) + multiplyNoNan lp.2 v

/-- bernoulli.py `_probs_and_log_probs` from `logits`: (P(0), P(1)). -/
def probs (logits : FX F) : FX F × FX F := (sigmoid (lit (-1) * logits), sigmoid logits)

/-- bernoulli.py `_probs_and_log_probs` from `probs`. -/
def probsP (p : FX F) : FX F × FX F := (lit 1 - p, lit 1 - (lit 1 - p))

/-- bernoulli.py `Bernoulli.entropy`. -/
def entropy (p lp : FX F × FX F) : FX F := lit (-1) * (multiplyNoNan lp.1 p.1 + multiplyNoNan lp.2 p.2)

/-- bernoulli.py:188-211 `_kl_divergence_bernoulli_bernoulli` from the probabilities of the first and the log-probabilities of both
distributions. -/
def kl (p lp1 lp2 : FX F × FX F) : FX F :=
  multiplyNoNan lp1.2 p.2 - multiplyNoNan lp2.2 p.2 + multiplyNoNan lp1.1 p.1 - multiplyNoNan lp2.1 p.1

end FloatBern

namespace FloatCat

/-- The largest entry of a non-empty vector (`jnp.max`; exact). [external; called e.g. at epsilon_greedy.py:30] -/
def maxEntry {n : ℕ} (l : Fin (n + 1) → FX F) : FX F := (List.ofFn l).tail.foldl FX.max (l 0)

/-- `jax.nn.log_softmax` of `l` may return `r`: `shifted = l - max(l)`, `r = shifted - log(sum(exp(shifted)))`, the sum being taken
in any order. [external; called e.g. at categorical.py:122] -/
def LogSoftmax {n : ℕ} (l r : Fin (n + 1) → FX F) : Prop :=
  ∃ s, SumsTo (List.ofFn fun i => exp (l i - maxEntry l)) s ∧ ∀ i, r i = (l i - maxEntry l) - log s

/-- categorical.py `Categorical.entropy` of normalised `logits` may return `e`: `-sum(mul_exp(lp, lp))` with
`lp = log_softmax(logits)`. -/
def Entropy {n : ℕ} (logits : Fin (n + 1) → FX F) (e : FX F) : Prop :=
  ∃ lp s, LogSoftmax logits lp ∧ SumsTo (List.ofFn fun i => mulExp (lp i) (lp i)) s ∧ e = -s

/-- categorical.py `Categorical.probs` (`jax.nn.softmax`: `exp(l - max) / sum`) may return `p`. -/
def Softmax {n : ℕ} (l p : Fin (n + 1) → FX F) : Prop :=
  ∃ s, SumsTo (List.ofFn fun i => exp (l i - maxEntry l)) s ∧ ∀ i, p i = exp (l i - maxEntry l) / s

end FloatCat

/-! ### Derived base-class methods -/

/-- distribution.py:219-238 `Distribution.survival_function` (default): `1 - cdf`. -/
def floatSfDefault (cdf : FX F → FX F) (v : FX F) : FX F := lit 1 - cdf v

/-- distribution.py:240-260 `Distribution.log_survival_function` (default): `log1p(-cdf)`. -/
def floatLogSfDefault (cdf : FX F → FX F) (v : FX F) : FX F := log1p (-(cdf v))

/-- uniform.py:131-133 `Uniform.log_cdf`: `log(cdf)`. -/
def floatLogOfCdf (cdf : FX F → FX F) (v : FX F) : FX F := log (cdf v)

/-! ### Mixtures -/

/-- mixture_of_two.py `MixtureOfTwo.log_prob` from the components' `log_prob`. -/
def floatMixtureOfTwo (probA lpA lpB : FX F) : FX F :=
  logaddexp (log probA + lpA) (log (lit 1 - probA) + lpB)

/-! ### Quantized -/

/-- The base distribution of a `Quantized`: its `log_cdf` and `log_survival_function`. [the calls of quantized.py:37-332] -/
structure FBase (F : Fmt) where
  logCdf : FX F → FX F
  logSf : FX F → FX F

namespace FloatQuantized

/-- quantized.py `Quantized.log_cdf`. -/
def logCdf (b : FBase F) (low high : Option (FX F)) (v : FX F) : FX F :=
  let y := floor v
  let r := b.logCdf y
  let r := match low with | some l => whr (y < l) negInf r | none => r
  match high with | some h => whr (y < h) r (lit 0) | none => r

/-- quantized.py `Quantized.log_survival_function`. -/
def logSf (b : FBase F) (low high : Option (FX F)) (v : FX F) : FX F :=
  let y := floor v
  let r := b.logSf y
  let r := match low with | some l => whr (y < l) (lit 0) r | none => r
  match high with | some h => whr (y < h) r negInf | none => r

/-- utils/math.py `log_expbig_minus_expsmall`. -/
def logExpBigMinusExpSmall (big small : FX F) : FX F := big + log1p (-(exp (small - big)))

/-- quantized.py `Quantized.log_prob`. -/
def logProb (b : FBase F) (low high : Option (FX F)) (eps : Option (FX F)) (v : FX F) : FX F :=
  let lc := logCdf b low high v
  let lcm1 := logCdf b low high (v - lit 1)
  let ls := logSf b low high v
  let lsm1 := logSf b low high (v - lit 1)
  let big := whr (ls < lc) lsm1 lc
  let small := whr (ls < lc) ls lcm1
  let big := match eps with
    | some e => whr (e < big - small) big (small + e)
    | none => big
  let lp := logExpBigMinusExpSmall big small
  let lp := whr (floor v < v) negInf lp
  whr (isInf lc ∨ isInf lsm1) negInf lp

end FloatQuantized

/-! ### Hidden Markov model, forward pass -/

namespace FloatHMM

/-- hmm.py:28-44 `_normalize` may return `(w, c)`: clamp, sum in any order, replace a zero sum by one, divide. -/
def Normalize {K : ℕ} (u w : Fin K → FX F) (c : FX F) : Prop :=
  ∃ s : FX F, SumsTo (List.ofFn fun k => whr ((u k).1 = .fin 0) (lit 0) (whr (u k < lit 1e-15) (lit 1e-15) (u k))) s ∧
    c = whr (s.1 = .fin 0) (lit 1) s ∧
    ∀ k, w k = whr ((u k).1 = .fin 0) (lit 0) (whr (u k < lit 1e-15) (lit 1e-15) (u k)) / c

/-- hmm.py:172-183: one step of `forward` from `(alpha, log_ll)` may lead to `(alpha', log_ll')`: for each state the sum
`sum_i alpha_i * A_ij` in any order, times the observation probability, normalised. -/
def Step {K : ℕ} (trans : Fin K → Fin K → FX F) (obsProb : Fin K → FX F) (alpha alpha' : Fin K → FX F) (ll ll' : FX F) : Prop :=
  ∃ m : Fin K → FX F, (∀ j, SumsTo (List.ofFn fun i => alpha i * trans i j) (m j)) ∧
    ∃ c, Normalize (fun j => obsProb j * m j) alpha' c ∧ ll' = log c + ll

/-- hmm.py:152-197 `forward` on the observations with probabilities `obsProb t` may reach `(alpha, log_ll)` after time `t`. -/
inductive Forward {K : ℕ} (init : Fin K → FX F) (trans : Fin K → Fin K → FX F) (obsProb : ℕ → Fin K → FX F) :
    ℕ → (Fin K → FX F) → FX F → Prop
  | zero {alpha c} : Normalize (fun k => init k * obsProb 0 k) alpha c → Forward init trans obsProb 0 alpha (log c)
  | step {t alpha ll alpha' ll'} : Forward init trans obsProb t alpha ll →
      Step trans (obsProb (t + 1)) alpha alpha' ll ll' → Forward init trans obsProb (t + 1) alpha' ll'

end FloatHMM

end

end Distrax
