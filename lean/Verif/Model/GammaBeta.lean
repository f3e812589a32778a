import Verif.Model.Multinomial
import Mathlib.MeasureTheory.Integral.IntervalIntegral.Basic
import Mathlib.Analysis.SpecialFunctions.Pow.Real

/-!
# Gamma, Beta, Dirichlet (gamma.py, beta.py, dirichlet.py)

One batch element.  Parameters are reals; `log_prob` and `mode` are computed in extended numbers because the code's
behaviour at the boundary of the support and its nan results are part of the interface.  `jax.lax.igamma`,
`jax.scipy.special.betainc` and `jax.lax.digamma` are taken to be the functions they are documented to be.
-/

namespace Distrax

open XR

noncomputable section

/-- `jax.lax.digamma`: the logarithmic derivative of the gamma function. [external; called e.g. at gamma.py:100] -/
def digamma (a : ℝ) : ℝ := deriv Real.Gamma a / Real.Gamma a

/-- `jax.lax.igamma(a, x)`: the regularised lower incomplete gamma function (`x ≥ 0`). [external; called e.g. at gamma.py:105] -/
def igamma (a x : ℝ) : ℝ := (∫ t in (0 : ℝ)..x, t ^ (a - 1) * Real.exp (-t)) / Real.Gamma a

/-- `jax.scipy.special.betainc(a, b, x)`: the regularised incomplete beta function (`0 ≤ x ≤ 1`). [external; called e.g. at beta.py:108] -/
def betainc (a b x : ℝ) : ℝ :=
  (∫ t in (0 : ℝ)..x, t ^ (a - 1) * (1 - t) ^ (b - 1)) / (Real.Gamma a * Real.Gamma b / Real.Gamma (a + b))

/-- gamma.py:39-50 `Gamma.__init__`. -/
structure GammaD where
  concentration : ℝ
  rate : ℝ

namespace GammaD
variable (d : GammaD)

/-- gamma.py:79-82 `_sample_n`, for one draw `rnd` of `jax.random.gamma(a)`. -/
def sample (rnd : ℝ) : ℝ := rnd / d.rate

/-- gamma.py:84-91 `log_prob`. -/
def logProb (x : XR) : XR :=
  fin d.concentration * XR.log (fin d.rate) + fin (d.concentration - 1) * XR.log x - fin d.rate * x
    - xlgamma d.concentration

/-- gamma.py:93-101 `entropy`. -/
def entropy : ℝ :=
  let logRate := Real.log d.rate
  d.concentration - logRate + lgamma d.concentration + (1 - d.concentration) * digamma d.concentration

/-- gamma.py:103-105 `cdf`. -/
def cdf (x : ℝ) : ℝ := igamma d.concentration (d.rate * x)

/-- gamma.py:107-109 `log_cdf`. -/
def logCdf (x : ℝ) : XR := XR.log (fin (d.cdf x))

/-- gamma.py:111-113 `mean`. -/
def mean : ℝ := d.concentration / d.rate

/-- gamma.py:115-117 `stddev`. -/
def stddev : ℝ := Real.sqrt d.concentration / d.rate

/-- gamma.py:119-121 `variance`. -/
def variance : ℝ := d.concentration / d.rate ^ 2

open Classical in
/-- gamma.py:123-126 `mode`. -/
def mode : XR := if 1 ≤ d.concentration then fin ((d.concentration - 1) / d.rate) else nan

/-- gamma.py:135-155 `_kl_divergence_gamma_gamma`. -/
def kl (d1 d2 : GammaD) : ℝ :=
  let t1 := d2.concentration * (Real.log d1.rate - Real.log d2.rate)
  let t2 := lgamma d2.concentration - lgamma d1.concentration
  let t3 := (d1.concentration - d2.concentration) * digamma d1.concentration
  let t4 := (d2.rate - d1.rate) * (d1.concentration / d1.rate)
  t1 + t2 + t3 + t4

end GammaD

/-- beta.py:52-64 `Beta.__init__`. -/
structure BetaD where
  alpha : ℝ
  beta : ℝ

namespace BetaD
variable (d : BetaD)

/-- beta.py:64 the stored normalisation constant. -/
def logZ : ℝ := logBeta d.alpha d.beta

open Classical in
/-- beta.py:94-104 `log_prob`. -/
def logProb (x : ℝ) : XR :=
  let result := fin (d.alpha - 1) * XR.log (fin x) + fin (d.beta - 1) * XR.log (fin (1 - x)) - fin d.logZ
  if (d.alpha = 1 ∧ x = 0) ∨ (d.beta = 1 ∧ x = 1) then -fin d.logZ else result

/-- beta.py:106-108 `cdf`. -/
def cdf (x : ℝ) : ℝ := betainc d.alpha d.beta x

/-- beta.py:114-122 `entropy`. -/
def entropy : ℝ :=
  d.logZ - (d.alpha - 1) * digamma d.alpha - (d.beta - 1) * digamma d.beta
    + (d.alpha + d.beta - 2) * digamma (d.alpha + d.beta)

/-- beta.py:124-126 `mean`. -/
def mean : ℝ := d.alpha / (d.alpha + d.beta)

/-- beta.py:128-132 `variance`. -/
def variance : ℝ :=
  let sumAlphaBeta := d.alpha + d.beta
  d.alpha * d.beta / (sumAlphaBeta ^ 2 * (sumAlphaBeta + 1))

open Classical in
/-- beta.py:134-150 `mode`. -/
def mode : XR :=
  if 1 < d.alpha ∧ 1 < d.beta then fin ((d.alpha - 1) / (d.alpha + d.beta - 2))
  else if d.alpha ≤ 1 ∧ 1 < d.beta then 0
  else if 1 < d.alpha ∧ d.beta ≤ 1 then 1 else nan

/-- beta.py:171-192 `_kl_divergence_beta_beta`. -/
def kl (d1 d2 : BetaD) : ℝ :=
  let t1 := logBeta d2.alpha d2.beta - logBeta d1.alpha d1.beta
  let t2 := (d1.alpha - d2.alpha) * digamma d1.alpha
  let t3 := (d1.beta - d2.beta) * digamma d1.beta
  let t4 := (d2.alpha - d1.alpha + d2.beta - d1.beta) * digamma (d1.alpha + d1.beta)
  t1 + t2 + t3 + t4

end BetaD

/-- dirichlet.py:53-71 `Dirichlet`: one row of concentrations. -/
structure Dir (K : ℕ) where
  concentration : Fin K → ℝ

namespace Dir
variable {K : ℕ} (d : Dir K)

/-- dirichlet.py:53-71 `__init__` (`ndim ≥ 1` holds by construction here; `K` is `shape[-1]`). -/
def init (c : Fin K → ℝ) : Except Err (Dir K) := if K < 2 then .error .valueError else .ok ⟨c⟩

/-- dirichlet.py:62-69 `__init__`: the checks, on the full shape. -/
def initShape (shape : List ℕ) : Except Err (List ℕ) :=
  if shape.length < 1 then .error .valueError
  else if shape.getLast?.getD 0 < 2 then .error .valueError
  else .ok shape

/-- dirichlet.py:70-71 the stored normalisation constant. -/
def logZ : ℝ := logBetaMultivariate d.concentration

/-- dirichlet.py:96-99 `log_prob`. -/
def logProb (x : Fin K → ℝ) : XR :=
  (∑ i, fin (d.concentration i - 1) * XR.log (fin (x i))) - fin d.logZ

/-- dirichlet.py:101-110 `entropy`. -/
def entropy : ℝ :=
  let sumConcentration := ∑ i, d.concentration i
  d.logZ + (sumConcentration - K) * digamma sumConcentration
    - ∑ i, (d.concentration i - 1) * digamma (d.concentration i)

/-- dirichlet.py:112-115 `mean`. -/
def mean (i : Fin K) : ℝ := d.concentration i / ∑ j, d.concentration j

open Classical in
/-- dirichlet.py:117-129 `mode`. -/
def mode (i : Fin K) : XR :=
  let resultIfValid := (d.concentration i - 1) / ∑ j, (d.concentration j - 1)
  if ∀ j, 1 < d.concentration j then fin resultIfValid else nan

/-- dirichlet.py:131-136 `variance`. -/
def variance (i : Fin K) : ℝ :=
  let sumConcentration := ∑ j, d.concentration j
  let norm := d.concentration i / sumConcentration
  norm * (1 - norm) / (sumConcentration + 1)

/-- dirichlet.py:138-151 `covariance`. -/
def covariance (i j : Fin K) : ℝ :=
  let sumConcentration := ∑ j, d.concentration j
  let norm := fun k => d.concentration k / sumConcentration
  let normOverSum := fun k => norm k / (sumConcentration + 1);
  (-normOverSum i) * norm j + if i = j then normOverSum i else 0

/-- dirichlet.py:178-206 `_kl_divergence_dirichlet_dirichlet`. -/
def kl {K1 K2 : ℕ} (d1 : Dir K1) (d2 : Dir K2) : Except Err ℝ :=
  if h : K1 ≠ K2 then .error .valueError
  else
    let c2 : Fin K1 → ℝ := fun i => d2.concentration (Fin.cast (not_not.1 h) i)
    let sumConcentration1 := ∑ i, d1.concentration i
    let t1 := logBetaMultivariate c2 - logBetaMultivariate d1.concentration
    let t2 := ∑ i, (d1.concentration i - c2 i) * (digamma (d1.concentration i) - digamma sumConcentration1)
    .ok (t1 + t2)

/-- dirichlet.py:162-175 `_obtain_concentration` of a Beta distribution. -/
def ofBeta (b : BetaD) : Dir 2 := ⟨![b.alpha, b.beta]⟩

end Dir

end

end Distrax
