import Verif.Model.MathUtils
import Mathlib.Probability.Distributions.Gaussian.Real
import Mathlib.NumberTheory.Harmonic.EulerMascheroni

/-!
# Scalar continuous families

distributions/normal.py, log_stddev_normal.py, laplace.py, logistic.py, gumbel.py, uniform.py, deterministic.py.
One batch entry each (broadcasting is C18/C19); floats are exact reals; the noise drawn from `jax.random` is an
argument.
-/

namespace Distrax

noncomputable section

/-- `jax.nn.softplus`. [external; called e.g. at logistic.py:91] -/
def rsoftplus (x : ℝ) : ℝ := Real.log (1 + Real.exp x)

/-- `jax.nn.sigmoid`. [external; called e.g. at logistic.py:99] -/
def rsigmoid (x : ℝ) : ℝ := 1 / (1 + Real.exp (-x))

/-- `jax.scipy.special.ndtr` (external): the standard normal distribution function. [external; called e.g. at normal.py:100] -/
def ndtr (x : ℝ) : ℝ := ∫ t in Set.Iic x, ProbabilityTheory.gaussianPDFReal 0 1 t

/-- normal.py:34 `_half_log2pi`. -/
def halfLog2pi : ℝ := 0.5 * Real.log (2 * Real.pi)

/-- normal.py:42-51 `Normal`. -/
structure Normal where
  loc : ℝ
  scale : ℝ

namespace Normal
variable (d : Normal)

/-- normal.py:114-115 -/
def standardize (x : ℝ) : ℝ := (x - d.loc) / d.scale
/-- normal.py:78-83, for one draw `rnd` of `jax.random.normal` -/
def sample (rnd : ℝ) : ℝ := d.scale * rnd + d.loc
/-- normal.py:85-90 -/
def sampleAndLogProb (rnd : ℝ) : ℝ × ℝ :=
  (d.scale * rnd + d.loc, -0.5 * rnd ^ 2 - halfLog2pi - Real.log d.scale)
/-- normal.py:92-96 -/
def logProb (x : ℝ) : ℝ :=
  let logUnnormalized := -0.5 * (d.standardize x) ^ 2
  let logNormalization := halfLog2pi + Real.log d.scale
  logUnnormalized - logNormalization
/-- distribution.py:92-101 -/
def prob (x : ℝ) : ℝ := Real.exp (d.logProb x)
/-- normal.py:98-100 -/
def cdf (x : ℝ) : ℝ := ndtr (d.standardize x)
/-- normal.py:102-104; `log_ndtr` (external) is the logarithm of `ndtr` -/
def logCdf (x : ℝ) : ℝ := Real.log (ndtr (d.standardize x))
/-- normal.py:106-108 -/
def survival (x : ℝ) : ℝ := ndtr (-d.standardize x)
/-- normal.py:110-112 -/
def logSurvival (x : ℝ) : ℝ := Real.log (ndtr (-d.standardize x))
/-- normal.py:117-121 -/
def entropy : ℝ := 0.5 + (halfLog2pi + Real.log d.scale)
/-- normal.py:123-125 -/
def mean : ℝ := d.loc
/-- normal.py:127-129 -/
def variance : ℝ := d.scale ^ 2
/-- normal.py:131-133 -/
def stddev : ℝ := d.scale
/-- normal.py:135-137 -/
def mode : ℝ := d.mean
/-- normal.py:139-141 -/
def median : ℝ := d.mean
/-- normal.py:149-167 `_kl_divergence_normal_normal` -/
def kl (d1 d2 : Normal) : ℝ :=
  let diffLogScale := Real.log d1.scale - Real.log d2.scale
  0.5 * (d1.loc / d2.scale - d2.loc / d2.scale) ^ 2 + 0.5 * (Real.exp (2 * diffLogScale) - 1) - diffLogScale
end Normal

/-- log_stddev_normal.py:45-68 `LogStddevNormal`: a Normal with a stored log scale and the `max_scale` argument. -/
structure LogStddevNormal extends Normal where
  logScale : ℝ
  maxScale : Option ℝ

namespace LogStddevNormal

/-- log_stddev_normal.py:45-68 `__init__`.  `math.log` raises ValueError for a nonpositive `max_scale`. -/
def init (loc logScale : ℝ) (maxScale : Option ℝ) : Except Err LogStddevNormal :=
  match maxScale with
  | some m =>
    if m ≤ 0 then .error .valueError
    else
      let maxLogScale := Real.log m
      let ls := maxLogScale - rsoftplus (maxLogScale - logScale)
      .ok ⟨⟨loc, Real.exp ls⟩, ls, some m⟩
  | none => .ok ⟨⟨loc, Real.exp logScale⟩, logScale, none⟩

/-- log_stddev_normal.py:75-81 `__getitem__` on one batch entry: rebuilds from `loc`, the (already thresholded)
`log_scale` and `max_scale`. -/
def getItem (d : LogStddevNormal) : Except Err LogStddevNormal := init d.loc d.logScale d.maxScale

/-- log_stddev_normal.py:84-101 -/
def kl (d1 d2 : LogStddevNormal) : ℝ :=
  let variance1 := d1.scale ^ 2
  let variance2 := d2.scale ^ 2
  (variance1 + (d1.loc - d2.loc) ^ 2) / (2 * variance2) + d2.logScale - d1.logScale - 0.5
end LogStddevNormal

/-- laplace.py:48-59 `Laplace`. -/
structure Laplace where
  loc : ℝ
  scale : ℝ

/-- laplace.py:35-40 `_log_cdf_laplace` -/
def logCdfLaplace (z : ℝ) : ℝ :=
  let lower := z - Real.log 2
  let expNeg := Real.exp (-|z|)
  let upper := Real.log (1 + -0.5 * expNeg)
  if z ≤ 0 then lower else upper

namespace Laplace
variable (d : Laplace)
/-- laplace.py:112-113 -/
def standardize (x : ℝ) : ℝ := (x - d.loc) / d.scale
/-- laplace.py:86-89, for one draw of `jax.random.laplace` -/
def sample (rnd : ℝ) : ℝ := d.loc + d.scale * rnd
/-- laplace.py:91-96 -/
def sampleAndLogProb (rnd : ℝ) : ℝ × ℝ := (d.loc + d.scale * rnd, -|rnd| - Real.log 2 - Real.log d.scale)
/-- laplace.py:98-101 -/
def logProb (x : ℝ) : ℝ := -|d.standardize x| - Real.log 2 - Real.log d.scale
/-- distribution.py:92-101 -/
def prob (x : ℝ) : ℝ := Real.exp (d.logProb x)
/-- laplace.py:103-105 -/
def entropy : ℝ := Real.log 2 + 1 + Real.log d.scale
/-- laplace.py:107-110; `jnp.sign` is `SignType.sign` -/
def cdf (x : ℝ) : ℝ :=
  0.5 - 0.5 * (SignType.sign (d.standardize x) : ℝ) * (Real.exp (-|d.standardize x|) - 1)
/-- laplace.py:115-118 -/
def logCdf (x : ℝ) : ℝ := logCdfLaplace (d.standardize x)
/-- distribution.py:219-238 -/
def survival (x : ℝ) : ℝ := 1 - d.cdf x
/-- laplace.py:120-123 -/
def logSurvival (x : ℝ) : ℝ := logCdfLaplace (-d.standardize x)
/-- laplace.py:125-127 -/
def mean : ℝ := d.loc
/-- laplace.py:129-131 -/
def stddev : ℝ := Real.sqrt 2 * d.scale
/-- laplace.py:133-135 -/
def variance : ℝ := 2 * d.scale ^ 2
/-- laplace.py:137-139 -/
def mode : ℝ := d.mean
/-- laplace.py:141-143 -/
def median : ℝ := d.mean
/-- laplace.py:151-169 `_kl_divergence_laplace_laplace` -/
def kl (d1 d2 : Laplace) : ℝ :=
  let distance := |d1.loc - d2.loc|
  let diffLogScale := Real.log d1.scale - Real.log d2.scale;
  -diffLogScale + distance / d2.scale - 1 + Real.exp (-distance / d1.scale + diffLogScale)
end Laplace

/-- logistic.py:39-50 `Logistic`. -/
structure Logistic where
  loc : ℝ
  scale : ℝ

namespace Logistic
variable (d : Logistic)
/-- logistic.py:72-73 -/
def standardize (x : ℝ) : ℝ := (x - d.loc) / d.scale
/-- logistic.py:75-86, for one uniform draw `u`.  The code draws from `[finfo.tiny, 1)`; idealised as `(0, 1)`. -/
def sample (u : ℝ) : ℝ :=
  let rnd := Real.log u - Real.log (1 + -u)
  d.scale * rnd + d.loc
/-- logistic.py:88-91 -/
def logProb (x : ℝ) : ℝ :=
  let z := d.standardize x;
  -z - 2 * rsoftplus (-z) - Real.log d.scale
/-- distribution.py:92-101 -/
def prob (x : ℝ) : ℝ := Real.exp (d.logProb x)
/-- logistic.py:93-95 -/
def entropy : ℝ := 2 + Real.log d.scale
/-- logistic.py:97-99 -/
def cdf (x : ℝ) : ℝ := rsigmoid (d.standardize x)
/-- logistic.py:101-103 -/
def logCdf (x : ℝ) : ℝ := -rsoftplus (-d.standardize x)
/-- logistic.py:105-107 -/
def survival (x : ℝ) : ℝ := rsigmoid (-d.standardize x)
/-- logistic.py:109-111 -/
def logSurvival (x : ℝ) : ℝ := -rsoftplus (d.standardize x)
/-- logistic.py:113-115 -/
def mean : ℝ := d.loc
/-- logistic.py:117-119 -/
def variance : ℝ := (d.scale * Real.pi) ^ 2 / 3
/-- logistic.py:121-123 -/
def stddev : ℝ := d.scale * Real.pi / Real.sqrt 3
/-- logistic.py:125-127 -/
def mode : ℝ := d.mean
/-- logistic.py:129-131 -/
def median : ℝ := d.mean
end Logistic

/-- gumbel.py:40-51 `Gumbel`. -/
structure Gumbel where
  loc : ℝ
  scale : ℝ

namespace Gumbel
variable (d : Gumbel)
/-- gumbel.py:73-75 -/
def standardize (x : ℝ) : ℝ := (x - d.loc) / d.scale
/-- gumbel.py:77-80 -/
def logProb (x : ℝ) : ℝ :=
  let z := d.standardize x;
  -(z + Real.exp (-z)) - Real.log d.scale
/-- distribution.py:92-101 -/
def prob (x : ℝ) : ℝ := Real.exp (d.logProb x)
/-- gumbel.py:87-90, for one draw of `jax.random.gumbel` -/
def sample (rnd : ℝ) : ℝ := d.scale * rnd + d.loc
/-- gumbel.py:92-97 -/
def sampleAndLogProb (rnd : ℝ) : ℝ × ℝ :=
  (d.scale * rnd + d.loc, -(rnd + Real.exp (-rnd)) - Real.log d.scale)
/-- gumbel.py:99-101 -/
def entropy : ℝ := Real.log d.scale + 1 + Real.eulerMascheroniConstant
/-- gumbel.py:103-106 -/
def logCdf (x : ℝ) : ℝ := -Real.exp (-d.standardize x)
/-- distribution.py:208-217 -/
def cdf (x : ℝ) : ℝ := Real.exp (d.logCdf x)
/-- distribution.py:219-238 -/
def survival (x : ℝ) : ℝ := 1 - d.cdf x
/-- gumbel.py:108-110 -/
def mean : ℝ := d.loc + d.scale * Real.eulerMascheroniConstant
/-- gumbel.py:112-114 -/
def stddev : ℝ := d.scale * 1 * Real.pi / Real.sqrt 6
/-- gumbel.py:116-118 -/
def variance : ℝ := (d.scale * 1 * Real.pi) ^ 2 / 6
/-- gumbel.py:120-122 -/
def mode : ℝ := d.loc
/-- gumbel.py:124-126 -/
def median : ℝ := d.loc - d.scale * Real.log (Real.log 2)
/-- gumbel.py:134-152 `_kl_divergence_gumbel_gumbel`; `lgamma` (external) is `log |Γ|` -/
def kl (d1 d2 : Gumbel) : ℝ :=
  Real.log d2.scale - Real.log d1.scale + Real.eulerMascheroniConstant * (d1.scale / d2.scale - 1) +
    (Real.exp ((d2.loc - d1.loc) / d2.scale + lgamma (d1.scale / d2.scale + 1)) - 1) +
    (d1.loc - d2.loc) / d2.scale
end Gumbel

/-- uniform.py:40-51 `Uniform`. -/
structure Uniform where
  low : ℝ
  high : ℝ

namespace Uniform
variable (d : Uniform)
/-- uniform.py:69-70 -/
def range : ℝ := d.high - d.low
/-- uniform.py:76-83, for one uniform draw `u` in `[0, 1)` -/
def sample (u : ℝ) : ℝ := d.low + d.range * u
/-- uniform.py:96-101 -/
def prob (x : ℝ) : ℝ := if x < d.low ∨ x > d.high then 0 else 1 / d.range
/-- uniform.py:92-94; `log 0 = -inf` -/
def logProb (x : ℝ) : XR := XR.log (.fin (d.prob x))
/-- uniform.py:85-90 -/
def sampleAndLogProb (u : ℝ) : ℝ × XR := (d.sample u, -XR.log (.fin d.range))
/-- uniform.py:103-105 -/
def entropy : ℝ := Real.log d.range
/-- uniform.py:107-109 -/
def mean : ℝ := (d.low + d.high) / 2
/-- uniform.py:111-113 -/
def variance : ℝ := d.range ^ 2 / 12
/-- uniform.py:115-117 -/
def stddev : ℝ := d.range / Real.sqrt 12
/-- uniform.py:119-121 -/
def median : ℝ := d.mean
/-- uniform.py:123-129 -/
def cdf (x : ℝ) : ℝ :=
  let resultIfNotBig := if x < d.low then 0 else (x - d.low) / d.range
  if x > d.high then 1 else resultIfNotBig
/-- uniform.py:131-133 -/
def logCdf (x : ℝ) : XR := XR.log (.fin (d.cdf x))
/-- distribution.py:219-238 -/
def survival (x : ℝ) : ℝ := 1 - d.cdf x
/-- uniform.py:141-161 `_kl_divergence_uniform_uniform` -/
def kl (d1 d2 : Uniform) : XR :=
  if d2.low ≤ d1.low ∧ d1.high ≤ d2.high then
    XR.log (.fin (d2.high - d2.low)) - XR.log (.fin (d1.high - d1.low))
  else .pinf
end Uniform

/-- deterministic.py:38-64 `Deterministic`: location and tolerances of one entry. -/
structure Deterministic where
  loc : ℝ
  atol : ℝ
  rtol : ℝ

namespace Deterministic
variable (d : Deterministic)

/-- deterministic.py:53-64 `__init__` on shapes: batch shape, or ValueError if a tolerance has more dimensions
than `loc`.  (Whether the tolerances broadcast is only checked on use.) -/
def checkShapes (loc atol rtol : List ℕ) : Except Err (List ℕ) :=
  if loc.length < rtol.length then .error .valueError
  else if loc.length < atol.length then .error .valueError
  else .ok loc

/-- deterministic.py:92-96 -/
def slack : ℝ := if d.rtol = 0 then d.atol else d.atol + d.rtol * |d.loc|
/-- deterministic.py:98-102 -/
def sample : ℝ := d.loc
/-- deterministic.py:104-108 -/
def sampleAndLogProb : ℝ × XR := (d.loc, .fin 0)
/-- deterministic.py:114-117 -/
def prob (x : ℝ) : ℝ := if |x - d.loc| ≤ d.slack then 1 else 0
/-- deterministic.py:110-112 -/
def logProb (x : ℝ) : XR := XR.log (.fin (d.prob x))
/-- deterministic.py:119-121 -/
def entropy (_d : Deterministic) : ℝ := 0
/-- deterministic.py:123-125 -/
def mean : ℝ := d.loc
/-- deterministic.py:127-129 -/
def mode : ℝ := d.mean
/-- deterministic.py:131-133 -/
def variance (_d : Deterministic) : ℝ := 0
/-- deterministic.py:135-137 -/
def stddev : ℝ := d.variance
/-- deterministic.py:143-145 -/
def cdf (x : ℝ) : ℝ := if x ≥ d.loc - d.slack then 1 else 0
/-- deterministic.py:139-141 -/
def logCdf (x : ℝ) : XR := XR.log (.fin (d.cdf x))
/-- deterministic.py:154-172 `_kl_divergence_deterministic_deterministic` -/
def kl (d1 d2 : Deterministic) : XR :=
  let slack2 := d2.atol + d2.rtol * |d2.loc|;
  -XR.log (.fin (if |d1.loc - d2.loc| ≤ slack2 then 1 else 0))
end Deterministic

end

end Distrax
