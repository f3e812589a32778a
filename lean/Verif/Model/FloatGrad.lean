import Verif.Model.FloatDists

/-!
# `jax.grad` in floating point

The reverse-mode derivatives of the scalar bijectors and of the location-scale families, with every operation of the backward
pass rounded like those of the forward pass (`FX`).  A differentiated function is its value together with its pullback: the
cotangent `g` of the result goes in, the cotangent of the argument comes out.  jax's rules, from memory of jax's source, in the
order in which the transposed operations are executed:

* `exp`: `g * ans`;  `log`: `g / x`;  `log1p`: `g / (x + 1)`;  `expm1`: `g * (ans + 1)`;  `abs`: `g * sign(x)`;  `sign`: nothing;
* `logistic`: `(g * (1 - ans)) * ans`;  `tanh`: `h + h * ans` with `h = g * (1 - ans)`;  `square`: `g * (2 * x)`;
* `x / y`: `g / y` to `x` and `-((g * y**-2) * x)` to `y`, where `y**-2` is computed as `1 / (y * y)`;
* `where(c, a, b)`: `where(c, g, 0)` to `a` and `where(c, 0, g)` to `b`, both of which are then pulled back;
* `logaddexp(x, 0)` (`jax.nn.softplus`, a `custom_jvp`): `g * exp(x - ans)`, infinities in the exponent replaced by 0.

Contributions to an argument used several times are added.  Simplifications: those of `Model/FloatArith`.
-/

namespace Distrax

open FX

noncomputable section

variable {F : Fmt}

/-- Value and pullback. [reverse-mode differentiation of jax; no line of its own in the model of normal.py:37-146] -/
abbrev RevF (F : Fmt) := FX F → FX F × (FX F → FX F)

namespace FloatGrad

/-- `jnp.exp`. [external; called e.g. at sigmoid.py:78] -/
def expR : RevF F := fun x => (exp x, fun g => g * exp x)
/-- `jnp.log`. [external; called e.g. at normal.py:34] -/
def logR : RevF F := fun x => (log x, fun g => g / x)
/-- `jnp.log1p`. [external; called e.g. at sigmoid.py:69] -/
def log1pR : RevF F := fun x => (log1p x, fun g => g / (x + lit 1))
/-- `jax.nn.sigmoid`. [external; called e.g. at sigmoid.py:79] -/
def sigmoidR : RevF F := fun x => (sigmoid x, fun g => g * (lit 1 - sigmoid x) * sigmoid x)
/-- `jnp.tanh`. [external; called e.g. at tanh.py:59] -/
def tanhR : RevF F := fun x => (tanh x, fun g =>
  let h := g * (lit 1 - tanh x)
  h + h * tanh x)
/-- `_replace_inf` of jax's `logaddexp` rule: `where(isposinf(x), 0, x)`.
[reverse-mode differentiation of jax; no line of its own in the model of normal.py:37-146] -/
def replaceInf (x : FX F) : FX F := whr (x.1 = .pinf) (lit 0) x
/-- `jax.nn.softplus`. [external; called e.g. at sigmoid.py:84] -/
def softplusR : RevF F := fun x => (softplus x, fun g => g * exp (replaceInf x - replaceInf (softplus x)))

/-- bijectors/sigmoid.py:77-79 `_more_stable_sigmoid`. -/
def moreStableSigmoidR : RevF F := fun x =>
  (FloatBij.moreStableSigmoid x, fun g =>
    (expR x).2 (whr (x < lit (-9)) g (lit 0)) + (sigmoidR x).2 (whr (x < lit (-9)) (lit 0) g))

/-- bijectors/sigmoid.py:82-84 `_more_stable_softplus`. -/
def moreStableSoftplusR : RevF F := fun x =>
  (FloatBij.moreStableSoftplus x, fun g =>
    (expR x).2 ((log1pR (exp x)).2 (whr (x < lit (-9)) g (lit 0))) + (softplusR x).2 (whr (x < lit (-9)) (lit 0) g))

/-- bijectors/sigmoid.py:57-60 `Sigmoid.forward_log_det_jacobian`. -/
def sigmoidFldjR : RevF F := fun x =>
  (FloatBij.sigmoidFldj x, fun g => -((moreStableSoftplusR (-x)).2 (-g)) + (moreStableSoftplusR x).2 (-g))

/-- bijectors/sigmoid.py:66-69 `Sigmoid.inverse_and_log_det`, the inverse. -/
def sigmoidInverseR : RevF F := fun y =>
  ((FloatBij.sigmoidInverse y).1, fun g => (logR y).2 g + -((log1pR (-y)).2 (-g)))

/-- bijectors/sigmoid.py:66-69 `Sigmoid.inverse_and_log_det`, the log-determinant. -/
def sigmoidIldjR : RevF F := fun y =>
  ((FloatBij.sigmoidInverse y).2, fun g => (sigmoidInverseR y).2 ((sigmoidFldjR (sigmoidInverseR y).1).2 (-g)))

/-- bijectors/tanh.py:53-55 `Tanh.forward_log_det_jacobian`. -/
def tanhFldjR : RevF F := fun x =>
  (FloatBij.tanhFldj x, fun g =>
    let h := g * lit 2;
    -h + (softplusR (lit (-2) * x)).2 (-h) * lit (-2))

/-- bijectors/gumbel_cdf.py:37-42 `GumbelCDF.forward_and_log_det`, the value. -/
def gumbelCdfR : RevF F := fun x =>
  ((FloatBij.gumbelCdf x).1, fun g => -((expR (-x)).2 (-((expR (-(exp (-x)))).2 g))))

/-- bijectors/gumbel_cdf.py:37-42 `GumbelCDF.forward_and_log_det`, the log-determinant. -/
def gumbelCdfFldjR : RevF F := fun x =>
  ((FloatBij.gumbelCdf x).2, fun g => -g + -((expR (-x)).2 (-g)))

/-- `y ** -2` as jax computes it. [reverse-mode differentiation of jax; no line of its own in the model of normal.py:37-146] -/
def inv2 (y : FX F) : FX F := lit 1 / (y * y)

/-- The cotangents of `value`, `loc` and `scale`. [reverse-mode differentiation of jax; no line of its own in the model of normal.py:37-146] -/
structure LSPull (F : Fmt) where
  value : FX F
  loc : FX F
  scale : FX F

/-- Pullback of `z = (value - loc) / scale` (`_standardize` of normal.py:112-113, laplace.py, logistic.py, gumbel.py), to which
a cotangent `direct` of `scale` from elsewhere is added. -/
def standardizePull (d : LS F) (v gz direct : FX F) : LSPull F :=
  { value := gz / d.scale
    loc := -(gz / d.scale)
    scale := -(gz * inv2 d.scale * (v - d.loc)) + direct }

/-- normal.py:92-96 `Normal.log_prob`. -/
def normalLogProbPull (d : LS F) (v g : FX F) : LSPull F :=
  standardizePull d v (g * lit (-(1 / 2)) * (lit 2 * d.standardize v)) ((logR d.scale).2 (-g))

/-- laplace.py:98-101 `Laplace.log_prob`. -/
def laplaceLogProbPull (d : LS F) (v g : FX F) : LSPull F :=
  standardizePull d v (-g * sign (d.standardize v)) ((logR d.scale).2 (-g))

/-- logistic.py:87-90 `Logistic.log_prob`. -/
def logisticLogProbPull (d : LS F) (v g : FX F) : LSPull F :=
  let z := d.standardize v
  standardizePull d v (-g + -((softplusR (-z)).2 (-g * lit 2))) ((logR d.scale).2 (-g))

/-- gumbel.py:72-76 `Gumbel.log_prob`. -/
def gumbelLogProbPull (d : LS F) (v g : FX F) : LSPull F :=
  let z := d.standardize v
  standardizePull d v (-g + -((expR (-z)).2 (-g))) ((logR d.scale).2 (-g))

/-- laplace.py:107-110 `Laplace.cdf`: `sign` passes nothing, `expm1` and `abs` their rules. -/
def laplaceCdfPull (d : LS F) (v g : FX F) : LSPull F :=
  let z := d.standardize v
  let c := lit (1 / 2) * sign z
  let m := expm1 (-(abs z))
  standardizePull d v (-((-g * c) * (m + lit 1)) * sign z) (lit 0)

/-- logistic.py:96-98 `Logistic.cdf`. -/
def logisticCdfPull (d : LS F) (v g : FX F) : LSPull F :=
  standardizePull d v ((sigmoidR (d.standardize v)).2 g) (lit 0)

/-- distribution.py `Distribution.cdf` with gumbel.py:103-106: `exp(-exp(-z))`. -/
def gumbelCdfPull (d : LS F) (v g : FX F) : LSPull F :=
  standardizePull d v ((gumbelCdfR (d.standardize v)).2 g) (lit 0)

/-- The cotangents of `low` and `high`. [reverse-mode differentiation of jax; no line of its own in the model of normal.py:37-146] -/
structure UPull (F : Fmt) where
  low : FX F
  high : FX F

/-- uniform.py:92-101 `Uniform.log_prob`: `log`, `where`, `ones / range`, `range = high - low` (line 68-70); `value` gets nothing. -/
def uniformLogProbPull (low high v g : FX F) : UPull F :=
  let range := high - low
  let gp := (logR (FloatUniform.prob low high v)).2 g
  let gr := -(whr (v < low ∨ high < v) (lit 0) gp * inv2 range * lit 1)
  { low := -gr, high := gr }

end FloatGrad
end
end Distrax
