import Verif.Model.XR
import Verif.Model.Arr
import Mathlib.Analysis.SpecialFunctions.Gamma.Basic

/-!
# `distrax/_src/utils/math.py`

Scalar entries are `XR` (exact reals plus `±inf`, `nan`); all helpers act entry by entry except `normalize`,
which acts on the last axis (here: one row `Fin n → XR`).
-/

namespace Distrax

open XR

noncomputable section

open Classical in
/-- `jnp.where(c, a, b)`, one entry. [external; called e.g. at math.py:47] -/
def XR.sel (c : Prop) (a b : XR) : XR := if c then a else b

open Classical in
/-- `jnp.power(x, y)`, one entry, IEEE special cases (zeros unsigned, counted as `+0`). [external; called e.g. at math.py:98] -/
def XR.pow : XR → XR → XR
  | x, fin b =>
    if b = 0 then fin 1 else
    match x with
    | nan => nan
    | fin a =>
      if 0 < a then fin (a ^ b)
      else if a = 0 then (if 0 < b then fin 0 else pinf)
      else if ∃ k : ℤ, b = k then fin (a ^ b) else nan
    | pinf => if 0 < b then pinf else fin 0
    | ninf =>
      if 0 < b then (if ∃ k : ℤ, b = 2 * k + 1 then ninf else pinf) else fin 0
  | fin a, pinf => if |a| < 1 then fin 0 else if |a| = 1 then fin 1 else pinf
  | fin a, ninf => if |a| < 1 then pinf else if |a| = 1 then fin 1 else fin 0
  | fin a, nan => if a = 1 then fin 1 else nan
  | nan, _ => nan
  | _, pinf => pinf
  | _, ninf => fin 0
  | _, nan => nan

/-- utils/math.py:29-47 `multiply_no_nan`. -/
def multiplyNoNan (x y : XR) : XR := XR.sel (eqB y 0) 0 (x * y)

/-- utils/math.py:51-57 `add_maybe_symbolic`; a symbolic zero is `none`. -/
def addMaybeSymbolic : Option XR → Option XR → Option XR
  | none, y => y
  | some x, none => some x
  | some x, some y => some (x + y)

/-- utils/math.py:60-64 `scale_maybe_symbolic`. -/
def scaleMaybeSymbolic (tangent : Option XR) (scale : XR) : Option XR :=
  match tangent with
  | none => none
  | some t => some (t * scale)

/-- utils/math.py:67-79 `multiply_no_nan_jvp`: primal output and tangent output. -/
def multiplyNoNanJvp (x y : XR) (xDot yDot : Option XR) : XR × Option XR :=
  (multiplyNoNan x y,
    addMaybeSymbolic (scaleMaybeSymbolic xDot y) (scaleMaybeSymbolic yDot x))

/-- utils/math.py:82-98 `power_no_nan`. -/
def powerNoNan (x y : XR) : XR := XR.sel (eqB y 0) 1 (XR.pow x y)

/-- utils/math.py:101-111 `power_no_nan_jvp`. -/
def powerNoNanJvp (x y xDot yDot : XR) : XR × XR :=
  let primalOut := powerNoNan x y
  (primalOut, y * powerNoNan x (y - 1) * xDot + primalOut * XR.log x * yDot)

/-- utils/math.py:114-129 `mul_exp`. -/
def mulExp (x logp : XR) : XR :=
  let p := XR.exp logp
  let x := XR.sel (eqB p 0) 0 x
  x * p

/-- Forward-mode derivative of utils/math.py:114-129 as jax computes it, line by line
(`d exp = exp * d`, `d where = where d`, product rule). -/
def mulExpJvp (x logp xDot logpDot : XR) : XR :=
  let p := XR.exp logp
  let pDot := p * logpDot
  let x' := XR.sel (eqB p 0) 0 x
  let x'Dot := XR.sel (eqB p 0) 0 xDot
  x'Dot * p + x' * pDot

/-- `jnp.max(x, axis=-1, initial=-inf)` of a row. [inside `jax.nn.log_softmax`, called at math.py:132-140] -/
def rowMax {n : ℕ} (x : Fin n → XR) : XR := (List.ofFn x).foldl XR.max ninf

/-- `jax.nn.log_softmax` of a row (jax: `shifted = x - max(x)`, `shifted - log(sum(exp(shifted)))`);
called at utils/math.py:140. -/
def logSoftmax {n : ℕ} (x : Fin n → XR) : Fin n → XR :=
  let xMax := rowMax x
  let shifted := fun i => x i - xMax
  fun i => shifted i - XR.log (∑ j, XR.exp (shifted j))

/-- utils/math.py:132-140 `normalize`, the `probs` branch (lines 135-137), one row. -/
def normalizeProbs {n : ℕ} (p : Fin n → XR) : Fin n → XR := fun i => p i / ∑ j, p j

/-- utils/math.py:132-140 `normalize`, the `logits` branch (lines 138-140), one row. -/
def normalizeLogits {n : ℕ} (l : Fin n → XR) : Fin n → XR := logSoftmax l

/-- utils/math.py:149-159 `log_expbig_minus_expsmall`. -/
def logExpbigMinusExpsmall (big small : XR) : XR := big + XR.log1p (-XR.exp (small - big))

/-- `jax.lax.lgamma(a) = log |Gamma(a)|` (finite arguments). [external; called e.g. at math.py:174] -/
def lgamma (a : ℝ) : ℝ := Real.log |Real.Gamma a|

/-- utils/math.py:162-174 `log_beta` (finite arguments). -/
def logBeta (a b : ℝ) : ℝ := lgamma a + lgamma b - lgamma (a + b)

/-- utils/math.py:177-190 `log_beta_multivariate` (one row, finite entries). -/
def logBetaMultivariate {n : ℕ} (a : Fin n → ℝ) : ℝ := ∑ i, lgamma (a i) - lgamma (∑ i, a i)

end

end Distrax
