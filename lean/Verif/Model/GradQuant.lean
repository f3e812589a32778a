import Verif.Model.Grad
import Verif.Model.Quantized

/-!
# Reverse-mode derivatives of Quantized and Clipped

`log_prob` of `Quantized` and `Clipped` at a fixed value, differentiated with respect to one parameter of the base
distribution.  The base enters through its own differentiated `log_cdf`, `log_survival_function` and `log_prob`: value
at the current parameter and pullback of a cotangent to the parameter.  Rules as in `Model/Grad.lean`; comparisons,
`floor` and `stop_gradient` pass no cotangent.
-/

namespace Distrax

open XR

noncomputable section

/-- A number computed from the parameter: its value and the pullback of its cotangent.
[reverse-mode differentiation of jax; no line of its own in the model of quantized.py:37-332] -/
abbrev RevP := XR × (XR → XR)

namespace Grad

/-- `jnp.where(c, a, r)` with a constant `a`. [external; called e.g. at quantized.py:133] -/
def whereC (c : Prop) (a : XR) (r : RevP) : RevP := (XR.sel c a r.1, fun g => r.2 (XR.sel c 0 g))

/-- quantized.py:241-255 `log_cdf`; `base` is the base's `log_cdf`. -/
def quantLogCdf (low high : Option ℝ) (base : ℝ → RevP) (v : ℝ) : RevP :=
  let y : ℝ := (⌊v⌋ : ℤ)
  let r := base y
  let r := match low with
    | none => r
    | some l => whereC (y < l) ninf r
  match high with
  | none => r
  | some h => whereC (¬y < h) (fin 0) r

/-- quantized.py:273-298 `log_survival_function`; `base` is the base's `log_survival_function`. -/
def quantLogSurvival (low high : Option ℝ) (base : ℝ → RevP) (v : ℝ) : RevP :=
  let y : ℝ := (⌊v⌋ : ℤ)
  let r := base y
  let r := match low with
    | none => r
    | some l => whereC (y < l) (fin 0) r
  match high with
  | none => r
  | some h => whereC (¬y < h) ninf r

/-- utils/math.py:148-158 `log_expbig_minus_expsmall`: value, and pullback to `(big, small)`. -/
def logDiffV (big small : XR) : XR × (XR → XR × XR) :=
  let e := XR.exp (small - big)
  (big + XR.log1p (-e), fun g =>
    let cNegE := g / (1 + -e)
    let cDiff := -cNegE * e
    (g + -cDiff, cDiff))

/-- quantized.py:161-209 `log_prob` at a fixed value. -/
def quantLogProb (low high eps : Option ℝ) (baseLogCdf baseLogSf : ℝ → RevP) (v : ℝ) : RevP :=
  let logCdf := quantLogCdf low high baseLogCdf v
  let logCdfM1 := quantLogCdf low high baseLogCdf (v - 1)
  let logSf := quantLogSurvival low high baseLogSf v
  let logSfM1 := quantLogSurvival low high baseLogSf (v - 1)
  let useSf := ltB logSf.1 logCdf.1
  let big := XR.sel useSf logSfM1.1 logCdf.1
  let small := XR.sel useSf logSf.1 logCdfM1.1
  let big' := match eps with
    | none => big
    | some e => XR.sel (ltB (fin e) (big - small)) big (small + fin e)
  let out := logDiffV big' small
  let isInteger := ¬v > (⌊v⌋ : ℤ)
  let isOutside := Quantized.isInf logCdf.1 ∨ Quantized.isInf logSfM1.1
  (XR.sel isOutside ninf (XR.sel isInteger out.1 ninf), fun g =>
    let g1 := XR.sel isOutside 0 g
    let g2 := XR.sel isInteger g1 0
    let c := out.2 g2
    let cBig := match eps with
      | none => c.1
      | some e => XR.sel (ltB (fin e) (big - small)) c.1 0
    logCdf.2 (XR.sel useSf 0 cBig) + logCdfM1.2 (XR.sel useSf 0 c.2)
      + logSf.2 (XR.sel useSf c.2 0) + logSfM1.2 (XR.sel useSf cBig 0))

/-- clipped.py:37-67,79-95 `log_prob` at a fixed value; `log_cdf(minimum)` and `log_survival_function(maximum)` were
computed by the constructor. -/
def clipLogProb (minimum maximum : ℝ) (baseLogCdf baseLogSf baseLogProb : ℝ → RevP) (v : ℝ) : RevP :=
  let lpMin := baseLogCdf minimum
  let lpMax := baseLogSf maximum
  let lp := baseLogProb v
  let outside := v < minimum ∨ v > maximum
  (XR.sel outside ninf (XR.sel (v = minimum) lpMin.1 (XR.sel (v = maximum) lpMax.1 lp.1)), fun g =>
    let g1 := XR.sel outside 0 g
    let g2 := XR.sel (v = minimum) 0 g1
    lpMin.2 (XR.sel (v = minimum) g1 0) + lpMax.2 (XR.sel (v = maximum) g2 0) + lp.2 (XR.sel (v = maximum) 0 g2))

/-- logistic.py:72-73 `(x - loc) / scale` as a function of `loc`. -/
def standardizeLoc (scale x loc : ℝ) : RevP := (fin ((x - loc) / scale), fun g => -(g / fin scale))

/-- logistic.py:72-73 `(x - loc) / scale` as a function of `scale`. -/
def standardizeScale (loc x scale : ℝ) : RevP :=
  (fin ((x - loc) / scale), fun g => -g * fin (x - loc) / (fin scale * fin scale))

/-- logistic.py:101-103 `-softplus(-z)`. -/
def logisticLogCdf (z : RevP) : RevP :=
  let s := softplusV (-z.1)
  (-s.1, fun g => z.2 (-(s.2 (-g))))

/-- logistic.py:109-111 `-softplus(z)`. -/
def logisticLogSurvival (z : RevP) : RevP :=
  let s := softplusV z.1
  (-s.1, fun g => z.2 (s.2 (-g)))

/-- logistic.py:88-91 `-z - 2 softplus(-z) - log(scale)` as a function of `loc`. -/
def logisticLogProbLoc (scale x loc : ℝ) : RevP :=
  let z := standardizeLoc scale x loc
  let s := softplusV (-z.1)
  (-z.1 - fin 2 * s.1 - XR.log (fin scale), fun g => z.2 (-g + -(s.2 (fin 2 * -g))))

/-- uniform.py:123-133 `log(cdf(value))` with `low = 0`, as a function of `high`
(`where(value > high, 1, where(value < low, 0, (value - low) / range))`). -/
def uniformLogCdf (x high : ℝ) : RevP :=
  let ratio : RevP := (fin x / fin high, fun g => -g * fin x / (fin high * fin high))
  let c := whereC (x > high) (fin 1) (whereC (x < 0) (fin 0) ratio)
  (XR.log c.1, fun g => c.2 (g / c.1))

/-- distribution.py:240-260 the default `log_survival_function`, `log1p(-cdf(value))`, for the same base. -/
def uniformLogSurvival (x high : ℝ) : RevP :=
  let ratio : RevP := (fin x / fin high, fun g => -g * fin x / (fin high * fin high))
  let c := whereC (x > high) (fin 1) (whereC (x < 0) (fin 0) ratio)
  (XR.log1p (-c.1), fun g => c.2 (-(g / (1 + -c.1))))

end Grad

end

end Distrax
