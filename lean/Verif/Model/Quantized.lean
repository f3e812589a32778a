import Verif.Model.MathUtils
import Verif.Model.Continuous
import Mathlib.Algebra.Order.Floor.Ring
import Mathlib.Algebra.Order.Archimedean.Real.Basic

/-!
# Quantized and Clipped distributions

distributions/quantized.py and distributions/clipped.py, one batch entry; values are real numbers.
-/

namespace Distrax

noncomputable section

/-- What `Quantized` and `Clipped` use of their base distribution. [the calls of quantized.py:37-332 and clipped.py:34-123] -/
structure Base where
  logProb : ℝ → XR
  cdf : ℝ → ℝ
  survival : ℝ → ℝ
  logCdf : ℝ → XR
  logSurvival : ℝ → XR

/-- quantized.py:49-91 attributes. -/
structure Quantized where
  base : Base
  low : Option ℝ
  high : Option ℝ
  eps : Option ℝ

namespace Quantized

/-- quantized.py:49-91 `__init__` on one entry: cutoffs are rounded inwards. -/
def init (base : Base) (low high eps : Option ℝ) : Quantized :=
  ⟨base, low.map fun l => (⌈l⌉ : ℤ), high.map fun h => (⌊h⌋ : ℤ), eps⟩

/-- quantized.py:73-90 the shape checks of `__init__`. -/
def checkShapes (event batch : List ℕ) (low high : Option (List ℕ)) : Except Err Unit :=
  if event ≠ [] then .error .valueError
  else if (low.map List.length).getD 0 > batch.length then .error .valueError
  else if (high.map List.length).getD 0 > batch.length then .error .valueError
  else .ok ()

/-- `jnp.where(c < low, a, r)` applied only when the cutoff is set. [external; called e.g. at quantized.py:133] -/
def ifBelow {α : Type} (cut : Option ℝ) (y : ℝ) (a r : α) : α :=
  match cut with
  | none => r
  | some l => if y < l then a else r

/-- `jnp.where(y < high, r, a)` applied only when the cutoff is set. [external; called e.g. at quantized.py:133] -/
def ifNotBelow {α : Type} (cut : Option ℝ) (y : ℝ) (a r : α) : α :=
  match cut with
  | none => r
  | some h => if y < h then r else a

variable (d : Quantized)

/-- quantized.py:126-137 `_sample_n`, for one base sample. -/
def sample (x : ℝ) : ℝ :=
  let s : ℝ := (⌈x⌉ : ℤ)
  let s := match d.low with
    | none => s
    | some l => if s < l then l else s
  match d.high with
  | none => s
  | some h => if s > h then h else s

/-- quantized.py:139-159 `_sample_n_and_log_prob`, for one base sample. -/
def sampleAndLogProb (x : ℝ) : ℝ × XR :=
  let s := d.sample x
  let logCdf := ifNotBelow d.high s (.fin 0) (d.base.logCdf s)
  let logSf := ifNotBelow d.high s .ninf (d.base.logSurvival s)
  let logCdfM1 := ifBelow d.low (s - 1) .ninf (d.base.logCdf (s - 1))
  let logSfM1 := ifBelow d.low (s - 1) (.fin 0) (d.base.logSurvival (s - 1))
  let big := XR.sel (XR.ltB logSf logCdf) logSfM1 logCdf
  let small := XR.sel (XR.ltB logSf logCdf) logSf logCdfM1
  (s, logExpbigMinusExpsmall big small)

/-- quantized.py:257-271 `cdf` -/
def cdf (v : ℝ) : ℝ :=
  let y : ℝ := (⌊v⌋ : ℤ)
  ifNotBelow d.high y 1 (ifBelow d.low y 0 (d.base.cdf y))

/-- quantized.py:241-255 `log_cdf` -/
def logCdf (v : ℝ) : XR :=
  let y : ℝ := (⌊v⌋ : ℤ)
  ifNotBelow d.high y (.fin 0) (ifBelow d.low y .ninf (d.base.logCdf y))

/-- quantized.py:300-325 `survival_function` -/
def survival (v : ℝ) : ℝ :=
  let y : ℝ := (⌊v⌋ : ℤ)
  ifNotBelow d.high y 0 (ifBelow d.low y 1 (d.base.survival y))

/-- quantized.py:273-298 `log_survival_function` -/
def logSurvival (v : ℝ) : XR :=
  let y : ℝ := (⌊v⌋ : ℤ)
  ifNotBelow d.high y .ninf (ifBelow d.low y (.fin 0) (d.base.logSurvival y))

/-- `jnp.isinf`. [external; called e.g. at quantized.py:206] -/
def isInf (x : XR) : Prop := x = .pinf ∨ x = .ninf

open Classical in
/-- quantized.py:161-209 `log_prob` (`stop_gradient` is the identity on values) -/
def logProb (v : ℝ) : XR :=
  let logCdf := d.logCdf v
  let logCdfM1 := d.logCdf (v - 1)
  let logSf := d.logSurvival v
  let logSfM1 := d.logSurvival (v - 1)
  let big := XR.sel (XR.ltB logSf logCdf) logSfM1 logCdf
  let small := XR.sel (XR.ltB logSf logCdf) logSf logCdfM1
  let big := match d.eps with
    | none => big
    | some e => XR.sel (XR.ltB (.fin e) (big - small)) big (small + .fin e)
  let logProbs := logExpbigMinusExpsmall big small
  let logProbs := if v > (⌊v⌋ : ℤ) then .ninf else logProbs
  if isInf logCdf ∨ isInf logSfM1 then .ninf else logProbs

/-- quantized.py:211-239 `prob` -/
def prob (v : ℝ) : ℝ :=
  let cdf := d.cdf v
  let cdfM1 := d.cdf (v - 1)
  let sf := d.survival v
  let sfM1 := d.survival (v - 1)
  let probs := if sf < cdf then sfM1 - sf else cdf - cdfM1
  if v > (⌊v⌋ : ℤ) then 0 else probs

/-- quantized.py:327-332 `__getitem__` on one batch entry: rebuilds without `eps`. -/
def getItem : Quantized := init d.base d.low d.high none

end Quantized

/-- clipped.py:37-67 attributes; `log_cdf(minimum)` and `log_survival_function(maximum)` are computed by the
constructor. -/
structure Clipped where
  base : Base
  minimum : ℝ
  maximum : ℝ
  logProbMinimum : XR
  logProbMaximum : XR

namespace Clipped

/-- clipped.py:54-62 the shape checks of `__init__`. -/
def checkShapes (event batch mn mx : List ℕ) : Except Err Unit :=
  if event ≠ [] then .error .valueError
  else if mn.length > batch.length ∨ mx.length > batch.length then .error .valueError
  else .ok ()

/-- clipped.py:37-67 `__init__` on one entry. -/
def init (base : Base) (minimum maximum : ℝ) : Clipped :=
  ⟨base, minimum, maximum, base.logCdf minimum, base.logSurvival maximum⟩

variable (d : Clipped)

/-- clipped.py:69-72 `_sample_n` for one base sample; `jnp.clip(x, a, b) = min(max(x, a), b)` -/
def sample (x : ℝ) : ℝ := min (max x d.minimum) d.maximum

/-- clipped.py:79-95 `log_prob` -/
def logProb (v : ℝ) : XR :=
  let lp := if v = d.minimum then d.logProbMinimum
    else if v = d.maximum then d.logProbMaximum else d.base.logProb v
  if v < d.minimum ∨ v > d.maximum then .ninf else lp

/-- clipped.py:74-77 `_sample_n_and_log_prob` -/
def sampleAndLogProb (x : ℝ) : ℝ × XR := (d.sample x, d.logProb (d.sample x))

/-- What `Clipped` sees of a `Normal` (normal.py:92-112). -/
def _root_.Distrax.Normal.toBase (d : Normal) : Base :=
  ⟨fun x => .fin (d.logProb x), d.cdf, d.survival, fun x => .fin (d.logCdf x), fun x => .fin (d.logSurvival x)⟩

/-- What `Clipped` sees of a `Logistic` (logistic.py:88-111). -/
def _root_.Distrax.Logistic.toBase (d : Logistic) : Base :=
  ⟨fun x => .fin (d.logProb x), d.cdf, d.survival, fun x => .fin (d.logCdf x), fun x => .fin (d.logSurvival x)⟩

/-- clipped.py:129-132 `ClippedNormal` -/
def clippedNormal (loc scale minimum maximum : ℝ) : Clipped := init (Normal.toBase ⟨loc, scale⟩) minimum maximum

/-- clipped.py:138-141 `ClippedLogistic` -/
def clippedLogistic (loc scale minimum maximum : ℝ) : Clipped := init (Logistic.toBase ⟨loc, scale⟩) minimum maximum

/-- clipped.py:117-123 `__getitem__` on one batch entry. -/
def getItem : Clipped := init d.base d.minimum d.maximum

end Clipped

end

end Distrax
