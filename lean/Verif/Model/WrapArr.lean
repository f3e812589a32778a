import Verif.Model.VecArr
import Verif.Model.Quantized
import Verif.Model.CategoricalUniform

/-!
# Quantized, Clipped and CategoricalUniform on whole arrays

quantized.py, clipped.py and categorical_uniform.py as the array expressions they are in the source: which methods read the
cutoffs as stored (`_low`) and which read them broadcast to the batch shape (`low`), what the constructors check, and what
is broadcast against what.  When several parts of one expression raise, the model may report another part's exception
than Python's evaluation order would.
-/

namespace Distrax

open XR

noncomputable section

open AE

/-- What `Quantized` and `Clipped` use of their base distribution: its shapes and its methods on arrays.
[the calls of quantized.py:37-332 and clipped.py:34-123] -/
structure BaseA where
  batch : List ℕ
  event : List ℕ
  logProb : AE ℝ → AE XR
  cdf : AE ℝ → AE ℝ
  survival : AE ℝ → AE ℝ
  logCdf : AE ℝ → AE XR
  logSurvival : AE ℝ → AE XR

/-- A `Normal` as a base distribution (normal.py:92-112). -/
def NormalA.base (d : P2) : BaseA :=
  ⟨d.batch, [], fun v => (NormalA.logProb d v).ext, NormalA.cdf d, NormalA.survival d, fun v => (NormalA.logCdf d v).ext,
    fun v => (NormalA.logSurvival d v).ext⟩

/-- A `Logistic` as a base distribution (logistic.py:88-111). -/
def LogisticA.base (d : P2) : BaseA :=
  ⟨d.batch, [], fun v => (LogisticA.logProb d v).ext, LogisticA.cdf d, LogisticA.survival d,
    fun v => (LogisticA.logCdf d v).ext, fun v => (LogisticA.logSurvival d v).ext⟩

/-! ### quantized.py -/

/-- Attributes set at quantized.py:68-91 (`_dist`, `_low`, `_high`, `_eps`). -/
structure QuantA where
  base : BaseA
  low? : Option (BArr ℝ)
  high? : Option (BArr ℝ)
  eps? : Option (BArr ℝ)

namespace QuantA

/-- quantized.py:49-91 `__init__`. -/
def init (base : BaseA) (low high eps : Option (BArr ℝ)) : Except Err QuantA :=
  if base.event ≠ [] then .error .valueError
  else if low.any fun l => base.batch.length < l.shape.length then .error .valueError
  else if high.any fun h => base.batch.length < h.shape.length then .error .valueError
  else .ok ⟨base, low.map fun l => ⟨l.shape, fun i => (⌈l.data i⌉ : ℤ)⟩,
    high.map fun h => ⟨h.shape, fun i => (⌊h.data i⌋ : ℤ)⟩, eps⟩

variable (d : QuantA)

/-- `self._low`. [quantized.py:78] -/
def low_ : Option (AE ℝ) := d.low?.map arr
/-- `self._high`. [quantized.py:85] -/
def high_ : Option (AE ℝ) := d.high?.map arr
/-- quantized.py:100-105 the property `low` (`event_shape` is empty) -/
def low : Option (AE ℝ) := d.low?.map fun l => (arr l).broadcastTo (d.base.batch ++ d.base.event)
/-- quantized.py:107-112 the property `high` -/
def high : Option (AE ℝ) := d.high?.map fun h => (arr h).broadcastTo (d.base.batch ++ d.base.event)

/-- `if cut is not None: r = jnp.where(y < cut, a, r)`. [external; called e.g. at quantized.py:133] -/
def below {α : Type} (cut : Option (AE ℝ)) (y : AE ℝ) (a : α) (r : AE α) : AE α :=
  match cut with
  | none => r
  | some l => whr (bin (· < ·) y l) (scalar a) r

/-- `if cut is not None: r = jnp.where(y < cut, r, a)`. [external; called e.g. at quantized.py:133] -/
def notBelow {α : Type} (cut : Option (AE ℝ)) (y : AE ℝ) (a : α) (r : AE α) : AE α :=
  match cut with
  | none => r
  | some h => whr (bin (· < ·) y h) r (scalar a)

/-- `jnp.floor`. [external; called e.g. at quantized.py:63] -/
def floor : AE ℝ → AE ℝ := AE.map fun x => ((⌊x⌋ : ℤ) : ℝ)

/-- quantized.py:126-137 `_sample_n`, from the base's samples (shape `(n,) + batch_shape`). -/
def sampleN (samples : AE ℝ) : AE ℝ :=
  let samples := samples.map fun x => ((⌈x⌉ : ℤ) : ℝ)
  let samples := match d.low with
    | none => samples
    | some l => whr (bin (· < ·) samples l) l samples
  match d.high with
  | none => samples
  | some h => whr (bin (· > ·) samples h) h samples

/-- `jnp.where(log_sf < log_cdf, x, y)`. [external; called e.g. at quantized.py:133] -/
def pick (logSf logCdf x y : AE XR) : AE XR := whr (bin ltB logSf logCdf) x y

/-- quantized.py:139-159 `_sample_n_and_log_prob`. -/
def sampleNLP (raw : AE ℝ) : AE ℝ × AE XR :=
  let samples := d.sampleN raw
  let m1 := samples - scalar 1
  let logCdf := notBelow d.high samples (fin 0) (d.base.logCdf samples)
  let logSf := notBelow d.high samples ninf (d.base.logSurvival samples)
  let logCdfM1 := below d.low m1 ninf (d.base.logCdf m1)
  let logSfM1 := below d.low m1 (fin 0) (d.base.logSurvival m1)
  let big := pick logSf logCdf logSfM1 logCdf
  let small := pick logSf logCdf logSf logCdfM1
  (samples, bin logExpbigMinusExpsmall big small)

/-- quantized.py:257-271 `cdf` -/
def cdf (v : AE ℝ) : AE ℝ :=
  let y := floor v
  notBelow d.high y 1 (below d.low y 0 (d.base.cdf y))

/-- quantized.py:241-255 `log_cdf` -/
def logCdf (v : AE ℝ) : AE XR :=
  let y := floor v
  notBelow d.high y (fin 0) (below d.low y ninf (d.base.logCdf y))

/-- quantized.py:300-325 `survival_function` (reads `_low`, `_high`) -/
def survival (v : AE ℝ) : AE ℝ :=
  let y := floor v
  notBelow d.high_ y 0 (below d.low_ y 1 (d.base.survival y))

/-- quantized.py:273-298 `log_survival_function` (reads `_low`, `_high`) -/
def logSurvival (v : AE ℝ) : AE XR :=
  let y := floor v
  notBelow d.high_ y ninf (below d.low_ y (fin 0) (d.base.logSurvival y))

/-- quantized.py:192, 236 `is_integer = jnp.where(value > jnp.floor(value), False, True)` -/
def isInteger (v : AE ℝ) : AE Prop := whr (bin (· > ·) v (floor v)) (scalar False) (scalar True)

/-- quantized.py:161-209 `log_prob` -/
def logProb (v : AE ℝ) : AE XR :=
  let logCdf := d.logCdf v
  let logCdfM1 := d.logCdf (v - scalar 1)
  let logSf := d.logSurvival v
  let logSfM1 := d.logSurvival (v - scalar 1)
  let big := pick logSf logCdf logSfM1 logCdf
  let small := pick logSf logCdf logSf logCdfM1
  let big := match d.eps? with
    | none => big
    | some e => whr (bin (fun x e => ltB e x) (big - small) (arr e).ext) big (small + (arr e).ext)
  let logProbs := bin logExpbigMinusExpsmall big small
  let logProbs := whr (isInteger v) logProbs (scalar ninf)
  let isOutside : AE Prop := bin (· ∨ ·) (logCdf.map Quantized.isInf) (logSfM1.map Quantized.isInf)
  whr isOutside (scalar ninf) logProbs

/-- quantized.py:211-239 `prob` -/
def prob (v : AE ℝ) : AE ℝ :=
  let cdf := d.cdf v
  let cdfM1 := d.cdf (v - scalar 1)
  let sf := d.survival v
  let sfM1 := d.survival (v - scalar 1)
  let probs := whr (bin (· < ·) sf cdf) (sfM1 - sf) (cdf - cdfM1)
  whr (isInteger v) probs (scalar 0)

end QuantA

/-! ### clipped.py -/

/-- Attributes set at clipped.py:63-67. -/
structure ClippedA where
  base : BaseA
  minimum : BArr ℝ
  maximum : BArr ℝ
  logProbMinimum : BArr XR
  logProbMaximum : BArr XR

namespace ClippedA

/-- clipped.py:37-67 `__init__` (the stored log-probabilities are computed from the arguments as given). -/
def init (base : BaseA) (minimum maximum : BArr ℝ) : Except Err ClippedA :=
  if base.event ≠ [] then .error .valueError
  else if base.batch.length < minimum.shape.length ∨ base.batch.length < maximum.shape.length then .error .valueError
  else
    match (arr minimum).broadcastTo base.batch, (arr maximum).broadcastTo base.batch,
      base.logCdf (arr minimum), base.logSurvival (arr maximum) with
    | .ok mn, .ok mx, .ok lo, .ok hi => .ok ⟨base, mn, mx, lo, hi⟩
    | .error e, _, _, _ => .error e
    | _, .error e, _, _ => .error e
    | _, _, .error e, _ => .error e
    | _, _, _, .error e => .error e

variable (d : ClippedA)

/-- clipped.py:69-72 `_sample_n`, from the base's samples. -/
def sampleN (raw : AE ℝ) : AE ℝ := bin Min.min (bin Max.max raw (arr d.minimum)) (arr d.maximum)

/-- clipped.py:79-95 `log_prob` -/
def logProb (v : AE ℝ) : AE XR :=
  let lp := whr (bin (· = ·) v (arr d.minimum)) (arr d.logProbMinimum)
    (whr (bin (· = ·) v (arr d.maximum)) (arr d.logProbMaximum) (d.base.logProb v))
  whr (bin (· ∨ ·) (bin (· < ·) v (arr d.minimum)) (bin (· > ·) v (arr d.maximum))) (scalar ninf) lp

/-- clipped.py:74-77 `_sample_n_and_log_prob` -/
def sampleNLP (raw : AE ℝ) : AE ℝ × AE XR := (d.sampleN raw, d.logProb (d.sampleN raw))

/-- clipped.py:126-132 `ClippedNormal.__init__` -/
def clippedNormal (loc scale minimum maximum : BArr ℝ) : Except Err ClippedA :=
  match P2.init loc scale with
  | .error e => .error e
  | .ok n => init (NormalA.base n) minimum maximum

/-- clipped.py:135-141 `ClippedLogistic.__init__` -/
def clippedLogistic (loc scale minimum maximum : BArr ℝ) : Except Err ClippedA :=
  match P2.init loc scale with
  | .error e => .error e
  | .ok n => init (LogisticA.base n) minimum maximum

end ClippedA

/-! ### categorical_uniform.py -/

namespace AE
variable {α : Type}

/-- `x[..., :-1]`: the last axis without its last entry. [no line of its own; part of the model of quantized.py:37-332] -/
def initLast : AE α → AE α
  | .error e => Except.error e
  | .ok a => match a.shape.getLast? with
    | none => Except.error .indexError
    | some K => Except.ok ⟨a.shape.dropLast ++ [K - 1], a.data⟩

/-- `x[..., 1:]`: the last axis without its first entry. [no line of its own; part of the model of quantized.py:37-332] -/
def tailLast : AE α → AE α
  | .error e => Except.error e
  | .ok a => match a.shape.getLast? with
    | none => Except.error .indexError
    | some K => Except.ok ⟨a.shape.dropLast ++ [K - 1], fun i => a.data (i.dropLast ++ [i.getLast?.getD 0 + 1])⟩

/-- `x[..., :n]`. [no line of its own; part of the model of quantized.py:37-332] -/
def takeLast (n : ℕ) : AE α → AE α
  | .error e => Except.error e
  | .ok a => match a.shape.getLast? with
    | none => Except.error .indexError
    | some K => Except.ok ⟨a.shape.dropLast ++ [Min.min n K], a.data⟩

/-- `jnp.concatenate([x, y], axis=-1)` (the other axes must agree). [external; called e.g. at categorical_uniform.py:132] -/
def concatLast : AE α → AE α → AE α
  | .error e, _ => Except.error e
  | .ok _, .error e => Except.error e
  | .ok a, .ok b =>
    match a.shape.getLast?, b.shape.getLast? with
    | some K, some L =>
      if a.shape.dropLast = b.shape.dropLast then
        Except.ok ⟨a.shape.dropLast ++ [K + L], fun i =>
          if i.getLast?.getD 0 < K then a.data i else b.data (i.dropLast ++ [i.getLast?.getD 0 - K])⟩
      else Except.error .typeError
    | _, _ => Except.error .valueError

/-- `jnp.diff(x, axis=-1)`. [external; called e.g. at categorical_uniform.py:135] -/
def diffLast [Sub α] (x : AE α) : AE α := x.tailLast - x.initLast

/-- `jnp.linspace(x, y, n + 1, axis=-1)`: `x * (1 - k/n) + y * (k/n)` along a new last axis. [external; called e.g. at categorical_uniform.py:117] -/
def linspaceLast (n : ℕ) (x y : AE ℝ) : AE ℝ :=
  match bin Prod.mk x y with
  | .error e => Except.error e
  | .ok a => Except.ok ⟨a.shape ++ [n + 1], fun i =>
      (a.data i.dropLast).1 * (1 - ((i.getLast?.getD 0 : ℕ) : ℝ) / n) + (a.data i.dropLast).2 * (((i.getLast?.getD 0 : ℕ) : ℝ) / n)⟩

end AE

/-- A `Uniform` as a components distribution (uniform.py:92-113). -/
def UniformA.comp (d : P2) : CompA :=
  { batch := d.batch, event := [], logProb := UniformA.logProb d, mean := (UniformA.mean d).ext
    variance := (UniformA.variance d).ext }

/-- Attributes set at categorical_uniform.py:67-69. -/
structure CatUniA where
  low_ : BArr ℝ
  high_ : BArr ℝ
  logits_ : BArr XR

namespace CatUniA

/-- categorical_uniform.py:48-72 `__init__`: nothing but the rank of `logits` is checked. -/
def init (low high : BArr ℝ) (logits : BArr XR) : Except Err CatUniA :=
  if logits.shape.length < 1 then .error .valueError else .ok ⟨low, high, logits⟩

variable (d : CatUniA)

/-- categorical_uniform.py:79-83 `batch_shape` (`jax.lax.broadcast_shapes` of three shapes). -/
def batchShape : Except Err (List ℕ) :=
  match broadcastShapes d.low_.shape d.high_.shape with
  | none => .error .valueError
  | some b => match broadcastShapes b d.logits_.shape.dropLast with
    | none => .error .valueError
    | some t => .ok t

/-- categorical_uniform.py:160-161 `num_bins` -/
def numBins : ℕ := d.logits_.shape.getLast?.getD 0

/-- `jnp.broadcast_to(x, self.batch_shape + e)`. [external; called e.g. at quantized.py:105] -/
def toBatch {α : Type} (x : AE α) (e : List ℕ) : AE α :=
  match d.batchShape with
  | .error e => Except.error e
  | .ok b => x.broadcastTo (b ++ e)

/-- categorical_uniform.py:144-147 `low` -/
def low : AE ℝ := d.toBatch (arr d.low_) []
/-- categorical_uniform.py:149-152 `high` -/
def high : AE ℝ := d.toBatch (arr d.high_) []
/-- categorical_uniform.py:154-157 `logits` -/
def logits : AE XR := d.toBatch (arr d.logits_) [d.numBins]

/-- categorical_uniform.py:115-117 `_get_category_limits` -/
def limits : AE ℝ := linspaceLast d.numBins d.low d.high

/-- categorical_uniform.py:119-126 `_get_mixture` (`Categorical`'s default dtype is an integer type). -/
def mixture : Except Err MixA :=
  let limits := d.limits
  match limits.initLast, limits.tailLast with
  | .ok lo, .ok hi =>
    match P2.init lo hi with
    | .error e => .error e
    | .ok u => match CatA.init (some d.logits) none .integer with
      | .error e => .error e
      | .ok c => MixA.init c (UniformA.comp u)
  | .error e, _ => .error e
  | _, .error e => .error e

/-- The result of a method of the mixture. [no line of its own; part of the model of quantized.py:37-332] -/
def viaMixture {α : Type} (f : MixA → AE α) : AE α :=
  match d.mixture with
  | .error e => Except.error e
  | .ok m => f m

/-- categorical_uniform.py:90-92 `log_prob` -/
def logProb (v : AE ℝ) : AE XR := d.viaMixture fun m => m.logProb v

/-- categorical_uniform.py:94-99 `entropy` -/
def entropy : AE XR :=
  d.viaMixture fun m => m.mix.entropy + ((arr d.high_ - arr d.low_) / scalar (d.numBins : ℝ)).xlog

/-- categorical_uniform.py:101-103 `mean` -/
def mean : AE XR := d.viaMixture fun m => m.mean

/-- categorical_uniform.py:105-107 `variance` -/
def variance : AE XR := d.viaMixture fun m => m.variance

/-- categorical_uniform.py:128-142 `_inverse_cdf` -/
def inverseCdf (quantile : AE ℝ) : AE XR :=
  let probs := d.logits.softmaxA
  let cumProbs := probs.cumsumA
  let quantileLimits := concatLast ((cumProbs.takeLast 1).fullLike (0 : XR)) cumProbs
  let limits := d.limits
  let domainDiff := limits.diffLast
  let quantileDiff := quantileLimits.diffLast
  let slopes := domainDiff.ext / quantileDiff
  let quantileContributions := bin XR.min quantileDiff
    ((quantile.ext.expandAt 0 - quantileLimits.initLast).map XR.relu)
  d.low.ext + (slopes * quantileContributions).sumLast

/-- categorical_uniform.py:85-88 `_sample_n`, from the uniform draws (shape `(n,) + batch_shape`). -/
def sampleN (quantile : AE ℝ) : AE XR := d.inverseCdf quantile

end CatUniA

end

end Distrax
