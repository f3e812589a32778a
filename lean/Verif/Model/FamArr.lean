import Verif.Model.Slice
import Verif.Model.Continuous
import Verif.Model.GammaBeta
import Verif.Model.Bernoulli
import Verif.Model.VonMises

/-!
# The scalar families on whole arrays

The methods of normal.py, log_stddev_normal.py, laplace.py, logistic.py, gumbel.py, uniform.py, gamma.py, beta.py,
von_mises.py, deterministic.py and bernoulli.py as the array expressions they are in the source: which of the stored
parameter `_loc` and the broadcast property `loc` each of them reads, which operands are broadcast against which, and
the shape of every result.  `AE α` is a numpy expression: an array, or the exception its evaluation raises.
The per-entry functions (`Model/Continuous`, `Model/GammaBeta`, ...) are not used here except for externals.
-/

namespace Distrax

open XR

noncomputable section

/-- The value of a numpy expression with entries in `α`. [array semantics of jax, used throughout; e.g. normal.py:37-146] -/
def AE (α : Type) := Except Err (BArr α)

namespace AE
variable {α β γ δ : Type}

/-- An array as an expression. [array semantics of jax, used throughout; e.g. normal.py:37-146] -/
def arr (a : BArr α) : AE α := Except.ok a
/-- A python scalar (rank-0 array). [array semantics of jax, used throughout; e.g. normal.py:37-146] -/
def scalar (a : α) : AE α := Except.ok ⟨[], fun _ => a⟩
/-- Elementwise function of one operand. [array semantics of jax, used throughout; e.g. normal.py:37-146] -/
def map (f : α → β) : AE α → AE β
  | .ok a => Except.ok ⟨a.shape, fun i => f (a.data i)⟩
  | .error e => Except.error e
/-- Elementwise function of two operands, with numpy broadcasting. [array semantics of jax, used throughout; e.g. normal.py:37-146] -/
def bin (f : α → β → γ) : AE α → AE β → AE γ
  | .error e, _ => Except.error e
  | .ok _, .error e => Except.error e
  | .ok a, .ok b =>
    match broadcastShapes a.shape b.shape with
    | none => Except.error .typeError
    | some t => Except.ok ⟨t, fun i => f (a.data (proj a.shape i)) (b.data (proj b.shape i))⟩
/-- Elementwise function of three operands (`jnp.where`, `betainc`), with numpy broadcasting. [external; called e.g. at uniform.py:98] -/
def tern (f : α → β → γ → δ) (x : AE α) (y : AE β) (z : AE γ) : AE δ :=
  bin (fun (p : α × β) c => f p.1 p.2 c) (bin Prod.mk x y) z
/-- `jnp.broadcast_to`. [external; called e.g. at normal.py:66] -/
def broadcastTo (s : List ℕ) : AE α → AE α
  | .error e => Except.error e
  | .ok a => if broadcastShapes a.shape s = some s then Except.ok ⟨s, fun i => a.data (proj a.shape i)⟩
    else Except.error .valueError
/-- `jnp.expand_dims(x, range(r - x.ndim))`: new leading axes of size 1 up to rank `r` (`range` of a negative number is
empty). [external; called e.g. at normal.py:81] -/
def expandTo (r : ℕ) : AE α → AE α
  | .error e => Except.error e
  | .ok a => Except.ok ⟨List.replicate (r - a.shape.length) 1 ++ a.shape, fun i => a.data (i.drop (r - a.shape.length))⟩
/-- `jnp.repeat(x[None], n, axis=0)`. [external; called e.g. at uniform.py:89] -/
def repeatLead (n : ℕ) : AE α → AE α
  | .error e => Except.error e
  | .ok a => Except.ok ⟨n :: a.shape, fun i => a.data i.tail⟩
/-- `jnp.full_like(x, c)` (`ones_like`, `zeros_like`). [array semantics of jax, used throughout; e.g. normal.py:37-146] -/
def fullLike (c : β) : AE α → AE β := map fun _ => c
/-- `jnp.full(s, c)`. [external; called e.g. at rational_quadratic_spline.py:354] -/
def full (s : List ℕ) (c : α) : AE α := Except.ok ⟨s, fun _ => c⟩
/-- The rank of an expression's value (`x.ndim`). [array semantics of jax, used throughout; e.g. normal.py:37-146] -/
def ndim : AE α → ℕ
  | .ok a => a.shape.length
  | .error _ => 0

instance [Add α] : Add (AE α) := ⟨bin (· + ·)⟩
instance [Sub α] : Sub (AE α) := ⟨bin (· - ·)⟩
instance [Mul α] : Mul (AE α) := ⟨bin (· * ·)⟩
instance [Div α] : Div (AE α) := ⟨bin (· / ·)⟩
instance [Neg α] : Neg (AE α) := ⟨map (- ·)⟩

/-- `jnp.log`, `jnp.exp`, `jnp.square`, `jnp.abs`, `jnp.sqrt` on real arrays. [external; called e.g. at normal.py:34] -/
def log : AE ℝ → AE ℝ := map Real.log
/-- See `log`. [external; called e.g. at normal.py:34] -/
def exp : AE ℝ → AE ℝ := map Real.exp
/-- See `log`. [external; called e.g. at normal.py:34] -/
def square : AE ℝ → AE ℝ := map fun x => x ^ 2
/-- See `log`. [external; called e.g. at normal.py:34] -/
def abs : AE ℝ → AE ℝ := map fun x => |x|
/-- See `log`. [external; called e.g. at normal.py:34] -/
def sqrt : AE ℝ → AE ℝ := map Real.sqrt
/-- `jnp.log` of a real array whose result may be `-inf` (or nan). [external; called e.g. at normal.py:34] -/
def xlog : AE ℝ → AE XR := map fun x => XR.log (fin x)
/-- A real array among the extended numbers. [array semantics of jax, used throughout; e.g. normal.py:37-146] -/
def ext : AE ℝ → AE XR := map fin
open Classical in
/-- `jnp.where(c, x, y)`. [external; called e.g. at uniform.py:98] -/
def whr (c : AE Prop) (x y : AE α) : AE α := tern (fun c a b => if c then a else b) c x y

end AE

open AE

/-- The stored parameters of a two-parameter family (`_loc`, `_scale`, ...) and its batch shape.
[array semantics of jax, used throughout; e.g. normal.py:37-146] -/
structure P2 where
  p : BArr ℝ
  q : BArr ℝ
  batch : List ℕ

namespace P2

/-- `__init__` (e.g. gumbel.py:40-50; normal.py:42-61 computes the batch shape on demand). -/
def init (p q : BArr ℝ) : Except Err P2 :=
  match broadcastShapes p.shape q.shape with
  | some b => .ok ⟨p, q, b⟩
  | none => .error .valueError

variable (d : P2)
/-- `self._loc` and so on. [normal.py:50] -/
def p_ : AE ℝ := arr d.p
/-- `self._scale` and so on. [normal.py:51] -/
def q_ : AE ℝ := arr d.q
/-- The property `loc` (`low`, `concentration`, `alpha`): broadcast to the batch shape. [normal.py:64-66 and its counterparts] -/
def pB : AE ℝ := (d.p_).broadcastTo d.batch
/-- The property `scale` (`high`, `rate`, `beta`, `concentration`): broadcast to the batch shape. [normal.py:69-71 and its counterparts] -/
def qB : AE ℝ := (d.q_).broadcastTo d.batch

end P2

/-! ### normal.py -/
namespace NormalA
variable (d : P2)
/-- normal.py:114-115 -/
def standardize (v : AE ℝ) : AE ℝ := (v - d.p_) / d.q_
/-- normal.py:78-83, from the noise array -/
def sampleN (rnd : AE ℝ) : AE ℝ := d.q_.expandTo rnd.ndim * rnd + d.p_.expandTo rnd.ndim
/-- normal.py:85-90 -/
def sampleNLP (rnd : AE ℝ) : AE ℝ × AE ℝ :=
  (d.q_ * rnd + d.p_, scalar (-0.5) * rnd.square - scalar halfLog2pi - d.q_.log)
/-- normal.py:92-96 -/
def logProb (v : AE ℝ) : AE ℝ :=
  let logUnnormalized := scalar (-0.5) * (standardize d v).square
  let logNormalization := scalar halfLog2pi + d.q_.log
  logUnnormalized - logNormalization
/-- distribution.py:92-101 -/
def prob (v : AE ℝ) : AE ℝ := (logProb d v).exp
/-- normal.py:98-100 -/
def cdf (v : AE ℝ) : AE ℝ := (standardize d v).map ndtr
/-- normal.py:102-104 -/
def logCdf (v : AE ℝ) : AE ℝ := (standardize d v).map fun x => Real.log (ndtr x)
/-- normal.py:106-108 -/
def survival (v : AE ℝ) : AE ℝ := (-standardize d v).map ndtr
/-- normal.py:110-112 -/
def logSurvival (v : AE ℝ) : AE ℝ := (-standardize d v).map fun x => Real.log (ndtr x)
/-- normal.py:117-121 -/
def entropy : AE ℝ :=
  let logNormalization := scalar halfLog2pi + d.qB.log
  scalar 0.5 + logNormalization
/-- normal.py:123-125 -/
def mean : AE ℝ := d.pB
/-- normal.py:127-129 -/
def variance : AE ℝ := d.qB.square
/-- normal.py:131-133 -/
def stddev : AE ℝ := d.qB
/-- normal.py:135-137 -/
def mode : AE ℝ := mean d
/-- normal.py:139-141 -/
def median : AE ℝ := mean d
/-- normal.py:149-167 -/
def kl (d1 d2 : P2) : AE ℝ :=
  let diffLogScale := d1.qB.log - d2.qB.log
  scalar 0.5 * (d1.pB / d2.qB - d2.pB / d2.qB).square
    + scalar 0.5 * (scalar 2 * diffLogScale).map (fun x => Real.exp x - 1) - diffLogScale
end NormalA

/-! ### log_stddev_normal.py -/

/-- log_stddev_normal.py:45-68: a Normal with the stored (thresholded) log scale. -/
structure LSN where
  base : P2
  ls : BArr ℝ
  maxScale : Option ℝ

namespace LSN
/-- log_stddev_normal.py:63-64: the soft threshold.  `math.log` raises ValueError for a nonpositive `max_scale`. -/
def thresholded (logScale : BArr ℝ) (maxScale : Option ℝ) : AE ℝ :=
  match maxScale with
  | some m =>
    if m ≤ 0 then Except.error .valueError
    else
      let maxLogScale : AE ℝ := scalar (Real.log m)
      maxLogScale - (maxLogScale - arr logScale).map rsoftplus
  | none => arr logScale

/-- log_stddev_normal.py:45-68 `__init__`. -/
def init (loc logScale : BArr ℝ) (maxScale : Option ℝ) : Except Err LSN :=
  match thresholded logScale maxScale with
  | .error e => .error e
  | .ok ls =>
    match P2.init loc (ls.map Real.exp) with
    | .error e => .error e
    | .ok b => .ok ⟨b, ls, maxScale⟩

/-- log_stddev_normal.py:70-73 -/
def logScaleB (d : LSN) : AE ℝ := (arr d.ls).broadcastTo d.base.batch
/-- log_stddev_normal.py:84-101 -/
def kl (d1 d2 : LSN) : AE ℝ :=
  let variance1 := d1.base.qB.square
  let variance2 := d2.base.qB.square
  (variance1 + (d1.base.pB - d2.base.pB).square) / (scalar 2 * variance2) + d2.logScaleB - d1.logScaleB - scalar 0.5
end LSN

/-! ### laplace.py -/
namespace LaplaceA
variable (d : P2)
/-- laplace.py:112-113 -/
def standardize (v : AE ℝ) : AE ℝ := (v - d.p_) / d.q_
/-- laplace.py:35-40 `_log_cdf_laplace` -/
def logCdfStd (z : AE ℝ) : AE ℝ :=
  let lower := z - scalar (Real.log 2)
  let expNeg := (-z.abs).exp
  let upper := (scalar (-0.5) * expNeg).map fun x => Real.log (1 + x)
  whr (bin (· ≤ ·) z (scalar 0)) lower upper
/-- laplace.py:86-89 -/
def sampleN (rnd : AE ℝ) : AE ℝ := d.p_ + d.q_ * rnd
/-- laplace.py:91-96 -/
def sampleNLP (rnd : AE ℝ) : AE ℝ × AE ℝ :=
  (d.p_ + d.q_ * rnd, -rnd.abs - scalar (Real.log 2) - d.q_.log)
/-- laplace.py:98-101 -/
def logProb (v : AE ℝ) : AE ℝ := -(standardize d v).abs - scalar (Real.log 2) - d.q_.log
/-- distribution.py:92-101 -/
def prob (v : AE ℝ) : AE ℝ := (logProb d v).exp
/-- laplace.py:103-105 -/
def entropy : AE ℝ := scalar (Real.log 2 + 1) + d.qB.log
/-- laplace.py:107-110 -/
def cdf (v : AE ℝ) : AE ℝ :=
  let z := standardize d v
  scalar 0.5 - scalar 0.5 * z.map (fun x => (SignType.sign x : ℝ)) * (-z.abs).map (fun x => Real.exp x - 1)
/-- laplace.py:115-118 -/
def logCdf (v : AE ℝ) : AE ℝ := logCdfStd (standardize d v)
/-- distribution.py:219-238 -/
def survival (v : AE ℝ) : AE ℝ := scalar 1 - cdf d v
/-- laplace.py:120-123 -/
def logSurvival (v : AE ℝ) : AE ℝ := logCdfStd (-standardize d v)
/-- laplace.py:125-127 -/
def mean : AE ℝ := d.pB
/-- laplace.py:129-131 -/
def stddev : AE ℝ := scalar (Real.sqrt 2) * d.qB
/-- laplace.py:133-135 -/
def variance : AE ℝ := scalar 2 * d.qB.square
/-- laplace.py:137-139 -/
def mode : AE ℝ := mean d
/-- laplace.py:141-143 -/
def median : AE ℝ := mean d
/-- laplace.py:151-169 -/
def kl (d1 d2 : P2) : AE ℝ :=
  let distance := (d1.pB - d2.pB).abs
  let diffLogScale := d1.qB.log - d2.qB.log;
  -diffLogScale + distance / d2.qB - scalar 1 + (-distance / d1.qB + diffLogScale).exp
end LaplaceA

/-! ### logistic.py -/
namespace LogisticA
variable (d : P2)
/-- logistic.py:72-73 -/
def standardize (v : AE ℝ) : AE ℝ := (v - d.pB) / d.qB
/-- logistic.py:75-86 -/
def sampleN (uniform : AE ℝ) : AE ℝ :=
  let rnd := uniform.log - (-uniform).map (fun x => Real.log (1 + x))
  d.q_ * rnd + d.p_
/-- logistic.py:88-91 -/
def logProb (v : AE ℝ) : AE ℝ :=
  let z := standardize d v;
  -z - scalar 2 * (-z).map rsoftplus - d.q_.log
/-- distribution.py:92-101 -/
def prob (v : AE ℝ) : AE ℝ := (logProb d v).exp
/-- logistic.py:93-95 -/
def entropy : AE ℝ := scalar 2 + (d.q_.log).broadcastTo d.batch
/-- logistic.py:97-99 -/
def cdf (v : AE ℝ) : AE ℝ := (standardize d v).map rsigmoid
/-- logistic.py:101-103 -/
def logCdf (v : AE ℝ) : AE ℝ := -(-standardize d v).map rsoftplus
/-- logistic.py:105-107 -/
def survival (v : AE ℝ) : AE ℝ := (-standardize d v).map rsigmoid
/-- logistic.py:109-111 -/
def logSurvival (v : AE ℝ) : AE ℝ := -(standardize d v).map rsoftplus
/-- logistic.py:113-115 -/
def mean : AE ℝ := d.pB
/-- logistic.py:117-119 -/
def variance : AE ℝ := (d.qB * scalar Real.pi).square / scalar 3
/-- logistic.py:121-123 -/
def stddev : AE ℝ := d.qB * scalar Real.pi / scalar (Real.sqrt 3)
/-- logistic.py:125-127 -/
def mode : AE ℝ := mean d
/-- logistic.py:129-131 -/
def median : AE ℝ := mean d
end LogisticA

/-! ### gumbel.py -/
namespace GumbelA
variable (d : P2)
/-- gumbel.py:73-75 -/
def standardize (v : AE ℝ) : AE ℝ := (v - d.p_) / d.q_
/-- gumbel.py:77-80 -/
def logProb (v : AE ℝ) : AE ℝ :=
  let z := standardize d v;
  -(z + (-z).exp) - d.q_.log
/-- distribution.py:92-101 -/
def prob (v : AE ℝ) : AE ℝ := (logProb d v).exp
/-- gumbel.py:87-90 -/
def sampleN (rnd : AE ℝ) : AE ℝ := d.q_ * rnd + d.p_
/-- gumbel.py:92-97 -/
def sampleNLP (rnd : AE ℝ) : AE ℝ × AE ℝ := (d.q_ * rnd + d.p_, -(rnd + (-rnd).exp) - d.q_.log)
/-- gumbel.py:99-101: reads `_scale`, not `scale`. -/
def entropy : AE ℝ := d.q_.log + scalar 1 + scalar Real.eulerMascheroniConstant
/-- gumbel.py:103-106 -/
def logCdf (v : AE ℝ) : AE ℝ := -(-standardize d v).exp
/-- distribution.py:208-217 -/
def cdf (v : AE ℝ) : AE ℝ := (logCdf d v).exp
/-- distribution.py:219-238 -/
def survival (v : AE ℝ) : AE ℝ := scalar 1 - cdf d v
/-- gumbel.py:108-110 -/
def mean : AE ℝ := d.p_ + d.q_ * scalar Real.eulerMascheroniConstant
/-- gumbel.py:112-114 -/
def stddev : AE ℝ := d.q_ * d.p_.fullLike 1 * scalar Real.pi / scalar (Real.sqrt 6)
/-- gumbel.py:116-118 -/
def variance : AE ℝ := (d.q_ * d.p_.fullLike 1 * scalar Real.pi).square / scalar 6
/-- gumbel.py:120-122 -/
def mode : AE ℝ := d.pB
/-- gumbel.py:124-126 -/
def median : AE ℝ := d.p_ - d.q_ * scalar (Real.log (Real.log 2))
/-- gumbel.py:134-152 -/
def kl (d1 d2 : P2) : AE ℝ :=
  d2.qB.log - d1.qB.log + scalar Real.eulerMascheroniConstant * (d1.qB / d2.qB - scalar 1)
    + ((d2.pB - d1.pB) / d2.qB + (d1.qB / d2.qB + scalar 1).map lgamma).map (fun x => Real.exp x - 1)
    + (d1.pB - d2.pB) / d2.qB
end GumbelA

/-! ### uniform.py -/
namespace UniformA
variable (d : P2)
/-- uniform.py:69-70 -/
def range : AE ℝ := d.qB - d.pB
/-- uniform.py:76-83 -/
def sampleN (uniform : AE ℝ) : AE ℝ := d.p_.expandTo uniform.ndim + (range d).expandTo uniform.ndim * uniform
/-- uniform.py:85-90 -/
def sampleNLP (n : ℕ) (uniform : AE ℝ) : AE ℝ × AE XR := (sampleN d uniform, (-(range d).xlog).repeatLead n)
/-- uniform.py:96-101 -/
def prob (v : AE ℝ) : AE ℝ :=
  whr (bin (· ∨ ·) (bin (· < ·) v d.pB) (bin (· > ·) v d.qB)) (v.fullLike 0) (v.fullLike 1 / range d)
/-- uniform.py:92-94 -/
def logProb (v : AE ℝ) : AE XR := (prob d v).xlog
/-- uniform.py:103-105 -/
def entropy : AE ℝ := (range d).log
/-- uniform.py:107-109 -/
def mean : AE ℝ := (d.pB + d.qB) / scalar 2
/-- uniform.py:111-113 -/
def variance : AE ℝ := (range d).square / scalar 12
/-- uniform.py:115-117 -/
def stddev : AE ℝ := range d / scalar (Real.sqrt 12)
/-- uniform.py:119-121 -/
def median : AE ℝ := mean d
/-- uniform.py:123-129 -/
def cdf (v : AE ℝ) : AE ℝ :=
  let ones : AE ℝ := (range d).fullLike 1
  let zeros : AE ℝ := ones.fullLike 0
  let resultIfNotBig := whr (bin (· < ·) v d.pB) zeros ((v - d.pB) / range d)
  whr (bin (· > ·) v d.qB) ones resultIfNotBig
/-- uniform.py:131-133 -/
def logCdf (v : AE ℝ) : AE XR := (cdf d v).xlog
/-- distribution.py:219-238 -/
def survival (v : AE ℝ) : AE ℝ := scalar 1 - cdf d v
/-- uniform.py:141-161 -/
def kl (d1 d2 : P2) : AE XR :=
  whr (bin (· ∧ ·) (bin (· ≤ ·) d2.pB d1.pB) (bin (· ≤ ·) d1.qB d2.qB))
    ((d2.qB - d2.pB).xlog - (d1.qB - d1.pB).xlog) (scalar pinf)
end UniformA

/-! ### gamma.py -/
namespace GammaA
variable (d : P2)
/-- gamma.py:79-82, from the array `rnd` of draws of `jax.random.gamma(key, a=_concentration, shape=(n,) + batch)` -/
def sampleN (rnd : AE ℝ) : AE ℝ := rnd / d.q_
/-- gamma.py:84-91 -/
def logProb (v : AE XR) : AE XR :=
  d.p_.ext * d.q_.xlog + (d.p_ - scalar 1).ext * v.map XR.log - d.q_.ext * v - d.p_.map xlgamma
/-- gamma.py:93-101 -/
def entropy : AE ℝ :=
  let logRate := d.q_.log
  d.p_ - logRate + d.p_.map lgamma + (scalar 1 - d.p_) * d.p_.map digamma
/-- gamma.py:103-105 -/
def cdf (v : AE ℝ) : AE ℝ := bin igamma d.p_ (d.q_ * v)
/-- gamma.py:107-109 -/
def logCdf (v : AE ℝ) : AE XR := (cdf d v).xlog
/-- gamma.py:111-113 -/
def mean : AE ℝ := d.p_ / d.q_
/-- gamma.py:115-117 -/
def stddev : AE ℝ := d.p_.sqrt / d.q_
/-- gamma.py:119-121 -/
def variance : AE ℝ := d.p_ / d.q_.square
/-- gamma.py:123-126 -/
def mode : AE XR :=
  let mode := (d.p_ - scalar 1) / d.q_
  whr (bin (· ≥ ·) d.p_ (scalar 1)) mode.ext (scalar nan)
/-- gamma.py:135-155 -/
def kl (d1 d2 : P2) : AE ℝ :=
  let t1 := d2.pB * (d1.qB.log - d2.qB.log)
  let t2 := d2.pB.map lgamma - d1.pB.map lgamma
  let t3 := (d1.pB - d2.pB) * d1.pB.map digamma
  let t4 := (d2.qB - d1.qB) * (d1.pB / d1.qB)
  t1 + t2 + t3 + t4
end GammaA

/-! ### beta.py -/
namespace BetaA
variable (d : P2)
/-- beta.py:64: `_log_normalization_constant` -/
def logZ : AE ℝ := bin logBeta d.p_ d.q_
/-- beta.py:86-92: the draws of `jax.random.beta(key, a=_alpha, b=_beta, shape=(n,) + batch)` themselves -/
def sampleN (rnd : AE ℝ) : AE ℝ := rnd
/-- beta.py:94-104 -/
def logProb (v : AE ℝ) : AE XR :=
  let result := (d.p_ - scalar 1).ext * v.xlog + (d.q_ - scalar 1).ext * (scalar 1 - v).xlog - (logZ d).ext
  whr (bin (· ∨ ·) (bin (· ∧ ·) (bin (· = ·) d.p_ (scalar 1)) (bin (· = ·) v (scalar 0)))
      (bin (· ∧ ·) (bin (· = ·) d.q_ (scalar 1)) (bin (· = ·) v (scalar 1))))
    (-(logZ d).ext) result
/-- beta.py:106-108 -/
def cdf (v : AE ℝ) : AE ℝ := tern betainc d.p_ d.q_ v
/-- beta.py:110-112 -/
def logCdf (v : AE ℝ) : AE XR := (cdf d v).xlog
/-- beta.py:114-122 -/
def entropy : AE ℝ :=
  logZ d - (d.p_ - scalar 1) * d.p_.map digamma - (d.q_ - scalar 1) * d.q_.map digamma
    + (d.p_ + d.q_ - scalar 2) * (d.p_ + d.q_).map digamma
/-- beta.py:124-126 -/
def mean : AE ℝ := d.p_ / (d.p_ + d.q_)
/-- beta.py:128-132 -/
def variance : AE ℝ :=
  let sumAlphaBeta := d.p_ + d.q_
  d.p_ * d.q_ / (sumAlphaBeta.square * (sumAlphaBeta + scalar 1))
/-- beta.py:134-150 -/
def mode : AE XR :=
  whr (bin (· ∧ ·) (bin (· > ·) d.p_ (scalar 1)) (bin (· > ·) d.q_ (scalar 1)))
    ((d.p_ - scalar 1) / (d.p_ + d.q_ - scalar 2)).ext
    (whr (bin (· ∧ ·) (bin (· ≤ ·) d.p_ (scalar 1)) (bin (· > ·) d.q_ (scalar 1)))
      (scalar 0)
      (whr (bin (· ∧ ·) (bin (· > ·) d.p_ (scalar 1)) (bin (· ≤ ·) d.q_ (scalar 1)))
        (scalar 1) (scalar nan)))
/-- beta.py:171-192 -/
def kl (d1 d2 : P2) : AE ℝ :=
  let t1 := bin logBeta d2.pB d2.qB - bin logBeta d1.pB d1.qB
  let t2 := (d1.pB - d2.pB) * d1.pB.map digamma
  let t3 := (d1.qB - d2.qB) * d1.qB.map digamma
  let t4 := (d2.pB - d1.pB + d2.qB - d1.qB) * (d1.pB + d1.qB).map digamma
  t1 + t2 + t3 + t4
end BetaA

/-! ### von_mises.py -/
namespace VonMisesA
variable (d : P2)
/-- von_mises.py:121-123 -/
def mean : AE ℝ := d.pB
/-- von_mises.py:125-128: reads `_concentration`, not `concentration`. -/
def variance : AE ℝ :=
  let conc := d.q_
  scalar 1 - conc.map i1e / conc.map i0e
/-- von_mises.py:130-135 -/
def prob (v : AE ℝ) : AE ℝ :=
  let conc := d.q_
  let unnormalizedProb := (conc * ((v - d.p_).map Real.cos - scalar 1)).exp
  let normalization := scalar (2 * Real.pi) * conc.map i0e
  unnormalizedProb / normalization
/-- von_mises.py:137-143 -/
def logProb (v : AE ℝ) : AE ℝ :=
  let conc := d.q_
  let i0 := conc.map bessel0
  conc * (v - d.p_).map Real.cos - scalar (Real.log (2 * Real.pi)) - i0.log
/-- von_mises.py:150-151, from the array of standard samples `_von_mises_sample((n,) + batch, conc, ...)` -/
def sampleN (std : AE ℝ) : AE ℝ := (std + d.p_).map convertAngle
/-- von_mises.py:153-158: reads `_concentration`, not `concentration`. -/
def entropy : AE ℝ :=
  let conc := d.q_
  conc * (scalar 1 - conc.map i1e / conc.map i0e) + scalar (Real.log (2 * Real.pi)) + (conc.map i0e).log
/-- von_mises.py:160-162 -/
def mode : AE ℝ := mean d
/-- von_mises.py:164-182 -/
def cdf (core : ℝ → ℝ → ℝ) (v : AE ℝ) : AE ℝ :=
  let loc := d.p_.map convertAngle
  (bin (VonMises.cdfWith core) (v - loc) d.q_
    - bin (VonMises.cdfWith core) (scalar (-Real.pi) - loc) d.q_).map VonMises.clip01
/-- von_mises.py:188-197 -/
def survival (core : ℝ → ℝ → ℝ) (v : AE ℝ) : AE ℝ :=
  let loc := d.p_.map convertAngle
  (bin (VonMises.cdfWith core) (scalar Real.pi - loc) d.q_
    - bin (VonMises.cdfWith core) (v - loc) d.q_).map VonMises.clip01
/-- von_mises.py:461-485 -/
def kl (d1 d2 : P2) : AE ℝ :=
  let i0e1 := d1.qB.map i0e
  let i1e1 := d1.qB.map i1e
  let i0e2 := d2.qB.map i0e
  d2.qB - d1.qB + (i0e2 / i0e1).log + i1e1 / i0e1 * (d1.qB - d2.qB * (d1.pB - d2.pB).map Real.cos)
end VonMisesA

/-! ### deterministic.py -/

/-- deterministic.py:53-55 the stored parameters. -/
structure DetA where
  loc : BArr ℝ
  atol_ : BArr ℝ
  rtol_ : BArr ℝ

namespace DetA
/-- deterministic.py:38-64 `__init__`: only the ranks of the tolerances are checked. -/
def init (loc : BArr ℝ) (atol rtol : Option (BArr ℝ)) : Except Err DetA :=
  let atol := atol.getD ⟨[], fun _ => 0⟩
  let rtol := rtol.getD ⟨[], fun _ => 0⟩
  if rtol.shape.length > loc.shape.length then .error .valueError
  else if atol.shape.length > loc.shape.length then .error .valueError
  else .ok ⟨loc, atol, rtol⟩

variable (d : DetA)
/-- deterministic.py:71-74 -/
def batch : List ℕ := d.loc.shape
/-- deterministic.py:76-79 -/
def l : AE ℝ := arr d.loc
/-- deterministic.py:81-84 -/
def atol : AE ℝ := (arr d.atol_).broadcastTo d.batch
/-- deterministic.py:86-89 -/
def rtol : AE ℝ := (arr d.rtol_).broadcastTo d.batch
/-- deterministic.py:91-96 -/
def slack : AE ℝ := whr (bin (· = ·) d.rtol (scalar 0)) d.atol (d.atol + d.rtol * d.l.abs)
/-- deterministic.py:98-102 -/
def sampleN (n : ℕ) : AE ℝ := d.l.repeatLead n
/-- deterministic.py:104-108 -/
def sampleNLP (n : ℕ) : AE ℝ × AE XR := (d.sampleN n, (d.sampleN n).fullLike (fin 0))
/-- deterministic.py:114-117 -/
def prob (v : AE ℝ) : AE ℝ := whr (bin (· ≤ ·) (v - d.l).abs d.slack) (scalar 1) (scalar 0)
/-- deterministic.py:110-112 -/
def logProb (v : AE ℝ) : AE XR := (d.prob v).xlog
/-- deterministic.py:119-121 -/
def entropy : AE ℝ := full d.batch 0
/-- deterministic.py:123-125 -/
def mean : AE ℝ := d.l
/-- deterministic.py:127-129 -/
def mode : AE ℝ := d.mean
/-- deterministic.py:131-133 -/
def variance : AE ℝ := full d.batch 0
/-- deterministic.py:135-137 -/
def stddev : AE ℝ := d.variance
/-- deterministic.py:143-145 -/
def cdf (v : AE ℝ) : AE ℝ := whr (bin (· ≥ ·) v (d.l - d.slack)) (scalar 1) (scalar 0)
/-- deterministic.py:139-141 -/
def logCdf (v : AE ℝ) : AE XR := (d.cdf v).xlog
/-- deterministic.py:154-172 -/
def kl (d1 d2 : DetA) : AE XR :=
  let slack2 := d2.atol + d2.rtol * d2.l.abs;
  -(whr (bin (· ≤ ·) (d1.l - d2.l).abs slack2) (scalar 1) (scalar 0)).xlog
end DetA

/-! ### bernoulli.py -/

/-- bernoulli.py:70-72 the stored parameters (exactly one is given). -/
inductive BernA where
  | probs (p : BArr XR)
  | logits (l : BArr XR)

namespace BernA
/-- bernoulli.py:80-85 -/
def batch : BernA → List ℕ
  | .probs p => p.shape
  | .logits l => l.shape
/-- bernoulli.py:88-92 -/
def logitsB : BernA → AE XR
  | .probs p => (arr p).map XR.log - (scalar 1 - arr p).map XR.log
  | .logits l => arr l
/-- bernoulli.py:95-99 -/
def probsB : BernA → AE XR
  | .probs p => arr p
  | .logits l => (arr l).map XR.sigmoid
/-- bernoulli.py:101-106 -/
def logProbsParameter : BernA → AE XR × AE XR
  | .probs p => ((scalar (fin (-1)) * arr p).map XR.log1p, (arr p).map XR.log)
  | .logits l => (-(arr l).map XR.softplus, -(scalar (fin (-1)) * arr l).map XR.softplus)

variable (d : BernA)
open Classical in
/-- bernoulli.py:108-114 -/
def sampleN (uniform : AE ℝ) : AE ℕ := bin (fun u p => if ltB (fin u) p then 1 else 0) uniform d.probsB
/-- bernoulli.py:116-120 -/
def logProb (v : AE XR) : AE XR :=
  bin multiplyNoNan d.logProbsParameter.1 (scalar 1 - v) + bin multiplyNoNan d.logProbsParameter.2 v
/-- bernoulli.py:122-127 -/
def prob (v : AE XR) : AE XR :=
  let probs1 := d.probsB
  let probs0 := scalar 1 - probs1
  bin multiplyNoNan probs0 (scalar 1 - v) + bin multiplyNoNan probs1 v
/-- bernoulli.py:129-136 -/
def cdf (v : AE XR) : AE XR :=
  tern XR.sel (bin ltB v (scalar 0)) (scalar (fin 0)) (tern XR.sel (bin leB (scalar 1) v) (scalar (fin 1)) (scalar 1 - d.probsB))
/-- bernoulli.py:138-140 -/
def logCdf (v : AE XR) : AE XR := (d.cdf v).map XR.log
/-- bernoulli.py:170-185 -/
def probsAndLogProbs : BernA → AE XR × AE XR × AE XR × AE XR
  | .probs p =>
    let probs0 := scalar 1 - arr p
    (probs0, scalar 1 - probs0, (scalar (fin (-1)) * arr p).map XR.log1p, (arr p).map XR.log)
  | .logits l =>
    ((scalar (fin (-1)) * arr l).map XR.sigmoid, (arr l).map XR.sigmoid, -(arr l).map XR.softplus,
      -(scalar (fin (-1)) * arr l).map XR.softplus)
/-- bernoulli.py:142-148 -/
def entropy : AE XR :=
  let (p0, p1, l0, l1) := d.probsAndLogProbs
  scalar (fin (-1)) * (bin multiplyNoNan l0 p0 + bin multiplyNoNan l1 p1)
/-- bernoulli.py:150-152 -/
def mean : AE XR := d.probsB
/-- bernoulli.py:154-156 -/
def variance : AE XR := (scalar 1 - d.probsB) * d.probsB
open Classical in
/-- bernoulli.py:158-160 -/
def mode : AE ℕ := bin (fun h p => if ltB h p then 1 else 0) (scalar (fin (1 / 2))) d.probsB
/-- bernoulli.py:188-211 -/
def kl (d1 d2 : BernA) : AE XR :=
  let (p0, p1, l0, l1) := d1.probsAndLogProbs
  let (_, _, m0, m1) := d2.probsAndLogProbs
  bin multiplyNoNan l1 p1 - bin multiplyNoNan m1 p1 + bin multiplyNoNan l0 p0 - bin multiplyNoNan m0 p0
end BernA

/-! ### As distributions over arrays -/

/-- The value of a real expression as an `Arr`. [array semantics of jax, used throughout; e.g. normal.py:37-146] -/
def AE.toArr : AE ℝ → Except Err Arr
  | .ok a => Except.ok ⟨a.shape, a.data⟩
  | .error e => Except.error e

/-- The value of an expression that does not raise (an empty array otherwise; `ADist.sampleN` is total).
[array semantics of jax, used throughout; e.g. normal.py:37-146] -/
def AE.toArrD (x : AE ℝ) : Arr :=
  match x.toArr with
  | .ok a => a
  | .error _ => ⟨[], fun _ => 0⟩

/-- A real array as an expression. [array semantics of jax, used throughout; e.g. normal.py:37-146] -/
def AE.ofArr (a : Arr) : AE ℝ := AE.arr ⟨a.shape, a.data⟩

/-- A pair of expressions, evaluated in order. [array semantics of jax, used throughout; e.g. normal.py:37-146] -/
def AE.toArr2 (x : AE ℝ × AE ℝ) : Except Err (Arr × Arr) := do
  let a ← x.1.toArr
  let b ← x.2.toArr
  return (a, b)

/-- The object of one of the families as a distribution over arrays: `noise key shape` is what `jax.random` returns
(normal.py:73-76, laplace.py:81-84, gumbel.py:82-85, logistic.py:77-84), the other arguments are the family's methods. -/
def P2.dist {Key : Type} (d : P2) (noise : Key → List ℕ → BArr ℝ) (sampleN : AE ℝ → AE ℝ)
    (sampleNLP : AE ℝ → AE ℝ × AE ℝ) (logProb : AE ℝ → AE ℝ) (entropy : AE ℝ) (logCdf : AE ℝ → AE ℝ) : ADist Key where
  batch := d.batch
  event := []
  sampleN k n := (sampleN (.arr (noise k (n :: d.batch)))).toArrD
  sampleNLP k n := AE.toArr2 (sampleNLP (.arr (noise k (n :: d.batch))))
  logProb v := (logProb (.ofArr v)).toArr
  entropy := entropy.toArr
  logCdf v := (logCdf (.ofArr v)).toArr

/-- `Normal` (normal.py). -/
def NormalA.dist {Key : Type} (noise : Key → List ℕ → BArr ℝ) (d : P2) : ADist Key :=
  d.dist noise (NormalA.sampleN d) (NormalA.sampleNLP d) (NormalA.logProb d) (NormalA.entropy d) (NormalA.logCdf d)
/-- `Laplace` (laplace.py). -/
def LaplaceA.dist {Key : Type} (noise : Key → List ℕ → BArr ℝ) (d : P2) : ADist Key :=
  d.dist noise (LaplaceA.sampleN d) (LaplaceA.sampleNLP d) (LaplaceA.logProb d) (LaplaceA.entropy d) (LaplaceA.logCdf d)
/-- `Gumbel` (gumbel.py). -/
def GumbelA.dist {Key : Type} (noise : Key → List ℕ → BArr ℝ) (d : P2) : ADist Key :=
  d.dist noise (GumbelA.sampleN d) (GumbelA.sampleNLP d) (GumbelA.logProb d) (GumbelA.entropy d) (GumbelA.logCdf d)
/-- `Logistic` (logistic.py), with the inherited `_sample_n_and_log_prob` (distribution.py:77-79). -/
def LogisticA.dist {Key : Type} (noise : Key → List ℕ → BArr ℝ) (d : P2) : ADist Key :=
  d.dist noise (LogisticA.sampleN d) (fun rnd => (LogisticA.sampleN d rnd, LogisticA.logProb d (LogisticA.sampleN d rnd)))
    (LogisticA.logProb d) (LogisticA.entropy d) (LogisticA.logCdf d)

end

end Distrax
