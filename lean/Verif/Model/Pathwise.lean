import Verif.Model.Continuous
import Verif.Model.Quantized
import Verif.Model.CategoricalUniform
import Verif.Model.VonMises

/-!
# Forward-mode derivatives of samples

`jax.jvp` (and, transposed, `jax.grad`) through `sample`: every number carries a value and a tangent.  The noise drawn from
`jax.random` is a constant.  Rules of jax used here: the usual ones for `+ - * /`, `exp`, `log`; `jnp.clip`, `jnp.minimum`
pass the tangent of the selected argument, and in a tie a fixed share of it (`tie`, one half in jax: `lax.max`/`lax.min`
split the derivative evenly); `jax.nn.relu` passes nothing at 0; `ceil`, comparisons and integer-valued results pass nothing;
`jax.nn.softmax` has the rule `p * (dl - sum(p * dl))`.
-/

namespace Distrax

noncomputable section

/-- A number with its tangent. [no line of its own; part of the model of normal.py:37-146] -/
@[ext] structure Dual where
  val : ℝ
  tan : ℝ

namespace Dual

/-- A constant. [no line of its own; part of the model of normal.py:37-146] -/
def const (a : ℝ) : Dual := ⟨a, 0⟩
/-- `lax.add` -/
instance : Add Dual := ⟨fun a b => ⟨a.val + b.val, a.tan + b.tan⟩⟩
/-- `lax.sub` -/
instance : Sub Dual := ⟨fun a b => ⟨a.val - b.val, a.tan - b.tan⟩⟩
/-- `lax.mul` -/
instance : Mul Dual := ⟨fun a b => ⟨a.val * b.val, a.tan * b.val + a.val * b.tan⟩⟩
/-- `lax.div` -/
instance : Div Dual := ⟨fun a b => ⟨a.val / b.val, a.tan / b.val - a.val * b.tan / b.val ^ 2⟩⟩
/-- `lax.exp`. [external; called e.g. at log_stddev_normal.py:40] -/
def exp (a : Dual) : Dual := ⟨Real.exp a.val, a.tan * Real.exp a.val⟩
/-- `jax.nn.softplus`. [external; called e.g. at log_stddev_normal.py:42] -/
def softplus (a : Dual) : Dual := ⟨Real.log (1 + Real.exp a.val), a.tan * (1 / (1 + Real.exp (-a.val)))⟩
/-- `jnp.clip(a, lo, hi)` with constant bounds. [external; called e.g. at categorical.py:139] -/
def clip (tie lo hi : ℝ) (a : Dual) : Dual :=
  ⟨min (max a.val lo) hi,
    if a.val < lo ∨ hi < a.val then 0 else if a.val = lo ∨ a.val = hi then tie * a.tan else a.tan⟩
/-- `jnp.minimum(a, b)`. [external; called e.g. at categorical_uniform.py:138] -/
def minimum (tie : ℝ) (a b : Dual) : Dual :=
  ⟨min a.val b.val, if a.val < b.val then a.tan else if b.val < a.val then b.tan else tie * a.tan + (1 - tie) * b.tan⟩
/-- `jax.nn.relu(a)`. [external; called e.g. at categorical_uniform.py:140] -/
def relu (a : Dual) : Dual := ⟨max a.val 0, if 0 < a.val then a.tan else 0⟩
/-- `jnp.ceil(a)`. [external; called e.g. at quantized.py:39] -/
def ceil (a : Dual) : Dual := ⟨(⌈a.val⌉ : ℤ), 0⟩
/-- `jnp.where(c, a, b)`. [external; called e.g. at uniform.py:98] -/
def where_ (c : Bool) (a b : Dual) : Dual := if c then a else b
/-- `jnp.sum` over a vector. [external; called e.g. at categorical_uniform.py:142] -/
def sum {n : ℕ} (a : Fin n → Dual) : Dual := ⟨∑ i, (a i).val, ∑ i, (a i).tan⟩
/-- `jax.nn.softmax` over a vector. [external; called e.g. at categorical_uniform.py:130] -/
def softmax {n : ℕ} (l : Fin n → Dual) : Fin n → Dual := fun i =>
  let p := fun j => Real.exp (l j).val / ∑ k, Real.exp (l k).val
  ⟨p i, p i * ((l i).tan - ∑ j, p j * (l j).tan)⟩

/-- normal.py:78-83 `_sample_n`, one entry. -/
def normalSample (loc scale : Dual) (rnd : ℝ) : Dual := scale * const rnd + loc

/-- log_stddev_normal.py:61-68: the same with `scale = exp(log_scale)`, where `log_scale` is first thresholded smoothly if
`max_scale` is given. -/
def logStddevNormalSample (maxScale : Option ℝ) (loc logScale : Dual) (rnd : ℝ) : Dual :=
  let logScale := match maxScale with
    | none => logScale
    | some m => const (Real.log m) - softplus (const (Real.log m) - logScale)
  normalSample loc (exp logScale) rnd

/-- laplace.py:86-89 -/
def laplaceSample (loc scale : Dual) (rnd : ℝ) : Dual := loc + scale * const rnd

/-- logistic.py:75-86 -/
def logisticSample (loc scale : Dual) (u : ℝ) : Dual := scale * const (Real.log u - Real.log (1 + -u)) + loc

/-- gumbel.py:87-90 -/
def gumbelSample (loc scale : Dual) (rnd : ℝ) : Dual := scale * const rnd + loc

/-- uniform.py:68-70,76-83 -/
def uniformSample (low high : Dual) (u : ℝ) : Dual := low + (high - low) * const u

/-- clipped.py:69-72 -/
def clippedSample (tie minimum maximum : ℝ) (raw : Dual) : Dual := clip tie minimum maximum raw

/-- quantized.py:126-137 `_sample_n` with constant cutoffs: `ceil`, then `where(s < low, low, s)` and
`where(s > high, high, s)`. -/
def quantizedSample (low high : Option ℝ) (raw : Dual) : Dual :=
  let s := ceil raw
  let s := match low with
    | none => s
    | some l => open Classical in where_ (decide (s.val < l)) (const l) s
  match high with
  | none => s
  | some h => open Classical in where_ (decide (s.val > h)) (const h) s

/-- mixture_of_two.py:74-81: `where(mask, sample_a, sample_b)`; the mask is drawn from `prob_a` and carries no tangent. -/
def mixtureOfTwoSample (maskFromA : Bool) (a b : Dual) : Dual := where_ maskFromA a b

/-- mixture_same_family.py:93-114: the one-hot mask of the drawn component times the components' draws, summed; the mask
carries no tangent. -/
def mixtureSameFamilySample {n : ℕ} (k : Fin n) (draws : Fin n → Dual) : Dual :=
  sum fun i => draws i * const (if i = k then 1 else 0)

/-- von_mises.py:145-151 `_sample_n`, one entry: `s` is the draw with location 0, whose tangent comes from the `custom_jvp`
rule of lines 281-307 with the concentration derivative `dcore` of the CDF recipe; then `loc` is added and the angle brought
back into one turn (`jnp.round` passes no tangent). -/
def vonMisesSample (dcore : ℝ → ℝ → ℝ) (loc concentration : Dual) (s : ℝ) : Dual :=
  let x : Dual := ⟨s, VonMises.sampleTangent dcore s concentration.val concentration.tan⟩ + loc
  x - const (2 * Real.pi) * const (rint (x.val / (2 * Real.pi)))

/-- categorical_uniform.py:115-117 `jnp.linspace(low, high, K + 1)` -/
def linspace (K : ℕ) (low high : Dual) (i : ℕ) : Dual :=
  low * const (1 - i / K) + high * const (i / K)

/-- categorical_uniform.py:85-88, 128-142 `_inverse_cdf` of a uniform draw. -/
def catUniformSample {K : ℕ} (tie : ℝ) (low high : Dual) (logits : Fin K → Dual) (u : ℝ) : Dual :=
  let probs := softmax logits
  let quantileLimits := fun i : ℕ => sum fun k : Fin K => if k.val < i then probs k else const 0
  let domainDiff := fun k : Fin K => linspace K low high (k + 1) - linspace K low high k
  let quantileDiff := fun k : Fin K => quantileLimits (k + 1) - quantileLimits k
  let slopes := fun k => domainDiff k / quantileDiff k
  let contributions := fun k : Fin K => minimum tie (quantileDiff k) (relu (const u - quantileLimits k))
  low + sum fun k => slopes k * contributions k

end Dual

end

end Distrax
