import Verif.Model.Bernoulli

/-!
# Reverse-mode derivatives of the categorical and Bernoulli methods

What `jax.vjp`/`jax.grad` computes for the methods of `Categorical`, `OneHotCategorical` and `Bernoulli`: each line of the
source is replaced by its value together with jax's transposed derivative rule, and cotangents are accumulated at every
intermediate array, in the order the source composes the lines.  Entries are `XR`, so `0 * inf`, `0 / 0` and `inf - inf`
produce `nan` exactly as they do in jax.  Rules used (jax primitives, from memory of jax's source):
`x * y ↦ (g * y, g * x)`, `x / y ↦ (g / y, -g * x / y^2)`, `exp x ↦ g * exp x`, `log x ↦ g / x`, `log1p x ↦ g / (1 + x)`,
`where(c, x, y) ↦ (where(c, g, 0), where(c, 0, g))`, `sum x ↦ broadcast g`, broadcasting ↦ sum, `stop_gradient ↦ 0`,
`logistic x ↦ g * (s * (1 - s))`, the `custom_jvp` of `jax.nn.softmax` and of `jnp.logaddexp`, and this repository's own
`custom_jvp` of `multiply_no_nan`.
-/

namespace Distrax

open XR

noncomputable section

/-- A differentiated array program: at an input, its value and its pullback of cotangents.
[reverse-mode differentiation of jax; no line of its own in the model of bernoulli.py:36-167] -/
abbrev RevV (m n : ℕ) := (Fin m → XR) → (Fin n → XR) × ((Fin n → XR) → Fin m → XR)

/-- The same for a scalar result. [reverse-mode differentiation of jax; no line of its own in the model of bernoulli.py:36-167] -/
abbrev RevS (m : ℕ) := (Fin m → XR) → XR × (XR → Fin m → XR)

/-- Running `f` and then `g`: the cotangent of the intermediate array is computed first, then pulled through `f`.
[reverse-mode differentiation of jax; no line of its own in the model of bernoulli.py:36-167] -/
def RevV.comp {m n k : ℕ} (g : RevV n k) (f : RevV m n) : RevV m k := fun x =>
  let y := f x
  let z := g y.1
  (z.1, fun c => y.2 (z.2 c))

/-- Running `f` and then a scalar-valued `g`. [reverse-mode differentiation of jax; no line of its own in the model of bernoulli.py:36-167] -/
def RevS.comp {m n : ℕ} (g : RevS n) (f : RevV m n) : RevS m := fun x =>
  let y := f x
  let z := g y.1
  (z.1, fun c => y.2 (z.2 c))

namespace Grad

variable {n : ℕ}

/-- `jax.nn.log_softmax` of a row (utils/math.py:140, categorical.py:122 and 197-198), differentiated:
`shifted = x - stop_gradient(max(x))`, `shifted - log(sum(exp(shifted)))`. -/
def logSoftmaxV : RevV n n := fun x =>
  let xMax := rowMax x
  let shifted := fun i => x i - xMax
  let e := fun i => XR.exp (shifted i)
  let s := ∑ j, e j
  (fun i => shifted i - XR.log s, fun c =>
    let cLse := ∑ j, -(c j)
    let cSum := cLse / s
    fun i => c i + cSum * e i)

/-- utils/math.py:135-137 `normalize(probs=...)` of a row, differentiated. -/
def normalizeProbsV : RevV n n := fun p =>
  let s := ∑ j, p j
  (fun i => p i / s, fun c =>
    let cs := ∑ j, (-(c j) * p j) / (s * s)
    fun i => c i / s + cs)

/-- `jnp.log`, differentiated. [external; called e.g. at bernoulli.py:92] -/
def logV : RevV n n := fun x => (fun i => XR.log (x i), fun c i => c i / x i)

/-- `jax.nn.softmax` of a row (categorical.py:83) with its `custom_jvp` rule `y * (t - sum(y * t))`, transposed. -/
def softmaxV : RevV n n := fun x =>
  let y := xsoftmax x
  (y, fun c =>
    let u := fun i => c i * y i
    fun i => u i + y i * -∑ j, u j)

/-- utils/math.py:67-79 `multiply_no_nan_jvp` with only `x` differentiated (`y`'s tangent a symbolic zero), transposed:
the rule is a scalar multiple of the tangent, so it is its own transpose. -/
def mnnX (x y g : XR) : XR := (multiplyNoNanJvp x y (some g) none).2.getD 0

/-- utils/math.py:67-79 `multiply_no_nan_jvp`, the part proportional to `y`'s tangent, transposed. -/
def mnnY (x y g : XR) : XR := (multiplyNoNanJvp x y none (some g)).2.getD 0

/-- utils/math.py:114-129 `mul_exp`, pullback of `g` to `(x, logp)`. -/
def mulExpPull (x logp g : XR) : XR × XR :=
  let p := XR.exp logp
  let x' := XR.sel (eqB p 0) 0 x
  let cX' := g * p
  let cP := g * x'
  (XR.sel (eqB p 0) 0 cX', cP * p)

open Classical in
/-- categorical.py:105-109, the last lines of `Categorical.log_prob`, as a function of `self.logits`. -/
def logProbOf (value : XR) : RevS n := fun lg =>
  let outside := ltB value 0 ∨ ltB (fin ((n : ℝ) - 1)) value
  (if outside then ninf else ∑ i, multiplyNoNan (lg i) (oneHot n value i), fun g =>
    let g' := XR.sel outside 0 g
    fun i => mnnX (lg i) (oneHot n value i) g')

/-- categorical.py:115, the last line of `Categorical.prob`, as a function of `self.probs`. -/
def probOf (value : XR) : RevS n := fun p =>
  (∑ i, multiplyNoNan (p i) (oneHot n value i), fun g i => mnnX (p i) (oneHot n value i) g)

/-- one_hot_categorical.py:72-74 `log_prob` of a fixed one-hot vector, as a function of `self.logits`. -/
def ohLogProbOf (value : Fin n → XR) : RevS n := fun lg =>
  (∑ i, multiplyNoNan (lg i) (value i), fun g i => mnnX (lg i) (value i) g)

/-- categorical.py:123, the last line of `Categorical.entropy`, as a function of `log_probs`. -/
def entropyOf : RevS n := fun lp =>
  (-∑ i, mulExp (lp i) (lp i), fun g =>
    let g' := -g
    fun i =>
      let c := mulExpPull (lp i) (lp i) g'
      c.1 + c.2)

/-- `Categorical(logits=l).log_prob(value)` (categorical.py:63, 75, 101-109) as a function of `l`. -/
def catLogProbL (value : XR) : RevS n := (logProbOf value).comp logSoftmaxV

/-- `Categorical(probs=p).log_prob(value)` (categorical.py:62, 76, 101-109) as a function of `p`. -/
def catLogProbP (value : XR) : RevS n := (logProbOf value).comp (logV.comp normalizeProbsV)

/-- `Categorical(logits=l).prob(value)` (categorical.py:63, 83, 111-115) as a function of `l`. -/
def catProbL (value : XR) : RevS n := (probOf value).comp (softmaxV.comp logSoftmaxV)

/-- `Categorical(probs=p).prob(value)` (categorical.py:62, 82, 111-115) as a function of `p`. -/
def catProbP (value : XR) : RevS n := (probOf value).comp normalizeProbsV

/-- `OneHotCategorical(logits=l).log_prob(value)` as a function of `l`. [one_hot_categorical.py:72-74] -/
def ohLogProbL (value : Fin n → XR) : RevS n := (ohLogProbOf value).comp logSoftmaxV

/-- `Categorical(logits=l).entropy()` (categorical.py:63, 117-123) as a function of `l`: `log_softmax` is applied by the
constructor and again by `entropy`. -/
def catEntropyL : RevS n := entropyOf.comp (logSoftmaxV.comp logSoftmaxV)

/-- `Categorical(probs=p).entropy()` (categorical.py:62, 119-123) as a function of `p`. -/
def catEntropyP : RevS n := entropyOf.comp (logV.comp normalizeProbsV)

/-- categorical.py:199-200, the last line of the KL divergence, as a function of `(log_probs1, log_probs2)`. -/
def klOf (lp1 lp2 : Fin n → XR) : XR × (XR → (Fin n → XR) × (Fin n → XR)) :=
  (∑ i, mulExp (lp1 i - lp2 i) (lp1 i), fun g =>
    (fun i => let c := mulExpPull (lp1 i - lp2 i) (lp1 i) g; c.1 + c.2,
     fun i => let c := mulExpPull (lp1 i - lp2 i) (lp1 i) g; -c.1))

/-- categorical.py:165-200 between two Categoricals built from logits (constructor `log_softmax` at categorical.py:63, then
`log_softmax` again at categorical.py:197-198), as a function of both rows of logits. -/
def catKlL (l1 l2 : Fin n → XR) : XR × (XR → (Fin n → XR) × (Fin n → XR)) :=
  let a := (logSoftmaxV.comp logSoftmaxV) l1
  let b := (logSoftmaxV.comp logSoftmaxV) l2
  let z := klOf a.1 b.1
  (z.1, fun g => (a.2 (z.2 g).1, b.2 (z.2 g).2))

/-! ### Bernoulli -/

/-- jax's `_replace_inf` in the derivative of `logaddexp`.
[reverse-mode differentiation of jax; no line of its own in the model of bernoulli.py:36-167] -/
def replaceInf (x : XR) : XR := XR.sel (eqB x pinf) 0 x

/-- `jax.nn.softplus(x) = logaddexp(x, 0)`, value and pullback (the `custom_jvp` of `logaddexp`). [external; called e.g. at bernoulli.py:105] -/
def softplusV (x : XR) : XR × (XR → XR) :=
  let out := XR.softplus x
  (out, fun g => g * XR.exp (replaceInf x - replaceInf out))

/-- `jax.nn.sigmoid`, value and pullback. [external; called e.g. at bernoulli.py:52] -/
def sigmoidV (x : XR) : XR × (XR → XR) :=
  let s := XR.sigmoid x
  (s, fun g => g * (s * (1 - s)))

/-- bernoulli.py:105-106 `(-softplus(logits), -softplus(-1. * logits))`, as a function of the logits. -/
def bernLogProbsL (l : XR) : (XR × XR) × (XR × XR → XR) :=
  let a := softplusV l
  let b := softplusV (fin (-1) * l)
  ((-a.1, -b.1), fun c => a.2 (-c.1) + fin (-1) * b.2 (-c.2))

/-- bernoulli.py:102-104 `(log1p(-1. * probs), log(probs))`, as a function of the probability. -/
def bernLogProbsP (p : XR) : (XR × XR) × (XR × XR → XR) :=
  ((XR.log1p (fin (-1) * p), XR.log p), fun c => fin (-1) * (c.1 / (1 + fin (-1) * p)) + c.2 / p)

/-- bernoulli.py:119-120, the last lines of `log_prob`, as a function of `(log_probs0, log_probs1)`. -/
def bernLogProbOf (v : XR) (lp : XR × XR) : XR × (XR → XR × XR) :=
  (multiplyNoNan lp.1 (1 - v) + multiplyNoNan lp.2 v, fun g => (mnnX lp.1 (1 - v) g, mnnX lp.2 v g))

/-- `Bernoulli(logits=l).log_prob(v)` as a function of `l`. [bernoulli.py:116-120] -/
def bernLogProbL (v l : XR) : XR × (XR → XR) :=
  let a := bernLogProbsL l
  let z := bernLogProbOf v a.1
  (z.1, fun g => a.2 (z.2 g))

/-- `Bernoulli(probs=p).log_prob(v)` as a function of `p`. [bernoulli.py:116-120] -/
def bernLogProbP (v p : XR) : XR × (XR → XR) :=
  let a := bernLogProbsP p
  let z := bernLogProbOf v a.1
  (z.1, fun g => a.2 (z.2 g))

/-- bernoulli.py:181-184, the logits branch of `_probs_and_log_probs`: `((probs0, probs1), (log_probs0, log_probs1))`. -/
def bernAllL (l : XR) : ((XR × XR) × (XR × XR)) × ((XR × XR) × (XR × XR) → XR) :=
  let s0 := sigmoidV (fin (-1) * l)
  let s1 := sigmoidV l
  let a := bernLogProbsL l
  (((s0.1, s1.1), a.1), fun c => fin (-1) * s0.2 c.1.1 + s1.2 c.1.2 + a.2 c.2)

/-- bernoulli.py:176-179, the probs branch of `_probs_and_log_probs`. -/
def bernAllP (p : XR) : ((XR × XR) × (XR × XR)) × ((XR × XR) × (XR × XR) → XR) :=
  let p0 := 1 - p
  let a := bernLogProbsP p
  (((p0, 1 - p0), a.1), fun c => -(c.1.1 + -c.1.2) + a.2 c.2)

/-- bernoulli.py:146-148, the last lines of `entropy`. -/
def bernEntropyOf (q : (XR × XR) × (XR × XR)) : XR × (XR → (XR × XR) × (XR × XR)) :=
  (fin (-1) * (multiplyNoNan q.2.1 q.1.1 + multiplyNoNan q.2.2 q.1.2), fun g =>
    let g' := fin (-1) * g
    ((mnnY q.2.1 q.1.1 g', mnnY q.2.2 q.1.2 g'), (mnnX q.2.1 q.1.1 g', mnnX q.2.2 q.1.2 g')))

/-- `Bernoulli(logits=l).entropy()` as a function of `l`. [bernoulli.py:142-148] -/
def bernEntropyL (l : XR) : XR × (XR → XR) :=
  let a := bernAllL l
  let z := bernEntropyOf a.1
  (z.1, fun g => a.2 (z.2 g))

/-- `Bernoulli(probs=p).entropy()` as a function of `p`. [bernoulli.py:142-148] -/
def bernEntropyP (p : XR) : XR × (XR → XR) :=
  let a := bernAllP p
  let z := bernEntropyOf a.1
  (z.1, fun g => a.2 (z.2 g))

/-- bernoulli.py:206-211, the last lines of the KL divergence, as a function of `(probs, log_probs)` of the first and
`log_probs` of the second distribution. -/
def bernKlOf (q : (XR × XR) × (XR × XR)) (m : XR × XR) : XR × (XR → ((XR × XR) × (XR × XR)) × (XR × XR)) :=
  let (p0, p1) := q.1
  let (l0, l1) := q.2
  let (m0, m1) := m
  (multiplyNoNan l1 p1 - multiplyNoNan m1 p1 + multiplyNoNan l0 p0 - multiplyNoNan m0 p0, fun g =>
    (((mnnY l0 p0 g + mnnY m0 p0 (-g), mnnY l1 p1 g + mnnY m1 p1 (-g)), (mnnX l0 p0 g, mnnX l1 p1 g)),
      (mnnX m0 p0 (-g), mnnX m1 p1 (-g))))

/-- bernoulli.py:188-211 between two Bernoullis built from logits (of the second distribution only the log-probabilities are
used, so its sigmoids receive no cotangent). -/
def bernKlL (l1 l2 : XR) : XR × (XR → XR × XR) :=
  let a := bernAllL l1
  let b := bernLogProbsL l2
  let z := bernKlOf a.1 b.1
  (z.1, fun g => (a.2 (z.2 g).1, b.2 (z.2 g).2))

/-! ### Mixtures -/

/-- `jax.scipy.special.logsumexp` of a row (mixture_same_family.py:124): `m = max(x)` replaced by 0 when not finite, behind
`stop_gradient`; `log(sum(exp(x - m))) + m`. -/
def logsumexpV : RevS n := fun x =>
  let xMax := rowMax x
  let m := XR.sel (isFinite xMax) xMax 0
  let e := fun i => XR.exp (x i - m)
  let s := ∑ j, e j
  (XR.log s + m, fun g =>
    let cs := g / s
    fun i => cs * e i)

/-- mixture_same_family.py:116-124 `log_prob` of a mixture whose weights are `Categorical(logits=...)`, as a function of
those logits and of the components' log-probabilities `lp` of the value: `logsumexp(lp + log_softmax(logits))`, `log_softmax`
having been applied once by the Categorical constructor and once by the mixture constructor (mixture_same_family.py:61). -/
def mixLogProb (logits lp : Fin n → XR) : XR × (XR → (Fin n → XR) × (Fin n → XR)) :=
  let a := (logSoftmaxV.comp logSoftmaxV) logits
  let z := logsumexpV fun i => lp i + a.1 i
  (z.1, fun g => (a.2 (z.2 g), z.2 g))

end Grad

end

end Distrax
