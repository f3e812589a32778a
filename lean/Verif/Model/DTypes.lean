import Verif.Model.Arr
import Mathlib.Data.Int.Basic
import Mathlib.Data.Nat.Log
import Mathlib.Data.List.Dedup
import Mathlib.Data.List.FinRange
import Mathlib.Logic.Function.Iterate

/-!
# dtypes: what every `dtype` argument and property does

`jnp.result_type` and the implicit promotion of `jnp` operators are JAX's promotion lattice
(jax/_src/dtypes.py, `_type_promotion_lattice` and `_least_upper_bound`; written from memory, the 8-bit floats
and 4-bit integers left out).  An abstract value is a dtype and JAX's `weak_type` flag; `x64` is
`jax_enable_x64`.  `astype` of whole numbers is modelled on values: integers wrap around, floating-point dtypes
round to nearest with ties to even and overflow to infinity.
-/

namespace Distrax.DTypes

/-- The dtypes of JAX arrays. [dtype semantics of jax; no line of its own in the model of distribution.py:49-309] -/
inductive DT where
  | bool
  | u8 | u16 | u32 | u64
  | i8 | i16 | i32 | i64
  | bf16 | f16 | f32 | f64
  | c64 | c128
  deriving DecidableEq, Repr

namespace DT

/-- `jnp.issubdtype(t, jnp.integer)`. [external; called e.g. at bernoulli.py:64] -/
def isInteger : DT → Bool
  | u8 | u16 | u32 | u64 | i8 | i16 | i32 | i64 => true
  | _ => false

/-- `jnp.issubdtype(t, jnp.floating)`. [external; called e.g. at bernoulli.py:64] -/
def isFloating : DT → Bool
  | bf16 | f16 | f32 | f64 => true
  | _ => false

/-- `jnp.issubdtype(t, bool)`. [external; called e.g. at bernoulli.py:64] -/
def isBool : DT → Bool
  | bool => true
  | _ => false

/-- `jax.dtypes.canonicalize_dtype`: without x64 mode the 64-bit dtypes become 32-bit ones.
[dtype semantics of jax; no line of its own in the model of distribution.py:49-309] -/
def canon (x64 : Bool) (t : DT) : DT :=
  if x64 then t else
  match t with
  | i64 => i32
  | u64 => u32
  | f64 => f32
  | c128 => c64
  | t => t

end DT

open DT

/-- A node of the promotion lattice: a dtype, or one of the weak Python scalar types.
[dtype semantics of jax; no line of its own in the model of distribution.py:49-309] -/
inductive Node where
  | dt (t : DT)
  | iw | fw | cw
  deriving DecidableEq, Repr

namespace Node

/-- `_make_lattice_upper_bounds`: every node together with all nodes reachable from it along the edges of
`_type_promotion_lattice` (one line per node: the node, then the upper bounds of its successors).
[dtype semantics of jax; no line of its own in the model of distribution.py:49-309] -/
def upper (a : Node) : List Node :=
  let c128 := [.dt .c128]
  let c64 := .dt .c64 :: c128
  let cw' := cw :: c64
  let f64 := .dt .f64 :: c128
  let f32 := .dt .f32 :: f64 ++ c64
  let f16 := .dt .f16 :: f32
  let bf16 := .dt .bf16 :: f32
  let fw' := fw :: .dt .bf16 :: f16 ++ cw'
  let i64 := .dt .i64 :: fw'
  let u64 := .dt .u64 :: fw'
  let i32 := .dt .i32 :: i64
  let u32 := .dt .u32 :: .dt .u64 :: i64
  let i16 := .dt .i16 :: i32
  let u16 := .dt .u16 :: .dt .i32 :: u32
  let i8 := .dt .i8 :: i16
  let u8 := .dt .u8 :: .dt .i16 :: u16
  let iw' := iw :: .dt .i8 :: u8
  let bool := .dt .bool :: iw'
  match a with
  | .dt .bool => bool
  | iw => iw'
  | .dt .u8 => u8
  | .dt .u16 => u16
  | .dt .u32 => u32
  | .dt .u64 => u64
  | .dt .i8 => i8
  | .dt .i16 => i16
  | .dt .i32 => i32
  | .dt .i64 => i64
  | fw => fw'
  | .dt .bf16 => bf16
  | .dt .f16 => f16
  | .dt .f32 => f32
  | .dt .f64 => f64
  | cw => cw'
  | .dt .c64 => c64
  | .dt .c128 => c128

/-- All nodes, in a fixed order. [dtype semantics of jax; no line of its own in the model of distribution.py:49-309] -/
def all : List Node :=
  [.dt .bool, iw, .dt .u8, .dt .u16, .dt .u32, .dt .u64, .dt .i8, .dt .i16, .dt .i32, .dt .i64, fw, .dt .bf16,
    .dt .f16, .dt .f32, .dt .f64, cw, .dt .c64, .dt .c128]

/-- `_least_upper_bound` of two nodes: the common upper bound below all the others (there always is one).
[dtype semantics of jax; no line of its own in the model of distribution.py:49-309] -/
def join (a b : Node) : Node :=
  let cub := all.filter fun c => (upper a).contains c && (upper b).contains c
  (cub.find? fun c => cub.all fun d => (upper c).contains d).getD (.dt .c128)

end Node

/-- dtype and weak flag of an array or Python scalar. [dtype semantics of jax; no line of its own in the model of distribution.py:49-309] -/
structure AV where
  dt : DT
  weak : Bool
  deriving DecidableEq, Repr

namespace AV

/-- A strongly typed array. [dtype semantics of jax; no line of its own in the model of distribution.py:49-309] -/
def strong (t : DT) : AV := ⟨t, false⟩

/-- The lattice node of an abstract value (`_jax_type`). [dtype semantics of jax; no line of its own in the model of distribution.py:49-309] -/
def node (a : AV) : Node :=
  if a.weak then
    if a.dt.isInteger then .iw
    else if a.dt.isFloating then .fw
    else match a.dt with
      | .bool => .dt .bool
      | _ => .cw
  else .dt a.dt

/-- dtype and weak flag of a lattice node (`result_type` canonicalises its answer).
[dtype semantics of jax; no line of its own in the model of distribution.py:49-309] -/
def ofNode (x64 : Bool) : Node → AV
  | .dt t => ⟨DT.canon x64 t, false⟩
  | .iw => ⟨DT.canon x64 .i64, true⟩
  | .fw => ⟨DT.canon x64 .f64, true⟩
  | .cw => ⟨DT.canon x64 .c128, true⟩

/-- The result of `x + y`, `x * y`, `jnp.where(c, x, y)`, ... [external; called e.g. at von_mises.py:235] -/
def promote (x64 : Bool) (a b : AV) : AV := ofNode x64 (Node.join a.node b.node)

/-- A Python float such as `1.`. [dtype semantics of jax; no line of its own in the model of distribution.py:49-309] -/
def pyFloat (x64 : Bool) : AV := ⟨DT.canon x64 .f64, true⟩

/-- A Python int such as `-1`. [dtype semantics of jax; no line of its own in the model of distribution.py:49-309] -/
def pyInt (x64 : Bool) : AV := ⟨DT.canon x64 .i64, true⟩

/-- conversion.py:126-149 `as_float_array`. -/
def asFloat (x64 : Bool) (a : AV) : Except Err AV :=
  if a.dt.isFloating then .ok a
  else if a.dt.isInteger then .ok (strong (DT.canon x64 .f64))
  else .error .valueError

end AV

open AV

/-- What `forward` of a bijector does to the dtype of its argument.
[dtype semantics of jax; no line of its own in the model of distribution.py:49-309] -/
inductive Bij where
  /-- scalar_affine.py:87-92 `batched_scale * x + batched_shift` -/
  | scalarAffine (scale shift : AV)
  /-- shift.py:51-54 `x + batched_shift` -/
  | shiftBy (s : AV)
  /-- diag_linear.py:66-70 `batched_diag * x`, triangular_linear.py:95-99 `jnp.matmul` -/
  | linear (matrix : AV)
  /-- block.py:63-65 -/
  | block (b : Bij)
  /-- chain.py:59-63: `outer` after `inner` -/
  | chain (outer inner : Bij)
  /-- any other bijector, as an arbitrary function on dtypes -/
  | fn (f : AV → AV)

/-- dtype of `bijector.forward(x)`. [bijector.py:116-119 and the subclasses] -/
def Bij.forward (x64 : Bool) : Bij → AV → AV
  | .scalarAffine scale shift, x => promote x64 (promote x64 scale x) shift
  | .shiftBy s, x => promote x64 x s
  | .linear m, x => promote x64 m x
  | .block b, x => b.forward x64 x
  | .chain o i, x => o.forward x64 (i.forward x64 x)
  | .fn f, x => f x

/-- Distributions with array-valued events, as far as dtypes are concerned. The arguments are the constructor
arguments as the user passes them. [dtype semantics of jax; no line of its own in the model of distribution.py:49-309] -/
inductive Dist where
  /-- Normal, LogStddevNormal, Laplace, Logistic, Gumbel -/
  | locScale (loc scale : AV)
  | gamma (concentration rate : AV)
  | beta (alpha beta : AV)
  | dirichlet (concentration : AV)
  | uniform (low high : AV)
  | vonMises (loc concentration : AV)
  | deterministic (loc : AV)
  | bernoulli (param : AV) (dtype : DT)
  /-- Categorical, Greedy, EpsilonGreedy, Softmax, OneHotCategorical -/
  | categorical (dtype : DT)
  | multinomial (param : AV) (dtype : DT)
  | categoricalUniform (low high logits : AV)
  /-- `MultivariateNormalFromBijector(loc, scale)` with `scale.dtype` -/
  | mvn (loc : AV) (scale : DT)
  | independent (d : Dist)
  | transformed (d : Dist) (b : Bij)
  | clipped (d : Dist) (minimum maximum : AV)
  | mixtureOfTwo (a b : Dist)
  | mixtureSameFamily (components : Dist)

namespace Dist

/-- normal.py:49-51,72-83; laplace.py:55-57,80-89; logistic.py:46-48,75-90; gumbel.py:47-49,82-90: the noise has
dtype `result_type(loc, scale)`, the sample is `scale * rnd + loc`. -/
def locScaleSample (x64 : Bool) (loc scale : AV) : Except Err AV := do
  let l ← asFloat x64 loc
  let s ← asFloat x64 scale
  let rnd := strong (promote x64 l s).dt
  .ok (promote x64 (promote x64 s rnd) l)

/-- The two ways a distribution answers: the dtype of the array returned by `sample`, and the value of the
`dtype` property.  They are defined together because `MixtureOfTwo.__init__` looks at the `dtype` property.
[the `_sample_n` and `dtype` of every class; distribution.py:138-142] -/
def both (x64 : Bool) : Dist → Except Err (AV × DT)
  | locScale loc scale => do
    let a ← locScaleSample x64 loc scale
    .ok (a, a.dt)
  | gamma c r => do
    -- gamma.py:47-48,72-82: `jax.random.gamma(..., dtype=result_type)`, then `rnd / rate`
    let c' ← asFloat x64 c
    let r' ← asFloat x64 r
    let a := promote x64 (strong (promote x64 c' r').dt) r'
    .ok (a, a.dt)
  | beta a b => do
    -- beta.py:60-61,86-91
    let a' ← asFloat x64 a
    let b' ← asFloat x64 b
    let r := strong (promote x64 a' b').dt
    .ok (r, r.dt)
  | dirichlet c => do
    -- dirichlet.py:62,88-93
    let c' ← asFloat x64 c
    .ok (strong c'.dt, c'.dt)
  | uniform low high => do
    -- uniform.py:48-49,69-71,76-83: noise of dtype `self.range.dtype`, then `low + range_ * uniform`
    let l ← asFloat x64 low
    let h ← asFloat x64 high
    let range := promote x64 h l
    let a := promote x64 l (promote x64 range (strong range.dt))
    .ok (a, a.dt)
  | vonMises loc conc => do
    -- von_mises.py:95-96,145-151,219-232: the table of cutoffs has no entry for bfloat16
    let l ← asFloat x64 loc
    let c ← asFloat x64 conc
    let dtype := (promote x64 l c).dt
    if dtype = .f16 ∨ dtype = .f32 ∨ dtype = .f64 then
      let a := promote x64 (strong dtype) l
      .ok (a, a.dt)
    else .error .keyError
  | deterministic loc =>
    -- deterministic.py:54,98-102: `jnp.repeat` keeps the weak flag
    .ok (loc, loc.dt)
  | bernoulli param dtype => do
    -- bernoulli.py:64-73,107-114
    if !(dtype.isBool || dtype.isInteger || dtype.isFloating) then .error .valueError
    else
      let _ ← asFloat x64 param
      let a := strong (DT.canon x64 dtype)
      .ok (a, a.dt)
  | categorical dtype =>
    -- categorical.py:56-64,92-99; one_hot_categorical.py:60-70: `where(is_valid, draws, ones_like(draws) * -1)`
    if !(dtype.isInteger || dtype.isFloating) then .error .valueError
    else
      let draws := strong (DT.canon x64 dtype)
      let a := promote x64 draws (promote x64 draws (pyInt x64))
      .ok (a, a.dt)
  | multinomial param dtype => do
    -- multinomial.py:61-62,75-84,152-181
    let _ ← asFloat x64 param
    if !(dtype.isInteger || dtype.isFloating) then .error .valueError
    else
      let t := strong (DT.canon x64 dtype)
      let a := promote x64 t t
      .ok (a, a.dt)
  | categoricalUniform low high logits => do
    -- categorical_uniform.py:67-69,84-87,129-144: the quantile is drawn in the default float dtype
    let l ← asFloat x64 low
    let h ← asFloat x64 high
    let g ← asFloat x64 logits
    let quantile := strong (DT.canon x64 .f64)
    let slopes := promote x64 (promote x64 l h) g
    let contributions := promote x64 g (promote x64 quantile g)
    let a := promote x64 l (promote x64 slopes contributions)
    .ok (a, a.dt)
  | mvn loc scale => do
    -- mvn_from_bijector.py:77-92: a standard normal of dtype `result_type(scale.dtype, loc.dtype)`, then
    -- `A @ z + loc`; `self._dtype` is set here and overrides the inferred dtype
    let dtype := (promote x64 (strong scale) (strong loc.dt)).dt
    let z ← locScaleSample x64 (strong dtype) (pyFloat x64)
    let a := promote x64 (promote x64 (strong scale) z) loc
    .ok (a, dtype)
  | independent d => do
    -- independent.py:95-97: the samples of the base distribution
    let (a, _) ← both x64 d
    .ok (a, a.dt)
  | transformed d b => do
    -- transformed.py:120-126,180-187: `sample` maps `forward` over the base samples, the property traces
    -- `forward` on `jnp.zeros(..., dtype=self.distribution.dtype)`
    let (a, t) ← both x64 d
    .ok (b.forward x64 a, (b.forward x64 (strong t)).dt)
  | clipped d minimum maximum => do
    -- clipped.py:69-72 `jnp.clip(raw_sample, self._minimum, self._maximum)`
    let (a, _) ← both x64 d
    let r := promote x64 (promote x64 a minimum) maximum
    .ok (r, r.dt)
  | mixtureOfTwo a b => do
    -- mixture_of_two.py:65-68,74-82 `jnp.where(mask_from_a, sample_a, sample_b)`
    let (x, s) ← both x64 a
    let (y, t) ← both x64 b
    if s ≠ t then .error .valueError
    else
      let r := promote x64 x y
      .ok (r, r.dt)
  | mixtureSameFamily c => do
    -- mixture_same_family.py:104-114: the one-hot mask has the default float dtype
    let (a, _) ← both x64 c
    let mask := strong (DT.canon x64 .f64)
    let r := promote x64 a mask
    .ok (r, r.dt)

/-- dtype of the array returned by `sample`. [the `_sample_n` of every class; distribution.py:144-162] -/
def sample (x64 : Bool) (d : Dist) : Except Err AV := do .ok (← both x64 d).1

/-- distribution.py:138-142 (the dtype of a traced sample), transformed.py:137-143: the `dtype` property. -/
def dtype (x64 : Bool) (d : Dist) : Except Err DT := do .ok (← both x64 d).2

end Dist

/-- A tree of values (pytrees of distributions, samples, dtypes).
[dtype semantics of jax; no line of its own in the model of distribution.py:49-309] -/
inductive Tree (α : Type) where
  | leaf (a : α)
  | node (n : ℕ) (kids : Fin n → Tree α)

/-- `tree.map_structure`. [external; called e.g. at joint.py:53] -/
def Tree.map {α β : Type} (f : α → β) : Tree α → Tree β
  | .leaf a => .leaf (f a)
  | .node n kids => .node n fun i => (kids i).map f

/-- joint.py:78-83 `_sample_n`: one sample per leaf. -/
def jointSample (x64 : Bool) (t : Tree Dist) : Tree (Except Err AV) := t.map (Dist.sample x64)

/-- joint.py:114-116 `dtype`. -/
def jointDtype (x64 : Bool) (t : Tree Dist) : Tree (Except Err DT) := t.map (Dist.dtype x64)

/-! ## Values under a requested dtype -/

/-- Round a whole number to `p` significant bits, to nearest, ties to even.
[dtype semantics of jax; no line of its own in the model of distribution.py:49-309] -/
def roundBits (p : ℕ) (n : ℤ) : ℤ :=
  let q : ℤ := 2 ^ (n.natAbs.log2 + 1 - p)
  let d := n / q
  let r := n % q
  if 2 * r < q then d * q
  else if 2 * r > q then (d + 1) * q
  else if d % 2 = 0 then d * q else (d + 1) * q

/-- A whole number in a floating-point dtype with `p` significant bits and largest exponent `emax`; `none` is an
infinity. [dtype semantics of jax; no line of its own in the model of distribution.py:49-309] -/
def toFloat (p emax : ℕ) (n : ℤ) : Option ℤ :=
  let r := roundBits p n
  if 2 ^ (emax + 1) ≤ r.natAbs then none else some r

/-- A whole number in an unsigned integer dtype of `w` bits. [dtype semantics of jax; no line of its own in the model of distribution.py:49-309] -/
def wrapU (w : ℕ) (n : ℤ) : ℤ := n % 2 ^ w

/-- A whole number in a signed integer dtype of `w` bits (two's complement).
[dtype semantics of jax; no line of its own in the model of distribution.py:49-309] -/
def wrapI (w : ℕ) (n : ℤ) : ℤ := (n + 2 ^ (w - 1)) % 2 ^ w - 2 ^ (w - 1)

/-- `astype(t)` of a whole number. [dtype semantics of jax; no line of its own in the model of distribution.py:49-309] -/
def cast : DT → ℤ → Option ℤ
  | .bool, n => some (if n = 0 then 0 else 1)
  | .u8, n => some (wrapU 8 n)
  | .u16, n => some (wrapU 16 n)
  | .u32, n => some (wrapU 32 n)
  | .u64, n => some (wrapU 64 n)
  | .i8, n => some (wrapI 8 n)
  | .i16, n => some (wrapI 16 n)
  | .i32, n => some (wrapI 32 n)
  | .i64, n => some (wrapI 64 n)
  | .bf16, n => toFloat 8 127 n
  | .f16, n => toFloat 11 15 n
  | .f32, n => toFloat 24 127 n
  | .c64, n => toFloat 24 127 n
  | .f64, n => toFloat 53 1023 n
  | .c128, n => toFloat 53 1023 n

/-- Addition in dtype `t`. [dtype semantics of jax; no line of its own in the model of distribution.py:49-309] -/
def add (t : DT) (a b : Option ℤ) : Option ℤ := do cast t ((← a) + (← b))

/-- `jnp.less` of two numbers of one dtype, `none` being `+inf`. [external; called e.g. at bernoulli.py:114] -/
def less : Option ℤ → Option ℤ → Bool
  | some a, some b => a < b
  | some _, none => true
  | none, _ => false

/-- bernoulli.py:107-114 `_sample_n`: the comparison `uniform < probs`, cast to the requested dtype. -/
def bernoulliSample (x64 : Bool) (t : DT) (hit : Bool) : Option ℤ := cast (DT.canon x64 t) (if hit then 1 else 0)

/-- categorical.py:92-99 `_sample_n`: the drawn index cast to the requested dtype, or `ones_like(draws) * -1`. -/
def categoricalSample (x64 : Bool) (t : DT) (valid : Bool) (draw : ℕ) : Option ℤ :=
  if valid then cast (DT.canon x64 t) draw else cast (DT.canon x64 t) (-1)

/-- one_hot_categorical.py:60-70 `_sample_n` (valid parameters). -/
def oneHotSample (x64 : Bool) (t : DT) {K : ℕ} (draw : Fin K) : Fin K → Option ℤ :=
  fun k => cast (DT.canon x64 t) (if draw = k then 1 else 0)

/-- `lax.while_loop(cond, body, s)` ends in state `s'`. [external; called e.g. at von_mises.py:266] -/
inductive WhileEnds {σ : Type} (cond : σ → Bool) (body : σ → σ) : σ → σ → Prop where
  | stop {s : σ} : cond s = false → WhileEnds cond body s s
  | step {s s' : σ} : cond s = true → WhileEnds cond body (body s) s' → WhileEnds cond body s s'

/-- multinomial.py:81 `self._total_count = jnp.asarray(total_count, dtype=dtype)`. -/
def totalCount (x64 : Bool) (t : DT) (n : ℕ) : Option ℤ := cast (DT.canon x64 t) n

/-- multinomial.py:169-171 `cond_func`: the counter is a weakly typed integer, so it is compared in the dtype of
`total_count`. -/
def multinomialCond (t : DT) (total : Option ℤ) {K : ℕ} (s : ℕ × (Fin K → Option ℤ)) : Bool :=
  less (cast t s.1) total

/-- multinomial.py:173-178 `body_func`; `draw i` is the category drawn in iteration `i`. -/
def multinomialBody (t : DT) {K : ℕ} (draw : ℕ → Fin K) (s : ℕ × (Fin K → Option ℤ)) : ℕ × (Fin K → Option ℤ) :=
  (s.1 + 1, fun k => add t (s.2 k) (cast t (if draw s.1 = k then 1 else 0)))

/-- multinomial.py:163-181 `_sample_n_scalar` with the requested dtype `t` returns `counts`. -/
def MultinomialSample (x64 : Bool) (t : DT) {K : ℕ} (total : ℕ) (draw : ℕ → Fin K) (counts : Fin K → Option ℤ) :
    Prop :=
  let t' := DT.canon x64 t
  ∃ i, WhileEnds (multinomialCond t' (totalCount x64 t total)) (multinomialBody t' draw)
    (0, fun _ => cast t' 0) (i, counts)

/-- mixture_same_family.py:104-114 `_sample_n` on integer component samples: every component's sample is converted
to the default float dtype and multiplied by the one-hot mask (`x * 1 = x`, `x * 0 = 0` for finite `x`), and the
products are summed over components in that dtype. -/
def mixtureSample (x64 : Bool) {K : ℕ} (samples : Fin K → ℤ) (pick : Fin K) : Option ℤ :=
  let t := DT.canon x64 .f64
  (List.finRange K).foldl (fun acc k => add t acc (if pick = k then cast t (samples k) else some 0)) (some 0)

/-- deterministic.py:110-117 `log_prob` is `log(where(..., 1., 0.))`: a weak float for every `loc`. -/
def deterministicLogProb (x64 : Bool) (_loc : AV) : AV := promote x64 (pyFloat x64) (pyFloat x64)

/-- deterministic.py:104-108 `_sample_n_and_log_prob`: `log_prob = jnp.zeros_like(samples)`. -/
def deterministicSampleAndLogProb (_x64 : Bool) (loc : AV) : AV × AV := (loc, loc)

end Distrax.DTypes
