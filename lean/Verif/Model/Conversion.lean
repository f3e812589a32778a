import Verif.Model.Wrapper
import Verif.Model.Lambda
import Verif.Model.Categorical
import Mathlib.Analysis.SpecialFunctions.Log.Basic
import Mathlib.Analysis.SpecialFunctions.Pow.Real

/-!
# Conversions: utils/conversion.py, distribution_from_tfp.py, tfp_compatible_distribution.py, and the derived methods of the
base class distribution.py

A distribution object is what its class provides: the abstract methods, and the methods it overrides (`some`) or inherits
from the base class (`none`).  Simplification: an overriding method reads only the stored parameters of the object, so it
is the same function when a wrapper class inherits it and forwards attribute access to the wrapped object.  Events are
single arrays; dtypes and KL divergences are not modelled here.
-/

namespace Distrax

/-! ### Base class -/

/-- A Distrax distribution object with array events. [distribution.py:49-309] -/
structure DistC (K : Type) where
  batch : List ℕ
  event : List ℕ
  /-- python truth value of the attribute `event_shape` -/
  eventTruthy : Bool
  name : String
  sampleN : K → ℕ → Except Err Arr
  logProb : Arr → Except Err Arr
  sample? : Option (Seed K → SampleShape → Except Err Arr) := none
  sampleNLP? : Option (K → ℕ → Except Err (Arr × Arr)) := none
  prob? : Option (Arr → Except Err Arr) := none
  logCdf? : Option (Arr → Except Err Arr) := none
  cdf? : Option (Arr → Except Err Arr) := none
  survival? : Option (Arr → Except Err Arr) := none
  logSurvival? : Option (Arr → Except Err Arr) := none
  entropy? : Option (Except Err Arr) := none
  mean? : Option (Except Err Arr) := none
  median? : Option (Except Err Arr) := none
  variance? : Option (Except Err Arr) := none
  stddev? : Option (Except Err Arr) := none
  mode? : Option (Except Err Arr) := none

/-- Truth value of a python tuple. [no line of its own; part of the model of conversion.py:1-149] -/
def tupleTruthy (s : List ℕ) : Bool := !s.isEmpty

namespace DistC

variable {K : Type}

/-- distribution.py:158-162: the reshape of the base class's `sample`. -/
def splitSamples (ss : List ℕ) (a : Arr) : Except Err Arr := a.reshape (ss ++ a.shape.drop 1)

/-- distribution.py:144-162 `sample`, or the overriding one. -/
def sample (d : DistC K) (prngKey : ℤ → K) (seed : Seed K) (ss : SampleShape) : Except Err Arr :=
  match d.sample? with
  | some f => f seed ss
  | none => do
    let a ← d.sampleN (convertSeedAndSampleShape prngKey seed ss).1
      ((convertSeedAndSampleShape prngKey seed ss).2.foldl (· * ·) 1)
    splitSamples (convertSeedAndSampleShape prngKey seed ss).2 a

/-- distribution.py:57-79 `_sample_n_and_log_prob`, or the overriding one. -/
def sampleNLP (d : DistC K) (k : K) (n : ℕ) : Except Err (Arr × Arr) :=
  match d.sampleNLP? with
  | some f => f k n
  | none => do
    let samples ← d.sampleN k n
    let lp ← d.logProb samples
    pure (samples, lp)

/-- distribution.py:164-177 `sample_and_log_prob`. -/
def sampleAndLogProb (d : DistC K) (prngKey : ℤ → K) (seed : Seed K) (ss : SampleShape) : Except Err (Arr × Arr) := do
  let p ← d.sampleNLP (convertSeedAndSampleShape prngKey seed ss).1
    ((convertSeedAndSampleShape prngKey seed ss).2.foldl (· * ·) 1)
  let a ← splitSamples (convertSeedAndSampleShape prngKey seed ss).2 p.1
  let l ← splitSamples (convertSeedAndSampleShape prngKey seed ss).2 p.2
  pure (a, l)

/-- distribution.py:92-101 `prob`. -/
noncomputable def prob (d : DistC K) (v : Arr) : Except Err Arr :=
  match d.prob? with
  | some f => f v
  | none => do let l ← d.logProb v; pure (l.map Real.exp)

/-- distribution.py:196-206 `log_cdf`. -/
def logCdf (d : DistC K) (v : Arr) : Except Err Arr :=
  match d.logCdf? with
  | some f => f v
  | none => .error .notImplemented

/-- distribution.py:208-217 `cdf`. -/
noncomputable def cdf (d : DistC K) (v : Arr) : Except Err Arr :=
  match d.cdf? with
  | some f => f v
  | none => do let l ← d.logCdf v; pure (l.map Real.exp)

/-- distribution.py:219-238 `survival_function`. -/
noncomputable def survival (d : DistC K) (v : Arr) : Except Err Arr :=
  match d.survival? with
  | some f => f v
  | none =>
    if d.eventTruthy then .error .notImplemented
    else do let c ← d.cdf v; pure (c.map fun t => 1 - t)

/-- distribution.py:240-260 `log_survival_function`; `jnp.log1p(-c)`. -/
noncomputable def logSurvival (d : DistC K) (v : Arr) : Except Err Arr :=
  match d.logSurvival? with
  | some f => f v
  | none =>
    if d.eventTruthy then .error .notImplemented
    else do let c ← d.cdf v; pure (c.map fun t => Real.log (1 + -t))

/-- A statistic that the base class does not implement (distribution.py:191-194, 263-276, 282-285). -/
def stat (o : Option (Except Err Arr)) : Except Err Arr :=
  match o with
  | some r => r
  | none => .error .notImplemented

/-- distribution.py:191-194 `entropy`. -/
def entropy (d : DistC K) : Except Err Arr := stat d.entropy?
/-- distribution.py:262-265 `mean`. -/
def mean (d : DistC K) : Except Err Arr := stat d.mean?
/-- distribution.py:267-270 `median`. -/
def median (d : DistC K) : Except Err Arr := stat d.median?
/-- distribution.py:272-275 `variance`. -/
def variance (d : DistC K) : Except Err Arr := stat d.variance?
/-- distribution.py:281-284 `mode`. -/
def mode (d : DistC K) : Except Err Arr := stat d.mode?

/-- distribution.py:277-279 `stddev`. -/
noncomputable def stddev (d : DistC K) : Except Err Arr :=
  match d.stddev? with
  | some r => r
  | none => do let v ← d.variance; pure (v.map Real.sqrt)

end DistC

/-! ### TFP distributions -/

/-- The methods of a TFP distribution that Distrax uses. [distribution_from_tfp.py:32-142] -/
structure TfpD (K : Type) where
  batch : List ℕ
  event : List ℕ
  name : String
  /-- `sample(sample_shape, seed=k)` -/
  sample : K → List ℕ → Except Err Arr
  logProb : Arr → Except Err Arr
  prob : Arr → Except Err Arr
  logCdf : Arr → Except Err Arr
  cdf : Arr → Except Err Arr
  entropy : Except Err Arr
  mean : Except Err Arr
  median : Except Err Arr
  variance : Except Err Arr
  stddev : Except Err Arr
  mode : Except Err Arr

variable {K : Type}

/-- distribution_from_tfp.py:32-142 `distribution_from_tfp`: the class inherits from `Distribution` first, so `sample`,
`sample_and_log_prob` and the survival functions are those of the base class. -/
def TfpD.toDist (t : TfpD K) : DistC K :=
  { batch := t.batch, event := t.event, eventTruthy := tupleTruthy t.event, name := t.name
    sampleN := fun k n => t.sample k [n]
    logProb := t.logProb
    prob? := some t.prob
    logCdf? := some t.logCdf
    cdf? := some t.cdf
    entropy? := some t.entropy
    mean? := some t.mean
    median? := some t.median
    variance? := some t.variance
    stddev? := some t.stddev
    mode? := some t.mode }

/-! ### tfp_compatible_distribution.py -/

/-- tfp_compatible_distribution.py:37-171; `truthy` is the truth value of a TFP `TensorShape` (in TensorFlow's class it is
true for every shape of known rank, also for the empty one); `nm` is the argument `name`. -/
def DistC.compat (truthy : List ℕ → Bool) (prngKey : ℤ → K) (nm : Option String) (d : DistC K) : DistC K :=
  { d with
    eventTruthy := truthy d.event
    name := match nm with
      | some s => if s = "" then "TFPCompatible" ++ d.name else s
      | none => "TFPCompatible" ++ d.name
    sampleN := fun k n => d.sample prngKey (.key k) (.seq [n])
    sample? := some (d.sample prngKey) }

/-! ### Objects and conversions -/

/-- Python objects that are bijectors of either library. [conversion.py:74-101] -/
inductive BijObj where
  /-- a Distrax bijector of a class of the library (or a user's) -/
  | distrax (b : BijM)
  /-- a `tfb.Bijector` -/
  | tfp (t : TfpM)
  /-- `BijectorFromTFP(t)` -/
  | fromTfp (t : TfpM)
  /-- `tfp_compatible_bijector(o)` -/
  | compat (o : BijObj)

/-- `isinstance(o, distrax.Bijector)`: the compatible class inherits from the class it wraps
(tfp_compatible_bijector.py:65). -/
def BijObj.isDistrax : BijObj → Bool
  | .distrax _ => true
  | .tfp _ => false
  | .fromTfp _ => true
  | .compat o => o.isDistrax

/-- `isinstance(o, tfb.Bijector)`. [conversion.py:74-101] -/
def BijObj.isTfp : BijObj → Bool
  | .distrax _ => false
  | .tfp _ => true
  | .fromTfp _ => false
  | .compat o => o.isTfp

/-- The methods of an object as a Distrax bijector, if it is one. [no line of its own; part of the model of conversion.py:1-149] -/
def BijObj.bijM : BijObj → Option BijM
  | .distrax b => some b
  | .tfp _ => none
  | .fromTfp t => some t.fromTfp
  | .compat o => o.bijM.map BijM.compat

/-- The methods of an object as a TFP bijector, if it can be used as one. [no line of its own; part of the model of conversion.py:1-149] -/
def BijObj.tfpM : BijObj → Option TfpM
  | .distrax _ => none
  | .tfp t => some t
  | .fromTfp _ => none
  | .compat o => o.bijM.map BijM.compatTfp

/-- Python objects that are distributions of either library. [conversion.py:104-124] -/
inductive DistObj (K : Type) where
  | distrax (d : DistC K)
  | tfp (t : TfpD K)
  /-- `distribution_from_tfp(t)`: its class inherits from both libraries' classes (distribution_from_tfp.py:49-50) -/
  | fromTfp (t : TfpD K)
  /-- `tfp_compatible_distribution(o, name)` -/
  | compat (o : DistObj K) (nm : Option String)

/-- `isinstance(o, distrax.Distribution)`. [conversion.py:104-124] -/
def DistObj.isDistrax : DistObj K → Bool
  | .distrax _ => true
  | .tfp _ => false
  | .fromTfp _ => true
  | .compat o _ => o.isDistrax

/-- `isinstance(o, tfd.Distribution)`. [conversion.py:104-124] -/
def DistObj.isTfp : DistObj K → Bool
  | .distrax _ => false
  | .tfp _ => true
  | .fromTfp _ => true
  | .compat o _ => o.isTfp

/-- The methods of an object as a Distrax distribution, if it is one. [no line of its own; part of the model of conversion.py:1-149] -/
def DistObj.dist (truthy : List ℕ → Bool) (prngKey : ℤ → K) : DistObj K → Option (DistC K)
  | .distrax d => some d
  | .tfp _ => none
  | .fromTfp t => some t.toDist
  | .compat o nm => (o.dist truthy prngKey).map (DistC.compat truthy prngKey nm)

/-- Arguments of the conversion functions.  `F` is the type of python callables on arrays.
[no line of its own; part of the model of conversion.py:1-149] -/
inductive PyObj (F K : Type) where
  | bij (b : BijObj)
  | dist (d : DistObj K)
  /-- the function object `jax.nn.sigmoid` -/
  | jaxSigmoid
  /-- the function object `jnp.tanh` -/
  | jnpTanh
  /-- any other callable -/
  | fn (f : F)
  | other

/-- A `Lambda` object as a Distrax bijector: the answers of a fresh object (they never depend on earlier calls:
`C53_history_independent`). [no line of its own; part of the model of conversion.py:1-149] -/
def LambdaSt.methods {F : Type} (T : Tracer F) (s : LambdaSt F) : BijM :=
  { forward := fun x => (s.forward T x).1
    inverse := fun y => (s.inverse T y).1
    fldj := fun x => (s.fwdLogDet T x).1
    ildj := fun y => (s.invLogDet T y).1
    fwdAndLd := fun x => (s.fwdAndLogDet T x).1
    invAndLd := fun y => (s.invAndLogDet T y).1
    ndimsIn := s.info.ndimsIn.toNat
    ndimsOut := s.info.ndimsOut.toNat
    constJac := s.info.constJac
    constLogDet := s.info.constLogDet }

/-- conversion.py:43-71 `to_tfp` (bijectors' names are not modelled). -/
def toTfp {F : Type} (o : PyObj F K) (nm : Option String) : Except Err (PyObj F K) :=
  match o with
  | .bij b => if b.isTfp then .ok o else if b.isDistrax then .ok (.bij (.compat b)) else .error .typeError
  | .dist d => if d.isTfp then .ok o else if d.isDistrax then .ok (.dist (.compat d nm)) else .error .typeError
  | _ => .error .typeError

/-- conversion.py:74-101 `as_bijector`. -/
noncomputable def asBijector {F : Type} (T : Tracer F) (o : PyObj F K) : Except Err (PyObj F K) :=
  match o with
  | .bij b =>
    if b.isDistrax then .ok o
    else match b with
      | .tfp t => .ok (.bij (.fromTfp t))
      | _ => .error .typeError
  | .jaxSigmoid => .ok (.bij (.distrax Bij.sigmoid.methods))
  | .jnpTanh => .ok (.bij (.distrax Bij.tanh.methods))
  | .fn f => do
    let s ← mkLambda T { forward := some f }
    pure (.bij (.distrax (s.methods T)))
  | _ => .error .typeError

/-- conversion.py:104-124 `as_distribution`. -/
def asDistribution {F : Type} (o : PyObj F K) : Except Err (PyObj F K) :=
  match o with
  | .dist d =>
    if d.isDistrax then .ok o
    else match d with
      | .tfp t => .ok (.dist (.fromTfp t))
      | _ => .error .typeError
  | _ => .error .typeError

/-! ### as_float_array -/

/-- A numeric python value: is it an array object, its dtype (for a non-array, the dtype `jnp.asarray` gives it), its
identity (0 for a fresh object) and its entries. [conversion.py:127-148] -/
structure PyNum where
  isArray : Bool
  dtype : DType
  ident : ℕ
  val : Arr

/-- conversion.py:127-148 `as_float_array`.  Integers are idealised as exactly representable. -/
def asFloatArray (x : PyNum) : Except Err PyNum :=
  let x := if x.isArray then x else { x with isArray := true, ident := 0 }
  match x.dtype with
  | .floating => .ok x
  | .integer => .ok { x with dtype := .floating, ident := 0 }
  | .other => .error .valueError

end Distrax
