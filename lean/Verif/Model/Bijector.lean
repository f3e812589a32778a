import Verif.Model.Arr
import Mathlib.Analysis.SpecialFunctions.Log.Basic
import Mathlib.Analysis.SpecialFunctions.Artanh
import Mathlib.Analysis.Complex.Trigonometric

/-!
# Bijector objects: base class, elementwise bijectors, Chain, Inverse, Block
-/

namespace Distrax

open Real

/-- A python object holding an array: `addr` is its identity (what `is` compares). [no line of its own; part of the model of bijector.py:32-189] -/
structure Ref where
  addr : ℕ
  val : Arr

/-! ### Scalar functions -/

/-- `jax.nn.softplus(x) = log(1 + exp x)` (jax documentation). [external; called e.g. at sigmoid.py:84] -/
noncomputable def softplus (x : ℝ) : ℝ := Real.log (1 + Real.exp x)

/-- `jax.nn.sigmoid(x) = 1 / (1 + exp(-x))`. [external; called e.g. at sigmoid.py:79] -/
noncomputable def jaxSigmoid (x : ℝ) : ℝ := 1 / (1 + Real.exp (-x))

/-- bijectors/sigmoid.py:77-79 `_more_stable_sigmoid`. -/
noncomputable def moreStableSigmoid (x : ℝ) : ℝ :=
  if x < -9 then Real.exp x else jaxSigmoid x

/-- bijectors/sigmoid.py:82-84 `_more_stable_softplus` (`log1p(z) = log(1+z)`). -/
noncomputable def moreStableSoftplus (x : ℝ) : ℝ :=
  if x < -9 then Real.log (1 + Real.exp x) else softplus x

/-- bijectors/sigmoid.py:58-61. -/
noncomputable def sigmoidFldj (x : ℝ) : ℝ := -moreStableSoftplus (-x) - moreStableSoftplus x

/-- bijectors/sigmoid.py:69. -/
noncomputable def sigmoidInv (y : ℝ) : ℝ := Real.log y - Real.log (1 + -y)

/-- bijectors/tanh.py:53-55. -/
noncomputable def tanhFldj (x : ℝ) : ℝ := 2 * (Real.log 2 - x - softplus (-2 * x))

/-- bijectors/gumbel_cdf.py:37-42 (value). -/
noncomputable def gumbelCdfFwd (x : ℝ) : ℝ := Real.exp (-Real.exp (-x))

/-- bijectors/gumbel_cdf.py:41 (log-det). -/
noncomputable def gumbelCdfFldj (x : ℝ) : ℝ := -x - Real.exp (-x)

/-- bijectors/gumbel_cdf.py:46-47. -/
noncomputable def gumbelCdfInv (y : ℝ) : ℝ := -Real.log (-Real.log y)

/-- bijectors/gumbel_cdf.py:46-48 (inverse log-det `x - log_y`). -/
noncomputable def gumbelCdfIldj (y : ℝ) : ℝ := gumbelCdfInv y - Real.log y

/-! ### Base class constructor -/

/-- The attributes set by `Bijector.__init__`. [bijector.py:72-114] -/
structure Meta where
  ndimsIn : ℤ
  ndimsOut : ℤ
  constJac : Bool
  constLogDet : Bool
  deriving DecidableEq, Repr

/-- bijectors/bijector.py:72-114 `Bijector.__init__`. -/
def Meta.init (ndimsIn : ℤ) (ndimsOut : Option ℤ) (constJac : Bool)
    (constLogDet : Option Bool) : Except Err Meta :=
  let out := match ndimsOut with
    | none => ndimsIn
    | some o => o
  if ndimsIn < 0 then .error .valueError
  else if out < 0 then .error .valueError
  else
    let cld := match constLogDet with
      | none => constJac
      | some c => c
    if constJac && !cld then .error .valueError
    else .ok ⟨ndimsIn, out, constJac, cld⟩

/-- A user-supplied elementwise scalar bijector with event rank 0: a `Lambda`
(bijectors/lambda_bijector.py:59-136) with four scalar functions applied elementwise, or a user subclass
of `Bijector`.  Simplification: functions act entry by entry. -/
structure UserScalar where
  fwd : ℝ → ℝ
  inv : ℝ → ℝ
  fldj : ℝ → ℝ
  ildj : ℝ → ℝ
  constJac : Bool
  constLogDet : Bool

/-- Bijector objects. [bijector.py:32-189 and its subclasses (cited at the methods)] -/
inductive Bij where
  /-- bijectors/scalar_affine.py:62-80: attributes `_shift`, `_scale`, `_inv_scale`, `_log_scale`. -/
  | scalarAffine (shift scale invScale logScale : Ref)
  /-- bijectors/shift.py:46-48. -/
  | shift (s : Ref)
  | tanh
  | sigmoid
  | gumbelCDF
  | user (u : UserScalar)
  /-- bijectors/chain.py. -/
  | chain (bs : List Bij)
  /-- bijectors/inverse.py. -/
  | inverse (b : Bij)
  /-- bijectors/block.py. -/
  | block (b : Bij) (ndims : ℕ)

namespace Bij

mutual
/-- `is_constant_jacobian`: scalar_affine.py:62, shift.py:46, tanh.py:51, sigmoid.py:56,
gumbel_cdf.py:35, lambda_bijector.py:91-94, chain.py:70, inverse.py:48, block.py:67. -/
def constJac : Bij → Bool
  | scalarAffine .. => true
  | shift _ => true
  | tanh => false
  | sigmoid => false
  | gumbelCDF => false
  | user u => u.constJac
  | chain bs => constJacAll bs
  | inverse b => b.constJac
  | block b _ => b.constJac
/-- `all(b.is_constant_jacobian for b in bijectors)`, chain.py:70. -/
def constJacAll : List Bij → Bool
  | [] => true
  | b :: bs => b.constJac && constJacAll bs
end

mutual
/-- `is_constant_log_det`: bijector.py:106-107 (default), chain.py:71, inverse.py:49, block.py:68. -/
def constLogDet : Bij → Bool
  | scalarAffine .. => true
  | shift _ => true
  | tanh => false
  | sigmoid => false
  | gumbelCDF => false
  | user u => u.constLogDet
  | chain bs => constLogDetAll bs
  | inverse b => b.constLogDet
  | block b _ => b.constLogDet
/-- `all(b.is_constant_log_det for b in bijectors)`, chain.py:71. -/
def constLogDetAll : List Bij → Bool
  | [] => true
  | b :: bs => b.constLogDet && constLogDetAll bs
end

/- `event_ndims_in` / `event_ndims_out`: chain.py:73-74, inverse.py:46-47, block.py:65-66. -/
mutual
/-- `event_ndims_in`: chain.py:73 (last bijector), inverse.py:46, block.py:65. -/
def ndimsIn : Bij → ℕ
  | chain bs => ndimsInLast bs
  | inverse b => b.ndimsOut
  | block b n => n + b.ndimsIn
  | _ => 0
/-- `event_ndims_out`: chain.py:74 (first bijector), inverse.py:47, block.py:66. -/
def ndimsOut : Bij → ℕ
  | chain bs => ndimsOutHead bs
  | inverse b => b.ndimsIn
  | block b n => n + b.ndimsOut
  | _ => 0
/-- `self._bijectors[-1].event_ndims_in`, chain.py:73. -/
def ndimsInLast : List Bij → ℕ
  | [] => 0
  | [b] => b.ndimsIn
  | _ :: b :: bs => ndimsInLast (b :: bs)
/-- `self._bijectors[0].event_ndims_out`, chain.py:74. -/
def ndimsOutHead : List Bij → ℕ
  | [] => 0
  | b :: _ => b.ndimsOut
end

/-- bijector.py:175-181 `_check_forward_input_shape`. -/
def checkFwd (nd : ℕ) (x : Arr) : Except Err Unit :=
  if x.shape.length < nd then .error .valueError else .ok ()

/-- scalar_affine.py:98-103 `forward`. -/
def saForward (shift scale : Ref) (x : Arr) : Except Err Arr := do
  let bs ← match broadcastShapes shift.val.shape scale.val.shape with
    | none => .error .valueError
    | some t => .ok t
  let batch ← match broadcastShapes bs x.shape with
    | none => .error .valueError
    | some t => .ok t
  let bscale ← scale.val.broadcastTo batch
  let bshift ← shift.val.broadcastTo batch
  let p ← Arr.bin (· * ·) bscale x
  Arr.bin (· + ·) p bshift

/-- scalar_affine.py:105-108 `forward_log_det_jacobian`. -/
def saFldj (shift scale logScale : Ref) (x : Arr) : Except Err Arr := do
  let bs ← match broadcastShapes shift.val.shape scale.val.shape with
    | none => .error .valueError
    | some t => .ok t
  let batch ← match broadcastShapes bs x.shape with
    | none => .error .valueError
    | some t => .ok t
  logScale.val.broadcastTo batch

/-- scalar_affine.py:114-119 `inverse`. -/
def saInverse (shift scale invScale : Ref) (y : Arr) : Except Err Arr := do
  let bs ← match broadcastShapes shift.val.shape scale.val.shape with
    | none => .error .valueError
    | some t => .ok t
  let batch ← match broadcastShapes bs y.shape with
    | none => .error .valueError
    | some t => .ok t
  let bis ← invScale.val.broadcastTo batch
  let bshift ← shift.val.broadcastTo batch
  let d ← Arr.bin (· - ·) y bshift
  Arr.bin (· * ·) bis d

/-- scalar_affine.py:121-124 `inverse_log_det_jacobian`. -/
def saIldj (shift scale logScale : Ref) (y : Arr) : Except Err Arr := do
  let bs ← match broadcastShapes shift.val.shape scale.val.shape with
    | none => .error .valueError
    | some t => .ok t
  let batch ← match broadcastShapes bs y.shape with
    | none => .error .valueError
    | some t => .ok t
  (logScale.val.map (fun r => -r)).broadcastTo batch

/-- shift.py:59-62 `forward_log_det_jacobian` (zeros of the broadcast shape). -/
def shiftFldj (s : Ref) (x : Arr) : Except Err Arr :=
  match broadcastShapes s.val.shape x.shape with
  | none => .error .valueError
  | some t => .ok (Arr.zeros t)

mutual
/-- `forward_and_log_det`: scalar_affine.py:110-112, shift.py:64-66, tanh.py:57-59, sigmoid.py:63-65,
gumbel_cdf.py:37-42, lambda_bijector.py:130-132, chain.py:95-101, inverse.py:72-74, block.py:102-106. -/
noncomputable def fwdAndLd : Bij → Arr → Except Err (Arr × Arr)
  | scalarAffine sh sc _ ls, x => do
      let y ← saForward sh sc x
      let l ← saFldj sh sc ls x
      pure (y, l)
  | shift s, x => do
      let y ← Arr.bin (· + ·) x s.val
      let l ← shiftFldj s x
      pure (y, l)
  | tanh, x => .ok (x.map Real.tanh, x.map tanhFldj)
  | sigmoid, x => .ok (x.map moreStableSigmoid, x.map sigmoidFldj)
  | gumbelCDF, x => .ok (x.map gumbelCdfFwd, x.map gumbelCdfFldj)
  | user u, x => .ok (x.map u.fwd, x.map u.fldj)
  | chain bs, x => chainFwdAndLd bs x
  | inverse b, x => b.invAndLd x
  | block b n, x => do
      checkFwd (n + b.ndimsIn) x
      let (y, l) ← b.fwdAndLd x
      let l' ← l.sumLast n
      pure (y, l')
/-- chain.py:95-101: start with the last bijector, then the others from right to left. -/
noncomputable def chainFwdAndLd : List Bij → Arr → Except Err (Arr × Arr)
  | [], _ => .error .indexError
  | [b], x => b.fwdAndLd x
  | b :: c :: bs, x => do
      let (y, l) ← chainFwdAndLd (c :: bs) x
      let (z, ld) ← b.fwdAndLd y
      let l' ← Arr.bin (· + ·) l ld
      pure (z, l')
/-- `inverse_and_log_det`: scalar_affine.py:126-128, shift.py:76-78, tanh.py:61-64, sigmoid.py:67-70,
gumbel_cdf.py:44-48, lambda_bijector.py:134-136, chain.py:103-109, inverse.py:76-78, block.py:108-112. -/
noncomputable def invAndLd : Bij → Arr → Except Err (Arr × Arr)
  | scalarAffine sh sc is ls, y => do
      let x ← saInverse sh sc is y
      let l ← saIldj sh sc ls y
      pure (x, l)
  | shift s, y => do
      let x ← Arr.bin (· - ·) y s.val
      let l ← shiftFldj s y
      pure (x, l)
  | tanh, y => .ok (y.map Real.artanh, (y.map Real.artanh).map (fun x => -tanhFldj x))
  | sigmoid, y => .ok (y.map sigmoidInv, (y.map sigmoidInv).map (fun x => -sigmoidFldj x))
  | gumbelCDF, y => .ok (y.map gumbelCdfInv, y.map gumbelCdfIldj)
  | user u, y => .ok (y.map u.inv, y.map u.ildj)
  | chain [], _ => .error .indexError
  | chain (b :: bs), y => do
      let (x, l) ← b.invAndLd y
      chainInvLoop bs x l
  | inverse b, y => b.fwdAndLd y
  | block b n, y => do
      checkFwd (n + b.ndimsOut) y
      let (x, l) ← b.invAndLd y
      let l' ← l.sumLast n
      pure (x, l')
/-- The loop of chain.py:106-109. -/
noncomputable def chainInvLoop : List Bij → Arr → Arr → Except Err (Arr × Arr)
  | [], y, l => .ok (y, l)
  | b :: bs, y, l => do
      let (x, ld) ← b.invAndLd y
      let l' ← Arr.bin (· + ·) l ld
      chainInvLoop bs x l'
end

mutual
/-- `forward`: scalar_affine.py:98-103, shift.py:55-57, bijector.py:116-119 (default: first component of
`forward_and_log_det`; Tanh, Sigmoid, GumbelCDF), lambda_bijector.py:100-105, chain.py:83-87,
inverse.py:56-58, block.py:80-83. -/
noncomputable def forward : Bij → Arr → Except Err Arr
  | scalarAffine sh sc _ _, x => saForward sh sc x
  | shift s, x => Arr.bin (· + ·) x s.val
  | tanh, x => do let (y, _) ← tanh.fwdAndLd x; pure y
  | sigmoid, x => do let (y, _) ← sigmoid.fwdAndLd x; pure y
  | gumbelCDF, x => do let (y, _) ← gumbelCDF.fwdAndLd x; pure y
  | user u, x => .ok (x.map u.fwd)
  | chain bs, x => chainForward bs x
  | inverse b, x => b.inv x
  | block b n, x => do
      checkFwd (n + b.ndimsIn) x
      b.forward x
/-- chain.py:85-87 (`for bijector in reversed(...)`). -/
noncomputable def chainForward : List Bij → Arr → Except Err Arr
  | [], x => .ok x
  | b :: bs, x => do
      let y ← chainForward bs x
      b.forward y
/-- `inverse`: scalar_affine.py:114-119, shift.py:68-70, bijector.py:121-124 (default),
lambda_bijector.py:107-112, chain.py:89-93, inverse.py:60-62, block.py:85-88. -/
noncomputable def inv : Bij → Arr → Except Err Arr
  | scalarAffine sh sc is _, y => saInverse sh sc is y
  | shift s, y => Arr.bin (· - ·) y s.val
  | tanh, y => do let (x, _) ← tanh.invAndLd y; pure x
  | sigmoid, y => do let (x, _) ← sigmoid.invAndLd y; pure x
  | gumbelCDF, y => do let (x, _) ← gumbelCDF.invAndLd y; pure x
  | user u, y => .ok (y.map u.inv)
  | chain bs, y => chainInv bs y
  | inverse b, y => b.forward y
  | block b n, y => do
      checkFwd (n + b.ndimsOut) y
      b.inv y
/-- chain.py:91-93. -/
noncomputable def chainInv : List Bij → Arr → Except Err Arr
  | [], y => .ok y
  | b :: bs, y => do
      let x ← b.inv y
      chainInv bs x
end

mutual
/-- `forward_log_det_jacobian`: scalar_affine.py:105-108, shift.py:59-62, tanh.py:53-55,
sigmoid.py:58-61, bijector.py:126-129 (default: GumbelCDF, Chain), lambda_bijector.py:114-120,
inverse.py:64-66, block.py:90-94. -/
noncomputable def fldj : Bij → Arr → Except Err Arr
  | scalarAffine sh sc _ ls, x => saFldj sh sc ls x
  | shift s, x => shiftFldj s x
  | tanh, x => .ok (x.map tanhFldj)
  | sigmoid, x => .ok (x.map sigmoidFldj)
  | gumbelCDF, x => do let (_, l) ← gumbelCDF.fwdAndLd x; pure l
  | user u, x => .ok (x.map u.fldj)
  | chain bs, x => do let (_, l) ← (chain bs).fwdAndLd x; pure l
  | inverse b, x => b.ildj x
  | block b n, x => do
      checkFwd (n + b.ndimsIn) x
      let l ← b.fldj x
      l.sumLast n
/-- `inverse_log_det_jacobian`: scalar_affine.py:121-124, shift.py:72-74, bijector.py:131-134 (default:
Tanh, Sigmoid, GumbelCDF, Chain), lambda_bijector.py:122-128, inverse.py:68-70, block.py:96-100. -/
noncomputable def ildj : Bij → Arr → Except Err Arr
  | scalarAffine sh sc _ ls, y => saIldj sh sc ls y
  | shift s, y => shiftFldj s y
  | tanh, y => do let (_, l) ← tanh.invAndLd y; pure l
  | sigmoid, y => do let (_, l) ← sigmoid.invAndLd y; pure l
  | gumbelCDF, y => do let (_, l) ← gumbelCDF.invAndLd y; pure l
  | user u, y => .ok (y.map u.ildj)
  | chain bs, y => do let (_, l) ← (chain bs).invAndLd y; pure l
  | inverse b, y => b.fldj y
  | block b n, y => do
      checkFwd (n + b.ndimsOut) y
      let l ← b.ildj y
      l.sumLast n
end

mutual
/-- `same_as`: bijector.py:170-173 (default False), scalar_affine.py:130-139, shift.py:80-84,
tanh.py:66-68, sigmoid.py:72-74, gumbel_cdf.py:50-52, lambda_bijector.py:138-150 (compares freshly bound
methods, hence always False), chain.py:111-123, inverse.py:85-89, block.py:119-124. -/
def sameAs : Bij → Bij → Bool
  | scalarAffine a b _ d, o => match o with
      | scalarAffine a' b' _ d' => a.addr == a'.addr && b.addr == b'.addr && d.addr == d'.addr
      | _ => false
  | shift s, o => match o with
      | shift s' => s.addr == s'.addr
      | _ => false
  | tanh, o => match o with
      | tanh => true
      | _ => false
  | sigmoid, o => match o with
      | sigmoid => true
      | _ => false
  | gumbelCDF, o => match o with
      | gumbelCDF => true
      | _ => false
  | user _, _ => false
  | chain bs, o => match o with
      | chain cs => if bs.length ≠ cs.length then false else sameAsAll bs cs
      | o => match bs with
        | [b] => b.sameAs o
        | _ => false
  | inverse b, o => match o with
      | inverse b' => b.sameAs b'
      | _ => false
  | block b n, o => match o with
      | block b' n' => b.sameAs b' && n == n'
      | _ => false
/-- The loop over `zip(self.bijectors, other.bijectors)`, chain.py:116-119. -/
def sameAsAll : List Bij → List Bij → Bool
  | b :: bs, c :: cs => if !b.sameAs c then false else sameAsAll bs cs
  | _, _ => true
end

/-! ### Constructors with their checks -/

/-- scalar_affine.py:41-80 `ScalarAffine.__init__`.  `a1 a2` are the identities of the objects the
constructor allocates; `oneId`/`zeroId` are the identities of the float constants `1.` and `0.`. -/
noncomputable def mkScalarAffine (oneId zeroId a1 a2 : ℕ) (shift : Ref) (scale logScale : Option Ref) :
    Except Err Bij :=
  match scale, logScale with
  | none, none =>
    .ok (scalarAffine shift ⟨oneId, Arr.scalar 1⟩ ⟨oneId, Arr.scalar 1⟩ ⟨zeroId, Arr.scalar 0⟩)
  | some s, none =>
    match broadcastShapes shift.val.shape s.val.shape with
    | none => .error .valueError
    | some _ =>
      .ok (scalarAffine shift s ⟨a1, s.val.map (fun r => 1 / r)⟩
        ⟨a2, s.val.map (fun r => Real.log |r|)⟩)
  | none, some ls =>
    match broadcastShapes shift.val.shape ls.val.shape with
    | none => .error .valueError
    | some _ =>
      .ok (scalarAffine shift ⟨a1, ls.val.map Real.exp⟩ ⟨a2, ls.val.map (fun r => Real.exp (-r))⟩ ls)
  | some _, some _ => .error .valueError

/-- chain.py:61-68: neighbouring bijectors must have matching ranks. -/
def adjacentOk : List Bij → Bool
  | b :: c :: bs => b.ndimsIn == c.ndimsOut && adjacentOk (c :: bs)
  | _ => true

/-- chain.py:48-76 `Chain.__init__` (after `as_bijector`). -/
def mkChain (bs : List Bij) : Except Err Bij :=
  if bs.isEmpty then .error .valueError
  else if adjacentOk bs then .ok (chain bs) else .error .valueError

/-- block.py:51-68 `Block.__init__`. -/
def mkBlock (b : Bij) (ndims : ℤ) : Except Err Bij :=
  if ndims < 0 then .error .valueError else .ok (block b ndims.toNat)

end Bij
end Distrax
