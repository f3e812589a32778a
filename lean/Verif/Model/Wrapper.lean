import Verif.Model.Bijector
import Verif.Model.Shape

/-!
# TFP wrappers of bijectors: tfp_compatible_bijector.py, bijector_from_tfp.py

Objects are represented by their methods.  A python int argument `event_ndims` is `Option ℤ` (`None` allowed).
-/

namespace Distrax

/-- The methods and properties of a Distrax bijector object (bijector.py). -/
structure BijM where
  forward : Arr → Except Err Arr
  inverse : Arr → Except Err Arr
  fldj : Arr → Except Err Arr
  ildj : Arr → Except Err Arr
  fwdAndLd : Arr → Except Err (Arr × Arr)
  invAndLd : Arr → Except Err (Arr × Arr)
  ndimsIn : ℕ
  ndimsOut : ℕ
  constJac : Bool
  constLogDet : Bool

/-- The methods and properties of a TFP(-compatible) bijector that Distrax uses. [bijector_from_tfp.py:30-115] -/
structure TfpM where
  forward : Arr → Except Err Arr
  inverse : Arr → Except Err Arr
  /-- `forward_log_det_jacobian(x, event_ndims)` -/
  fldj : Arr → Option ℤ → Except Err Arr
  /-- `inverse_log_det_jacobian(y, event_ndims)` -/
  ildj : Arr → Option ℤ → Except Err Arr
  /-- `forward_min_event_ndims` -/
  fMin : ℕ
  /-- `inverse_min_event_ndims` -/
  iMin : ℕ
  constJac : Bool

/-- The methods of the composed bijectors of Model/Bijector.lean. [no line of its own; part of the model of bijector_from_tfp.py:30-115] -/
noncomputable def Bij.methods (b : Bij) : BijM :=
  ⟨b.forward, b.inv, b.fldj, b.ildj, b.fwdAndLd, b.invAndLd, b.ndimsIn, b.ndimsOut, b.constJac, b.constLogDet⟩

/-! ### tfp_compatible_bijector.py -/

/-- tfp_compatible_bijector.py:161-168 `_check_ndims`: the number of extra event dimensions. -/
def checkNdims (eventNdims : Option ℤ) (expected : ℕ) : Except Err ℕ :=
  match eventNdims with
  | none => .ok 0
  | some n => if n < expected then .error .valueError else .ok (n - expected).toNat

/-- tfp_compatible_bijector.py:170-177 `_check_shape`. -/
def checkShape (eventShape : List ℕ) (expected : ℕ) : Except Err Unit :=
  if eventShape.length < expected then .error .valueError else .ok ()

/-- tfp_compatible_bijector.py:145-151 `forward_log_det_jacobian`. -/
def BijM.tfpFldj (b : BijM) (x : Arr) (eventNdims : Option ℤ) : Except Err Arr := do
  let extra ← checkNdims eventNdims b.ndimsIn
  let l ← b.fldj x
  l.sumLast extra

/-- tfp_compatible_bijector.py:153-159 `inverse_log_det_jacobian`. -/
def BijM.tfpIldj (b : BijM) (y : Arr) (eventNdims : Option ℤ) : Except Err Arr := do
  let extra ← checkNdims eventNdims b.ndimsOut
  let l ← b.ildj y
  l.sumLast extra

/-- tfp_compatible_bijector.py:105-109 `forward_event_ndims`. -/
def BijM.tfpForwardEventNdims (b : BijM) (eventNdims : ℤ) : Except Err ℕ := do
  let extra ← checkNdims (some eventNdims) b.ndimsIn
  pure (b.ndimsOut + extra)

/-- tfp_compatible_bijector.py:111-115 `inverse_event_ndims`. -/
def BijM.tfpInverseEventNdims (b : BijM) (eventNdims : ℤ) : Except Err ℕ := do
  let extra ← checkNdims (some eventNdims) b.ndimsOut
  pure (b.ndimsIn + extra)

/-- tfp_compatible_bijector.py:117-122 `forward_event_shape` (and 131-136 `forward_event_shape_tensor`):
`jax.eval_shape(forward, zeros)` is the shape of `forward(zeros)`. -/
def BijM.tfpForwardEventShape (b : BijM) (eventShape : List ℕ) : Except Err (List ℕ) := do
  checkShape eventShape b.ndimsIn
  let y ← b.forward (Arr.zeros eventShape)
  pure y.shape

/-- tfp_compatible_bijector.py:124-129 `inverse_event_shape` (and 138-143 `inverse_event_shape_tensor`). -/
def BijM.tfpInverseEventShape (b : BijM) (eventShape : List ℕ) : Except Err (List ℕ) := do
  checkShape eventShape b.ndimsOut
  let x ← b.inverse (Arr.zeros eventShape)
  pure x.shape

/-- The object returned by `tfp_compatible_bijector(b)`, seen as a TFP bijector (tfp_compatible_bijector.py:68-76: the
minimal event ranks are the ranks of `b`; methods that are not overridden are inherited from the class of `b` and read the
attributes of `b` through `__getattr__`, 78-79). -/
def BijM.compatTfp (b : BijM) : TfpM :=
  ⟨b.forward, b.inverse, b.tfpFldj, b.tfpIldj, b.ndimsIn, b.ndimsOut, b.constJac⟩

/-- The same object, seen as a Distrax bijector: `forward_and_log_det` (81-83) delegates, the two log-det methods are the
overriding ones with `event_ndims=None`, everything else is inherited. -/
def BijM.compat (b : BijM) : BijM :=
  ⟨b.forward, b.inverse, fun x => b.tfpFldj x none, fun y => b.tfpIldj y none, b.fwdAndLd, b.invAndLd, b.ndimsIn,
    b.ndimsOut, b.constJac, b.constLogDet⟩

/-! ### bijector_from_tfp.py -/

/-- bijector_from_tfp.py:72-76: the leading part of `y_shape` without its last `nd` entries.  python's `y_shape[:-0]` is
empty, hence the special case. -/
def dropEvent (yShape : List ℕ) (nd : ℕ) : List ℕ :=
  if nd = 0 then yShape else yShape.take (yShape.length - nd)

/-- bijector_from_tfp.py:62-78 `_ensure_batch_shape`. -/
def ensureBatchShape (constJac : Bool) (logdet : Arr) (nd : ℕ) (forwardFn : Arr → Except Err Arr) (x : Arr) :
    Except Err Arr :=
  if constJac then do
    let y ← forwardFn x
    logdet.broadcastTo (dropEvent y.shape nd)
  else .ok logdet

/-- bijector_from_tfp.py:80-85 `forward_log_det_jacobian`. -/
def TfpM.fromFldj (t : TfpM) (x : Arr) : Except Err Arr := do
  let l ← t.fldj x (some (t.fMin : ℤ))
  ensureBatchShape t.constJac l t.iMin t.forward x

/-- bijector_from_tfp.py:87-93 `inverse_log_det_jacobian`. -/
def TfpM.fromIldj (t : TfpM) (y : Arr) : Except Err Arr := do
  let l ← t.ildj y (some (t.iMin : ℤ))
  ensureBatchShape t.constJac l t.fMin t.inverse y

/-- bijector_from_tfp.py:95-101 `forward_and_log_det`. -/
def TfpM.fromFwdAndLd (t : TfpM) (x : Arr) : Except Err (Arr × Arr) := do
  let y ← t.forward x
  let l ← t.fldj x (some (t.fMin : ℤ))
  let l ← ensureBatchShape t.constJac l t.iMin t.forward x
  pure (y, l)

/-- bijector_from_tfp.py:103-110 `inverse_and_log_det`. -/
def TfpM.fromInvAndLd (t : TfpM) (y : Arr) : Except Err (Arr × Arr) := do
  let x ← t.inverse y
  let l ← t.ildj y (some (t.iMin : ℤ))
  let l ← ensureBatchShape t.constJac l t.fMin t.inverse y
  pure (x, l)

/-- bijector_from_tfp.py:39-60 `BijectorFromTFP(t)`; `is_constant_log_det` defaults to `is_constant_jacobian`
(bijector.py:106-107). -/
def TfpM.fromTfp (t : TfpM) : BijM :=
  ⟨t.forward, t.inverse, t.fromFldj, t.fromIldj, t.fromFwdAndLd, t.fromInvAndLd, t.fMin, t.iMin, t.constJac, t.constJac⟩

end Distrax
