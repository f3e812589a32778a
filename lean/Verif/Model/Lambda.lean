import Verif.Model.Bijector

/-!
# lambda_bijector.py

A `Lambda` is a mutable object: missing functions are derived on demand and stored in the instance.  The model threads that
state.  `F` is the type of python functions on arrays.
-/

namespace Distrax

/-- The functions of utils/transformations.py that `Lambda` uses, and calling a function. -/
structure Tracer (F : Type) where
  call : F → Arr → Except Err Arr
  /-- transformations.py:129-138 `inv` (never raises before the result is called). -/
  inv : F → F
  /-- transformations.py:166-175 `log_det_scalar`; traces its argument at the scalar `0.0` first. -/
  logDetScalar : F → Except Err F
  /-- transformations.py:141-163 `is_constant_jacobian`. -/
  isConstJac : F → Except Err Bool

/-- Constructor arguments, lambda_bijector.py:59-67. -/
structure LambdaArgs (F : Type) where
  forward : Option F := none
  inverse : Option F := none
  fldj : Option F := none
  ildj : Option F := none
  ndimsIn : Option ℤ := none
  ndimsOut : Option ℤ := none
  constJac : Option Bool := none

/-- The instance attributes. [lambda_bijector.py:59-98] -/
structure LambdaSt (F : Type) where
  fwd : Option F
  inv : Option F
  fldj : Option F
  ildj : Option F
  info : Meta

variable {F : Type}

/-- lambda_bijector.py:70-72 and 74-85: the checks of the constructor; returns the effective `event_ndims_in`. -/
def lambdaNdims (a : LambdaArgs F) : Except Err ℤ :=
  match a.forward, a.inverse with
  | none, none => .error .valueError
  | _, _ =>
    if a.fldj.isSome || a.ildj.isSome then
      match a.ndimsIn with
      | none => .error .valueError
      | some n => .ok n
    else if a.ndimsIn.isSome || a.ndimsOut.isSome then .error .valueError
    else .ok 0

/-- lambda_bijector.py:87-89: the constant-Jacobian flag, detected on `forward` if given, else on `inverse`. -/
def lambdaConstJac (T : Tracer F) (a : LambdaArgs F) : Except Err Bool :=
  match a.constJac, a.forward, a.inverse with
  | some c, _, _ => .ok c
  | none, some f, _ => T.isConstJac f
  | none, none, some g => T.isConstJac g
  | none, none, none => .error .valueError

/-- lambda_bijector.py:59-98 `Lambda.__init__`. -/
def mkLambda (T : Tracer F) (a : LambdaArgs F) : Except Err (LambdaSt F) := do
  let n ← lambdaNdims a
  let c ← lambdaConstJac T a
  let m ← Meta.init n a.ndimsOut c none
  pure ⟨a.forward, a.inverse, a.fldj, a.ildj, m⟩

/-- bijector.py:175-181, 183-189: `_check_forward_input_shape` / `_check_inverse_input_shape`. -/
def rankOk (n : ℤ) (rank : ℕ) : Bool := !decide ((rank : ℤ) < n)

/-- lambda_bijector.py:103-104: `self._forward`, derived and stored if missing. -/
def LambdaSt.getForward (T : Tracer F) (s : LambdaSt F) : Option F × LambdaSt F :=
  match s.fwd with
  | some f => (some f, s)
  | none => match s.inv with
    | some g => (some (T.inv g), { s with fwd := some (T.inv g) })
    | none => (none, s)

/-- lambda_bijector.py:110-111: `self._inverse`, derived and stored if missing. -/
def LambdaSt.getInverse (T : Tracer F) (s : LambdaSt F) : Option F × LambdaSt F :=
  match s.inv with
  | some g => (some g, s)
  | none => match s.fwd with
    | some f => (some (T.inv f), { s with inv := some (T.inv f) })
    | none => (none, s)

/-- Calling an attribute that may be `None` (which would be a TypeError). [no line of its own; part of the model of lambda_bijector.py:25-150] -/
def callOpt (T : Tracer F) (f : Option F) (x : Arr) : Except Err Arr :=
  match f with
  | some f => T.call f x
  | none => .error .typeError

/-- lambda_bijector.py:100-105 `forward`. -/
def LambdaSt.forward (T : Tracer F) (s : LambdaSt F) (x : Arr) : Except Err Arr × LambdaSt F :=
  if rankOk s.info.ndimsIn x.shape.length then
    let r := s.getForward T
    (callOpt T r.1 x, r.2)
  else (.error .valueError, s)

/-- lambda_bijector.py:107-112 `inverse`. -/
def LambdaSt.inverse (T : Tracer F) (s : LambdaSt F) (y : Arr) : Except Err Arr × LambdaSt F :=
  if rankOk s.info.ndimsOut y.shape.length then
    let r := s.getInverse T
    (callOpt T r.1 y, r.2)
  else (.error .valueError, s)

/-- `transformations.log_det_scalar(self.forward)` (or `self.inverse`): the tracing probe at the rank-0 input `0.0` goes
through the method, hence through its rank check. [no line of its own; part of the model of lambda_bijector.py:25-150] -/
def deriveLogDet (T : Tracer F) (ndims : ℤ) (f : Option F) : Except Err F :=
  if rankOk ndims 0 then
    match f with
    | some f => T.logDetScalar f
    | none => .error .typeError
  else .error .valueError

/-- lambda_bijector.py:114-120 `forward_log_det_jacobian`.  The probe stores the derived `_forward` when the rank check
lets it through. -/
def LambdaSt.fwdLogDet (T : Tracer F) (s : LambdaSt F) (x : Arr) : Except Err Arr × LambdaSt F :=
  if rankOk s.info.ndimsIn x.shape.length then
    match s.fldj with
    | some g => (T.call g x, s)
    | none =>
      let s' := if rankOk s.info.ndimsIn 0 then (s.getForward T).2 else s
      match deriveLogDet T s.info.ndimsIn (s.getForward T).1 with
      | .ok g => (T.call g x, { s' with fldj := some g })
      | .error e => (.error e, s')
  else (.error .valueError, s)

/-- lambda_bijector.py:122-128 `inverse_log_det_jacobian`. -/
def LambdaSt.invLogDet (T : Tracer F) (s : LambdaSt F) (y : Arr) : Except Err Arr × LambdaSt F :=
  if rankOk s.info.ndimsOut y.shape.length then
    match s.ildj with
    | some g => (T.call g y, s)
    | none =>
      let s' := if rankOk s.info.ndimsOut 0 then (s.getInverse T).2 else s
      match deriveLogDet T s.info.ndimsOut (s.getInverse T).1 with
      | .ok g => (T.call g y, { s' with ildj := some g })
      | .error e => (.error e, s')
  else (.error .valueError, s)

/-- lambda_bijector.py:130-132 `forward_and_log_det`. -/
def LambdaSt.fwdAndLogDet (T : Tracer F) (s : LambdaSt F) (x : Arr) : Except Err (Arr × Arr) × LambdaSt F :=
  match s.forward T x with
  | (.error e, s1) => (.error e, s1)
  | (.ok y, s1) => match s1.fwdLogDet T x with
    | (.error e, s2) => (.error e, s2)
    | (.ok l, s2) => (.ok (y, l), s2)

/-- lambda_bijector.py:134-136 `inverse_and_log_det`. -/
def LambdaSt.invAndLogDet (T : Tracer F) (s : LambdaSt F) (y : Arr) : Except Err (Arr × Arr) × LambdaSt F :=
  match s.inverse T y with
  | (.error e, s1) => (.error e, s1)
  | (.ok x, s1) => match s1.invLogDet T y with
    | (.error e, s2) => (.error e, s2)
    | (.ok l, s2) => (.ok (x, l), s2)

/-- A method call. [no line of its own; part of the model of lambda_bijector.py:25-150] -/
inductive LCall where
  | forward (x : Arr)
  | inverse (y : Arr)
  | fldj (x : Arr)
  | ildj (y : Arr)
  | fwdAndLd (x : Arr)
  | invAndLd (y : Arr)

/-- The result of a method call: the list of returned arrays. [no line of its own; part of the model of lambda_bijector.py:25-150] -/
abbrev LResult := Except Err (List Arr)

/-- One method call. [no line of its own; part of the model of lambda_bijector.py:25-150] -/
def LambdaSt.step (T : Tracer F) (s : LambdaSt F) : LCall → LResult × LambdaSt F
  | .forward x => let r := s.forward T x; (r.1.map fun a => [a], r.2)
  | .inverse y => let r := s.inverse T y; (r.1.map fun a => [a], r.2)
  | .fldj x => let r := s.fwdLogDet T x; (r.1.map fun a => [a], r.2)
  | .ildj y => let r := s.invLogDet T y; (r.1.map fun a => [a], r.2)
  | .fwdAndLd x => let r := s.fwdAndLogDet T x; (r.1.map fun p => [p.1, p.2], r.2)
  | .invAndLd y => let r := s.invAndLogDet T y; (r.1.map fun p => [p.1, p.2], r.2)

/-- The state after a history of calls (some of which may have raised). [no line of its own; part of the model of lambda_bijector.py:25-150] -/
def LambdaSt.after (T : Tracer F) (s : LambdaSt F) : List LCall → LambdaSt F
  | [] => s
  | c :: cs => ((s.step T c).2).after T cs

end Distrax
