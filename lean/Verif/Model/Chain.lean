import Verif.Model.Arr

/-!
# `Chain` over arbitrary bijector objects

Here a bijector is an arbitrary object with the six methods of bijectors/bijector.py:116-143, on an
arbitrary value type `V` and log-det type `L`; `Chain` is modelled loop by loop.
-/

namespace Distrax

/-- Interface of `Bijector` (bijectors/bijector.py:116-173), methods may raise. -/
structure BObj (V L : Type) where
  ndimsIn : ℕ
  ndimsOut : ℕ
  constJac : Bool
  constLogDet : Bool
  forward : V → Except Err V
  inverse : V → Except Err V
  fldj : V → Except Err L
  ildj : V → Except Err L
  fwdLd : V → Except Err (V × L)
  invLd : V → Except Err (V × L)

namespace BObj
variable {V L : Type}

/-- chain.py:83-87 `forward`: `for bijector in reversed(self._bijectors): x = bijector.forward(x)`. -/
def chainForward (bs : List (BObj V L)) (x : V) : Except Err V :=
  bs.reverse.foldlM (fun x b => b.forward x) x

/-- chain.py:89-93 `inverse`. -/
def chainInverse (bs : List (BObj V L)) (y : V) : Except Err V :=
  bs.foldlM (fun y b => b.inverse y) y

/-- chain.py:95-101 `forward_and_log_det`. -/
def chainFwdLd [Add L] (bs : List (BObj V L)) (x : V) : Except Err (V × L) :=
  match bs.getLast? with
  | none => .error .indexError
  | some b => do
    let r ← b.fwdLd x
    bs.dropLast.reverse.foldlM (fun (p : V × L) b => do
      let q ← b.fwdLd p.1
      pure (q.1, p.2 + q.2)) r

/-- chain.py:103-109 `inverse_and_log_det`. -/
def chainInvLd [Add L] (bs : List (BObj V L)) (y : V) : Except Err (V × L) :=
  match bs with
  | [] => .error .indexError
  | b :: bs => do
    let r ← b.invLd y
    bs.foldlM (fun (p : V × L) b => do
      let q ← b.invLd p.1
      pure (q.1, p.2 + q.2)) r

/-- chain.py:61-68: the first incompatible neighbouring pair raises. -/
def adjacentOk (bs : List (BObj V L)) : Bool :=
  (bs.dropLast.zip bs.tail).all (fun p => p.1.ndimsIn == p.2.ndimsOut)

/-- chain.py:48-76 `Chain.__init__` and the methods of the resulting object (`forward_log_det_jacobian`,
`inverse_log_det_jacobian` are the base-class defaults, bijector.py:126-134). -/
def mkChain [Add L] (bs : List (BObj V L)) : Except Err (BObj V L) :=
  match bs.head?, bs.getLast? with
  | some first, some last =>
    if adjacentOk bs then
      .ok { ndimsIn := last.ndimsIn
            ndimsOut := first.ndimsOut
            constJac := bs.all (·.constJac)
            constLogDet := bs.all (·.constLogDet)
            forward := chainForward bs
            inverse := chainInverse bs
            fwdLd := chainFwdLd bs
            invLd := chainInvLd bs
            fldj := fun x => do let r ← chainFwdLd bs x; pure r.2
            ildj := fun y => do let r ← chainInvLd bs y; pure r.2 }
    else .error .valueError
  | _, _ => .error .valueError

end BObj
end Distrax
