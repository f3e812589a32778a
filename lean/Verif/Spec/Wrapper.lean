import Verif.Model.Wrapper

/-! Specification side of the TFP wrappers. -/

namespace Distrax.Spec

open Distrax

/-- `r` is `l` with exactly its trailing axes `e` summed out. -/
def SumsTrailing (l r : Arr) (s e : List ℕ) : Prop :=
  l.shape = s ++ e ∧ r.shape = s ∧ ∀ i, InRange s i → r.data i = ((allIdx e).map fun j => l.data (i ++ j)).sum

/-- Equal outcomes: the same error, or the same array. -/
def SameArr : Except Err Arr → Except Err Arr → Prop
  | .ok a, .ok b => a.Eqv b
  | .error e, .error f => e = f
  | _, _ => False

/-- The same for a pair of arrays. -/
def SamePair : Except Err (Arr × Arr) → Except Err (Arr × Arr) → Prop
  | .ok (a, c), .ok (b, d) => a.Eqv b ∧ c.Eqv d
  | .error e, .error f => e = f
  | _, _ => False

/-- Two Distrax bijectors cannot be told apart on inputs of their methods satisfying `P` (forward side) and `Q` (inverse
side). -/
structure SameBij (P Q : Arr → Prop) (b c : BijM) : Prop where
  ndimsIn : b.ndimsIn = c.ndimsIn
  ndimsOut : b.ndimsOut = c.ndimsOut
  constJac : b.constJac = c.constJac
  forward : ∀ x, P x → SameArr (b.forward x) (c.forward x)
  fldj : ∀ x, P x → SameArr (b.fldj x) (c.fldj x)
  fwdAndLd : ∀ x, P x → SamePair (b.fwdAndLd x) (c.fwdAndLd x)
  inverse : ∀ y, Q y → SameArr (b.inverse y) (c.inverse y)
  ildj : ∀ y, Q y → SameArr (b.ildj y) (c.ildj y)
  invAndLd : ∀ y, Q y → SamePair (b.invAndLd y) (c.invAndLd y)

/-- The convention of Distrax at an input `x`: `forward` succeeds, the log-det has the batch shape of the output, and
`forward_and_log_det` returns the two. -/
def FwdShaped (b : BijM) (x : Arr) : Prop :=
  ∃ y l y' l' B E, b.forward x = .ok y ∧ b.fldj x = .ok l ∧ b.fwdAndLd x = .ok (y', l') ∧ y'.Eqv y ∧ l'.Eqv l ∧
    y.shape = B ++ E ∧ E.length = b.ndimsOut ∧ l.shape = B

/-- The same for the inverse. -/
def InvShaped (b : BijM) (y : Arr) : Prop :=
  ∃ x l x' l' B E, b.inverse y = .ok x ∧ b.ildj y = .ok l ∧ b.invAndLd y = .ok (x', l') ∧ x'.Eqv x ∧ l'.Eqv l ∧
    x.shape = B ++ E ∧ E.length = b.ndimsIn ∧ l.shape = B

end Distrax.Spec
