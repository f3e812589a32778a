import Mathlib.Data.Real.Basic
import Mathlib.Analysis.SpecialFunctions.Log.Basic
import Mathlib.Analysis.SpecialFunctions.Pow.Real
import Mathlib.Algebra.BigOperators.Group.Finset.Basic

/-!
Idealised floating-point numbers: exact reals plus the IEEE special values `+inf`, `-inf`, `nan` with IEEE rules.
There is no rounding, overflow or underflow, and a single unsigned zero (division by zero behaves like `+0`).
-/

namespace Distrax

/-- [number semantics of jax, used throughout; e.g. math.py:30-47] -/
inductive XR where
  | fin (x : ℝ)
  | pinf
  | ninf
  | nan

namespace XR

noncomputable section

instance : Zero XR := ⟨fin 0⟩
instance : One XR := ⟨fin 1⟩

/-- IEEE addition. [number semantics of jax, used throughout; e.g. math.py:30-47] -/
def add : XR → XR → XR
  | nan, _ => nan
  | _, nan => nan
  | fin a, fin b => fin (a + b)
  | fin _, pinf => pinf
  | fin _, ninf => ninf
  | pinf, fin _ => pinf
  | ninf, fin _ => ninf
  | pinf, pinf => pinf
  | ninf, ninf => ninf
  | pinf, ninf => nan
  | ninf, pinf => nan

/-- IEEE negation. [number semantics of jax, used throughout; e.g. math.py:30-47] -/
def neg : XR → XR
  | nan => nan
  | fin a => fin (-a)
  | pinf => ninf
  | ninf => pinf

/-- An infinity with the sign of a nonzero real; `nan` for zero. [number semantics of jax, used throughout; e.g. math.py:30-47] -/
def infOf (a : ℝ) : XR := if 0 < a then pinf else if a < 0 then ninf else nan

/-- IEEE multiplication. [number semantics of jax, used throughout; e.g. math.py:30-47] -/
def mul : XR → XR → XR
  | nan, _ => nan
  | _, nan => nan
  | fin a, fin b => fin (a * b)
  | fin a, pinf => infOf a
  | fin a, ninf => infOf (-a)
  | pinf, fin b => infOf b
  | ninf, fin b => infOf (-b)
  | pinf, pinf => pinf
  | ninf, ninf => pinf
  | pinf, ninf => ninf
  | ninf, pinf => ninf

instance : Add XR := ⟨add⟩
instance : Neg XR := ⟨neg⟩
instance : Mul XR := ⟨mul⟩
instance : Sub XR := ⟨fun a b => a + -b⟩

/-- IEEE division (the divisor zero counts as `+0`). [number semantics of jax, used throughout; e.g. math.py:30-47] -/
def div : XR → XR → XR
  | nan, _ => nan
  | _, nan => nan
  | fin a, fin b => if b = 0 then infOf a else fin (a / b)
  | fin _, _ => fin 0
  | pinf, fin b => if b < 0 then ninf else pinf
  | ninf, fin b => if b < 0 then pinf else ninf
  | _, _ => nan

instance : Div XR := ⟨div⟩

/-- `exp`. [external; called e.g. at math.py:115] -/
def exp : XR → XR
  | nan => nan
  | fin a => fin (Real.exp a)
  | pinf => pinf
  | ninf => fin 0

/-- `log`. [external; called e.g. at math.py:110] -/
def log : XR → XR
  | nan => nan
  | fin a => if 0 < a then fin (Real.log a) else if a = 0 then ninf else nan
  | pinf => pinf
  | ninf => nan

/-- `log1p`. [external; called e.g. at math.py:159] -/
def log1p (a : XR) : XR := log (1 + a)

/-- IEEE `==` (false on `nan`). [number semantics of jax, used throughout; e.g. math.py:30-47] -/
def eqB : XR → XR → Prop
  | fin a, fin b => a = b
  | pinf, pinf => True
  | ninf, ninf => True
  | _, _ => False

/-- IEEE `<` (false on `nan`). [number semantics of jax, used throughout; e.g. math.py:30-47] -/
def ltB : XR → XR → Prop
  | nan, _ => False
  | _, nan => False
  | fin a, fin b => a < b
  | fin _, pinf => True
  | fin _, ninf => False
  | pinf, _ => False
  | ninf, ninf => False
  | ninf, _ => True

/-- IEEE `<=` (false on `nan`). [number semantics of jax, used throughout; e.g. math.py:30-47] -/
def leB (a b : XR) : Prop := ltB a b ∨ eqB a b

/-- `jnp.isfinite`. [external; called e.g. at categorical.py:95] -/
def isFinite : XR → Prop
  | fin _ => True
  | _ => False

open Classical in
/-- `jnp.maximum` (propagates `nan`). [number semantics of jax, used throughout; e.g. math.py:30-47] -/
def max (a b : XR) : XR :=
  match a, b with
  | nan, _ => nan
  | _, nan => nan
  | a, b => if ltB a b then b else a

instance : AddCommMonoid XR where
  add_assoc a b c := by
    show add (add a b) c = add a (add b c)
    cases a <;> cases b <;> cases c <;> simp [add, add_assoc]
  zero_add a := by
    show add (fin 0) a = a
    cases a <;> simp [add]
  add_zero a := by
    show add a (fin 0) = a
    cases a <;> simp [add]
  add_comm a b := by
    show add a b = add b a
    cases a <;> cases b <;> simp [add, add_comm]
  nsmul := nsmulRec

end

end XR

end Distrax
