import Verif.Model.XR
import Mathlib.Analysis.SpecialFunctions.Exp

/-!
Floating-point arithmetic.  Everywhere else in this development floats are exact reals (`ℝ`) or exact reals with IEEE special
values (`XR`).  Here every primitive operation is followed by a rounding `rd`, about which only what every IEEE binary format
with round-to-nearest satisfies is assumed (`Fmt`; `Lemmas/FloatFmt.lean` builds a `Fmt` from each such format).

SIMPLIFICATIONS.  One primitive = one correctly rounded operation, also for `exp`, `log`, `log1p`, `expm1`, `logistic`, `tanh`
(XLA's are close to, not always exactly, correctly rounded); no fusion or reassociation by the compiler except for `sum`, whose
order is arbitrary; a single unsigned zero.
-/

namespace Distrax

open XR

/-- A floating-point format: rounding `rd` from the reals to the representable numbers and the infinities.
[number semantics of jax, used throughout; e.g. math.py:30-47] -/
structure Fmt where
  rd : ℝ → XR
  /-- the largest finite number -/
  top : ℝ
  top_ge : 256 ≤ top
  top_rep : rd top = fin top
  mono : ∀ {x y : ℝ}, x ≤ y → leB (rd x) (rd y)
  odd : ∀ x, rd (-x) = -(rd x)
  idem : ∀ {x y : ℝ}, rd x = fin y → rd y = fin y
  /-- numbers up to a little above `top` do not overflow -/
  fits : ∀ {x : ℝ}, |x| ≤ top + 8 → ∃ y, rd x = fin y
  range : ∀ {x y : ℝ}, rd x = fin y → |y| ≤ top
  /-- numbers far above `top` overflow -/
  over : ∀ {x : ℝ}, 2 * top ≤ x → rd x = pinf
  small : ∀ n : ℕ, n ≤ 16 → rd n = fin n
  half : rd (1 / 2) = fin (1 / 2)
  double : ∀ {x : ℝ}, rd x = fin x → |2 * x| ≤ top → rd (2 * x) = fin (2 * x)
  /-- a bound for logarithms of positive numbers, small compared with `top` -/
  lb : ℝ
  lb_rep : rd lb = fin lb
  lb_le : 16 * lb ≤ top
  logs : ∀ {x : ℝ}, rd x = fin x → 0 < x → |Real.log x| ≤ lb
  /-- gradual underflow: the difference of two different numbers does not round to zero -/
  gradual : ∀ {x y : ℝ}, rd x = fin x → rd y = fin y → x < y → rd (y - x) ≠ fin 0
  /-- Sterbenz: `1 - x` is exact for `x` between 1/2 and 1 -/
  oneSub : ∀ {x : ℝ}, rd x = fin x → 1 / 2 ≤ x → x ≤ 1 → rd (1 - x) = fin (1 - x)

/-- Rounding of extended reals. [number semantics of jax, used throughout; e.g. math.py:30-47] -/
def Fmt.r (F : Fmt) : XR → XR
  | fin x => F.rd x
  | v => v

/-- Rounding is idempotent, so every rounded value is a float. -/
theorem Fmt.r_r (F : Fmt) (v : XR) : F.r (F.r v) = F.r v := by
  cases v with
  | fin x =>
    show F.r (F.rd x) = F.rd x
    cases h : F.rd x with
    | fin y => exact F.idem h
    | _ => rfl
  | _ => rfl

/-- The floats of a format: representable numbers, infinities and `nan`. [number semantics of jax, used throughout; e.g. math.py:30-47] -/
def FX (F : Fmt) : Type := {v : XR // F.r v = v}

/-- Round to a float. [number semantics of jax, used throughout; e.g. math.py:30-47] -/
def Fmt.round (F : Fmt) (v : XR) : FX F := ⟨F.r v, F.r_r v⟩

namespace FX
variable {F : Fmt}

noncomputable section

/-- A Python literal or constant in an expression with arrays: converted to the dtype of the array.
[number semantics of jax, used throughout; e.g. math.py:30-47] -/
def lit (c : ℝ) : FX F := F.round (fin c)

instance : Add (FX F) := ⟨fun a b => F.round (a.1 + b.1)⟩
instance : Sub (FX F) := ⟨fun a b => F.round (a.1 - b.1)⟩
instance : Mul (FX F) := ⟨fun a b => F.round (a.1 * b.1)⟩
instance : Div (FX F) := ⟨fun a b => F.round (a.1 / b.1)⟩
instance : Neg (FX F) := ⟨fun a => F.round (-a.1)⟩
/-- IEEE `<=`: false if either side is `nan`. -/
instance : LE (FX F) := ⟨fun a b => leB a.1 b.1⟩
/-- IEEE `<`: false if either side is `nan`. -/
instance : LT (FX F) := ⟨fun a b => ltB a.1 b.1⟩

/-- The infinities and `nan`. [number semantics of jax, used throughout; e.g. math.py:30-47] -/
def posInf : FX F := ⟨pinf, rfl⟩
/-- [number semantics of jax, used throughout; e.g. math.py:30-47] -/
def negInf : FX F := ⟨ninf, rfl⟩
/-- [number semantics of jax, used throughout; e.g. math.py:30-47] -/
def isNan (a : FX F) : Prop := a.1 = nan
/-- `jnp.isfinite`. [external; called e.g. at categorical.py:95] -/
def finite (a : FX F) : Prop := ∃ x, a.1 = fin x
/-- `jnp.isinf`. [external; called e.g. at quantized.py:206] -/
def isInf (a : FX F) : Prop := a.1 = pinf ∨ a.1 = ninf

/-- A real function applied to a float, with given values at the infinities. [number semantics of jax, used throughout; e.g. math.py:30-47] -/
def fn (f : ℝ → XR) (atP atN : XR) (a : FX F) : FX F :=
  F.round (match a.1 with
    | fin x => f x
    | pinf => atP
    | ninf => atN
    | nan => nan)

/-- `jnp.exp`. [external; called e.g. at laplace.py:38] -/
def exp (a : FX F) : FX F := fn (fun x => fin (Real.exp x)) pinf (fin 0) a
/-- `jnp.expm1`. [external; called e.g. at normal.py:166] -/
def expm1 (a : FX F) : FX F := fn (fun x => fin (Real.exp x - 1)) pinf (fin (-1)) a
/-- `jnp.log`. [external; called e.g. at normal.py:34] -/
def log (a : FX F) : FX F := fn (fun x => XR.log (fin x)) pinf nan a
/-- `jnp.log1p`. [external; called e.g. at logistic.py:85] -/
def log1p (a : FX F) : FX F := fn (fun x => XR.log (fin (1 + x))) pinf nan a
/-- `jnp.abs`. [external; called e.g. at laplace.py:38] -/
def abs (a : FX F) : FX F := fn (fun x => fin |x|) pinf pinf a
/-- `jnp.square`. [external; called e.g. at normal.py:89] -/
def square (a : FX F) : FX F := a * a
/-- `jnp.sign`. [external; called e.g. at laplace.py:110] -/
def sign (a : FX F) : FX F := fn (fun x => fin (if 0 < x then 1 else if x < 0 then -1 else 0)) (fin 1) (fin (-1)) a
/-- `jax.nn.sigmoid` (`lax.logistic`). [external; called e.g. at logistic.py:99] -/
def sigmoid (a : FX F) : FX F := fn (fun x => fin (1 / (1 + Real.exp (-x)))) (fin 1) (fin 0) a
/-- `jnp.tanh`. [external; called e.g. at tanh.py:59] -/
def tanh (a : FX F) : FX F := fn (fun x => fin (1 - 2 / (Real.exp (2 * x) + 1))) (fin 1) (fin (-1)) a
/-- `jnp.floor`. [external; called e.g. at quantized.py:63] -/
def floor (a : FX F) : FX F := fn (fun x => fin (⌊x⌋ : ℤ)) pinf ninf a
open Classical in
/-- `jnp.maximum`. [number semantics of jax, used throughout; e.g. math.py:30-47] -/
def max (a b : FX F) : FX F := F.round (XR.max a.1 b.1)

open Classical in
/-- `jnp.where`. [external; called e.g. at laplace.py:40] -/
def whr (c : Prop) (a b : FX F) : FX F := if c then a else b

/-- `jnp.logaddexp` as implemented in JAX: `amax + log1p(exp(-|x1 - x2|))`, and `x1 + x2` when the difference is `nan`.
[external; called e.g. at mixture_of_two.py:87] -/
def logaddexp (x1 x2 : FX F) : FX F :=
  let amax := max x1 x2
  let delta := x1 - x2
  whr (isNan delta) (x1 + x2) (amax + log1p (exp (-(abs delta))))

/-- `jax.nn.softplus(x) = jnp.logaddexp(x, 0)`. [external; called e.g. at logistic.py:91] -/
def softplus (x : FX F) : FX F := logaddexp x (lit 0)

/-- `SumsTo xs v`: `v` is a possible result of `jnp.sum` of the entries `xs`.  The order in which the compiler adds is
arbitrary: any binary tree over any permutation. [external; called e.g. at categorical.py:109] -/
inductive SumsTo : List (FX F) → FX F → Prop
  | one (a : FX F) : SumsTo [a] a
  | add {xs ys : List (FX F)} {a b : FX F} : SumsTo xs a → SumsTo ys b → SumsTo (xs ++ ys) (a + b)
  | perm {xs ys : List (FX F)} {a : FX F} : xs.Perm ys → SumsTo xs a → SumsTo ys a

end

end FX

end Distrax
