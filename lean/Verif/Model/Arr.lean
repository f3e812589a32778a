import Mathlib.Data.Real.Basic
import Mathlib.Algebra.BigOperators.Group.List.Basic

/-!
# Arrays with numpy semantics

Shaped arrays, broadcasting, and reduction over trailing axes, as used by every distrax module.
An array is a shape plus a function from multi-indices to reals; only multi-indices in range for the
shape are meaningful, and `Arr.Eqv` (written `≈ₐ`) is equality of shape and of all in-range entries.
Simplification: entries are exact reals (no dtype, no rounding).
-/

namespace Distrax

/-- Python exceptions raised by the modelled code, as values. [array semantics of jax, used throughout; e.g. scalar_affine.py:28-139] -/
inductive Err where
  | valueError
  | typeError
  | notImplemented
  | indexError
  | keyError
  | assertionError
  | attributeError
  deriving DecidableEq, Repr

/-- Shaped array of reals (models `jnp.ndarray`; exact arithmetic, no dtype).
[array semantics of jax, used throughout; e.g. scalar_affine.py:28-139] -/
structure Arr where
  shape : List ℕ
  data : List ℕ → ℝ

/-- Multi-index `i` is a valid index for shape `s`. [array semantics of jax, used throughout; e.g. scalar_affine.py:28-139] -/
def InRange (s i : List ℕ) : Prop := List.Forall₂ (fun k n => k < n) i s

/-- Two arrays are the same array: same shape, same in-range entries. [array semantics of jax, used throughout; e.g. scalar_affine.py:28-139] -/
def Arr.Eqv (a b : Arr) : Prop :=
  a.shape = b.shape ∧ ∀ i, InRange a.shape i → a.data i = b.data i

@[inherit_doc] infix:50 " ≈ₐ " => Arr.Eqv

/-- numpy rule for one pair of dimensions (`jax.lax.broadcast_shapes`, used e.g. in
bijectors/scalar_affine.py:79-80,100). -/
def bdim (a b : ℕ) : Option ℕ :=
  if a = b then some a else if a = 1 then some b else if b = 1 then some a else none

/-- Broadcasting of shapes stored last axis first. [array semantics of jax, used throughout; e.g. scalar_affine.py:28-139] -/
def brev : List ℕ → List ℕ → Option (List ℕ)
  | [], t => some t
  | s, [] => some s
  | a :: s, b :: t =>
    match bdim a b, brev s t with
    | some d, some r => some (d :: r)
    | _, _ => none

/-- `jax.lax.broadcast_shapes(s, t)` (used in bijectors/scalar_affine.py:79-80,100,107,116,123;
bijectors/shift.py:61).  `none` = incompatible shapes. -/
def broadcastShapes (s t : List ℕ) : Option (List ℕ) :=
  (brev s.reverse t.reverse).map List.reverse

/-- The entry of an array of shape `s` that numpy broadcasting reads for output index `i`.
[array semantics of jax, used throughout; e.g. scalar_affine.py:28-139] -/
def proj (s i : List ℕ) : List ℕ :=
  List.zipWith (fun d k => if d = 1 then 0 else k) s (i.drop (i.length - s.length))

/-- `jnp.broadcast_to(a, t)` (used in bijectors/scalar_affine.py:101-102,108,117-118,124). -/
def Arr.broadcastTo (a : Arr) (t : List ℕ) : Except Err Arr :=
  if broadcastShapes a.shape t = some t then .ok ⟨t, fun i => a.data (proj a.shape i)⟩
  else .error .valueError

/-- Binary elementwise operation with numpy broadcasting (`a + b`, `a * b`, ...).
[array semantics of jax, used throughout; e.g. scalar_affine.py:28-139] -/
def Arr.bin (f : ℝ → ℝ → ℝ) (a b : Arr) : Except Err Arr :=
  match broadcastShapes a.shape b.shape with
  | none => .error .typeError
  | some t => .ok ⟨t, fun i => f (a.data (proj a.shape i)) (b.data (proj b.shape i))⟩

/-- Elementwise unary operation. [array semantics of jax, used throughout; e.g. scalar_affine.py:28-139] -/
def Arr.map (f : ℝ → ℝ) (a : Arr) : Arr := ⟨a.shape, fun i => f (a.data i)⟩

/-- `jnp.zeros(s)`. [external; called e.g. at deterministic.py:121] -/
def Arr.zeros (s : List ℕ) : Arr := ⟨s, fun _ => 0⟩

/-- Rank-0 array holding `r` (a python float). [array semantics of jax, used throughout; e.g. scalar_affine.py:28-139] -/
def Arr.scalar (r : ℝ) : Arr := ⟨[], fun _ => r⟩

/-- All multi-indices of a shape in row-major order. [array semantics of jax, used throughout; e.g. scalar_affine.py:28-139] -/
def allIdx : List ℕ → List (List ℕ)
  | [] => [[]]
  | n :: s => (List.range n).flatMap (fun k => (allIdx s).map (fun i => k :: i))

/-- utils/math.py:143-146 `sum_last(x, ndims)`: sum over axes `range(-ndims, 0)`.
`jnp.sum` rejects axes beyond the rank. -/
def Arr.sumLast (a : Arr) (ndims : ℕ) : Except Err Arr :=
  if ndims ≤ a.shape.length then
    let r := a.shape.length - ndims
    .ok ⟨a.shape.take r, fun i => ((allIdx (a.shape.drop r)).map (fun j => a.data (i ++ j))).sum⟩
  else .error .valueError

end Distrax
