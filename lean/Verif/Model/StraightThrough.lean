import Verif.Model.Shape

/-!
# distributions/straight_through.py

Forward-mode differentiation: an array of dual numbers carries a value and a tangent at every entry, with JAX's rules for
`+`, `-`, indexing by `None`, and `stop_gradient` (which zeroes the tangent).  Samples of the wrapped distribution are
discrete, so their tangent is zero (an `Arr`).
-/

namespace Distrax

/-- An array of dual numbers. [no line of its own; part of the model of straight_through.py:1-65] -/
structure DArr where
  shape : List ℕ
  val : List ℕ → ℝ
  tan : List ℕ → ℝ

namespace DArr

/-- A constant. [no line of its own; part of the model of straight_through.py:1-65] -/
def const (a : Arr) : DArr := ⟨a.shape, a.data, fun _ => 0⟩

/-- `jax.lax.stop_gradient`. [external; called e.g. at straight_through.py:52] -/
def stopGradient (a : DArr) : DArr := ⟨a.shape, a.val, fun _ => 0⟩

/-- `a + b` with broadcasting. [no line of its own; part of the model of straight_through.py:1-65] -/
def add (a b : DArr) : Except Err DArr :=
  match broadcastShapes a.shape b.shape with
  | none => .error .typeError
  | some t => .ok ⟨t, fun i => a.val (proj a.shape i) + b.val (proj b.shape i),
      fun i => a.tan (proj a.shape i) + b.tan (proj b.shape i)⟩

/-- `a - b` with broadcasting. [no line of its own; part of the model of straight_through.py:1-65] -/
def sub (a b : DArr) : Except Err DArr :=
  match broadcastShapes a.shape b.shape with
  | none => .error .typeError
  | some t => .ok ⟨t, fun i => a.val (proj a.shape i) - b.val (proj b.shape i),
      fun i => a.tan (proj a.shape i) - b.tan (proj b.shape i)⟩

/-- `a[None]`. [no line of its own; part of the model of straight_through.py:1-65] -/
def newAxis (a : DArr) : DArr := ⟨1 :: a.shape, fun i => a.val i.tail, fun i => a.tan i.tail⟩

/-- straight_through.py:55-59 `_pad`: the loop runs until the ranks agree. -/
def pad (probs : DArr) (shape : List ℕ) : DArr := newAxis^[shape.length - probs.shape.length] probs

end DArr

/-- What the wrapper needs of `Distribution(probs=…, logits=…)`. [straight_through.py:1-65] -/
structure STObj (K : Type) where
  isCategorical : Bool
  sample : Seed K → SampleShape → Except Err Arr
  /-- the property `probs`, with its tangent along the direction of differentiation -/
  probs : DArr

/-- straight_through.py:26-53 `sample`; the construction of `obj` from the stored parameters is not modelled (it is the wrapped
distribution with the default dtype). -/
def straightThroughSample {K : Type} (obj : STObj K) (seed : Seed K) (ss : SampleShape) : Except Err DArr :=
  if obj.isCategorical then do
    let s ← obj.sample seed ss
    let padded := obj.probs.pad s.shape
    let diff ← padded.sub padded.stopGradient
    (DArr.const s).add diff
  else .error .assertionError

end Distrax
