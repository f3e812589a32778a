import Verif.Model.Bijector
import Verif.Model.Shape
import Verif.Model.FamArr

/-!
distributions/transformed.py on whole arrays, for array distributions (`ADist`) and the elementwise bijectors and their
compositions (`Bij`).  Unlike `Model/Transformed.lean`, additions broadcast and may raise, and `jax.vmap` is modelled on
the array.
-/

namespace Distrax

/-- `x[i]` on the leading axis. [no line of its own; part of the model of transformed.py:35-243] -/
def Arr.lead (x : Arr) (i : ℕ) : Arr := ⟨x.shape.tail, fun j => x.data (i :: j)⟩

/-- `jax.vmap(f)(x)`: `f` is traced once on one row (which fixes the shape and the errors) and applied to every row.
[external; called e.g. at transformed.py:171] -/
def vmapArr (f : Arr → Except Err Arr) (x : Arr) : Except Err Arr :=
  match f (x.lead 0) with
  | .error e => .error e
  | .ok y => .ok ⟨x.shape.headD 0 :: y.shape, fun i =>
      match f (x.lead (i.headD 0)) with
      | .ok z => z.data i.tail
      | .error _ => 0⟩

/-- `jax.vmap(f)(x)` for a function with two results. [external; called e.g. at transformed.py:171] -/
def vmapArr2 (f : Arr → Except Err (Arr × Arr)) (x : Arr) : Except Err (Arr × Arr) := do
  let y ← vmapArr (fun r => (f r).map Prod.fst) x
  let l ← vmapArr (fun r => (f r).map Prod.snd) x
  return (y, l)

/-- `jax.vmap(jnp.subtract)(x, y)`. [external; called e.g. at transformed.py:171] -/
def vmapSub (x y : Arr) : Except Err Arr :=
  match Arr.bin (· - ·) (x.lead 0) (y.lead 0) with
  | .error e => .error e
  | .ok z => .ok ⟨x.shape.headD 0 :: z.shape, fun i =>
      match Arr.bin (· - ·) (x.lead (i.headD 0)) (y.lead (i.headD 0)) with
      | .ok z => z.data i.tail
      | .error _ => 0⟩

namespace TransformedA
variable {Key : Type}

/-- transformed.py:120-135 `_infer_shapes_and_dtype`: the shape of `forward(zeros(batch + event))`, split at the event rank. -/
noncomputable def shapes (d : ADist Key) (b : Bij) : Except Err (List ℕ × List ℕ) := do
  let y ← b.forward (Arr.zeros (d.batch ++ d.event))
  if b.ndimsOut = 0 then return (y.shape, [])
  else return (y.shape.take (y.shape.length - b.ndimsOut), y.shape.drop (y.shape.length - b.ndimsOut))

/-- transformed.py:161-166 `log_prob`. -/
noncomputable def logProb (d : ADist Key) (b : Bij) (value : Arr) : Except Err Arr := do
  let (x, ildj) ← b.invAndLd value
  let lp ← d.logProb x
  Arr.bin (· + ·) lp ildj

/-- transformed.py:168-172 `_sample_n` (`sample(seed=key, sample_shape=n)` of the base is its `_sample_n(key, n)`). -/
noncomputable def sampleN (d : ADist Key) (b : Bij) (key : Key) (n : ℕ) : Except Err Arr :=
  vmapArr b.forward (d.sampleN key n)

/-- transformed.py:174-191 `_sample_n_and_log_prob`. -/
noncomputable def sampleNLP (d : ADist Key) (b : Bij) (key : Key) (n : ℕ) : Except Err (Arr × Arr) := do
  let (x, lp) ← d.sampleNLP key n
  let (y, fldj) ← vmapArr2 b.fwdAndLd x
  let l ← vmapSub lp fldj
  return (y, l)

/-- transformed.py:193-200 `mean`, from the base's mean. -/
noncomputable def mean (baseMean : Except Err Arr) (b : Bij) : Except Err Arr :=
  if b.constJac then do
    let m ← baseMean
    b.forward m
  else .error .notImplemented

/-- transformed.py:212-243 `entropy` without `input_hint`. -/
noncomputable def entropy (d : ADist Key) (b : Bij) : Except Err Arr :=
  if b.constLogDet then do
    let e ← d.entropy
    let fldj ← b.fldj (Arr.zeros (d.batch ++ d.event))
    Arr.bin (· + ·) e fldj
  else .error .notImplemented

end TransformedA

end Distrax
