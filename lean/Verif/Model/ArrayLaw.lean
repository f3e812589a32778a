import Verif.Model.FamArr
import Verif.Model.Slice

/-! `sample` of the scalar families on whole arrays, from the noise array the generator returns. -/

namespace Distrax

/-- `a.reshape(t)` (row-major; the sizes must agree). [no line of its own; part of the model of distribution.py:49-309] -/
def BArr.reshape {β : Type} (a : BArr β) (t : List ℕ) : Except Err (BArr β) :=
  if a.shape.prod = t.prod then .ok ⟨t, fun i => a.data (unravel a.shape (ravel t i))⟩
  else .error .typeError

/-- distribution.py:144-162 `sample`, where `_sample_n(key, n)` asks the generator for noise of shape `(n,) + batch_shape`
(normal.py:73-76, laplace.py:81-84, gumbel.py:82-85, logistic.py:77-84, uniform.py:76-81, gamma.py:79-82,
bernoulli.py:108-112) and turns it into samples by `sampleN`. -/
def famSample {Key α β : Type} (noise : Key → List ℕ → BArr α) (batch : List ℕ) (sampleN : AE α → AE β)
    (prngKey : ℤ → Key) (seed : Seed Key) (ss : SampleShape) : Except Err (BArr β) :=
  let (rng, ss) := convertSeedAndSampleShape prngKey seed ss
  let numSamples := ss.foldl (· * ·) 1
  match sampleN (.arr (noise rng (numSamples :: batch))) with
  | .error e => .error e
  | .ok samples => samples.reshape (ss ++ samples.shape.drop 1)

open AE XR

noncomputable section

namespace CatB
variable {n : ℕ}

/-- categorical.py:72-76 `logits`, all rows.  (`none, none` is unreachable.) -/
def logitsA (d : CatB n) : AE (Fin n → XR) :=
  match d.logits?, d.probs? with
  | some l, _ => arr l
  | none, some p => (arr p).map fun r i => XR.log (r i)
  | none, none => Except.error .typeError

/-- categorical.py:79-83 `probs`, all rows. -/
def probsA (d : CatB n) : AE (Fin n → XR) :=
  match d.probs?, d.logits? with
  | some p, _ => arr p
  | none, some l => (arr l).map xsoftmax
  | none, none => Except.error .typeError

/-- categorical.py:92-99 `_sample_n`, from the array `g` of shape `(n,) + batch_shape` of rows of Gumbel noise
(`jax.random.categorical(key, logits, axis=-1, shape=new_shape)` is `argmax(gumbel(key, new_shape + (k,)) + logits, -1)`). -/
def sampleA (d : CatB (n + 1)) (g : AE (Fin (n + 1) → ℝ)) : AE ℤ :=
  let isValid : AE Prop := d.probsA.map fun r => (∀ i, isFinite (r i)) ∧ ∀ i, leB 0 (r i)
  let draws : AE ℤ := bin (fun g l => (((argmaxIdx fun i => fin (g i) + l i : Fin (n + 1)) : ℕ) : ℤ)) g d.logitsA
  whr isValid draws (draws.fullLike (-1))

end CatB

end

end Distrax
