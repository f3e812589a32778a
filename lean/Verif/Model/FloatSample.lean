import Verif.Model.FloatDists
import Verif.Model.FloatViterbi

/-!
Sampling in floating point: what `sample`, `sample_and_log_prob` and `log_prob` of a sampled value compute once every operation is rounded.

The draws of the generator (`jax.random.uniform`, `normal`, `laplace`, `gumbel`) are arguments; what is assumed about them is in
`Spec/FloatSample`.  SIMPLIFICATIONS: those of `Model/FloatArith`; one entry of the batch (see C58 for the array level).
-/

namespace Distrax

open FX

variable {F : Fmt}

noncomputable section

namespace FSample

/-- `Uniform._sample_n`, uniform.py:76-83; `self.range` is `high - low`, uniform.py:62-64. -/
def uniform (low high w : FX F) : FX F :=
  let range := high - low
  low + range * w

/-- `Uniform._sample_n_and_log_prob`, uniform.py:85-90. -/
def uniformJoint (low high w : FX F) : FX F × FX F :=
  let samples := uniform low high w
  let logProb := -(log (high - low))
  (samples, logProb)

/-- `Bernoulli._sample_n`, bernoulli.py:108-114: `jnp.less(uniform, probs)` as a number. -/
def bernoulli (probs w : FX F) : FX F := whr (w < probs) (lit 1) (lit 0)

/-- The standard logistic draw, logistic.py:79-85. -/
def logisticNoise (w : FX F) : FX F := log w - log1p (-w)

/-- `Logistic._sample_n`, logistic.py:75-86. -/
def logistic (d : LS F) (w : FX F) : FX F := d.scale * logisticNoise w + d.loc

/-- `Normal._sample_n`, normal.py:78-83. -/
def normal (d : LS F) (rnd : FX F) : FX F := d.scale * rnd + d.loc

/-- `Normal._sample_n_and_log_prob`, normal.py:85-90. -/
def normalJoint (d : LS F) (rnd : FX F) : FX F × FX F :=
  let samples := d.scale * rnd + d.loc
  let logProb := lit (-(1 / 2)) * square rnd - FloatNormal.halfLog2pi - log d.scale
  (samples, logProb)

/-- `Laplace._sample_n`, laplace.py:86-89. -/
def laplace (d : LS F) (rnd : FX F) : FX F := d.loc + d.scale * rnd

/-- `Laplace._sample_n_and_log_prob`, laplace.py:91-98. -/
def laplaceJoint (d : LS F) (rnd : FX F) : FX F × FX F :=
  let samples := d.loc + d.scale * rnd
  let logProb := -(abs rnd) - lit (Real.log 2) - log d.scale
  (samples, logProb)

/-- `Gumbel._sample_n`, gumbel.py:87-90. -/
def gumbel (d : LS F) (rnd : FX F) : FX F := d.scale * rnd + d.loc

/-- `Gumbel._sample_n_and_log_prob`, gumbel.py:92-97. -/
def gumbelJoint (d : LS F) (rnd : FX F) : FX F × FX F :=
  let samples := d.scale * rnd + d.loc
  let logProb := -(rnd + exp (-rnd)) - log d.scale
  (samples, logProb)

/-- `jax.random.categorical`: the Gumbel-max trick, `argmax(gumbel + logits)`; `Categorical._sample_n` for valid probabilities,
categorical.py:92-100. -/
def categorical {n : ℕ} (logits noise : Fin (n + 1) → FX F) : Fin (n + 1) := FVit.argmax fun i => noise i + logits i

/-- `jnp.ceil`. [external; called e.g. at quantized.py:39] -/
def ceil (a : FX F) : FX F := fn (fun x => .fin (⌈x⌉ : ℤ)) .pinf .ninf a

/-- `Quantized._sample_n` applied to a draw of the base distribution, quantized.py:125-137. -/
def quantized (low high : Option (FX F)) (base : FX F) : FX F :=
  let samples := ceil base
  let samples := match low with
    | some l => whr (samples < l) l samples
    | none => samples
  match high with
    | some h => whr (h < samples) h samples
    | none => samples

/-- A scalar bijector as `Transformed` uses it. [bijector.py:114-150] -/
structure Bij (F : Fmt) where
  forwardAndLogDet : FX F → FX F × FX F
  inverseAndLogDet : FX F → FX F × FX F

/-- `Sigmoid`, bijectors/sigmoid.py:41-63. -/
def sigmoidBij : Bij F where
  forwardAndLogDet x := (FloatBij.moreStableSigmoid x, FloatBij.sigmoidFldj x)
  inverseAndLogDet y := FloatBij.sigmoidInverse y

/-- `jnp.arctanh`. [external; called e.g. at tanh.py:68] -/
def arctanh (a : FX F) : FX F := F.round (match a.1 with
  | .fin x => if -1 < x ∧ x < 1 then .fin (Real.log ((1 + x) / (1 - x)) / 2) else if x = 1 then .pinf else if x = -1 then .ninf else .nan
  | _ => .nan)

/-- `Tanh`, bijectors/tanh.py:55-72. -/
def tanhBij : Bij F where
  forwardAndLogDet x := (tanh x, FloatBij.tanhFldj x)
  inverseAndLogDet y := (arctanh y, -(FloatBij.tanhFldj (arctanh y)))

/-- `Transformed._sample_n_and_log_prob` given the sample and log-probability of the base, transformed.py:174-191. -/
def transformedJoint (b : Bij F) (xlp : FX F × FX F) : FX F × FX F :=
  let (y, fldj) := b.forwardAndLogDet xlp.1
  (y, xlp.2 - fldj)

/-- `Transformed.log_prob`, transformed.py:154-160. -/
def transformedLogProb (b : Bij F) (baseLogProb : FX F → FX F) (y : FX F) : FX F :=
  let (x, ildjY) := b.inverseAndLogDet y
  let lpX := baseLogProb x
  lpX + ildjY

end FSample

end

end Distrax
