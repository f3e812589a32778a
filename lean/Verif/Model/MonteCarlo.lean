import Verif.Model.Categorical
import Verif.Model.Arr

/-!
# importance_sampling.py, monte_carlo.py

`E` is the type of events, a seed is an arbitrary type `K`.  One batch element, except for `mc_estimate_mode`, whose
array indexing is modelled with shapes.  `jax.lax.stop_gradient` is the identity on values; its effect on derivatives is
modelled in `diceTerm`.
-/

namespace Distrax

open XR

noncomputable section

variable {E K : Type}

/-- What the Monte Carlo utilities use of a (converted) distribution. [the calls of monte_carlo.py:64-103] -/
structure MDist (E K : Type) where
  /-- `log_prob(event)`. -/
  logProb : E → XR
  /-- `sample_and_log_prob(seed=key, sample_shape=[n])`, row by row. -/
  sampleAndLogProb : K → (n : ℕ) → Fin n → E × XR

/-- A distribution-like argument, distribution.py:361 `DistributionLike`, or an unsupported object. -/
inductive DistLike (E K : Type) where
  | distrax (d : MDist E K)
  /-- a TFP distribution and whether its `reparameterization_type` is `FULLY_REPARAMETERIZED`. -/
  | tfp (d : MDist E K) (fullyReparam : Bool)
  | other

/-- conversion.py:104-124 `as_distribution` (the wrapper of a TFP distribution delegates to it). -/
def asDist : DistLike E K → Except Err (MDist E K)
  | .distrax d => .ok d
  | .tfp d _ => .ok d
  | .other => .error .typeError

/-- importance_sampling.py:25-44 `importance_sampling_ratios`, at one event. -/
def importanceRatio (target sampling : E → XR) (event : E) : XR :=
  let logPi := target event
  let logMu := sampling event
  XR.exp (logPi - logMu)

/-- `jnp.mean(x, axis=0)` over `n` rows. [external; called e.g. at monte_carlo.py:103] -/
def xmean {n : ℕ} (x : Fin n → XR) : XR := (∑ i, x i) / fin n

/-- monte_carlo.py:97-103, given the samples and their proposal log-probabilities. -/
def klFromSamples {n : ℕ} (a b : E → XR) (sl : Fin n → E × XR) : XR :=
  xmean fun i =>
    let logpA := a (sl i).1
    let logpB := b (sl i).1
    let importanceWeight := XR.exp (logpA - (sl i).2)
    let logRatio := logpB - logpA
    XR.neg importanceWeight * logRatio

/-- monte_carlo.py:64-103 `mc_estimate_kl`. -/
def mcEstimateKl (a b : DistLike E K) (key : K) (n : ℕ) (proposal : Option (DistLike E K)) : Except Err XR := do
  let q ← asDist (proposal.getD a)
  let a ← asDist a
  let b ← asDist b
  pure (klFromSamples a.logProb b.logProb (q.sampleAndLogProb key n))

/-- monte_carlo.py:29-61 `estimate_kl_best_effort`; `kl` is the dispatch of `tfd.kl_divergence`. -/
def estimateKlBestEffort (kl : MDist E K → MDist E K → Except Err XR) (a b : DistLike E K) (key : K) (n : ℕ)
    (proposal : Option (DistLike E K)) : Except Err XR := do
  let a' ← asDist a
  let b' ← asDist b
  match kl a' b' with
  | .ok v => .ok v
  | .error .notImplemented => mcEstimateKl (.distrax a') (.distrax b') key n proposal
  | .error e => .error e

/-- monte_carlo.py:119-124, given the samples and their log-probabilities under `a`. -/
def klReparam {n : ℕ} (b : E → XR) (sl : Fin n → E × XR) : XR :=
  xmean fun i =>
    let logpB := b (sl i).1
    XR.neg (logpB - (sl i).2)

/-- monte_carlo.py:106-124 `mc_estimate_kl_with_reparameterized`. -/
def mcEstimateKlReparam (a b : DistLike E K) (key : K) (n : ℕ) : Except Err XR :=
  match a with
  | .tfp _ false => .error .valueError
  | _ => do
    let a ← asDist a
    let b ← asDist b
    pure (klReparam b.logProb (a.sampleAndLogProb key n))

/-- One term of the estimator as a function of the parameters: samples and proposal log-probabilities are constants
(`stop_gradient`, monte_carlo.py:96-97), the two log-densities are not. -/
def diceTerm (logpA logpB : ℝ → ℝ) (logpProposal : ℝ) (φ : ℝ) : ℝ :=
  -Real.exp (logpA φ - logpProposal) * (logpB φ - logpA φ)

/-! ### mc_estimate_mode -/

/-- Integer arrays. [no line of its own; part of the model of monte_carlo.py:1-142] -/
structure IArr where
  shape : List ℕ
  data : List ℕ → ℕ

/-- `jnp.argmax(log_probs, axis=0)` for an array of shape `(n + 1) :: batch`. [external; called e.g. at monte_carlo.py:137] -/
def argmax0 (n : ℕ) (batch : List ℕ) (lp : List ℕ → XR) : IArr :=
  ⟨batch, fun β => argmaxIdx fun k : Fin (n + 1) => lp (k.val :: β)⟩

/-- `jnp.expand_dims(x, axis=0)`. [external; called e.g. at monte_carlo.py:137] -/
def IArr.expand0 (x : IArr) : IArr := ⟨1 :: x.shape, fun i => x.data i.tail⟩

/-- `x.reshape(x.shape + (1,) * k)`. [no line of its own; part of the model of monte_carlo.py:1-142] -/
def IArr.padRight (x : IArr) (k : ℕ) : IArr :=
  ⟨x.shape ++ List.replicate k 1, fun i => x.data (i.take x.shape.length)⟩

/-- `jnp.take_along_axis(a, index, axis=0)` (other axes broadcast), then `jnp.squeeze(., axis=0)`. [external; called e.g. at monte_carlo.py:140] -/
def takeAlong0Squeeze (a : Arr) (index : IArr) : Except Err Arr :=
  match a.shape, index.shape with
  | _ :: sa, 1 :: si =>
    if sa.length ≠ si.length then .error .valueError
    else match broadcastShapes sa si with
      | none => .error .valueError
      | some t => .ok ⟨t, fun i => a.data (index.data (0 :: proj si i) :: proj sa i)⟩
  | _, _ => .error .valueError

/-- monte_carlo.py:127-141 `mc_estimate_mode` on the samples (shape `(n+1) :: batch ++ event`) and their
log-probabilities (shape `(n+1) :: batch`). -/
def mcEstimateMode (n : ℕ) (batch : List ℕ) (samples : Arr) (logProbs : List ℕ → XR) : Except Err Arr :=
  let index := (argmax0 n batch logProbs).expand0
  let index := index.padRight (samples.shape.length - index.shape.length)
  takeAlong0Squeeze samples index

end

end Distrax
