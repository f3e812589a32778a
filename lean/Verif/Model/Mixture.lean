import Verif.Model.Categorical

/-!
# Mixtures

distributions/mixture_of_two.py and distributions/mixture_same_family.py, one batch entry of the mixture.
-/

namespace Distrax

open XR

noncomputable section

/-- `jnp.isnan`. [no line of its own; part of the model of mixture_same_family.py:37-157] -/
def XR.isNan (x : XR) : Prop := x = nan

/-- `jnp.abs`. [external; called e.g. at deterministic.py:96] -/
def XR.abs : XR → XR
  | nan => nan
  | fin a => fin |a|
  | pinf => pinf
  | ninf => pinf

/-- `jnp.logaddexp` (external, jax/_src/numpy/ufuncs.py): `amax + log1p(exp(-|delta|))`, or `x1 + x2` if `delta` is nan. -/
def logaddexp (x1 x2 : XR) : XR :=
  let amax := XR.max x1 x2
  let delta := x1 - x2
  XR.sel (XR.isNan delta) (x1 + x2) (amax + XR.log1p (XR.exp (-XR.abs delta)))

/-- `jax.scipy.special.logsumexp` of a row (external): shift by the maximum if it is finite, else by 0.
[external; called e.g. at mixture_same_family.py:124] -/
def logsumexp {n : ℕ} (a : Fin n → XR) : XR :=
  let amax := rowMax a
  let amax := XR.sel (XR.isFinite amax) amax 0
  XR.log (∑ i, XR.exp (a i - amax)) + amax

/-- mixture_of_two.py:38-72; the components are represented by their `log_prob`. -/
structure MixtureOfTwo (E : Type) where
  probA : ℝ
  logProbA : E → XR
  logProbB : E → XR

namespace MixtureOfTwo
variable {E : Type} (d : MixtureOfTwo E)

/-- mixture_of_two.py:56-68 the constructor's checks. `rank` is the rank of `prob_a`; `chex.assert_rank` raises
AssertionError. -/
def check {δ : Type} [DecidableEq δ] (rank : ℕ) (evA evB batchA batchB : List ℕ) (dtA dtB : δ) : Except Err Unit :=
  if rank ≠ 0 then .error .assertionError
  else if evA ≠ evB then .error .valueError
  else if batchA ≠ batchB then .error .valueError
  else if dtA ≠ dtB then .error .valueError
  else .ok ()

/-- mixture_of_two.py:74-81 `_sample_n`, given the `n` mask draws and the components' `n` samples, each a full batch: the
mask has shape `[n]` and is expanded over the batch and event axes. -/
def sampleN {n : ℕ} {B : Type} (maskFromA : Fin n → Bool) (sampleA sampleB : Fin n → B → E) : Fin n → B → E :=
  fun i b => if maskFromA i then sampleA i b else sampleB i b

/-- mixture_of_two.py:83-87 `log_prob` -/
def logProb (v : E) : XR :=
  let logp1 := XR.log (fin d.probA) + d.logProbA v
  let logp2 := XR.log (fin (1 - d.probA)) + d.logProbB v
  logaddexp logp1 logp2

/-- mixture_of_two.py:102-103 `prob_b` -/
def probB : ℝ := 1 - d.probA
end MixtureOfTwo

/-- mixture_same_family.py:37-71; `K` components, events of type `E`, event coordinates `ι` for the moments. -/
structure MixtureSameFamily (K : ℕ) (E ι : Type) where
  mixtureLogProbs : Fin K → XR
  compLogProb : Fin K → E → XR
  compMean : Fin K → ι → ℝ
  compVariance : Fin K → ι → ℝ

namespace MixtureSameFamily

/-- mixture_same_family.py:64-71 the constructor's only check. -/
def check (batchMixture batchComponents : List ℕ) : Except Err Unit :=
  if batchMixture ≠ batchComponents.dropLast then .error .valueError else .ok ()

variable {K : ℕ} {E ι : Type}

/-- mixture_same_family.py:42-71 weights from `logits_parameter()`. -/
def init (logits : Fin K → XR) (lp : Fin K → E → XR) (mean variance : Fin K → ι → ℝ) : MixtureSameFamily K E ι :=
  ⟨logSoftmax logits, lp, mean, variance⟩

variable (d : MixtureSameFamily K E ι)

/-- mixture_same_family.py:93-114 `_sample_n`, one draw: `mixSample` is the drawn component number and
`samplesAll k j` coordinate `j` of the draw of component `k` (`num_components = n` is the components' last batch axis). -/
def sample {n : ℕ} (mixSample : ℕ) (samplesAll : Fin n → ι → XR) : ι → XR :=
  let mask := oneHot n (fin mixSample)
  fun j => ∑ k, samplesAll k j * mask k

/-- mixture_same_family.py:116-124 `log_prob` -/
def logProb (v : E) : XR :=
  let lp := fun k => d.compLogProb k v
  logsumexp fun k => lp k + d.mixtureLogProbs k

/-- `jnp.exp(self._mixture_log_probs)`. [external; called e.g. at mixture_same_family.py:129] -/
def weights : Fin K → XR := fun k => XR.exp (d.mixtureLogProbs k)

/-- mixture_same_family.py:126-132 `mean` -/
def mean : ι → XR := fun j => ∑ k, fin (d.compMean k j) * d.weights k

/-- mixture_same_family.py:134-150 `variance` -/
def variance : ι → XR := fun j =>
  let mean := ∑ k, fin (d.compMean k j) * d.weights k
  let meanCondVar := ∑ k, d.weights k * fin (d.compVariance k j)
  let sqDiff := fun k => (fin (d.compMean k j) - mean) * (fin (d.compMean k j) - mean)
  let varCondMean := ∑ k, d.weights k * sqDiff k
  meanCondVar + varCondMean
end MixtureSameFamily

end

end Distrax
