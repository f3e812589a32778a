import Verif.Model.FloatHMM

/-!
`HMM.viterbi` (hmm.py) in floating point: the log-probabilities are floats, every addition is rounded, and the back-pointers are read out by
a one-hot product in floating point, as in the code.

SIMPLIFICATIONS: those of `Model/FloatArith`; the results of `jax.nn.log_softmax` and of `obs_dist.log_prob` are given (for `log_softmax`
see `FloatCat.LogSoftmax`); the order of the sum in the one-hot product is arbitrary.
-/

namespace Distrax

open FX

/-- The arrays the algorithm reads: `log_softmax(init_dist.logits)`, `log_softmax(trans_dist.logits)`, `obs_dist.log_prob(x)`.
hmm.py:290-293. -/
structure FVit (F : Fmt) (K : ℕ) (O : Type) where
  initLogProbs : Fin K → FX F
  transLogProbs : Fin K → Fin K → FX F
  obsLogProb : O → Fin K → FX F

namespace FVit

variable {F : Fmt} {K : ℕ} {O : Type}

noncomputable section

open Classical in
/-- `jnp.argmax`: the first `nan` if there is one, otherwise the first index at which the maximum is attained.
[external; called e.g. at hmm.py:296] -/
def argmax [NeZero K] (f : Fin K → FX F) : Fin K :=
  ((List.finRange K).find? fun i => decide ((f i).isNan ∨ ∀ j, f j ≤ f i)).getD 0

/-- `jnp.max`: `nan` if there is one. [external; called e.g. at hmm.py:301] -/
def maximum [NeZero K] (f : Fin K → FX F) : FX F := f (argmax f)

/-- `viterbi_forward`, hmm.py:298-303. -/
def viterbiForward [NeZero K] (h : FVit F K O) (prevLogp : Fin K → FX F) (o : O) : (Fin K → FX F) × (Fin K → Fin K) :=
  let obsLogp := h.obsLogProb o
  let logp : Fin K → Fin K → FX F := fun i j => prevLogp i + h.transLogProbs i j + obsLogp j
  let maxLogpGivenSuccessor := fun j => maximum fun i => logp i j
  let mostLikelyGivenSuccessor := fun j => argmax fun i => logp i j
  (maxLogpGivenSuccessor, mostLikelyGivenSuccessor)

/-- `astype(jnp.int64)` of a float: the fraction is dropped (what happens to infinities and `nan` is up to the implementation). [hmm.py:316] -/
def toInt (a : FX F) : ℤ :=
  match a.1 with
  | .fin x => if 0 ≤ x then ⌊x⌋ else ⌈x⌉
  | _ => 0

/-- `viterbi_backward`, hmm.py:314-317: the indices are converted to float for the product with the one-hot vector. -/
def viterbiBackward (S : (Fin K → FX F) → FX F) (state : ℤ) (mostLikelySources : Fin K → Fin K) : ℤ × ℤ :=
  let oneHot : Fin K → FX F := fun k => if ((k : ℕ) : ℤ) = state then lit 1 else lit 0
  let mostLikely := toInt (S fun k => lit ((mostLikelySources k : ℕ) : ℝ) * oneHot k)
  (mostLikely, mostLikely)

/-- `HMM.viterbi`, hmm.py:278-323. -/
def viterbi [NeZero K] (h : FVit F K O) (obs : ℕ → O) (S : (Fin K → FX F) → FX F) (seqLen : ℕ) : List ℤ :=
  let firstLogProb : Fin K → FX F := fun k => h.initLogProbs k + h.obsLogProb (obs 0) k
  if seqLen = 1 then [((argmax firstLogProb : ℕ) : ℤ)]
  else
    let (finalLogProb, mostLikelySources) :=
      HMM.scan h.viterbiForward firstLogProb ((List.range' 1 (seqLen - 1)).map obs)
    let mostLikelyInitialGivenSuccessor : Fin K → Fin K := fun j => argmax fun i => h.transLogProbs i j + firstLogProb j
    let mostLikelySources := mostLikelyInitialGivenSuccessor :: mostLikelySources
    let finalState : ℤ := ((argmax finalLogProb : ℕ) : ℤ)
    let (_, mostLikelyPath) := HMM.scanRev (viterbiBackward S) finalState mostLikelySources.tail
    mostLikelyPath ++ [finalState]

end

end FVit

end Distrax
