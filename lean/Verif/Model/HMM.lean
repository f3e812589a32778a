import Mathlib.Analysis.SpecialFunctions.Log.ENNRealLogExp
import Mathlib.Data.List.MinMax
import Mathlib.Data.Real.Basic
import Verif.Model.Arr

/-!
Model of `/repo/distrax/_src/utils/hmm.py`.

* `K` is the number of latent states; state-indexed arrays are functions `Fin K → ℝ`.
* An observation sequence is given by its length `seqLen ≥ 1` and a lookup `obs : ℕ → O`, of which only the
  indices `< seqLen` are read (the python code indexes `obs_seq[t]` with such indices only).
* Probabilities are reals; log-probabilities in `viterbi` are extended reals (so `-inf` is represented).
-/

namespace Distrax

/-- The component distributions an `HMM` object holds, as the arrays the algorithms read from them:
`init_dist.probs`, `trans_dist.probs`, `obs_dist.prob(x)`, and for viterbi `init_dist.logits`,
`trans_dist.logits`, `obs_dist.log_prob(x)`.  hmm.py 50-113. -/
structure HMM (K : ℕ) (O : Type) where
  initProbs : Fin K → ℝ
  transProbs : Fin K → Fin K → ℝ
  obsProb : O → Fin K → ℝ
  initLogits : Fin K → EReal
  transLogits : Fin K → Fin K → EReal
  obsLogProb : O → Fin K → EReal

namespace HMM

/-- `_normalize`, hmm.py 28-44. -/
noncomputable def normalize {K : ℕ} (eps : ℝ) (u : Fin K → ℝ) : (Fin K → ℝ) × ℝ :=
  let u := fun k => if u k = 0 then 0 else if u k < eps then eps else u k
  let c := ∑ k, u k
  let c := if c = 0 then 1 else c
  (fun k => u k / c, c)

/-- The default `eps` of `_normalize`, hmm.py 30. -/
noncomputable def eps : ℝ := 1e-15

/-- `jax.lax.scan`: thread a carry through the list, collecting outputs. [external; called e.g. at hmm.py:141] -/
def scan {C X Y : Type} (f : C → X → C × Y) (c : C) : List X → C × List Y
  | [] => (c, [])
  | x :: xs =>
    let r := f c x
    let rest := scan f r.1 xs
    (rest.1, r.2 :: rest.2)

/-- `jax.lax.scan(..., reverse=True)`: run from the last element, outputs stay in the original order. [external; called e.g. at hmm.py:141] -/
def scanRev {C X Y : Type} (f : C → X → C × Y) (c : C) : List X → C × List Y
  | [] => (c, [])
  | x :: xs =>
    let rest := scanRev f c xs
    let r := f rest.1 x
    (r.1, r.2 :: rest.2)

variable {K : ℕ} {O : Type}

/-- `scan_fn` of `forward`, hmm.py 172-183. -/
noncomputable def forwardStep (h : HMM K O) (obs : ℕ → O) (length : ℕ)
    (carry : (Fin K → ℝ) × ℝ) (t : ℕ) : ((Fin K → ℝ) × ℝ) × (Fin K → ℝ) :=
  let alphaPrev := carry.1
  let logLlPrev := carry.2
  let alphaN : Fin K → ℝ :=
    if t < length then fun j => h.obsProb (obs t) j * ∑ i, alphaPrev i * h.transProbs i j
    else fun _ => 0
  let (alphaN, cn) := normalize eps alphaN
  ((alphaN, Real.log cn + logLlPrev), alphaN)

/-- `HMM.forward`, hmm.py 152-197: the log-likelihood and the rows of `alpha_hist`.
`Real.log` is applied to normalisers only, which are never zero (`normalize_snd_pos`). -/
noncomputable def forward (h : HMM K O) (obs : ℕ → O) (seqLen length : ℕ) : ℝ × List (Fin K → ℝ) :=
  let (alpha0, c0) := normalize eps (fun k => h.initProbs k * h.obsProb (obs 0) k)
  let initState := (alpha0, Real.log c0)
  let ts := List.range' 1 (seqLen - 1)
  let (carry, alphaHist) := scan (forwardStep h obs length) initState ts
  (carry.2, alpha0 :: alphaHist)

/-- `scan_fn` of `backward`, hmm.py 220-226. -/
noncomputable def backwardStep (h : HMM K O) (obs : ℕ → O) (length : ℕ)
    (betaPrev : Fin K → ℝ) (t : ℕ) : (Fin K → ℝ) × (Fin K → ℝ) :=
  let betaT : Fin K → ℝ :=
    if length < t then fun _ => 0
    else (normalize eps fun i => ∑ j, betaPrev j * h.obsProb (obs (t - 1)) j * h.transProbs i j).1
  (betaT, betaT)

/-- `HMM.backward`, hmm.py 199-234.  `jnp.arange(seq_len, 1, -1)` is `seqLen, seqLen-1, ..., 2`. -/
noncomputable def backward (h : HMM K O) (obs : ℕ → O) (seqLen length : ℕ) : List (Fin K → ℝ) :=
  let betaT : Fin K → ℝ := fun _ => 1
  let ts := (List.range' 2 (seqLen - 1)).reverse
  let (_, betaHist) := scan (backwardStep h obs length) betaT ts
  (betaT :: betaHist).reverse

/-- `HMM.forward_backward`, hmm.py 236-276: `(alpha, beta, gamma, ll)`. -/
noncomputable def forwardBackward (h : HMM K O) (obs : ℕ → O) (seqLen length : ℕ) :
    List (Fin K → ℝ) × List (Fin K → ℝ) × List (Fin K → ℝ) × ℝ :=
  let (ll, alpha) := forward h obs seqLen length
  let beta := backward h obs seqLen length
  let gamma := List.zipWith (fun a b => fun k => a k * b k) alpha beta
  let gamma := gamma.map fun x => (normalize eps x).1
  (alpha, beta, gamma, ll)

/-- `jnp.argmax` over the states: the first index at which the maximum is attained. [external; called e.g. at hmm.py:296] -/
noncomputable def argmax [NeZero K] (f : Fin K → EReal) : Fin K :=
  ((List.finRange K).argmax f).getD 0

/-- `jax.nn.log_softmax` on extended reals (`exp(-inf) = 0`). [external; called e.g. at hmm.py:290] -/
noncomputable def logSoftmax (l : Fin K → EReal) (k : Fin K) : EReal :=
  l k - ENNReal.log (∑ j, (l j).exp)

/-- `viterbi_forward`, hmm.py 298-303. -/
noncomputable def viterbiForward [NeZero K] (transLogProbs : Fin K → Fin K → EReal)
    (obsLogProb : O → Fin K → EReal) (prevLogp : Fin K → EReal) (o : O) :
    (Fin K → EReal) × (Fin K → Fin K) :=
  let logp : Fin K → Fin K → EReal := fun i j => prevLogp i + transLogProbs i j + obsLogProb o j
  (fun j => Finset.univ.sup' Finset.univ_nonempty fun i => logp i j, fun j => argmax fun i => logp i j)

/-- `viterbi_backward`, hmm.py 314-317: selects `most_likely_sources[state]` by a one-hot product. -/
def viterbiBackward (state : ℕ) (mostLikelySources : Fin K → Fin K) : ℕ × ℕ :=
  let oneHot : Fin K → ℕ := fun k => if (k : ℕ) = state then 1 else 0
  let mostLikely := ∑ k, (mostLikelySources k : ℕ) * oneHot k
  (mostLikely, mostLikely)

/-- `HMM.viterbi`, hmm.py 278-323. -/
noncomputable def viterbi [NeZero K] (h : HMM K O) (obs : ℕ → O) (seqLen : ℕ) : List ℕ :=
  let transLogProbs : Fin K → Fin K → EReal := fun i => logSoftmax (h.transLogits i)
  let initLogProbs : Fin K → EReal := logSoftmax h.initLogits
  let firstLogProb : Fin K → EReal := fun k => initLogProbs k + h.obsLogProb (obs 0) k
  if seqLen = 1 then [(argmax firstLogProb : ℕ)]
  else
    let (finalLogProb, mostLikelySources) :=
      scan (viterbiForward transLogProbs h.obsLogProb) firstLogProb
        ((List.range' 1 (seqLen - 1)).map obs)
    let mostLikelyInitialGivenSuccessor : Fin K → Fin K :=
      fun j => argmax fun i => transLogProbs i j + firstLogProb j
    let mostLikelySources := mostLikelyInitialGivenSuccessor :: mostLikelySources
    let finalState : ℕ := (argmax finalLogProb : ℕ)
    let (_, mostLikelyPath) := scanRev viterbiBackward finalState mostLikelySources.tail
    mostLikelyPath ++ [finalState]

/-- `HMM.sample`, hmm.py 115-150.  Randomness is explicit: `initDraw` is `init_dist.sample`, `transDraw t i`
is entry `i` of `trans_dist.sample` with the `t`-th transition key, `obsDraw t i` entry `i` of
`obs_dist.sample` with the `t`-th observation key. -/
def sample (initDraw : Fin K) (transDraw : ℕ → Fin K → Fin K) (obsDraw : ℕ → Fin K → O) (seqLen : ℕ) :
    List (Fin K) × List O :=
  let (_, states) := scan (fun prev (key : ℕ) => (transDraw key prev, transDraw key prev)) initDraw
    (List.range (seqLen - 1))
  let states := initDraw :: states
  (states, List.zipWith (fun state key => obsDraw key state) states (List.range seqLen))

/-- What `HMM.__init__` looks at: dtype is integer, batch shape, number of categories. [hmm.py:50-101] -/
structure DistInfo where
  intDtype : Bool
  batchShape : List ℕ
  numCategories : ℕ

/-- The checks of `HMM.__init__` in order, hmm.py 68-101.  Returns the number of states. -/
def mk? (initD transD : DistInfo) (obsBatchShape : List ℕ) : Except Err ℕ :=
  if !initD.intDtype then .error .typeError
  else if !transD.intDtype then .error .typeError
  else if initD.batchShape ≠ [] then .error .valueError
  else if obsBatchShape ≠ [initD.numCategories] then .error .valueError
  else if transD.batchShape ≠ [initD.numCategories] then .error .valueError
  else if transD.numCategories ≠ initD.numCategories then .error .valueError
  else .ok initD.numCategories

end HMM
end Distrax
