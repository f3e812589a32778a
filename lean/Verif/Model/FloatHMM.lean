import Verif.Model.FloatArith
import Verif.Model.HMM

/-!
`HMM.forward`, `HMM.backward` and `HMM.forward_backward` (hmm.py) in floating point: every product, quotient and logarithm is rounded, and
the sums over states are taken in whatever order the compiler chooses.  The order is given by functions from vectors to floats, one for
every place of the program where a sum is taken (`S t (some j)`: entry `j` of the matrix product at step `t`, `S t none`: the
normaliser); that they are sums is `IsSum` of `Spec/FloatHMM`.

SIMPLIFICATIONS: those of `Model/FloatArith`; the probabilities of the component distributions are given as floats (the arrays that
`init_dist.probs`, `trans_dist.probs` and `obs_dist.prob(x)` return).
-/

namespace Distrax

open FX

/-- The arrays the algorithms read: `init_dist.probs`, `trans_dist.probs`, `obs_dist.prob(x)`.  hmm.py:50-113. -/
structure FHMM (F : Fmt) (K : ℕ) (O : Type) where
  initProbs : Fin K → FX F
  transProbs : Fin K → Fin K → FX F
  obsProb : O → Fin K → FX F

namespace FHMM

variable {F : Fmt} {K : ℕ} {O : Type}

noncomputable section

/-- `_normalize`, hmm.py:28-44; the default `eps` is converted to the dtype of the array. -/
def normalize (s : (Fin K → FX F) → FX F) (u : Fin K → FX F) : (Fin K → FX F) × FX F :=
  let u := fun k => whr (u k = lit 0) (lit 0) (whr (u k < lit 1e-15) (lit 1e-15) (u k))
  let c := s u
  let c := whr (c = lit 0) (lit 1) c
  (fun k => u k / c, c)

/-- The unnormalised `alpha_n` of `forward`, hmm.py:174-178 (branch `t < length`). -/
def weights (h : FHMM F K O) (obs : ℕ → O) (S : ℕ → Option (Fin K) → (Fin K → FX F) → FX F) (t : ℕ) (alphaPrev : Fin K → FX F) :
    Fin K → FX F :=
  fun j => h.obsProb (obs t) j * S t (some j) fun i => alphaPrev i * h.transProbs i j

/-- `scan_fn` of `forward`, hmm.py:172-183. -/
def forwardStep (h : FHMM F K O) (obs : ℕ → O) (S : ℕ → Option (Fin K) → (Fin K → FX F) → FX F) (length : ℕ)
    (carry : (Fin K → FX F) × FX F) (t : ℕ) : ((Fin K → FX F) × FX F) × (Fin K → FX F) :=
  let alphaPrev := carry.1
  let logLlPrev := carry.2
  let alphaN : Fin K → FX F := if t < length then h.weights obs S t alphaPrev else fun _ => lit 0
  let (alphaN, cn) := normalize (S t none) alphaN
  ((alphaN, FX.log cn + logLlPrev), alphaN)

/-- The first weights, hmm.py:187. -/
def initWeights (h : FHMM F K O) (obs : ℕ → O) : Fin K → FX F := fun k => h.initProbs k * h.obsProb (obs 0) k

/-- `HMM.forward`, hmm.py:152-197: the log-likelihood and the rows of `alpha_hist`. -/
def forward (h : FHMM F K O) (obs : ℕ → O) (S : ℕ → Option (Fin K) → (Fin K → FX F) → FX F) (seqLen length : ℕ) :
    FX F × List (Fin K → FX F) :=
  let (alpha0, c0) := normalize (S 0 none) (h.initWeights obs)
  let initState := (alpha0, FX.log c0)
  let ts := List.range' 1 (seqLen - 1)
  let (carry, alphaHist) := HMM.scan (forwardStep h obs S length) initState ts
  (carry.2, alpha0 :: alphaHist)

/-- The unnormalised `beta_t` of `backward`, hmm.py:224-225. -/
def backWeights (h : FHMM F K O) (obs : ℕ → O) (S : ℕ → Option (Fin K) → (Fin K → FX F) → FX F) (t : ℕ) (betaPrev : Fin K → FX F) :
    Fin K → FX F :=
  fun i => S t (some i) fun j => betaPrev j * h.obsProb (obs (t - 1)) j * h.transProbs i j

/-- `scan_fn` of `backward`, hmm.py:220-226. -/
def backwardStep (h : FHMM F K O) (obs : ℕ → O) (S : ℕ → Option (Fin K) → (Fin K → FX F) → FX F) (length : ℕ)
    (betaPrev : Fin K → FX F) (t : ℕ) : (Fin K → FX F) × (Fin K → FX F) :=
  let betaT : Fin K → FX F :=
    if length < t then fun _ => lit 0 else (normalize (S t none) (h.backWeights obs S t betaPrev)).1
  (betaT, betaT)

/-- `HMM.backward`, hmm.py:199-234. -/
def backward (h : FHMM F K O) (obs : ℕ → O) (S : ℕ → Option (Fin K) → (Fin K → FX F) → FX F) (seqLen length : ℕ) :
    List (Fin K → FX F) :=
  let betaT : Fin K → FX F := fun _ => lit 1
  let ts := (List.range' 2 (seqLen - 1)).reverse
  let (_, betaHist) := HMM.scan (backwardStep h obs S length) betaT ts
  (betaT :: betaHist).reverse

/-- `HMM.forward_backward`, hmm.py:236-276: `(alpha, beta, gamma, ll)`; `Sf`, `Sb` the sums of the two passes, `Sg` those of the last
normalisation (under `vmap` the order of summation is the same for all times). -/
def forwardBackward (h : FHMM F K O) (obs : ℕ → O) (Sf Sb : ℕ → Option (Fin K) → (Fin K → FX F) → FX F)
    (Sg : (Fin K → FX F) → FX F) (seqLen length : ℕ) :
    List (Fin K → FX F) × List (Fin K → FX F) × List (Fin K → FX F) × FX F :=
  let (ll, alpha) := forward h obs Sf seqLen length
  let beta := backward h obs Sb seqLen length
  let gamma := List.zipWith (fun a b => fun k => a k * b k) alpha beta
  let gamma := gamma.map fun x => (normalize Sg x).1
  (alpha, beta, gamma, ll)

end

end FHMM

end Distrax
