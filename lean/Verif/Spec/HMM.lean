import Verif.Model.HMM

/-!
Brute-force specification of the hidden Markov model: sums over *all* state paths.
-/

namespace Distrax
namespace HMM

variable {K : ℕ} {O : Type}

/-- The component distributions are genuine: nonnegative, rows sum to one. -/
structure Valid (h : HMM K O) : Prop where
  init_nonneg : ∀ k, 0 ≤ h.initProbs k
  init_sum : ∑ k, h.initProbs k = 1
  trans_nonneg : ∀ i j, 0 ≤ h.transProbs i j
  trans_sum : ∀ i, ∑ j, h.transProbs i j = 1
  obs_nonneg : ∀ o k, 0 ≤ h.obsProb o k

/-- `p(z_{0..n}, x_{0..n})`: joint probability (density) of a state path and the first `n+1` observations. -/
def joint (h : HMM K O) (obs : ℕ → O) {n : ℕ} (z : Fin (n + 1) → Fin K) : ℝ :=
  h.initProbs (z 0) * (∏ t : Fin n, h.transProbs (z t.castSucc) (z t.succ)) *
    ∏ t : Fin (n + 1), h.obsProb (obs t) (z t)

/-- `p(x_{0..n})`. -/
def evidence (h : HMM K O) (obs : ℕ → O) (n : ℕ) : ℝ :=
  ∑ z : Fin (n + 1) → Fin K, h.joint obs z

/-- `p(z_t = k, x_{0..n})`. -/
def marginal (h : HMM K O) (obs : ℕ → O) (n : ℕ) (t : Fin (n + 1)) (k : Fin K) : ℝ :=
  ∑ z : Fin (n + 1) → Fin K, if z t = k then h.joint obs z else 0

/-- `p(x_{t+1..t+m} | z_t = k)`: sum over all continuations of length `m` from state `k` at time `t`. -/
def future (h : HMM K O) (obs : ℕ → O) (t m : ℕ) (k : Fin K) : ℝ :=
  ∑ w : Fin m → Fin K, ∏ s : Fin m,
    h.transProbs ((Fin.cons k w : Fin (m + 1) → Fin K) s.castSucc) (w s) *
      h.obsProb (obs (t + 1 + s)) (w s)

/-- `p(z_t = k, x_t | x_{0..t-1})`: the predictive weights the forward pass normalises (the denominator is
absent at `t = 0`). -/
noncomputable def predictive (h : HMM K O) (obs : ℕ → O) (t : ℕ) (k : Fin K) : ℝ :=
  h.marginal obs t (Fin.last t) k / (if t = 0 then 1 else h.evidence obs (t - 1))

/-- No predictive weight of the first `n` steps lies strictly between 0 and the clamp `1e-15`. -/
def NoClampForward (h : HMM K O) (obs : ℕ → O) (n : ℕ) : Prop :=
  ∀ t < n, ∀ k, h.predictive obs t k = 0 ∨ 1e-15 ≤ h.predictive obs t k

/-- Normalising constant of the backward message at time `t` when the sequence ends at time `n`
(the last message is the vector of ones, not normalised). -/
noncomputable def futureNorm (h : HMM K O) (obs : ℕ → O) (n t : ℕ) : ℝ :=
  if t = n then 1 else ∑ k, h.future obs t (n - t) k

/-- No backward weight lies strictly between 0 and `1e-15`. -/
def NoClampBackward (h : HMM K O) (obs : ℕ → O) (n : ℕ) : Prop :=
  ∀ t < n, ∀ k, h.future obs t (n - t) k / h.futureNorm obs n (t + 1) = 0 ∨
    1e-15 ≤ h.future obs t (n - t) k / h.futureNorm obs n (t + 1)

/-- No smoothing weight (filtering posterior times normalised backward message) lies strictly between 0 and
`1e-15`. -/
def NoClampSmooth (h : HMM K O) (obs : ℕ → O) (n : ℕ) : Prop :=
  ∀ t ≤ n, ∀ k,
    (h.marginal obs t (Fin.last t) k / h.evidence obs t) *
        (h.future obs t (n - t) k / h.futureNorm obs n t) = 0 ∨
    1e-15 ≤ (h.marginal obs t (Fin.last t) k / h.evidence obs t) *
        (h.future obs t (n - t) k / h.futureNorm obs n t)

/-- The log-parameters read by `viterbi` describe the same model as the probabilities: logits up to an
additive constant per distribution, observation log-probs exactly. -/
structure LogConsistent (h : HMM K O) : Prop where
  init : ∃ C : ℝ, 0 < C ∧ ∀ k, h.initLogits k = ENNReal.log (ENNReal.ofReal (C * h.initProbs k))
  trans : ∀ i, ∃ C : ℝ, 0 < C ∧
    ∀ j, h.transLogits i j = ENNReal.log (ENNReal.ofReal (C * h.transProbs i j))
  obs : ∀ o k, h.obsLogProb o k = ENNReal.log (ENNReal.ofReal (h.obsProb o k))

end HMM
end Distrax
