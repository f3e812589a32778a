import Verif.Model.HMMGrad
import Verif.Spec.HMM
import Verif.Lemmas.Pathwise

/-!
Vocabulary of C71: a family of hidden Markov models `h s` depending on a real parameter, and the gradient one expects.
-/

namespace Distrax.Spec

open Filter Topology

variable {K : ℕ} {O : Type}

/-- Every number handed to the algorithm carries the value and the derivative at `s0` of the corresponding number of the
family `h`. -/
structure Follows (h : ℝ → HMM K O) (d : HMMD K O) (s0 : ℝ) : Prop where
  init : ∀ k, Tracks (fun s => (h s).initProbs k) (d.initProbs k) s0
  trans : ∀ i j, Tracks (fun s => (h s).transProbs i j) (d.transProbs i j) s0
  obs : ∀ o k, Tracks (fun s => (h s).obsProb o k) (d.obsProb o k) s0

/-- Near `s0`, on both sides, no probability is negative (they need not sum to one: a single logit, one entry of a matrix or a
single density may be moved alone). -/
structure NonnegNear (h : ℝ → HMM K O) (s0 : ℝ) : Prop where
  init : ∀ k, ∀ᶠ s in 𝓝 s0, 0 ≤ (h s).initProbs k
  trans : ∀ i j, ∀ᶠ s in 𝓝 s0, 0 ≤ (h s).transProbs i j
  obs : ∀ o k, ∀ᶠ s in 𝓝 s0, 0 ≤ (h s).obsProb o k

/-- `p(z_t = i, z_{t+1} = j, x_{0..n})`. -/
def pairMarginal (h : HMM K O) (obs : ℕ → O) (n : ℕ) (t : Fin n) (i j : Fin K) : ℝ :=
  ∑ z : Fin (n + 1) → Fin K, if z t.castSucc = i ∧ z t.succ = j then h.joint obs z else 0

/-- The score of the observed sequence in a direction that moves `log init_probs` by `a`, `log trans_probs` by `b` and
`log obs_prob` by `c`: posterior expectations of the moves along the hidden path. -/
noncomputable def score (h : HMM K O) (obs : ℕ → O) (n : ℕ) (a : Fin K → ℝ) (b : Fin K → Fin K → ℝ) (c : O → Fin K → ℝ) : ℝ :=
  (∑ k, h.marginal obs n 0 k / h.evidence obs n * a k) +
    (∑ t : Fin n, ∑ i, ∑ j, pairMarginal h obs n t i j / h.evidence obs n * b i j) +
    ∑ t : Fin (n + 1), ∑ k, h.marginal obs n t k / h.evidence obs n * c (obs t) k

/-- The model as seen by `jax.jvp` when the only thing that moves is the log-probability that state `k` gives to the
observation `o`. -/
noncomputable def moveObs [DecidableEq O] (h : HMM K O) (o : O) (k : Fin K) : HMMD K O where
  initProbs i := Dual.const (h.initProbs i)
  transProbs i j := Dual.const (h.transProbs i j)
  obsProb o' i := ⟨h.obsProb o' i, if o' = o ∧ i = k then h.obsProb o' i else 0⟩

end Distrax.Spec
