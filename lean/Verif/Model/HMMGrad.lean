import Verif.Model.HMM
import Verif.Model.SplineGrad

/-!
# `jax.jvp` through the hidden Markov model

`_normalize`, `forward`, `backward` and `forward_backward` of `/repo/distrax/_src/utils/hmm.py` on numbers that carry a
tangent (`Dual`).  jax's rules used here (from memory): the usual ones for `+ * /` and `log`; comparisons carry no tangent;
`jnp.where` passes the tangent of the branch taken, and the branches `0`, `eps`, `1`, `zeros_like` are constants;
`lax.scan` is differentiated step by step.  Reverse mode transposes the same linear maps, so a directional derivative
computed here is the inner product of the direction with what `jax.grad` returns.  An observation whose probability depends on
the direction (a differentiated `obs_seq`) is covered by taking the time step itself as the observation.
-/

namespace Distrax

noncomputable section

/-- The arrays the algorithms read (`init_dist.probs`, `trans_dist.probs`, `obs_dist.prob(x)`), each with its tangent.
hmm.py 50-113. -/
structure HMMD (K : ℕ) (O : Type) where
  initProbs : Fin K → Dual
  transProbs : Fin K → Fin K → Dual
  obsProb : O → Fin K → Dual

namespace HMMD

variable {K : ℕ} {O : Type}

/-- `_normalize`, hmm.py 28-44, with tangents. -/
def normalizeD (eps : ℝ) (u : Fin K → Dual) : (Fin K → Dual) × Dual :=
  let u := fun k => Dual.where_ (decide ((u k).val = 0)) (Dual.const 0)
    (Dual.where_ (decide ((u k).val < eps)) (Dual.const eps) (u k))
  let c := Dual.sum u
  let c := Dual.where_ (decide (c.val = 0)) (Dual.const 1) c
  (fun k => u k / c, c)

/-- `scan_fn` of `forward`, hmm.py 172-183, with tangents. -/
def forwardStepD (h : HMMD K O) (obs : ℕ → O) (length : ℕ)
    (carry : (Fin K → Dual) × Dual) (t : ℕ) : ((Fin K → Dual) × Dual) × (Fin K → Dual) :=
  let alphaPrev := carry.1
  let logLlPrev := carry.2
  let alphaN : Fin K → Dual := fun j => Dual.where_ (decide (t < length))
    (h.obsProb (obs t) j * Dual.sum fun i => alphaPrev i * h.transProbs i j) (Dual.const 0)
  let r := normalizeD HMM.eps alphaN
  ((r.1, r.2.log + logLlPrev), r.1)

/-- `HMM.forward`, hmm.py 152-197, with tangents. -/
def forwardD (h : HMMD K O) (obs : ℕ → O) (seqLen length : ℕ) : Dual × List (Fin K → Dual) :=
  let r := normalizeD HMM.eps (fun k => h.initProbs k * h.obsProb (obs 0) k)
  let initState := (r.1, r.2.log)
  let ts := List.range' 1 (seqLen - 1)
  let out := HMM.scan (forwardStepD h obs length) initState ts
  (out.1.2, r.1 :: out.2)

/-- `scan_fn` of `backward`, hmm.py 220-226, with tangents. -/
def backwardStepD (h : HMMD K O) (obs : ℕ → O) (length : ℕ)
    (betaPrev : Fin K → Dual) (t : ℕ) : (Fin K → Dual) × (Fin K → Dual) :=
  let n := (normalizeD HMM.eps fun i => Dual.sum fun j => betaPrev j * h.obsProb (obs (t - 1)) j * h.transProbs i j).1
  let betaT : Fin K → Dual := fun i => Dual.where_ (decide (length < t)) (Dual.const 0) (n i)
  (betaT, betaT)

/-- `HMM.backward`, hmm.py 199-234, with tangents. -/
def backwardD (h : HMMD K O) (obs : ℕ → O) (seqLen length : ℕ) : List (Fin K → Dual) :=
  let betaT : Fin K → Dual := fun _ => Dual.const 1
  let ts := (List.range' 2 (seqLen - 1)).reverse
  let out := HMM.scan (backwardStepD h obs length) betaT ts
  (betaT :: out.2).reverse

/-- `HMM.forward_backward`, hmm.py 236-276, with tangents: `(alpha, beta, gamma, ll)`. -/
def forwardBackwardD (h : HMMD K O) (obs : ℕ → O) (seqLen length : ℕ) :
    List (Fin K → Dual) × List (Fin K → Dual) × List (Fin K → Dual) × Dual :=
  let f := forwardD h obs seqLen length
  let beta := backwardD h obs seqLen length
  let gamma := List.zipWith (fun a b => fun k => a k * b k) f.2 beta
  let gamma := gamma.map fun x => (normalizeD HMM.eps x).1
  (f.2, beta, gamma, f.1)

end HMMD
end
end Distrax
