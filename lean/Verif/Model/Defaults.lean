import Verif.Model.Shape
import Verif.Model.XR
import Verif.Model.MathUtils

/-!
# Methods the base class derives from others

distributions/distribution.py: `batch_shape` (109-130), `prob` (92-101), `cdf` (208-217), `survival_function` (219-238),
`log_survival_function` (240-260), `stddev` (277-279), `cross_entropy` (286-296).
-/

namespace Distrax

noncomputable section

/-- distribution.py:286-296 `cross_entropy` for one batch entry: `kl_divergence(other) + entropy()`.  Errors (an unregistered
pair of types, a missing `entropy`) propagate. -/
def crossEntropy {L : Type} [Add L] (kl entropy : Except Err L) : Except Err L := do
  let k ← kl
  let h ← entropy
  return k + h

/-- distribution.py:286-296 `cross_entropy` on arrays (numpy `+` broadcasts). -/
def crossEntropyArr (kl entropy : Except Err Arr) : Except Err Arr := do
  let k ← kl
  let h ← entropy
  Arr.bin (· + ·) k h

/-- distribution.py:92-101 default `prob`, one entry. -/
def defaultProb (logProb : XR) : XR := XR.exp logProb

/-- distribution.py:208-217 default `cdf`, one entry. -/
def defaultCdf (logCdf : XR) : XR := XR.exp logCdf

/-- distribution.py:219-238 default `survival_function`, one entry; `event` is `self.event_shape`. -/
def defaultSurvival (event : List ℕ) (cdf : XR) : Except Err XR :=
  if event = [] then .ok (1 - cdf) else .error .notImplemented

/-- distribution.py:240-260 default `log_survival_function`, one entry. -/
def defaultLogSurvival (event : List ℕ) (cdf : XR) : Except Err XR :=
  if event = [] then .ok (XR.log1p (-cdf)) else .error .notImplemented

/-- distribution.py:277-279 default `stddev`, one entry. -/
def defaultStddev (variance : ℝ) : ℝ := Real.sqrt variance

/-- distribution.py:111-118: the batch shape read off one leaf of a sample of shape `s` with event shape `e`
(`s[:len(s) - len(e)]`; python counts a negative bound from the end, `s[:-k] = s.take (len(s) - k)`). -/
def leafBatch (s e : List ℕ) : List ℕ :=
  if e.length ≤ s.length then s.take (s.length - e.length) else s.take (s.length - (e.length - s.length))

/-- distribution.py:120-130: the first leaf's batch shape, after comparing all others with it (`np.testing.assert_equal`
raises AssertionError).  No leaves: `()`. -/
def commonBatch : List (List ℕ) → Except Err (List ℕ)
  | [] => .ok []
  | b :: bs => if bs.all (fun c => b == c) then .ok b else .error .assertionError

/-- distribution.py:109-130 default `batch_shape` of a distribution whose flattened sample has the leaves `(shape, event shape)`
(`jax.eval_shape` of `sample(sample_shape=())`).  For a single array event this is the one-leaf case (line 114 treats an empty
event shape separately, with the same result). -/
def defaultBatchShape (leaves : List (List ℕ × List ℕ)) : Except Err (List ℕ) :=
  commonBatch (leaves.map fun l => leafBatch l.1 l.2)

end

end Distrax
