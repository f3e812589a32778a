import Verif.Model.FloatViterbi
import Verif.Spec.FloatHMM

/-! What C77 says: the log joint probability of a path with the observations, exactly and as evaluated in floating point. -/

namespace Distrax

open FX

namespace FVit

variable {F : Fmt} {K : ℕ} {O : Type}

/-- The log joint probability of the first `n + 1` states of the path `z` and the first `n + 1` observations, evaluated in floating point
from left to right. -/
noncomputable def floatScore (h : FVit F K O) (obs : ℕ → O) (z : ℕ → Fin K) : ℕ → FX F
  | 0 => h.initLogProbs (z 0) + h.obsLogProb (obs 0) (z 0)
  | n + 1 => h.floatScore obs z n + h.transLogProbs (z n) (z (n + 1)) + h.obsLogProb (obs (n + 1)) (z (n + 1))

/-- The path is possible: none of the log-probabilities along it is `-inf`. -/
def Possible (h : FVit F K O) (obs : ℕ → O) (z : ℕ → Fin K) (n : ℕ) : Prop :=
  (h.initLogProbs (z 0)).finite ∧ (∀ t ≤ n, (h.obsLogProb (obs t) (z t)).finite) ∧ ∀ t < n, (h.transLogProbs (z t) (z (t + 1))).finite

/-- The exact log joint probability of a possible path under the log-probabilities that the floats stand for. -/
noncomputable def logJoint (h : FVit F K O) (obs : ℕ → O) (z : ℕ → Fin K) (n : ℕ) : ℝ :=
  (h.initLogProbs (z 0)).val + (∑ t ∈ Finset.range (n + 1), (h.obsLogProb (obs t) (z t)).val) +
    ∑ t ∈ Finset.range n, (h.transLogProbs (z t) (z (t + 1))).val

/-- Every log-probability satisfies `P`. -/
structure All (h : FVit F K O) (P : FX F → Prop) : Prop where
  init : ∀ k, P (h.initLogProbs k)
  trans : ∀ i j, P (h.transLogProbs i j)
  obs : ∀ o k, P (h.obsLogProb o k)

/-- A log-probability: `-inf`, or a number of absolute value at most `M`. -/
def Bounded (M : ℝ) (a : FX F) : Prop := a.1 = .ninf ∨ (a.finite ∧ |a.val| ≤ M)

/-- The state indices are exact in the float format (true in single precision for up to `2^24` states). -/
def IndicesExact (F : Fmt) (K : ℕ) : Prop := ∀ k < K, F.rd (k : ℝ) = .fin (k : ℝ)

/-- The call returns the first `n + 1` states of `z`. -/
def Returns [NeZero K] (h : FVit F K O) (obs : ℕ → O) (S : (Fin K → FX F) → FX F) (n : ℕ) (z : ℕ → Fin K) : Prop :=
  h.viterbi obs S (n + 1) = (List.range (n + 1)).map fun t => ((z t : ℕ) : ℤ)

end FVit

end Distrax
