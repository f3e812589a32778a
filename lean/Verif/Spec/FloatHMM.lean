import Verif.Model.FloatHMM
import Verif.Spec.HMM
import Verif.Spec.FloatAcc

/-!
What C76 says: the model that the float parameters describe exactly, relative closeness, and the absence of overflow, underflow and
clamping during a run.
-/

namespace Distrax

open FX

/-- `s` adds up the entries of its argument, in some order. -/
def IsSum {F : Fmt} {K : ℕ} (s : (Fin K → FX F) → FX F) : Prop := ∀ v, SumsTo (List.ofFn v) (s v)

/-- `x` and `y` agree up to `k` relative perturbations of size at most `ρ`. -/
def Close (ρ : ℝ) (k : ℕ) (x y : ℝ) : Prop := x ≤ ρ ^ k * y ∧ y ≤ ρ ^ k * x

/-- The relative perturbation of one operation: `1 + 2u + ...`. -/
noncomputable def perturb (u : ℝ) : ℝ := 1 / (1 - 2 * u)

/-- The float `a`, result of an operation with the exact value `x`, neither overflowed nor underflowed: it is finite, and `x` is zero or at
least `η / u`, the smallest normal number. -/
def Regular {F : Fmt} (u η : ℝ) (a : FX F) (x : ℝ) : Prop := a.finite ∧ (x = 0 ∨ η ≤ u * x)

/-- Row `t` of a list of rows. -/
noncomputable def rowAt {F : Fmt} {K : ℕ} (l : List (Fin K → FX F)) (t : ℕ) : Fin K → FX F := l.getD t fun _ => lit 0

namespace FHMM

variable {F : Fmt} {K : ℕ} {O : Type}

/-- The model that the float parameters describe exactly. -/
noncomputable def exact (h : FHMM F K O) : HMM K O where
  initProbs k := (h.initProbs k).val
  transProbs i j := (h.transProbs i j).val
  obsProb o k := (h.obsProb o k).val
  initLogits _ := 0
  transLogits _ _ := 0
  obsLogProb _ _ := 0

/-- The parameters are finite and nonnegative (nothing is assumed about sums: rounded probabilities need not add up to one). -/
structure Proper (h : FHMM F K O) : Prop where
  init_finite : ∀ k, (h.initProbs k).finite
  init_nonneg : ∀ k, 0 ≤ (h.initProbs k).val
  trans_finite : ∀ i j, (h.transProbs i j).finite
  trans_nonneg : ∀ i j, 0 ≤ (h.transProbs i j).val
  obs_finite : ∀ o k, (h.obsProb o k).finite
  obs_nonneg : ∀ o k, 0 ≤ (h.obsProb o k).val

/-- The normalisation of `w` with the sum `s`: the clamp does not act, the sum is finite, and no quotient underflows. -/
structure NormalizeRegular (u η : ℝ) (s : (Fin K → FX F) → FX F) (w : Fin K → FX F) : Prop where
  noClamp : ∀ k, (w k).val = 0 ∨ (lit 1e-15 : FX F).val ≤ (w k).val
  sum_finite : (s w).finite
  quotient : ∀ k, (w k).val / (s w).val = 0 ∨ η ≤ u * ((w k).val / (s w).val)

/-- The products and sums that produce the weights of step `t` from the row `a`. -/
structure WeightsRegular (u η : ℝ) (h : FHMM F K O) (obs : ℕ → O) (S : ℕ → Option (Fin K) → (Fin K → FX F) → FX F) (t : ℕ)
    (a : Fin K → FX F) : Prop where
  product : ∀ i j, Regular u η (a i * h.transProbs i j) ((a i).val * (h.transProbs i j).val)
  sum_finite : ∀ j, (S t (some j) fun i => a i * h.transProbs i j).finite
  weight : ∀ j, Regular u η (h.weights obs S t a j)
    ((h.obsProb (obs t) j).val * (S t (some j) fun i => a i * h.transProbs i j).val)

/-- In the first `n + 1` steps of the forward pass that returns the rows `rows` nothing overflows, nothing underflows, and the clamp of
`_normalize` does not act. -/
structure ForwardRegular (u η : ℝ) (h : FHMM F K O) (obs : ℕ → O) (S : ℕ → Option (Fin K) → (Fin K → FX F) → FX F) (n : ℕ)
    (rows : List (Fin K → FX F)) : Prop where
  first : ∀ k, Regular u η (h.initWeights obs k) ((h.initProbs k).val * (h.obsProb (obs 0) k).val)
  first_normalize : NormalizeRegular u η (S 0 none) (h.initWeights obs)
  step : ∀ t < n, WeightsRegular u η h obs S (t + 1) (rowAt rows t)
  step_normalize : ∀ t < n, NormalizeRegular u η (S (t + 1) none) (h.weights obs S (t + 1) (rowAt rows t))

/-- The products and sums of one backward step: `obs_seq[t - 1]` is the observation whose message `b` is pushed back. -/
structure BackWeightsRegular (u η : ℝ) (h : FHMM F K O) (obs : ℕ → O) (S : ℕ → Option (Fin K) → (Fin K → FX F) → FX F) (t : ℕ)
    (b : Fin K → FX F) : Prop where
  product : ∀ j, Regular u η (b j * h.obsProb (obs (t - 1)) j) ((b j).val * (h.obsProb (obs (t - 1)) j).val)
  product_trans : ∀ i j, Regular u η (b j * h.obsProb (obs (t - 1)) j * h.transProbs i j)
    ((b j * h.obsProb (obs (t - 1)) j).val * (h.transProbs i j).val)

/-- In the backward pass over `n + 1` observations that returns the rows `rows` nothing overflows, nothing underflows, and the clamp does
not act.  Row `t` is computed from row `t + 1`, in the step with index `t + 2`. -/
structure BackwardRegular (u η : ℝ) (h : FHMM F K O) (obs : ℕ → O) (S : ℕ → Option (Fin K) → (Fin K → FX F) → FX F) (n : ℕ)
    (rows : List (Fin K → FX F)) : Prop where
  step : ∀ t < n, BackWeightsRegular u η h obs S (t + 2) (rowAt rows (t + 1))
  sum_finite : ∀ t < n, ∀ i, (h.backWeights obs S (t + 2) (rowAt rows (t + 1)) i).finite
  step_normalize : ∀ t < n, NormalizeRegular u η (S (t + 2) none) (h.backWeights obs S (t + 2) (rowAt rows (t + 1)))

/-- The products of the two passes and their normalisation. -/
structure SmoothRegular (u η : ℝ) (s : (Fin K → FX F) → FX F) (a b : Fin K → FX F) : Prop where
  product : ∀ k, Regular u η (a k * b k) ((a k).val * (b k).val)
  normalize : NormalizeRegular u η s fun k => a k * b k

end FHMM

end Distrax
