import Verif.Model.MVN
import Verif.Spec.MVN

/-! What a multivariate normal object must report when its batch entry `i` is `N(b i, C i)`. -/

namespace Distrax.Spec

open Matrix

/-- Every method of the object `d` with batch shape `batch` and event shape `(n,)` reports `N(b i, C i)` at batch entry `i`. -/
structure IsMVN (d : MVN) (n : ℕ) (batch : List ℕ) (b : List ℕ → Fin n → ℝ)
    (C : List ℕ → Matrix (Fin n) (Fin n) ℝ) : Prop where
  batch_shape : d.batch = batch
  event_shape : d.dim = n
  /-- `log_prob` broadcasts the batch of the value against the batch shape -/
  log_prob : ∀ (x : Arr) (bx t : List ℕ), x.shape = bx ++ [n] → broadcastShapes batch bx = some t →
    ∃ l, d.logProb x = .ok l ∧ l.shape = t ∧ ∀ i, InRange t i →
      l.data i = gaussLogPdf (b (proj batch i)) (C (proj batch i)) (x.vec n (proj bx i))
  mean : ∃ m, d.mean = .ok m ∧ m.shape = batch ++ [n] ∧ ∀ i, InRange batch i → m.vec n i = b i
  median : ∃ m, d.median = .ok m ∧ m.shape = batch ++ [n] ∧ ∀ i, InRange batch i → m.vec n i = b i
  mode : ∃ m, d.mode = .ok m ∧ m.shape = batch ++ [n] ∧ ∀ i, InRange batch i → m.vec n i = b i
  covariance : ∃ c, d.covariance = .ok c ∧ c.shape = batch ++ [n, n] ∧ ∀ i, InRange batch i → c.mat n n i = C i
  variance : ∃ v, d.variance = .ok v ∧ v.shape = batch ++ [n] ∧ ∀ i, InRange batch i → ∀ k, v.vec n i k = C i k k
  stddev : ∃ v, d.stddev = .ok v ∧ v.shape = batch ++ [n] ∧ ∀ i, InRange batch i → ∀ k, v.vec n i k = Real.sqrt (C i k k)
  entropy : ∃ e, d.entropy = .ok e ∧ e.shape = batch ∧ ∀ i, InRange batch i →
    e.data i = n / 2 * (1 + Real.log (2 * Real.pi)) + 1 / 2 * Real.log (C i).det
  /-- a draw is an affine image, with a square root of the covariance, of the noise -/
  sample : ∃ A : List ℕ → Matrix (Fin n) (Fin n) ℝ, (∀ i, InRange batch i → (A i).det ≠ 0 ∧ C i = A i * (A i)ᵀ) ∧
    ∀ z : Arr, z.shape = batch ++ [n] → ∃ x, d.sample z = .ok x ∧ x.shape = batch ++ [n] ∧
      ∀ i, InRange batch i → x.vec n i = A i *ᵥ z.vec n i + b i

/-- An optional vector parameter, broadcast: its entry at batch index `i`, or the default. -/
noncomputable def optVec (n : ℕ) (bl : List ℕ) (a : Option Arr) (dflt : ℝ) (i : List ℕ) : Fin n → ℝ :=
  fun k => match a with
    | some l => l.data (proj bl i ++ [k.val])
    | none => dflt

/-- The optional parameter `a` has shape `bl ++ e`, or is absent (and contributes no batch axes). -/
def OptShape (a : Option Arr) (bl e : List ℕ) : Prop :=
  match a with
  | some l => l.shape = bl ++ e
  | none => bl = []

end Distrax.Spec
