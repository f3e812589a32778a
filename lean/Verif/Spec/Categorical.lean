import Verif.Spec.MathUtils
import Verif.Model.Categorical

/-! Specification side of the Categorical family. -/

namespace Distrax.Spec

open Distrax

/-- The object's reported `probs` and `logits` are the probability vector `p` and its logarithm. -/
structure HasPmf {n : ℕ} (d : Cat n) (p : Fin n → ℝ) : Prop where
  pmf : IsPmf p
  probs : ∀ i, d.probs i = .fin (p i)
  logits : ∀ i, d.logits i = xlog (p i)
  /-- one of the two parameters is stored, as the constructor guarantees -/
  stored : d.probs?.isSome ∨ d.logits?.isSome

/-- Shannon entropy (with `0 log 0 = 0`, which is `Real.log 0 = 0` in Lean). -/
noncomputable def shannon {n : ℕ} (p : Fin n → ℝ) : ℝ := -∑ i, p i * Real.log (p i)

/-- Kullback–Leibler divergence of vectors with `p ≪ q`. -/
noncomputable def klDiv {n : ℕ} (p q : Fin n → ℝ) : ℝ := ∑ i, p i * (Real.log (p i) - Real.log (q i))

/-- The indices of maximal entries. -/
def ArgMax {n : ℕ} (x : Fin n → XR) (i : Fin n) : Prop := ∀ j, XR.leB (x j) (x i)

end Distrax.Spec
