import Verif.Model.XR

/-! Specification side for the log-space helpers: which rows are log-weights, and the weights they denote. -/

namespace Distrax.Spec

open Distrax

/-- The nonnegative weight denoted by a log-weight (`-inf` denotes 0). -/
noncomputable def weight : XR → ℝ
  | .fin a => Real.exp a
  | _ => 0

/-- A legal row of logits: finite or `-inf` entries, at least one finite. -/
structure LegalLogits {n : ℕ} (l : Fin n → XR) : Prop where
  entry : ∀ i, l i = .ninf ∨ ∃ a, l i = .fin a
  some_finite : ∃ i a, l i = .fin a

/-- The log of a nonnegative real as an extended number (`log 0 = -inf`). -/
noncomputable def xlog (p : ℝ) : XR := if p = 0 then .ninf else .fin (Real.log p)

/-- A probability vector. -/
structure IsPmf {n : ℕ} (p : Fin n → ℝ) : Prop where
  nonneg : ∀ i, 0 ≤ p i
  sum_one : ∑ i, p i = 1

end Distrax.Spec
