import Mathlib.Data.Real.Basic
import Mathlib.Algebra.Order.Floor.Ring
import Mathlib.Algebra.Order.Archimedean.Real.Basic

/-! The documented density of CategoricalUniform (class docstring). -/

namespace Distrax.Spec

open Classical in
/-- `p_k / C` if `k C ≤ x - a < (k + 1) C`, with `C = (b - a) / K`; 0 outside `[a, b)`. -/
noncomputable def binDensity {K : ℕ} (p : Fin K → ℝ) (a b x : ℝ) : ℝ :=
  if h : ∃ k : Fin K, (k : ℝ) * ((b - a) / K) ≤ x - a ∧ x - a < ((k : ℝ) + 1) * ((b - a) / K)
  then p h.choose / ((b - a) / K) else 0

/-- A point of the grid of bin edges. -/
def IsEdge (K : ℕ) (a b x : ℝ) : Prop := ∃ i : ℕ, i ≤ K ∧ x = a + i * ((b - a) / K)

end Distrax.Spec
