import Verif.Model.Pathwise
import Mathlib.Analysis.Calculus.Deriv.Basic

/-! Specification side for gradients of closed-form entropies and divergences. -/

namespace Distrax.Spec

open Topology

/-- `Is s k` says that `k` is the true quantity at parameter `s`.  The number `d` is that quantity at `t`, and its tangent is the
derivative of the quantity at `t`, as the parameter moves within `S` (in particular the quantity exists for all `s` in `S` near `t`). -/
def TrueWithGradientOn (S : Set ℝ) (Is : ℝ → ℝ → Prop) (d : Dual) (t : ℝ) : Prop :=
  ∃ k : ℝ → ℝ, Is t (k t) ∧ (∀ᶠ s in 𝓝[S] t, Is s (k s)) ∧ d.val = k t ∧ HasDerivWithinAt k d.tan S t

/-- The same with the parameter moving freely. -/
def TrueWithGradient (Is : ℝ → ℝ → Prop) (d : Dual) (t : ℝ) : Prop :=
  ∃ k : ℝ → ℝ, (∀ᶠ s in 𝓝 t, Is s (k s)) ∧ d.val = k t ∧ HasDerivAt k d.tan t

end Distrax.Spec
