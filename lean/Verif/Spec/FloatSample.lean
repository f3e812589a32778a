import Verif.Spec.Float
import Verif.Spec.FloatAcc

/-!
What is assumed of the draws of the pseudo-random generator (JAX, from memory): `jax.random.uniform` fills the bits after the point, so its
results are multiples `k / 2^m` of a power of two in `[0, 1)`, `2 ^ (-m) = 2 u` for a format with unit roundoff `u`; with
`minval = finfo.tiny` the result 0 is replaced by the smallest normal number.
-/

namespace Distrax.Spec

open Distrax XR

variable {F : Fmt}

/-- A draw of `jax.random.uniform(minval=0, maxval=1)`. -/
def UnitDraw (u : ℝ) (w : FX F) : Prop := ∃ x, w.1 = fin x ∧ 0 ≤ x ∧ x ≤ 1 - 2 * u

/-- A draw of `jax.random.uniform(minval=tiny, maxval=1)`. -/
def OpenUnitDraw (u : ℝ) (w : FX F) : Prop := ∃ x, w.1 = fin x ∧ 0 < x ∧ x ≤ 1 - 2 * u

/-- The `2 ^ m` equally likely values of `jax.random.uniform(minval=0, maxval=1)`. -/
noncomputable def gridDraw (m : ℕ) (k : Fin (2 ^ m)) : ℝ := (k : ℕ) / 2 ^ m

open Classical in
/-- The frequency of an event among the equally likely draws. -/
noncomputable def frequency (m : ℕ) (p : ℝ → Prop) : ℝ :=
  (Finset.univ.filter fun k : Fin (2 ^ m) => p (gridDraw m k)).card / 2 ^ m

end Distrax.Spec
