import Verif.Model.Bijector
import Mathlib.Analysis.SpecialFunctions.Pow.Real
import Mathlib.Algebra.BigOperators.Group.Finset.Basic

/-!
Model of `bijectors/rational_quadratic_spline.py` for one spline and one scalar input; the class applies
these scalar functions entry by entry with `jnp.vectorize` (lines 401-413).  Knot arrays of length
`K + 1` are functions on `ℕ` of which entries `0 … K` are meaningful.
-/

namespace Distrax.Spline

open Finset

/-- `jnp.clip(v, 0., 1.)`. [external; called e.g. at rational_quadratic_spline.py:102] -/
noncomputable def clip01 (v : ℝ) : ℝ := min (max v 0) 1

/-- The bin mask of lines 78-84 / 183-189: the bin containing `v`, or the first bin if there is none. -/
noncomputable def binMask (K : ℕ) (pos : ℕ → ℝ) (v : ℝ) (i : ℕ) : Prop :=
  if ∃ j < K, pos j ≤ v ∧ v < pos (j + 1) then pos i ≤ v ∧ v < pos (i + 1) else i = 0

open Classical in
/-- `jnp.sum(correct_bin[:, None] * params[:-1], axis=0)` for one parameter (lines 86-87 / 191-192). -/
noncomputable def pickLeft (K : ℕ) (pos : ℕ → ℝ) (v : ℝ) (p : ℕ → ℝ) : ℝ :=
  ∑ i ∈ range K, if binMask K pos v i then p i else 0

open Classical in
/-- `jnp.sum(correct_bin[:, None] * params[1:], axis=0)` for one parameter (lines 88 / 193). -/
noncomputable def pickRight (K : ℕ) (pos : ℕ → ℝ) (v : ℝ) (p : ℕ → ℝ) : ℝ :=
  ∑ i ∈ range K, if binMask K pos v i then p (i + 1) else 0

/-- `_rational_quadratic_spline_fwd` (lines 55-130). -/
noncomputable def fwd (K : ℕ) (xp yp sl : ℕ → ℝ) (x : ℝ) : ℝ × ℝ :=
  let x0 := pickLeft K xp x xp
  let x1 := pickRight K xp x xp
  let y0 := pickLeft K xp x yp
  let y1 := pickRight K xp x yp
  let d0 := pickLeft K xp x sl
  let d1 := pickRight K xp x sl
  let width := x1 - x0
  let height := y1 - y0
  let slope := height / width
  let z := clip01 ((x - x0) / width)
  let sqz := z * z
  let z1mz := z - sqz
  let sq1mz := (1 - z) ^ 2
  let slopesTerm := d1 + d0 - 2 * slope
  let num := height * (slope * sqz + d0 * z1mz)
  let den := slope + slopesTerm * z1mz
  let y := y0 + num / den
  let ld := 2 * Real.log slope + Real.log (d1 * sqz + 2 * slope * z1mz + d0 * sq1mz) - 2 * Real.log den
  let y := if x ≤ xp 0 then (x - xp 0) * sl 0 + yp 0 else y
  let y := if x ≥ xp K then (x - xp K) * sl K + yp K else y
  let ld := if x ≤ xp 0 then Real.log (sl 0) else ld
  let ld := if x ≥ xp K then Real.log (sl K) else ld
  (y, ld)

/-- `_safe_quadratic_root` (lines 133-157); `tiny` is `jnp.finfo(dtype).tiny`. -/
noncomputable def safeQuadraticRoot (tiny a b c : ℝ) : ℝ :=
  let diff := b ^ 2 - 4 * a * c
  let safeSqrt := Real.sqrt (max diff tiny)
  let safeSqrt := if diff > 0 then safeSqrt else 0
  let num1 := 2 * c
  let den1 := -b - safeSqrt
  let num2 := -b + safeSqrt
  let den2 := 2 * a
  let num := if b ≥ 0 then num1 else num2
  let den := if b ≥ 0 then den1 else den2
  num / den

/-- `_rational_quadratic_spline_inv` (lines 160-230). -/
noncomputable def inv (tiny : ℝ) (K : ℕ) (xp yp sl : ℕ → ℝ) (y : ℝ) : ℝ × ℝ :=
  let x0 := pickLeft K yp y xp
  let x1 := pickRight K yp y xp
  let y0 := pickLeft K yp y yp
  let y1 := pickRight K yp y yp
  let d0 := pickLeft K yp y sl
  let d1 := pickRight K yp y sl
  let width := x1 - x0
  let height := y1 - y0
  let slope := height / width
  let w := clip01 ((y - y0) / height)
  let slopesTerm := d1 + d0 - 2 * slope
  let c := -slope * w
  let b := d0 - slopesTerm * w
  let a := slope - b
  let z := clip01 (safeQuadraticRoot tiny a b c)
  let x := width * z + x0
  let sqz := z * z
  let z1mz := z - sqz
  let sq1mz := (1 - z) ^ 2
  let den := slope + slopesTerm * z1mz
  let ld := -2 * Real.log slope - Real.log (d1 * sqz + 2 * slope * z1mz + d0 * sq1mz) + 2 * Real.log den
  let x := if y ≤ yp 0 then (y - yp 0) / sl 0 + xp 0 else x
  let x := if y ≥ yp K then (y - yp K) / sl K + xp K else x
  let ld := if y ≤ yp 0 then -Real.log (sl 0) else ld
  let ld := if y ≥ yp K then -Real.log (sl K) else ld
  (x, ld)

/-- `jax.nn.softmax` of the `K` entries `u 0 … u (K-1)`. [external; called e.g. at rational_quadratic_spline.py:37] -/
noncomputable def softmax (K : ℕ) (u : ℕ → ℝ) (i : ℕ) : ℝ := Real.exp (u i) / ∑ j ∈ range K, Real.exp (u j)

/-- `_normalize_bin_sizes` (lines 27-38). -/
noncomputable def normalizeBinSizes (K : ℕ) (u : ℕ → ℝ) (total minBin : ℝ) : Except Err (ℕ → ℝ) :=
  if K * minBin > total then .error .valueError
  else .ok (fun i => softmax K u i * (total - K * minBin) + minBin)

/-- `_normalize_knot_slopes` (lines 41-52). -/
noncomputable def normalizeKnotSlopes (u : ℕ → ℝ) (minSlope : ℝ) : Except Err (ℕ → ℝ) :=
  if minSlope ≥ 1 then .error .valueError
  else
    let offset := Real.log (Real.exp (1 - minSlope) - 1)
    .ok (fun i => softplus (u i + offset) + minSlope)

/-- `range_min + cumsum(sizes[:-1])` padded with `range_min` and `range_max` (lines 351-357). -/
noncomputable def positions (K : ℕ) (sizes : ℕ → ℝ) (rmin rmax : ℝ) (i : ℕ) : ℝ :=
  if i = 0 then rmin
  else if i < K then rmin + ∑ j ∈ range i, sizes j
  else rmax

/-- A constructed spline. [rational_quadratic_spline.py:272-379] -/
structure Obj where
  K : ℕ
  xp : ℕ → ℝ
  yp : ℕ → ℝ
  sl : ℕ → ℝ

/-- The boundary conditions of lines 361-379 (`K + 1` slopes, indices `0 … K`). -/
def boundary (opt : String) (K : ℕ) (s : ℕ → ℝ) : Except Err (ℕ → ℝ) :=
  if opt = "unconstrained" then .ok s
  else if opt = "lower_identity" then .ok (fun i => if i = 0 then 1 else s i)
  else if opt = "upper_identity" then .ok (fun i => if i < K then s i else 1)
  else if opt = "identity" then .ok (fun i => if i = 0 then 1 else if i < K then s i else 1)
  else if opt = "circular" then .ok (fun i => if i < K then s i else s 0)
  else .error .valueError

/-- `RationalQuadraticSpline.__init__` (lines 272-379) for a parameter vector `params` of length `len`. -/
noncomputable def mk? (len : ℕ) (params : ℕ → ℝ) (rmin rmax : ℝ) (opt : String) (minBin minSlope : ℝ) :
    Except Err Obj :=
  if len % 3 ≠ 1 ∨ len < 4 then .error .valueError
  else if rmin ≥ rmax then .error .valueError
  else if minBin ≤ 0 then .error .valueError
  else if minSlope ≤ 0 then .error .valueError
  else do
    let K := (len - 1) / 3
    let size := rmax - rmin
    let widths ← normalizeBinSizes K params size minBin
    let heights ← normalizeBinSizes K (fun i => params (K + i)) size minBin
    let slopes ← normalizeKnotSlopes (fun i => params (2 * K + i)) minSlope
    let s ← boundary opt K slopes
    pure ⟨K, positions K widths rmin rmax, positions K heights rmin rmax, s⟩

namespace Obj
/-- `forward_and_log_det` (lines 401-406). -/
noncomputable def forward (o : Obj) (x : ℝ) : ℝ × ℝ := fwd o.K o.xp o.yp o.sl x
/-- `inverse_and_log_det` (lines 408-413). -/
noncomputable def inverse (tiny : ℝ) (o : Obj) (y : ℝ) : ℝ × ℝ := inv tiny o.K o.xp o.yp o.sl y
end Obj

end Distrax.Spline
