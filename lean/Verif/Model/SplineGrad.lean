import Verif.Model.Pathwise
import Verif.Model.Spline

/-!
# `jax.jvp` through the rational-quadratic spline

The scalar functions of `bijectors/rational_quadratic_spline.py` on numbers that carry a tangent (`Dual`).  Comparisons carry
none; `jnp.where` passes the tangent of the branch taken; `jnp.clip` passes the tangent inside its bounds, nothing outside, and
on a bound a fixed share `tie` of it (one half in jax, where `lax.max` and `lax.min` split a tie evenly); a boolean mask is a
constant factor.
-/

namespace Distrax

noncomputable section

open Finset

namespace Dual
/-- `lax.neg` -/
instance : Neg Dual := ⟨fun a => ⟨-a.val, -a.tan⟩⟩
/-- `lax.log`. [external; called e.g. at rational_quadratic_spline.py:51] -/
def log (a : Dual) : Dual := ⟨Real.log a.val, a.tan / a.val⟩
/-- `lax.sqrt`; the rule is `0.5 * g / sqrt(x)`. [external; called e.g. at rational_quadratic_spline.py:142] -/
def sqrt (a : Dual) : Dual := ⟨Real.sqrt a.val, a.tan * (1 / 2) / Real.sqrt a.val⟩
/-- `jnp.clip(a, lo)` with a constant lower bound only. [external; called e.g. at rational_quadratic_spline.py:102] -/
def clipLow (tie lo : ℝ) (a : Dual) : Dual :=
  ⟨max a.val lo, if a.val < lo then 0 else if a.val = lo then tie * a.tan else a.tan⟩
end Dual

namespace Spline

/-- `jnp.sum(correct_bin[:, None] * params[:-1], axis=0)` for one parameter (rational_quadratic_spline.py:86-87, 191-192). -/
def pickLeftD (K : ℕ) (pos : ℕ → Dual) (v : Dual) (p : ℕ → Dual) : Dual :=
  ⟨pickLeft K (fun i => (pos i).val) v.val fun i => (p i).val, pickLeft K (fun i => (pos i).val) v.val fun i => (p i).tan⟩

/-- `jnp.sum(correct_bin[:, None] * params[1:], axis=0)` for one parameter (rational_quadratic_spline.py:88, 193). -/
def pickRightD (K : ℕ) (pos : ℕ → Dual) (v : Dual) (p : ℕ → Dual) : Dual :=
  ⟨pickRight K (fun i => (pos i).val) v.val fun i => (p i).val, pickRight K (fun i => (pos i).val) v.val fun i => (p i).tan⟩

open Classical in
/-- `_rational_quadratic_spline_fwd` (rational_quadratic_spline.py:55-130) with tangents. -/
def fwdD (tie : ℝ) (K : ℕ) (xp yp sl : ℕ → Dual) (x : Dual) : Dual × Dual :=
  let x0 := pickLeftD K xp x xp
  let x1 := pickRightD K xp x xp
  let y0 := pickLeftD K xp x yp
  let y1 := pickRightD K xp x yp
  let d0 := pickLeftD K xp x sl
  let d1 := pickRightD K xp x sl
  let width := x1 - x0
  let height := y1 - y0
  let slope := height / width
  let z := Dual.clip tie 0 1 ((x - x0) / width)
  let sqz := z * z
  let z1mz := z - sqz
  let sq1mz := (Dual.const 1 - z) * (Dual.const 1 - z)
  let slopesTerm := d1 + d0 - Dual.const 2 * slope
  let num := height * (slope * sqz + d0 * z1mz)
  let den := slope + slopesTerm * z1mz
  let y := y0 + num / den
  let ld := Dual.const 2 * slope.log + (d1 * sqz + Dual.const 2 * slope * z1mz + d0 * sq1mz).log - Dual.const 2 * den.log
  let y := Dual.where_ (decide (x.val ≤ (xp 0).val)) ((x - xp 0) * sl 0 + yp 0) y
  let y := Dual.where_ (decide (x.val ≥ (xp K).val)) ((x - xp K) * sl K + yp K) y
  let ld := Dual.where_ (decide (x.val ≤ (xp 0).val)) (sl 0).log ld
  let ld := Dual.where_ (decide (x.val ≥ (xp K).val)) (sl K).log ld
  (y, ld)

open Classical in
/-- `_safe_quadratic_root` (rational_quadratic_spline.py:133-157) with tangents. -/
def rootD (tie tiny : ℝ) (a b c : Dual) : Dual :=
  let diff := b * b - Dual.const 4 * a * c
  let safeSqrt := (Dual.clipLow tie tiny diff).sqrt
  let safeSqrt := Dual.where_ (decide (diff.val > 0)) safeSqrt (Dual.const 0)
  let num1 := Dual.const 2 * c
  let den1 := -b - safeSqrt
  let num2 := -b + safeSqrt
  let den2 := Dual.const 2 * a
  let num := Dual.where_ (decide (b.val ≥ 0)) num1 num2
  let den := Dual.where_ (decide (b.val ≥ 0)) den1 den2
  num / den

open Classical in
/-- `_rational_quadratic_spline_inv` (rational_quadratic_spline.py:160-230) with tangents. -/
def invD (tie tiny : ℝ) (K : ℕ) (xp yp sl : ℕ → Dual) (y : Dual) : Dual × Dual :=
  let x0 := pickLeftD K yp y xp
  let x1 := pickRightD K yp y xp
  let y0 := pickLeftD K yp y yp
  let y1 := pickRightD K yp y yp
  let d0 := pickLeftD K yp y sl
  let d1 := pickRightD K yp y sl
  let width := x1 - x0
  let height := y1 - y0
  let slope := height / width
  let w := Dual.clip tie 0 1 ((y - y0) / height)
  let slopesTerm := d1 + d0 - Dual.const 2 * slope
  let c := -slope * w
  let b := d0 - slopesTerm * w
  let a := slope - b
  let z := Dual.clip tie 0 1 (rootD tie tiny a b c)
  let x := width * z + x0
  let sqz := z * z
  let z1mz := z - sqz
  let sq1mz := (Dual.const 1 - z) * (Dual.const 1 - z)
  let den := slope + slopesTerm * z1mz
  let ld := Dual.const (-2) * slope.log - (d1 * sqz + Dual.const 2 * slope * z1mz + d0 * sq1mz).log + Dual.const 2 * den.log
  let x := Dual.where_ (decide (y.val ≤ (yp 0).val)) ((y - yp 0) / sl 0 + xp 0) x
  let x := Dual.where_ (decide (y.val ≥ (yp K).val)) ((y - yp K) / sl K + xp K) x
  let ld := Dual.where_ (decide (y.val ≤ (yp 0).val)) (-(sl 0).log) ld
  let ld := Dual.where_ (decide (y.val ≥ (yp K).val)) (-(sl K).log) ld
  (x, ld)

/-- `jax.nn.softmax` of the entries `0 … K-1`, with its derivative rule. [external; called e.g. at rational_quadratic_spline.py:37] -/
def softmaxD (K : ℕ) (u : ℕ → Dual) (i : ℕ) : Dual :=
  let p := softmax K fun j => (u j).val
  ⟨p i, p i * ((u i).tan - ∑ j ∈ range K, p j * (u j).tan)⟩

/-- `_normalize_bin_sizes` (rational_quadratic_spline.py:27-38) with tangents; the exception does not depend on them. -/
def normalizeBinSizesD (K : ℕ) (u : ℕ → Dual) (total minBin : ℝ) (i : ℕ) : Dual :=
  softmaxD K u i * Dual.const (total - K * minBin) + Dual.const minBin

/-- `_normalize_knot_slopes` (rational_quadratic_spline.py:41-52) with tangents. -/
def normalizeKnotSlopesD (u : ℕ → Dual) (minSlope : ℝ) (i : ℕ) : Dual :=
  let offset := Real.log (Real.exp (1 - minSlope) - 1)
  (u i + Dual.const offset).softplus + Dual.const minSlope

/-- `range_min + cumsum(sizes[:-1])` padded with the constants `range_min`, `range_max`
(rational_quadratic_spline.py:351-357). -/
def positionsD (K : ℕ) (sizes : ℕ → Dual) (rmin rmax : ℝ) (i : ℕ) : Dual :=
  if i = 0 then Dual.const rmin
  else if i < K then Dual.const rmin + ⟨∑ j ∈ range i, (sizes j).val, ∑ j ∈ range i, (sizes j).tan⟩
  else Dual.const rmax

/-- The boundary conditions of rational_quadratic_spline.py:361-379. -/
def boundaryD (opt : String) (K : ℕ) (s : ℕ → Dual) (i : ℕ) : Dual :=
  if opt = "unconstrained" then s i
  else if opt = "lower_identity" then (if i = 0 then Dual.const 1 else s i)
  else if opt = "upper_identity" then (if i < K then s i else Dual.const 1)
  else if opt = "identity" then (if i = 0 then Dual.const 1 else if i < K then s i else Dual.const 1)
  else (if i < K then s i else s 0)

/-- The knots and slopes built by `RationalQuadraticSpline.__init__` (rational_quadratic_spline.py:272-379), with tangents. -/
structure ObjD where
  K : ℕ
  xp : ℕ → Dual
  yp : ℕ → Dual
  sl : ℕ → Dual

/-- `RationalQuadraticSpline.__init__` (rational_quadratic_spline.py:272-379) on parameters it accepts. -/
def mkD (len : ℕ) (params : ℕ → Dual) (rmin rmax : ℝ) (opt : String) (minBin minSlope : ℝ) : ObjD :=
  let K := (len - 1) / 3
  let size := rmax - rmin
  let widths := normalizeBinSizesD K params size minBin
  let heights := normalizeBinSizesD K (fun i => params (K + i)) size minBin
  let slopes := normalizeKnotSlopesD (fun i => params (2 * K + i)) minSlope
  ⟨K, positionsD K widths rmin rmax, positionsD K heights rmin rmax, boundaryD opt K slopes⟩

end Spline

end

end Distrax
