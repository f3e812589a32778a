import Verif.Model.FloatArith
import Verif.Model.Bijector

/-!
`bijectors/rational_quadratic_spline.py` in floating point: one spline, one scalar input (`jnp.vectorize`, lines 401-413, applies these
functions entry by entry).  Knot arrays of length `K + 1` are functions on `ℕ` of which the entries `0 … K` are meaningful.

`sum` is `jnp.sum`, `cumsum i xs` the `i`-th prefix sum of `jnp.cumsum`: the order of additions is the compiler's, so both are parameters of
which only `SumsTo` is assumed.

SIMPLIFICATIONS.  `** 2` is one multiplication (`lax.integer_pow`); `sqrt` is correctly rounded; the Python numbers `range_min`, `range_max`,
`min_bin_size`, `min_knot_slope` are exact reals until they meet an array; no fused multiply-add; a single unsigned zero.
-/

namespace Distrax

open XR FX

namespace FX
variable {F : Fmt}

/-- `jnp.minimum`. [external; called through `jnp.clip` at rational_quadratic_spline.py:102] -/
noncomputable def min (a b : FX F) : FX F := -(max (-a) (-b))

/-- `jnp.sqrt`. [external; called at rational_quadratic_spline.py:142] -/
noncomputable def sqrt (a : FX F) : FX F := fn (fun x => if x < 0 then nan else fin (Real.sqrt x)) pinf nan a

end FX

namespace FSpline
variable {F : Fmt}

noncomputable section

/-- `jnp.clip(v, 0., 1.)`. [external; called e.g. at rational_quadratic_spline.py:102] -/
def clip01 (v : FX F) : FX F := FX.min (FX.max v (lit 0)) (lit 1)

open Classical in
/-- The bin mask, rational_quadratic_spline.py:78-84 and 183-189: the bin containing `v`, or the first bin if there is none. -/
def binMask (K : ℕ) (pos : ℕ → FX F) (v : FX F) (i : ℕ) : Prop :=
  if ∃ j < K, pos j ≤ v ∧ v < pos (j + 1) then pos i ≤ v ∧ v < pos (i + 1) else i = 0

/-- `jnp.sum(correct_bin[:, None] * params[:-1], axis=0)` for one parameter, rational_quadratic_spline.py:86-87 and 191-192. -/
def pickLeft (sum : List (FX F) → FX F) (K : ℕ) (pos : ℕ → FX F) (v : FX F) (p : ℕ → FX F) : FX F :=
  sum ((List.range K).map fun i => whr (binMask K pos v i) (lit 1) (lit 0) * p i)

/-- `jnp.sum(correct_bin[:, None] * params[1:], axis=0)` for one parameter, rational_quadratic_spline.py:88 and 193. -/
def pickRight (sum : List (FX F) → FX F) (K : ℕ) (pos : ℕ → FX F) (v : FX F) (p : ℕ → FX F) : FX F :=
  sum ((List.range K).map fun i => whr (binMask K pos v i) (lit 1) (lit 0) * p (i + 1))

/-- The value and log-derivative of one segment, with the parameters of the chosen bin, rational_quadratic_spline.py:94-123. -/
def segFwd (x0 x1 y0 y1 d0 d1 x : FX F) : FX F × FX F :=
  let width := x1 - x0
  let height := y1 - y0
  let slope := height / width
  let z := clip01 ((x - x0) / width)
  let sqz := z * z
  let z1mz := z - sqz
  let sq1mz := (lit 1 - z) * (lit 1 - z)
  let slopesTerm := d1 + d0 - lit 2 * slope
  let num := height * (slope * sqz + d0 * z1mz)
  let den := slope + slopesTerm * z1mz
  (y0 + num / den, lit 2 * FX.log slope + FX.log (d1 * sqz + lit 2 * slope * z1mz + d0 * sq1mz) - lit 2 * FX.log den)

/-- `_rational_quadratic_spline_fwd`, rational_quadratic_spline.py:55-130. -/
def fwd (sum : List (FX F) → FX F) (K : ℕ) (xp yp sl : ℕ → FX F) (x : FX F) : FX F × FX F :=
  let s := segFwd (pickLeft sum K xp x xp) (pickRight sum K xp x xp) (pickLeft sum K xp x yp) (pickRight sum K xp x yp)
    (pickLeft sum K xp x sl) (pickRight sum K xp x sl) x
  let y := whr (x ≤ xp 0) ((x - xp 0) * sl 0 + yp 0) s.1
  let y := whr (xp K ≤ x) ((x - xp K) * sl K + yp K) y
  let ld := whr (x ≤ xp 0) (FX.log (sl 0)) s.2
  let ld := whr (xp K ≤ x) (FX.log (sl K)) ld
  (y, ld)

/-- `_safe_quadratic_root`, rational_quadratic_spline.py:133-157; `tiny` is `jnp.finfo(dtype).tiny`. -/
def safeQuadraticRoot (tiny a b c : FX F) : FX F :=
  let diff := b * b - lit 4 * a * c
  let safeSqrt := FX.sqrt (FX.max diff tiny)
  let safeSqrt := whr (lit 0 < diff) safeSqrt (lit 0)
  let num1 := lit 2 * c
  let den1 := -b - safeSqrt
  let num2 := -b + safeSqrt
  let den2 := lit 2 * a
  let num := whr (lit 0 ≤ b) num1 num2
  let den := whr (lit 0 ≤ b) den1 den2
  num / den

/-- The inverse of one segment and its log-derivative, rational_quadratic_spline.py:199-223. -/
def segInv (tiny x0 x1 y0 y1 d0 d1 y : FX F) : FX F × FX F :=
  let width := x1 - x0
  let height := y1 - y0
  let slope := height / width
  let w := clip01 ((y - y0) / height)
  let slopesTerm := d1 + d0 - lit 2 * slope
  let c := -slope * w
  let b := d0 - slopesTerm * w
  let a := slope - b
  let z := clip01 (safeQuadraticRoot tiny a b c)
  let sqz := z * z
  let z1mz := z - sqz
  let sq1mz := (lit 1 - z) * (lit 1 - z)
  let den := slope + slopesTerm * z1mz
  (width * z + x0, lit (-2) * FX.log slope - FX.log (d1 * sqz + lit 2 * slope * z1mz + d0 * sq1mz) + lit 2 * FX.log den)

/-- `_rational_quadratic_spline_inv`, rational_quadratic_spline.py:160-230. -/
def inv (sum : List (FX F) → FX F) (tiny : FX F) (K : ℕ) (xp yp sl : ℕ → FX F) (y : FX F) : FX F × FX F :=
  let s := segInv tiny (pickLeft sum K yp y xp) (pickRight sum K yp y xp) (pickLeft sum K yp y yp) (pickRight sum K yp y yp)
    (pickLeft sum K yp y sl) (pickRight sum K yp y sl) y
  let x := whr (y ≤ yp 0) ((y - yp 0) / sl 0 + xp 0) s.1
  let x := whr (yp K ≤ y) ((y - yp K) / sl K + xp K) x
  let ld := whr (y ≤ yp 0) (-FX.log (sl 0)) s.2
  let ld := whr (yp K ≤ y) (-FX.log (sl K)) ld
  (x, ld)

/-- `jnp.max` of the entries `u 0 … u (K-1)`. [external; called by `jax.nn.softmax`, rational_quadratic_spline.py:37] -/
def maxOf (K : ℕ) (u : ℕ → FX F) : FX F := (List.range (K - 1)).foldl (fun m j => FX.max m (u (j + 1))) (u 0)

/-- `jax.nn.softmax` of the entries `u 0 … u (K-1)`: `exp(u - max)` divided by the sum. [external; called at rational_quadratic_spline.py:37] -/
def softmax (sum : List (FX F) → FX F) (K : ℕ) (u : ℕ → FX F) (i : ℕ) : FX F :=
  FX.exp (u i - maxOf K u) / sum ((List.range K).map fun j => FX.exp (u j - maxOf K u))

/-- `_normalize_bin_sizes`, rational_quadratic_spline.py:27-38. -/
def normalizeBinSizes (sum : List (FX F) → FX F) (K : ℕ) (u : ℕ → FX F) (total minBin : ℝ) : Except Err (ℕ → FX F) :=
  if K * minBin > total then .error .valueError
  else .ok (fun i => softmax sum K u i * lit (total - K * minBin) + lit minBin)

/-- `_normalize_knot_slopes`, rational_quadratic_spline.py:41-52. -/
def normalizeKnotSlopes (u : ℕ → FX F) (minSlope : ℝ) : Except Err (ℕ → FX F) :=
  if minSlope ≥ 1 then .error .valueError
  else
    let minSlope : FX F := lit minSlope
    let offset := FX.log (FX.exp (lit 1 - minSlope) - lit 1)
    .ok (fun i => FX.softplus (u i + offset) + minSlope)

/-- `range_min + cumsum(sizes[:-1])` padded with `range_min` and `range_max`, rational_quadratic_spline.py:351-357. -/
def positions (cumsum : List (FX F) → FX F) (K : ℕ) (sizes : ℕ → FX F) (rmin rmax : ℝ) (i : ℕ) : FX F :=
  if i = 0 then lit rmin
  else if i < K then lit rmin + cumsum ((List.range i).map sizes)
  else lit rmax

/-- A constructed spline. [rational_quadratic_spline.py:272-379] -/
structure Obj (F : Fmt) where
  K : ℕ
  xp : ℕ → FX F
  yp : ℕ → FX F
  sl : ℕ → FX F

/-- The boundary conditions, rational_quadratic_spline.py:361-379 (`K + 1` slopes, indices `0 … K`). -/
def boundary (opt : String) (K : ℕ) (s : ℕ → FX F) : Except Err (ℕ → FX F) :=
  if opt = "unconstrained" then .ok s
  else if opt = "lower_identity" then .ok (fun i => if i = 0 then lit 1 else s i)
  else if opt = "upper_identity" then .ok (fun i => if i < K then s i else lit 1)
  else if opt = "identity" then .ok (fun i => if i = 0 then lit 1 else if i < K then s i else lit 1)
  else if opt = "circular" then .ok (fun i => if i < K then s i else s 0)
  else .error .valueError

/-- `RationalQuadraticSpline.__init__`, rational_quadratic_spline.py:272-379, for a parameter vector `params` of length `len`. -/
def mk? (sum cumsum : List (FX F) → FX F) (len : ℕ) (params : ℕ → FX F) (rmin rmax : ℝ) (opt : String) (minBin minSlope : ℝ) :
    Except Err (Obj F) :=
  if len % 3 ≠ 1 ∨ len < 4 then .error .valueError
  else if rmin ≥ rmax then .error .valueError
  else if minBin ≤ 0 then .error .valueError
  else if minSlope ≤ 0 then .error .valueError
  else do
    let K := (len - 1) / 3
    let size := rmax - rmin
    let widths ← normalizeBinSizes sum K params size minBin
    let heights ← normalizeBinSizes sum K (fun i => params (K + i)) size minBin
    let slopes ← normalizeKnotSlopes (fun i => params (2 * K + i)) minSlope
    let s ← boundary opt K slopes
    pure ⟨K, positions cumsum K widths rmin rmax, positions cumsum K heights rmin rmax, s⟩

namespace Obj
/-- `forward_and_log_det`, rational_quadratic_spline.py:401-406. -/
def forward (sum : List (FX F) → FX F) (o : Obj F) (x : FX F) : FX F × FX F := fwd sum o.K o.xp o.yp o.sl x
/-- `inverse_and_log_det`, rational_quadratic_spline.py:408-413. -/
def inverse (sum : List (FX F) → FX F) (tiny : FX F) (o : Obj F) (y : FX F) : FX F × FX F := inv sum tiny o.K o.xp o.yp o.sl y
end Obj

end

end FSpline

end Distrax
