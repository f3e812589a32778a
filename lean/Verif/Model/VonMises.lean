import Verif.Model.Continuous
import Mathlib.Algebra.Order.Floor.Ring
import Mathlib.MeasureTheory.Integral.IntervalIntegral.Basic
import Mathlib.Analysis.SpecialFunctions.Trigonometric.Inverse
import Mathlib.Data.Sign.Basic
import Mathlib.Analysis.Calculus.Deriv.Basic

/-!
# VonMises (von_mises.py)

One batch element, exact reals.  The Bessel functions are the ones the documentation names, by their integral
representations.  The `custom_jvp` rules are modelled as the tangents they return.
-/

namespace Distrax

noncomputable section

/-- `jax.scipy.special.i0`: modified Bessel function of the first kind, order 0. [external; called e.g. at von_mises.py:140] -/
def bessel0 (k : ℝ) : ℝ := (∫ t in (0 : ℝ)..Real.pi, Real.exp (k * Real.cos t)) / Real.pi

/-- Order 1. [no line of its own; part of the model of von_mises.py:39-208] -/
def bessel1 (k : ℝ) : ℝ := (∫ t in (0 : ℝ)..Real.pi, Real.exp (k * Real.cos t) * Real.cos t) / Real.pi

/-- `jax.scipy.special.i0e`: exponentially scaled. [external; called e.g. at von_mises.py:128] -/
def i0e (k : ℝ) : ℝ := Real.exp (-|k|) * bessel0 k

/-- `jax.scipy.special.i1e`. [external; called e.g. at von_mises.py:128] -/
def i1e (k : ℝ) : ℝ := Real.exp (-|k|) * bessel1 k

/-- `jnp.round`: to the nearest integer, ties to even. [external; called e.g. at von_mises.py:213] -/
def rint (x : ℝ) : ℤ :=
  if x - ⌊x⌋ < 1 / 2 then ⌊x⌋
  else if 1 / 2 < x - ⌊x⌋ then ⌊x⌋ + 1
  else if Even ⌊x⌋ then ⌊x⌋ else ⌊x⌋ + 1

/-- von_mises.py:211-215 `_convert_angle_to_standard`. -/
def convertAngle (angle : ℝ) : ℝ :=
  let numPeriods := rint (angle / (2 * Real.pi))
  angle - 2 * Real.pi * numPeriods

/-- von_mises.py:93-99 `VonMises.__init__`. -/
structure VonMises where
  loc : ℝ
  concentration : ℝ

namespace VonMises
variable (d : VonMises)

/-- von_mises.py:121-123. -/
def mean : ℝ := d.loc

/-- von_mises.py:125-128. -/
def variance : ℝ := 1 - i1e d.concentration / i0e d.concentration

/-- von_mises.py:130-135. -/
def prob (value : ℝ) : ℝ :=
  let conc := d.concentration
  let unnormalizedProb := Real.exp (conc * (Real.cos (value - d.loc) - 1))
  let normalization := 2 * Real.pi * i0e conc
  unnormalizedProb / normalization

/-- von_mises.py:137-143. -/
def logProb (value : ℝ) : ℝ :=
  let conc := d.concentration
  conc * Real.cos (value - d.loc) - Real.log (2 * Real.pi) - Real.log (bessel0 conc)

/-- von_mises.py:153-158. -/
def entropy : ℝ :=
  let conc := d.concentration
  conc * (1 - i1e conc / i0e conc) + Real.log (2 * Real.pi) + Real.log (i0e conc)

/-- von_mises.py:160-162. -/
def mode : ℝ := d.mean

/-- von_mises.py:461-485 `_kl_divergence_vonmises_vonmises`. -/
def kl (d1 d2 : VonMises) : ℝ :=
  (d2.concentration - d1.concentration) + Real.log (i0e d2.concentration / i0e d1.concentration)
    + (i1e d1.concentration / i0e d1.concentration) *
      (d1.concentration - d2.concentration * Real.cos (d1.loc - d2.loc))

/-- `jnp.clip(x, 0, 1)`. [external; called e.g. at von_mises.py:177] -/
def clip01 (x : ℝ) : ℝ := min (max x 0) 1

/-- The loop variables of von_mises.py:396-399: `rn`, `vn` and their derivatives with respect to the concentration. -/
structure SeriesAcc where
  rn : ℝ
  drn : ℝ
  vn : ℝ
  dvn : ℝ

/-- The initial values, von_mises.py:396-399. -/
def seriesInit : SeriesAcc := ⟨0, 0, 0, 0⟩

/-- The loop body, von_mises.py:402-410, for term number `n`. -/
def seriesStep (value concentration : ℝ) (n : ℕ) (acc : SeriesAcc) : SeriesAcc :=
  let denominator := 2 * n / concentration + acc.rn
  let ddenominator := -2 * n / concentration ^ 2 + acc.drn
  let rn := 1 / denominator
  let drn := -ddenominator / denominator ^ 2
  let multiplier := Real.sin (n * value) / n + acc.vn
  ⟨rn, drn, rn * multiplier, drn * multiplier + rn * acc.dvn⟩

/-- The loop `for n in range(num_terms, 0, -1)`, von_mises.py:401. -/
def seriesLoop (value concentration : ℝ) : ℕ → SeriesAcc → SeriesAcc
  | 0, acc => acc
  | n + 1, acc => seriesLoop value concentration n (seriesStep value concentration (n + 1) acc)

/-- von_mises.py:401-411: the CDF before clipping. -/
def cdfSeriesRaw (numTerms : ℕ) (value concentration : ℝ) : ℝ :=
  0.5 + value / (2 * Real.pi) + (seriesLoop value concentration numTerms seriesInit).vn / Real.pi

/-- von_mises.py:389-420 `_von_mises_cdf_series`, first result (`num_terms = 20` is the default, never overridden). -/
def cdfSeries (value concentration : ℝ) : ℝ := clip01 (cdfSeriesRaw 20 value concentration)

open Classical in
/-- von_mises.py:389-420 `_von_mises_cdf_series`, second result: the derivative with respect to the concentration, zero
where the value was clipped. -/
def dcdfSeries (value concentration : ℝ) : ℝ :=
  let cdf := cdfSeriesRaw 20 value concentration
  let dcdf := (seriesLoop value concentration 20 seriesInit).dvn / Real.pi
  dcdf * (if 0 ≤ cdf ∧ cdf ≤ 1 then 1 else 0)

/-- von_mises.py:423-458 `_von_mises_cdf_normal`, first result. -/
def cdfNormal (value concentration : ℝ) : ℝ :=
  let z := Real.sqrt (2 / Real.pi) / i0e concentration * Real.sin (0.5 * value)
  let z2 := z ^ 2
  let z3 := z2 * z
  let z4 := z2 ^ 2
  let c := 24 * concentration
  let c1 := 56
  let xi := z - z3 / ((c - 2 * z2 - 16) / 3 - (z4 + (7 / 4) * z2 + 167 / 2) / (c - c1 - z2 + 3)) ^ 2
  (Normal.mk 0 1).cdf xi

/-- von_mises.py:362-374: which recipe is used on `[-pi, pi]`. -/
def cdfCore (x concentration : ℝ) : ℝ :=
  if concentration < 10.5 then cdfSeries x concentration else cdfNormal x concentration

/-- von_mises.py:350-386 `_von_mises_cdf` (value part), for a given core recipe. -/
def cdfWith (core : ℝ → ℝ → ℝ) (x concentration : ℝ) : ℝ :=
  let numPeriods := rint (x / (2 * Real.pi))
  let x := x - 2 * Real.pi * numPeriods
  core x concentration + numPeriods

/-- von_mises.py:350-386 `_von_mises_cdf_jvp`, the tangent, for given derivatives `dcore` (with respect to the
concentration) of the core recipe: the derivative with respect to `x` is the density, not the derivative of the recipe. -/
def cdfTangent (dcore : ℝ → ℝ → ℝ) (x concentration dx dconcentration : ℝ) : ℝ :=
  let numPeriods := rint (x / (2 * Real.pi))
  let x := x - 2 * Real.pi * numPeriods
  let prob := Real.exp (concentration * (Real.cos x - 1)) / (2 * Real.pi * i0e concentration)
  dconcentration * dcore x concentration + dx * prob

/-- von_mises.py:423-458 `_von_mises_cdf_normal`, second result: `jax.value_and_grad` of the first, i.e. its derivative. -/
def dcdfNormal (value concentration : ℝ) : ℝ := deriv (fun k => cdfNormal value k) concentration

/-- von_mises.py:362-380: the derivative of the recipe in use. -/
def dcdfCore (x concentration : ℝ) : ℝ :=
  if concentration < 10.5 then dcdfSeries x concentration else dcdfNormal x concentration

/-- von_mises.py:281-307 `_von_mises_sample_jvp`, for one entry: `sample` is the sample drawn at the clipped
concentration; the result is the tangent. -/
def sampleTangent (dcore : ℝ → ℝ → ℝ) (sample concentration dconcentration : ℝ) : ℝ :=
  let concentration := max concentration 1e-7
  let dcdf := cdfTangent dcore sample concentration 0 1
  let invProb := Real.exp (-concentration * (Real.cos sample - 1)) * (2 * Real.pi * i0e concentration)
  dconcentration * (-invProb * dcdf)

/-- von_mises.py:164-182 `cdf`. -/
def cdf (core : ℝ → ℝ → ℝ) (value : ℝ) : ℝ :=
  let loc := convertAngle d.loc
  clip01 (cdfWith core (value - loc) d.concentration - cdfWith core (-Real.pi - loc) d.concentration)

/-- von_mises.py:188-197 `survival_function`. -/
def survival (core : ℝ → ℝ → ℝ) (value : ℝ) : ℝ :=
  let loc := convertAngle d.loc
  clip01 (cdfWith core (Real.pi - loc) d.concentration - cdfWith core (value - loc) d.concentration)

/-- von_mises.py:226-240: the proposal parameter `s`; `cutoff` is the dtype-dependent constant. -/
def proposalS (cutoff concentration : ℝ) : ℝ :=
  let useExact := cutoff < concentration
  let conc := if useExact then concentration else 1
  let r := 1 + Real.sqrt (1 + 4 * conc ^ 2)
  let rho := (r - Real.sqrt (2 * r)) / (2 * conc)
  let sExact := (1 + rho ^ 2) / (2 * rho)
  let sApproximate := 1 / max concentration 1e-7
  if useExact then sExact else sApproximate

/-- The candidate of one iteration, von_mises.py:249-250. -/
def candidate (s u : ℝ) : ℝ :=
  let z := Real.cos (Real.pi * u)
  (1 + s * z) / (s + z)

/-- The acceptance test of von_mises.py:251-254. -/
def accepts (concentration s w v : ℝ) : Prop :=
  let y := concentration * (s - w)
  ¬ (y * Real.exp (1 - y) < v)

/-- State of the rejection loop for one entry. [the loop of von_mises.py:145-151] -/
structure LoopSt where
  done : Bool
  u : ℝ
  w : ℝ

open Classical in
/-- von_mises.py:242-255 `loop_body`, for one entry and the draws `(u, v)`. -/
def loopBody (concentration s : ℝ) (st : LoopSt) (uv : ℝ × ℝ) : LoopSt :=
  let w := if st.done then st.w else candidate s uv.1
  let accept : Bool := decide (accepts concentration s w uv.2)
  ⟨accept || st.done, uv.1, w⟩

open Classical in
/-- von_mises.py:257-276: the `while_loop` over the whole (flattened) array of `m` entries, given the draws of the rounds
that the counter still allows (`100` at the start): another round is made while some entry is not done. -/
def whileLoop {m : ℕ} (concentration s : Fin m → ℝ) : List (Fin m → ℝ × ℝ) → (Fin m → LoopSt) → (Fin m → LoopSt)
  | [], st => st
  | uv :: rest, st =>
    if ∃ i, (st i).done = false then
      whileLoop concentration s rest (fun i => loopBody (concentration i) (s i) (st i) (uv i))
    else st

/-- The initial values of von_mises.py:269-275. -/
def initSt : LoopSt := ⟨false, 0, 0⟩

/-- von_mises.py:277 the result. -/
def stdSample (st : LoopSt) : ℝ := SignType.sign st.u * Real.arccos (min (max st.w (-1)) 1)

/-- von_mises.py:145-151 `_sample_n`, flattened: `m` entries (parameters already broadcast), `draws` the random numbers
of at most 100 rounds. -/
def sampleN {m : ℕ} (cutoff : ℝ) (d : Fin m → VonMises) (draws : List (Fin m → ℝ × ℝ)) (i : Fin m) : ℝ :=
  let st := whileLoop (fun i => (d i).concentration) (fun i => proposalS cutoff (d i).concentration) draws
    (fun _ => initSt)
  convertAngle (stdSample (st i) + (d i).loc)

end VonMises

end

end Distrax
