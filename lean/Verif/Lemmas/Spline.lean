import Verif.Spec.Spline
import Mathlib.Analysis.Calculus.Deriv.Pow
import Mathlib.Analysis.Calculus.Deriv.Inv
import Mathlib.Analysis.Calculus.Deriv.MeanValue
import Mathlib.Analysis.SpecialFunctions.Log.Basic
import Mathlib.Tactic.FieldSimp
import Mathlib.Tactic.LinearCombination
import Mathlib.Topology.Order.IntermediateValue

namespace Distrax.Spline

open Finset Set

/-! ### One bin -/

/-- Closed form of the map on a bin, in the relative coordinate `z`. -/
noncomputable def den (s d0 d1 z : ℝ) : ℝ := s + (d1 + d0 - 2 * s) * (z - z * z)
noncomputable def nrm (s d0 d1 z : ℝ) : ℝ := d1 * (z * z) + 2 * s * (z - z * z) + d0 * (1 - z) ^ 2
noncomputable def gz (y0 h s d0 d1 z : ℝ) : ℝ :=
  y0 + h * (s * (z * z) + d0 * (z - z * z)) / den s d0 d1 z

theorem den_pos {s d0 d1 z : ℝ} (hs : 0 < s) (h0 : 0 < d0) (h1 : 0 < d1) (hz0 : 0 ≤ z) (hz1 : z ≤ 1) :
    0 < den s d0 d1 z := by
  unfold den
  have hq0 : 0 ≤ z - z * z := by nlinarith
  have hq1 : z - z * z ≤ 1 / 4 := by nlinarith [sq_nonneg (z - 1 / 2)]
  nlinarith [mul_nonneg hq0 h0.le, mul_nonneg hq0 h1.le, mul_nonneg hs.le (sub_nonneg.2 hq1)]

theorem nrm_pos {s d0 d1 z : ℝ} (hs : 0 < s) (h0 : 0 < d0) (h1 : 0 < d1) (hz0 : 0 ≤ z) (hz1 : z ≤ 1) :
    0 < nrm s d0 d1 z := by
  unfold nrm
  have hq0 : 0 ≤ z - z * z := by nlinarith
  rcases hz0.eq_or_lt with rfl | h
  · simpa using h0
  · have : 0 < d1 * (z * z) := by positivity
    have : 0 ≤ d0 * (1 - z) ^ 2 := by positivity
    have : 0 ≤ 2 * s * (z - z * z) := by positivity
    linarith

theorem den_le {s d0 d1 z M : ℝ} (hs : s ≤ M) (h0 : d0 ≤ M) (h1 : d1 ≤ M) (hz0 : 0 ≤ z) (hz1 : z ≤ 1) :
    den s d0 d1 z ≤ M := by
  unfold den
  have hq0 : 0 ≤ z - z * z := by nlinarith
  have hq1 : z - z * z ≤ 1 / 4 := by nlinarith [sq_nonneg (z - 1 / 2)]
  nlinarith [mul_nonneg hq0 (sub_nonneg.2 h0), mul_nonneg hq0 (sub_nonneg.2 h1),
    mul_nonneg (sub_nonneg.2 hs) (by linarith : 0 ≤ 1 - 2 * (z - z * z))]

theorem nrm_ge {s d0 d1 z m : ℝ} (hs : m ≤ s) (h0 : m ≤ d0) (h1 : m ≤ d1) (hz0 : 0 ≤ z) (hz1 : z ≤ 1) :
    m ≤ nrm s d0 d1 z := by
  unfold nrm
  have hq0 : 0 ≤ z - z * z := by nlinarith
  nlinarith [mul_nonneg hq0 (sub_nonneg.2 hs), mul_nonneg (sq_nonneg z) (sub_nonneg.2 h1),
    mul_nonneg (sq_nonneg (1 - z)) (sub_nonneg.2 h0)]

theorem gz_hasDerivAt {y0 h s d0 d1 z : ℝ} (hd : den s d0 d1 z ≠ 0) :
    HasDerivAt (gz y0 h s d0 d1) (h * s * nrm s d0 d1 z / den s d0 d1 z ^ 2) z := by
  have hz : HasDerivAt (fun z : ℝ => z) 1 z := hasDerivAt_id z
  have hzz : HasDerivAt (fun z : ℝ => z * z) (1 * z + z * 1) z := hz.mul hz
  have hq : HasDerivAt (fun z : ℝ => z - z * z) (1 - (1 * z + z * 1)) z := hz.sub hzz
  have hnum : HasDerivAt (fun z : ℝ => h * (s * (z * z) + d0 * (z - z * z)))
      (h * (s * (1 * z + z * 1) + d0 * (1 - (1 * z + z * 1)))) z :=
    ((hzz.const_mul s).add (hq.const_mul d0)).const_mul h
  have hden : HasDerivAt (den s d0 d1) ((d1 + d0 - 2 * s) * (1 - (1 * z + z * 1))) z :=
    (hq.const_mul (d1 + d0 - 2 * s)).const_add s
  have := (hnum.div hden hd).const_add y0
  refine this.congr_deriv ?_
  rw [div_eq_div_iff (pow_ne_zero 2 hd) (pow_ne_zero 2 hd)]
  unfold den nrm
  ring

theorem gz_zero (y0 h s d0 d1 : ℝ) : gz y0 h s d0 d1 0 = y0 := by simp [gz]
theorem gz_one {y0 h s d0 d1 : ℝ} (hs : s ≠ 0) : gz y0 h s d0 d1 1 = y0 + h := by
  simp [gz, den, mul_div_assoc, hs]

/-- In a bin the quadratic's derivative at the root. -/
theorem quad_facts {s d0 d1 z w : ℝ} (hd : den s d0 d1 z ≠ 0)
    (hw : w = (s * (z * z) + d0 * (z - z * z)) / den s d0 d1 z) :
    let b := d0 - (d1 + d0 - 2 * s) * w
    let a := s - b
    let c := -s * w
    a * z ^ 2 + b * z + c = 0 ∧ 2 * a * z + b = s * nrm s d0 d1 z / den s d0 d1 z := by
  intro b a c
  have e : w * den s d0 d1 z = s * (z * z) + d0 * (z - z * z) := by rw [hw]; field_simp
  constructor
  · simp only [a, b, c]
    have : den s d0 d1 z = s + (d1 + d0 - 2 * s) * (z - z * z) := rfl
    rw [this] at e
    linear_combination -e
  · rw [eq_div_iff hd]
    simp only [a, b]
    unfold nrm
    have e2 : (2 * (s - (d0 - (d1 + d0 - 2 * s) * w)) * z + (d0 - (d1 + d0 - 2 * s) * w)) * den s d0 d1 z
        = (2 * (s - d0) * z + d0) * den s d0 d1 z + (2 * z - 1) * (d1 + d0 - 2 * s) *
          (w * den s d0 d1 z) := by ring
    rw [e2, e]
    unfold den
    ring

theorem root_eq {tiny s d0 d1 z w : ℝ} (hs : 0 < s) (h0 : 0 < d0) (h1 : 0 < d1) (hz0 : 0 ≤ z) (hz1 : z ≤ 1)
    (hw : w = (s * (z * z) + d0 * (z - z * z)) / den s d0 d1 z)
    (ht : tiny ≤ (s * nrm s d0 d1 z / den s d0 d1 z) ^ 2) :
    safeQuadraticRoot tiny (s - (d0 - (d1 + d0 - 2 * s) * w)) (d0 - (d1 + d0 - 2 * s) * w) (-s * w) = z := by
  have hdp := den_pos hs h0 h1 hz0 hz1
  obtain ⟨q1, q2⟩ := quad_facts hdp.ne' hw
  set b := d0 - (d1 + d0 - 2 * s) * w
  set a := s - b
  set c := -s * w
  have hr : 0 < s * nrm s d0 d1 z / den s d0 d1 z :=
    div_pos (mul_pos hs (nrm_pos hs h0 h1 hz0 hz1)) hdp
  set r := s * nrm s d0 d1 z / den s d0 d1 z
  have hdisc : b ^ 2 - 4 * a * c = r ^ 2 := by rw [← q2]; linear_combination -4 * a * q1
  unfold safeQuadraticRoot
  simp only [hdisc]
  rw [max_eq_left ht, Real.sqrt_sq hr.le, if_pos (pow_pos hr 2)]
  by_cases hb : b ≥ 0
  · simp only [hb, if_true]
    have : -b - r ≠ 0 := by linarith
    rw [div_eq_iff this, ← q2]
    linear_combination 2 * q1
  · simp only [hb, if_false]
    have ha : 0 < 2 * a := by simp only [a]; linarith
    rw [div_eq_iff ha.ne', ← q2]
    ring

/-! ### Locating the bin -/

theorem mono_le {K : ℕ} {p : ℕ → ℝ} (h : ∀ i < K, p i < p (i + 1)) {i j : ℕ} (hij : i ≤ j) (hj : j ≤ K) :
    p i ≤ p j := by
  induction j, hij using Nat.le_induction with
  | base => exact le_rfl
  | succ j _ ih => exact (ih (by omega)).trans (h j (by omega)).le

theorem mono_lt {K : ℕ} {p : ℕ → ℝ} (h : ∀ i < K, p i < p (i + 1)) {i j : ℕ} (hij : i < j) (hj : j ≤ K) :
    p i < p j := (h i (by omega)).trans_le (mono_le h hij hj)

theorem bin_unique {K : ℕ} {p : ℕ → ℝ} (h : ∀ i < K, p i < p (i + 1)) {i j : ℕ} (hi : i < K) (hj : j < K)
    {v : ℝ} (h1 : p i ≤ v) (h2 : v < p (i + 1)) (h3 : p j ≤ v) (h4 : v < p (j + 1)) : j = i := by
  rcases lt_trichotomy i j with hlt | rfl | hlt
  · have := mono_le h (i := i + 1) (j := j) hlt hj.le; linarith
  · rfl
  · have := mono_le h (i := j + 1) (j := i) hlt hi.le; linarith

theorem pickLeft_eq {K : ℕ} {p : ℕ → ℝ} (h : ∀ i < K, p i < p (i + 1)) {i : ℕ} (hi : i < K) {v : ℝ}
    (h1 : p i ≤ v) (h2 : v < p (i + 1)) (q : ℕ → ℝ) : pickLeft K p v q = q i := by
  unfold pickLeft
  have hex : ∃ j < K, p j ≤ v ∧ v < p (j + 1) := ⟨i, hi, h1, h2⟩
  rw [Finset.sum_eq_single i]
  · simp [binMask, if_pos hex, h1, h2]
  · intro j hj hne
    rw [if_neg]
    unfold binMask
    rw [if_pos hex]
    rintro ⟨h3, h4⟩
    exact hne (bin_unique h hi (Finset.mem_range.1 hj) h1 h2 h3 h4)
  · intro hn; exact absurd (Finset.mem_range.2 hi) hn

theorem pickRight_eq {K : ℕ} {p : ℕ → ℝ} (h : ∀ i < K, p i < p (i + 1)) {i : ℕ} (hi : i < K) {v : ℝ}
    (h1 : p i ≤ v) (h2 : v < p (i + 1)) (q : ℕ → ℝ) : pickRight K p v q = q (i + 1) := by
  unfold pickRight
  have hex : ∃ j < K, p j ≤ v ∧ v < p (j + 1) := ⟨i, hi, h1, h2⟩
  rw [Finset.sum_eq_single i]
  · simp [binMask, if_pos hex, h1, h2]
  · intro j hj hne
    rw [if_neg]
    unfold binMask
    rw [if_pos hex]
    rintro ⟨h3, h4⟩
    exact hne (bin_unique h hi (Finset.mem_range.1 hj) h1 h2 h3 h4)
  · intro hn; exact absurd (Finset.mem_range.2 hi) hn

/-- A point of `[p 0, p K)` lies in exactly one half-open bin. -/
theorem exists_bin {K : ℕ} {p : ℕ → ℝ} {v : ℝ} (h0 : p 0 ≤ v) (hK : v < p K) :
    ∃ i < K, p i ≤ v ∧ v < p (i + 1) := by
  induction K with
  | zero => linarith
  | succ K ih =>
    by_cases h : v < p K
    · obtain ⟨i, hi, h1⟩ := ih h; exact ⟨i, by omega, h1⟩
    · exact ⟨K, by omega, not_lt.1 h, hK⟩

/-- A point of `(p 0, p K]` lies in a bin open on the left. -/
theorem exists_bin' {K : ℕ} {p : ℕ → ℝ} {v : ℝ} (h0 : p 0 < v) (hK : v ≤ p K) :
    ∃ i < K, p i < v ∧ v ≤ p (i + 1) := by
  induction K with
  | zero => linarith
  | succ K ih =>
    by_cases h : v ≤ p K
    · obtain ⟨i, hi, h1⟩ := ih h; exact ⟨i, by omega, h1⟩
    · exact ⟨K, by omega, not_le.1 h, hK⟩

theorem clip01_id {v : ℝ} (h0 : 0 ≤ v) (h1 : v ≤ 1) : clip01 v = v := by
  rw [clip01, max_eq_left h0, min_eq_left h1]

variable {K : ℕ} {xp yp sl : ℕ → ℝ}

/-- Quantities of bin `i`. -/
noncomputable def wid (xp : ℕ → ℝ) (i : ℕ) : ℝ := xp (i + 1) - xp i
noncomputable def slp (xp yp : ℕ → ℝ) (i : ℕ) : ℝ := (yp (i + 1) - yp i) / (xp (i + 1) - xp i)
noncomputable def zed (xp : ℕ → ℝ) (i : ℕ) (x : ℝ) : ℝ := (x - xp i) / (xp (i + 1) - xp i)

/-- The map of bin `i`. -/
noncomputable def gbin (xp yp sl : ℕ → ℝ) (i : ℕ) (x : ℝ) : ℝ :=
  gz (yp i) (yp (i + 1) - yp i) (slp xp yp i) (sl i) (sl (i + 1)) (zed xp i x)
/-- Its derivative. -/
noncomputable def dbin (xp yp sl : ℕ → ℝ) (i : ℕ) (x : ℝ) : ℝ :=
  slp xp yp i ^ 2 * nrm (slp xp yp i) (sl i) (sl (i + 1)) (zed xp i x) /
    den (slp xp yp i) (sl i) (sl (i + 1)) (zed xp i x) ^ 2
/-- Its log-det as computed. -/
noncomputable def lbin (xp yp sl : ℕ → ℝ) (i : ℕ) (x : ℝ) : ℝ :=
  2 * Real.log (slp xp yp i) + Real.log (nrm (slp xp yp i) (sl i) (sl (i + 1)) (zed xp i x)) -
    2 * Real.log (den (slp xp yp i) (sl i) (sl (i + 1)) (zed xp i x))

theorem slp_pos (h : Valid K xp yp sl) {i : ℕ} (hi : i < K) : 0 < slp xp yp i :=
  div_pos (sub_pos.2 (h.y_lt i hi)) (sub_pos.2 (h.x_lt i hi))

theorem zed_mem (h : Valid K xp yp sl) {i : ℕ} (hi : i < K) {x : ℝ} (h1 : xp i ≤ x) (h2 : x ≤ xp (i + 1)) :
    0 ≤ zed xp i x ∧ zed xp i x ≤ 1 := by
  have hw := sub_pos.2 (h.x_lt i hi)
  exact ⟨div_nonneg (by linarith) hw.le, by unfold zed; rw [div_le_one hw]; linarith⟩

theorem fwd_in_bin (h : Valid K xp yp sl) {i : ℕ} (hi : i < K) {x : ℝ} (h1 : xp i ≤ x)
    (h2 : x < xp (i + 1)) (hx0 : xp 0 < x) :
    fwd K xp yp sl x = (gbin xp yp sl i x, lbin xp yp sl i x) := by
  have hK : x < xp K := h2.trans_le (mono_le h.x_lt (by omega) le_rfl)
  obtain ⟨z0, z1⟩ := zed_mem h hi h1 h2.le
  unfold fwd
  simp only [pickLeft_eq h.x_lt hi h1 h2, pickRight_eq h.x_lt hi h1 h2, if_neg (not_le.2 hx0),
    if_neg (not_le.2 hK), ge_iff_le]
  have hz : clip01 ((x - xp i) / (xp (i + 1) - xp i)) = zed xp i x := clip01_id z0 z1
  rw [hz]
  rfl

theorem fwd_below (h : Valid K xp yp sl) {x : ℝ} (hx : x ≤ xp 0) :
    fwd K xp yp sl x = ((x - xp 0) * sl 0 + yp 0, Real.log (sl 0)) := by
  have hK : x < xp K := hx.trans_lt (mono_lt h.x_lt h.pos le_rfl)
  unfold fwd
  simp only [if_pos hx, if_neg (not_le.2 hK), ge_iff_le]

theorem fwd_above {x : ℝ} (hx : xp K ≤ x) :
    fwd K xp yp sl x = ((x - xp K) * sl K + yp K, Real.log (sl K)) := by
  unfold fwd
  simp only [ge_iff_le, if_pos hx]

theorem zed_left (i : ℕ) : zed xp i (xp i) = 0 := by simp [zed]
theorem zed_right (h : Valid K xp yp sl) {i : ℕ} (hi : i < K) : zed xp i (xp (i + 1)) = 1 :=
  div_self (sub_pos.2 (h.x_lt i hi)).ne'

theorem gbin_left (i : ℕ) : gbin xp yp sl i (xp i) = yp i := by
  rw [gbin, zed_left, gz_zero]
theorem gbin_right (h : Valid K xp yp sl) {i : ℕ} (hi : i < K) : gbin xp yp sl i (xp (i + 1)) = yp (i + 1) := by
  rw [gbin, zed_right h hi, gz_one (slp_pos h hi).ne']; ring

theorem lbin_left (h : Valid K xp yp sl) {i : ℕ} (hi : i < K) : lbin xp yp sl i (xp i) = Real.log (sl i) := by
  rw [lbin, zed_left]; simp [nrm, den]
theorem lbin_right (h : Valid K xp yp sl) {i : ℕ} (hi : i < K) :
    lbin xp yp sl i (xp (i + 1)) = Real.log (sl (i + 1)) := by
  rw [lbin, zed_right h hi]; simp [nrm, den]

theorem exp_lbin (h : Valid K xp yp sl) {i : ℕ} (hi : i < K) {x : ℝ} (h1 : xp i ≤ x) (h2 : x ≤ xp (i + 1)) :
    Real.exp (lbin xp yp sl i x) = dbin xp yp sl i x := by
  obtain ⟨z0, z1⟩ := zed_mem h hi h1 h2
  have hs := slp_pos h hi
  have hn := nrm_pos hs (h.slope i hi.le) (h.slope (i + 1) hi) z0 z1
  have hd := den_pos hs (h.slope i hi.le) (h.slope (i + 1) hi) z0 z1
  rw [lbin, Real.exp_sub, Real.exp_add, Real.exp_log hn, two_mul, two_mul, Real.exp_add, Real.exp_add,
    Real.exp_log hs, Real.exp_log hd, dbin]
  ring

theorem gbin_hasDerivAt (h : Valid K xp yp sl) {i : ℕ} (hi : i < K) {x : ℝ} (h1 : xp i ≤ x)
    (h2 : x ≤ xp (i + 1)) : HasDerivAt (gbin xp yp sl i) (dbin xp yp sl i x) x := by
  obtain ⟨z0, z1⟩ := zed_mem h hi h1 h2
  have hs := slp_pos h hi
  have hw := sub_pos.2 (h.x_lt i hi)
  have hd := den_pos hs (h.slope i hi.le) (h.slope (i + 1) hi) z0 z1
  have hz : HasDerivAt (zed xp i) (1 / (xp (i + 1) - xp i)) x :=
    ((hasDerivAt_id x).sub_const (xp i)).div_const _
  have := (gz_hasDerivAt (y0 := yp i) (h := yp (i + 1) - yp i) hd.ne').comp x hz
  refine this.congr_deriv ?_
  unfold dbin
  rw [show (yp (i + 1) - yp i) = slp xp yp i * (xp (i + 1) - xp i) by unfold slp; field_simp]
  field_simp

theorem lbin_continuousAt (h : Valid K xp yp sl) {i : ℕ} (hi : i < K) {x : ℝ} (h1 : xp i ≤ x)
    (h2 : x ≤ xp (i + 1)) : ContinuousAt (lbin xp yp sl i) x := by
  obtain ⟨z0, z1⟩ := zed_mem h hi h1 h2
  have hs := slp_pos h hi
  have hn := nrm_pos hs (h.slope i hi.le) (h.slope (i + 1) hi) z0 z1
  have hd := den_pos hs (h.slope i hi.le) (h.slope (i + 1) hi) z0 z1
  have hz : Continuous (zed xp i) := by unfold zed; fun_prop
  have c1 : ContinuousAt (fun x => nrm (slp xp yp i) (sl i) (sl (i + 1)) (zed xp i x)) x := by
    unfold nrm; fun_prop
  have c2 : ContinuousAt (fun x => den (slp xp yp i) (sl i) (sl (i + 1)) (zed xp i x)) x := by
    unfold den; fun_prop
  unfold lbin
  exact ((continuousAt_const).add (c1.log hn.ne')).sub ((c2.log hd.ne').const_mul 2)

/-- On a closed bin the spline is the closed form. -/
theorem fwd_closed (h : Valid K xp yp sl) {i : ℕ} (hi : i < K) {x : ℝ} (h1 : xp i ≤ x) (h2 : x ≤ xp (i + 1)) :
    fwd K xp yp sl x = (gbin xp yp sl i x, lbin xp yp sl i x) := by
  rcases h2.eq_or_lt with rfl | hlt
  · rw [gbin_right h hi, lbin_right h hi]
    by_cases hK : i + 1 = K
    · rw [fwd_above (by rw [hK]), hK]; simp
    · have hi' : i + 1 < K := by omega
      rw [fwd_in_bin h hi' le_rfl (h.x_lt _ hi') (mono_lt h.x_lt (by omega) hi'.le), gbin_left, lbin_left h hi']
  · by_cases h0 : xp 0 < x
    · exact fwd_in_bin h hi h1 hlt h0
    · have hx : x = xp 0 := le_antisymm (not_lt.1 h0) ((mono_le h.x_lt (Nat.zero_le i) hi.le).trans h1)
      have hi0 : i = 0 := by
        by_contra hne
        have := mono_lt h.x_lt (Nat.pos_of_ne_zero hne) hi.le
        linarith
      subst hi0
      rw [fwd_below h hx.le, hx, gbin_left, lbin_left h hi]; simp

open Filter Topology

theorem left_facts (h : Valid K xp yp sl) (x : ℝ) :
    HasDerivWithinAt (fun v => (fwd K xp yp sl v).1) (Real.exp (fwd K xp yp sl x).2) (Iic x) x ∧
    ContinuousWithinAt (fun v => (fwd K xp yp sl v).2) (Iic x) x := by
  by_cases hx0 : x ≤ xp 0
  · have e : ∀ v ∈ Iic x, fwd K xp yp sl v = ((v - xp 0) * sl 0 + yp 0, Real.log (sl 0)) :=
      fun v hv => fwd_below h (le_trans hv hx0)
    constructor
    · rw [e x (by simp), Real.exp_log (h.slope 0 (Nat.zero_le _))]
      refine HasDerivWithinAt.congr (f := fun v => (v - xp 0) * sl 0 + yp 0) ?_
        (fun v hv => by rw [e v hv]) (by rw [e x (by simp)])
      simpa using ((((hasDerivAt_id x).sub_const (xp 0)).mul_const (sl 0)).add_const (yp 0)).hasDerivWithinAt
    · exact (continuousWithinAt_const (b := Real.log (sl 0))).congr (fun v hv => by rw [e v hv])
        (by rw [e x (by simp)])
  · push Not at hx0
    by_cases hxK : x ≤ xp K
    · obtain ⟨i, hi, h1, h2⟩ := exists_bin' hx0 hxK
      have e : ∀ v, v ∈ Icc (xp i) x → fwd K xp yp sl v = (gbin xp yp sl i v, lbin xp yp sl i v) :=
        fun v hv => fwd_closed h hi hv.1 (hv.2.trans h2)
      have hev : ∀ᶠ v in 𝓝[Iic x] x, v ∈ Icc (xp i) x := by
        have : Ioi (xp i) ∈ 𝓝 x := Ioi_mem_nhds h1
        filter_upwards [nhdsWithin_le_nhds this, self_mem_nhdsWithin] with v hv hv'
        exact ⟨le_of_lt hv, hv'⟩
      have ex := e x ⟨h1.le, le_rfl⟩
      constructor
      · rw [ex, exp_lbin h hi h1.le h2]
        refine (gbin_hasDerivAt h hi h1.le h2).hasDerivWithinAt.congr_of_eventuallyEq ?_ (by rw [ex])
        filter_upwards [hev] with v hv
        rw [e v hv]
      · refine (lbin_continuousAt h hi h1.le h2).continuousWithinAt.congr_of_eventuallyEq ?_ (by rw [ex])
        filter_upwards [hev] with v hv
        rw [e v hv]
    · push Not at hxK
      have e : ∀ v, xp K ≤ v → fwd K xp yp sl v = ((v - xp K) * sl K + yp K, Real.log (sl K)) :=
        fun v hv => fwd_above hv
      have hev : ∀ᶠ v in 𝓝[Iic x] x, xp K ≤ v :=
        nhdsWithin_le_nhds (mem_of_superset (Ioi_mem_nhds hxK) fun v (hv : xp K < v) => show xp K ≤ v from hv.le)
      constructor
      · rw [e x hxK.le, Real.exp_log (h.slope K le_rfl)]
        have : HasDerivAt (fun v => (v - xp K) * sl K + yp K) (sl K) x := by
          simpa using (((hasDerivAt_id x).sub_const (xp K)).mul_const (sl K)).add_const (yp K)
        refine this.hasDerivWithinAt.congr_of_eventuallyEq ?_ (by rw [e x hxK.le])
        filter_upwards [hev] with v hv
        rw [e v hv]
      · refine (continuousWithinAt_const (b := Real.log (sl K))).congr_of_eventuallyEq ?_ (by rw [e x hxK.le])
        filter_upwards [hev] with v hv
        rw [e v hv]

theorem right_facts (h : Valid K xp yp sl) (x : ℝ) :
    HasDerivWithinAt (fun v => (fwd K xp yp sl v).1) (Real.exp (fwd K xp yp sl x).2) (Ici x) x ∧
    ContinuousWithinAt (fun v => (fwd K xp yp sl v).2) (Ici x) x := by
  by_cases hx0 : x < xp 0
  · have e : ∀ v, v ≤ xp 0 → fwd K xp yp sl v = ((v - xp 0) * sl 0 + yp 0, Real.log (sl 0)) :=
      fun v hv => fwd_below h hv
    have hev : ∀ᶠ v in 𝓝[Ici x] x, v ≤ xp 0 :=
      nhdsWithin_le_nhds (mem_of_superset (Iio_mem_nhds hx0) fun v (hv : v < xp 0) => show v ≤ xp 0 from hv.le)
    constructor
    · rw [e x hx0.le, Real.exp_log (h.slope 0 (Nat.zero_le _))]
      have : HasDerivAt (fun v => (v - xp 0) * sl 0 + yp 0) (sl 0) x := by
        simpa using (((hasDerivAt_id x).sub_const (xp 0)).mul_const (sl 0)).add_const (yp 0)
      refine this.hasDerivWithinAt.congr_of_eventuallyEq ?_ (by rw [e x hx0.le])
      filter_upwards [hev] with v hv
      rw [e v hv]
    · refine (continuousWithinAt_const (b := Real.log (sl 0))).congr_of_eventuallyEq ?_ (by rw [e x hx0.le])
      filter_upwards [hev] with v hv
      rw [e v hv]
  · push Not at hx0
    by_cases hxK : x < xp K
    · obtain ⟨i, hi, h1, h2⟩ := exists_bin hx0 hxK
      have e : ∀ v, v ∈ Icc x (xp (i + 1)) → fwd K xp yp sl v = (gbin xp yp sl i v, lbin xp yp sl i v) :=
        fun v hv => fwd_closed h hi (h1.trans hv.1) hv.2
      have hev : ∀ᶠ v in 𝓝[Ici x] x, v ∈ Icc x (xp (i + 1)) := by
        have : Iio (xp (i + 1)) ∈ 𝓝 x := Iio_mem_nhds h2
        filter_upwards [nhdsWithin_le_nhds this, self_mem_nhdsWithin] with v hv hv'
        exact ⟨hv', le_of_lt hv⟩
      have ex := e x ⟨le_rfl, h2.le⟩
      constructor
      · rw [ex, exp_lbin h hi h1 h2.le]
        refine (gbin_hasDerivAt h hi h1 h2.le).hasDerivWithinAt.congr_of_eventuallyEq ?_ (by rw [ex])
        filter_upwards [hev] with v hv
        rw [e v hv]
      · refine (lbin_continuousAt h hi h1 h2.le).continuousWithinAt.congr_of_eventuallyEq ?_ (by rw [ex])
        filter_upwards [hev] with v hv
        rw [e v hv]
    · push Not at hxK
      have e : ∀ v ∈ Ici x, fwd K xp yp sl v = ((v - xp K) * sl K + yp K, Real.log (sl K)) :=
        fun v hv => fwd_above (le_trans hxK hv)
      constructor
      · rw [e x (by simp), Real.exp_log (h.slope K le_rfl)]
        refine HasDerivWithinAt.congr (f := fun v => (v - xp K) * sl K + yp K) ?_
          (fun v hv => by rw [e v hv]) (by rw [e x (by simp)])
        simpa using ((((hasDerivAt_id x).sub_const (xp K)).mul_const (sl K)).add_const (yp K)).hasDerivWithinAt
      · exact (continuousWithinAt_const (b := Real.log (sl K))).congr (fun v hv => by rw [e v hv])
          (by rw [e x (by simp)])

theorem fwd_hasDerivAt (h : Valid K xp yp sl) (x : ℝ) :
    HasDerivAt (fun v => (fwd K xp yp sl v).1) (Real.exp (fwd K xp yp sl x).2) x := by
  have := (left_facts h x).1.union (right_facts h x).1
  rwa [Iic_union_Ici, hasDerivWithinAt_univ] at this

theorem ld_continuous (h : Valid K xp yp sl) : Continuous (fun v => (fwd K xp yp sl v).2) :=
  continuous_iff_continuousAt.2 fun x =>
    continuousAt_iff_continuous_left_right.2 ⟨(left_facts h x).2, (right_facts h x).2⟩

theorem fwd_strictMono (h : Valid K xp yp sl) : StrictMono (fun v => (fwd K xp yp sl v).1) :=
  strictMono_of_deriv_pos fun x => by rw [(fwd_hasDerivAt h x).deriv]; exact Real.exp_pos _

theorem fwd_continuous (h : Valid K xp yp sl) : Continuous (fun v => (fwd K xp yp sl v).1) :=
  continuous_iff_continuousAt.2 fun x => (fwd_hasDerivAt h x).continuousAt

theorem fwd_surjective (h : Valid K xp yp sl) : Function.Surjective (fun v => (fwd K xp yp sl v).1) := by
  apply (fwd_continuous h).surjective
  · have : Tendsto (fun v => (v - xp K) * sl K + yp K) atTop atTop :=
      tendsto_atTop_add_const_right _ _ ((tendsto_atTop_add_const_right _ _ tendsto_id).atTop_mul_const
        (h.slope K le_rfl))
    refine this.congr' ?_
    filter_upwards [eventually_ge_atTop (xp K)] with v hv
    rw [fwd_above hv]
  · have : Tendsto (fun v => (v - xp 0) * sl 0 + yp 0) atBot atBot :=
      tendsto_atBot_add_const_right _ _ ((tendsto_atBot_add_const_right _ _ tendsto_id).atBot_mul_const
        (h.slope 0 (Nat.zero_le _)))
    refine this.congr' ?_
    filter_upwards [eventually_le_atBot (xp 0)] with v hv
    rw [fwd_below h hv]

theorem fwd_knot (h : Valid K xp yp sl) {i : ℕ} (hi : i ≤ K) :
    fwd K xp yp sl (xp i) = (yp i, Real.log (sl i)) := by
  rcases hi.lt_or_eq with hlt | rfl
  · rw [fwd_closed h hlt le_rfl (h.x_lt i hlt).le, gbin_left, lbin_left h hlt]
  · rw [fwd_above le_rfl]; simp

theorem inv_fwd (h : Valid K xp yp sl) {tiny : ℝ} (hr : Resolved tiny K xp yp sl) (x : ℝ) :
    inv tiny K xp yp sl (fwd K xp yp sl x).1 = (x, -(fwd K xp yp sl x).2) := by
  have sm := fwd_strictMono h
  have k0 := fwd_knot h (Nat.zero_le K)
  have kK := fwd_knot h (le_refl K)
  have hyK : ∀ {v}, v ≤ yp 0 → ¬ yp K ≤ v := fun hv hv' => by
    have := mono_lt h.y_lt h.pos le_rfl; linarith
  by_cases hx0 : x ≤ xp 0
  · have hy : (fwd K xp yp sl x).1 ≤ yp 0 := by
      have := sm.monotone hx0; simpa [k0] using this
    unfold inv
    simp only [if_pos hy, ge_iff_le, if_neg (hyK hy)]
    rw [fwd_below h hx0]
    have := (h.slope 0 (Nat.zero_le _)).ne'
    simp only [add_sub_cancel_right, mul_div_cancel_right₀ _ this, sub_add_cancel]
  · push Not at hx0
    have hy0 : ¬ (fwd K xp yp sl x).1 ≤ yp 0 := by
      have := sm hx0; simp only [k0] at this; linarith
    by_cases hxK : xp K ≤ x
    · have hy : yp K ≤ (fwd K xp yp sl x).1 := by
        have := sm.monotone hxK; simpa [kK] using this
      unfold inv
      simp only [ge_iff_le, if_pos hy]
      rw [fwd_above hxK]
      have := (h.slope K le_rfl).ne'
      simp only [add_sub_cancel_right, mul_div_cancel_right₀ _ this, sub_add_cancel]
    · push Not at hxK
      have hy : ¬ yp K ≤ (fwd K xp yp sl x).1 := by
        have := sm hxK; simp only [kK] at this; linarith
      obtain ⟨i, hi, h1, h2⟩ := exists_bin hx0.le hxK
      have hb1 : yp i ≤ (fwd K xp yp sl x).1 := by
        have := sm.monotone h1; simpa [fwd_knot h hi.le] using this
      have hb2 : (fwd K xp yp sl x).1 < yp (i + 1) := by
        have := sm h2; simpa [fwd_knot h (Nat.succ_le_of_lt hi)] using this
      obtain ⟨z0, z1⟩ := zed_mem h hi h1 h2.le
      have hs := slp_pos h hi
      have hd0 := h.slope i hi.le
      have hd1 := h.slope (i + 1) hi
      have hdp := den_pos hs hd0 hd1 z0 z1
      have hh := sub_pos.2 (h.y_lt i hi)
      have hwid := sub_pos.2 (h.x_lt i hi)
      have hfx := fwd_in_bin h hi h1 h2 hx0
      set y := (fwd K xp yp sl x).1 with hydef
      have hyg : y = gbin xp yp sl i x := by rw [hydef, hfx]
      have hw : (y - yp i) / (yp (i + 1) - yp i) =
          (slp xp yp i * (zed xp i x * zed xp i x) + sl i * (zed xp i x - zed xp i x * zed xp i x)) /
            den (slp xp yp i) (sl i) (sl (i + 1)) (zed xp i x) := by
        rw [hyg, gbin, gz, add_sub_cancel_left, mul_div_assoc, mul_div_cancel_left₀ _ hh.ne']
      have hw0 : 0 ≤ (y - yp i) / (yp (i + 1) - yp i) := div_nonneg (by linarith) hh.le
      have hw1 : (y - yp i) / (yp (i + 1) - yp i) ≤ 1 := by rw [div_le_one hh]; linarith
      have ht : tiny ≤ (slp xp yp i * nrm (slp xp yp i) (sl i) (sl (i + 1)) (zed xp i x) /
          den (slp xp yp i) (sl i) (sl (i + 1)) (zed xp i x)) ^ 2 := by
        obtain ⟨m, M, hm, hmt, hsl, hslp⟩ := hr.ex
        refine hmt.trans ?_
        have a1 := hslp i hi
        have a2 := hsl i hi.le
        have a3 := hsl (i + 1) hi
        have n1 := nrm_ge (z := zed xp i x) a1.1 a2.1 a3.1 z0 z1
        have n2 := den_le (z := zed xp i x) a1.2 a2.2 a3.2 z0 z1
        have hM : 0 < M := hm.trans_le (a2.1.trans a2.2)
        apply pow_le_pow_left₀ (by positivity)
        apply div_le_div₀ _ _ hdp n2
        · exact mul_nonneg hs.le (hm.le.trans n1)
        · exact mul_le_mul a1.1 n1 hm.le hs.le
      have hroot := root_eq hs hd0 hd1 z0 z1 hw ht
      unfold inv
      simp only [ge_iff_le, if_neg hy0, if_neg hy, pickLeft_eq h.y_lt hi hb1 hb2,
        pickRight_eq h.y_lt hi hb1 hb2]
      rw [clip01_id hw0 hw1]
      have e1 : (yp (i + 1) - yp i) / (xp (i + 1) - xp i) = slp xp yp i := rfl
      rw [e1, hroot, clip01_id z0 z1, hfx]
      refine Prod.ext ?_ ?_
      · simp only [zed]
        field_simp
        ring
      · simp only [lbin, nrm, den]
        ring

end Distrax.Spline
