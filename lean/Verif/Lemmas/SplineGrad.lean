import Verif.Spec.SplineGrad
import Verif.Lemmas.Pathwise
import Verif.Lemmas.Spline
import Mathlib.Analysis.SpecialFunctions.Sqrt

namespace Distrax

open Filter Topology Finset Distrax.Spec

namespace Dual
theorem val_add (a b : Dual) : (a + b).val = a.val + b.val := rfl
theorem tan_add (a b : Dual) : (a + b).tan = a.tan + b.tan := rfl
theorem val_sub (a b : Dual) : (a - b).val = a.val - b.val := rfl
theorem tan_sub (a b : Dual) : (a - b).tan = a.tan - b.tan := rfl
theorem val_mul (a b : Dual) : (a * b).val = a.val * b.val := rfl
theorem tan_mul (a b : Dual) : (a * b).tan = a.tan * b.val + a.val * b.tan := rfl
theorem val_div (a b : Dual) : (a / b).val = a.val / b.val := rfl
theorem tan_div (a b : Dual) : (a / b).tan = a.tan / b.val - a.val * b.tan / b.val ^ 2 := rfl
theorem val_neg (a : Dual) : (-a).val = -a.val := rfl
theorem tan_neg (a : Dual) : (-a).tan = -a.tan := rfl
theorem val_const (a : ℝ) : (const a).val = a := rfl
theorem tan_const (a : ℝ) : (const a).tan = 0 := rfl
theorem val_log (a : Dual) : a.log.val = Real.log a.val := rfl
theorem val_where (c : Bool) (a b : Dual) : (where_ c a b).val = if c then a.val else b.val := by
  cases c <;> rfl
theorem tan_where (c : Bool) (a b : Dual) : (where_ c a b).tan = if c then a.tan else b.tan := by
  cases c <;> rfl
end Dual

namespace Tracks

variable {x y : ℝ → ℝ} {a b : Dual} {t : ℝ}

theorem neg (h : Tracks x a t) : Tracks (fun s => -x s) (-a) t :=
  ⟨by show -a.val = _; rw [h.val], h.deriv.neg⟩

theorem log (h : Tracks x a t) (hx : x t ≠ 0) : Tracks (fun s => Real.log (x s)) a.log t :=
  ⟨by show Real.log a.val = _; rw [h.val], (h.deriv.log hx).congr_deriv (by show _ = a.tan / a.val; rw [h.val])⟩

theorem sqrt (h : Tracks x a t) (hx : x t ≠ 0) : Tracks (fun s => Real.sqrt (x s)) a.sqrt t :=
  ⟨by show Real.sqrt a.val = _; rw [h.val], (h.deriv.sqrt hx).congr_deriv (by
    show _ = a.tan * (1 / 2) / Real.sqrt a.val
    rw [h.val]; ring)⟩

theorem eventually (h : Tracks x a t) (e : ∀ᶠ s in 𝓝 t, y s = x s) : Tracks y a t :=
  ⟨by rw [h.val, e.self_of_nhds], h.deriv.congr_of_eventuallyEq e⟩

theorem tan_eq (h : Tracks x a t) (k : Tracks x b t) : a.tan = b.tan := h.deriv.unique k.deriv

theorem clipLow (tie : ℝ) {lo : ℝ} (h : Tracks x a t) (h1 : lo < x t) :
    Tracks (fun s => max (x s) lo) (Dual.clipLow tie lo a) t := by
  have hd : Dual.clipLow tie lo a = a := by
    ext
    · exact max_eq_left (by rw [h.val]; exact h1.le)
    · exact (if_neg (by rw [h.val]; exact h1.not_gt)).trans (if_neg (by rw [h.val]; exact h1.ne'))
  rw [hd]
  refine h.eventually ?_
  filter_upwards [h.deriv.continuousAt.eventually (lt_mem_nhds h1)] with s hs
  exact max_eq_left hs.le

/-- A function that near `t` always agrees with one of two functions with the same value and derivative at `t`. -/
theorem select {f : ℝ → ℝ} (h : Tracks x a t) (k : Tracks y a t) (e : ∀ᶠ s in 𝓝 t, f s = x s ∨ f s = y s) :
    Tracks f a t := by
  have hf : f t = x t := by
    rcases e.self_of_nhds with h' | h'
    · exact h'
    · rw [h', ← h.val, k.val]
  refine ⟨by rw [h.val, hf], ?_⟩
  have hxy : y t = x t := by rw [← h.val, k.val]
  rw [hasDerivAt_iff_isLittleO]
  have h1 := hasDerivAt_iff_isLittleO.1 h.deriv
  have h2 := hasDerivAt_iff_isLittleO.1 k.deriv
  rw [Asymptotics.isLittleO_iff] at *
  intro c hc
  filter_upwards [h1 hc, h2 hc, e] with s e1 e2 e3
  rcases e3 with e3 | e3
  · rw [e3, hf]; exact e1
  · rw [e3, hf, ← hxy]; exact e2

end Tracks

namespace Spline

/-! ### One bin with its own parameters -/

/-- The branch of the forward map inside the range. -/
noncomputable def binF (x0 x1 y0 y1 d0 d1 x : ℝ) : ℝ × ℝ :=
  let width := x1 - x0
  let height := y1 - y0
  let slope := height / width
  let z := clip01 ((x - x0) / width)
  let sqz := z * z
  let z1mz := z - sqz
  let sq1mz := (1 - z) ^ 2
  let slopesTerm := d1 + d0 - 2 * slope
  let num := height * (slope * sqz + d0 * z1mz)
  let den := slope + slopesTerm * z1mz
  (y0 + num / den, 2 * Real.log slope + Real.log (d1 * sqz + 2 * slope * z1mz + d0 * sq1mz) - 2 * Real.log den)

/-- The same with tangents. -/
noncomputable def binFD (tie : ℝ) (x0 x1 y0 y1 d0 d1 x : Dual) : Dual × Dual :=
  let width := x1 - x0
  let height := y1 - y0
  let slope := height / width
  let z := Dual.clip tie 0 1 ((x - x0) / width)
  let sqz := z * z
  let z1mz := z - sqz
  let sq1mz := (Dual.const 1 - z) * (Dual.const 1 - z)
  let slopesTerm := d1 + d0 - Dual.const 2 * slope
  let num := height * (slope * sqz + d0 * z1mz)
  let den := slope + slopesTerm * z1mz
  (y0 + num / den,
    Dual.const 2 * slope.log + (d1 * sqz + Dual.const 2 * slope * z1mz + d0 * sq1mz).log - Dual.const 2 * den.log)

/-- The branch of the inverse map inside the range. -/
noncomputable def binI (tiny x0 x1 y0 y1 d0 d1 y : ℝ) : ℝ × ℝ :=
  let width := x1 - x0
  let height := y1 - y0
  let slope := height / width
  let w := clip01 ((y - y0) / height)
  let slopesTerm := d1 + d0 - 2 * slope
  let c := -slope * w
  let b := d0 - slopesTerm * w
  let a := slope - b
  let z := clip01 (safeQuadraticRoot tiny a b c)
  let sqz := z * z
  let z1mz := z - sqz
  let sq1mz := (1 - z) ^ 2
  let den := slope + slopesTerm * z1mz
  (width * z + x0, -2 * Real.log slope - Real.log (d1 * sqz + 2 * slope * z1mz + d0 * sq1mz) + 2 * Real.log den)

/-- The same with tangents. -/
noncomputable def binID (tie tiny : ℝ) (x0 x1 y0 y1 d0 d1 y : Dual) : Dual × Dual :=
  let width := x1 - x0
  let height := y1 - y0
  let slope := height / width
  let w := Dual.clip tie 0 1 ((y - y0) / height)
  let slopesTerm := d1 + d0 - Dual.const 2 * slope
  let c := -slope * w
  let b := d0 - slopesTerm * w
  let a := slope - b
  let z := Dual.clip tie 0 1 (rootD tie tiny a b c)
  let sqz := z * z
  let z1mz := z - sqz
  let sq1mz := (Dual.const 1 - z) * (Dual.const 1 - z)
  let den := slope + slopesTerm * z1mz
  (width * z + x0,
    Dual.const (-2) * slope.log - (d1 * sqz + Dual.const 2 * slope * z1mz + d0 * sq1mz).log + Dual.const 2 * den.log)

theorem fwd_binF {K : ℕ} {xp yp sl : ℕ → ℝ} {x : ℝ} (h0 : xp 0 < x) (h1 : x < xp K) :
    fwd K xp yp sl x = binF (pickLeft K xp x xp) (pickRight K xp x xp) (pickLeft K xp x yp) (pickRight K xp x yp)
      (pickLeft K xp x sl) (pickRight K xp x sl) x := by
  unfold fwd
  simp only [if_neg (not_le.2 h0), ge_iff_le, if_neg (not_le.2 h1)]
  rfl

theorem inv_binI {tiny : ℝ} {K : ℕ} {xp yp sl : ℕ → ℝ} {y : ℝ} (h0 : yp 0 < y) (h1 : y < yp K) :
    inv tiny K xp yp sl y = binI tiny (pickLeft K yp y xp) (pickRight K yp y xp) (pickLeft K yp y yp) (pickRight K yp y yp)
      (pickLeft K yp y sl) (pickRight K yp y sl) y := by
  unfold inv
  simp only [if_neg (not_le.2 h0), ge_iff_le, if_neg (not_le.2 h1)]
  rfl

theorem fwdD_binF {tie : ℝ} {K : ℕ} {xp yp sl : ℕ → Dual} {x : Dual} (h0 : (xp 0).val < x.val) (h1 : x.val < (xp K).val) :
    fwdD tie K xp yp sl x = binFD tie (pickLeftD K xp x xp) (pickRightD K xp x xp) (pickLeftD K xp x yp)
      (pickRightD K xp x yp) (pickLeftD K xp x sl) (pickRightD K xp x sl) x := by
  unfold fwdD
  simp only [decide_eq_false (not_le.2 h0), ge_iff_le, decide_eq_false (not_le.2 h1), Dual.where_]
  rfl

theorem invD_binI {tie tiny : ℝ} {K : ℕ} {xp yp sl : ℕ → Dual} {y : Dual} (h0 : (yp 0).val < y.val)
    (h1 : y.val < (yp K).val) :
    invD tie tiny K xp yp sl y = binID tie tiny (pickLeftD K yp y xp) (pickRightD K yp y xp) (pickLeftD K yp y yp)
      (pickRightD K yp y yp) (pickLeftD K yp y sl) (pickRightD K yp y sl) y := by
  unfold invD
  simp only [decide_eq_false (not_le.2 h0), ge_iff_le, decide_eq_false (not_le.2 h1), Dual.where_]
  rfl

section
variable {x0 x1 y0 y1 d0 d1 x y : ℝ → ℝ} {x0' x1' y0' y1' d0' d1' x' y' : Dual} {t : ℝ}

/-- Inside a bin the tangents of the forward map are the derivatives. -/
theorem binF_tracks (tie : ℝ) (hx0 : Tracks x0 x0' t) (hx1 : Tracks x1 x1' t) (hy0 : Tracks y0 y0' t) (hy1 : Tracks y1 y1' t)
    (hd0 : Tracks d0 d0' t) (hd1 : Tracks d1 d1' t) (hx : Tracks x x' t) (hxl : x0 t < x t) (hxr : x t < x1 t)
    (hyy : y0 t < y1 t) (h0 : 0 < d0 t) (h1 : 0 < d1 t) :
    Tracks (fun s => (binF (x0 s) (x1 s) (y0 s) (y1 s) (d0 s) (d1 s) (x s)).1) (binFD tie x0' x1' y0' y1' d0' d1' x').1 t ∧
    Tracks (fun s => (binF (x0 s) (x1 s) (y0 s) (y1 s) (d0 s) (d1 s) (x s)).2) (binFD tie x0' x1' y0' y1' d0' d1' x').2 t := by
  have hw0 : 0 < x1 t - x0 t := by linarith
  have hh0 : 0 < y1 t - y0 t := by linarith
  have hs0 : 0 < (y1 t - y0 t) / (x1 t - x0 t) := div_pos hh0 hw0
  have hzl : 0 < (x t - x0 t) / (x1 t - x0 t) := div_pos (by linarith) hw0
  have hzr : (x t - x0 t) / (x1 t - x0 t) < 1 := by rw [div_lt_one hw0]; linarith
  have hzc : min (max ((x t - x0 t) / (x1 t - x0 t)) 0) 1 = (x t - x0 t) / (x1 t - x0 t) := clip01_id hzl.le hzr.le
  have width := hx1.sub hx0
  have height := hy1.sub hy0
  have slope := height.div width hw0.ne'
  have z := ((hx.sub hx0).div width hw0.ne').clip tie zero_le_one hzl.ne' hzr.ne
  have sqz := z.mul z
  have z1mz := z.sub sqz
  have sq1mz := ((Tracks.const 1 t).sub z).mul ((Tracks.const 1 t).sub z)
  have slopesTerm := (hd1.add hd0).sub ((Tracks.const 2 t).mul slope)
  have num := height.mul ((slope.mul sqz).add (hd0.mul z1mz))
  have den := slope.add (slopesTerm.mul z1mz)
  have hden := den_pos hs0 h0 h1 hzl.le hzr.le
  have hnrm := nrm_pos hs0 h0 h1 hzl.le hzr.le
  unfold Spline.den at hden
  unfold nrm at hnrm
  constructor
  · exact hy0.add (num.div den (by rw [show clip01 ((x t - x0 t) / (x1 t - x0 t)) = _ from hzc]; exact hden.ne'))
  · refine ((((Tracks.const 2 t).mul (slope.log hs0.ne')).add
      ((((hd1.mul sqz).add (((Tracks.const 2 t).mul slope).mul z1mz)).add (hd0.mul sq1mz)).log ?_)).sub
      ((Tracks.const 2 t).mul (den.log (by simp only [hzc]; exact hden.ne')))).congr fun s => ?_
    · simp only [hzc]; rw [← pow_two (1 - (x t - x0 t) / (x1 t - x0 t))]; exact hnrm.ne'
    · simp only [binF, clip01, pow_two]

/-- The quadratic root tracks, where the discriminant is resolved. -/
theorem root_tracks (tie : ℝ) {tiny : ℝ} (ht : 0 < tiny) {a b c : ℝ → ℝ} {a' b' c' : Dual} (ha : Tracks a a' t) (hb : Tracks b b' t)
    (hc : Tracks c c' t) (hD : tiny < b t ^ 2 - 4 * a t * c t) (hab : b t ≤ 0 → 0 < a t) :
    Tracks (fun s => safeQuadraticRoot tiny (a s) (b s) (c s)) (rootD tie tiny a' b' c') t := by
  have diff := (hb.mul hb).sub (((Tracks.const 4 t).mul ha).mul hc)
  have hD' : tiny < b t * b t - 4 * a t * c t := by rw [← pow_two]; exact hD
  have hDv : (b' * b' - Dual.const 4 * a' * c').val = b t * b t - 4 * a t * c t := diff.val
  have sq := (diff.clipLow tie hD').sqrt (by
    have : (b t * b t - 4 * a t * c t) ⊔ tiny = b t * b t - 4 * a t * c t := max_eq_left hD'.le
    rw [this]; exact (ht.trans hD').ne')
  have hpos : 0 < Real.sqrt (max (b t * b t - 4 * a t * c t) tiny) :=
    Real.sqrt_pos.2 (lt_of_lt_of_le (ht.trans hD') (le_max_left _ _))
  have hsq : Real.sqrt (max (b t * b t - 4 * a t * c t) tiny) ^ 2 = b t * b t - 4 * a t * c t := by
    rw [max_eq_left hD'.le, Real.sq_sqrt (ht.trans hD').le]
  have hDev : ∀ᶠ s in 𝓝 t, tiny < b s * b s - 4 * a s * c s :=
    diff.deriv.continuousAt.eventually (lt_mem_nhds hD')
  have hDdec : (decide ((b' * b' - Dual.const 4 * a' * c').val > 0)) = true :=
    decide_eq_true (by rw [hDv]; exact ht.trans hD')
  by_cases hb0 : 0 ≤ b t
  · -- the first formula
    have F1 := ((Tracks.const 2 t).mul hc).div (hb.neg.sub sq) (by
      have := hpos; linarith)
    have e : rootD tie tiny a' b' c' = Dual.const 2 * c' / (-b' - (Dual.clipLow tie tiny (b' * b' - Dual.const 4 * a' * c')).sqrt) := by
      have hbd : decide (b'.val ≥ 0) = true := decide_eq_true (by rw [hb.val]; exact hb0)
      unfold rootD
      simp only [hDdec, hbd, Dual.where_, if_true]
    rw [e]
    refine F1.eventually ?_
    have hden1 : ∀ᶠ s in 𝓝 t, -b s - Real.sqrt (max (b s * b s - 4 * a s * c s) tiny) < 0 :=
      (hb.neg.sub sq).deriv.continuousAt.eventually (gt_mem_nhds (by have := hpos; simp only at this ⊢; linarith))
    rcases hb0.eq_or_lt with hz | hz
    · have hae := ha.deriv.continuousAt.eventually (lt_mem_nhds (hab hz.symm.le))
      filter_upwards [hDev, hden1, hae] with s h1 h2 h3
      unfold safeQuadraticRoot
      have h1' : b s ^ 2 - 4 * a s * c s = b s * b s - 4 * a s * c s := by rw [pow_two]
      simp only [h1', if_pos (ht.trans h1)]
      have hq : Real.sqrt (max (b s * b s - 4 * a s * c s) tiny) ^ 2 = b s * b s - 4 * a s * c s := by
        rw [max_eq_left h1.le, Real.sq_sqrt (ht.trans h1).le]
      by_cases hbs : b s ≥ 0
      · simp only [if_pos hbs]
      · simp only [if_neg hbs]
        rw [div_eq_div_iff (by linarith) h2.ne]
        linear_combination -hq
    · have hbe := hb.deriv.continuousAt.eventually (lt_mem_nhds hz)
      filter_upwards [hDev, hbe] with s h1 h3
      unfold safeQuadraticRoot
      have h1' : b s ^ 2 - 4 * a s * c s = b s * b s - 4 * a s * c s := by rw [pow_two]
      simp only [h1', if_pos (ht.trans h1), if_pos h3.le, ge_iff_le]
  · push Not at hb0
    have F2 := (hb.neg.add sq).div ((Tracks.const 2 t).mul ha) (by have := hab hb0.le; linarith)
    have e : rootD tie tiny a' b' c' = (-b' + (Dual.clipLow tie tiny (b' * b' - Dual.const 4 * a' * c')).sqrt) / (Dual.const 2 * a') := by
      have hbd : decide (b'.val ≥ 0) = false := decide_eq_false (by rw [hb.val]; exact not_le.2 hb0)
      unfold rootD
      simp only [hDdec, hbd, Dual.where_, if_true, if_false, Bool.false_eq_true]
    rw [e]
    refine F2.eventually ?_
    filter_upwards [hDev, hb.deriv.continuousAt.eventually (gt_mem_nhds hb0)] with s h1 h3
    unfold safeQuadraticRoot
    have h1' : b s ^ 2 - 4 * a s * c s = b s * b s - 4 * a s * c s := by rw [pow_two]
    simp only [h1', if_pos (ht.trans h1), if_neg (not_le.2 h3), ge_iff_le]

theorem where_cond {p : Prop} [Decidable p] (a b : Dual) : Dual.where_ (decide p) a b = if p then a else b := by
  unfold Dual.where_; by_cases h : p <;> simp [h]

/-- Inside a bin the tangents of the inverse map are the derivatives. -/
theorem binI_tracks (tie : ℝ) {tiny : ℝ} (ht : 0 < tiny) (hx0 : Tracks x0 x0' t) (hx1 : Tracks x1 x1' t) (hy0 : Tracks y0 y0' t)
    (hy1 : Tracks y1 y1' t) (hd0 : Tracks d0 d0' t) (hd1 : Tracks d1 d1' t) (hy : Tracks y y' t) (hyl : y0 t < y t)
    (hyr : y t < y1 t) (hxx : x0 t < x1 t) (h0 : 0 < d0 t) (h1 : 0 < d1 t)
    (hres : ∀ z, 0 ≤ z → z ≤ 1 → tiny < ((y1 t - y0 t) / (x1 t - x0 t) * nrm ((y1 t - y0 t) / (x1 t - x0 t)) (d0 t) (d1 t) z /
      den ((y1 t - y0 t) / (x1 t - x0 t)) (d0 t) (d1 t) z) ^ 2) :
    Tracks (fun s => (binI tiny (x0 s) (x1 s) (y0 s) (y1 s) (d0 s) (d1 s) (y s)).1)
      (binID tie tiny x0' x1' y0' y1' d0' d1' y').1 t ∧
    Tracks (fun s => (binI tiny (x0 s) (x1 s) (y0 s) (y1 s) (d0 s) (d1 s) (y s)).2)
      (binID tie tiny x0' x1' y0' y1' d0' d1' y').2 t := by
  have hw0 : 0 < x1 t - x0 t := by linarith
  have hh0 : 0 < y1 t - y0 t := by linarith
  have hs0 : 0 < (y1 t - y0 t) / (x1 t - x0 t) := div_pos hh0 hw0
  have hwl : 0 < (y t - y0 t) / (y1 t - y0 t) := div_pos (by linarith) hh0
  have hwr : (y t - y0 t) / (y1 t - y0 t) < 1 := by rw [div_lt_one hh0]; linarith
  have hwc : clip01 ((y t - y0 t) / (y1 t - y0 t)) = (y t - y0 t) / (y1 t - y0 t) := clip01_id hwl.le hwr.le
  -- the relative position whose image is `y`
  obtain ⟨zt, hz0, hz1, hzw⟩ : ∃ z, 0 < z ∧ z < 1 ∧ (y t - y0 t) / (y1 t - y0 t) =
      ((y1 t - y0 t) / (x1 t - x0 t) * (z * z) + d0 t * (z - z * z)) /
        den ((y1 t - y0 t) / (x1 t - x0 t)) (d0 t) (d1 t) z := by
    have hcont : ContinuousOn (gz 0 1 ((y1 t - y0 t) / (x1 t - x0 t)) (d0 t) (d1 t)) (Set.Icc 0 1) := fun z hz =>
      (gz_hasDerivAt (den_pos hs0 h0 h1 hz.1 hz.2).ne').continuousAt.continuousWithinAt
    have := intermediate_value_Ioo zero_le_one hcont
    rw [gz_zero, gz_one hs0.ne', zero_add] at this
    obtain ⟨z, hz, e⟩ := this ⟨hwl, hwr⟩
    exact ⟨z, hz.1, hz.2, by rw [← e]; simp [gz]⟩
  have width := hx1.sub hx0
  have height := hy1.sub hy0
  have slope := height.div width hw0.ne'
  have w := ((hy.sub hy0).div height hh0.ne').clip tie zero_le_one hwl.ne' hwr.ne
  have slopesTerm := (hd1.add hd0).sub ((Tracks.const 2 t).mul slope)
  have c := slope.neg.mul w
  have b := hd0.sub (slopesTerm.mul w)
  have a := slope.sub b
  obtain ⟨q1, q2⟩ := quad_facts (den_pos hs0 h0 h1 hz0.le hz1.le).ne' hzw
  have hroot := root_eq (tiny := tiny) hs0 h0 h1 hz0.le hz1.le hzw (hres zt hz0.le hz1.le).le
  have hrt := hres zt hz0.le hz1.le
  rw [← q2] at hrt
  have root := root_tracks tie ht a b c (by
      rw [show min (max ((y t - y0 t) / (y1 t - y0 t)) 0) 1 = _ from hwc]
      refine hrt.trans_eq ?_
      linear_combination 4 * ((y1 t - y0 t) / (x1 t - x0 t) - (d0 t - (d1 t + d0 t - 2 * ((y1 t - y0 t) / (x1 t - x0 t))) *
        ((y t - y0 t) / (y1 t - y0 t)))) * q1)
    (fun hb => by linarith)
  rw [show (fun s => safeQuadraticRoot tiny _ _ _) = _ from rfl] at root
  have hrv : safeQuadraticRoot tiny
      ((y1 t - y0 t) / (x1 t - x0 t) - (d0 t - (d1 t + d0 t - 2 * ((y1 t - y0 t) / (x1 t - x0 t))) *
        min (max ((y t - y0 t) / (y1 t - y0 t)) 0) 1))
      (d0 t - (d1 t + d0 t - 2 * ((y1 t - y0 t) / (x1 t - x0 t))) * min (max ((y t - y0 t) / (y1 t - y0 t)) 0) 1)
      (-((y1 t - y0 t) / (x1 t - x0 t)) * min (max ((y t - y0 t) / (y1 t - y0 t)) 0) 1) = zt := by
    rw [show min (max ((y t - y0 t) / (y1 t - y0 t)) 0) 1 = _ from hwc]; exact hroot
  have z := root.clip tie zero_le_one (by rw [hrv]; exact hz0.ne') (by rw [hrv]; exact hz1.ne)
  have hzc := (congrArg clip01 hrv).trans (clip01_id hz0.le hz1.le)
  have sqz := z.mul z
  have z1mz := z.sub sqz
  have sq1mz := ((Tracks.const 1 t).sub z).mul ((Tracks.const 1 t).sub z)
  have den := slope.add (slopesTerm.mul z1mz)
  have hden := den_pos hs0 h0 h1 hz0.le hz1.le
  have hnrm := nrm_pos hs0 h0 h1 hz0.le hz1.le
  unfold Spline.den at hden
  unfold nrm at hnrm
  constructor
  · exact (width.mul z).add hx0
  · refine ((((Tracks.const (-2) t).mul (slope.log hs0.ne')).sub
      ((((hd1.mul sqz).add (((Tracks.const 2 t).mul slope).mul z1mz)).add (hd0.mul sq1mz)).log ?_)).add
      ((Tracks.const 2 t).mul (den.log ?_))).congr fun s => ?_
    · simp only [show ∀ v, min (max v 0) 1 = clip01 v from fun _ => rfl] at hzc ⊢
      rw [hzc, ← pow_two (1 - zt)]; exact hnrm.ne'
    · simp only [show ∀ v, min (max v 0) 1 = clip01 v from fun _ => rfl] at hzc ⊢
      rw [hzc]; exact hden.ne'
    · simp only [binI, clip01, pow_two]

/-- At the left end of a bin the clip halves (for `tie = 1/2`) the dependence on the input. -/
theorem binF_knot (tie : ℝ) {x0 x1 y0 y1 d0 d1 x : Dual} (hx : x.val = x0.val) (hxx : x0.val < x1.val) (hyy : y0.val < y1.val) :
    (binFD tie x0 x1 y0 y1 d0 d1 x).1.tan = y0.tan + tie * (d0.val * (x.tan - x0.tan)) := by
  have hw : x1.val - x0.val ≠ 0 := by linarith
  have hh : y1.val - y0.val ≠ 0 := by linarith
  have hz : Dual.clip tie 0 1 ((x - x0) / (x1 - x0)) = ⟨0, tie * ((x.tan - x0.tan) / (x1.val - x0.val))⟩ := by
    have hv : ((x - x0) / (x1 - x0)).val = 0 := by
      show (x.val - x0.val) / _ = 0
      rw [hx, sub_self, zero_div]
    have htn : ((x - x0) / (x1 - x0)).tan = (x.tan - x0.tan) / (x1.val - x0.val) := by
      show (x.tan - x0.tan) / (x1.val - x0.val) - (x.val - x0.val) * _ / _ = _
      rw [hx, sub_self, zero_mul, zero_div, sub_zero]
    unfold Dual.clip
    rw [hv, htn]
    ext
    · simp
    · simp
  unfold binFD
  simp only [hz]
  simp only [Dual.tan_add, Dual.val_add, Dual.tan_sub, Dual.val_sub, Dual.tan_mul, Dual.val_mul, Dual.tan_div, Dual.val_div,
    Dual.tan_const, Dual.val_const]
  have hs : (y1.val - y0.val) / (x1.val - x0.val) ≠ 0 := div_ne_zero hh hw
  simp only [mul_zero, zero_mul, add_zero, zero_add, sub_zero, zero_div]
  field_simp

/-- At the left end of a bin the two clips of the inverse pass `tie * tie` of the dependence on the input. -/
theorem binI_knot (tie : ℝ) {tiny : ℝ} {x0 x1 y0 y1 d0 d1 y : Dual} (hy : y.val = y0.val) (hxx : x0.val < x1.val)
    (hyy : y0.val < y1.val) (hd : 0 < d0.val) (ht : tiny < d0.val ^ 2) :
    (binID tie tiny x0 x1 y0 y1 d0 d1 y).1.tan = x0.tan + tie ^ 2 * ((y.tan - y0.tan) / d0.val) := by
  have hw : x1.val - x0.val ≠ 0 := by linarith
  have hh : y1.val - y0.val ≠ 0 := by linarith
  have hwc : Dual.clip tie 0 1 ((y - y0) / (y1 - y0)) = ⟨0, tie * ((y.tan - y0.tan) / (y1.val - y0.val))⟩ := by
    have hv : ((y - y0) / (y1 - y0)).val = 0 := by
      show (y.val - y0.val) / _ = 0
      rw [hy, sub_self, zero_div]
    have htn : ((y - y0) / (y1 - y0)).tan = (y.tan - y0.tan) / (y1.val - y0.val) := by
      show (y.tan - y0.tan) / (y1.val - y0.val) - (y.val - y0.val) * _ / _ = _
      rw [hy, sub_self, zero_mul, zero_div, sub_zero]
    unfold Dual.clip
    rw [hv, htn]
    ext
    · simp
    · simp
  unfold binID
  simp only [hwc]
  set w' := tie * ((y.tan - y0.tan) / (y1.val - y0.val)) with hw'
  set slope := (y1 - y0) / (x1 - x0) with hslope
  set b := d0 - (d1 + d0 - Dual.const 2 * slope) * ⟨0, w'⟩ with hb
  set a := slope - b with ha
  set c := -slope * ⟨0, w'⟩ with hc
  have hbv : b.val = d0.val := by
    simp [hb, Dual.val_sub, Dual.val_mul, Dual.val_add]
  have hcv : c.val = 0 := by simp [hc, Dual.val_mul]
  have hct : c.tan = -(slope.val * w') := by simp [hc, Dual.tan_mul, Dual.val_neg]
  have hD : (b * b - Dual.const 4 * a * c).val = d0.val ^ 2 := by
    simp only [Dual.val_sub, Dual.val_mul, hbv, hcv]; ring
  have hroot : rootD tie tiny a b c = ⟨0, slope.val * w' / d0.val⟩ := by
    unfold rootD
    simp only [hD, hbv, decide_eq_true (show d0.val ^ 2 > 0 from by positivity), decide_eq_true (show d0.val ≥ 0 from hd.le), Dual.where_, if_true]
    have hsv : (Dual.clipLow tie tiny (b * b - Dual.const 4 * a * c)).sqrt.val = d0.val := by
      show Real.sqrt (max (b * b - Dual.const 4 * a * c).val tiny) = _
      rw [hD, max_eq_left ht.le, Real.sqrt_sq hd.le]
    ext
    · simp only [Dual.val_div, Dual.val_mul, hcv]; simp
    · simp only [Dual.tan_div, Dual.val_mul, Dual.tan_mul, Dual.val_sub, Dual.val_neg, hsv, hcv, hct, hbv, Dual.val_const, Dual.tan_const]
      have : d0.val ≠ 0 := hd.ne'
      simp only [mul_zero, zero_mul, zero_add, zero_div, sub_zero]
      field_simp
      ring
  have hzc : Dual.clip tie 0 1 (rootD tie tiny a b c) = ⟨0, tie * (slope.val * w' / d0.val)⟩ := by
    rw [hroot]; unfold Dual.clip; ext <;> simp
  rw [hzc]
  simp only [Dual.tan_add, Dual.tan_mul, Dual.val_sub]
  have hsl : slope.val = (y1.val - y0.val) / (x1.val - x0.val) := rfl
  rw [hsl, hw']
  have : d0.val ≠ 0 := hd.ne'
  field_simp
  ring

/-! ### The bin formula without the clip, for the true derivative at the knots -/

/-- The forward formula of a bin without the clip. -/
noncomputable def binG (x0 x1 y0 y1 d0 d1 x : ℝ) : ℝ :=
  let slope := (y1 - y0) / (x1 - x0)
  let z := (x - x0) / (x1 - x0)
  y0 + (y1 - y0) * (slope * (z * z) + d0 * (z - z * z)) / (slope + (d1 + d0 - 2 * slope) * (z - z * z))

theorem gbin_binG (xp yp sl : ℕ → ℝ) (i : ℕ) (x : ℝ) :
    gbin xp yp sl i x = binG (xp i) (xp (i + 1)) (yp i) (yp (i + 1)) (sl i) (sl (i + 1)) x := rfl

theorem binG_tracks (hx0 : Tracks x0 x0' t) (hx1 : Tracks x1 x1' t) (hy0 : Tracks y0 y0' t) (hy1 : Tracks y1 y1' t)
    (hd0 : Tracks d0 d0' t) (hd1 : Tracks d1 d1' t) (hx : Tracks x x' t) (hxx : x0 t < x1 t) (hxl : x0 t ≤ x t)
    (hxr : x t ≤ x1 t) (hyy : y0 t < y1 t) (h0 : 0 < d0 t) (h1 : 0 < d1 t) :
    (x t = x0 t → HasDerivAt (fun s => binG (x0 s) (x1 s) (y0 s) (y1 s) (d0 s) (d1 s) (x s))
      (y0'.tan + d0 t * (x'.tan - x0'.tan)) t) ∧
    (x t = x1 t → HasDerivAt (fun s => binG (x0 s) (x1 s) (y0 s) (y1 s) (d0 s) (d1 s) (x s))
      (y1'.tan + d1 t * (x'.tan - x1'.tan)) t) := by
  have hw0 : 0 < x1 t - x0 t := by linarith
  have hh0 : 0 < y1 t - y0 t := by linarith
  have hs0 : 0 < (y1 t - y0 t) / (x1 t - x0 t) := div_pos hh0 hw0
  have hzl : 0 ≤ (x t - x0 t) / (x1 t - x0 t) := div_nonneg (by linarith) hw0.le
  have hzr : (x t - x0 t) / (x1 t - x0 t) ≤ 1 := by rw [div_le_one hw0]; linarith
  have width := hx1.sub hx0
  have height := hy1.sub hy0
  have slope := height.div width hw0.ne'
  have z := (hx.sub hx0).div width hw0.ne'
  have sqz := z.mul z
  have z1mz := z.sub sqz
  have slopesTerm := (hd1.add hd0).sub ((Tracks.const 2 t).mul slope)
  have num := height.mul ((slope.mul sqz).add (hd0.mul z1mz))
  have den := slope.add (slopesTerm.mul z1mz)
  have hden := den_pos hs0 h0 h1 hzl hzr
  unfold Spline.den at hden
  have g := hy0.add (num.div den hden.ne')
  constructor
  · intro e
    refine g.deriv.congr_deriv ?_
    simp only [Dual.tan_add, Dual.val_add, Dual.tan_sub, Dual.val_sub, Dual.tan_mul, Dual.val_mul, Dual.tan_div, Dual.val_div,
      Dual.tan_const, Dual.val_const, hx.val, hx0.val, hx1.val, hy0.val, hy1.val, hd0.val, hd1.val, e]
    have hw : x1 t - x0 t ≠ 0 := hw0.ne'
    have hh : y1 t - y0 t ≠ 0 := hh0.ne'
    simp only [sub_self, mul_zero, zero_mul, add_zero, zero_add, sub_zero, zero_div]
    field_simp
  · intro e
    refine g.deriv.congr_deriv ?_
    simp only [Dual.tan_add, Dual.val_add, Dual.tan_sub, Dual.val_sub, Dual.tan_mul, Dual.val_mul, Dual.tan_div, Dual.val_div,
      Dual.tan_const, Dual.val_const, hx.val, hx0.val, hx1.val, hy0.val, hy1.val, hd0.val, hd1.val, e]
    have hw : x1 t - x0 t ≠ 0 := hw0.ne'
    have hh : y1 t - y0 t ≠ 0 := hh0.ne'
    simp only [div_self hw, sub_self, mul_zero, mul_one, one_mul, add_zero]
    field_simp
    ring

end

/-! ### Moving knots -/

section
variable {K : ℕ} {xp yp sl : ℕ → ℝ → ℝ} {xp' yp' sl' : ℕ → ℝ} {t : ℝ}

theorem seen_tracks {f : ℕ → ℝ → ℝ} {f' : ℕ → ℝ} {i : ℕ} (h : HasDerivAt (f i) (f' i) t) : Tracks (f i) (seen f f' t i) t := ⟨rfl, h⟩

/-- A valid spline stays valid under a small change. -/
theorem valid_eventually (h : Valid K (snap xp t) (snap yp t) (snap sl t)) (m : Moving K xp yp sl xp' yp' sl' t) :
    ∀ᶠ s in 𝓝 t, Valid K (snap xp s) (snap yp s) (snap sl s) := by
  have a : ∀ᶠ s in 𝓝 t, ∀ i ∈ range K, xp i s < xp (i + 1) s := (eventually_all_finset _).2 fun i hi =>
    have hi := mem_range.1 hi
    (m.x i hi.le).continuousAt.eventually_lt (m.x (i + 1) hi).continuousAt (h.x_lt i hi)
  have b : ∀ᶠ s in 𝓝 t, ∀ i ∈ range K, yp i s < yp (i + 1) s := (eventually_all_finset _).2 fun i hi =>
    have hi := mem_range.1 hi
    (m.y i hi.le).continuousAt.eventually_lt (m.y (i + 1) hi).continuousAt (h.y_lt i hi)
  have c : ∀ᶠ s in 𝓝 t, ∀ i ∈ range (K + 1), 0 < sl i s := (eventually_all_finset _).2 fun i hi =>
    have hi := Nat.lt_succ_iff.1 (mem_range.1 hi)
    (m.s i hi).continuousAt.eventually (lt_mem_nhds (h.slope i hi))
  filter_upwards [a, b, c] with s a b c
  exact ⟨h.pos, fun i hi => a i (mem_range.2 hi), fun i hi => b i (mem_range.2 hi),
    fun i hi => c i (mem_range.2 (Nat.lt_succ_iff.2 hi))⟩

theorem pickLeftD_eq {p q : ℕ → Dual} {v : Dual} (h : ∀ i < K, (p i).val < (p (i + 1)).val) {i : ℕ} (hi : i < K)
    (h1 : (p i).val ≤ v.val) (h2 : v.val < (p (i + 1)).val) : pickLeftD K p v q = q i := by
  unfold pickLeftD
  rw [pickLeft_eq (p := fun i => (p i).val) h hi h1 h2, pickLeft_eq (p := fun i => (p i).val) h hi h1 h2]

theorem pickRightD_eq {p q : ℕ → Dual} {v : Dual} (h : ∀ i < K, (p i).val < (p (i + 1)).val) {i : ℕ} (hi : i < K)
    (h1 : (p i).val ≤ v.val) (h2 : v.val < (p (i + 1)).val) : pickRightD K p v q = q (i + 1) := by
  unfold pickRightD
  rw [pickRight_eq (p := fun i => (p i).val) h hi h1 h2, pickRight_eq (p := fun i => (p i).val) h hi h1 h2]

end

end Spline
end Distrax
