import Verif.Props.FloatGrad2
import Mathlib.Analysis.Calculus.Deriv.Abs

/-!
C72 continued: the gradients are the derivatives, up to rounding.  Throughout, `u` is the unit roundoff of the format
(`C63_formats`: `2**-24` for `float32`).
-/

namespace Distrax

open FX Spec FloatGrad
open XR (fin pinf ninf nan leB ltB leB_fin leB_pinf ninf_leB pinf_leB leB_ninf fin_sub fin_mul fin_add infOf)

variable {F : Fmt} {u η : ℝ}

theorem rsig_unit (t : ℝ) : 0 < rsigmoid t ∧ rsigmoid t < 1 := by
  unfold rsigmoid
  have := Real.exp_pos (-t)
  exact ⟨by positivity, by rw [div_lt_one (by positivity)]; linarith⟩

theorem rsig_exp (t : ℝ) : rsigmoid t = Real.exp (t - rsoftplus t) := by
  unfold rsigmoid rsoftplus
  have := Real.exp_pos t
  rw [Real.exp_sub, Real.exp_log (by positivity), Real.exp_neg]
  field_simp
  rw [add_comm]

theorem rsig_neg (t : ℝ) : rsigmoid (-t) = 1 - rsigmoid t := by
  unfold rsigmoid
  have := Real.exp_pos t
  rw [neg_neg, Real.exp_neg]
  field_simp
  ring

theorem rsoftplus_sum (t : ℝ) : rsoftplus t + rsoftplus (-t) ≤ |t| + 1.4 ∧ rsoftplus t ≤ |t| + 0.7 ∧ t - rsoftplus t = -(rsoftplus (-t)) := by
  have h1 := rsoftplus_max t
  have h2 := rsoftplus_max (-t)
  rw [abs_neg] at h2
  have e : Real.log (1 + Real.exp (-|t|)) ≤ 0.7 := by
    have : Real.exp (-|t|) ≤ 1 := Real.exp_le_one_iff.2 (by simp)
    have h := Real.log_le_log (by positivity) (show 1 + Real.exp (-|t|) ≤ 2 by linarith)
    have := Real.log_two_lt_d9
    linarith
  have m : max t 0 + max (-t) 0 = |t| := by
    rcases _root_.le_total 0 t with h | h
    · rw [max_eq_left h, max_eq_right (by linarith), abs_of_nonneg h, add_zero]
    · rw [max_eq_right h, max_eq_left (by linarith), abs_of_nonpos h, zero_add]
  have m' : max t 0 - max (-t) 0 = t := by
    rcases _root_.le_total 0 t with h | h
    · rw [max_eq_left h, max_eq_right (by linarith), sub_zero]
    · rw [max_eq_right h, max_eq_left (by linarith)]; linarith
  have p : 0 ≤ max (-t) 0 := le_max_right _ _
  exact ⟨by linarith, by linarith, by linarith⟩

theorem exp_lip {a b : ℝ} (ha : a ≤ 0) (hb : b ≤ 0) : |Real.exp a - Real.exp b| ≤ |a - b| := by
  wlog h : b ≤ a with H
  · rw [abs_sub_comm, abs_sub_comm a]; exact H hb ha (by linarith)
  · have h1 := Real.add_one_le_exp (b - a)
    have h2 : Real.exp a ≤ 1 := Real.exp_le_one_iff.2 ha
    have e : Real.exp b = Real.exp a * Real.exp (b - a) := by rw [← Real.exp_add]; congr 1; ring
    rw [abs_of_nonneg (by have := Real.exp_le_exp.2 h; linarith), abs_of_nonneg (by linarith), e]
    nlinarith [Real.exp_pos a]

section
variable (A : F.Acc u η)
include A

/-- The factor of the pullback of `softplus` is the logistic function. -/
theorem softplus_factor_within {x : FX F} {t : ℝ} (hx : x.1 = fin t) :
    (exp (replaceInf x - replaceInf (FX.softplus x))).Within (rsigmoid t) (u * (1.02 * |t| + 4.6)) := by
  have hf : x.finite := ⟨t, hx⟩
  obtain ⟨sf, s0, s1⟩ := softplus_finite hf
  obtain ⟨w, hw, -, -⟩ := softplus_factor hf.num
  rw [replaceInf_fin hf, replaceInf_fin sf] at hw ⊢
  have n : (x - FX.softplus x).Num := sub_num_fin hf sf.num
  have hle := FX.sub_nonpos s1 n
  obtain ⟨r1, r2, r3⟩ := rsoftplus_sum t
  have rp := rsp_nonneg (-t)
  have rq := rsp_nonneg t
  have hfin : (x - FX.softplus x).finite := by
    obtain ⟨p, hp⟩ := sf
    have ht := abs_le_top hx
    have hp' := abs_le_top hp
    refine fin_sub_of hx hp ?_
    have p0 := s0; have p1 := s1
    rw [le_def, hp, lit_zero, leB_fin] at p0
    rw [le_def, hp, hx, leB_fin] at p1
    rw [abs_of_nonpos (by linarith)]
    rcases _root_.le_total 0 t with h | h
    · have := le_abs_self p; linarith
    · have := softplus_nonpos_le_one (x := x) (by rw [le_def, hx, lit_zero, leB_fin]; exact h)
      rw [le_def, hp, lit_one, leB_fin] at this
      have := neg_abs_le t
      linarith
  obtain ⟨a, ha, hb⟩ := wu_sub A hfin (wu_exact hx) (within_softplus A hx)
  have a0 : a ≤ 0 := by rw [le_def, ha, lit_zero, leB_fin] at hle; exact hle
  have e : (exp (x - FX.softplus x)).1 = F.rd (Real.exp a) := by rw [exp, fn_val ha]; rfl
  have := wu_rd A e ⟨w, hw⟩ (x := rsigmoid t) (κ := 0 + (rsoftplus t + 2) + |t - rsoftplus t| + (0 + (rsoftplus t + 2)) / 256) (by
    rw [rsig_exp]
    exact (exp_lip a0 (by rw [r3]; linarith)).trans hb)
  refine wu_mono A this ?_
  have s1 := (rsig_unit t)
  rw [abs_of_pos s1.1, r3, abs_neg, abs_of_nonneg rp]
  have := _root_.abs_nonneg t
  linarith [s1.2]

/-- `jax.nn.softplus`, pulled back, multiplies by the logistic function. -/
theorem softplus_pull_within {x g : FX F} {t v : ℝ} (hx : x.1 = fin t) (hg : g.1 = fin v) :
    ((softplusR x).2 g).Within (v * rsigmoid t) (u * (|v| * (1.03 * |t| + 5.7) + 1 / 256)) := by
  have hf := (softplus_pull (finite.num ⟨t, hx⟩) (rep hg) (btw_self hg)).finite
  have t0 := _root_.abs_nonneg t
  have v0 := _root_.abs_nonneg v
  have := wu_mul A hf (wu_exact hg) (softplus_factor_within A hx) le_rfl (by positivity)
  refine wu_mono A this ?_
  have s1 := rsig_unit t
  rw [abs_mul, abs_of_pos s1.1]
  have h1 : |v| * rsigmoid t ≤ |v| * 1 := mul_le_mul_of_nonneg_left s1.2.le v0
  have h2 := mul_nonneg v0 t0
  nlinarith

/-- `_more_stable_softplus`, pulled back with cotangent `-1`. -/
theorem stable_pull_within {x : FX F} {t : ℝ} (hx : x.1 = fin t) (h : (exp x).1 ≠ pinf) :
    ((moreStableSoftplusR x).2 (-(lit 1))).Within (-(rsigmoid t)) (u * (1.03 * |t| + 6)) := by
  have hf : x.finite := ⟨t, hx⟩
  have t0 := _root_.abs_nonneg t
  obtain ⟨e, he, e0⟩ := exp_fin hf.num h
  have hd : ∃ y, (exp x + lit 1).1 = fin y ∧ 1 ≤ y := by
    have ht := abs_le_top he
    rw [abs_of_nonneg e0] at ht
    obtain ⟨y, hy⟩ := F.fits (x := e + 1) (by rw [abs_of_nonneg (by linarith)]; linarith)
    have := F.mono (show (1 : ℝ) ≤ e + 1 by linarith)
    rw [hy, F.rd_one, leB_fin] at this
    exact ⟨y, by rw [add_val, he, lit_one, fin_add]; exact hy, this⟩
  obtain ⟨y, hy, y1⟩ := hd
  have hB := (stable_pull hf.num (neg_one_val (F := F))).2 h
  simp only [moreStableSoftplusR] at hB ⊢
  by_cases c : x < lit (-9)
  · rw [whr_pos c, whr_pos c, softplus_pull_zero hf.num, add_zero'] at hB ⊢
    have c' := c.toLe
    rw [le_def, hx, lit_neg_nine, leB_fin] at c'
    have E0 := Real.exp_pos t
    have E1 : Real.exp t ≤ 1 / 2 := by
      have h1 : Real.exp t ≤ Real.exp (-1) := Real.exp_le_exp.2 (by linarith)
      have := Real.exp_one_gt_d9
      rw [Real.exp_neg] at h1
      have h2 : (Real.exp 1)⁻¹ ≤ (2 : ℝ)⁻¹ := inv_anti₀ (by norm_num) (by linarith)
      norm_num at h2 ⊢
      linarith
    have w1 := wu_rd0 A (a := exp x) (x := Real.exp t) (by rw [exp, fn_val hx]; rfl) ⟨e, he⟩
    rw [abs_of_pos E0] at w1
    obtain ⟨y', hy', wy⟩ := wu_add A ⟨y, hy⟩ w1 (wu_exact lit_one)
    obtain rfl : y = y' := by rw [hy] at hy'; cases hy'; rfl
    rw [abs_of_pos (show 0 < Real.exp t + 1 by linarith)] at wy
    obtain ⟨q, hq, -⟩ := (btw_self (neg_one_val (F := F))).div (rep neg_one_val) hy y1
    have w2 := wu_rd A (a := -(lit 1) / (exp x + lit 1)) (x := -1 / (Real.exp t + 1)) (κ := 2.1)
      (div_fin_val neg_one_val hy (by linarith)) ⟨q, hq⟩ (by
        have : -1 / y - -1 / (Real.exp t + 1) = (y - (Real.exp t + 1)) / (y * (Real.exp t + 1)) := by
          field_simp; ring
        rw [this, abs_div, abs_of_pos (show 0 < y * (Real.exp t + 1) by positivity)]
        refine (div_le_self (_root_.abs_nonneg _) (by nlinarith)).trans (wy.trans ?_)
        exact mul_le_mul_of_nonneg_left (by linarith) A.u0)
    have hI : |-1 / (Real.exp t + 1)| ≤ 1 := by
      rw [abs_div, abs_neg, abs_one, abs_of_pos (by linarith), div_le_one (by linarith)]; linarith
    have w3 := wu_mono A w2 (K' := 3.2) (by linarith)
    have w4 := wu_mul A hB.finite w3 (wu_mono A w1 (K' := 0.51) (by linarith)) (by norm_num) (by norm_num)
    have e3 : -1 / (Real.exp t + 1) * Real.exp t = -(rsigmoid t) := by
      unfold rsigmoid
      rw [Real.exp_neg]; field_simp
    rw [e3, abs_neg, abs_of_pos (rsig_unit t).1, abs_of_pos E0] at w4
    refine wu_mono A w4 ?_
    have := (rsig_unit t).2
    nlinarith
  · rw [whr_neg c, whr_neg c] at hB ⊢
    have e1 : (log1pR (exp x)).2 (lit 0) = lit 0 := zero_div' hy (by linarith)
    have e2 : (expR x).2 (lit 0) = lit 0 := zero_mul_fin ⟨e, he⟩
    rw [e1, e2, zero_add']
    have := softplus_pull_within A hx (neg_one_val (F := F))
    rw [neg_one_mul, abs_neg, abs_one, one_mul] at this
    exact wu_mono A this (by linarith)

/-- `Sigmoid.forward`: from -9 up to overflow the gradient is the derivative `s (1 - s)` of the logistic function `s`, with error at most
`3 u`; below -9, where the code computes `exp(x)`, it is `exp(x)`, with error at most `1.01 u`. -/
theorem C72_sigmoid_forward_accurate (x : FX F) (t : ℝ) (hx : x.1 = fin t) (h : (exp x).1 ≠ pinf) :
    HasDerivAt rsigmoid (rsigmoid t * (1 - rsigmoid t)) t ∧
    (-9 ≤ t → ((moreStableSigmoidR x).2 (lit 1)).Within (rsigmoid t * (1 - rsigmoid t)) (3 * u)) ∧
    (t < -9 → ((moreStableSigmoidR x).2 (lit 1)).Within (Real.exp t) (1.01 * u)) := by
  have hf : x.finite := ⟨t, hx⟩
  obtain ⟨e, he, e0⟩ := exp_fin hf.num h
  refine ⟨rsigmoid_deriv t, fun c => ?_, fun c => ?_⟩
  · have c' : ¬ x < lit (-9) := by rw [lt_def, hx, lit_neg_nine]; exact not_lt.2 c
    simp only [moreStableSigmoidR]
    rw [whr_neg c', whr_neg c', show (expR x).2 (lit 0) = lit 0 from zero_mul_fin ⟨e, he⟩, zero_add']
    have hb := (sigmoid_pull hf.num (lit_one (F := F))).finite
    simp only [sigmoidR] at hb ⊢
    rw [one_mul'] at hb ⊢
    obtain ⟨s0, s1⟩ := rsig_unit t
    obtain ⟨w, hw, -, -⟩ := unit_val (sigmoid_mem hf.num).1 (sigmoid_mem hf.num).2
    have w1 := wu_rd0 A (a := FX.sigmoid x) (x := rsigmoid t) (by rw [sigmoid, fn_val hx]; rfl) ⟨w, hw⟩
    rw [abs_of_pos s0] at w1
    have w2 := wu_sub A (mul_fin hb).1 (wu_exact lit_one) w1
    rw [abs_of_pos (by linarith)] at w2
    have w3 := wu_mul A hb (wu_mono A w2 (K' := 1.01) (by linarith)) w1 (by norm_num) (by linarith)
    rw [mul_comm (1 - rsigmoid t) (rsigmoid t)] at w3
    refine w3.mono ?_
    rw [abs_of_pos s0, abs_of_pos (by linarith), abs_of_nonneg (by nlinarith), mul_comm 3 u]
    refine mul_le_mul_of_nonneg_left ?_ A.u0
    nlinarith
  · have c' : x < lit (-9) := by rw [lt_def, hx, lit_neg_nine]; exact c
    simp only [moreStableSigmoidR]
    rw [whr_pos c', whr_pos c', sigmoid_pull_zero hf.num, add_zero']
    simp only [expR]
    rw [one_mul']
    have w1 := wu_rd0 A (a := exp x) (x := Real.exp t) (by rw [exp, fn_val hx]; rfl) ⟨e, he⟩
    refine w1.mono ?_
    rw [abs_of_pos (Real.exp_pos t), mul_comm 1.01 u]
    have : Real.exp t ≤ 1 := Real.exp_le_one_iff.2 (by linarith)
    exact mul_le_mul_of_nonneg_left (by linarith) A.u0

/-- `Sigmoid.forward_log_det_jacobian`: unless `exp(x)` or `exp(-x)` overflows the gradient is the derivative `1 - 2 s` of
`log(s (1 - s))`, with error at most `(2.1 |x| + 14) u`. -/
theorem C72_sigmoid_log_det_accurate (x : FX F) (t : ℝ) (hx : x.1 = fin t) (h : (exp x).1 ≠ pinf) (h' : (exp (-x)).1 ≠ pinf) :
    HasDerivAt (fun y => Real.log (rsigmoid y * (1 - rsigmoid y))) (1 - 2 * rsigmoid t) t ∧
    ((sigmoidFldjR x).2 (lit 1)).Within (1 - 2 * rsigmoid t) ((2.1 * |t| + 14) * u) := by
  obtain ⟨s0, s1⟩ := rsig_unit t
  constructor
  · have d := rsigmoid_deriv t
    have := (d.mul (d.const_sub 1)).log (x := t) (by simp only [Pi.mul_apply]; exact (mul_pos s0 (by linarith)).ne')
    refine this.congr_deriv ?_
    simp only [Pi.mul_apply]
    have : 1 - rsigmoid t ≠ 0 := by linarith
    field_simp
    ring
  · have hn : (-x).1 = fin (-t) := by rw [neg_val, hx]; rfl
    have a := wu_neg (stable_pull_within A hn h')
    have b := stable_pull_within A hx h
    obtain ⟨y, hy, -⟩ := (C72_sigmoid_log_det_partial x (lit 1) ⟨t, hx⟩ 1 lit_one).2.2 h h'
    have := wu_add A (show (-((moreStableSoftplusR (-x)).2 (-(lit 1))) + (moreStableSoftplusR x).2 (-(lit 1))).finite from ⟨y, hy⟩) a b
    rw [neg_neg, rsig_neg, abs_neg] at this
    have e : 1 - rsigmoid t + -rsigmoid t = 1 - 2 * rsigmoid t := by ring
    rw [e] at this
    refine this.mono ?_
    rw [mul_comm _ u]
    refine mul_le_mul_of_nonneg_left ?_ A.u0
    have : |1 - 2 * rsigmoid t| ≤ 1 := abs_le.2 ⟨by linarith, by linarith⟩
    have := _root_.abs_nonneg t
    linarith

/-- `Tanh.forward`: the gradient is the derivative `1 - tanh(x)**2`, with error at most `12 u`. -/
theorem C72_tanh_forward_accurate (x : FX F) (t : ℝ) (hx : x.1 = fin t) :
    HasDerivAt Real.tanh (1 - Real.tanh t ^ 2) t ∧ ((tanhR x).2 (lit 1)).Within (1 - Real.tanh t ^ 2) (12 * u) := by
  have hf : x.finite := ⟨t, hx⟩
  have hT := F.top_ge
  constructor
  · have c := Real.cosh_pos t
    have hd := (Real.hasDerivAt_sinh t).div (Real.hasDerivAt_cosh t) c.ne'
    have e : Real.tanh = Real.sinh / Real.cosh := by
      funext y; rw [Real.tanh_eq_sinh_div_cosh]; rfl
    rw [e]
    refine hd.congr_deriv ?_
    simp only [Pi.div_apply]
    field_simp
  · obtain ⟨-, y, hy, -⟩ := C72_tanh_forward x (lit 1) hf.num 1 lit_one (by rw [abs_one]; linarith)
    have e : Real.tanh t = 1 - 2 / (Real.exp (2 * t) + 1) := by
      rw [Real.tanh_eq_sinh_div_cosh, Real.sinh_eq, Real.cosh_eq, Real.exp_neg, show 2 * t = t + t by ring, Real.exp_add]
      have := Real.exp_pos t
      field_simp
      ring
    simp only [tanhR] at hy ⊢
    rw [one_mul'] at hy ⊢
    have fy : (lit 1 - FX.tanh x + (lit 1 - FX.tanh x) * FX.tanh x).finite := ⟨y, hy⟩
    have f1 := (add_fin fy).1
    have f2 := (add_fin fy).2
    have f3 := (sub_fin f1).2
    have w1 := wu_rd0 A (a := FX.tanh x) (x := Real.tanh t) (by rw [tanh, fn_val hx, ← e]; rfl) f3
    have T1 : |Real.tanh t| ≤ 1 := (Real.abs_tanh_lt_one t).le
    rw [abs_le] at T1
    have w1' := wu_mono A w1 (K' := 1.004) (by have := abs_le.2 T1; linarith)
    have w2 := wu_sub A f1 (wu_exact lit_one) w1'
    have a2 : |1 - Real.tanh t| ≤ 2 := abs_le.2 ⟨by linarith, by linarith⟩
    have w2' := wu_mono A w2 (K' := 1.01 + |1 - Real.tanh t|) (by linarith)
    have w3 := wu_mul A f2 w2' w1' (by positivity) (by norm_num)
    have w4 := wu_add A fy w2' w3
    have e2 : 1 - Real.tanh t + (1 - Real.tanh t) * Real.tanh t = 1 - Real.tanh t ^ 2 := by ring
    rw [e2] at w4
    refine w4.mono ?_
    rw [mul_comm 12 u]
    refine mul_le_mul_of_nonneg_left ?_ A.u0
    have T2 := abs_le.2 T1
    have b1 : |1 - Real.tanh t ^ 2| ≤ 1 := abs_le.2 ⟨by nlinarith, by nlinarith⟩
    have b2 : |(1 - Real.tanh t) * Real.tanh t| ≤ 2 := by
      rw [abs_mul]; nlinarith [_root_.abs_nonneg (1 - Real.tanh t), _root_.abs_nonneg (Real.tanh t)]
    have b3 : |Real.tanh t| * (1.01 + |1 - Real.tanh t|) ≤ 3.01 := by
      nlinarith [_root_.abs_nonneg (1 - Real.tanh t), _root_.abs_nonneg (Real.tanh t)]
    generalize |1 - Real.tanh t| = q at *
    generalize |Real.tanh t| * (1.01 + q) = r at *
    linarith

/-- `Tanh.forward_log_det_jacobian`: the gradient is the derivative `-2 tanh(x)` of `log(1 - tanh(x)**2)`, with error at most
`(8.5 |x| + 30) u`, whenever `2 x` is finite. -/
theorem C72_tanh_log_det_accurate (x : FX F) (t : ℝ) (hx : x.1 = fin t) (ht : 2 * |t| ≤ F.top) :
    HasDerivAt (fun y => Real.log (1 - Real.tanh y ^ 2)) (-2 * Real.tanh t) t ∧
    ((tanhFldjR x).2 (lit 1)).Within (-2 * Real.tanh t) ((8.5 * |t| + 30) * u) := by
  have hf : x.finite := ⟨t, hx⟩
  have hT := F.top_ge
  constructor
  · have d := (C72_tanh_forward_accurate A x t hx).1
    have p : 0 < 1 - Real.tanh t ^ 2 := by
      have := (abs_lt.1 (Real.abs_tanh_lt_one t)); nlinarith
    have := ((d.fun_pow 2).const_sub 1).log p.ne'
    refine this.congr_deriv ?_
    field_simp
    push_cast
    ring
  · obtain ⟨-, y, hy, -⟩ := C72_tanh_log_det x (lit 1) hf 1 lit_one (by rw [abs_one]; linarith)
    have hn : (lit (-2) * x).1 = fin (-2 * t) := by
      rw [neg_two_mul, neg_val, double_val hx le_rfl ht]
      show fin (-(2 * t)) = _
      rw [neg_mul]
    have h2 : (lit 1 * lit 2 : FX F) = lit 2 := one_mul' _
    have hm : (-(lit 2) : FX F).1 = fin (-2) := by rw [neg_val, lit_two]; rfl
    have w1 := softplus_pull_within A hn hm
    simp only [tanhFldjR] at hy ⊢
    rw [h2] at hy ⊢
    have fy : (-(lit 2) + (softplusR (lit (-2) * x)).2 (-(lit 2)) * lit (-2)).finite := ⟨y, hy⟩
    have t0 := _root_.abs_nonneg t
    rw [abs_mul, abs_neg, abs_of_pos (by norm_num : (0 : ℝ) < 2)] at w1
    have w2 := wu_mul A (add_fin fy).2 w1 (wu_exact (lit_neg_two (F := F))) (by positivity) le_rfl
    have w3 := wu_add A fy (wu_exact hm) w2
    obtain ⟨s0, s1⟩ := rsig_unit (-2 * t)
    have e : -2 + -2 * rsigmoid (-2 * t) * -2 = -2 * Real.tanh t := by
      rw [Real.tanh_eq_sinh_div_cosh, Real.sinh_eq, Real.cosh_eq]
      unfold rsigmoid
      rw [show -(-2 * t) = t + t by ring, Real.exp_add, Real.exp_neg]
      have := Real.exp_pos t
      field_simp
      ring
    rw [e] at w3
    refine w3.mono ?_
    rw [mul_comm _ u]
    refine mul_le_mul_of_nonneg_left ?_ A.u0
    have b1 : |-2 * Real.tanh t| ≤ 2 := by
      rw [abs_mul, abs_neg, abs_of_pos (by norm_num : (0 : ℝ) < 2)]
      linarith [Real.abs_tanh_lt_one t]
    have b2 : |-2 * rsigmoid (-2 * t) * -2| ≤ 4 := by
      rw [show -2 * rsigmoid (-2 * t) * -2 = 4 * rsigmoid (-2 * t) by ring, abs_of_pos (by linarith)]; linarith
    have b3 : |(-2 : ℝ)| = 2 := by norm_num
    rw [b3]
    simp only [mul_zero, zero_div, zero_add, add_zero]
    linarith

omit A in
/-- The cotangent that `Normal.log_prob` sends to the standardised value is exact. -/
theorem normal_ct {z : FX F} {t : ℝ} (hz : z.1 = fin t) (h2 : 2 * |t| ≤ F.top) :
    (lit 1 * lit (-(1 / 2)) * (lit 2 * z)).1 = fin (-t) := by
  rw [one_mul', mul_val, lit_neg_half, double_val hz le_rfl h2, fin_mul, show -(1 / 2) * (2 * t) = -t by ring]
  exact F.rd_neg (rep hz)

/-- `Normal.log_prob`, gradient with respect to the value: `-(x - m) / s**2` up to rounding. -/
theorem C72_normal_value_accurate (d : LS F) (v : FX F) (m s x : ℝ) (hm : d.loc.1 = fin m) (hs : d.scale.1 = fin s) (s0 : 0 < s)
    (hv : v.1 = fin x) (z : ℝ) (hz : (d.standardize v).1 = fin z) (h2z : 2 * |z| ≤ F.top)
    (hf : (normalLogProbPull d v (lit 1)).value.finite) :
    HasDerivAt (⟨m, s⟩ : Normal).logProb (-((x - m) / s ^ 2)) x ∧
    (normalLogProbPull d v (lit 1)).value.Within (-((x - m) / s ^ 2)) (u * (3.1 * |(x - m) / s| / s + 0.005 / s + 0.004)) ∧
    (normalLogProbPull d v (lit 1)).loc = -(normalLogProbPull d v (lit 1)).value := by
  refine ⟨?_, ?_, rfl⟩
  · unfold Normal.logProb Normal.standardize
    have h1 := ((((hasDerivAt_id x).sub_const m).div_const s).fun_pow 2).const_mul (-0.5)
    have h2 := h1.sub_const (halfLog2pi + Real.log s)
    refine h2.congr_deriv ?_
    simp only [id]
    norm_num
    field_simp
  · obtain ⟨z', hz', bz⟩ := wu_standardize A hm hs s0 hv ⟨z, hz⟩
    obtain rfl : z' = z := by rw [hz] at hz'; cases hz'; rfl
    have hc := normal_ct hz h2z
    have e : (normalLogProbPull d v (lit 1)).value.1 = F.rd (-z' / s) := div_fin_val hc hs s0.ne'
    have := wu_rd A e hf (x := -((x - m) / s ^ 2)) (κ := (2.01 * |(x - m) / s| + 0.004) / s) (by
      rw [show -z' / s - -((x - m) / s ^ 2) = -((z' - (x - m) / s) / s) by field_simp; ring, abs_neg, abs_div, abs_of_pos s0, ← mul_div_assoc]
      exact div_le_div_of_nonneg_right bz s0.le)
    refine wu_mono A this ?_
    have e2 : |-((x - m) / s ^ 2)| = |(x - m) / s| / s := by
      rw [abs_neg, pow_two, ← div_div, abs_div ((x - m) / s) s, abs_of_pos s0]
    rw [e2]
    have h1 : 0 ≤ |(x - m) / s| / s := by positivity
    have h2 : 0 < 1 / s := by positivity
    have e3 : (2.01 * |(x - m) / s| + 0.004) / s = 2.01 * (|(x - m) / s| / s) + 0.004 * (1 / s) := by ring
    have e4 : 3.1 * |(x - m) / s| / s = 3.1 * (|(x - m) / s| / s) := by ring
    have e5 : 0.005 / s = 0.005 * (1 / s) := by ring
    rw [e3, e4, e5]
    linarith

/-- The computed `1 / scale**2`, away from underflow. -/
theorem inv2_within {a : FX F} {s : ℝ} (hs : a.1 = fin s) (s0 : 0 < s) (h1 : η ≤ u * s ^ 2) (h2 : η * s ^ 2 ≤ u)
    (hf' : (a * a).finite) (hf : (inv2 a).finite) :
    (inv2 a).Within (1 / s ^ 2) (u * (4.1 / s ^ 2)) := by
  have u0 := A.u0
  have ul := A.u_le
  have S : 0 < s ^ 2 := by positivity
  obtain ⟨i, hi⟩ := hf
  obtain ⟨q, hq⟩ := hf'
  have bq := A.err (x := s * s) (y := q) (by rw [← hq, mul_val, hs, fin_mul]; rfl)
  rw [abs_of_pos (mul_pos s0 s0), ← pow_two] at bq
  have bq2 : |q - s ^ 2| ≤ 2 * u * s ^ 2 := by linarith
  have ql : s ^ 2 * (1 - 2 * u) ≤ q := by have := (abs_le.1 bq2).1; linarith
  have q0 : 0 < q := lt_of_lt_of_le (mul_pos S (by linarith)) ql
  have b1 : 1 / q ≤ 1.01 / s ^ 2 := by
    rw [div_le_div_iff₀ q0 S]
    nlinarith
  have bi := A.err (x := 1 / q) (y := i) (by rw [← hi]; exact (div_fin_val lit_one hq q0.ne').symm)
  rw [abs_of_pos (one_div_pos.2 q0)] at bi
  have b2 : |1 / q - 1 / s ^ 2| ≤ 2.02 * u / s ^ 2 := by
    rw [div_sub_div _ _ q0.ne' S.ne', abs_div, abs_of_pos (mul_pos q0 S), one_mul, mul_one, abs_sub_comm, div_le_div_iff₀ (mul_pos q0 S) S]
    have k : 2 * s ^ 2 ≤ 2.02 * q := by nlinarith
    have : 2 * u * s ^ 2 ≤ 2.02 * u * q := by have := mul_le_mul_of_nonneg_left k u0; linarith
    have := mul_le_mul_of_nonneg_right (bq2.trans this) S.le
    nlinarith
  have b3 : η ≤ u / s ^ 2 := by rw [le_div_iff₀ S]; exact h2
  refine ⟨i, hi, ?_⟩
  have h4 : |i - 1 / s ^ 2| ≤ |i - 1 / q| + |1 / q - 1 / s ^ 2| := by
    rw [show i - 1 / s ^ 2 = (i - 1 / q) + (1 / q - 1 / s ^ 2) by ring]; exact abs_add_le _ _
  have b4 := mul_le_mul_of_nonneg_left b1 u0
  have b5 : 0 ≤ u / s ^ 2 := by positivity
  have e1 : u * (1.01 / s ^ 2) = 1.01 * (u / s ^ 2) := by ring
  have e2 : 2.02 * u / s ^ 2 = 2.02 * (u / s ^ 2) := by ring
  have e3 : u * (4.1 / s ^ 2) = 4.1 * (u / s ^ 2) := by ring
  rw [e1] at b4; rw [e2] at b2; rw [e3]
  linarith

/-- `Normal.log_prob`, gradient with respect to the scale: `((x - m)**2 / s**2 - 1) / s` up to rounding. -/
theorem C72_normal_scale_accurate (d : LS F) (v : FX F) (m s x : ℝ) (hm : d.loc.1 = fin m) (hs : d.scale.1 = fin s) (s0 : 0 < s)
    (hv : v.1 = fin x) (z : ℝ) (hz : (d.standardize v).1 = fin z) (h2z : 2 * |z| ≤ F.top) (h1 : η ≤ u * s ^ 2) (h2 : η * s ^ 2 ≤ u)
    (hq : (d.scale * d.scale).finite) (hf : (normalLogProbPull d v (lit 1)).scale.finite) :
    HasDerivAt (fun c => (⟨m, c⟩ : Normal).logProb x) ((((x - m) / s) ^ 2 - 1) / s) s ∧
    (normalLogProbPull d v (lit 1)).scale.Within ((((x - m) / s) ^ 2 - 1) / s)
      (u * ((11 * ((x - m) / s) ^ 2 + 0.03 * |(x - m) / s| + 3) / s + 0.01 * |x - m| + 0.01)) := by
  constructor
  · unfold Normal.logProb Normal.standardize
    have h1 := (((hasDerivAt_const s (x - m)).div (hasDerivAt_id s) s0.ne').fun_pow 2).const_mul (-0.5)
    have h2 := h1.sub ((Real.hasDerivAt_log s0.ne').const_add halfLog2pi)
    refine h2.congr_deriv ?_
    simp only [id, Pi.div_apply]
    norm_num
    field_simp
    ring
  · obtain ⟨z', hz', bz⟩ := wu_standardize A hm hs s0 hv ⟨z, hz⟩
    obtain rfl : z' = z := by rw [hz] at hz'; cases hz'; rfl
    have hc := normal_ct hz h2z
    have wc : (lit 1 * lit (-(1 / 2)) * (lit 2 * d.standardize v)).Within (-((x - m) / s)) (u * (2.01 * |(x - m) / s| + 0.004)) :=
      ⟨-z', hc, by rw [show -z' - -((x - m) / s) = -(z' - (x - m) / s) by ring, abs_neg]; exact bz⟩
    set ct := lit 1 * lit (-(1 / 2)) * (lit 2 * d.standardize v) with hct
    have hf' : (-(ct * inv2 d.scale * (v - d.loc)) + (logR d.scale).2 (-(lit 1))).finite := hf
    obtain ⟨f1, f2⟩ := add_fin hf'
    have f3 := neg_finite.1 f1
    obtain ⟨f4, f5⟩ := mul_fin f3
    have f6 := (mul_fin f4).2
    have S : 0 < s ^ 2 := by positivity
    have wi := inv2_within A hs s0 h1 h2 hq f6
    have Z0 := _root_.abs_nonneg ((x - m) / s)
    set Z := (x - m) / s with hZ
    have w1 := wu_mul A f4 wc wi (by positivity) (by positivity)
    have w2 := wu_sub A f5 (wu_exact hv) (wu_exact hm)
    -- collect the first product
    have i0 : 0 < 1 / s ^ 2 := by positivity
    have w1' := wu_mono A w1 (K' := (7.2 * |Z| + 0.01) * (1 / s ^ 2) + 1 / 256) (by
      rw [abs_mul, abs_neg, abs_of_pos i0, show 4.1 / s ^ 2 = 4.1 * (1 / s ^ 2) by ring]
      generalize 1 / s ^ 2 = I at i0
      have := mul_nonneg Z0 i0.le
      nlinarith)
    have w3 := wu_mul A f3 w1' (wu_mono A w2 (K' := |x - m|) (by simp)) (by positivity) (by positivity)
    have w4 : ((logR d.scale).2 (-(lit 1))).Within (-1 / s) (u * (1 / s + 1 / 256)) := by
      have := wu_rd0 A (div_fin_val neg_one_val hs s0.ne') f2
      rwa [abs_div, abs_neg, abs_one, abs_of_pos s0] at this
    have w5 := wu_add A hf' (wu_neg w3) w4
    have e : -(-Z * (1 / s ^ 2) * (x - m)) + -1 / s = (Z ^ 2 - 1) / s := by
      rw [hZ]; field_simp; ring
    rw [e] at w5
    refine wu_mono A w5 ?_
    -- in units of 1 / s
    have hx : |x - m| = |Z| * s := by rw [hZ, abs_div, abs_of_pos s0]; field_simp
    have j0 : 0 < 1 / s := by positivity
    have p1 : 1 / s ^ 2 * |x - m| = |Z| * (1 / s) := by rw [hx]; field_simp
    have p2 : |-Z * (1 / s ^ 2)| * |x - m| = |Z| ^ 2 * (1 / s) := by
      rw [abs_mul, abs_neg, abs_of_pos i0, mul_assoc, p1]; ring
    have p3 : |-Z * (1 / s ^ 2) * (x - m)| = |Z| ^ 2 * (1 / s) := by rw [abs_mul, p2]
    have p4 : |(Z ^ 2 - 1) / s| ≤ (|Z| ^ 2 + 1) * (1 / s) := by
      rw [abs_div, abs_of_pos s0, ← mul_one_div]
      refine mul_le_mul_of_nonneg_right ?_ j0.le
      rw [sq_abs]
      exact abs_le.2 ⟨by nlinarith, by nlinarith⟩
    have p5 : ((7.2 * |Z| + 0.01) * (1 / s ^ 2) + 1 / 256) * |x - m| = (7.2 * |Z| ^ 2 + 0.01 * |Z|) * (1 / s) + |x - m| / 256 := by
      have : ((7.2 * |Z| + 0.01) * (1 / s ^ 2) + 1 / 256) * |x - m| = (7.2 * |Z| + 0.01) * (1 / s ^ 2 * |x - m|) + |x - m| / 256 := by ring
      rw [this, p1]; ring
    rw [mul_comm |x - m| _]
    rw [p3, p2, p5]
    have e6 : (11 * Z ^ 2 + 0.03 * |Z| + 3) / s = (11 * |Z| ^ 2 + 0.03 * |Z| + 3) * (1 / s) := by rw [sq_abs]; ring
    rw [e6]
    have q1 : 0 ≤ |Z| ^ 2 * (1 / s) := by positivity
    have q2 : 0 ≤ |Z| * (1 / s) := by positivity
    have q3 := _root_.abs_nonneg (x - m)
    linarith

/-- `Laplace.log_prob`, gradient with respect to the value: `-1 / s` above the location and `1 / s` below, up to rounding, unless the
standardised value underflows to 0. -/
theorem C72_laplace_value_accurate (d : LS F) (v : FX F) (m s x : ℝ) (hm : d.loc.1 = fin m) (hs : d.scale.1 = fin s) (s0 : 0 < s)
    (hv : v.1 = fin x) (z : ℝ) (hz : (d.standardize v).1 = fin z) (z0 : z ≠ 0) (hf : (laplaceLogProbPull d v (lit 1)).value.finite) :
    x ≠ m ∧ HasDerivAt (⟨m, s⟩ : Laplace).logProb (-(SignType.sign (x - m)) / s) x ∧
    (laplaceLogProbPull d v (lit 1)).value.Within (-(SignType.sign (x - m)) / s) (u * (1 / s + 1 / 256)) := by
  have hd : d.Legal := ⟨⟨m, hm⟩, s, hs, s0⟩
  have hsg : (SignType.sign (x - m) : ℝ) = SignType.sign z ∧ x ≠ m := by
    rcases lt_trichotomy x m with h | h | h
    · have h1 : v ≤ d.loc := by rw [le_def, hv, hm, leB_fin]; exact h.le
      have h2 := std_mono hd ⟨x, hv⟩ hd.1 h1
      rw [std_loc hd, le_def, hz, lit_zero, leB_fin] at h2
      rw [sign_neg (by linarith), sign_neg (lt_of_le_of_ne h2 z0)]; exact ⟨rfl, h.ne⟩
    · have : v = d.loc := ext (by rw [hv, hm, h])
      rw [this, std_loc hd, lit_zero] at hz
      cases hz; exact absurd rfl z0
    · have h1 : d.loc ≤ v := by rw [le_def, hv, hm, leB_fin]; exact h.le
      have h2 := std_mono hd hd.1 ⟨x, hv⟩ h1
      rw [std_loc hd, le_def, hz, lit_zero, leB_fin] at h2
      rw [sign_pos (by linarith), sign_pos (lt_of_le_of_ne h2 (Ne.symm z0))]; exact ⟨rfl, h.ne'⟩
  obtain ⟨e1, hne⟩ := hsg
  refine ⟨hne, ?_, ?_⟩
  · unfold Laplace.logProb Laplace.standardize
    have hx0 : (x - m) / s ≠ 0 := div_ne_zero (sub_ne_zero.2 hne) s0.ne'
    have h1 := (hasDerivAt_abs hx0).comp x (((hasDerivAt_id x).sub_const m).div_const s)
    have h2 := (h1.neg.sub_const (Real.log 2)).sub_const (Real.log s)
    refine h2.congr_deriv ?_
    have : SignType.sign ((x - m) / s) = SignType.sign (x - m) := by
      rcases lt_or_gt_of_ne hne with h | h
      · rw [sign_neg (by linarith : x - m < 0), sign_neg (div_neg_of_neg_of_pos (by linarith) s0)]
      · rw [sign_pos (by linarith : 0 < x - m), sign_pos (div_pos (by linarith) s0)]
    rw [this]; ring
  · have hsign : (sign (d.standardize v)).1 = fin (SignType.sign z : ℝ) := by
      rw [sign, fn_val hz]
      rcases lt_or_gt_of_ne z0 with h | h
      · rw [if_neg (by linarith), if_pos h, sign_neg h]; show F.rd _ = _; simpa using F.rd_neg F.rd_one
      · rw [if_pos h, sign_pos h]; show F.rd _ = _; simpa using F.rd_one
    have hc : (-(lit 1) * sign (d.standardize v)).1 = fin (-(SignType.sign z : ℝ)) := by
      rw [mul_val, neg_one_val, hsign, fin_mul, neg_one_mul]
      exact rep (a := -(sign (d.standardize v))) (by rw [neg_val, hsign]; rfl)
    have e : (laplaceLogProbPull d v (lit 1)).value.1 = F.rd (-(SignType.sign z : ℝ) / s) := div_fin_val hc hs s0.ne'
    have := wu_rd0 A e hf
    rw [e1]
    refine wu_mono A this ?_
    rw [abs_div, abs_neg, abs_of_pos s0]
    have : |(SignType.sign z : ℝ)| ≤ 1 := by
      rcases lt_or_gt_of_ne z0 with h | h
      · rw [sign_neg h]; simp
      · rw [sign_pos h]; simp
    have := div_le_div_of_nonneg_right this s0.le
    linarith

omit A in
theorem rsigmoid_lip (a b : ℝ) : |rsigmoid a - rsigmoid b| ≤ |a - b| := by
  have : LipschitzWith 1 rsigmoid := lipschitzWith_of_nnnorm_deriv_le (fun t => (rsigmoid_deriv t).differentiableAt) (fun t => by
    rw [(rsigmoid_deriv t).deriv, ← NNReal.coe_le_coe, coe_nnnorm, Real.norm_eq_abs]
    have := rsig_unit t
    rw [abs_of_pos (mul_pos this.1 (by linarith [this.2]))]
    simp only [NNReal.coe_one]
    nlinarith [this.1, this.2])
  have := this.dist_le_mul a b
  simpa [Real.dist_eq] using this

/-- `Logistic.log_prob`, gradient with respect to the value: `(2 s(-z) - 1) / scale` with the logistic function `s`, up to rounding. -/
theorem C72_logistic_value_accurate (d : LS F) (v : FX F) (m s x : ℝ) (hm : d.loc.1 = fin m) (hs : d.scale.1 = fin s) (s0 : 0 < s)
    (hv : v.1 = fin x) (hz : (d.standardize v).finite) (hf : (logisticLogProbPull d v (lit 1)).value.finite) :
    HasDerivAt (⟨m, s⟩ : Logistic).logProb ((2 * rsigmoid (-((x - m) / s)) - 1) / s) x ∧
    (logisticLogProbPull d v (lit 1)).value.Within ((2 * rsigmoid (-((x - m) / s)) - 1) / s)
      (u * ((7 * |(x - m) / s| + 14) / s + 1 / 256)) := by
  obtain ⟨z, hz', bz⟩ := wu_standardize A hm hs s0 hv hz
  have u0 := A.u0
  have ul := A.u_le
  set Z := (x - m) / s with hZ
  constructor
  · unfold Logistic.logProb Logistic.standardize
    have h0 : HasDerivAt (fun y : ℝ => (y - m) / s) (1 / s) x := ((hasDerivAt_id x).sub_const m).div_const s
    have h1 := (rsoftplus_deriv (-((x - m) / s))).comp x h0.neg
    have h2 := (h0.neg.sub (h1.const_mul 2)).sub_const (Real.log s)
    refine h2.congr_deriv ?_
    rw [← hZ]; ring
  · have hn : (-(d.standardize v)).1 = fin (-z) := by rw [neg_val, hz']; rfl
    have h2 : (-(lit 1) * lit 2 : FX F).1 = fin (-2) := by
      rw [mul_val, neg_one_val, lit_two, fin_mul]
      show F.rd _ = _
      rw [show (-1 : ℝ) * 2 = -2 by norm_num]; exact F.rd_neg F.rd_two
    have w1 := wu_neg (softplus_pull_within A hn h2)
    obtain ⟨c, hc, -⟩ := logistic_ct (z := d.standardize v) hz.num
    obtain ⟨c', hc', bc⟩ := wu_add A ⟨c, hc⟩ (wu_exact (neg_one_val (F := F))) w1
    obtain rfl : c' = c := by rw [hc] at hc'; cases hc'; rfl
    obtain ⟨s1, s2⟩ := rsig_unit (-z)
    have e : (logisticLogProbPull d v (lit 1)).value.1 = F.rd (c' / s) := div_fin_val hc hs s0.ne'
    rw [show -1 + -(-2 * rsigmoid (-z)) = 2 * rsigmoid (-z) - 1 by ring] at bc
    have a1 : |2 * rsigmoid (-z) - 1| ≤ 1 := abs_le.2 ⟨by linarith, by linarith⟩
    have zb : |z| ≤ 1.01 * |Z| + 0.001 := by
      have := abs_sub_abs_le_abs_sub z Z
      have Z0 := _root_.abs_nonneg Z
      have := mul_le_mul_of_nonneg_right ul (show 0 ≤ 2.01 * |Z| + 0.004 by positivity)
      linarith
    have bl := rsigmoid_lip (-z) (-Z)
    rw [show -z - -Z = -(z - Z) by ring, abs_neg] at bl
    have Z0 := _root_.abs_nonneg Z
    have k1 : |c' - (2 * rsigmoid (-Z) - 1)| ≤ u * (6.2 * |Z| + 12.6) := by
      have : |c' - (2 * rsigmoid (-Z) - 1)| ≤ |c' - (2 * rsigmoid (-z) - 1)| + 2 * |rsigmoid (-z) - rsigmoid (-Z)| := by
        rw [show c' - (2 * rsigmoid (-Z) - 1) = (c' - (2 * rsigmoid (-z) - 1)) + 2 * (rsigmoid (-z) - rsigmoid (-Z)) by ring]
        refine (abs_add_le _ _).trans ?_
        rw [abs_mul, abs_of_pos (by norm_num : (0 : ℝ) < 2)]
      refine this.trans ((_root_.add_le_add bc (mul_le_mul_of_nonneg_left (bl.trans bz) (by norm_num : (0 : ℝ) ≤ 2))).trans ?_)
      rw [show 2 * (u * (2.01 * |Z| + 4e-3)) = u * (2 * (2.01 * |Z| + 4e-3)) by ring, ← mul_add]
      refine mul_le_mul_of_nonneg_left ?_ u0
      rw [abs_neg, abs_neg, abs_of_pos (by norm_num : (0 : ℝ) < 2)]
      linarith
    have := wu_rd A e hf (x := (2 * rsigmoid (-Z) - 1) / s) (κ := (6.2 * |Z| + 12.6) / s) (by
      rw [← sub_div, abs_div, abs_of_pos s0, ← mul_div_assoc]
      exact div_le_div_of_nonneg_right k1 s0.le)
    refine wu_mono A this ?_
    obtain ⟨t1, t2⟩ := rsig_unit (-Z)
    have a2 : |(2 * rsigmoid (-Z) - 1) / s| ≤ 1 / s := by
      rw [abs_div, abs_of_pos s0]
      exact div_le_div_of_nonneg_right (abs_le.2 ⟨by linarith, by linarith⟩) s0.le
    have p0 : 0 ≤ |Z| * (1 / s) := by positivity
    have p1 : 0 < 1 / s := by positivity
    rw [show (6.2 * |Z| + 12.6) / s = 6.2 * (|Z| * (1 / s)) + 12.6 * (1 / s) by ring,
      show (7 * |Z| + 14) / s = 7 * (|Z| * (1 / s)) + 14 * (1 / s) by ring]
    linarith

end

/-- In `float16` the gradient of `Sigmoid.inverse_log_det_jacobian` is `nan` for every positive `y` up to `2**-20`. -/
theorem C72_sigmoid_inverse_nan (rd : ℝ → XR) (h : IEEE 11 (-24) 5 rd) : ∃ F : Fmt, F.rd = rd ∧ ∀ (y : FX F) (t : ℝ), y.1 = fin t → 0 < t →
    t ≤ (2 : ℝ) ^ (-20 : ℤ) → (FloatBij.sigmoidInverse y).1.finite ∧ (FloatBij.sigmoidInverse y).2.finite ∧ ((sigmoidIldjR y).2 (lit 1)).isNan := by
  obtain ⟨F, hF, ht⟩ := C61_formats.1 rd h
  refine ⟨F, hF, fun y t hy t0 t1 => ?_⟩
  have tb : t ≤ 1 / 1048576 := by norm_num at t1 ⊢; exact t1
  obtain ⟨⟨-, k2, -⟩, -, k4⟩ := C72_sigmoid_inverse_partial y (lit 1) t 1 hy t0 (by linarith) lit_one
  refine ⟨k2, neg_finite.2 ((C61_sigmoid _ k2.num).2.2 k2), k4.2 (Or.inr ?_)⟩
  obtain ⟨x, hx⟩ := k2
  obtain ⟨a, ha, -⟩ := log_finite hy t0
  have l2 := Real.log_two_gt_d9
  have b1 : a ≤ -13 := by
    have e : (log y).1 = F.rd (Real.log t) := by rw [log, fn_val hy, XR.log_fin_pos t0]; rfl
    have h1 : Real.log t ≤ -13 := by
      have := Real.log_le_log t0 tb
      rw [show (1 / 1048576 : ℝ) = 2⁻¹ ^ 20 by norm_num, Real.log_pow, Real.log_inv] at this
      push_cast at this
      linarith
    have h2 := F.mono h1
    have r13 : F.rd (-13) = fin (-13) := F.rd_neg (by exact_mod_cast F.small 13 (by norm_num))
    rw [← e, ha, r13, leB_fin] at h2
    exact h2
  have hx' : (log y - log1p (-y)).1 = fin x := hx
  obtain ⟨b, hb⟩ := (sub_fin (a := log y) ⟨x, hx'⟩).2
  have b2 : -1 ≤ b := by
    have e : (log1p (-y)).1 = F.rd (Real.log (1 + -t)) := by
      rw [log1p, fn_val (show (-y).1 = fin (-t) by rw [neg_val, hy]; rfl), XR.log_fin_pos (by linarith)]; rfl
    have h1 : -1 ≤ Real.log (1 + -t) := by
      have : Real.log (1 / 2) ≤ Real.log (1 + -t) := Real.log_le_log (by norm_num) (by linarith)
      rw [one_div, Real.log_inv] at this
      linarith [log2_bounds.2]
    have h2 := F.mono h1
    rw [← e, hb, F.rd_neg F.rd_one, leB_fin] at h2
    exact h2
  have b3 : x ≤ -12 := by
    have h2 := F.mono (show a - b ≤ -12 by linarith)
    have r12 : F.rd (-12) = fin (-12) := F.rd_neg (by exact_mod_cast F.small 12 (by norm_num))
    have e : F.rd (a - b) = fin x := by rw [← hx', sub_val, ha, hb, fin_sub]; rfl
    rw [e, r12, leB_fin] at h2
    exact h2
  refine exp_over (t := -x) (by rw [neg_val, hx]; rfl) ?_
  rw [ht]
  have := Real.exp_le_exp.2 (show (12 : ℝ) ≤ -x by linarith)
  linarith [exp_twelve]

/-! ### Concrete cases -/

/-- In `float32`: the gradient of `Sigmoid.forward` at 0 is 1/4, the value gradient of the standard normal at 3 is -3. -/
example (rd : ℝ → XR) (h : IEEE 24 (-149) 104 rd) : ∃ F : Fmt, F.rd = rd ∧
    ((moreStableSigmoidR (lit 0 : FX F)).2 (lit 1)).Within (1 / 4) (3 * (2 : ℝ) ^ (-24 : ℤ)) ∧
    (normalLogProbPull (⟨lit 0, lit 1⟩ : LS F) (lit 3) (lit 1)).value.Within (-3) ((2 : ℝ) ^ (-24 : ℤ) * 10) := by
  obtain ⟨F, hF, A⟩ := C63_formats.2.2.1 rd h
  have ht := F.top_ge
  refine ⟨F, hF, ?_, ?_⟩
  · have := (C72_sigmoid_forward_accurate A (lit 0) 0 lit_zero (by rw [exp_zero]; simp)).2.1 (by norm_num)
    have e : rsigmoid 0 * (1 - rsigmoid 0) = 1 / 4 := by unfold rsigmoid; norm_num
    rwa [e] at this
  · have hz : ((⟨lit 0, lit 1⟩ : LS F).standardize (lit 3)).1 = fin 3 := by
      unfold LS.standardize
      rw [show (lit 3 - lit 0 : FX F) = lit 3 by rw [sub_eq, neg_zero', add_zero'], div_fin_val lit_three lit_one one_ne_zero, div_one]
      exact lit_three
    have hf : (normalLogProbPull (⟨lit 0, lit 1⟩ : LS F) (lit 3) (lit 1)).value.finite := by
      refine fin_div_of (normal_ct hz (by rw [abs_of_pos] <;> linarith)) lit_one one_ne_zero ?_
      rw [div_one, abs_neg, abs_of_pos (by norm_num)]; linarith
    have := (C72_normal_value_accurate A (⟨lit 0, lit 1⟩ : LS F) (lit 3) 0 1 3 lit_zero lit_one one_pos lit_three 3 hz
      (by rw [abs_of_pos] <;> linarith) hf).2.1
    norm_num at this ⊢
    exact this.mono (by norm_num)

end Distrax
