import Verif.Lemmas.FloatFmt
import Mathlib.Analysis.Real.Pi.Bounds

/-!
C61: range safety in floating point.  For every format (`Fmt`; every IEEE binary format with round-to-nearest is one,
`C61_formats`) and all finite inputs, the stable formulas neither overflow nor produce `nan`; where the code does produce
`nan` on finite inputs the exact condition is stated.
-/

namespace Distrax

open XR FX Spec

variable {F : Fmt}

/-- The theorems of this file and of `Props/Float2.lean` apply to rounding to nearest in `float16`, `bfloat16`, `float32` and
`float64`, and such roundings exist. -/
theorem C61_formats :
    (∀ rd, IEEE 11 (-24) 5 rd → ∃ F : Fmt, F.rd = rd ∧ F.top = 65504) ∧
    (∀ rd, IEEE 8 (-133) 120 rd → ∃ F : Fmt, F.rd = rd) ∧
    (∀ rd, IEEE 24 (-149) 104 rd → ∃ F : Fmt, F.rd = rd ∧ F.top = (2 ^ 24 - 1) * 2 ^ 104) ∧
    (∀ rd, IEEE 53 (-1074) 971 rd → ∃ F : Fmt, F.rd = rd) ∧
    (∃ rd, IEEE 11 (-24) 5 rd) ∧ (∃ rd, IEEE 8 (-133) 120 rd) ∧ (∃ rd, IEEE 24 (-149) 104 rd) ∧
    ∃ rd, IEEE 53 (-1074) 971 rd := by
  refine ⟨fun rd h => ⟨Fmt.ofIEEE rd h (by norm_num) (by norm_num) (by norm_num) (by norm_num), rfl, ?_⟩,
    fun rd h => ⟨Fmt.ofIEEE rd h (by norm_num) (by norm_num) (by norm_num) (by norm_num), rfl⟩,
    fun rd h => ⟨Fmt.ofIEEE rd h (by norm_num) (by norm_num) (by norm_num) (by norm_num), rfl, ?_⟩,
    fun rd h => ⟨Fmt.ofIEEE rd h (by norm_num) (by norm_num) (by norm_num) (by
      have : (2 : ℝ) ^ (12 : ℤ) ≤ (2 : ℝ) ^ (971 : ℤ) := zpow_le_zpow_right₀ (by norm_num) (by norm_num)
      have e : (2 : ℝ) ^ (12 : ℤ) = 4096 := by norm_num
      rw [e] at this
      generalize (2 : ℝ) ^ (971 : ℤ) = z at this ⊢
      push_cast
      linarith only [this]), rfl⟩,
    ieee_exists (by norm_num) (by norm_num), ieee_exists (by norm_num) (by norm_num), ieee_exists (by norm_num) (by norm_num),
    ieee_exists (by norm_num) (by norm_num)⟩
  · show ieeeTop 11 5 = _; norm_num [ieeeTop]
  · show ieeeTop 24 104 = _; norm_num [ieeeTop]

/-! ### Sigmoid -/

theorem neg_sub_eq (a b : FX F) : -a - b = -(a + b) := ext (by
  rw [sub_val, neg_val, neg_val, add_val, ← F.r_neg]
  congr 1
  generalize a.1 = x; generalize b.1 = y
  cases x <;> cases y <;> first
    | rfl
    | (rw [neg_fin, fin_sub, fin_add, neg_fin]; congr 1; ring))

theorem softplus_nonpos_le_one {x : FX F} (h : x ≤ lit 0) : softplus x ≤ lit 1 := by
  rcases fin_or h.numL with hf | hf | hf
  · have hd : (x - lit 0).Num := sub_num_fin hf (lit_num 0)
    unfold softplus logaddexp
    simp only [whr]
    rw [if_neg hd]
    obtain ⟨m0, m1⟩ := log1p_exp_le (neg_nonpos (abs_nonneg hd))
    rcases max_val h.numL (lit_num 0) with ⟨e, -⟩ | ⟨e, g⟩ <;> rw [e]
    · rwa [zero_add']
    · rw [show x = lit 0 from h.asymm' g] at m1 ⊢
      rwa [zero_add']
  · exact absurd hf (ne_pinf_of_le h zero_fits)
  · rw [softplus_ninf hf]; exact lit_le zero_le_one

theorem stable_softplus {x : FX F} (h : x.Num) :
    lit 0 ≤ FloatBij.moreStableSoftplus x ∧ (x.1 ≠ pinf → (FloatBij.moreStableSoftplus x).finite) ∧
    (x ≤ lit 0 → FloatBij.moreStableSoftplus x ≤ lit 1) := by
  unfold FloatBij.moreStableSoftplus whr
  split_ifs with g
  · have h0 : x ≤ lit 0 := LE.le.tr g.toLe (lit_le (by norm_num))
    obtain ⟨a, b⟩ := log1p_exp_le h0
    exact ⟨a, fun _ => finite_of_le a b zero_fits one_fits, fun _ => b⟩
  · refine ⟨softplus_nonneg h, fun hp => ?_, softplus_nonpos_le_one⟩
    rcases fin_or h with hf | hf | hf
    · exact (softplus_finite hf).1
    · exact absurd hf hp
    · rw [softplus_ninf hf]; exact ⟨0, lit_zero⟩

/-- `Sigmoid.forward` lies in [0, 1] and its log-determinant is at most 0 and never `nan`, for every input including the
infinities; for finite inputs the log-determinant is finite, however large the input. -/
theorem C61_sigmoid (x : FX F) (h : ¬ x.isNan) :
    (lit 0 ≤ FloatBij.moreStableSigmoid x ∧ FloatBij.moreStableSigmoid x ≤ lit 1) ∧
    FloatBij.sigmoidFldj x ≤ lit 0 ∧ (x.finite → (FloatBij.sigmoidFldj x).finite) := by
  obtain ⟨a1, a2, a3⟩ := stable_softplus (x := -x) (neg_num.2 h)
  obtain ⟨b1, b2, b3⟩ := stable_softplus h
  refine ⟨?_, ?_, fun hf => ?_⟩
  · unfold FloatBij.moreStableSigmoid whr
    split_ifs with g
    · exact ⟨exp_nonneg h, exp_le_one (LE.le.tr g.toLe (lit_le (by norm_num)))⟩
    · exact sigmoid_mem h
  · unfold FloatBij.sigmoidFldj
    rw [neg_sub_eq]
    exact neg_nonpos (add_nonneg a1 b1)
  · unfold FloatBij.sigmoidFldj
    rw [neg_sub_eq, neg_finite]
    have p1 : x.1 ≠ pinf := by obtain ⟨y, hy⟩ := hf; rw [hy]; simp
    have p2 : (-x).1 ≠ pinf := by obtain ⟨y, hy⟩ := hf; rw [neg_val, hy]; simp
    rcases FX.le_total h (lit_num 0) with g | g
    · exact add_small_finite (a2 p2) b1 (b3 g)
    · rw [add_comm']
      exact add_small_finite (b2 p1) a1 (a3 (neg_nonpos g))

theorem log_num_unit {y : FX F} (h0 : lit 0 ≤ y) (h1 : y ≤ lit 1) : log y ≤ lit 0 ∧ ((log y).1 = ninf → y = lit 0) := by
  refine ⟨log_nonpos h0 h1, fun g => ?_⟩
  obtain ⟨x, hx⟩ := finite_of_le h0 h1 zero_fits one_fits
  rw [le_def, hx, lit_zero, leB_fin] at h0
  rcases h0.eq_or_lt with e | hp
  · exact ext (by rw [hx, lit_zero, e])
  · obtain ⟨z, hz, -⟩ := log_finite hx hp
    rw [hz] at g; cases g

/-- `Sigmoid.inverse_and_log_det` on the closed unit interval never returns `nan`; the log-determinant is at least 0. -/
theorem C61_sigmoid_inverse (y : FX F) (h0 : lit 0 ≤ y) (h1 : y ≤ lit 1) :
    ¬ (FloatBij.sigmoidInverse y).1.isNan ∧ lit 0 ≤ (FloatBij.sigmoidInverse y).2 := by
  obtain ⟨l0, l1⟩ := log_num_unit h0 h1
  have n1 : lit (-1) ≤ -y := by
    have := neg_le h1
    rwa [show -(lit 1 : FX F) = lit (-1) from ext (by rw [neg_val]; simp)] at this
  have m := log1p_nonpos n1 (neg_nonpos h0)
  have hx : (log y - log1p (-y)).Num := by
    rw [sub_eq]
    refine add_num_iff.2 ⟨l0.numL, neg_num.2 m.numL, fun g => ne_pinf_of_le l0 zero_fits g.1, fun g => ?_⟩
    have e := l1 g.1
    rw [e, neg_zero', log1p_zero, neg_zero'] at g
    simp at g
  exact ⟨hx, neg_nonneg (C61_sigmoid _ hx).2.1⟩

/-- The direct formula `log(sigmoid'(x)) = log(s) + log(1 - s)` with `s = sigmoid(x)` loses the log-determinant: it is `-inf` as soon
as `s` rounds to 1, while the code's formula stays finite (`C61_sigmoid`). -/
theorem C61_naive_log_det (x : FX F) (h : sigmoid x = lit 1) : (FX.log (sigmoid x) + FX.log (lit 1 - sigmoid x)).1 = ninf := by
  have e : (lit 1 - lit 1 : FX F) = lit 0 := sub_self' ⟨1, lit_one⟩
  have e0 : (FX.log (lit 0 : FX F)).1 = ninf := by rw [FX.log, fn_val lit_zero, XR.log_fin_zero]; rfl
  rw [h, e, log_one, zero_add', e0]

/-! ### Tanh, GumbelCDF, ScalarAffine -/

theorem log2_bounds : 0 < Real.log 2 ∧ Real.log 2 < 1 := by
  have h2 := Real.log_two_lt_d9
  have h0 := Real.log_two_gt_d9
  constructor <;> linarith

theorem lit_log2_mem : lit 0 ≤ (lit (Real.log 2) : FX F) ∧ (lit (Real.log 2) : FX F) ≤ lit 1 :=
  ⟨lit_le log2_bounds.1.le, lit_le log2_bounds.2.le⟩

theorem lit_log2_finite : (lit (Real.log 2) : FX F).finite := finite_of_le lit_log2_mem.1 lit_log2_mem.2 zero_fits one_fits

theorem log2_sub_finite {x : FX F} (h : x.finite) : (lit (Real.log 2) - x).finite := by
  have := add_small_finite (neg_finite.2 h) lit_log2_mem.1 lit_log2_mem.2
  rwa [add_comm', ← sub_eq] at this

theorem mul_num {a b : FX F} {x : ℝ} (ha : a.1 = fin x) (hx : x ≠ 0) (hb : b.Num) : (a * b).Num := by
  show (a * b).1 ≠ nan
  rw [mul_val, ha]
  refine F.r_ne_nan ?_
  have hb' : b.1 ≠ nan := hb
  revert hb'; generalize b.1 = y; intro hb'
  cases y with
  | nan => exact absurd rfl hb'
  | fin y => show fin (x * y) ≠ nan; simp
  | pinf => show infOf x ≠ nan; unfold infOf; split_ifs <;> simp; exact hx (_root_.le_antisymm (not_lt.1 ‹_›) (not_lt.1 ‹_›))
  | ninf =>
    show infOf (-x) ≠ nan
    unfold infOf; split_ifs with h1 h2 <;> simp
    exact hx (by linarith)

/-- Multiplication of a finite float by 2 is exact unless it overflows; so is multiplication by a power of two. -/
theorem double_val {a : FX F} {x R : ℝ} (ha : a.1 = fin x) (hR : |x| ≤ R) (ht : 2 * R ≤ F.top) : (lit 2 * a).1 = fin (2 * x) := by
  rw [mul_val, lit_two, ha, fin_mul]
  exact F.double (rep ha) (by rw [abs_mul, abs_of_pos (by norm_num : (0 : ℝ) < 2)]; linarith)

theorem neg_two_mul (a : FX F) : lit (-2) * a = -(lit 2 * a) := ext (by
  rw [neg_val, mul_val, mul_val, ← F.r_neg, lit_neg_two, lit_two]
  congr 1
  generalize a.1 = y
  cases y with
  | fin y => show fin (-2 * y) = fin (-(2 * y)); congr 1; ring
  | pinf => show infOf (-2) = -infOf 2; norm_num [infOf]
  | ninf => show infOf (- -2) = -infOf (-2); norm_num [infOf]
  | nan => rfl)

/-- A rounded result is bounded by any representable bound of the exact one. -/
theorem rd_bound {x y R : ℝ} (hR : F.rd R = fin R) (h : |x| ≤ R) (e : F.rd x = fin y) : |y| ≤ R := by
  have m1 := F.mono (abs_le.1 h).2
  have m2 := F.mono (abs_le.1 h).1
  rw [e, hR, leB_fin] at m1
  rw [e, F.rd_neg hR, leB_fin] at m2
  exact abs_le.2 ⟨m2, m1⟩

theorem rd_bound' {x R : ℝ} (hR : F.rd R = fin R) (h : |x| ≤ R) : ∃ y, F.rd x = fin y ∧ |y| ≤ R := by
  obtain ⟨y, hy⟩ := F.fits (x := x) (by have := (le_abs_self R).trans (F.range hR); linarith)
  exact ⟨y, hy, rd_bound hR h hy⟩

theorem rd_double {R : ℝ} (h0 : 0 ≤ R) (hR : F.rd R = fin R) (ht : 2 * R ≤ F.top) : F.rd (2 * R) = fin (2 * R) :=
  F.double hR (by rw [abs_of_nonneg (by linarith)]; exact ht)

/-- `Tanh`: `forward` lies in [-1, 1]; the log-determinant of a finite input is never `nan`, and is finite (not `-inf`) for all inputs
up to a sixteenth of the largest float. -/
theorem C61_tanh (x : FX F) (h : x.finite) :
    (lit (-1) ≤ tanh x ∧ tanh x ≤ lit 1) ∧ ¬ (FloatBij.tanhFldj x).isNan ∧
    (∀ r, x.1 = fin r → |r| ≤ F.top / 16 → (FloatBij.tanhFldj x).finite) := by
  have n2 : (lit (-2) * x).Num := mul_num lit_neg_two (by norm_num) h.num
  refine ⟨tanh_mem h.num, ?_, fun r hr hb => ?_⟩
  · exact mul_num lit_two (by norm_num) (sub_num_fin (log2_sub_finite h) (softplus_nonneg n2).numR)
  · have ht := F.top_ge
    -- a representable bound for `|x|` that is at least 1
    obtain ⟨R, hR1, hRrep, hRx, hRt⟩ : ∃ R : ℝ, 1 ≤ R ∧ F.rd R = fin R ∧ |r| ≤ R ∧ 16 * R ≤ F.top := by
      rcases _root_.le_total 1 |r| with g | g
      · refine ⟨|r|, g, ?_, le_rfl, by linarith⟩
        rcases abs_choice r with e | e <;> rw [e]
        · exact rep hr
        · exact F.rd_neg (rep hr)
      · exact ⟨1, le_rfl, F.rd_one, g, by linarith⟩
    have R2 := rd_double (by linarith) hRrep (by linarith)
    have R4 := rd_double (by linarith) R2 (by linarith)
    have R8 := rd_double (by linarith) R4 (by linarith)
    have e2 : (lit 2 * x).1 = fin (2 * r) := double_val hr hRx (by linarith)
    have e3 : (lit (-2) * x).1 = fin (-(2 * r)) := by rw [neg_two_mul, neg_val, e2]; rfl
    -- softplus(-2x) is at most 4R
    obtain ⟨s, hs⟩ : (softplus (lit (-2) * x)).finite := (softplus_finite ⟨_, e3⟩).1
    have hs4 : |s| ≤ 2 * (2 * R) := by
      have hd : (lit (-2) * x - lit 0).Num := sub_num_fin ⟨_, e3⟩ (lit_num 0)
      have hs' := hs
      unfold softplus logaddexp at hs'
      simp only [whr] at hs'
      rw [if_neg hd] at hs'
      obtain ⟨m0, m1⟩ := log1p_exp_le (neg_nonpos (abs_nonneg hd))
      obtain ⟨l, hl⟩ := finite_of_le m0 m1 zero_fits one_fits
      rw [le_def, lit_zero, hl, leB_fin] at m0
      rw [le_def, lit_one, hl, leB_fin] at m1
      have hx2 := abs_le.1 hRx
      rcases max_val (finite.num ⟨_, e3⟩) (lit_num 0) with ⟨e, -⟩ | ⟨e, -⟩
      · rw [e, add_val, lit_zero, hl] at hs'
        exact rd_bound R4 (by rw [zero_add, abs_of_nonneg m0]; linarith) hs'
      · rw [e, add_val, e3, hl] at hs'
        exact rd_bound R4 (by rw [abs_le]; constructor <;> linarith) hs'
    obtain ⟨w, hw⟩ := log2_sub_finite h
    obtain ⟨c, hc⟩ := lit_log2_finite (F := F)
    have hw2 : |w| ≤ 2 * R := by
      have hw' := hw
      rw [sub_val, hr, hc, fin_sub] at hw'
      have c0 := (lit_log2_mem (F := F)).1
      have c1 := (lit_log2_mem (F := F)).2
      rw [le_def, lit_zero, hc, leB_fin] at c0
      rw [le_def, lit_one, hc, leB_fin] at c1
      have hx2 := abs_le.1 hRx
      exact rd_bound R2 (by rw [abs_le]; constructor <;> linarith) hw'
    have ws := abs_le.1 hw2
    have ss := abs_le.1 hs4
    obtain ⟨u, hu, hu8⟩ := rd_bound' (x := w - s) R8 (by rw [abs_le]; constructor <;> linarith)
    have hu' : (lit (Real.log 2) - x - softplus (lit (-2) * x)).1 = fin u := by rw [sub_val, hw, hs, fin_sub]; exact hu
    exact ⟨2 * u, double_val hu' hu8 (by linarith)⟩

/-- FINDING (documented for `Tanh`, but only one side is affected): at `-inf`, which `arctanh(-1)` returns, the log-determinant is
`nan`; at `+inf` it is `-inf`. -/
theorem C61_tanh_infinite (x : FX F) :
    (x.1 = ninf → (FloatBij.tanhFldj x).isNan) ∧ (x.1 = pinf → (FloatBij.tanhFldj x).1 = ninf) := by
  obtain ⟨c, hc⟩ := lit_log2_finite (F := F)
  refine ⟨fun h => ?_, fun h => ?_⟩
  · have e : (lit (-2) * x).1 = pinf := by rw [neg_two_mul, neg_val, mul_val, lit_two, h]; show -F.r (infOf (-2)) = _; norm_num [infOf, Fmt.r]
    have e2 : (lit (Real.log 2) - x).1 = pinf := by rw [sub_val, hc, h]; rfl
    show (lit 2 * (lit (Real.log 2) - x - softplus (lit (-2) * x))).1 = nan
    rw [mul_val, sub_val, e2, softplus_pinf e, lit_two]
    rfl
  · have e : (lit (-2) * x).1 = ninf := by rw [neg_two_mul, neg_val, mul_val, lit_two, h]; show -F.r (infOf 2) = _; norm_num [infOf, Fmt.r]
    have e2 : (lit (Real.log 2) - x).1 = ninf := by rw [sub_val, hc, h]; rfl
    show (lit 2 * (lit (Real.log 2) - x - softplus (lit (-2) * x))).1 = ninf
    rw [mul_val, sub_val, e2, softplus_ninf e, lit_zero, lit_two]
    show F.r (infOf (-2)) = _
    norm_num [infOf, Fmt.r]

/-- `GumbelCDF`: `forward` lies in [0, 1] and the log-determinant of a finite input is never `nan`. -/
theorem C61_gumbel_cdf (x : FX F) (h : x.finite) :
    lit 0 ≤ (FloatBij.gumbelCdf x).1 ∧ (FloatBij.gumbelCdf x).1 ≤ lit 1 ∧ ¬ (FloatBij.gumbelCdf x).2.isNan := by
  have hn := neg_num.2 h.num
  exact ⟨exp_nonneg (neg_num.2 (exp_num hn)), exp_le_one (neg_nonpos (exp_nonneg hn)), sub_num_fin (neg_finite.2 h) (exp_num hn)⟩

/-- `ScalarAffine.forward` of finite inputs may overflow but is never `nan`. -/
theorem C61_scalar_affine (shift scale x : FX F) (h1 : shift.finite) (h2 : scale.finite) (h3 : x.finite) :
    ¬ (FloatBij.affineForward shift scale x).isNan := by
  obtain ⟨a, ha⟩ := h2
  obtain ⟨b, hb⟩ := h3
  refine add_num_fin' ?_ h1
  show (scale * x).1 ≠ nan
  rw [mul_val, ha, hb]
  exact F.rd_ne_nan _

end Distrax
