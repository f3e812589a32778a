import Verif.Props.FloatAcc

/-!
C63 continued: rounding errors of the location-scale families.
-/

namespace Distrax

open FX Spec
open XR (fin pinf ninf nan leB ltB leB_fin leB_pinf ninf_leB pinf_leB leB_ninf fin_sub fin_mul fin_add infOf)

variable {F : Fmt} {u η : ℝ}

section
variable (A : F.Acc u η)
include A

/-! ### Location-scale families -/

/-- `_standardize` with finite parameters and value, unless it overflows. -/
theorem wu_standardize {d : LS F} {v : FX F} {m s x : ℝ} (hm : d.loc.1 = fin m) (hs : d.scale.1 = fin s) (s0 : 0 < s) (hv : v.1 = fin x)
    (hf : (d.standardize v).finite) : (d.standardize v).Within ((x - m) / s) (u * (2.01 * |(x - m) / s| + 0.004)) := by
  have h1 := div_fin hs hf
  obtain ⟨w, hw, bw⟩ := wu_sub A h1 (wu_exact hv) (wu_exact hm)
  have e : (d.standardize v).1 = F.rd (w / s) := by
    unfold LS.standardize
    rw [div_val, hw, hs]
    show F.r (if s = 0 then _ else _) = _
    rw [if_neg s0.ne']; rfl
  have := wu_rd A e hf (x := (x - m) / s) (κ := |(x - m) / s|) (by
    rw [← sub_div, abs_div, abs_div, abs_of_pos s0, ← mul_div_assoc]
    refine div_le_div_of_nonneg_right ?_ s0.le
    simpa using bw)
  exact wu_mono A this (by have := _root_.abs_nonneg ((x - m) / s); linarith)

omit A in
theorem log_two_pi_le : Real.log (2 * Real.pi) ≤ 2 := by
  rw [Real.log_le_iff_le_exp (by positivity)]
  have := Real.pi_lt_d2
  have h : Real.exp 2 = Real.exp 1 * Real.exp 1 := by rw [← Real.exp_add]; norm_num
  have := Real.exp_one_gt_d9
  rw [h]; nlinarith

omit A in
theorem log_two_pi_nonneg : 0 ≤ Real.log (2 * Real.pi) := Real.log_nonneg (by have := Real.pi_gt_three; linarith)

/-- The normalisation constant shared by `Normal.log_prob` and `Normal.entropy`. -/
theorem wu_normal_const {a : FX F} {s : ℝ} (hs : a.1 = fin s) (s0 : 0 < s) (hf : (FloatNormal.halfLog2pi + log a).finite) :
    (FloatNormal.halfLog2pi + log a).Within (halfLog2pi + Real.log s) (u * (2.1 + 2.1 * |Real.log s|)) := by
  have hc : halfLog2pi = Real.log (2 * Real.pi) / 2 := by unfold halfLog2pi; ring
  have c0 := log_two_pi_nonneg
  have c1 := log_two_pi_le
  have ha : |halfLog2pi| ≤ 1 := by rw [hc, abs_of_nonneg (by linarith)]; linarith
  have h := wu_add A hf (wu_lit A (c := halfLog2pi) (by linarith) |> fun h => by rw [hc] at h; exact h) (wu_log A hs s0)
  rw [← hc] at h
  refine wu_mono A h ?_
  have := abs_add_le halfLog2pi (Real.log s)
  have := _root_.abs_nonneg (Real.log s)
  linarith

/-- `Normal.log_prob`: whenever the computed value is finite it is within the unit roundoff times `4 z² + 4 |log scale| + 4` of the
log-density of the real model, `z` being the exact standardised value. -/
theorem C63_normal_log_prob (d : LS F) (v : FX F) (m s x : ℝ) (hm : d.loc.1 = fin m) (hs : d.scale.1 = fin s) (s0 : 0 < s) (hv : v.1 = fin x)
    (hf : (FloatNormal.logProb d v).finite) :
    (FloatNormal.logProb d v).Within ((⟨m, s⟩ : Normal).logProb x) (u * (4 * ((x - m) / s) ^ 2 + 4 * |Real.log s| + 4)) := by
  obtain ⟨f1, f2⟩ := sub_fin hf
  have f3 := (mul_fin f1).2
  have f4 := (mul_fin f3).1
  have hz := wu_standardize A hm hs s0 hv f4
  set z := (x - m) / s with hzd
  have t0 := _root_.abs_nonneg z
  have hsq := wu_mul A f3 hz hz (by linarith) (by linarith)
  have hh := wu_mul A f1 (wu_exact (u := u) (lit_val (x := -(1 / 2)) (F.rd_neg F.half))) hsq le_rfl (by positivity)
  have ht := wu_sub A hf hh (wu_normal_const A hs s0 f2)
  have e : -(1 / 2) * (z * z) - (halfLog2pi + Real.log s) = (⟨m, s⟩ : Normal).logProb x := by
    show _ = -0.5 * z ^ 2 - (halfLog2pi + Real.log s)
    ring
  rw [e] at ht
  refine wu_mono A ht ?_
  rw [← e]
  have zz : |z * z| = z ^ 2 := by rw [abs_mul_self]; ring
  have zz2 : |z| * |z| = z ^ 2 := by rw [← abs_mul, zz]
  have zh : |-(1 / 2) * (z * z)| = z ^ 2 / 2 := by rw [abs_mul, zz, abs_neg, abs_of_pos (by norm_num)]; ring
  have h12 : |(-(1 / 2) : ℝ)| = 1 / 2 := by rw [abs_neg, abs_of_pos (by norm_num)]
  have c0 := log_two_pi_nonneg
  have c1 := log_two_pi_le
  have hc : halfLog2pi = Real.log (2 * Real.pi) / 2 := by unfold halfLog2pi; ring
  have tri : |-(1 / 2) * (z * z) - (halfLog2pi + Real.log s)| ≤ z ^ 2 / 2 + 1 + |Real.log s| := by
    rw [← zh]
    refine (abs_sub _ _).trans ?_
    have := abs_add_le halfLog2pi (Real.log s)
    have : |halfLog2pi| ≤ 1 := by rw [hc, abs_of_nonneg (by linarith)]; linarith
    linarith
  have g0 := _root_.abs_nonneg (Real.log s)
  rw [zz, h12, zh]
  have t1 : |z| ≤ z ^ 2 / 2 + 1 / 2 := by nlinarith [sq_nonneg (|z| - 1)]
  nlinarith

/-- `Normal.entropy`. -/
theorem C63_normal_entropy (d : LS F) (m s : ℝ) (hm : d.loc.1 = fin m) (hs : d.scale.1 = fin s) (s0 : 0 < s) :
    (FloatNormal.entropy d).Within ((⟨m, s⟩ : Normal).entropy) (u * (4 * |Real.log s| + 4)) := by
  have hd : d.Legal := ⟨⟨m, hm⟩, s, hs, s0⟩
  have hf : (FloatNormal.entropy d).finite := (C61_normal d hd).2
  obtain ⟨f1, f2⟩ := add_fin hf
  have h := wu_add A hf (wu_exact (u := u) (lit_val (x := 1 / 2) F.half)) (wu_normal_const A hs s0 f2)
  have e : 1 / 2 + (halfLog2pi + Real.log s) = (⟨m, s⟩ : Normal).entropy := by
    show _ = 0.5 + (halfLog2pi + Real.log s)
    norm_num
  rw [e] at h
  refine wu_mono A h ?_
  rw [← e]
  have c0 := log_two_pi_nonneg
  have c1 := log_two_pi_le
  have hc : halfLog2pi = Real.log (2 * Real.pi) / 2 := by unfold halfLog2pi; ring
  have := abs_add_le (1 / 2) (halfLog2pi + Real.log s)
  have := abs_add_le halfLog2pi (Real.log s)
  have : |halfLog2pi| ≤ 1 := by rw [hc, abs_of_nonneg (by linarith)]; linarith
  have : |(1 / 2 : ℝ)| = 1 / 2 := abs_of_pos (by norm_num)
  have g0 := _root_.abs_nonneg (Real.log s)
  linarith

omit A in
theorem abs_within {a : FX F} {x ε : ℝ} (h : a.Within x ε) : (FX.abs a).Within |x| ε := by
  obtain ⟨y, hy, hb⟩ := h
  exact ⟨|y|, abs_val' hy, (abs_abs_sub_abs_le _ _).trans hb⟩

omit A in
theorem log_two_abs : |Real.log 2| ≤ 0.7 := by
  have := Real.log_two_lt_d9
  have := Real.log_two_gt_d9
  rw [abs_of_nonneg (by linarith)]; linarith

/-- `Laplace.log_prob`: error at most the unit roundoff times `5 |z| + 4 |log scale| + 4`. -/
theorem C63_laplace_log_prob (d : LS F) (v : FX F) (m s x : ℝ) (hm : d.loc.1 = fin m) (hs : d.scale.1 = fin s) (s0 : 0 < s) (hv : v.1 = fin x)
    (hf : (FloatLaplace.logProb d v).finite) :
    (FloatLaplace.logProb d v).Within ((⟨m, s⟩ : Laplace).logProb x) (u * (5 * |(x - m) / s| + 4 * |Real.log s| + 4)) := by
  obtain ⟨f1, f2⟩ := sub_fin hf
  have f3 := (sub_fin f1).1
  have f4 := abs_fin (neg_finite.1 f3)
  have hz := wu_standardize A hm hs s0 hv f4
  set z := (x - m) / s with hzd
  have l2 := log_two_abs
  have h1 := wu_sub A f1 (wu_neg (abs_within hz)) (wu_lit A (c := Real.log 2) (by linarith))
  have h2 := wu_sub A hf h1 (wu_log A hs s0)
  refine wu_mono A h2 ?_
  have t0 := _root_.abs_nonneg z
  have g0 := _root_.abs_nonneg (Real.log s)
  have b1 := abs_sub (-|z|) (Real.log 2)
  have b2 := abs_sub (-|z| - Real.log 2) (Real.log s)
  have b3 : |(-|z|)| = |z| := by rw [abs_neg, abs_abs]
  rw [b3] at b1
  linarith

omit A in
/-- softplus is 1-Lipschitz. -/
theorem rsoftplus_lip (x y : ℝ) : |rsoftplus x - rsoftplus y| ≤ |x - y| := by
  have key : ∀ {x y : ℝ}, x ≤ y → rsoftplus y - rsoftplus x ≤ y - x ∧ rsoftplus x ≤ rsoftplus y := by
    intro x y h
    have ex := Real.exp_pos x
    have ey := Real.exp_pos y
    have h1 : Real.exp y = Real.exp (y - x) * Real.exp x := by rw [← Real.exp_add]; ring_nf
    have h2 : 1 ≤ Real.exp (y - x) := Real.one_le_exp (by linarith)
    refine ⟨?_, Real.log_le_log (by linarith) (by have := Real.exp_le_exp.2 h; linarith)⟩
    have h3 : rsoftplus y ≤ Real.log (Real.exp (y - x) * (1 + Real.exp x)) :=
      Real.log_le_log (by linarith) (by rw [h1]; nlinarith)
    rw [Real.log_mul (by positivity) (by positivity), Real.log_exp] at h3
    unfold rsoftplus at h3 ⊢
    linarith
  rcases _root_.le_total x y with h | h
  · obtain ⟨h1, h2⟩ := key h
    rw [abs_of_nonpos (by linarith), abs_of_nonpos (by linarith)]; linarith
  · obtain ⟨h1, h2⟩ := key h
    rw [abs_of_nonneg (by linarith), abs_of_nonneg (by linarith)]; linarith

omit A in
theorem rsp_nonneg (y : ℝ) : 0 ≤ rsoftplus y := Real.log_nonneg (by have := Real.exp_pos y; linarith)

omit A in
theorem rsoftplus_le (y : ℝ) : rsoftplus y ≤ |y| + 0.7 := by
  rw [rsoftplus_max]
  have := Real.log_le_log (by have := Real.exp_pos (-|y|); linarith) (show 1 + Real.exp (-|y|) ≤ 2 by
    have := Real.exp_le_one_iff.2 (show -|y| ≤ 0 by simp); linarith)
  have := Real.log_two_lt_d9
  have : max y 0 ≤ |y| := max_le (le_abs_self y) (_root_.abs_nonneg y)
  linarith

/-- softplus of an approximate argument. -/
theorem wu_softplus {a : FX F} {x K : ℝ} (h : a.Within x (u * K)) :
    (softplus a).Within (rsoftplus x) (u * (K + rsoftplus x + K / 256 + 2)) := by
  obtain ⟨y, hy, hb⟩ := h
  obtain ⟨w, hw, bw⟩ := within_softplus A hy
  have l := (rsoftplus_lip y x).trans hb
  refine ⟨w, hw, ?_⟩
  have h4 : |w - rsoftplus x| ≤ |w - rsoftplus y| + |rsoftplus y - rsoftplus x| := by
    rw [show w - rsoftplus x = (w - rsoftplus y) + (rsoftplus y - rsoftplus x) by ring]; exact abs_add_le _ _
  have u0 := A.u0
  have ul := A.u_le
  have h5 : rsoftplus y ≤ rsoftplus x + u * K := by have := (abs_le.1 l).2; linarith
  have h6 := mul_le_mul_of_nonneg_left h5 u0
  have h7 : u * (u * K) ≤ u * (K / 256) := by
    have h8 := (_root_.abs_nonneg _).trans hb
    rcases u0.eq_or_lt with h | h
    · rw [← h]; simp
    · have : 0 ≤ K := nonneg_of_mul_nonneg_right h8 h
      nlinarith
  nlinarith

/-- `Logistic.log_cdf` and `Logistic.log_survival_function`: unless the standardised value overflows, the error is at most the unit
roundoff times `4 |z| + 3`. -/
theorem C63_logistic_log_cdf (d : LS F) (v : FX F) (m s x : ℝ) (hm : d.loc.1 = fin m) (hs : d.scale.1 = fin s) (s0 : 0 < s) (hv : v.1 = fin x)
    (hf : (d.standardize v).finite) :
    (FloatLogistic.logCdf d v).Within ((⟨m, s⟩ : Logistic).logCdf x) (u * (4 * |(x - m) / s| + 3)) ∧
    (FloatLogistic.logSf d v).Within ((⟨m, s⟩ : Logistic).logSurvival x) (u * (4 * |(x - m) / s| + 3)) := by
  have hz := wu_standardize A hm hs s0 hv hf
  set z := (x - m) / s with hzd
  have b1 := rsoftplus_le z
  have b2 := rsoftplus_le (-z)
  have t0 := _root_.abs_nonneg z
  rw [abs_neg] at b2
  refine ⟨?_, ?_⟩
  · show (FloatLogistic.logCdf d v).Within (-(rsoftplus (-z))) _
    exact wu_mono A (wu_neg (wu_softplus A (wu_neg hz))) (by linarith)
  · show (FloatLogistic.logSf d v).Within (-(rsoftplus z)) _
    exact wu_mono A (wu_neg (wu_softplus A hz)) (by linarith)

/-- `Logistic.log_prob`: error at most the unit roundoff times `17 |z| + 4 |log scale| + 12`. -/
theorem C63_logistic_log_prob (d : LS F) (v : FX F) (m s x : ℝ) (hm : d.loc.1 = fin m) (hs : d.scale.1 = fin s) (s0 : 0 < s) (hv : v.1 = fin x)
    (hf : (FloatLogistic.logProb d v).finite) :
    (FloatLogistic.logProb d v).Within ((⟨m, s⟩ : Logistic).logProb x) (u * (17 * |(x - m) / s| + 4 * |Real.log s| + 12)) := by
  obtain ⟨f1, f2⟩ := sub_fin hf
  obtain ⟨f3, f5⟩ := sub_fin f1
  have f4 := neg_finite.1 f3
  have hz := wu_standardize A hm hs s0 hv f4
  set z := (x - m) / s with hzd
  have t0 := _root_.abs_nonneg z
  have g0 := _root_.abs_nonneg (Real.log s)
  have S0 := rsp_nonneg (-z)
  have S1 := rsoftplus_le (-z)
  rw [abs_neg] at S1
  have hsp := wu_softplus A (wu_neg hz)
  have h1 := wu_mul A f5 (wu_exact (u := u) (lit_val (x := 2) (by exact_mod_cast F.small 2 (by norm_num)))) hsp le_rfl (by linarith)
  have h2 := wu_sub A f1 (wu_neg hz) h1
  have h3 := wu_sub A hf h2 (wu_log A hs s0)
  refine wu_mono A h3 ?_
  have b1 := abs_sub (-z) (2 * rsoftplus (-z))
  have b2 := abs_sub (-z - 2 * rsoftplus (-z)) (Real.log s)
  have b3 : |2 * rsoftplus (-z)| = 2 * rsoftplus (-z) := abs_of_nonneg (by linarith)
  have b4 : |(2 : ℝ)| = 2 := abs_of_pos (by norm_num)
  rw [abs_neg, b3] at b1
  rw [b3, b4]
  linarith

/-- `Gumbel.log_prob`, where the standardised value is not so large that its own rounding error matters (`u |z| ≤ 1/4`): error at most the
unit roundoff times `(5 |z| + 4) e^{-z} + 5 |z| + 3 |log scale| + 2`. -/
theorem C63_gumbel_log_prob (d : LS F) (v : FX F) (m s x : ℝ) (hm : d.loc.1 = fin m) (hs : d.scale.1 = fin s) (s0 : 0 < s) (hv : v.1 = fin x)
    (hu : u * |(x - m) / s| ≤ 1 / 4) (hf : (FloatGumbel.logProb d v).finite) :
    (FloatGumbel.logProb d v).Within ((⟨m, s⟩ : Gumbel).logProb x)
      (u * ((5 * |(x - m) / s| + 4) * Real.exp (-((x - m) / s)) + 5 * |(x - m) / s| + 3 * |Real.log s| + 2)) := by
  obtain ⟨f1, f2⟩ := sub_fin hf
  obtain ⟨f3, f5⟩ := add_fin (neg_finite.1 f1)
  have hz := wu_standardize A hm hs s0 hv f3
  set z := (x - m) / s with hzd
  have u0 := A.u0
  have ul := A.u_le
  have t0 := _root_.abs_nonneg z
  have g0 := _root_.abs_nonneg (Real.log s)
  obtain ⟨y, hy, hb⟩ := wu_neg hz
  have ee : (exp (-(d.standardize v))).1 = F.rd (Real.exp y) := by rw [exp, fn_val hy]; rfl
  have E := Real.exp_pos (-z)
  have small : |y - -z| ≤ 1 := hb.trans (by nlinarith)
  have hexp : |Real.exp y - Real.exp (-z)| ≤ u * (2 * (2.01 * |z| + 0.004) * Real.exp (-z)) := by
    have h1 : Real.exp y - Real.exp (-z) = Real.exp (-z) * (Real.exp (y - -z) - 1) := by
      rw [mul_sub, ← Real.exp_add]; ring_nf
    rw [h1, abs_mul, abs_of_pos E]
    have h2 := Real.abs_exp_sub_one_le small
    have h3 : |Real.exp (y - -z) - 1| ≤ 2 * (u * (2.01 * |z| + 0.004)) := h2.trans (by linarith)
    have := mul_le_mul_of_nonneg_left h3 E.le
    linarith
  have h1 := wu_rd A ee f5 hexp
  rw [abs_of_pos E] at h1
  have h2 := wu_add A (neg_finite.1 f1) hz h1
  have h3 := wu_sub A hf (wu_neg h2) (wu_log A hs s0)
  refine wu_mono A h3 ?_
  have b1 := abs_add_le z (Real.exp (-z))
  have b2 := abs_sub (-(z + Real.exp (-z))) (Real.log s)
  rw [abs_of_pos E] at b1
  rw [abs_neg] at b2
  have tE := mul_nonneg t0 E.le
  nlinarith

end

end Distrax
