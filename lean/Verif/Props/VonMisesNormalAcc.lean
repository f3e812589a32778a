import Verif.Props.VonMisesGrad
import Verif.Props.VonMisesNormal
import Mathlib.Analysis.Real.Pi.Bounds

/-! # C56: accuracy of the normal recipe, used from concentration 10.5 on

The recipe evaluates the normal CDF at a corrected multiple of `sin(x/2)`.  The proof compares the derivative of
`ndtr (z(x))` with the density (the ratio lies between `1 - sin⁴(x/2)` and `1` up to the scale, whatever the scale is),
bounds the fourth moment by the Riccati inequality of the Bessel ratio `I₁/I₀`, and bounds the effect of the correction
by the Gaussian tail. -/

namespace Distrax

open MeasureTheory Real Set Filter Topology

/-! ### The normal CDF -/

theorem ndtr_deriv (x : ℝ) : HasDerivAt ndtr (ProbabilityTheory.gaussianPDFReal 0 1 x) x := by
  have hi := ProbabilityTheory.integrable_gaussianPDFReal 0 1
  have hc : Continuous (ProbabilityTheory.gaussianPDFReal 0 1) := by
    unfold ProbabilityTheory.gaussianPDFReal; fun_prop
  have h := intervalIntegral.integral_hasDerivAt_right (hi.intervalIntegrable (a := 0) (b := x))
    hc.stronglyMeasurable.stronglyMeasurableAtFilter hc.continuousAt
  refine (h.add_const (ndtr 0)).congr_of_eventuallyEq (Eventually.of_forall fun y => ?_)
  have := intervalIntegral.integral_Iic_sub_Iic (a := 0) (b := y) hi.integrableOn hi.integrableOn
  unfold ndtr
  linarith

theorem gauss_eq (x : ℝ) : ProbabilityTheory.gaussianPDFReal 0 1 x = (√(2 * π))⁻¹ * Real.exp (-(x ^ 2 / 2)) := by
  unfold ProbabilityTheory.gaussianPDFReal
  simp only [NNReal.coe_one, mul_one, sub_zero]
  congr 2; ring

theorem ndtr_zero : ndtr 0 = 1 / 2 := by
  have := ndtr_add_neg 0
  rw [neg_zero] at this
  linarith

theorem ndtr_tail {y : ℝ} (hy : 0 ≤ y) : ndtr (-y) ≤ Real.exp (-(y ^ 2 / 2)) := by
  have e : ndtr (-y) = (ProbabilityTheory.gaussianReal 0 1).real {ω | id ω ≤ -y} := by
    rw [Measure.real, ProbabilityTheory.gaussianReal_apply_eq_integral _ one_ne_zero, ENNReal.toReal_ofReal]
    · rfl
    · exact integral_nonneg fun x => ProbabilityTheory.gaussianPDFReal_nonneg 0 1 x
  rw [e]
  refine (ProbabilityTheory.measure_le_le_exp_mul_mgf (t := -y) (-y) (by linarith) ?_).trans ?_
  · exact ProbabilityTheory.integrable_exp_mul_gaussianReal _
  · rw [ProbabilityTheory.mgf_id_gaussianReal]
    rw [← Real.exp_add]
    refine Real.exp_le_exp.mpr ?_
    simp only [NNReal.coe_one]
    nlinarith

/-! ### Integrals over the circle by parts -/

theorem circle_parts (k : ℝ) {f f' : ℝ → ℝ} (hf : ∀ x, HasDerivAt f (f' x) x) (hc : Continuous f')
    (he : f (-π) = f π) : ∫ x in (-π)..π, Real.exp (k * Real.cos x) * (f' x - k * Real.sin x * f x) = 0 := by
  have hfc : Continuous f := continuous_iff_continuousAt.mpr fun x => (hf x).continuousAt
  have hd : ∀ x ∈ Set.uIcc (-π) π, HasDerivAt (fun x => Real.exp (k * Real.cos x) * f x)
      (Real.exp (k * Real.cos x) * (f' x - k * Real.sin x * f x)) x := by
    intro x _
    refine ((((Real.hasDerivAt_cos x).const_mul k).exp).mul (hf x)).congr_deriv ?_
    ring
  rw [intervalIntegral.integral_eq_sub_of_hasDerivAt hd]
  · simp only [Real.cos_neg, he, sub_self]
  · exact Continuous.intervalIntegrable (by fun_prop) _ _

noncomputable def vmJ (f : ℝ → ℝ) (k : ℝ) : ℝ := ∫ x in (-π)..π, Real.exp (k * Real.cos x) * f x

theorem vmJ_lin (k : ℝ) {f g : ℝ → ℝ} (hf : Continuous f) (hg : Continuous g) (a b : ℝ) :
    vmJ (fun x => a * f x + b * g x) k = a * vmJ f k + b * vmJ g k := by
  unfold vmJ
  have i1 : IntervalIntegrable (fun x => Real.exp (k * Real.cos x) * f x) volume (-π) π :=
    Continuous.intervalIntegrable (by fun_prop) _ _
  have i2 : IntervalIntegrable (fun x => Real.exp (k * Real.cos x) * g x) volume (-π) π :=
    Continuous.intervalIntegrable (by fun_prop) _ _
  rw [← intervalIntegral.integral_const_mul, ← intervalIntegral.integral_const_mul,
    ← intervalIntegral.integral_add (i1.const_mul a) (i2.const_mul b)]
  refine intervalIntegral.integral_congr fun x _ => ?_
  ring

theorem vmJ_nonneg (k : ℝ) {f : ℝ → ℝ} (hf : ∀ x, 0 ≤ f x) : 0 ≤ vmJ f k :=
  intervalIntegral.integral_nonneg (by linarith [Real.pi_pos]) fun x _ => mul_nonneg (Real.exp_pos _).le (hf x)

theorem vmJ_one (k : ℝ) : vmJ (fun _ => 1) k = vmG π k := by unfold vmJ vmG; simp
theorem vmJ_cos (k : ℝ) : vmJ (fun x => Real.cos x) k = vmG' π k := rfl

/-- `∫ cos² e = ∫ e - (∫ cos e)/k`. -/
theorem vmJ_sin2 (k : ℝ) : k * vmJ (fun x => Real.sin x ^ 2) k = vmG' π k := by
  have h := circle_parts k (f := Real.sin) (f' := Real.cos) Real.hasDerivAt_sin Real.continuous_cos (by simp)
  have e : ∫ x in (-π)..π, Real.exp (k * Real.cos x) * (Real.cos x - k * Real.sin x * Real.sin x)
      = vmJ (fun x => 1 * Real.cos x + (-k) * Real.sin x ^ 2) k := by
    unfold vmJ
    refine intervalIntegral.integral_congr fun x _ => ?_
    ring
  rw [e, vmJ_lin k (by fun_prop) (by fun_prop), vmJ_cos] at h
  linarith

theorem vmJ_sin4 (k : ℝ) : k * (k * vmJ (fun x => Real.sin x ^ 4) k) = 3 * (vmG π k - 2 * vmJ (fun x => Real.sin x ^ 2) k) := by
  have h1 := circle_parts k (f := fun x => Real.sin x ^ 3) (f' := fun x => 3 * Real.sin x ^ 2 * Real.cos x)
    (fun x => ((Real.hasDerivAt_sin x).pow 3).congr_deriv (by norm_num)) (by fun_prop) (by simp)
  have e1 : ∫ x in (-π)..π, Real.exp (k * Real.cos x) * (3 * Real.sin x ^ 2 * Real.cos x - k * Real.sin x * Real.sin x ^ 3)
      = vmJ (fun x => 3 * (Real.sin x ^ 2 * Real.cos x) + (-k) * Real.sin x ^ 4) k := by
    unfold vmJ
    refine intervalIntegral.integral_congr fun x _ => ?_
    ring
  rw [e1, vmJ_lin k (by fun_prop) (by fun_prop)] at h1
  have h2 := circle_parts k (f := fun x => Real.sin x * Real.cos x) (f' := fun x => 1 - 2 * Real.sin x ^ 2)
    (fun x => ((Real.hasDerivAt_sin x).mul (Real.hasDerivAt_cos x)).congr_deriv (by
      have := Real.sin_sq_add_cos_sq x; nlinarith)) (by fun_prop) (by simp)
  have e2 : ∫ x in (-π)..π, Real.exp (k * Real.cos x) * (1 - 2 * Real.sin x ^ 2 - k * Real.sin x * (Real.sin x * Real.cos x))
      = vmJ (fun x => 1 * (1 * 1 + (-2) * Real.sin x ^ 2) + (-k) * (Real.sin x ^ 2 * Real.cos x)) k := by
    unfold vmJ
    refine intervalIntegral.integral_congr fun x _ => ?_
    ring
  rw [e2, vmJ_lin k (by fun_prop) (by fun_prop), vmJ_lin k (by fun_prop) (by fun_prop), vmJ_one] at h2
  generalize vmJ (fun x => Real.sin x ^ 2 * Real.cos x) k = T at *
  have h1' : k * vmJ (fun x => Real.sin x ^ 4) k = 3 * T := by linarith
  rw [h1']
  linarith

theorem vmJ_sin6 (k : ℝ) : k * (k * vmJ (fun x => Real.sin x ^ 6) k)
    = 5 * (3 * vmJ (fun x => Real.sin x ^ 2) k - 4 * vmJ (fun x => Real.sin x ^ 4) k) := by
  have h1 := circle_parts k (f := fun x => Real.sin x ^ 5) (f' := fun x => 5 * Real.sin x ^ 4 * Real.cos x)
    (fun x => ((Real.hasDerivAt_sin x).pow 5).congr_deriv (by norm_num)) (by fun_prop) (by simp)
  have e1 : ∫ x in (-π)..π, Real.exp (k * Real.cos x) * (5 * Real.sin x ^ 4 * Real.cos x - k * Real.sin x * Real.sin x ^ 5)
      = vmJ (fun x => 5 * (Real.sin x ^ 4 * Real.cos x) + (-k) * Real.sin x ^ 6) k := by
    unfold vmJ
    refine intervalIntegral.integral_congr fun x _ => ?_
    ring
  rw [e1, vmJ_lin k (by fun_prop) (by fun_prop)] at h1
  have h2 := circle_parts k (f := fun x => Real.sin x ^ 3 * Real.cos x) (f' := fun x => 3 * Real.sin x ^ 2 - 4 * Real.sin x ^ 4)
    (fun x => (((Real.hasDerivAt_sin x).pow 3).mul (Real.hasDerivAt_cos x)).congr_deriv (by
      have h : Real.cos x ^ 2 = 1 - Real.sin x ^ 2 := by have := Real.sin_sq_add_cos_sq x; linarith
      have : 3 * Real.sin x ^ 2 * Real.cos x * Real.cos x = 3 * Real.sin x ^ 2 * (1 - Real.sin x ^ 2) := by rw [← h]; ring
      norm_num
      rw [this]; ring)) (by fun_prop) (by simp)
  have e2 : ∫ x in (-π)..π, Real.exp (k * Real.cos x) * (3 * Real.sin x ^ 2 - 4 * Real.sin x ^ 4 - k * Real.sin x * (Real.sin x ^ 3 * Real.cos x))
      = vmJ (fun x => 1 * (3 * Real.sin x ^ 2 + (-4) * Real.sin x ^ 4) + (-k) * (Real.sin x ^ 4 * Real.cos x)) k := by
    unfold vmJ
    refine intervalIntegral.integral_congr fun x _ => ?_
    ring
  rw [e2, vmJ_lin k (by fun_prop) (by fun_prop), vmJ_lin k (by fun_prop) (by fun_prop)] at h2
  generalize vmJ (fun x => Real.sin x ^ 4 * Real.cos x) k = T at *
  have h1' : k * vmJ (fun x => Real.sin x ^ 6) k = 5 * T := by linarith
  rw [h1']
  linarith

/-- The third Bessel function is nonnegative. -/
theorem bessel3_nonneg {k : ℝ} (hk : 0 < k) : 4 * k * vmG π k ≤ (k ^ 2 + 8) * vmG' π k := by
  have h2 := vmJ_sin2 k
  have h4 := vmJ_sin4 k
  have h6 := vmJ_sin6 k
  have hn := vmJ_nonneg k (f := fun x => Real.sin x ^ 6) fun x => by positivity
  generalize vmJ (fun x => Real.sin x ^ 2) k = a at *
  generalize vmJ (fun x => Real.sin x ^ 4) k = b at *
  generalize vmJ (fun x => Real.sin x ^ 6) k = c at *
  have h7 : 0 ≤ 3 * a - 4 * b := by
    have : 0 ≤ k * (k * c) := by positivity
    linarith
  have : 4 * (k * (k * b)) ≤ 3 * (k * (k * a)) := by nlinarith [mul_pos hk hk]
  rw [h4, h2] at this
  have e : k * (4 * (3 * (vmG π k - 2 * a))) ≤ k * (3 * (k * vmG' π k)) := mul_le_mul_of_nonneg_left this hk.le
  nlinarith

theorem vmG'_deriv_k (k : ℝ) : HasDerivAt (fun κ => vmG' π κ) (vmJ (fun x => Real.cos x ^ 2) k) k := by
  refine ((intervalIntegral.hasDerivAt_integral_of_dominated_loc_of_deriv_le (μ := volume) (a := -π) (b := π)
    (F := fun κ t => Real.exp (κ * Real.cos t) * Real.cos t) (F' := fun κ t => Real.exp (κ * Real.cos t) * Real.cos t ^ 2)
    (bound := fun _ => Real.exp (|k| + 1)) (Metric.ball_mem_nhds k one_pos) ?_ ?_ ?_ ?_ ?_ ?_).2)
  · exact Eventually.of_forall fun κ => (by fun_prop : Continuous fun t => Real.exp (κ * Real.cos t) * Real.cos t).aestronglyMeasurable
  · exact Continuous.intervalIntegrable (by fun_prop) _ _
  · exact (by fun_prop : Continuous fun t => Real.exp (k * Real.cos t) * Real.cos t ^ 2).aestronglyMeasurable
  · refine Eventually.of_forall fun t _ κ hκ => ?_
    rw [Real.norm_eq_abs, abs_mul, abs_of_pos (Real.exp_pos _)]
    have h1 := Real.abs_cos_le_one t
    have h1' : |Real.cos t ^ 2| ≤ 1 := by rw [abs_pow]; exact pow_le_one₀ (abs_nonneg _) h1
    have h2 : |κ| ≤ |k| + 1 := by
      rw [Metric.mem_ball, Real.dist_eq] at hκ
      have := abs_sub_abs_le_abs_sub κ k
      linarith
    have h3 : κ * Real.cos t ≤ |k| + 1 := by
      refine (le_abs_self _).trans ?_
      rw [abs_mul]
      calc |κ| * |Real.cos t| ≤ |κ| * 1 := mul_le_mul_of_nonneg_left h1 (abs_nonneg _)
        _ ≤ _ := by linarith
    exact (mul_le_of_le_one_right (Real.exp_pos _).le h1').trans (Real.exp_le_exp.mpr h3)
  · exact intervalIntegrable_const
  · refine Eventually.of_forall fun t _ κ _ => ?_
    have := (((hasDerivAt_id κ).mul_const (Real.cos t)).exp).mul_const (Real.cos t)
    refine this.congr_deriv ?_
    simp only [id]; ring

theorem vmJ_cos2 {k : ℝ} (hk : 0 < k) : vmJ (fun x => Real.cos x ^ 2) k = vmG π k - vmG' π k / k := by
  have h2 := vmJ_sin2 k
  have e : vmJ (fun x => Real.cos x ^ 2) k = vmJ (fun x => 1 * 1 + (-1) * Real.sin x ^ 2) k := by
    unfold vmJ
    refine intervalIntegral.integral_congr fun x _ => ?_
    have := Real.sin_sq_add_cos_sq x
    simp only
    rw [show Real.cos x ^ 2 = 1 * 1 + -1 * Real.sin x ^ 2 by linarith]
  rw [e, vmJ_lin k (by fun_prop) (by fun_prop), vmJ_one, ← h2]
  field_simp
  ring

/-- Riccati lower bound on the Bessel ratio. -/
theorem bessel_ratio_lower {k : ℝ} (hk : 1.8 ≤ k) :
    (1 - 1 / (2 * k) - 0.32 / k ^ 2) * vmG π k ≤ vmG' π k := by
  let L : ℝ → ℝ := fun k => 1 - 1 / (2 * k) - 0.32 / k ^ 2
  let μ : ℝ → ℝ := fun k => Real.exp (Real.log k / 2 + k + 0.32 / k)
  let W : ℝ → ℝ := fun k => (vmG' π k - L k * vmG π k) * μ k
  have hL : ∀ k, 0 < k → HasDerivAt L (1 / (2 * k ^ 2) + 0.64 / k ^ 3) k := by
    intro k hk
    have h1 := (hasDerivAt_const k (1 : ℝ)).sub (((hasDerivAt_const k (1 : ℝ)).div ((hasDerivAt_id k).const_mul 2) (by simp [hk.ne'])))
    have h2 := (hasDerivAt_const k (0.32 : ℝ)).div ((hasDerivAt_id k).pow 2) (by simp [hk.ne'])
    refine (h1.sub h2).congr_deriv ?_
    simp only [id, Pi.pow_apply]
    norm_num
    field_simp
    ring
  have hμ : ∀ k, 0 < k → HasDerivAt μ (μ k * (1 / k + L k)) k := by
    intro k hk
    have h := ((((Real.hasDerivAt_log hk.ne').div_const 2).add (hasDerivAt_id k)).add
      ((hasDerivAt_const k (0.32 : ℝ)).div (hasDerivAt_id k) hk.ne')).exp
    refine h.congr_deriv ?_
    show Real.exp (Real.log k / 2 + k + 0.32 / k) * _ = Real.exp (Real.log k / 2 + k + 0.32 / k) * _
    congr 1
    simp only [id, L]
    field_simp
    ring
  have hW : ∀ k, 0 < k → HasDerivAt W (μ k * vmG π k * (0.39 / k ^ 2 - 0.64 / k ^ 3 - 0.1024 / k ^ 4)) k := by
    intro k hk
    have h := ((vmG'_deriv_k k).sub ((hL k hk).mul (vmG_deriv_k π k))).mul (hμ k hk)
    refine h.congr_deriv ?_
    rw [vmJ_cos2 hk]
    simp only [Pi.sub_apply, Pi.mul_apply, L]
    field_simp
    ring
  have hmono : MonotoneOn W (Ici 1.8) := by
    refine monotoneOn_of_deriv_nonneg (convex_Ici _) (fun y hy => (hW y (by
      have : (1.8 : ℝ) ≤ y := hy
      linarith)).continuousAt.continuousWithinAt) (fun y hy => (hW y (by
      rw [interior_Ici] at hy
      have : (1.8 : ℝ) < y := hy
      linarith)).differentiableAt.differentiableWithinAt) ?_
    intro y hy
    rw [interior_Ici] at hy
    have hy' : (1.8 : ℝ) < y := hy
    have hy0 : 0 < y := by linarith
    rw [(hW y hy0).deriv]
    refine mul_nonneg (mul_nonneg (Real.exp_pos _).le (vmG_pos y).le) ?_
    have e : 0.39 / y ^ 2 - 0.64 / y ^ 3 - 0.1024 / y ^ 4 = (0.39 * y ^ 2 - 0.64 * y - 0.1024) / y ^ 4 := by field_simp
    rw [e]
    refine div_nonneg ?_ (by positivity)
    nlinarith
  have h0 : 0 ≤ W 1.8 := by
    refine mul_nonneg ?_ (Real.exp_pos _).le
    have := bessel3_nonneg (k := 1.8) (by norm_num)
    have hG := vmG_pos 1.8
    simp only [L]
    norm_num at this ⊢
    linarith
  have h1 := hmono (mem_Ici.mpr le_rfl) (mem_Ici.mpr hk) hk
  have h2 : 0 ≤ W k := h0.trans h1
  have h3 : 0 ≤ vmG' π k - (1 - 1 / (2 * k) - 0.32 / k ^ 2) * vmG π k := nonneg_of_mul_nonneg_left h2 (Real.exp_pos _)
  linarith

/-! ### The fourth moment -/

theorem vmPdf_half (k x : ℝ) (hk : 0 ≤ k) :
    vmPdf ⟨0, k⟩ x = Real.exp (-(2 * k * Real.sin (x / 2) ^ 2)) / (2 * π * i0e k) := by
  rw [← vm_prob_eq ⟨0, k⟩ hk]
  unfold VonMises.prob
  simp only [sub_zero]
  congr 2
  have : Real.cos x = 1 - 2 * Real.sin (x / 2) ^ 2 := by
    rw [show x = 2 * (x / 2) by ring, Real.cos_two_mul, show 2 * (x / 2) / 2 = x / 2 by ring]
    have := Real.sin_sq_add_cos_sq (x / 2)
    linarith
  rw [this]; ring

/-- `∫₀^π` of the density times `sin⁴(x/2)`. -/
noncomputable def vmM4 (k x : ℝ) : ℝ := ∫ t in (0 : ℝ)..x, vmPdf ⟨0, k⟩ t * Real.sin (t / 2) ^ 4

theorem vmM4_deriv (k x : ℝ) : HasDerivAt (vmM4 k) (vmPdf ⟨0, k⟩ x * Real.sin (x / 2) ^ 4) x := by
  have hp := vmPdf_cont ⟨0, k⟩
  have hc : Continuous fun t => vmPdf ⟨0, k⟩ t * Real.sin (t / 2) ^ 4 := by fun_prop
  exact intervalIntegral.integral_hasDerivAt_right (hc.intervalIntegrable _ _)
    hc.stronglyMeasurable.stronglyMeasurableAtFilter hc.continuousAt

theorem vmM4_top {k : ℝ} (hk : 1.8 ≤ k) : vmM4 k π ≤ 0.1425 / k ^ 2 + 0.04 / k ^ 3 := by
  have hk0 : 0 < k := by linarith
  have hG := vmG_pos k
  have hp := vmPdf_cont ⟨0, k⟩
  have hc : Continuous fun t => vmPdf ⟨0, k⟩ t * Real.sin (t / 2) ^ 4 := by fun_prop
  have h1 := circle_even hc (fun x => by rw [vmPdf_even, neg_div, Real.sin_neg]; ring)
  have e1 : ∫ t in (-π)..π, vmPdf ⟨0, k⟩ t * Real.sin (t / 2) ^ 4
      = 1 / (4 * vmG π k) * vmJ (fun x => 1 * (2 * 1 + (-2) * Real.cos x) + (-1) * Real.sin x ^ 2) k := by
    unfold vmJ
    rw [← intervalIntegral.integral_const_mul]
    refine intervalIntegral.integral_congr fun x _ => ?_
    simp only
    have e2 : vmPdf ⟨0, k⟩ x = Real.exp (k * Real.cos x) / vmG π k := by
      unfold vmPdf vmG; simp only [sub_zero]; rw [circle_bessel0]
    have e3 : Real.sin (x / 2) ^ 2 = (1 - Real.cos x) / 2 := by
      have : Real.cos x = 1 - 2 * Real.sin (x / 2) ^ 2 := by
        conv_lhs => rw [show x = 2 * (x / 2) by ring, Real.cos_two_mul]
        have := Real.sin_sq_add_cos_sq (x / 2)
        linarith
      linarith
    have e4 : Real.sin x ^ 2 = 1 - Real.cos x ^ 2 := by have := Real.sin_sq_add_cos_sq x; linarith
    rw [e2, show Real.sin (x / 2) ^ 4 = (Real.sin (x / 2) ^ 2) ^ 2 by ring, e3, e4]
    field_simp
    ring
  rw [e1, vmJ_lin k (by fun_prop) (by fun_prop), vmJ_lin k (by fun_prop) (by fun_prop), vmJ_one, vmJ_cos] at h1
  have h2 := vmJ_sin2 k
  have h3 := bessel_ratio_lower hk
  have e5 : vmM4 k π = 1 / (8 * vmG π k) * (2 * vmG π k - 2 * vmG' π k - vmG' π k / k) := by
    have e6 : vmJ (fun x => Real.sin x ^ 2) k = vmG' π k / k := by rw [← h2]; field_simp
    rw [e6] at h1
    have : vmM4 k π = 1 / 2 * (1 / (4 * vmG π k) * (1 * (2 * vmG π k + -2 * vmG' π k) + -1 * (vmG' π k / k))) := by
      unfold vmM4; linarith
    rw [this]
    field_simp
    ring
  rw [e5]
  have h4 : (2 + 1 / k) * ((1 - 1 / (2 * k) - 0.32 / k ^ 2) * vmG π k) ≤ (2 + 1 / k) * vmG' π k :=
    mul_le_mul_of_nonneg_left h3 (by positivity)
  have h5 : 2 * vmG π k - 2 * vmG' π k - vmG' π k / k ≤ 8 * (0.1425 / k ^ 2 + 0.04 / k ^ 3) * vmG π k := by
    have a : 2 * vmG π k - 2 * vmG' π k - vmG' π k / k = 2 * vmG π k - (2 + 1 / k) * vmG' π k := by ring
    have b : 2 * vmG π k - (2 + 1 / k) * ((1 - 1 / (2 * k) - 0.32 / k ^ 2) * vmG π k)
        = 8 * (0.1425 / k ^ 2 + 0.04 / k ^ 3) * vmG π k := by field_simp; ring
    linarith
  calc 1 / (8 * vmG π k) * (2 * vmG π k - 2 * vmG' π k - vmG' π k / k)
      ≤ 1 / (8 * vmG π k) * (8 * (0.1425 / k ^ 2 + 0.04 / k ^ 3) * vmG π k) := mul_le_mul_of_nonneg_left h5 (by positivity)
    _ = _ := by field_simp

/-! ### The uncorrected argument -/

/-- The argument of the normal CDF before correction. -/
noncomputable def vmZ (k x : ℝ) : ℝ := √(2 / π) / i0e k * Real.sin (x / 2)

/-- `z² = 2 A sin²(x/2)`. -/
noncomputable def vmA (k : ℝ) : ℝ := 1 / (π * i0e k ^ 2)

theorem vmZ_sq (k x : ℝ) : vmZ k x ^ 2 = 2 * vmA k * Real.sin (x / 2) ^ 2 := by
  unfold vmZ vmA
  have := i0e_pos k
  rw [mul_pow, div_pow, Real.sq_sqrt (by positivity)]
  field_simp

theorem vmA_pos (k : ℝ) : 0 < vmA k := by unfold vmA; have := i0e_pos k; positivity

theorem vmZ_deriv (k x : ℝ) : HasDerivAt (vmZ k) (√(2 / π) / i0e k * (Real.cos (x / 2) * (1 / 2))) x :=
  ((((hasDerivAt_id x).div_const 2).sin).const_mul (√(2 / π) / i0e k))

theorem vmPhi_deriv (k x : ℝ) : HasDerivAt (fun x => ndtr (vmZ k x))
    (Real.cos (x / 2) * Real.exp (-(vmA k * Real.sin (x / 2) ^ 2)) / (2 * π * i0e k)) x := by
  refine ((ndtr_deriv (vmZ k x)).comp x (vmZ_deriv k x)).congr_deriv ?_
  rw [gauss_eq, vmZ_sq, show 2 * vmA k * Real.sin (x / 2) ^ 2 / 2 = vmA k * Real.sin (x / 2) ^ 2 by ring]
  have hpi := Real.pi_pos
  have hi := i0e_pos k
  have e : (√(2 * π))⁻¹ * √(2 / π) = 1 / π := by
    rw [Real.sqrt_mul (by norm_num), Real.sqrt_div (by norm_num)]
    have h2 : 0 < √(2 : ℝ) := by positivity
    have h3 : √π * √π = π := Real.mul_self_sqrt hpi.le
    field_simp
    linarith
  calc (√(2 * π))⁻¹ * Real.exp (-(vmA k * Real.sin (x / 2) ^ 2)) * (√(2 / π) / i0e k * (Real.cos (x / 2) * (1 / 2)))
      = ((√(2 * π))⁻¹ * √(2 / π)) * (Real.cos (x / 2) * Real.exp (-(vmA k * Real.sin (x / 2) ^ 2)) / (2 * i0e k)) := by
        field_simp
    _ = _ := by rw [e]; field_simp

theorem cos_exp_bounds (x : ℝ) (h0 : 0 ≤ x) (h1 : x ≤ π) :
    1 - Real.sin (x / 2) ^ 4 ≤ Real.cos (x / 2) * Real.exp (Real.sin (x / 2) ^ 2 / 2) ∧
      Real.cos (x / 2) * Real.exp (Real.sin (x / 2) ^ 2 / 2) ≤ 1 := by
  have hc : 0 ≤ Real.cos (x / 2) := Real.cos_nonneg_of_neg_pi_div_two_le_of_le (by linarith) (by linarith)
  set u := Real.sin (x / 2) ^ 2 with hu
  have hu0 : 0 ≤ u := sq_nonneg _
  have hu1 : u ≤ 1 := by rw [hu]; exact Real.sin_sq_le_one _
  have hcu : Real.cos (x / 2) ^ 2 = 1 - u := by have := Real.sin_sq_add_cos_sq (x / 2); linarith
  set v := Real.cos (x / 2) * Real.exp (u / 2) with hv
  have hv0 : 0 ≤ v := mul_nonneg hc (Real.exp_pos _).le
  have hv2 : v ^ 2 = (1 - u) * Real.exp u := by
    rw [hv, mul_pow, hcu, ← Real.exp_nat_mul]; congr 2; push_cast; ring
  have e4 : Real.sin (x / 2) ^ 4 = u ^ 2 := by rw [hu]; ring
  rw [e4]
  constructor
  · have h2 : (1 - u ^ 2) ^ 2 ≤ v ^ 2 := by
      rw [hv2]
      have : (1 - u) * (u + 1) ≤ (1 - u) * Real.exp u := mul_le_mul_of_nonneg_left (Real.add_one_le_exp u) (by linarith)
      have hu2 : u ^ 2 ≤ 1 := pow_le_one₀ hu0 hu1
      nlinarith [mul_nonneg (sq_nonneg u) (sub_nonneg.mpr hu2)]
    exact abs_le_of_sq_le_sq' h2 hv0 |>.2
  · have h2 : v ^ 2 ≤ 1 := by
      rw [hv2]
      have h3 := Real.add_one_le_exp (-u)
      have h4 : (1 - u) * Real.exp u ≤ Real.exp (-u) * Real.exp u := mul_le_mul_of_nonneg_right (by linarith) (Real.exp_pos _).le
      rwa [← Real.exp_add, neg_add_cancel, Real.exp_zero] at h4
    nlinarith

/-- The uncorrected recipe `Φ(z)` is close to the exact CDF. -/
theorem vmPhi_close {k : ℝ} (hk : 10.5 ≤ k) {x : ℝ} (h0 : 0 ≤ x) (h1 : x ≤ π) :
    |ndtr (vmZ k x) - vmF k x| ≤ 0.147 / k ^ 2 := by
  have hpi := Real.pi_pos
  have hk0 : 0 < k := by linarith
  have hi := i0e_pos k
  have hN : 0 < 2 * π * i0e k := by positivity
  have hd : ∀ x, HasDerivAt (fun x => ndtr (vmZ k x) - vmF k x)
      (Real.cos (x / 2) * Real.exp (-(vmA k * Real.sin (x / 2) ^ 2)) / (2 * π * i0e k) - vmPdf ⟨0, k⟩ x) x :=
    fun x => (vmPhi_deriv k x).sub (vmF_deriv k x)
  have s0 : ndtr (vmZ k 0) - vmF k 0 = 0 := by
    rw [vmF_zero]; unfold vmZ; simp [ndtr_zero]
  have sπ : ndtr (vmZ k π) - vmF k π = -ndtr (-vmZ k π) := by
    rw [vmF_top]; have := ndtr_add_neg (vmZ k π); linarith
  have hq := ndtr_pos (-vmZ k π)
  have hsplit : ∀ y, Real.cos (y / 2) * Real.exp (-(vmA k * Real.sin (y / 2) ^ 2))
      = Real.cos (y / 2) * Real.exp (Real.sin (y / 2) ^ 2 / 2)
        * Real.exp ((2 * k - 1 / 2 - vmA k) * Real.sin (y / 2) ^ 2) * Real.exp (-(2 * k * Real.sin (y / 2) ^ 2)) := by
    intro y
    rw [mul_assoc, mul_assoc, ← Real.exp_add, ← Real.exp_add]
    congr 2; ring
  have hM : vmM4 k π ≤ 0.147 / k ^ 2 := by
    refine (vmM4_top (by linarith)).trans ?_
    have e : 0.147 / k ^ 2 - (0.1425 / k ^ 2 + 0.04 / k ^ 3) = (0.0045 * k - 0.04) / k ^ 3 := by field_simp; ring
    have : 0 ≤ (0.0045 * k - 0.04) / k ^ 3 := div_nonneg (by linarith) (by positivity)
    linarith
  rcases le_or_gt (vmA k) (2 * k - 1 / 2) with hA | hA
  · -- the ratio of the densities is at least `1 - sin⁴`
    have hmono : MonotoneOn (fun x => (ndtr (vmZ k x) - vmF k x) + vmM4 k x) (Icc 0 π) := by
      refine monotoneOn_of_deriv_nonneg (convex_Icc 0 π)
        (fun y _ => ((hd y).add (vmM4_deriv k y)).continuousAt.continuousWithinAt)
        (fun y _ => ((hd y).add (vmM4_deriv k y)).differentiableAt.differentiableWithinAt) ?_
      intro y hy
      rw [interior_Icc] at hy
      have hdd : HasDerivAt (fun x => (ndtr (vmZ k x) - vmF k x) + vmM4 k x) _ y := (hd y).add (vmM4_deriv k y)
      rw [hdd.deriv, vmPdf_half k y hk0.le, hsplit]
      have hb := (cos_exp_bounds y hy.1.le hy.2.le).1
      have hc : 0 ≤ Real.cos (y / 2) * Real.exp (Real.sin (y / 2) ^ 2 / 2) :=
        mul_nonneg (Real.cos_nonneg_of_neg_pi_div_two_le_of_le (by linarith [hy.1]) (by linarith [hy.2])) (Real.exp_pos _).le
      have hE : 1 ≤ Real.exp ((2 * k - 1 / 2 - vmA k) * Real.sin (y / 2) ^ 2) :=
        Real.one_le_exp (mul_nonneg (by linarith) (sq_nonneg _))
      have hle : 1 - Real.sin (y / 2) ^ 4 ≤ Real.cos (y / 2) * Real.exp (Real.sin (y / 2) ^ 2 / 2)
          * Real.exp ((2 * k - 1 / 2 - vmA k) * Real.sin (y / 2) ^ 2) :=
        hb.trans (le_mul_of_one_le_right hc hE)
      have hP := Real.exp_pos (-(2 * k * Real.sin (y / 2) ^ 2))
      generalize Real.cos (y / 2) * Real.exp (Real.sin (y / 2) ^ 2 / 2)
          * Real.exp ((2 * k - 1 / 2 - vmA k) * Real.sin (y / 2) ^ 2) = v at hle ⊢
      generalize Real.exp (-(2 * k * Real.sin (y / 2) ^ 2)) = P at hP ⊢
      have e : v * P / (2 * π * i0e k) - P / (2 * π * i0e k) + P / (2 * π * i0e k) * Real.sin (y / 2) ^ 4
          = (v - (1 - Real.sin (y / 2) ^ 4)) * (P / (2 * π * i0e k)) := by ring
      rw [e]
      exact mul_nonneg (by linarith) (by positivity)
    have a1 := hmono ⟨le_rfl, hpi.le⟩ ⟨h0, h1⟩ h0
    have a2 := hmono ⟨h0, h1⟩ ⟨hpi.le, le_rfl⟩ h1
    simp only at a1 a2
    rw [s0] at a1
    rw [sπ] at a2
    have z0 : vmM4 k 0 = 0 := by unfold vmM4; simp
    have zx : 0 ≤ vmM4 k x := intervalIntegral.integral_nonneg h0 fun t _ =>
      mul_nonneg (vmPdf_pos _ _).le (by positivity)
    have zx' : vmM4 k x ≤ vmM4 k π := by
      have hp := vmPdf_cont ⟨0, k⟩
      have hc : Continuous fun t => vmPdf ⟨0, k⟩ t * Real.sin (t / 2) ^ 4 := by fun_prop
      have := intervalIntegral.integral_add_adjacent_intervals (hc.intervalIntegrable (μ := volume) 0 x) (hc.intervalIntegrable (μ := volume) x π)
      have h3 : 0 ≤ ∫ t in x..π, vmPdf ⟨0, k⟩ t * Real.sin (t / 2) ^ 4 := intervalIntegral.integral_nonneg h1 fun t _ =>
        mul_nonneg (vmPdf_pos _ _).le (by positivity)
      unfold vmM4
      linarith
    rw [abs_le]
    constructor <;> linarith
  · -- the recipe's density is below the exact one
    have hanti : AntitoneOn (fun x => ndtr (vmZ k x) - vmF k x) (Icc 0 π) := by
      refine antitoneOn_of_deriv_nonpos (convex_Icc 0 π) (fun y _ => (hd y).continuousAt.continuousWithinAt)
        (fun y _ => (hd y).differentiableAt.differentiableWithinAt) ?_
      intro y hy
      rw [interior_Icc] at hy
      rw [(hd y).deriv, vmPdf_half k y hk0.le, hsplit]
      have hb := (cos_exp_bounds y hy.1.le hy.2.le).2
      have hE : Real.exp ((2 * k - 1 / 2 - vmA k) * Real.sin (y / 2) ^ 2) ≤ 1 :=
        Real.exp_le_one_iff.mpr (mul_nonpos_of_nonpos_of_nonneg (by linarith) (sq_nonneg _))
      have hle : Real.cos (y / 2) * Real.exp (Real.sin (y / 2) ^ 2 / 2)
          * Real.exp ((2 * k - 1 / 2 - vmA k) * Real.sin (y / 2) ^ 2) ≤ 1 := by
        calc _ ≤ 1 * 1 := mul_le_mul hb hE (Real.exp_pos _).le zero_le_one
          _ = 1 := one_mul 1
      have hP := Real.exp_pos (-(2 * k * Real.sin (y / 2) ^ 2))
      generalize Real.cos (y / 2) * Real.exp (Real.sin (y / 2) ^ 2 / 2)
          * Real.exp ((2 * k - 1 / 2 - vmA k) * Real.sin (y / 2) ^ 2) = v at hle ⊢
      generalize Real.exp (-(2 * k * Real.sin (y / 2) ^ 2)) = P at hP ⊢
      have e : v * P / (2 * π * i0e k) - P / (2 * π * i0e k) = -((1 - v) * (P / (2 * π * i0e k))) := by ring
      rw [e, neg_nonpos]
      exact mul_nonneg (by linarith) (by positivity)
    have a1 := hanti ⟨le_rfl, hpi.le⟩ ⟨h0, h1⟩ h0
    have a2 := hanti ⟨h0, h1⟩ ⟨hpi.le, le_rfl⟩ h1
    simp only at a1 a2
    rw [s0] at a1
    rw [sπ] at a2
    have hz : 0 ≤ vmZ k π := by
      unfold vmZ
      refine mul_nonneg (by positivity) (Real.sin_nonneg_of_nonneg_of_le_pi (by linarith) (by linarith))
    have ht := ndtr_tail hz
    rw [vmZ_sq, Real.sin_pi_div_two] at ht
    have hA1 : 1.95 * k ≤ vmA k := by linarith
    have hA0 := vmA_pos k
    have h6 := Real.pow_div_factorial_le_exp (vmA k) hA0.le 3
    have h7 : Real.exp (-(2 * vmA k * 1 ^ 2 / 2)) ≤ 0.147 / k ^ 2 := by
      rw [show 2 * vmA k * 1 ^ 2 / 2 = vmA k by ring, Real.exp_neg]
      have h8 : (1.95 * k) ^ 3 / 6 ≤ Real.exp (vmA k) := by
        refine le_trans ?_ h6
        rw [show ((Nat.factorial 3 : ℕ) : ℝ) = 6 by norm_num [Nat.factorial]]
        refine div_le_div_of_nonneg_right (pow_le_pow_left₀ (by positivity) hA1 3) (by norm_num)
      rw [inv_le_comm₀ (Real.exp_pos _) (by positivity)]
      refine le_trans ?_ h8
      rw [inv_div, div_le_div_iff₀ (by norm_num) (by norm_num)]
      have : 10.5 * k ^ 2 ≤ k ^ 3 := by nlinarith [sq_nonneg k]
      nlinarith
    rw [abs_le]
    constructor <;> linarith

/-! ### The scale of the recipe -/

theorem vmA_upper {k : ℝ} (hk : 10.5 ≤ k) : vmA k ≤ 2.1 * k := by
  have hpi := Real.pi_pos
  have hk0 : 0 < k := by linarith
  have hi := i0e_pos k
  set c := √(2 * π) * √k * i0e k with hc
  have hc0 : 0 < c := by positivity
  have hdz : ∀ x, HasDerivAt (fun x => ndtr (2 * √k * Real.sin (x / 2)))
      ((√(2 * π))⁻¹ * Real.exp (-(2 * k * Real.sin (x / 2) ^ 2)) * (√k * Real.cos (x / 2))) x := by
    intro x
    have h1 : HasDerivAt (fun x => 2 * √k * Real.sin (x / 2)) (2 * √k * (Real.cos (x / 2) * (1 / 2))) x :=
      (((hasDerivAt_id x).div_const 2).sin).const_mul _
    refine ((ndtr_deriv _).comp x h1).congr_deriv ?_
    rw [gauss_eq, show (2 * √k * Real.sin (x / 2)) ^ 2 / 2 = 2 * k * Real.sin (x / 2) ^ 2 by
      rw [mul_pow, mul_pow, Real.sq_sqrt hk0.le]; ring]
    ring
  have hmono : MonotoneOn (fun x => c * vmF k x - ndtr (2 * √k * Real.sin (x / 2))) (Icc 0 π) := by
    have hd : ∀ y, HasDerivAt (fun x => c * vmF k x - ndtr (2 * √k * Real.sin (x / 2)))
        (c * vmPdf ⟨0, k⟩ y - (√(2 * π))⁻¹ * Real.exp (-(2 * k * Real.sin (y / 2) ^ 2)) * (√k * Real.cos (y / 2))) y :=
      fun y => ((vmF_deriv k y).const_mul c).sub (hdz y)
    refine monotoneOn_of_deriv_nonneg (convex_Icc 0 π) (fun y _ => (hd y).continuousAt.continuousWithinAt)
        (fun y _ => (hd y).differentiableAt.differentiableWithinAt) ?_
    intro y _
    rw [(hd y).deriv, vmPdf_half k y hk0.le]
    have hP := Real.exp_pos (-(2 * k * Real.sin (y / 2) ^ 2))
    generalize Real.exp (-(2 * k * Real.sin (y / 2) ^ 2)) = P at hP ⊢
    have h2 : 0 < √(2 * π) := by positivity
    have h2s : √(2 * π) ^ 2 = 2 * π := Real.sq_sqrt (by positivity)
    have e : c * (P / (2 * π * i0e k)) = (√(2 * π))⁻¹ * P * √k := by
      rw [hc]
      have h3 : 2 * π * i0e k = √(2 * π) * √(2 * π) * i0e k := by rw [← sq, h2s]
      rw [h3]
      generalize √(2 * π) = s at h2
      field_simp
    rw [e]
    have hle := Real.cos_le_one (y / 2)
    have : (√(2 * π))⁻¹ * P * √k - (√(2 * π))⁻¹ * P * (√k * Real.cos (y / 2))
        = (√(2 * π))⁻¹ * P * √k * (1 - Real.cos (y / 2)) := by ring
    rw [this]
    exact mul_nonneg (by positivity) (by linarith)
  have a := hmono ⟨le_rfl, hpi.le⟩ ⟨hpi.le, le_rfl⟩ hpi.le
  simp only [vmF_zero, vmF_top, Real.sin_pi_div_two, zero_div, Real.sin_zero, mul_zero, mul_one, ndtr_zero] at a
  have ht := ndtr_tail (y := 2 * √k) (by positivity)
  rw [show (2 * √k) ^ 2 / 2 = 2 * k by rw [mul_pow, Real.sq_sqrt hk0.le]; ring] at ht
  have hn := ndtr_add_neg (2 * √k)
  have hE : Real.exp (-(2 * k)) ≤ 1 / 200 := by
    have := Real.pow_div_factorial_le_exp (2 * k) (by linarith) 2
    rw [Real.exp_neg, inv_le_comm₀ (Real.exp_pos _) (by norm_num)]
    refine le_trans ?_ this
    rw [show ((Nat.factorial 2 : ℕ) : ℝ) = 2 by norm_num [Nat.factorial]]
    norm_num
    nlinarith
  have hcl : 0.98 ≤ c := by linarith
  have hc2 : 0.96 ≤ c ^ 2 := by nlinarith
  have e : c ^ 2 * vmA k = 2 * k := by
    rw [hc, mul_pow, mul_pow, Real.sq_sqrt (by positivity), Real.sq_sqrt hk0.le, vmA]
    field_simp
  have hA := vmA_pos k
  nlinarith

/-! ### The correction -/

/-- The corrected argument is close to `z`. -/
theorem vmXi_close {k z : ℝ} (hk : 10.5 ≤ k) (hz : 0 ≤ z) (hw : z ^ 2 ≤ 4.2 * k) :
    0.963 * z ≤ vmXi z k ∧ vmXi z k ≤ z ∧ z - vmXi z k ≤ z ^ 3 / (10.89 * k ^ 2) := by
  have hk0 : 0 < k := by linarith
  have hw0 : 0 ≤ z ^ 2 := sq_nonneg z
  unfold vmXi
  rw [show z ^ 2 * z = z ^ 3 by ring]
  have hz3 : z ^ 3 = z * z ^ 2 := by ring
  generalize hW : z ^ 2 = w at *
  have hden : 0 < 24 * k - 56 - w + 3 := by linarith
  have hD : 3.3 * k ≤ (24 * k - 2 * w - 16) / 3 - (w ^ 2 + 7 / 4 * w + 167 / 2) / (24 * k - 56 - w + 3) := by
    rw [le_sub_iff_add_le, ← le_sub_iff_add_le', div_le_iff₀ hden]
    nlinarith [mul_nonneg hw0 (by linarith : (0:ℝ) ≤ 4.2 * k - w), mul_nonneg hk0.le (by linarith : (0:ℝ) ≤ 4.2 * k - w),
      mul_nonneg hk0.le (by linarith : (0:ℝ) ≤ k - 10.5)]
  generalize (24 * k - 2 * w - 16) / 3 - (w ^ 2 + 7 / 4 * w + 167 / 2) / (24 * k - 56 - w + 3) = D at hD
  have hD2 : 10.89 * k ^ 2 ≤ D ^ 2 := by nlinarith
  have hz30 : 0 ≤ z ^ 3 := by positivity
  have h3 : z ^ 3 / D ^ 2 ≤ z ^ 3 / (10.89 * k ^ 2) := div_le_div_of_nonneg_left hz30 (by positivity) hD2
  have h4 : z ^ 3 / (10.89 * k ^ 2) ≤ 0.037 * z := by
    rw [div_le_iff₀ (by positivity), hz3]
    have : w ≤ 0.037 * (10.89 * k ^ 2) := by nlinarith
    nlinarith [mul_le_mul_of_nonneg_left this hz]
  have h5 : 0 ≤ z ^ 3 / D ^ 2 := by positivity
  refine ⟨by linarith, by linarith, by linarith⟩

theorem cube_le_exp {z : ℝ} (hz : 0 ≤ z) : z ^ 3 ≤ 2 * Real.exp (0.46 * z ^ 2) := by
  have h := Real.sum_le_exp_of_nonneg (x := 0.46 * z ^ 2) (by positivity) 4
  simp only [Finset.sum_range_succ, Finset.sum_range_zero, Nat.factorial] at h
  norm_num at h
  have hw : 0 ≤ z ^ 2 := sq_nonneg z
  have h1 : z ^ 3 ≤ (z ^ 2 + (z ^ 2) ^ 2) / 2 := by nlinarith [mul_nonneg hz (sq_nonneg (z - 1)), sq_nonneg (z * (z - 1))]
  generalize z ^ 2 = w at *
  rw [show (0.46 : ℝ) * w = 23 / 50 * w by norm_num]
  generalize Real.exp (23 / 50 * w) = E at *
  nlinarith [mul_nonneg hw (sq_nonneg (w - 5)), sq_nonneg (w - 5)]

theorem ndtr_lip {a b : ℝ} (ha : 0 ≤ a) (hab : a ≤ b) :
    ndtr b - ndtr a ≤ (b - a) * (0.4 * Real.exp (-(a ^ 2 / 2))) ∧ ndtr a ≤ ndtr b := by
  set M := 0.4 * Real.exp (-(a ^ 2 / 2)) with hM
  have h25 : (√(2 * π))⁻¹ ≤ 0.4 := by
    rw [inv_le_comm₀ (by positivity) (by norm_num)]
    refine Real.le_sqrt_of_sq_le ?_
    have := Real.pi_gt_d2
    norm_num; linarith
  have hanti : AntitoneOn (fun y => ndtr y - M * y) (Icc a b) := by
    have hd : ∀ y, HasDerivAt (fun y => ndtr y - M * y) (ProbabilityTheory.gaussianPDFReal 0 1 y - M * 1) y :=
      fun y => (ndtr_deriv y).sub ((hasDerivAt_id y).const_mul M)
    refine antitoneOn_of_deriv_nonpos (convex_Icc _ _) (fun y _ => (hd y).continuousAt.continuousWithinAt)
        (fun y _ => (hd y).differentiableAt.differentiableWithinAt) ?_
    intro y hy
    rw [interior_Icc] at hy
    rw [(hd y).deriv, gauss_eq, hM, mul_one, sub_nonpos]
    refine mul_le_mul h25 (Real.exp_le_exp.mpr ?_) (Real.exp_pos _).le (by norm_num)
    have : a ^ 2 ≤ y ^ 2 := pow_le_pow_left₀ ha hy.1.le 2
    linarith
  have h := hanti ⟨le_rfl, hab⟩ ⟨hab, le_rfl⟩ hab
  simp only at h
  refine ⟨by linarith, ?_⟩
  have hmono : Monotone ndtr := by
    refine monotone_of_deriv_nonneg (fun y => (ndtr_deriv y).differentiableAt) fun y => ?_
    rw [(ndtr_deriv y).deriv]
    exact ProbabilityTheory.gaussianPDFReal_nonneg _ _ _
  exact hmono hab

theorem ndtr_xi_close {k z : ℝ} (hk : 10.5 ≤ k) (hz : 0 ≤ z) (hw : z ^ 2 ≤ 4.2 * k) :
    |ndtr (vmXi z k) - ndtr z| ≤ 0.0735 / k ^ 2 := by
  have hk0 : 0 < k := by linarith
  obtain ⟨h1, h2, h3⟩ := vmXi_close hk hz hw
  have h0 : 0 ≤ vmXi z k := by nlinarith
  obtain ⟨h4, h5⟩ := ndtr_lip h0 h2
  have h6 : Real.exp (-(vmXi z k ^ 2 / 2)) ≤ Real.exp (-(0.46 * z ^ 2)) := by
    refine Real.exp_le_exp.mpr ?_
    have : (0.963 * z) ^ 2 ≤ vmXi z k ^ 2 := pow_le_pow_left₀ (by positivity) h1 2
    nlinarith [sq_nonneg z]
  have h7 := cube_le_exp hz
  have h8 : z ^ 3 * Real.exp (-(0.46 * z ^ 2)) ≤ 2 := by
    rw [Real.exp_neg, ← div_eq_mul_inv, div_le_iff₀ (Real.exp_pos _)]; exact h7
  rw [abs_sub_comm, abs_of_nonneg (by linarith)]
  refine h4.trans ?_
  calc (z - vmXi z k) * (0.4 * Real.exp (-(vmXi z k ^ 2 / 2)))
      ≤ z ^ 3 / (10.89 * k ^ 2) * (0.4 * Real.exp (-(0.46 * z ^ 2))) :=
        mul_le_mul h3 (by linarith) (by positivity) (by positivity)
    _ = (z ^ 3 * Real.exp (-(0.46 * z ^ 2))) * (0.4 / (10.89 * k ^ 2)) := by ring
    _ ≤ 2 * (0.4 / (10.89 * k ^ 2)) := mul_le_mul_of_nonneg_right h8 (by positivity)
    _ ≤ 0.0735 / k ^ 2 := by
      rw [mul_div_assoc', div_le_div_iff₀ (by positivity) (by positivity)]
      nlinarith [sq_nonneg k]

/-! ### Accuracy of the normal recipe -/

/-- The normal recipe, used from concentration `10.5` on, is within `1/(4κ²)` of the CDF of the law, on the whole turn
(at the cutoff `1/(4κ²)` is about `0.0023`; the bound is not sharp, see DESIGN.md). -/
theorem C56_normal_accuracy {k : ℝ} (hk : 10.5 ≤ k) {x : ℝ} (h0 : -π ≤ x) (h1 : x ≤ π) :
    |VonMises.cdfNormal x k - ∫ t in (-π)..x, (VonMises.mk 0 k).prob t| ≤ 1 / (4 * k ^ 2) := by
  have hk0 : 0 < k := by linarith
  have hF : ∀ y, ∫ t in (-π)..y, (VonMises.mk 0 k).prob t = vmF k y := fun y => by
    rw [show (VonMises.mk 0 k).prob = vmPdf ⟨0, k⟩ from funext (vm_prob_eq _ hk0.le)]; rfl
  have pos : ∀ y, 0 ≤ y → y ≤ π → |VonMises.cdfNormal y k - vmF k y| ≤ 1 / (4 * k ^ 2) := by
    intro y hy0 hy1
    have hz : 0 ≤ vmZ k y := by
      have := i0e_pos k
      unfold vmZ
      exact mul_nonneg (by positivity) (Real.sin_nonneg_of_nonneg_of_le_pi (by linarith) (by linarith [Real.pi_pos]))
    have hw : vmZ k y ^ 2 ≤ 4.2 * k := by
      rw [vmZ_sq]
      have := vmA_upper hk
      have hA := vmA_pos k
      have hs : Real.sin (y / 2) ^ 2 ≤ 1 := Real.sin_sq_le_one _
      nlinarith [sq_nonneg (Real.sin (y / 2))]
    have e : VonMises.cdfNormal y k = ndtr (vmXi (vmZ k y) k) := by
      rw [cdfNormal_eq, vmZ, show (0.5 : ℝ) * y = y / 2 by ring]
    have a := abs_le.mp (ndtr_xi_close hk hz hw)
    have b := abs_le.mp (vmPhi_close hk hy0 hy1)
    have hs : 0.0735 / k ^ 2 + 0.147 / k ^ 2 ≤ 1 / (4 * k ^ 2) := by
      rw [← add_div, div_le_div_iff₀ (by positivity) (by positivity)]
      nlinarith [sq_nonneg k]
    rw [e, abs_le]
    constructor <;> linarith [a.1, a.2, b.1, b.2]
  rw [hF]
  rcases le_total 0 x with h | h
  · exact pos x h h1
  · have h2 := abs_le.mp (pos (-x) (by linarith) (by linarith))
    rw [vmF_neg] at h2
    have h3 := (C56_normal_recipe x k).1
    rw [abs_le]
    constructor <;> linarith [h2.1, h2.2]

example : (10.5 : ℝ) ≤ 12 ∧ -π ≤ 1 ∧ (1 : ℝ) ≤ π :=
  ⟨by norm_num, by linarith [Real.pi_pos], by linarith [Real.pi_gt_three]⟩

/-- `cdf` and `survival_function`, as the code computes them, are within `1/(2κ²)` of the CDF and the survival function
of the law on one turn, for every location, every value, and every concentration from the cutoff 10.5 on.  Together with
`C56_cdf_accuracy` (below the cutoff, within `2e-7`) every concentration is covered. -/
theorem C56_cdf_accuracy_large (d : VonMises) (hk : 10.5 ≤ d.concentration) (v : ℝ) :
    |d.cdf VonMises.cdfCore v - ∫ x in Spec.turn ∩ Iic v, d.prob x| ≤ 1 / (2 * d.concentration ^ 2) ∧
      |d.survival VonMises.cdfCore v - ∫ x in Spec.turn ∩ Ioi v, d.prob x| ≤ 1 / (2 * d.concentration ^ 2) := by
  let core' : ℝ → ℝ → ℝ := fun x k => vmF k x
  have hk0 : 0 < d.concentration := by linarith
  have hex : ExactCore core' d.concentration := fun _ _ _ => rfl
  have he := C40_cdf_exact d hk0.le core' hex
  have hcore : ∀ x, -π ≤ x → x ≤ π →
      |VonMises.cdfCore x d.concentration - core' x d.concentration| ≤ 1 / (4 * d.concentration ^ 2) := by
    intro x h1 h2
    have := C56_normal_accuracy hk h1 h2
    rw [show (VonMises.mk 0 d.concentration).prob = vmPdf ⟨0, d.concentration⟩ from funext (vm_prob_eq _ hk0.le)] at this
    unfold VonMises.cdfCore
    rw [if_neg (not_lt.mpr hk)]
    exact this
  have hw := cdfWith_close hcore
  have e2 : 1 / (2 * d.concentration ^ 2) = 1 / (4 * d.concentration ^ 2) + 1 / (4 * d.concentration ^ 2) := by
    field_simp; norm_num
  rw [← he.1 v, ← he.2 v, e2]
  generalize 1 / (4 * d.concentration ^ 2) = ε at hw ⊢
  constructor
  · refine (clip01_lipschitz _ _).trans ?_
    have a := abs_le.mp (hw (v - convertAngle d.loc))
    have b := abs_le.mp (hw (-π - convertAngle d.loc))
    rw [abs_le]
    constructor <;> linarith [a.1, a.2, b.1, b.2]
  · refine (clip01_lipschitz _ _).trans ?_
    have a := abs_le.mp (hw (v - convertAngle d.loc))
    have b := abs_le.mp (hw (π - convertAngle d.loc))
    rw [abs_le]
    constructor <;> linarith [a.1, a.2, b.1, b.2]

example : (10.5 : ℝ) ≤ (VonMises.mk 7 20).concentration := by norm_num

end Distrax
