import Verif.Props.VonMisesNormalAcc
import Verif.Props.VonMisesGradAcc

/-! # C56: accuracy of the concentration derivative of the normal recipe -/

namespace Distrax

open MeasureTheory Real Set Filter Topology

/-! ### Second-order bounds on the ratio of the Bessel functions -/

section Riccati
variable (c : ℝ)

/-- The approximation `1 - 1/(2k) - 1/(8k²) - c/k³` of the ratio. -/
noncomputable def vmL (k : ℝ) : ℝ := 1 - 1 / (2 * k) - (1 / 8) / k ^ 2 - c / k ^ 3

noncomputable def vmMu (k : ℝ) : ℝ := Real.exp (Real.log k / 2 + k + (1 / 8) / k + c / (2 * k ^ 2))

theorem vmL_deriv {k : ℝ} (hk : 0 < k) :
    HasDerivAt (vmL c) (1 / (2 * k ^ 2) + (1 / 4) / k ^ 3 + 3 * c / k ^ 4) k := by
  have h1 := (hasDerivAt_const k (1 : ℝ)).sub (((hasDerivAt_const k (1 : ℝ)).div ((hasDerivAt_id k).const_mul 2) (by simp [hk.ne'])))
  have h2 := (hasDerivAt_const k (1 / 8 : ℝ)).div ((hasDerivAt_id k).pow 2) (by simp [hk.ne'])
  have h3 := (hasDerivAt_const k c).div ((hasDerivAt_id k).pow 3) (by simp [hk.ne'])
  refine ((h1.sub h2).sub h3).congr_deriv ?_
  simp only [id, Pi.pow_apply]
  norm_num
  field_simp
  ring

theorem vmMu_deriv {k : ℝ} (hk : 0 < k) : HasDerivAt (vmMu c) (vmMu c k * (1 / k + vmL c k)) k := by
  have h := (((((Real.hasDerivAt_log hk.ne').div_const 2).add (hasDerivAt_id k)).add
    ((hasDerivAt_const k (1 / 8 : ℝ)).div (hasDerivAt_id k) hk.ne')).add
    ((hasDerivAt_const k c).div (((hasDerivAt_id k).pow 2).const_mul 2) (by simp [hk.ne']))).exp
  refine h.congr_deriv ?_
  show vmMu c k * _ = vmMu c k * _
  congr 1
  simp only [id, vmL, Pi.pow_apply]
  norm_num
  field_simp
  ring

theorem vmW_deriv {k : ℝ} (hk : 0 < k) : HasDerivAt (fun k => (vmG' π k - vmL c k * vmG π k) * vmMu c k)
    (vmMu c k * vmG π k * ((2 * c - 1 / 4) / k ^ 3 - (1 / 64 + 3 * c) / k ^ 4 - (c / 4) / k ^ 5 - c ^ 2 / k ^ 6)) k := by
  have h := ((vmG'_deriv_k k).sub ((vmL_deriv c hk).mul (vmG_deriv_k π k))).mul (vmMu_deriv c hk)
  refine h.congr_deriv ?_
  rw [vmJ_cos2 hk]
  simp only [Pi.sub_apply, Pi.mul_apply, vmL]
  field_simp
  ring

end Riccati

/-- The fraction `1 - I₁/I₀`. -/
noncomputable def vmQ (k : ℝ) : ℝ := 1 - vmG' π k / vmG π k

theorem vmQ_upper {k : ℝ} (hk : 2.5 ≤ k) : vmQ k ≤ 1 / (2 * k) + (1 / 8) / k ^ 2 + 0.5 / k ^ 3 := by
  have hmono : MonotoneOn (fun k => (vmG' π k - vmL 0.5 k * vmG π k) * vmMu 0.5 k) (Ici 2.5) := by
    refine monotoneOn_of_deriv_nonneg (convex_Ici _) (fun y hy => (vmW_deriv 0.5 (by
      have : (2.5 : ℝ) ≤ y := hy
      linarith)).continuousAt.continuousWithinAt) (fun y hy => (vmW_deriv 0.5 (by
      rw [interior_Ici] at hy
      have : (2.5 : ℝ) < y := hy
      linarith)).differentiableAt.differentiableWithinAt) ?_
    intro y hy
    rw [interior_Ici] at hy
    have hy' : (2.5 : ℝ) < y := hy
    have hy0 : 0 < y := by linarith
    rw [(vmW_deriv 0.5 hy0).deriv]
    refine mul_nonneg (mul_nonneg (Real.exp_pos _).le (vmG_pos y).le) ?_
    have e : (2 * 0.5 - 1 / 4) / y ^ 3 - (1 / 64 + 3 * 0.5) / y ^ 4 - (0.5 / 4) / y ^ 5 - 0.5 ^ 2 / y ^ 6
        = (0.75 * y ^ 3 - 1.515625 * y ^ 2 - 0.125 * y - 0.25) / y ^ 6 := by field_simp; ring
    rw [e]
    refine div_nonneg ?_ (by positivity)
    nlinarith [sq_nonneg y, mul_nonneg (sq_nonneg y) (by linarith : (0:ℝ) ≤ y - 2.5)]
  have h1 := hmono (mem_Ici.mpr le_rfl) (mem_Ici.mpr hk) hk
  have h0 : 0 ≤ (vmG' π 2.5 - vmL 0.5 2.5 * vmG π 2.5) * vmMu 0.5 2.5 := by
    refine mul_nonneg ?_ (Real.exp_pos _).le
    have := bessel_ratio_lower (k := 2.5) (by norm_num)
    have hG := vmG_pos 2.5
    simp only [vmL]
    norm_num at this ⊢
    linarith
  have h2 := nonneg_of_mul_nonneg_left (h0.trans h1) (Real.exp_pos _)
  have hG := vmG_pos k
  have h3 : vmL 0.5 k ≤ vmG' π k / vmG π k := by rw [le_div_iff₀ hG]; linarith
  unfold vmQ
  unfold vmL at h3
  linarith

theorem vmQ_lower {k : ℝ} (hk : 1.5 ≤ k) : 1 / (2 * k) + (1 / 8) / k ^ 2 - 0.47 / k ^ 3 ≤ vmQ k := by
  have hanti : AntitoneOn (fun k => (vmG' π k - vmL (-0.47) k * vmG π k) * vmMu (-0.47) k) (Ici 1.5) := by
    refine antitoneOn_of_deriv_nonpos (convex_Ici _) (fun y hy => (vmW_deriv (-0.47) (by
      have : (1.5 : ℝ) ≤ y := hy
      linarith)).continuousAt.continuousWithinAt) (fun y hy => (vmW_deriv (-0.47) (by
      rw [interior_Ici] at hy
      have : (1.5 : ℝ) < y := hy
      linarith)).differentiableAt.differentiableWithinAt) ?_
    intro y hy
    rw [interior_Ici] at hy
    have hy' : (1.5 : ℝ) < y := hy
    have hy0 : 0 < y := by linarith
    rw [(vmW_deriv (-0.47) hy0).deriv]
    refine mul_nonpos_of_nonneg_of_nonpos (mul_nonneg (Real.exp_pos _).le (vmG_pos y).le) ?_
    have e : (2 * (-0.47) - 1 / 4) / y ^ 3 - (1 / 64 + 3 * (-0.47)) / y ^ 4 - (-0.47 / 4) / y ^ 5 - (-0.47) ^ 2 / y ^ 6
        = (-1.19 * y ^ 3 + 1.394375 * y ^ 2 + 0.1175 * y - 0.2209) / y ^ 6 := by field_simp; ring
    rw [e]
    refine div_nonpos_of_nonpos_of_nonneg ?_ (by positivity)
    nlinarith [sq_nonneg y, mul_nonneg (sq_nonneg y) (by linarith : (0:ℝ) ≤ y - 1.5)]
  have h1 := hanti (mem_Ici.mpr le_rfl) (mem_Ici.mpr hk) hk
  have h0 : (vmG' π 1.5 - vmL (-0.47) 1.5 * vmG π 1.5) * vmMu (-0.47) 1.5 ≤ 0 := by
    refine mul_nonpos_of_nonpos_of_nonneg ?_ (Real.exp_pos _).le
    have h2 := vmJ_sin2 1.5
    have h4 := vmJ_sin4 1.5
    have hn := vmJ_nonneg 1.5 (f := fun x => Real.sin x ^ 4) fun x => by positivity
    have hG := vmG_pos 1.5
    simp only [vmL]
    norm_num at h2 h4 hn hG ⊢
    nlinarith
  have h2 : vmG' π k - vmL (-0.47) k * vmG π k ≤ 0 := by
    have := h1.trans h0
    by_contra hc
    push Not at hc
    have := mul_pos hc (Real.exp_pos (Real.log k / 2 + k + (1 / 8) / k + (-0.47) / (2 * k ^ 2)))
    unfold vmMu at *
    linarith
  have hG := vmG_pos k
  have h3 : vmG' π k / vmG π k ≤ vmL (-0.47) k := by rw [div_le_iff₀ hG]; linarith
  unfold vmQ
  unfold vmL at h3
  have e : -0.47 / k ^ 3 = -(0.47 / k ^ 3) := by ring
  rw [e] at h3
  linarith

/-! ### Moments of `sin²(x/2)` on the half turn -/

theorem half_moment (k : ℝ) (f : ℝ → ℝ) (hf : Continuous f) (he : ∀ x, f (-x) = f x) :
    ∫ t in (0 : ℝ)..π, vmPdf ⟨0, k⟩ t * f t = 1 / (2 * vmG π k) * vmJ f k := by
  have hG := vmG_pos k
  have hp := vmPdf_cont ⟨0, k⟩
  have hc : Continuous fun t => vmPdf ⟨0, k⟩ t * f t := by fun_prop
  have h1 := circle_even hc (fun x => by rw [vmPdf_even, he])
  have e1 : ∫ t in (-π)..π, vmPdf ⟨0, k⟩ t * f t = 1 / vmG π k * vmJ f k := by
    unfold vmJ
    rw [← intervalIntegral.integral_const_mul]
    refine intervalIntegral.integral_congr fun x _ => ?_
    rw [vmPdf_eq_G]
    field_simp
  have e2 : 1 / (2 * vmG π k) * vmJ f k = 1 / 2 * (1 / vmG π k * vmJ f k) := by field_simp
  rw [e2, ← e1, h1]
  ring

theorem sin_half_sq (x : ℝ) : Real.sin (x / 2) ^ 2 = (1 - Real.cos x) / 2 := by
  have : Real.cos x = 1 - 2 * Real.sin (x / 2) ^ 2 := by
    conv_lhs => rw [show x = 2 * (x / 2) by ring, Real.cos_two_mul]
    have := Real.sin_sq_add_cos_sq (x / 2)
    linarith
  linarith

theorem vmJ_sin2cos {k : ℝ} : k * vmJ (fun x => Real.sin x ^ 2 * Real.cos x) k = vmG π k - 2 * vmJ (fun x => Real.sin x ^ 2) k := by
  have h := circle_parts k (f := fun x => Real.sin x * Real.cos x) (f' := fun x => Real.cos x * Real.cos x + Real.sin x * (-Real.sin x))
    (fun x => (Real.hasDerivAt_sin x).mul (Real.hasDerivAt_cos x)) (by fun_prop) (by simp)
  have e : ∫ x in (-π)..π, Real.exp (k * Real.cos x) * (Real.cos x * Real.cos x + Real.sin x * (-Real.sin x) - k * Real.sin x * (Real.sin x * Real.cos x))
      = vmJ (fun x => 1 * (1 * 1 + (-2) * Real.sin x ^ 2) + (-k) * (Real.sin x ^ 2 * Real.cos x)) k := by
    unfold vmJ
    refine intervalIntegral.integral_congr fun x _ => ?_
    simp only
    have := Real.sin_sq_add_cos_sq x
    congr 1
    nlinarith
  rw [e, vmJ_lin k (by fun_prop) (by fun_prop), vmJ_lin k (by fun_prop) (by fun_prop), vmJ_one] at h
  linarith

theorem vmM_2 (k : ℝ) : ∫ t in (0 : ℝ)..π, vmPdf ⟨0, k⟩ t * Real.sin (t / 2) ^ 2 = vmQ k / 4 := by
  have hG := vmG_pos k
  rw [half_moment k _ (by fun_prop) (fun x => by rw [neg_div, Real.sin_neg]; ring)]
  have e : vmJ (fun x => Real.sin (x / 2) ^ 2) k = vmJ (fun x => (1 / 2) * 1 + (-1 / 2) * Real.cos x) k := by
    unfold vmJ
    refine intervalIntegral.integral_congr fun x _ => ?_
    simp only
    rw [sin_half_sq]
    ring
  rw [e, vmJ_lin k (by fun_prop) (by fun_prop), vmJ_one, vmJ_cos]
  unfold vmQ
  field_simp
  ring

theorem vmM_4 {k : ℝ} (hk : 0 < k) :
    ∫ t in (0 : ℝ)..π, vmPdf ⟨0, k⟩ t * Real.sin (t / 2) ^ 4 = (2 * vmQ k - (1 - vmQ k) / k) / 8 := by
  have hG := vmG_pos k
  rw [half_moment k _ (by fun_prop) (fun x => by rw [neg_div, Real.sin_neg]; ring)]
  have e : vmJ (fun x => Real.sin (x / 2) ^ 4) k
      = vmJ (fun x => 1 * ((1 / 2) * 1 + (-1 / 2) * Real.cos x) + (-1 / 4) * Real.sin x ^ 2) k := by
    unfold vmJ
    refine intervalIntegral.integral_congr fun x _ => ?_
    simp only
    rw [show Real.sin (x / 2) ^ 4 = (Real.sin (x / 2) ^ 2) ^ 2 by ring, sin_half_sq, Real.sin_sq x]
    ring
  have h2 : vmJ (fun x => Real.sin x ^ 2) k = vmG' π k / k := by rw [← vmJ_sin2 k]; field_simp
  rw [e, vmJ_lin k (by fun_prop) (by fun_prop), vmJ_lin k (by fun_prop) (by fun_prop), vmJ_one, vmJ_cos, h2]
  unfold vmQ
  field_simp
  ring

theorem vmM_6 {k : ℝ} (hk : 0 < k) :
    ∫ t in (0 : ℝ)..π, vmPdf ⟨0, k⟩ t * Real.sin (t / 2) ^ 6
      = (4 * vmQ k - 2 / k + 3 * vmQ k / k - 2 / k ^ 2 + 2 * vmQ k / k ^ 2) / 16 := by
  have hG := vmG_pos k
  rw [half_moment k _ (by fun_prop) (fun x => by rw [neg_div, Real.sin_neg]; ring)]
  have e : vmJ (fun x => Real.sin (x / 2) ^ 6) k
      = vmJ (fun x => 1 * (1 * ((1 / 2) * 1 + (-1 / 2) * Real.cos x) + (-3 / 8) * Real.sin x ^ 2)
        + (1 / 8) * (Real.sin x ^ 2 * Real.cos x)) k := by
    unfold vmJ
    refine intervalIntegral.integral_congr fun x _ => ?_
    simp only
    rw [show Real.sin (x / 2) ^ 6 = (Real.sin (x / 2) ^ 2) ^ 3 by ring, sin_half_sq, Real.sin_sq x]
    ring
  have h2 : vmJ (fun x => Real.sin x ^ 2) k = vmG' π k / k := by rw [← vmJ_sin2 k]; field_simp
  have h3 : vmJ (fun x => Real.sin x ^ 2 * Real.cos x) k = (vmG π k - 2 * (vmG' π k / k)) / k := by
    rw [← h2, ← vmJ_sin2cos]; field_simp
  rw [e, vmJ_lin k (by fun_prop) (by fun_prop), vmJ_lin k (by fun_prop) (by fun_prop),
    vmJ_lin k (by fun_prop) (by fun_prop), vmJ_one, vmJ_cos, h2, h3]
  unfold vmQ
  field_simp
  ring

/-- The moments in units of `1/k`. -/
theorem vm_bounds {k : ℝ} (hk : 10.5 ≤ k) : ∃ t η : ℝ, t = 1 / k ∧ 0 < t ∧ t ≤ 2 / 21 ∧ -0.47 ≤ η ∧ η ≤ 0.5 ∧
    vmQ k = t / 2 + t ^ 2 / 8 + η * t ^ 3 := by
  have hk0 : 0 < k := by linarith
  have h1 := vmQ_upper (k := k) (by linarith)
  have h2 := vmQ_lower (k := k) (by linarith)
  refine ⟨1 / k, (vmQ k - 1 / k / 2 - (1 / k) ^ 2 / 8) * k ^ 3, rfl, by positivity, ?_, ?_, ?_, ?_⟩
  · rw [div_le_div_iff₀ hk0 (by norm_num)]; linarith
  · have e : 1 / (2 * k) + (1 / 8) / k ^ 2 - 0.47 / k ^ 3 = 1 / k / 2 + (1 / k) ^ 2 / 8 - 0.47 / k ^ 3 := by field_simp
    rw [e] at h2
    have h3 : -(0.47 / k ^ 3) ≤ vmQ k - 1 / k / 2 - (1 / k) ^ 2 / 8 := by linarith
    have := mul_le_mul_of_nonneg_right h3 (by positivity : 0 ≤ k ^ 3)
    refine le_trans (le_of_eq ?_) this
    field_simp
  · have e : 1 / (2 * k) + (1 / 8) / k ^ 2 + 0.5 / k ^ 3 = 1 / k / 2 + (1 / k) ^ 2 / 8 + 0.5 / k ^ 3 := by field_simp
    rw [e] at h1
    have h3 : vmQ k - 1 / k / 2 - (1 / k) ^ 2 / 8 ≤ 0.5 / k ^ 3 := by linarith
    have := mul_le_mul_of_nonneg_right h3 (by positivity : 0 ≤ k ^ 3)
    refine this.trans (le_of_eq ?_)
    field_simp
  · field_simp
    ring

theorem vm_moments {k t η : ℝ} (hk : 10.5 ≤ k) (ht : t = 1 / k) (h0 : 0 < t) (h1 : t ≤ 2 / 21) (he0 : -0.47 ≤ η) (he1 : η ≤ 0.5)
    (hq : vmQ k = t / 2 + t ^ 2 / 8 + η * t ^ 3) :
    t / 2 ≤ vmQ k ∧ vmQ k ≤ 0.5165 * t ∧
    ∫ s in (0 : ℝ)..π, vmPdf ⟨0, k⟩ s * Real.sin (s / 2) ^ 4 ≤ 0.1078 * t ^ 2 ∧
    ∫ s in (0 : ℝ)..π, vmPdf ⟨0, k⟩ s * Real.sin (s / 2) ^ 6 ≤ 0.2221 * t ^ 3 := by
  have hk0 : 0 < k := by linarith
  have ht2 : 0 ≤ t ^ 2 := by positivity
  have ht3 : 0 ≤ t ^ 3 := by positivity
  have ht32 : t ^ 3 ≤ 2 / 21 * t ^ 2 := by nlinarith
  have ht43 : t ^ 4 ≤ 2 / 21 * t ^ 3 := by nlinarith
  have ht54 : t ^ 5 ≤ 2 / 21 * t ^ 4 := by nlinarith
  have ht21 : t ^ 2 ≤ 2 / 21 * t := by nlinarith
  have a1 : η * t ^ 3 ≤ 0.5 * t ^ 3 := mul_le_mul_of_nonneg_right he1 ht3
  have a2 : -0.47 * t ^ 3 ≤ η * t ^ 3 := mul_le_mul_of_nonneg_right he0 ht3
  have a3 : η * t ^ 4 ≤ 0.5 * t ^ 4 := mul_le_mul_of_nonneg_right he1 (by positivity)
  have a4 : η * t ^ 5 ≤ 0.5 * t ^ 5 := mul_le_mul_of_nonneg_right he1 (by positivity)
  refine ⟨?_, ?_, ?_, ?_⟩
  · rw [hq]; nlinarith
  · rw [hq]; nlinarith
  · rw [vmM_4 hk0]
    have e : (2 * vmQ k - (1 - vmQ k) / k) / 8 = (2 * vmQ k - (1 - vmQ k) * t) / 8 := by rw [ht]; ring
    rw [e, hq]
    nlinarith
  · rw [vmM_6 hk0]
    have e : (4 * vmQ k - 2 / k + 3 * vmQ k / k - 2 / k ^ 2 + 2 * vmQ k / k ^ 2) / 16
        = (4 * vmQ k - 2 * t + 3 * vmQ k * t - 2 * t ^ 2 + 2 * vmQ k * t ^ 2) / 16 := by rw [ht]; field_simp
    rw [e, hq]
    nlinarith

/-! ### The ratio of the recipe's density to the exact one -/

/-- The distance of the squared scale from `2k - 1/2`. -/
noncomputable def vmE (k : ℝ) : ℝ := 2 * k - 1 / 2 - vmA k

noncomputable def vmR (k y : ℝ) : ℝ :=
  Real.cos (y / 2) * Real.exp (Real.sin (y / 2) ^ 2 / 2) * Real.exp (vmE k * Real.sin (y / 2) ^ 2)

theorem vmR_cont (k : ℝ) : Continuous (vmR k) := by unfold vmR; fun_prop

theorem vmR_eq {k : ℝ} (hk : 0 ≤ k) (y : ℝ) :
    Real.cos (y / 2) * Real.exp (-(vmA k * Real.sin (y / 2) ^ 2)) / (2 * π * i0e k) = vmPdf ⟨0, k⟩ y * vmR k y := by
  rw [vmPdf_half k y hk]
  have : Real.cos (y / 2) * Real.exp (-(vmA k * Real.sin (y / 2) ^ 2))
      = vmR k y * Real.exp (-(2 * k * Real.sin (y / 2) ^ 2)) := by
    unfold vmR vmE
    rw [mul_assoc, mul_assoc, ← Real.exp_add, ← Real.exp_add]
    congr 2; ring
  rw [this]
  ring

theorem exp_neg_le {y : ℝ} (hy : 0 ≤ y) : Real.exp (-y) ≤ 1 - y + y ^ 2 / 2 := by
  have h := Real.quadratic_le_exp_of_nonneg hy
  have h1 : 0 < 1 + y + y ^ 2 / 2 := by positivity
  rw [Real.exp_neg, inv_le_comm₀ (Real.exp_pos _) (by nlinarith [sq_nonneg (y - 1)])]
  refine le_trans ?_ h
  rw [inv_le_comm₀ (by nlinarith [sq_nonneg (y - 1)]) h1, inv_le_iff_one_le_mul₀ h1]
  nlinarith [sq_nonneg (y ^ 2)]

theorem vmR_nonneg_part {y : ℝ} (h0 : 0 ≤ y) (h1 : y ≤ π) : 0 ≤ Real.cos (y / 2) * Real.exp (Real.sin (y / 2) ^ 2 / 2) :=
  mul_nonneg (Real.cos_nonneg_of_neg_pi_div_two_le_of_le (by linarith [Real.pi_pos]) (by linarith)) (Real.exp_pos _).le

theorem vmR_lower {k y : ℝ} (h0 : 0 ≤ y) (h1 : y ≤ π) (he : -1 ≤ vmE k) :
    vmE k * Real.sin (y / 2) ^ 2 - Real.sin (y / 2) ^ 4 - vmE k * Real.sin (y / 2) ^ 6 ≤ vmR k y - 1 := by
  have hb := (cos_exp_bounds y h0 h1).1
  have hx := Real.add_one_le_exp (vmE k * Real.sin (y / 2) ^ 2)
  have hn := vmR_nonneg_part h0 h1
  have hs0 := sq_nonneg (Real.sin (y / 2))
  have hs1 := Real.sin_sq_le_one (y / 2)
  unfold vmR
  have h4 : Real.sin (y / 2) ^ 4 = (Real.sin (y / 2) ^ 2) ^ 2 := by ring
  have h6 : Real.sin (y / 2) ^ 6 = (Real.sin (y / 2) ^ 2) ^ 3 := by ring
  rw [h4] at hb ⊢
  rw [h6]
  generalize Real.sin (y / 2) ^ 2 = u at *
  generalize Real.cos (y / 2) * Real.exp (u / 2) = v at *
  have hp : 0 ≤ vmE k * u + 1 := by nlinarith
  calc _ = (1 - u ^ 2) * (vmE k * u + 1) - 1 := by ring
    _ ≤ v * (vmE k * u + 1) - 1 := by linarith [mul_le_mul_of_nonneg_right hb hp]
    _ ≤ _ := by linarith [mul_le_mul_of_nonneg_left hx hn]

theorem vmR_upper {k y : ℝ} (h0 : 0 ≤ y) (h1 : y ≤ π) (he : vmE k ≤ 0) :
    vmR k y - 1 ≤ vmE k * Real.sin (y / 2) ^ 2 + vmE k ^ 2 / 2 * Real.sin (y / 2) ^ 4 := by
  have hb := (cos_exp_bounds y h0 h1).2
  have hs0 := sq_nonneg (Real.sin (y / 2))
  have hx := exp_neg_le (y := -(vmE k) * Real.sin (y / 2) ^ 2) (by nlinarith)
  rw [show -(-vmE k * Real.sin (y / 2) ^ 2) = vmE k * Real.sin (y / 2) ^ 2 by ring] at hx
  unfold vmR
  have := mul_le_mul_of_nonneg_right hb (Real.exp_pos (vmE k * Real.sin (y / 2) ^ 2)).le
  nlinarith

/-- The total mass of the two densities on the half turn differs by the tail of the normal law. -/
theorem vmR_mass {k : ℝ} (hk : 0 ≤ k) : ∫ y in (0 : ℝ)..π, vmPdf ⟨0, k⟩ y * (vmR k y - 1) = -ndtr (-vmZ k π) := by
  have hd : ∀ x, HasDerivAt (fun x => ndtr (vmZ k x) - vmF k x) (vmPdf ⟨0, k⟩ x * (vmR k x - 1)) x := fun x => by
    refine ((vmPhi_deriv k x).sub (vmF_deriv k x)).congr_deriv ?_
    rw [vmR_eq hk]; ring
  have hc : Continuous fun y => vmPdf ⟨0, k⟩ y * (vmR k y - 1) :=
    (vmPdf_cont _).mul ((vmR_cont k).sub continuous_const)
  rw [intervalIntegral.integral_eq_sub_of_hasDerivAt (fun x _ => hd x) (hc.intervalIntegrable _ _)]
  have s0 : ndtr (vmZ k 0) - vmF k 0 = 0 := by
    rw [vmF_zero]; unfold vmZ; simp [ndtr_zero]
  have sπ : ndtr (vmZ k π) - vmF k π = -ndtr (-vmZ k π) := by
    rw [vmF_top]; have := ndtr_add_neg (vmZ k π); linarith
  rw [s0, sπ, sub_zero]

theorem int_pdf_mono {k : ℝ} {f g : ℝ → ℝ} (hf : Continuous f) (hg : Continuous g)
    (h : ∀ y, 0 ≤ y → y ≤ π → f y ≤ g y) :
    ∫ y in (0 : ℝ)..π, vmPdf ⟨0, k⟩ y * f y ≤ ∫ y in (0 : ℝ)..π, vmPdf ⟨0, k⟩ y * g y :=
  intervalIntegral.integral_mono_on Real.pi_pos.le (((vmPdf_cont _).mul hf).intervalIntegrable _ _)
    (((vmPdf_cont _).mul hg).intervalIntegrable _ _) fun y hy =>
      mul_le_mul_of_nonneg_left (h y hy.1 hy.2) (vmPdf_pos _ _).le

theorem int_pdf_lin (k a b c : ℝ) :
    ∫ y in (0 : ℝ)..π, vmPdf ⟨0, k⟩ y * (a * Real.sin (y / 2) ^ 2 + b * Real.sin (y / 2) ^ 4 + c * Real.sin (y / 2) ^ 6)
      = a * (∫ y in (0 : ℝ)..π, vmPdf ⟨0, k⟩ y * Real.sin (y / 2) ^ 2)
        + b * (∫ y in (0 : ℝ)..π, vmPdf ⟨0, k⟩ y * Real.sin (y / 2) ^ 4)
        + c * (∫ y in (0 : ℝ)..π, vmPdf ⟨0, k⟩ y * Real.sin (y / 2) ^ 6) := by
  have hp := vmPdf_cont ⟨0, k⟩
  have i : ∀ n : ℕ, IntervalIntegrable (fun y => vmPdf ⟨0, k⟩ y * Real.sin (y / 2) ^ n) volume 0 π := fun n =>
    Continuous.intervalIntegrable (by fun_prop) _ _
  rw [← intervalIntegral.integral_const_mul, ← intervalIntegral.integral_const_mul, ← intervalIntegral.integral_const_mul,
    ← intervalIntegral.integral_add ((i 2).const_mul a) ((i 4).const_mul b),
    ← intervalIntegral.integral_add (((i 2).const_mul a).add ((i 4).const_mul b)) ((i 6).const_mul c)]
  refine intervalIntegral.integral_congr fun y _ => ?_
  ring

theorem vmE_bounds {k t η : ℝ} (hk : 10.5 ≤ k) (ht : t = 1 / k) (h0 : 0 < t) (h1 : t ≤ 2 / 21) (he0 : -0.47 ≤ η) (he1 : η ≤ 0.5)
    (hq : vmQ k = t / 2 + t ^ 2 / 8 + η * t ^ 3) : -0.04 * t ≤ vmE k ∧ vmE k ≤ 0.95 * t := by
  have hk0 : 0 < k := by linarith
  obtain ⟨q1, q2, m4, m6⟩ := vm_moments hk ht h0 h1 he0 he1 hq
  have m2 := vmM_2 k
  have hmass := vmR_mass hk0.le
  have htail := ndtr_pos (-vmZ k π)
  have hm4 : 0 ≤ ∫ s in (0 : ℝ)..π, vmPdf ⟨0, k⟩ s * Real.sin (s / 2) ^ 4 :=
    intervalIntegral.integral_nonneg Real.pi_pos.le fun s _ => mul_nonneg (vmPdf_pos _ _).le (by positivity)
  have hRc : Continuous fun y => vmR k y - 1 := (vmR_cont k).sub continuous_const
  constructor
  · by_contra hc
    push Not at hc
    have hneg : vmE k ≤ 0 := by nlinarith
    have hA := vmA_upper hk
    have hA' : 2 * k - 1 / 2 ≤ vmA k := by unfold vmE at hneg; linarith
    have hup := int_pdf_mono (k := k) hRc (g := fun y => vmE k * Real.sin (y / 2) ^ 2 + vmE k ^ 2 / 2 * Real.sin (y / 2) ^ 4
      + 0 * Real.sin (y / 2) ^ 6) (by fun_prop) fun y a b => by linarith [vmR_upper a b hneg]
    rw [int_pdf_lin, hmass, m2] at hup
    have hz : 0 ≤ vmZ k π := by
      have := i0e_pos k
      unfold vmZ
      exact mul_nonneg (by positivity) (Real.sin_nonneg_of_nonneg_of_le_pi (by linarith [Real.pi_pos]) (by linarith [Real.pi_pos]))
    have htl := ndtr_tail hz
    rw [vmZ_sq, Real.sin_pi_div_two, show 2 * vmA k * 1 ^ 2 / 2 = vmA k by ring] at htl
    -- the tail is negligible
    have hA1 : 1.95 * k ≤ vmA k := by linarith
    have h6 := Real.pow_div_factorial_le_exp (vmA k) (vmA_pos k).le 5
    rw [show ((Nat.factorial 5 : ℕ) : ℝ) = 120 by norm_num [Nat.factorial]] at h6
    have h8 : 0.234 * k ^ 5 ≤ Real.exp (vmA k) := by
      refine le_trans ?_ h6
      rw [le_div_iff₀ (by norm_num)]
      refine le_trans ?_ (pow_le_pow_left₀ (by positivity) hA1 5)
      have : 0 ≤ k ^ 5 := by positivity
      nlinarith
    have hexp : Real.exp (-vmA k) ≤ 0.004 * t ^ 2 := by
      rw [Real.exp_neg, inv_le_comm₀ (Real.exp_pos _) (by positivity)]
      refine le_trans ?_ h8
      have : k ^ 5 = k ^ 2 * k ^ 3 := by ring
      have h3 : (10.5 : ℝ) ^ 3 ≤ k ^ 3 := pow_le_pow_left₀ (by norm_num) hk 3
      have e : (0.004 * t ^ 2)⁻¹ = 250 * k ^ 2 := by rw [ht]; field_simp; norm_num
      rw [e, this]
      have hk2 : 0 ≤ k ^ 2 := by positivity
      have h4 : 1157 * k ^ 2 ≤ k ^ 2 * k ^ 3 := by nlinarith
      linarith
    have hel : -(0.1 * k + 0.5) ≤ vmE k := by unfold vmE; linarith
    have hkt : k * t = 1 := by rw [ht]; field_simp
    generalize vmE k = e at *
    generalize (∫ s in (0 : ℝ)..π, vmPdf ⟨0, k⟩ s * Real.sin (s / 2) ^ 4) = M at *
    generalize vmQ k = q at *
    -- `e (q/4 + e M / 2) ≥ - exp(-A)`
    have h9 : -e * M ≤ (0.1 * k + 0.5) * (0.1078 * t ^ 2) :=
      mul_le_mul (by linarith) m4 hm4 (by positivity)
    have h10 : (0.1 * k + 0.5) * (0.1078 * t ^ 2) ≤ 0.017 * t := by
      have : k * t ^ 2 = t := by rw [sq, ← mul_assoc, hkt, one_mul]
      nlinarith
    have h11 : 0.1165 * t ≤ q / 4 + e / 2 * M := by nlinarith
    have h12 : (-e) * (0.1165 * t) ≤ (-e) * (q / 4 + e / 2 * M) := mul_le_mul_of_nonneg_left h11 (by linarith)
    have h13 : (0.04 * t) * (0.1165 * t) ≤ (-e) * (0.1165 * t) := mul_le_mul_of_nonneg_right (by linarith) (by positivity)
    nlinarith
  · by_contra hc
    push Not at hc
    have hpos : 0 ≤ vmE k := by nlinarith
    have hlo := int_pdf_mono (k := k) (f := fun y => vmE k * Real.sin (y / 2) ^ 2 + (-1) * Real.sin (y / 2) ^ 4
      + (-vmE k) * Real.sin (y / 2) ^ 6) (by fun_prop) hRc fun y a b => by linarith [vmR_lower a b (by linarith)]
    rw [int_pdf_lin, hmass, m2] at hlo
    generalize vmE k = e at *
    generalize (∫ s in (0 : ℝ)..π, vmPdf ⟨0, k⟩ s * Real.sin (s / 2) ^ 4) = M at *
    generalize (∫ s in (0 : ℝ)..π, vmPdf ⟨0, k⟩ s * Real.sin (s / 2) ^ 6) = M6 at *
    generalize vmQ k = q at *
    have h2 : e * (q / 4 - M6) ≤ M := by linarith
    have h3 : 0.122 * t ≤ q / 4 - M6 := by
      have h5 : t * t ≤ 2 / 21 * (2 / 21) := mul_le_mul h1 h1 h0.le (by norm_num)
      have h6 : t ^ 3 ≤ 2 / 21 * (2 / 21) * t := by
        calc t ^ 3 = t * t * t := by ring
          _ ≤ _ := mul_le_mul_of_nonneg_right h5 h0.le
      norm_num at h6
      linarith
    have h4 : (0.95 * t) * (0.122 * t) ≤ e * (q / 4 - M6) := mul_le_mul hc.le h3 (by positivity) hpos
    have h7 : 0.95 * t * (0.122 * t) = 0.1159 * t ^ 2 := by ring
    have h8 : 0 < t ^ 2 := by positivity
    rw [h7] at h4
    linarith

theorem vmR_abs {k y : ℝ} (h0 : 0 ≤ y) (h1 : y ≤ π) (he : |vmE k| ≤ 0.0905) :
    |vmR k y - 1| ≤ Real.sin (y / 2) ^ 4 + 1.1 * |vmE k| * Real.sin (y / 2) ^ 2 := by
  obtain ⟨hb1, hb2⟩ := cos_exp_bounds y h0 h1
  have hn := vmR_nonneg_part h0 h1
  have hs0 := sq_nonneg (Real.sin (y / 2))
  have hs1 := Real.sin_sq_le_one (y / 2)
  unfold vmR
  have h4 : Real.sin (y / 2) ^ 4 = (Real.sin (y / 2) ^ 2) ^ 2 := by ring
  rw [h4] at hb1 ⊢
  generalize Real.sin (y / 2) ^ 2 = u at *
  generalize Real.cos (y / 2) * Real.exp (u / 2) = v at *
  have ha : |vmE k * u| = |vmE k| * u := by rw [abs_mul, abs_of_nonneg hs0]
  have hau : |vmE k| * u ≤ 0.0905 := by nlinarith [abs_nonneg (vmE k)]
  have hx := Real.abs_exp_sub_one_sub_id_le (x := vmE k * u) (by rw [ha]; linarith)
  have hx2 : (vmE k * u) ^ 2 ≤ 0.0905 * (|vmE k| * u) := by
    rw [← sq_abs, ha, sq]
    exact mul_le_mul_of_nonneg_right hau (by positivity)
  have hlow := Real.add_one_le_exp (vmE k * u)
  have h5 := abs_le.mp (le_of_eq ha)
  have h6 := abs_le.mp hx
  have hE := Real.exp_pos (vmE k * u)
  generalize Real.exp (vmE k * u) = X at *
  generalize vmE k * u = p at *
  have ha0 : 0 ≤ |vmE k| * u := by positivity
  rw [show 1.1 * |vmE k| * u = 1.1 * (|vmE k| * u) by ring]
  generalize |vmE k| * u = a at *
  rw [abs_le]
  constructor
  · have : (1 - u ^ 2) * X ≤ v * X := mul_le_mul_of_nonneg_right hb1 hE.le
    have h7 : 0 ≤ 1 - u ^ 2 := by nlinarith
    have h8 : (1 - u ^ 2) * (1 - a) ≤ (1 - u ^ 2) * X := mul_le_mul_of_nonneg_left (by linarith) h7
    nlinarith [mul_nonneg ha0 (sq_nonneg u)]
  · have : v * X ≤ 1 * X := mul_le_mul_of_nonneg_right hb2 hE.le
    nlinarith [sq_nonneg u]

/-- `1 - q A`, the relative error of the derivative of the squared scale. -/
theorem vmDelta_bounds {k t η : ℝ} (hk : 10.5 ≤ k) (ht : t = 1 / k) (h0 : 0 < t) (h1 : t ≤ 2 / 21) (he0 : -0.47 ≤ η) (he1 : η ≤ 0.5)
    (hq : vmQ k = t / 2 + t ^ 2 / 8 + η * t ^ 3) : |1 - vmQ k * vmA k| ≤ 1.55 * t ^ 2 ∧ vmQ k * vmA k ≤ 1.009 := by
  have hk0 : 0 < k := by linarith
  obtain ⟨q1, q2, -, -⟩ := vm_moments hk ht h0 h1 he0 he1 hq
  obtain ⟨e0, e1⟩ := vmE_bounds hk ht h0 h1 he0 he1 hq
  have hkt : k * t = 1 := by rw [ht]; field_simp
  have hA : vmA k = 2 * k - 1 / 2 - vmE k := by unfold vmE; ring
  have hd : 1 - vmQ k * vmA k = -(2 * η - 1 / 16) * t ^ 2 + η * t ^ 3 / 2 + vmE k * vmQ k := by
    have : vmQ k * vmA k = 2 * k * vmQ k - vmQ k / 2 - vmE k * vmQ k := by rw [hA]; ring
    rw [this]
    have h2 : 2 * k * vmQ k = 1 + t / 4 + 2 * η * t ^ 2 := by
      rw [hq]
      calc _ = (k * t) * (1 + t / 4 + 2 * η * t ^ 2) := by ring
        _ = _ := by rw [hkt, one_mul]
    rw [h2]
    rw [show vmQ k / 2 = t / 4 + t ^ 2 / 16 + η * t ^ 3 / 2 by rw [hq]; ring]
    ring
  have hq0 : 0 ≤ vmQ k := by linarith
  have h3 : vmE k * vmQ k ≤ 0.4907 * t ^ 2 := by
    calc vmE k * vmQ k ≤ 0.95 * t * vmQ k := mul_le_mul_of_nonneg_right e1 hq0
      _ ≤ 0.95 * t * (0.5165 * t) := mul_le_mul_of_nonneg_left q2 (by positivity)
      _ ≤ _ := by nlinarith [sq_nonneg t]
  have h4 : -(0.0207 * t ^ 2) ≤ vmE k * vmQ k := by
    have : (-0.04 * t) * vmQ k ≤ vmE k * vmQ k := mul_le_mul_of_nonneg_right e0 hq0
    have h5 : (0.04 * t) * vmQ k ≤ 0.04 * t * (0.5165 * t) := mul_le_mul_of_nonneg_left q2 (by positivity)
    nlinarith [sq_nonneg t]
  have h5 : t ^ 2 ≤ 0.00908 := by nlinarith
  have h6 : t ^ 3 ≤ 0.0953 * t ^ 2 := by nlinarith [sq_nonneg t]
  have h7 : 0 ≤ t ^ 3 := by positivity
  have h8 : 0 ≤ t ^ 2 := by positivity
  have h9 : η * t ^ 3 ≤ 0.5 * t ^ 3 := mul_le_mul_of_nonneg_right he1 h7
  have h10 : -0.47 * t ^ 3 ≤ η * t ^ 3 := mul_le_mul_of_nonneg_right he0 h7
  have h11 : η * t ^ 2 ≤ 0.5 * t ^ 2 := mul_le_mul_of_nonneg_right he1 h8
  have h12 : -0.47 * t ^ 2 ≤ η * t ^ 2 := mul_le_mul_of_nonneg_right he0 h8
  refine ⟨?_, by linarith⟩
  rw [hd, abs_le]
  constructor <;> linarith

theorem gauss_deriv (z : ℝ) : HasDerivAt (ProbabilityTheory.gaussianPDFReal 0 1)
    (-z * ProbabilityTheory.gaussianPDFReal 0 1 z) z := by
  have h : HasDerivAt (fun z : ℝ => (√(2 * π))⁻¹ * Real.exp (-(z ^ 2 / 2))) ((√(2 * π))⁻¹ * (Real.exp (-(z ^ 2 / 2)) * -(2 * z / 2))) z := by
    have h2 : HasDerivAt (fun z : ℝ => -(z ^ 2 / 2)) (-(2 * z / 2)) z := by
      exact (((hasDerivAt_pow 2 z).div_const 2).neg).congr_deriv (by norm_num)
    exact h2.exp.const_mul _
  rw [funext gauss_eq]
  refine h.congr_deriv ?_
  ring

set_option maxHeartbeats 1000000 in
/-- The `k`-derivative of the uncorrected normal recipe, against the `k`-derivative of the CDF. -/
theorem vmU_close {k t η : ℝ} (hk : 10.5 ≤ k) (ht : t = 1 / k) (h0 : 0 < t) (h1 : t ≤ 2 / 21) (he0 : -0.47 ≤ η) (he1 : η ≤ 0.5)
    (hq : vmQ k = t / 2 + t ^ 2 / 8 + η * t ^ 3) {x : ℝ} (hx0 : 0 ≤ x) (hx1 : x ≤ π) :
    |ProbabilityTheory.gaussianPDFReal 0 1 (vmZ k x) * (vmQ k * vmZ k x) - vmF' k x| ≤ 1.21 * t ^ 3 := by
  have hk0 : 0 < k := by linarith
  obtain ⟨q1, q2, m4, m6⟩ := vm_moments hk ht h0 h1 he0 he1 hq
  obtain ⟨e0, e1⟩ := vmE_bounds hk ht h0 h1 he0 he1 hq
  obtain ⟨d1, d2⟩ := vmDelta_bounds hk ht h0 h1 he0 he1 hq
  have m2 := vmM_2 k
  have hA0 := vmA_pos k
  have hq0 : 0 ≤ vmQ k := by linarith
  have heabs : |vmE k| ≤ 0.95 * t := by rw [abs_le]; constructor <;> linarith
  have hd : ∀ y, HasDerivAt (fun y => ProbabilityTheory.gaussianPDFReal 0 1 (vmZ k y) * (vmQ k * vmZ k y) - vmF' k y)
      (vmPdf ⟨0, k⟩ y * (vmQ k * (vmR k y - 1) * (1 - 2 * vmA k * Real.sin (y / 2) ^ 2)
        + 2 * Real.sin (y / 2) ^ 2 * (1 - vmQ k * vmA k))) y := by
    intro y
    have hz := vmZ_deriv k y
    have hphi : ProbabilityTheory.gaussianPDFReal 0 1 (vmZ k y) * (√(2 / π) / i0e k * (Real.cos (y / 2) * (1 / 2)))
        = vmPdf ⟨0, k⟩ y * vmR k y := by
      rw [← vmR_eq hk0.le]
      exact ((ndtr_deriv (vmZ k y)).comp y hz).unique (vmPhi_deriv k y)
    have h2 := (((gauss_deriv (vmZ k y)).comp y hz).mul (hz.const_mul (vmQ k))).sub (vmF'_deriv_x k y)
    refine h2.congr_deriv ?_
    have e1 : vmG' π k / vmG π k = 1 - vmQ k := by unfold vmQ; ring
    have e2 : Real.cos y = 1 - 2 * Real.sin (y / 2) ^ 2 := by rw [sin_half_sq]; ring
    have e3 := vmZ_sq k y
    rw [e1, e2]
    simp only [Function.comp]
    have e4 : -vmZ k y * ProbabilityTheory.gaussianPDFReal 0 1 (vmZ k y) * (√(2 / π) / i0e k * (Real.cos (y / 2) * (1 / 2)))
        * (vmQ k * vmZ k y) = -(vmZ k y ^ 2) * vmQ k * (vmPdf ⟨0, k⟩ y * vmR k y) := by rw [← hphi]; ring
    have e5 : ProbabilityTheory.gaussianPDFReal 0 1 (vmZ k y) * (vmQ k * (√(2 / π) / i0e k * (Real.cos (y / 2) * (1 / 2))))
        = vmQ k * (vmPdf ⟨0, k⟩ y * vmR k y) := by rw [← hphi]; ring
    rw [e4, e5, e3]
    ring
  have hRc := vmR_cont k
  have hpc := vmPdf_cont ⟨0, k⟩
  set f := fun y => vmQ k * (vmR k y - 1) * (1 - 2 * vmA k * Real.sin (y / 2) ^ 2)
        + 2 * Real.sin (y / 2) ^ 2 * (1 - vmQ k * vmA k) with hf
  have hfc : Continuous f := by rw [hf]; fun_prop
  have hint := intervalIntegral.integral_eq_sub_of_hasDerivAt (a := 0) (b := x) (fun y _ => hd y)
    ((hpc.mul hfc).intervalIntegrable _ _)
  have z0 : vmZ k 0 = 0 := by unfold vmZ; simp
  rw [z0, vmF'_zero, mul_zero, mul_zero, sub_zero, sub_zero] at hint
  rw [← hint]
  set b1 := 3.64 * t ^ 2
  set b2 := 2.626 * t
  set b3 := (2.018 : ℝ)
  have hbound : ∀ y, 0 ≤ y → y ≤ π → |f y| ≤ b1 * Real.sin (y / 2) ^ 2 + b2 * Real.sin (y / 2) ^ 4 + b3 * Real.sin (y / 2) ^ 6 := by
    intro y hy0 hy1
    have hr := vmR_abs hy0 hy1 (k := k) (by linarith)
    have hs0 := sq_nonneg (Real.sin (y / 2))
    rw [hf]
    simp only
    rw [show Real.sin (y / 2) ^ 4 = (Real.sin (y / 2) ^ 2) ^ 2 by ring] at hr ⊢
    rw [show Real.sin (y / 2) ^ 6 = (Real.sin (y / 2) ^ 2) ^ 3 by ring]
    generalize Real.sin (y / 2) ^ 2 = u at *
    generalize vmR k y - 1 = r at *
    have h2 : |1 - 2 * vmA k * u| ≤ 1 + 2 * vmA k * u := by
      rw [abs_le]; constructor <;> nlinarith [mul_nonneg hA0.le hs0]
    have h3 : |vmQ k * r * (1 - 2 * vmA k * u)| ≤ vmQ k * (u ^ 2 + 1.1 * |vmE k| * u) * (1 + 2 * vmA k * u) := by
      rw [abs_mul, abs_mul, abs_of_nonneg hq0]
      exact mul_le_mul (mul_le_mul_of_nonneg_left hr hq0) h2 (abs_nonneg _) (by positivity)
    have h4 : |2 * u * (1 - vmQ k * vmA k)| ≤ 2 * u * (1.55 * t ^ 2) := by
      rw [abs_mul, abs_of_nonneg (by positivity : 0 ≤ 2 * u)]
      exact mul_le_mul_of_nonneg_left d1 (by positivity)
    refine (abs_add_le _ _).trans ((add_le_add h3 h4).trans ?_)
    have hea := abs_nonneg (vmE k)
    generalize |vmE k| = e at *
    generalize vmQ k = q at *
    generalize vmA k = A at *
    have hqe : q * e ≤ 0.5165 * t * (0.95 * t) := mul_le_mul q2 heabs hea (by positivity)
    have hqAe : q * A * e ≤ 1.009 * (0.95 * t) := mul_le_mul d2 heabs hea (by norm_num)
    calc q * (u ^ 2 + 1.1 * e * u) * (1 + 2 * A * u) + 2 * u * (1.55 * t ^ 2)
        = (1.1 * (q * e) + 3.1 * t ^ 2) * u + (q + 2.2 * (q * A * e)) * u ^ 2 + 2 * (q * A) * u ^ 3 := by ring
      _ ≤ b1 * u + b2 * u ^ 2 + b3 * u ^ 3 := by
        have i1 : 1.1 * (q * e) + 3.1 * t ^ 2 ≤ b1 := by simp only [b1]; nlinarith [sq_nonneg t]
        have i2 : q + 2.2 * (q * A * e) ≤ b2 := by simp only [b2]; nlinarith
        have i3 : 2 * (q * A) ≤ b3 := by simp only [b3]; linarith
        exact add_le_add (add_le_add (mul_le_mul_of_nonneg_right i1 hs0) (mul_le_mul_of_nonneg_right i2 (by positivity)))
          (mul_le_mul_of_nonneg_right i3 (by positivity))
  have hgc : Continuous fun y => b1 * Real.sin (y / 2) ^ 2 + b2 * Real.sin (y / 2) ^ 4 + b3 * Real.sin (y / 2) ^ 6 := by fun_prop
  calc |∫ y in (0 : ℝ)..x, vmPdf ⟨0, k⟩ y * f y|
      ≤ ∫ y in (0 : ℝ)..x, |vmPdf ⟨0, k⟩ y * f y| := intervalIntegral.abs_integral_le_integral_abs hx0
    _ ≤ ∫ y in (0 : ℝ)..π, |vmPdf ⟨0, k⟩ y * f y| :=
        intervalIntegral.integral_mono_interval le_rfl hx0 hx1 (Eventually.of_forall fun y => abs_nonneg _)
          ((hpc.mul hfc).abs.intervalIntegrable _ _)
    _ = ∫ y in (0 : ℝ)..π, vmPdf ⟨0, k⟩ y * |f y| := by
        refine intervalIntegral.integral_congr fun y _ => ?_
        simp only [abs_mul, abs_of_pos (vmPdf_pos ⟨0, k⟩ y)]
    _ ≤ _ := int_pdf_mono hfc.abs hgc hbound
    _ ≤ 1.21 * t ^ 3 := by
        rw [int_pdf_lin, m2]
        generalize (∫ s in (0 : ℝ)..π, vmPdf ⟨0, k⟩ s * Real.sin (s / 2) ^ 4) = M at *
        generalize (∫ s in (0 : ℝ)..π, vmPdf ⟨0, k⟩ s * Real.sin (s / 2) ^ 6) = M6 at *
        have i1 : b1 * (vmQ k / 4) ≤ b1 * (0.5165 * t / 4) := mul_le_mul_of_nonneg_left (by linarith) (by positivity)
        have i2 : b2 * M ≤ b2 * (0.1078 * t ^ 2) := mul_le_mul_of_nonneg_left m4 (by positivity)
        have i3 : b3 * M6 ≤ b3 * (0.2221 * t ^ 3) := mul_le_mul_of_nonneg_left m6 (by positivity)
        have e : b1 * (0.5165 * t / 4) + b2 * (0.1078 * t ^ 2) + b3 * (0.2221 * t ^ 3) ≤ 1.21 * t ^ 3 := by
          simp only [b1, b2, b3]
          have : 0 ≤ t ^ 3 := by positivity
          calc 3.64 * t ^ 2 * (0.5165 * t / 4) + 2.626 * t * (0.1078 * t ^ 2) + 2.018 * (0.2221 * t ^ 3)
              = (3.64 * 0.5165 / 4 + 2.626 * 0.1078 + 2.018 * 0.2221) * t ^ 3 := by ring
            _ ≤ _ := mul_le_mul_of_nonneg_right (by norm_num) this
        linarith
theorem i0e_deriv {k : ℝ} (hk : 0 < k) : HasDerivAt i0e (-vmQ k * i0e k) k := by
  have hG := vmG_pos k
  have e : ∀ κ : ℝ, 0 < κ → i0e κ = Real.exp (-κ) * (vmG π κ / (2 * π)) := fun κ hκ => by
    unfold i0e vmG; rw [circle_bessel0, abs_of_pos hκ]; have := Real.pi_pos; field_simp
  have h : HasDerivAt (fun κ => Real.exp (-κ) * (vmG π κ / (2 * π)))
      (Real.exp (-k) * -1 * (vmG π k / (2 * π)) + Real.exp (-k) * (vmG' π k / (2 * π))) k :=
    ((hasDerivAt_id k).neg.exp).mul ((vmG_deriv_k π k).div_const _)
  refine (h.congr_of_eventuallyEq ?_).congr_deriv ?_
  · filter_upwards [lt_mem_nhds hk] with κ hκ using e κ hκ
  · rw [e k hk]; unfold vmQ; field_simp; ring

theorem vmZ_deriv_k {k : ℝ} (hk : 0 < k) (x : ℝ) : HasDerivAt (fun κ => vmZ κ x) (vmQ k * vmZ k x) k := by
  have hi := i0e_pos k
  have h := (((hasDerivAt_const k (√(2 / π))).div (i0e_deriv hk) hi.ne').mul_const (Real.sin (x / 2)))
  refine h.congr_deriv ?_
  unfold vmZ
  field_simp
  ring

/-- The denominator of the correction in the normal recipe. -/
noncomputable def vmDen (k w : ℝ) : ℝ := (24 * k - 2 * w - 16) / 3 - (w ^ 2 + 7 / 4 * w + 167 / 2) / (24 * k - 56 - w + 3)

theorem vmDen_deriv {Z : ℝ → ℝ} {k z' : ℝ} (hz : HasDerivAt Z z' k) (hM : 24 * k - 56 - Z k ^ 2 + 3 ≠ 0) :
    HasDerivAt (fun κ => vmDen κ (Z κ ^ 2))
      (8 + 24 * ((Z k ^ 2) ^ 2 + 7 / 4 * Z k ^ 2 + 167 / 2) / (24 * k - 56 - Z k ^ 2 + 3) ^ 2
        - 2 * Z k * z' * (2 / 3 + (2 * Z k ^ 2 + 7 / 4) / (24 * k - 56 - Z k ^ 2 + 3)
          + ((Z k ^ 2) ^ 2 + 7 / 4 * Z k ^ 2 + 167 / 2) / (24 * k - 56 - Z k ^ 2 + 3) ^ 2)) k := by
  have hw : HasDerivAt (fun κ => Z κ ^ 2) (2 * Z k * z') k := (hz.pow 2).congr_deriv (by norm_num)
  generalize hW : (fun κ => Z κ ^ 2) = W at hw
  have hWk : ∀ κ, Z κ ^ 2 = W κ := fun κ => by rw [← hW]
  simp only [hWk] at hM ⊢
  generalize 2 * Z k * z' = w' at *
  unfold vmDen
  have h1 : HasDerivAt (fun κ => (24 * κ - 2 * W κ - 16) / 3) ((24 * 1 - 2 * w') / 3) k :=
    ((((hasDerivAt_id k).const_mul 24).sub (hw.const_mul 2)).sub_const 16).div_const 3
  have h2 : HasDerivAt (fun κ => W κ ^ 2 + 7 / 4 * W κ + 167 / 2) (2 * W k * w' + 7 / 4 * w') k :=
    ((((hw.pow 2).congr_deriv (by norm_num)).add (hw.const_mul (7 / 4))).add_const _)
  have h3 : HasDerivAt (fun κ => 24 * κ - 56 - W κ + 3) (24 * 1 - w') k :=
    ((((hasDerivAt_id k).const_mul 24).sub_const 56).sub hw).add_const 3
  refine (h1.sub (h2.div h3 hM)).congr_deriv ?_
  field_simp
  ring

theorem vmDen_bounds {k w q : ℝ} (hk : 10.5 ≤ k) (hw0 : 0 ≤ w) (hw : w ≤ 4.2 * k) (hq0 : 0 ≤ q) (hq : q * k ≤ 0.5165) :
    3.3 * k ≤ vmDen k w ∧ 0 < 24 * k - 56 - w + 3 ∧
      0 ≤ 8 + 24 * (w ^ 2 + 7 / 4 * w + 167 / 2) / (24 * k - 56 - w + 3) ^ 2
        - 2 * (q * w) * (2 / 3 + (2 * w + 7 / 4) / (24 * k - 56 - w + 3) + (w ^ 2 + 7 / 4 * w + 167 / 2) / (24 * k - 56 - w + 3) ^ 2) ∧
      8 + 24 * (w ^ 2 + 7 / 4 * w + 167 / 2) / (24 * k - 56 - w + 3) ^ 2
        - 2 * (q * w) * (2 / 3 + (2 * w + 7 / 4) / (24 * k - 56 - w + 3) + (w ^ 2 + 7 / 4 * w + 167 / 2) / (24 * k - 56 - w + 3) ^ 2)
        ≤ 10.2 := by
  have hk0 : 0 < k := by linarith
  have hM : 14.75 * k ≤ 24 * k - 56 - w + 3 := by linarith
  have hM0 : 0 < 24 * k - 56 - w + 3 := by linarith
  have hD : 3.3 * k ≤ vmDen k w := by
    unfold vmDen
    rw [le_sub_iff_add_le, ← le_sub_iff_add_le', div_le_iff₀ hM0]
    nlinarith [mul_nonneg hw0 (by linarith : (0:ℝ) ≤ 4.2 * k - w), mul_nonneg hk0.le (by linarith : (0:ℝ) ≤ 4.2 * k - w),
      mul_nonneg hk0.le (by linarith : (0:ℝ) ≤ k - 10.5)]
  refine ⟨hD, hM0, ?_⟩
  have hN : w ^ 2 + 7 / 4 * w + 167 / 2 ≤ 19.11 * k ^ 2 := by nlinarith
  have hN0 : 0 ≤ w ^ 2 + 7 / 4 * w + 167 / 2 := by positivity
  generalize w ^ 2 + 7 / 4 * w + 167 / 2 = N at *
  generalize 24 * k - 56 - w + 3 = M at *
  have hNM : N / M ^ 2 ≤ 0.0879 := by
    rw [div_le_iff₀ (by positivity)]
    nlinarith
  have hNM0 : 0 ≤ N / M ^ 2 := by positivity
  have hv : (2 * w + 7 / 4) / M ≤ 0.581 := by
    rw [div_le_iff₀ hM0]; nlinarith
  have hv0 : 0 ≤ (2 * w + 7 / 4) / M := by positivity
  have hqw : q * w ≤ 2.17 := by nlinarith
  have hqw0 : 0 ≤ q * w := by positivity
  rw [mul_div_assoc]
  generalize N / M ^ 2 = a at *
  generalize (2 * w + 7 / 4) / M = b at *
  generalize q * w = c at *
  have hs0 : 0 ≤ 2 / 3 + b + a := by positivity
  have hs : 2 / 3 + b + a ≤ 1.336 := by linarith
  have hcs : c * (2 / 3 + b + a) ≤ 2.17 * 1.336 := mul_le_mul hqw hs hs0 (by norm_num)
  have hcs0 : 0 ≤ c * (2 / 3 + b + a) := by positivity
  constructor <;> linarith

theorem fifth_le_exp {z : ℝ} : z ^ 5 ≤ 7 * Real.exp (0.46 * z ^ 2) := by
  have h := Real.sum_le_exp_of_nonneg (x := 0.46 * z ^ 2) (by positivity) 6
  simp only [Finset.sum_range_succ, Finset.sum_range_zero, Nat.factorial] at h
  norm_num at h
  have hw : 0 ≤ z ^ 2 := sq_nonneg z
  have h1 : z ^ 5 ≤ (2.33 * (z ^ 2) ^ 2 + (z ^ 2) ^ 3 / 2.33) / 2 := by
    have : 0 ≤ z ^ 4 * (z - 2.33) ^ 2 := by positivity
    have e : (2.33 * (z ^ 2) ^ 2 + (z ^ 2) ^ 3 / 2.33) / 2 - z ^ 5 = z ^ 4 * (z - 2.33) ^ 2 / 4.66 := by ring
    have : 0 ≤ z ^ 4 * (z - 2.33) ^ 2 / 4.66 := by positivity
    linarith
  generalize z ^ 2 = w at *
  rw [show (0.46 : ℝ) * w = 23 / 50 * w by norm_num]
  generalize Real.exp (23 / 50 * w) = E at *
  norm_num at h1
  nlinarith [mul_nonneg hw (sq_nonneg (w ^ 2 - 5.4 * w)), sq_nonneg (w ^ 2 - 5.4 * w), mul_nonneg hw (sq_nonneg (w - 5.4)), sq_nonneg (w - 5.4)]

theorem vmXi_deriv {Z : ℝ → ℝ} {k z' D' : ℝ} (hz : HasDerivAt Z z' k) (hD : HasDerivAt (fun κ => vmDen κ (Z κ ^ 2)) D' k)
    (h0 : vmDen k (Z k ^ 2) ≠ 0) : HasDerivAt (fun κ => vmXi (Z κ) κ)
      (z' - 3 * Z k ^ 2 * z' * (1 / vmDen k (Z k ^ 2)) ^ 2 + 2 * Z k ^ 3 * D' * (1 / vmDen k (Z k ^ 2)) ^ 3) k := by
  have e : (fun κ => vmXi (Z κ) κ) = fun κ => Z κ - Z κ ^ 3 / vmDen κ (Z κ ^ 2) ^ 2 := by
    funext κ; unfold vmXi vmDen; rw [show Z κ ^ 2 * Z κ = Z κ ^ 3 by ring]
  rw [e]
  refine (hz.sub ((hz.pow 3).div (hD.pow 2) (pow_ne_zero 2 h0))).congr_deriv ?_
  generalize hd : vmDen k (Z k ^ 2) = d at *
  simp only [Pi.pow_apply]
  rw [hd]
  norm_num
  field_simp
  ring

/-- The correction term: its effect on the concentration derivative. -/
theorem vmCorr_close {k t z q : ℝ} (hk : 10.5 ≤ k) (ht : t = 1 / k) (hz : 0 ≤ z) (hw : z ^ 2 ≤ 4.2 * k) (hq0 : 0 ≤ q)
    (hq : q ≤ 0.5165 * t) {d D' : ℝ} (hd : d = 1 / vmDen k (z ^ 2)) (hD0 : 0 ≤ D') (hD1 : D' ≤ 10.2)
    (hD : 3.3 * k ≤ vmDen k (z ^ 2)) :
    |ProbabilityTheory.gaussianPDFReal 0 1 (vmXi z k) * (q * z - 3 * z ^ 2 * (q * z) * d ^ 2 + 2 * z ^ 3 * D' * d ^ 3)
      - ProbabilityTheory.gaussianPDFReal 0 1 z * (q * z)| ≤ 0.6 * t ^ 3 := by
  have hk0 : 0 < k := by linarith
  have ht0 : 0 < t := by rw [ht]; positivity
  have hd0 : 0 < d := by rw [hd]; exact one_div_pos.mpr (by linarith)
  have hd1 : d ≤ t / 3.3 := by
    rw [hd, ht, div_div, mul_comm k]
    exact one_div_le_one_div_of_le (by positivity) hD
  obtain ⟨x1, x2, -⟩ := vmXi_close hk hz hw
  have hxi : z - vmXi z k = z ^ 3 * d ^ 2 := by
    have : vmXi z k = z - z ^ 3 / vmDen k (z ^ 2) ^ 2 := by
      unfold vmXi vmDen; rw [show z ^ 2 * z = z ^ 3 by ring]
    rw [this, hd, one_div, inv_pow, ← div_eq_mul_inv]; ring
  have h25 : (√(2 * π))⁻¹ ≤ 0.4 := by
    rw [inv_le_comm₀ (by positivity) (by norm_num)]
    refine Real.le_sqrt_of_sq_le ?_
    have := Real.pi_gt_d2
    norm_num; linarith
  set ξ := vmXi z k with hξ
  have hξ0 : 0 ≤ ξ := by nlinarith
  have hP0 : 0 < ProbabilityTheory.gaussianPDFReal 0 1 ξ := by rw [gauss_eq]; positivity
  have hR0 : 0 < ProbabilityTheory.gaussianPDFReal 0 1 z := by rw [gauss_eq]; positivity
  have hPe : ProbabilityTheory.gaussianPDFReal 0 1 ξ ≤ 0.4 * Real.exp (-(0.46 * z ^ 2)) := by
    rw [gauss_eq]
    refine mul_le_mul h25 (Real.exp_le_exp.mpr ?_) (Real.exp_pos _).le (by norm_num)
    have : (0.963 * z) ^ 2 ≤ ξ ^ 2 := pow_le_pow_left₀ (by positivity) x1 2
    nlinarith [sq_nonneg z]
  have hPR : ProbabilityTheory.gaussianPDFReal 0 1 z =
      ProbabilityTheory.gaussianPDFReal 0 1 ξ * Real.exp (-((z ^ 2 - ξ ^ 2) / 2)) := by
    rw [gauss_eq, gauss_eq, mul_assoc, ← Real.exp_add]; congr 2; ring
  have hsq : (z ^ 2 - ξ ^ 2) / 2 ≤ z * (z ^ 3 * d ^ 2) := by
    rw [← hxi]; nlinarith
  have hsq0 : 0 ≤ (z ^ 2 - ξ ^ 2) / 2 := by nlinarith
  have hex := Real.add_one_le_exp (-((z ^ 2 - ξ ^ 2) / 2))
  have hex1 : Real.exp (-((z ^ 2 - ξ ^ 2) / 2)) ≤ 1 := Real.exp_le_one_iff.mpr (by linarith)
  have p3 : ProbabilityTheory.gaussianPDFReal 0 1 ξ * z ^ 3 ≤ 0.8 := by
    refine (mul_le_mul_of_nonneg_right hPe (by positivity)).trans ?_
    have := cube_le_exp hz
    rw [Real.exp_neg]
    have hE := Real.exp_pos (0.46 * z ^ 2)
    calc 0.4 * (Real.exp (0.46 * z ^ 2))⁻¹ * z ^ 3 = 0.4 * (z ^ 3 / Real.exp (0.46 * z ^ 2)) := by ring
      _ ≤ 0.4 * 2 := mul_le_mul_of_nonneg_left ((div_le_iff₀ hE).mpr this) (by norm_num)
      _ = 0.8 := by norm_num
  have p5 : ProbabilityTheory.gaussianPDFReal 0 1 ξ * z ^ 5 ≤ 2.8 := by
    refine (mul_le_mul_of_nonneg_right hPe (by positivity)).trans ?_
    have := fifth_le_exp (z := z)
    rw [Real.exp_neg]
    have hE := Real.exp_pos (0.46 * z ^ 2)
    calc 0.4 * (Real.exp (0.46 * z ^ 2))⁻¹ * z ^ 5 = 0.4 * (z ^ 5 / Real.exp (0.46 * z ^ 2)) := by ring
      _ ≤ 0.4 * 7 := mul_le_mul_of_nonneg_left ((div_le_iff₀ hE).mpr this) (by norm_num)
      _ = 2.8 := by norm_num
  rw [hPR]
  generalize ProbabilityTheory.gaussianPDFReal 0 1 ξ = P at *
  generalize Real.exp (-((z ^ 2 - ξ ^ 2) / 2)) = X at *
  have hd2 : d ^ 2 ≤ t ^ 2 / 10.89 := (pow_le_pow_left₀ hd0.le hd1 2).trans (le_of_eq (by ring))
  have hd3 : d ^ 3 ≤ t ^ 3 / 35.937 := (pow_le_pow_left₀ hd0.le hd1 3).trans (le_of_eq (by ring))
  have hqd : q * d ^ 2 ≤ 0.0475 * t ^ 3 := by
    calc q * d ^ 2 ≤ 0.5165 * t * (t ^ 2 / 10.89) := mul_le_mul hq hd2 (by positivity) (by positivity)
      _ = (0.5165 / 10.89) * t ^ 3 := by ring
      _ ≤ _ := mul_le_mul_of_nonneg_right (by norm_num) (by positivity)
  have hDd : 2 * D' * d ^ 3 ≤ 0.568 * t ^ 3 := by
    calc 2 * D' * d ^ 3 ≤ 2 * 10.2 * (t ^ 3 / 35.937) := mul_le_mul (by linarith) hd3 (by positivity) (by norm_num)
      _ = (20.4 / 35.937) * t ^ 3 := by ring
      _ ≤ _ := mul_le_mul_of_nonneg_right (by norm_num) (by positivity)
  have ht3 : 0 < t ^ 3 := by positivity
  have hqd0 : 0 ≤ q * d ^ 2 := by positivity
  have hDd0 : 0 ≤ 2 * D' * d ^ 3 := by positivity
  have e : P * (q * z - 3 * z ^ 2 * (q * z) * d ^ 2 + 2 * z ^ 3 * D' * d ^ 3) - P * X * (q * z)
      = P * (1 - X) * (q * z) - 3 * ((P * z ^ 3) * (q * d ^ 2)) + (P * z ^ 3) * (2 * D' * d ^ 3) := by ring
  rw [e]
  have t1 : P * (1 - X) * (q * z) ≤ (P * z ^ 5) * (q * d ^ 2) := by
    have : 1 - X ≤ z * (z ^ 3 * d ^ 2) := by linarith
    calc P * (1 - X) * (q * z) ≤ P * (z * (z ^ 3 * d ^ 2)) * (q * z) :=
          mul_le_mul_of_nonneg_right (mul_le_mul_of_nonneg_left this hP0.le) (by positivity)
      _ = _ := by ring
  have t0 : 0 ≤ P * (1 - X) * (q * z) := mul_nonneg (mul_nonneg hP0.le (by linarith)) (by positivity)
  have t2 : (P * z ^ 5) * (q * d ^ 2) ≤ 2.8 * (0.0475 * t ^ 3) := mul_le_mul p5 hqd hqd0 (by norm_num)
  have t3 : (P * z ^ 3) * (q * d ^ 2) ≤ 0.8 * (0.0475 * t ^ 3) := mul_le_mul p3 hqd hqd0 (by norm_num)
  have t4 : (P * z ^ 3) * (2 * D' * d ^ 3) ≤ 0.8 * (0.568 * t ^ 3) := mul_le_mul p3 hDd hDd0 (by norm_num)
  have t5 : 0 ≤ (P * z ^ 3) * (q * d ^ 2) := by positivity
  have t6 : 0 ≤ (P * z ^ 3) * (2 * D' * d ^ 3) := by positivity
  rw [abs_le]
  constructor <;> linarith

/-- The concentration derivative of the normal recipe exists, and is within `2/κ³` of the derivative of the CDF. -/
theorem cdfNormal_deriv_k {k : ℝ} (hk : 10.5 ≤ k) {x : ℝ} (hx0 : 0 ≤ x) (hx1 : x ≤ π) :
    ∃ g, HasDerivAt (fun κ => VonMises.cdfNormal x κ) g k ∧ |g - vmF' k x| ≤ 2 / k ^ 3 := by
  have hk0 : 0 < k := by linarith
  obtain ⟨t, η, ht, ht0, ht1, he0, he1, hq⟩ := vm_bounds hk
  obtain ⟨q1, q2, -, -⟩ := vm_moments hk ht ht0 ht1 he0 he1 hq
  have hU := vmU_close hk ht ht0 ht1 he0 he1 hq hx0 hx1
  have hz : 0 ≤ vmZ k x := by
    have := i0e_pos k
    unfold vmZ
    exact mul_nonneg (by positivity) (Real.sin_nonneg_of_nonneg_of_le_pi (by linarith) (by linarith [Real.pi_pos]))
  have hw : vmZ k x ^ 2 ≤ 4.2 * k := by
    rw [vmZ_sq]
    have := vmA_upper hk
    have hA := vmA_pos k
    have hs : Real.sin (x / 2) ^ 2 ≤ 1 := Real.sin_sq_le_one _
    nlinarith [sq_nonneg (Real.sin (x / 2))]
  have hq0 : 0 ≤ vmQ k := by linarith
  have hqk : vmQ k * k ≤ 0.5165 := by
    have : t * k = 1 := by rw [ht]; field_simp
    nlinarith
  obtain ⟨b1, b2, b3, b4⟩ := vmDen_bounds hk (sq_nonneg (vmZ k x)) hw hq0 hqk
  have hZ := vmZ_deriv_k hk0 x
  have hDen := vmDen_deriv hZ b2.ne'
  have e : 2 * vmZ k x * (vmQ k * vmZ k x) = 2 * (vmQ k * vmZ k x ^ 2) := by ring
  rw [e] at hDen
  have hXi := vmXi_deriv hZ hDen (ne_of_gt (lt_of_lt_of_le (by positivity) b1))
  have hN := (ndtr_deriv _).comp k hXi
  refine ⟨_, hN.congr_of_eventuallyEq (Eventually.of_forall fun κ => ?_), ?_⟩
  · simp only [Function.comp]; rw [cdfNormal_eq]; unfold vmZ; rw [show (0.5 : ℝ) * x = x / 2 by ring]
  · have hC := vmCorr_close hk ht hz hw hq0 q2 rfl b3 b4 b1
    have := abs_sub_le_iff.mp hC
    have := abs_sub_le_iff.mp hU
    have ht3 : 2 / k ^ 3 = 2 * t ^ 3 := by rw [ht]; ring
    have : 0 < t ^ 3 := by positivity
    rw [ht3, abs_sub_le_iff]
    constructor <;> linarith

/-- From the cutoff `10.5` on, the concentration derivative the code returns (that of the normal recipe, taken by
automatic differentiation) is within `2/κ³` of the concentration derivative of the exact CDF, on the whole turn. -/
theorem C56_normal_gradient_accuracy (k : ℝ) (hk : 10.5 ≤ k) (x : ℝ) (h1 : -π ≤ x) (h2 : x ≤ π) (D : ℝ)
    (hD : HasDerivAt (fun κ => stdCdf κ x) D k) :
    HasDerivAt (fun κ => VonMises.cdfNormal x κ) (VonMises.dcdfNormal x k) k ∧
      |VonMises.dcdfNormal x k - D| ≤ 2 / k ^ 3 := by
  have hD' : D = vmF' k x := by
    refine hD.unique ?_
    exact (vmF_deriv_k k x).congr_of_eventuallyEq (Eventually.of_forall fun κ => stdCdf_eq κ x)
  subst hD'
  obtain ⟨g, hg, hb⟩ : ∃ g, HasDerivAt (fun κ => VonMises.cdfNormal x κ) g k ∧ |g - vmF' k x| ≤ 2 / k ^ 3 := by
    rcases le_total 0 x with h | h
    · exact cdfNormal_deriv_k hk h h2
    · obtain ⟨g, hg, hb⟩ := cdfNormal_deriv_k hk (x := -x) (by linarith) (by linarith)
      refine ⟨-g, ?_, ?_⟩
      · refine (hg.const_sub 1).congr_of_eventuallyEq (Eventually.of_forall fun κ => ?_)
        have := (C56_normal_recipe x κ).1
        simp only
        linarith
      · rw [vmF'_neg] at hb
        rw [← abs_neg]
        convert hb using 2
        ring
  have e : VonMises.dcdfNormal x k = g := hg.deriv
  rw [e]
  exact ⟨hg, hb⟩

/-- The `custom_jvp` rule of the CDF as shipped, at concentrations from the cutoff on: within `2/κ³` times the
concentration's rate of the derivative of the exact CDF along every differentiable curve. -/
theorem C56_cdf_jvp_accuracy_large (X K : ℝ → ℝ) (t dx dk D : ℝ) (hX : HasDerivAt X dx t) (hK : HasDerivAt K dk t)
    (hk : 10.5 ≤ K t) (hD : HasDerivAt (fun s => stdCdf (K s) (X s)) D t) :
    |VonMises.cdfTangent VonMises.dcdfCore (X t) (K t) dx dk - D| ≤ 2 / K t ^ 3 * |dk| := by
  have hk0 : 0 < K t := by linarith
  let dc : ℝ → ℝ → ℝ := fun y k => vmF' k y
  have hdc : ∀ y, -π ≤ y → y ≤ π → HasDerivAt (fun κ => stdCdf κ y) (dc y (K t)) (K t) := fun y _ _ =>
    (vmF_deriv_k (K t) y).congr_of_eventuallyEq (Eventually.of_forall fun κ => stdCdf_eq κ y)
  rw [hD.unique (C56_cdf_jvp dc X K t dx dk hX hK hk0.le hdc)]
  have hp := C40_angle_partial (X t)
  have hacc := (C56_normal_gradient_accuracy (K t) hk _ hp.2.1 hp.2.2.1 _ (hdc _ hp.2.1 hp.2.2.1)).2
  unfold VonMises.cdfTangent
  simp only
  rw [add_sub_add_right_eq_sub, ← mul_sub, abs_mul, mul_comm]
  refine mul_le_mul_of_nonneg_right ?_ (abs_nonneg _)
  have e : VonMises.dcdfCore (convertAngle (X t)) (K t) = VonMises.dcdfNormal (convertAngle (X t)) (K t) := by
    unfold VonMises.dcdfCore; rw [if_neg (by linarith)]
  exact (e ▸ hacc : |VonMises.dcdfCore (convertAngle (X t)) (K t) - dc (convertAngle (X t)) (K t)| ≤ _)

/-- The sampler's reparameterisation rule as shipped, at concentrations from the cutoff on: the returned tangent differs
from the derivative of any curve of samples that keeps the exact CDF constant by at most `2/κ³` over the density at the
sample, times the concentration's rate. -/
theorem C56_sample_jvp_accuracy_large (s k dk : ℝ) (hk : 10.5 ≤ k) (S : ℝ → ℝ) (ds : ℝ) (hS : S k = s)
    (hc : ∀ᶠ κ in 𝓝 k, stdCdf κ (S κ) = stdCdf k s) (hd : HasDerivAt S ds k) :
    |VonMises.sampleTangent VonMises.dcdfCore s k dk - dk * ds| ≤ 2 / k ^ 3 / (VonMises.mk 0 k).prob s * |dk| := by
  have hk0 : 0 < k := by linarith
  have hk' : 1e-7 ≤ k := by norm_num; linarith
  let dc : ℝ → ℝ → ℝ := fun y k => vmF' k y
  have hdc : ∀ y, -π ≤ y → y ≤ π → HasDerivAt (fun κ => stdCdf κ y) (dc y k) k := fun y _ _ =>
    (vmF_deriv_k k y).congr_of_eventuallyEq (Eventually.of_forall fun κ => stdCdf_eq κ y)
  rw [← (C56_sample_jvp dc s k hk' hdc).2 S ds hS hc hd dk]
  have hp := C40_angle_partial s
  have hacc := (C56_normal_gradient_accuracy k hk _ hp.2.1 hp.2.2.1 _ (hdc _ hp.2.1 hp.2.2.1)).2
  have e : VonMises.dcdfCore (convertAngle s) k = VonMises.dcdfNormal (convertAngle s) k := by
    unfold VonMises.dcdfCore; rw [if_neg (by linarith)]
  rw [← e] at hacc
  have hpdf := vmPdf_pos ⟨0, k⟩ s
  rw [vm_prob_eq ⟨0, k⟩ hk0.le]
  have e2 : Real.exp (-k * (Real.cos s - 1)) * (2 * π * i0e k) = 1 / vmPdf ⟨0, k⟩ s := by
    have := tangent_prob hk0.le s 0
    rw [Int.cast_zero, mul_zero, sub_zero] at this
    rw [← this, neg_mul, Real.exp_neg]
    have := i0e_pos k
    field_simp
  have e3 : VonMises.sampleTangent VonMises.dcdfCore s k dk - VonMises.sampleTangent dc s k dk
      = -(dk * (1 / vmPdf ⟨0, k⟩ s) * (VonMises.dcdfCore (convertAngle s) k - dc (convertAngle s) k)) := by
    unfold VonMises.sampleTangent
    simp only
    rw [max_eq_left hk', e2]
    unfold VonMises.cdfTangent
    simp only
    have : s - 2 * π * (rint (s / (2 * π)) : ℝ) = convertAngle s := rfl
    rw [this]
    ring
  rw [e3, abs_neg, abs_mul, abs_mul, abs_of_pos (by positivity : 0 < 1 / vmPdf ⟨0, k⟩ s)]
  calc |dk| * (1 / vmPdf ⟨0, k⟩ s) * |VonMises.dcdfCore (convertAngle s) k - dc (convertAngle s) k|
      ≤ |dk| * (1 / vmPdf ⟨0, k⟩ s) * (2 / k ^ 3) := mul_le_mul_of_nonneg_left hacc (by positivity)
    _ = _ := by ring

/-- The derivative of the exact CDF exists at every concentration, so the hypothesis of the accuracy theorem is met. -/
example : ∃ D, HasDerivAt (fun κ => stdCdf κ 1) D 12 :=
  ⟨_, (vmF_deriv_k 12 1).congr_of_eventuallyEq (Eventually.of_forall fun κ => stdCdf_eq κ 1)⟩

/-- Curves meeting the hypotheses exist: a moving angle with a moving concentration. -/
example : ∃ (X K : ℝ → ℝ) (t dx dk D : ℝ), HasDerivAt X dx t ∧ HasDerivAt K dk t ∧ 10.5 ≤ K t ∧ dk ≠ 0 ∧
    HasDerivAt (fun s => stdCdf (K s) (X s)) D t := by
  have h := C56_cdf_jvp (fun y k => vmF' k y) id (fun s => 12 + 1 * s) 0 1 (1 * 1) (hasDerivAt_id _)
    (((hasDerivAt_id (0 : ℝ)).const_mul 1).const_add 12) (by norm_num) fun y _ _ =>
      (vmF_deriv_k _ y).congr_of_eventuallyEq (Eventually.of_forall fun κ => stdCdf_eq κ y)
  exact ⟨_, _, _, _, _, _, hasDerivAt_id _, ((hasDerivAt_id (0 : ℝ)).const_mul 1).const_add 12, by norm_num, by norm_num, h⟩

/-- The sample at the mode stays at the mode: a curve of samples that keeps the exact CDF constant. -/
example : ∃ (S : ℝ → ℝ) (ds : ℝ), S 12 = 0 ∧ (∀ᶠ κ in 𝓝 12, stdCdf κ (S κ) = stdCdf 12 0) ∧ HasDerivAt S ds 12 :=
  ⟨fun _ => 0, 0, rfl, Eventually.of_forall fun κ => by simp only [stdCdf_eq, vmF_zero], hasDerivAt_const _ _⟩

end Distrax
