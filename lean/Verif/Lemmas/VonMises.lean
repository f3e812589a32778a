import Verif.Model.VonMises
import Verif.Spec.Density
import Verif.Lemmas.Gauss
import Mathlib.MeasureTheory.Integral.IntervalIntegral.Periodic
import Mathlib.MeasureTheory.Integral.IntervalIntegral.FundThmCalculus
import Mathlib.Analysis.SpecialFunctions.Integrals.Basic

/-! Trigonometric integrals and rounding facts for the von Mises distribution. -/

namespace Distrax

open MeasureTheory Real Set

/-! ### Integrals over a period -/

theorem vm_cont (k : ℝ) : Continuous fun t : ℝ => Real.exp (k * Real.cos t) := by fun_prop

/-- An integral over the circle does not depend on where the period starts. -/
theorem circle_shift {f : ℝ → ℝ} (hf : Function.Periodic f (2 * π)) (c : ℝ) :
    ∫ x in (-π)..π, f (x - c) = ∫ x in (-π)..π, f x := by
  rw [intervalIntegral.integral_comp_sub_right]
  have h := hf.intervalIntegral_add_eq (-π - c) (-π)
  rw [show -π - c + 2 * π = π - c by ring, show -π + 2 * π = π by ring] at h
  exact h

theorem circle_even {f : ℝ → ℝ} (hf : Continuous f) (he : ∀ x, f (-x) = f x) :
    ∫ x in (-π)..π, f x = 2 * ∫ x in (0 : ℝ)..π, f x := by
  have h1 : ∫ x in (-π)..π, f x = (∫ x in (-π)..0, f x) + ∫ x in (0 : ℝ)..π, f x :=
    (intervalIntegral.integral_add_adjacent_intervals (hf.intervalIntegrable _ _) (hf.intervalIntegrable _ _)).symm
  have h2 : ∫ x in (-π)..0, f x = ∫ x in (0 : ℝ)..π, f x := by
    have := intervalIntegral.integral_comp_neg (a := 0) (b := π) f
    rw [neg_zero] at this
    rw [← this]; simp only [he]
  rw [h1, h2]; ring

theorem circle_odd {f : ℝ → ℝ} (ho : ∀ x, f (-x) = -f x) : ∫ x in (-π)..π, f x = 0 := by
  have := intervalIntegral.integral_comp_neg (a := -π) (b := π) f
  rw [neg_neg] at this
  simp only [ho, intervalIntegral.integral_neg] at this
  linarith

theorem circle_bessel0 (k : ℝ) : ∫ x in (-π)..π, Real.exp (k * Real.cos x) = 2 * π * bessel0 k := by
  rw [circle_even (vm_cont k) (by simp), bessel0]; field_simp

theorem circle_bessel1 (k : ℝ) : ∫ x in (-π)..π, Real.exp (k * Real.cos x) * Real.cos x = 2 * π * bessel1 k := by
  rw [circle_even (by fun_prop) (by simp), bessel1]; field_simp

theorem circle_sin (k : ℝ) : ∫ x in (-π)..π, Real.exp (k * Real.cos x) * Real.sin x = 0 :=
  circle_odd (by simp)

theorem bessel0_pos (k : ℝ) : 0 < bessel0 k := by
  unfold bessel0
  refine div_pos ?_ Real.pi_pos
  exact intervalIntegral.intervalIntegral_pos_of_pos ((vm_cont k).intervalIntegrable _ _)
    (fun x => Real.exp_pos _) Real.pi_pos

theorem i0e_pos (k : ℝ) : 0 < i0e k := mul_pos (Real.exp_pos _) (bessel0_pos k)

theorem i_ratio (k : ℝ) : i1e k / i0e k = bessel1 k / bessel0 k := by
  unfold i1e i0e
  rw [mul_div_mul_left _ _ (Real.exp_pos _).ne']

/-- `I_1(k) ≥ 0` for `k ≥ 0` (so the resultant length is the ratio itself). -/
theorem bessel1_nonneg {k : ℝ} (hk : 0 ≤ k) : 0 ≤ bessel1 k := by
  have h0 : ∫ x in (0 : ℝ)..π, Real.cos x = 0 := by simp
  have h1 : 0 ≤ ∫ x in (0 : ℝ)..π, (Real.exp (k * Real.cos x) - 1) * Real.cos x := by
    apply intervalIntegral.integral_nonneg Real.pi_pos.le
    intro x _
    rcases le_total 0 (Real.cos x) with h | h
    · exact mul_nonneg (by have := Real.one_le_exp (mul_nonneg hk h); linarith) h
    · refine mul_nonneg_of_nonpos_of_nonpos ?_ h
      have := Real.exp_le_one_iff.mpr (mul_nonpos_of_nonneg_of_nonpos hk h); linarith
  have h2 : ∫ x in (0 : ℝ)..π, (Real.exp (k * Real.cos x) - 1) * Real.cos x
      = (∫ x in (0 : ℝ)..π, Real.exp (k * Real.cos x) * Real.cos x) - ∫ x in (0 : ℝ)..π, Real.cos x := by
    rw [← intervalIntegral.integral_sub]
    · congr 1; ext x; ring
    · exact (by fun_prop : Continuous fun x => Real.exp (k * Real.cos x) * Real.cos x).intervalIntegrable _ _
    · exact Real.continuous_cos.intervalIntegrable _ _
  unfold bessel1
  rw [h2, h0, sub_zero] at h1
  exact div_nonneg h1 Real.pi_pos.le

theorem bessel1_le (k : ℝ) : bessel1 k ≤ bessel0 k := by
  unfold bessel0 bessel1
  refine div_le_div_of_nonneg_right ?_ Real.pi_pos.le
  refine intervalIntegral.integral_mono_on Real.pi_pos.le ?_ ?_ ?_
  · exact (by fun_prop : Continuous fun x => Real.exp (k * Real.cos x) * Real.cos x).intervalIntegrable _ _
  · exact (vm_cont k).intervalIntegrable _ _
  · intro x _
    have := Real.cos_le_one x
    nlinarith [Real.exp_pos (k * Real.cos x)]

theorem bessel0_zero : bessel0 0 = 1 := by
  unfold bessel0; simp [Real.pi_ne_zero]

theorem bessel1_zero : bessel1 0 = 0 := by
  unfold bessel1; simp

/-! ### The density -/

/-- The documented density. -/
noncomputable def vmPdf (d : VonMises) (x : ℝ) : ℝ :=
  Real.exp (d.concentration * Real.cos (x - d.loc)) / (2 * π * bessel0 d.concentration)

theorem vmPdf_pos (d : VonMises) (x : ℝ) : 0 < vmPdf d x :=
  div_pos (Real.exp_pos _) (mul_pos (by positivity) (bessel0_pos _))

theorem vmPdf_cont (d : VonMises) : Continuous (vmPdf d) := by
  unfold vmPdf; fun_prop

theorem vmPdf_periodic (d : VonMises) : Function.Periodic (vmPdf d) (2 * π) := by
  intro x
  unfold vmPdf
  rw [show x + 2 * π - d.loc = x - d.loc + 2 * π by ring, Real.cos_add_two_pi]

/-- Expectations of functions of the centred angle. -/
theorem vm_exp (d : VonMises) {h : ℝ → ℝ} (hc : Continuous h) (hp : Function.Periodic h (2 * π)) :
    Spec.ExpOn volume (Ioc (-π) π) (vmPdf d) (fun x => h (x - d.loc))
      ((∫ x in (-π)..π, Real.exp (d.concentration * Real.cos x) * h x) / (2 * π * bessel0 d.concentration)) := by
  have hcont : Continuous fun x => vmPdf d x * h (x - d.loc) :=
    (vmPdf_cont d).mul (hc.comp (continuous_id.sub continuous_const))
  refine ⟨hcont.integrableOn_Ioc, ?_⟩
  rw [← intervalIntegral.integral_of_le (by have := Real.pi_pos; linarith)]
  rw [← circle_shift (f := fun x => Real.exp (d.concentration * Real.cos x) * h x) _ d.loc]
  · rw [← intervalIntegral.integral_div]
    congr 1; ext x; unfold vmPdf; ring
  · intro x
    simp only [Real.cos_add_two_pi, hp x]

theorem vmPdf_density (d : VonMises) : Spec.IsDensityOn volume (Ioc (-π) π) (vmPdf d) := by
  have h := vm_exp d (h := fun _ => 1) continuous_const (fun _ => rfl)
  refine ⟨fun x _ => (vmPdf_pos d x).le, (vmPdf_cont d).integrableOn_Ioc, ?_⟩
  have h2 := h.2
  simp only [mul_one] at h2
  rw [h2, circle_bessel0, div_self]
  exact (mul_pos (by positivity) (bessel0_pos _)).ne'

theorem vm_cos (d : VonMises) : Spec.ExpOn volume (Ioc (-π) π) (vmPdf d) (fun x => Real.cos (x - d.loc))
    (bessel1 d.concentration / bessel0 d.concentration) := by
  have h := vm_exp d Real.continuous_cos Real.cos_periodic
  rw [circle_bessel1, mul_div_mul_left _ _ (by positivity)] at h
  exact h

theorem vm_sin (d : VonMises) : Spec.ExpOn volume (Ioc (-π) π) (vmPdf d) (fun x => Real.sin (x - d.loc)) 0 := by
  have h := vm_exp d Real.continuous_sin Real.sin_periodic
  rw [circle_sin, zero_div] at h
  exact h

theorem log_vmPdf (d : VonMises) (x : ℝ) : Real.log (vmPdf d x) =
    d.concentration * Real.cos (x - d.loc) - Real.log (2 * π) - Real.log (bessel0 d.concentration) := by
  unfold vmPdf
  rw [Real.log_div (Real.exp_pos _).ne' (mul_pos (by positivity) (bessel0_pos _)).ne', Real.log_exp,
    Real.log_mul (by positivity) (bessel0_pos _).ne']
  ring

theorem log_i0e {k : ℝ} (hk : 0 ≤ k) : Real.log (i0e k) = -k + Real.log (bessel0 k) := by
  unfold i0e
  rw [Real.log_mul (Real.exp_pos _).ne' (bessel0_pos _).ne', Real.log_exp, abs_of_nonneg hk]

/-! ### Rounding -/

theorem rint_spec (x : ℝ) : |x - rint x| ≤ 1 / 2 := by
  have h0 := Int.floor_le x
  have h1 := Int.lt_floor_add_one x
  unfold rint
  split_ifs <;> rw [abs_le] <;> constructor <;> push_cast <;> linarith

theorem rint_unique {x : ℝ} {n : ℤ} (h : |x - n| < 1 / 2) : rint x = n := by
  have h2 := rint_spec x
  rw [abs_lt] at h
  rw [abs_le] at h2
  have h3 : (rint x : ℝ) < n + 1 := by linarith [h.1, h.2, h2.1, h2.2]
  have h4 : (n : ℝ) < rint x + 1 := by linarith [h.1, h.2, h2.1, h2.2]
  have h5 : rint x < n + 1 := by exact_mod_cast h3
  have h6 : n < rint x + 1 := by exact_mod_cast h4
  omega

/-- At a tie the even neighbour is taken. -/
theorem rint_tie (n : ℤ) : rint ((n : ℝ) + 1 / 2) = if Even n then n else n + 1 := by
  have hf : ⌊(n : ℝ) + 1 / 2⌋ = n := by
    rw [Int.floor_eq_iff]; constructor <;> linarith
  unfold rint
  rw [hf]
  have : (n : ℝ) + 1 / 2 - n = 1 / 2 := by ring
  rw [this]; simp

/-- Either strictly nearest, or a tie. -/
theorem rint_cases (x : ℝ) : |x - rint x| < 1 / 2 ∨ ∃ n : ℤ, x = n + 1 / 2 := by
  rcases lt_or_eq_of_le (rint_spec x) with h | h
  · exact Or.inl h
  · right
    rcases abs_choice (x - rint x) with h1 | h1
    · exact ⟨rint x, by linarith⟩
    · exact ⟨rint x - 1, by push_cast; linarith⟩

end Distrax
