import Verif.Props.VonMises
import Verif.Props.MVN2
import Verif.Props.Clipped

/-! # C56: the normal recipe, used from concentration 10.5 on -/

namespace Distrax

open Real

/-- The argument of the normal CDF. -/
noncomputable def vmXi (z k : ℝ) : ℝ :=
  z - z ^ 2 * z / ((24 * k - 2 * z ^ 2 - 16) / 3 - ((z ^ 2) ^ 2 + (7 / 4) * z ^ 2 + 167 / 2) / (24 * k - 56 - z ^ 2 + 3)) ^ 2

theorem cdfNormal_eq (x k : ℝ) :
    VonMises.cdfNormal x k = ndtr (vmXi (Real.sqrt (2 / π) / i0e k * Real.sin (0.5 * x)) k) := by
  unfold VonMises.cdfNormal vmXi Normal.cdf Normal.standardize
  simp only [sub_zero, div_one]

theorem vmXi_neg (z k : ℝ) : vmXi (-z) k = -vmXi z k := by
  unfold vmXi
  rw [neg_sq]; ring

/-- The normal recipe is symmetric, takes the value `1/2` at the centre, and never reaches `0` or `1`. -/
theorem C56_normal_recipe (x k : ℝ) : VonMises.cdfNormal x k + VonMises.cdfNormal (-x) k = 1 ∧
    VonMises.cdfNormal 0 k = 1 / 2 ∧ 0 < VonMises.cdfNormal x k ∧ VonMises.cdfNormal x k < 1 := by
  have hs : ∀ y, VonMises.cdfNormal y k + VonMises.cdfNormal (-y) k = 1 := by
    intro y
    rw [cdfNormal_eq, cdfNormal_eq, show (0.5 : ℝ) * -y = -(0.5 * y) by ring, Real.sin_neg, mul_neg, vmXi_neg]
    exact ndtr_add_neg _
  have hp : ∀ y, 0 < VonMises.cdfNormal y k := fun y => by rw [cdfNormal_eq]; exact ndtr_pos _
  refine ⟨hs x, ?_, hp x, ?_⟩
  · have := hs 0; rw [neg_zero] at this; linarith
  · have := hs x; have := hp (-x); linarith

/-- Consequently, from concentration `10.5` on, `cdf` does not reach one at the end of the turn and `cdf` and
`survival_function` do not add up to one (in exact arithmetic; stated for location zero).  Below the cutoff they do
(`C40_cdf_ends`, `C40_cdf_survival`). -/
theorem C56_normal_recipe_deficit (k : ℝ) (hk : 10.5 ≤ k) :
    (VonMises.mk 0 k).cdf VonMises.cdfCore π < 1 ∧ (VonMises.mk 0 k).survival VonMises.cdfCore (-π) < 1 ∧
      (VonMises.mk 0 k).cdf VonMises.cdfCore 0 + (VonMises.mk 0 k).survival VonMises.cdfCore 0 < 1 := by
  have hpi := Real.pi_pos
  have r0 : rint 0 = 0 := by apply rint_unique; norm_num
  have rp : rint (π / (2 * π)) = 0 := by
    have h := rint_tie 0
    rw [if_pos (by decide)] at h
    rw [show π / (2 * π) = ((0 : ℤ) : ℝ) + 1 / 2 by push_cast; field_simp; norm_num]
    exact h
  have rm : rint (-π / (2 * π)) = 0 := by
    have h := rint_tie (-1)
    rw [if_neg (by decide)] at h
    rw [show -π / (2 * π) = ((-1 : ℤ) : ℝ) + 1 / 2 by push_cast; field_simp; norm_num]
    rw [h]; norm_num
  have hc : convertAngle 0 = 0 := by unfold convertAngle; simp [r0]
  have core : ∀ x, VonMises.cdfCore x k = VonMises.cdfNormal x k := fun x => by
    unfold VonMises.cdfCore; rw [if_neg (not_lt.mpr hk)]
  have wp : VonMises.cdfWith VonMises.cdfCore π k = VonMises.cdfNormal π k := by
    unfold VonMises.cdfWith; simp [rp, core]
  have wm : VonMises.cdfWith VonMises.cdfCore (-π) k = VonMises.cdfNormal (-π) k := by
    unfold VonMises.cdfWith; simp only [rm, core]; simp
  have w0 : VonMises.cdfWith VonMises.cdfCore 0 k = 1 / 2 := by
    unfold VonMises.cdfWith; simp only [zero_div, r0, core]; simp [(C56_normal_recipe 0 k).2.1]
  have hP := C56_normal_recipe π k
  have hM := C56_normal_recipe (-π) k
  have lt1 : ∀ a : ℝ, a < 1 → VonMises.clip01 a < 1 := fun a ha => by
    unfold VonMises.clip01
    exact lt_of_le_of_lt (min_le_left _ _) (max_lt ha one_pos)
  unfold VonMises.cdf VonMises.survival
  simp only [hc, sub_zero, wp, wm, w0]
  have hne : VonMises.cdfNormal (-π) k < 1 := hM.2.2.2
  refine ⟨lt1 _ (by linarith [hP.2.2.2, hM.2.2.1]), lt1 _ (by linarith [hP.2.2.2, hM.2.2.1]), ?_⟩
  have e : VonMises.cdfNormal π k - 1 / 2 = 1 / 2 - VonMises.cdfNormal (-π) k := by linarith [hP.1]
  rw [e]
  have : VonMises.clip01 (1 / 2 - VonMises.cdfNormal (-π) k) < 1 / 2 := by
    unfold VonMises.clip01
    exact lt_of_le_of_lt (min_le_left _ _) (max_lt (by linarith [hM.2.2.1]) (by norm_num))
  linarith

end Distrax
