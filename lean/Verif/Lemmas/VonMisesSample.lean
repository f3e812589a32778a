import Verif.Lemmas.VonMises
import Verif.Spec.Noise
import Mathlib.MeasureTheory.Function.JacobianOneDim
import Mathlib.MeasureTheory.Measure.Prod
import Mathlib.Analysis.SpecialFunctions.Trigonometric.InverseDeriv
import Mathlib.MeasureTheory.Constructions.BorelSpace.Order

/-! The proposal of the rejection sampler: change of variables. -/

namespace Distrax

open MeasureTheory Real Set VonMises
open scoped ENNReal

/-- The inverse of `θ = arccos (candidate s u)` on `(0, 1)`. -/
noncomputable def unCandidate (s θ : ℝ) : ℝ := Real.arccos ((s * Real.cos θ - 1) / (s - Real.cos θ)) / π

theorem s_sub_pos {s : ℝ} (hs : 1 < s) (c : ℝ) : 0 < s - Real.cos c := by
  have := Real.cos_le_one c; linarith

theorem s_add_pos {s : ℝ} (hs : 1 < s) (c : ℝ) : 0 < s + Real.cos c := by
  have := Real.neg_one_le_cos c; linarith

theorem candidate_range {s : ℝ} (hs : 1 < s) (u : ℝ) : -1 ≤ candidate s u ∧ candidate s u ≤ 1 := by
  have h := s_add_pos hs (π * u)
  have h1 := Real.cos_le_one (π * u)
  have h2 := Real.neg_one_le_cos (π * u)
  unfold candidate
  constructor
  · rw [le_div_iff₀ h]; nlinarith
  · rw [div_le_one h]; nlinarith

theorem candidate_lt {s : ℝ} (hs : 1 < s) (u : ℝ) : 0 < s - candidate s u := by
  have := (candidate_range hs u).2; linarith

theorem sq_sub_one_pos {s : ℝ} (hs : 1 < s) : 0 < s ^ 2 - 1 := by nlinarith

theorem unc_range {s : ℝ} (hs : 1 < s) {θ : ℝ} (h : θ ∈ Ioo 0 π) :
    -1 < (s * Real.cos θ - 1) / (s - Real.cos θ) ∧ (s * Real.cos θ - 1) / (s - Real.cos θ) < 1 := by
  have h0 := s_sub_pos hs θ
  have hsin := Real.sin_pos_of_mem_Ioo h
  have hsq := Real.sin_sq_add_cos_sq θ
  have h1 : Real.cos θ < 1 := by nlinarith [Real.cos_le_one θ]
  have h2 : -1 < Real.cos θ := by nlinarith [Real.neg_one_le_cos θ]
  constructor
  · rw [lt_div_iff₀ h0]; nlinarith
  · rw [div_lt_one h0]; nlinarith

theorem unCandidate_mem {s : ℝ} (hs : 1 < s) {θ : ℝ} (h : θ ∈ Ioo 0 π) : unCandidate s θ ∈ Ioo (0 : ℝ) 1 := by
  have hr := unc_range hs h
  have hpi := Real.pi_pos
  unfold unCandidate
  constructor
  · exact div_pos (Real.arccos_pos.mpr hr.2) hpi
  · rw [div_lt_one hpi]
    exact Real.arccos_lt_pi.mpr hr.1

theorem candidate_unCandidate {s : ℝ} (hs : 1 < s) {θ : ℝ} (h : θ ∈ Ioo 0 π) :
    candidate s (unCandidate s θ) = Real.cos θ := by
  have hr := unc_range hs h
  have h0 := s_sub_pos hs θ
  have hpi := Real.pi_pos
  have hsq := sq_sub_one_pos hs
  unfold candidate unCandidate
  simp only
  rw [mul_div_cancel₀ _ hpi.ne', Real.cos_arccos hr.1.le hr.2.le]
  have e1 : 1 + s * ((s * Real.cos θ - 1) / (s - Real.cos θ)) = (s ^ 2 - 1) * Real.cos θ / (s - Real.cos θ) := by
    field_simp; ring
  have e2 : s + (s * Real.cos θ - 1) / (s - Real.cos θ) = (s ^ 2 - 1) / (s - Real.cos θ) := by
    field_simp; ring
  rw [e1, e2]
  field_simp

theorem acos_candidate_unCandidate {s : ℝ} (hs : 1 < s) {θ : ℝ} (h : θ ∈ Ioo 0 π) :
    Real.arccos (candidate s (unCandidate s θ)) = θ := by
  rw [candidate_unCandidate hs h, Real.arccos_cos h.1.le h.2.le]

theorem unCandidate_acos {s : ℝ} (hs : 1 < s) {u : ℝ} (h : u ∈ Ioo (0 : ℝ) 1) :
    Real.arccos (candidate s u) ∈ Ioo 0 π ∧ unCandidate s (Real.arccos (candidate s u)) = u := by
  have hpi := Real.pi_pos
  have hpu : π * u ∈ Ioo 0 π := ⟨mul_pos hpi h.1, by nlinarith [h.2]⟩
  have h0 := s_add_pos hs (π * u)
  have hsin := Real.sin_pos_of_mem_Ioo hpu
  have hsq := Real.sin_sq_add_cos_sq (π * u)
  have h1 : Real.cos (π * u) < 1 := by nlinarith [Real.cos_le_one (π * u)]
  have h2 : -1 < Real.cos (π * u) := by nlinarith [Real.neg_one_le_cos (π * u)]
  have hlt : candidate s u < 1 := by unfold candidate; simp only; rw [div_lt_one h0]; nlinarith
  have hgt : -1 < candidate s u := by unfold candidate; simp only; rw [lt_div_iff₀ h0]; nlinarith
  refine ⟨⟨Real.arccos_pos.mpr hlt, Real.arccos_lt_pi.mpr hgt⟩, ?_⟩
  unfold unCandidate
  rw [Real.cos_arccos hgt.le hlt.le]
  have hsq1 := sq_sub_one_pos hs
  have : (s * candidate s u - 1) / (s - candidate s u) = Real.cos (π * u) := by
    unfold candidate; simp only
    have e1 : s * ((1 + s * Real.cos (π * u)) / (s + Real.cos (π * u))) - 1
        = (s ^ 2 - 1) * Real.cos (π * u) / (s + Real.cos (π * u)) := by field_simp; ring
    have e2 : s - (1 + s * Real.cos (π * u)) / (s + Real.cos (π * u)) = (s ^ 2 - 1) / (s + Real.cos (π * u)) := by
      field_simp; ring
    rw [e1, e2]; field_simp
  rw [this, Real.arccos_cos hpu.1.le hpu.2.le]
  field_simp

theorem unCandidate_deriv {s : ℝ} (hs : 1 < s) {θ : ℝ} (h : θ ∈ Ioo 0 π) :
    HasDerivAt (unCandidate s) (Real.sqrt (s ^ 2 - 1) / (π * (s - Real.cos θ))) θ := by
  have hr := unc_range hs h
  have h0 := s_sub_pos hs θ
  have hsin := Real.sin_pos_of_mem_Ioo h
  have hsq1 := sq_sub_one_pos hs
  have hnum : HasDerivAt (fun t => s * Real.cos t - 1) (s * -Real.sin θ) θ :=
    ((Real.hasDerivAt_cos θ).const_mul s).sub_const 1
  have hden : HasDerivAt (fun t => s - Real.cos t) (- -Real.sin θ) θ := (Real.hasDerivAt_cos θ).const_sub s
  have hq := hnum.div hden h0.ne'
  have ha := (Real.hasDerivAt_arccos hr.1.ne' hr.2.ne).comp θ hq
  have hd := ha.div_const π
  refine HasDerivAt.congr_deriv (f := unCandidate s) hd ?_
  have hs2 : 1 - ((s * Real.cos θ - 1) / (s - Real.cos θ)) ^ 2 = (s ^ 2 - 1) * (Real.sin θ / (s - Real.cos θ)) ^ 2 := by
    field_simp
    have := Real.sin_sq_add_cos_sq θ
    have e : Real.sin θ ^ 2 = 1 - Real.cos θ ^ 2 := by linarith
    rw [e]; ring
  have hsqrt : Real.sqrt (1 - ((s * Real.cos θ - 1) / (s - Real.cos θ)) ^ 2)
      = Real.sqrt (s ^ 2 - 1) * (Real.sin θ / (s - Real.cos θ)) := by
    rw [hs2, Real.sqrt_mul hsq1.le, Real.sqrt_sq (by positivity)]
  rw [hsqrt]
  have hroot : 0 < Real.sqrt (s ^ 2 - 1) := Real.sqrt_pos.mpr hsq1
  have hrr : Real.sqrt (s ^ 2 - 1) ^ 2 = s ^ 2 - 1 := Real.sq_sqrt hsq1.le
  have hpi := Real.pi_pos
  field_simp
  rw [hrr]; ring

/-- Density of the proposed angle on a half turn, with respect to `du`. -/
noncomputable def propDens (s θ : ℝ) : ℝ := Real.sqrt (s ^ 2 - 1) / (π * (s - Real.cos θ))

theorem propDens_pos {s : ℝ} (hs : 1 < s) (θ : ℝ) : 0 < propDens s θ :=
  div_pos (Real.sqrt_pos.mpr (sq_sub_one_pos hs)) (mul_pos Real.pi_pos (s_sub_pos hs θ))

theorem proposal_half {s : ℝ} (hs : 1 < s) (F : ℝ → ℝ≥0∞) :
    ∫⁻ u in Ioo (0 : ℝ) 1, F (Real.arccos (candidate s u)) = ∫⁻ θ in Ioo 0 π, ENNReal.ofReal (propDens s θ) * F θ := by
  have himg : unCandidate s '' Ioo 0 π = Ioo (0 : ℝ) 1 := by
    ext u
    constructor
    · rintro ⟨θ, hθ, rfl⟩; exact unCandidate_mem hs hθ
    · intro hu; exact ⟨_, (unCandidate_acos hs hu).1, (unCandidate_acos hs hu).2⟩
  have hinj : InjOn (unCandidate s) (Ioo 0 π) := by
    intro a ha b hb hab
    rw [← acos_candidate_unCandidate hs ha, ← acos_candidate_unCandidate hs hb, hab]
  rw [← himg, lintegral_image_eq_lintegral_abs_deriv_mul measurableSet_Ioo
    (fun θ hθ => (unCandidate_deriv hs hθ).hasDerivWithinAt) hinj]
  refine setLIntegral_congr_fun measurableSet_Ioo fun θ hθ => ?_
  rw [acos_candidate_unCandidate hs hθ]
  exact congrArg (fun x => ENNReal.ofReal x * F θ) (abs_of_pos (propDens_pos hs θ))

theorem candidate_neg (s u : ℝ) : candidate s (-u) = candidate s u := by
  unfold candidate; simp

theorem lintegral_neg_half (F : ℝ → ℝ≥0∞) (b : ℝ) : ∫⁻ u in Ioo (-b) 0, F u = ∫⁻ u in Ioo 0 b, F (-u) := by
  have himg : (fun u : ℝ => -u) '' Ioo 0 b = Ioo (-b) 0 := by
    simp
  rw [← himg, lintegral_image_eq_lintegral_abs_deriv_mul (f' := fun _ => -1) measurableSet_Ioo
    (fun x _ => (hasDerivAt_neg x).hasDerivWithinAt) neg_injective.injOn]
  simp

theorem lintegral_two_halves (F : ℝ → ℝ≥0∞) {b : ℝ} (hb : 0 < b) :
    ∫⁻ u in Ioo (-b) b, F u = (∫⁻ u in Ioo 0 b, F u) + ∫⁻ u in Ioo 0 b, F (-u) := by
  have h1 : Ioo (-b) b = Ioo (-b) 0 ∪ Ico 0 b := (Ioo_union_Ico_eq_Ioo (by linarith) hb.le).symm
  rw [h1, lintegral_union measurableSet_Ico
    (by rw [Set.disjoint_left]; rintro x ⟨_, h⟩ ⟨h', _⟩; linarith), lintegral_neg_half, add_comm]
  congr 1
  exact setLIntegral_congr Ioo_ae_eq_Ico.symm

/-- The proposal: sign and modulus of the proposed angle. -/
theorem proposal_full {s : ℝ} (hs : 1 < s) (F : SignType → ℝ → ℝ≥0∞) :
    ∫⁻ u in Ioo (-1 : ℝ) 1, F (SignType.sign u) (Real.arccos (candidate s u))
      = (∫⁻ θ in Ioo 0 π, ENNReal.ofReal (propDens s θ) * F 1 θ) + ∫⁻ θ in Ioo 0 π, ENNReal.ofReal (propDens s θ) * F (-1) θ := by
  rw [lintegral_two_halves _ one_pos]
  congr 1
  · rw [← proposal_half hs]
    refine setLIntegral_congr_fun measurableSet_Ioo fun u hu => ?_
    simp only [sign_pos hu.1]
  · rw [← proposal_half hs]
    refine setLIntegral_congr_fun measurableSet_Ioo fun u hu => ?_
    simp only [candidate_neg, sign_neg (neg_neg_of_pos hu.1)]

/-! ### Acceptance -/

/-- `t e^{1-t} ≤ 1`. -/
theorem accept_le_one (y : ℝ) : y * Real.exp (1 - y) ≤ 1 := by
  have h := Real.add_one_le_exp (y - 1)
  have h2 : Real.exp (1 - y) * Real.exp (y - 1) = 1 := by rw [← Real.exp_add]; simp
  have h3 := Real.exp_pos (1 - y)
  nlinarith

theorem unit_Iic {t : ℝ} (h0 : 0 ≤ t) (h1 : t ≤ 1) : Spec.unit {v | ¬ (t < v)} = ENNReal.ofReal t := by
  have e : {v : ℝ | ¬ (t < v)} = Iic t := by ext v; simp
  rw [e, Spec.unit, Measure.restrict_apply measurableSet_Iic]
  rcases h1.eq_or_lt with rfl | h1
  · have : Iic (1 : ℝ) ∩ Ioo 0 1 = Ioo 0 1 := by ext v; simp; intro _ h; linarith
    rw [this, Real.volume_Ioo]; simp
  · have : Iic t ∩ Ioo 0 1 = Ioc 0 t := by
      ext v; simp only [mem_inter_iff, mem_Iic, mem_Ioo, mem_Ioc]
      constructor
      · rintro ⟨a, b, c⟩; exact ⟨b, a⟩
      · rintro ⟨a, b⟩; exact ⟨b, a, by linarith⟩
    rw [this, Real.volume_Ioc]; simp

/-- Noise of one round: `u` uniform on `(-1, 1)`, `v` uniform on `(0, 1)`, independent. -/
noncomputable def roundNoise : Measure (ℝ × ℝ) :=
  (ENNReal.ofReal (1 / 2) • volume.restrict (Ioo (-1 : ℝ) 1)).prod Spec.unit

instance : IsProbabilityMeasure Spec.unit := ⟨by simp [Spec.unit]⟩

instance : IsProbabilityMeasure (ENNReal.ofReal (1 / 2) • volume.restrict (Ioo (-1 : ℝ) 1)) := ⟨by
  simp only [Measure.smul_apply, Measure.restrict_apply MeasurableSet.univ, univ_inter, Real.volume_Ioo, smul_eq_mul]
  rw [← ENNReal.ofReal_mul (by norm_num)]; norm_num⟩

instance : IsProbabilityMeasure roundNoise := by unfold roundNoise; infer_instance

theorem candidate_measurable (s : ℝ) : Measurable (candidate s) := by
  unfold candidate; fun_prop

theorem accepts_measurable (k s : ℝ) : MeasurableSet {uv : ℝ × ℝ | accepts k s (candidate s uv.1) uv.2} := by
  unfold accepts
  simp only
  have h := candidate_measurable s
  have hm : Measurable fun uv : ℝ × ℝ => k * (s - candidate s uv.1) * Real.exp (1 - k * (s - candidate s uv.1)) := by
    fun_prop
  exact (measurableSet_lt hm measurable_snd).compl

/-- The accepted part of one round: the density of the accepted (sign, modulus) pairs is proportional to
`exp (k cos θ)`. -/
theorem round_accept {k s : ℝ} (hk : 0 < k) (hs : 1 < s) (F : SignType → ℝ → ℝ≥0∞)
    (hF : ∀ σ, Measurable (F σ)) :
    ∫⁻ uv in {uv : ℝ × ℝ | accepts k s (candidate s uv.1) uv.2}, F (SignType.sign uv.1) (Real.arccos (candidate s uv.1)) ∂roundNoise
      = ENNReal.ofReal (k * Real.sqrt (s ^ 2 - 1) * Real.exp (1 - k * s) / (2 * π)) *
        ∫⁻ θ in Ioo 0 π, ENNReal.ofReal (Real.exp (k * Real.cos θ)) * (F 1 θ + F (-1) θ) := by
  have hcm := candidate_measurable s
  have hFm : Measurable fun u : ℝ => F (SignType.sign u) (Real.arccos (candidate s u)) := by
    have e : (fun u : ℝ => F (SignType.sign u) (Real.arccos (candidate s u))) = fun u =>
        if 0 < u then F 1 (Real.arccos (candidate s u)) else
          if u < 0 then F (-1) (Real.arccos (candidate s u)) else F 0 (Real.arccos (candidate s u)) := by
      funext u
      split_ifs with h1 h2
      · rw [sign_pos h1]
      · rw [sign_neg h2]
      · rw [show u = 0 by linarith, sign_zero]
    have ha : Measurable fun u => Real.arccos (candidate s u) := Real.continuous_arccos.measurable.comp hcm
    rw [e]
    exact Measurable.ite measurableSet_Ioi ((hF 1).comp ha)
      (Measurable.ite measurableSet_Iio ((hF (-1)).comp ha) ((hF 0).comp ha))
  have hA := accepts_measurable k s
  set T : ℝ → ℝ := fun θ => k * (s - Real.cos θ) * Real.exp (1 - k * (s - Real.cos θ)) with hT
  have hTu : ∀ u, k * (s - candidate s u) * Real.exp (1 - k * (s - candidate s u)) = T (Real.arccos (candidate s u)) := by
    intro u
    simp only [hT]
    rw [Real.cos_arccos (candidate_range hs u).1 (candidate_range hs u).2]
  rw [← lintegral_indicator hA]
  have hind : Measurable ({uv : ℝ × ℝ | accepts k s (candidate s uv.1) uv.2}.indicator
      fun uv : ℝ × ℝ => F (SignType.sign uv.1) (Real.arccos (candidate s uv.1))) := (hFm.comp measurable_fst).indicator hA
  unfold roundNoise
  rw [lintegral_prod _ hind.aemeasurable]
  have hinner : ∀ u : ℝ, ∫⁻ v, {uv : ℝ × ℝ | accepts k s (candidate s uv.1) uv.2}.indicator
      (fun uv : ℝ × ℝ => F (SignType.sign uv.1) (Real.arccos (candidate s uv.1))) (u, v) ∂Spec.unit
      = ENNReal.ofReal (T (Real.arccos (candidate s u))) * F (SignType.sign u) (Real.arccos (candidate s u)) := by
    intro u
    have hy : 0 < k * (s - candidate s u) := mul_pos hk (candidate_lt hs u)
    have e : (fun v : ℝ => {uv : ℝ × ℝ | accepts k s (candidate s uv.1) uv.2}.indicator
        (fun uv : ℝ × ℝ => F (SignType.sign uv.1) (Real.arccos (candidate s uv.1))) (u, v))
        = {v : ℝ | ¬ (k * (s - candidate s u) * Real.exp (1 - k * (s - candidate s u)) < v)}.indicator
          (fun _ => F (SignType.sign u) (Real.arccos (candidate s u))) := by
      funext v; rfl
    have hm : MeasurableSet {v : ℝ | ¬ (k * (s - candidate s u) * Real.exp (1 - k * (s - candidate s u)) < v)} :=
      (measurableSet_lt measurable_const measurable_id).compl
    rw [e, lintegral_indicator hm, setLIntegral_const,
      unit_Iic (mul_nonneg hy.le (Real.exp_pos _).le) (accept_le_one _), hTu, mul_comm]
  simp only [hinner]
  rw [lintegral_smul_measure, smul_eq_mul, proposal_full hs (fun σ θ => ENNReal.ofReal (T θ) * F σ θ), ← lintegral_add_left']
  · rw [← lintegral_const_mul', ← lintegral_const_mul']
    · refine lintegral_congr fun θ => ?_
      have hp := propDens_pos hs θ
      have h0 := s_sub_pos hs θ
      have hTp : 0 < T θ := by simp only [hT]; positivity
      have e1 : ENNReal.ofReal (1 / 2) * ENNReal.ofReal (propDens s θ) * ENNReal.ofReal (T θ)
          = ENNReal.ofReal (k * Real.sqrt (s ^ 2 - 1) * Real.exp (1 - k * s) / (2 * π)) *
            ENNReal.ofReal (Real.exp (k * Real.cos θ)) := by
        rw [← ENNReal.ofReal_mul (by norm_num), ← ENNReal.ofReal_mul (by positivity), ← ENNReal.ofReal_mul (by positivity)]
        congr 1
        simp only [hT, propDens]
        rw [show 1 - k * (s - Real.cos θ) = (1 - k * s) + k * Real.cos θ by ring, Real.exp_add]
        field_simp
      rw [show ENNReal.ofReal (1 / 2) * (ENNReal.ofReal (propDens s θ) * (ENNReal.ofReal (T θ) * F 1 θ) +
          ENNReal.ofReal (propDens s θ) * (ENNReal.ofReal (T θ) * F (-1) θ))
        = ENNReal.ofReal (1 / 2) * ENNReal.ofReal (propDens s θ) * ENNReal.ofReal (T θ) * (F 1 θ + F (-1) θ) by ring, e1,
        mul_assoc]
    · exact ENNReal.ofReal_ne_top
    · exact ENNReal.ofReal_ne_top
  · have h1 := hF 1
    simp only [hT, propDens]
    fun_prop

end Distrax
