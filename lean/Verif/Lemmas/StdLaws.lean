import Verif.Lemmas.Continuous
import Mathlib.Probability.Distributions.Gaussian.Real
import Mathlib.NumberTheory.Harmonic.GammaDeriv
import Mathlib.Analysis.SpecialFunctions.Gamma.Deriv

/-! Standard laws: Gaussian, Laplace, logistic, Gumbel, and integrals against `exp(-t)`. -/

namespace Distrax

open MeasureTheory Set Filter Topology Spec ProbabilityTheory

/-! ### Gluing -/

theorem hasDerivAt_glue {F F1 F2 f : ℝ → ℝ} {a : ℝ} (h1 : ∀ x, x ≤ a → F x = F1 x) (h2 : ∀ x, a ≤ x → F x = F2 x)
    (d1 : ∀ x, x ≤ a → HasDerivAt F1 (f x) x) (d2 : ∀ x, a ≤ x → HasDerivAt F2 (f x) x) (x : ℝ) :
    HasDerivAt F (f x) x := by
  rcases lt_trichotomy x a with h | h | h
  · exact (d1 x h.le).congr_of_eventuallyEq (by filter_upwards [Iio_mem_nhds h] with y hy; exact h1 y (le_of_lt hy))
  · subst h
    have l := ((d1 x le_rfl).hasDerivWithinAt (s := Iic x)).congr (f₁ := F) (fun y hy => h1 y hy) (h1 x le_rfl)
    have r := ((d2 x le_rfl).hasDerivWithinAt (s := Ici x)).congr (f₁ := F) (fun y hy => h2 y hy) (h2 x le_rfl)
    have := l.union r
    rwa [Iic_union_Ici, hasDerivWithinAt_univ] at this
  · exact (d2 x h.le).congr_of_eventuallyEq (by filter_upwards [Ioi_mem_nhds h] with y hy; exact h2 y (le_of_lt hy))

/-! ### Gaussian -/

theorem gauss_pdf (μ : ℝ) {v : NNReal} (hv : v ≠ 0) : IsPdf (gaussianPDFReal μ v) :=
  ⟨gaussianPDFReal_nonneg μ v, integrable_gaussianPDFReal μ v, integral_gaussianPDFReal_eq_one μ hv⟩

theorem gauss_hasExp (μ : ℝ) {v : NNReal} (hv : v ≠ 0) {h : ℝ → ℝ} (hi : Integrable h (gaussianReal μ v)) :
    HasExp (gaussianPDFReal μ v) h (∫ x, h x ∂gaussianReal μ v) := by
  refine ⟨?_, ?_⟩
  · rw [gaussianReal_of_var_ne_zero μ hv,
      integrable_withDensity_iff (measurable_gaussianPDF μ v) (ae_of_all _ fun _ => gaussianPDF_lt_top)] at hi
    simpa only [toReal_gaussianPDF, mul_comm] using hi
  · rw [integral_gaussianReal_eq_integral_smul hv]; rfl

theorem gauss_mean (μ : ℝ) {v : NNReal} (hv : v ≠ 0) : HasMean (gaussianPDFReal μ v) μ := by
  have h := gauss_hasExp μ hv (h := fun x => x) (memLp_one_iff_integrable.1 (memLp_id_gaussianReal 1))
  rwa [integral_id_gaussianReal] at h

theorem gauss_sq (μ : ℝ) {v : NNReal} (hv : v ≠ 0) : HasExp (gaussianPDFReal μ v) (fun x => (x - μ) ^ 2) v := by
  have hi : Integrable (fun x : ℝ => (x - μ) ^ 2) (gaussianReal μ v) := by
    have h2 : MemLp (fun x : ℝ => x) 2 (gaussianReal μ v) := memLp_id_gaussianReal' 2 (by simp)
    have h3 : MemLp (fun x : ℝ => x - μ) 2 (gaussianReal μ v) := h2.sub (memLp_const μ)
    exact h3.integrable_sq
  have h := gauss_hasExp μ hv hi
  have e : ∫ x, (x - μ) ^ 2 ∂gaussianReal μ v = v := by
    have := variance_fun_id_gaussianReal (μ := μ) (v := v)
    rw [variance_eq_integral measurable_id'.aemeasurable, integral_id_gaussianReal] at this
    exact this
  rwa [e] at h

theorem gauss_variance (μ : ℝ) {v : NNReal} (hv : v ≠ 0) : HasVariance (gaussianPDFReal μ v) v :=
  ⟨μ, gauss_mean μ hv, gauss_sq μ hv⟩

/-! ### exponential tails -/

theorem tendsto_exp_atBot_mul_pow (n : ℕ) : Tendsto (fun x : ℝ => x ^ n * Real.exp x) atBot (𝓝 0) := by
  have h := (Real.tendsto_pow_mul_exp_neg_atTop_nhds_zero n).comp tendsto_neg_atBot_atTop
  have h2 := h.const_mul ((-1 : ℝ) ^ n)
  rw [mul_zero] at h2
  refine h2.congr fun x => ?_
  simp only [Function.comp, neg_neg]
  rw [← mul_assoc, ← mul_pow]; ring

/-! ### Standard Laplace -/

/-- density of the standard Laplace law -/
noncomputable def stdLaplace (z : ℝ) : ℝ := Real.exp (-|z|) / 2

/-- distribution function of the standard Laplace law -/
noncomputable def stdLaplaceCdf (z : ℝ) : ℝ := if z ≤ 0 then Real.exp z / 2 else 1 - Real.exp (-z) / 2

theorem stdLaplace_cont : Continuous stdLaplace := by unfold stdLaplace; fun_prop

theorem hasDerivAt_exp' (x : ℝ) : HasDerivAt (fun z => Real.exp z) (Real.exp x) x := Real.hasDerivAt_exp x

theorem stdLaplace_law : IsPdf stdLaplace ∧ IsCdf stdLaplace stdLaplaceCdf := by
  refine pdf_of_cdf (hasDerivAt_glue (a := 0) (F1 := fun z => Real.exp z / 2) (F2 := fun z => 1 - Real.exp (-z) / 2)
    ?_ ?_ ?_ ?_) stdLaplace_cont (fun x => by unfold stdLaplace; positivity) ?_ ?_
  · intro x hx; simp [stdLaplaceCdf, hx]
  · intro x hx
    rcases hx.eq_or_lt with rfl | h
    · simp [stdLaplaceCdf]; norm_num
    · simp [stdLaplaceCdf, not_le.2 h]
  · intro x hx
    refine ((hasDerivAt_exp' x).div_const 2).congr_deriv ?_
    rw [stdLaplace, abs_of_nonpos hx, neg_neg]
  · intro x hx
    refine (((expneg_deriv x).div_const 2).const_sub 1).congr_deriv ?_
    rw [stdLaplace, abs_of_nonneg hx]; ring
  · have : Tendsto (fun z : ℝ => Real.exp z / 2) atBot (𝓝 0) := by simpa using Real.tendsto_exp_atBot.div_const 2
    exact this.congr' (by filter_upwards [eventually_le_atBot 0] with z hz; simp [stdLaplaceCdf, hz])
  · have : Tendsto (fun z : ℝ => 1 - Real.exp (-z) / 2) atTop (𝓝 1) := by
      simpa using (Real.tendsto_exp_neg_atTop_nhds_zero.div_const 2).const_sub 1
    exact this.congr' (by filter_upwards [eventually_gt_atTop 0] with z hz; simp [stdLaplaceCdf, not_le.2 hz])

theorem stdLaplace_abs_of_nonneg {a : ℝ} (ha : 0 ≤ a) :
    HasExp stdLaplace (fun z => |z - a|) (a + Real.exp (-a)) := by
  let F0 : ℝ → ℝ := fun z => if z ≤ 0 then ((a + 1) - z) * Real.exp z / 2 else (z - a + 1) * Real.exp (-z) / 2 + a
  let F : ℝ → ℝ := fun z => if z ≤ a then F0 z else -(z - a + 1) * Real.exp (-z) / 2 + (a + Real.exp (-a))
  have key : ∀ x, HasDerivAt F (stdLaplace x * |x - a|) x := by
    refine hasDerivAt_glue (a := a) (F1 := F0)
      (F2 := fun z => -(z - a + 1) * Real.exp (-z) / 2 + (a + Real.exp (-a))) ?_ ?_ ?_ ?_
    · intro x hx; simp [F, hx]
    · intro x hx
      rcases hx.eq_or_lt with rfl | h
      · simp only [F, le_refl, if_true, F0]
        split
        · have : a = 0 := by linarith
          subst this; simp; norm_num
        · ring
      · simp [F, not_le.2 h]
    · intro x hxa
      refine hasDerivAt_glue (f := fun x => stdLaplace x * (a - x)) (a := 0)
        (F1 := fun z => ((a + 1) - z) * Real.exp z / 2) (F2 := fun z => (z - a + 1) * Real.exp (-z) / 2 + a)
        ?_ ?_ ?_ ?_ x |>.congr_deriv ?_
      · intro x hx; simp [F0, hx]
      · intro x hx
        rcases hx.eq_or_lt with rfl | h
        · simp [F0]; ring
        · simp [F0, not_le.2 h]
      · intro x hx
        refine ((((hasDerivAt_id x).const_sub (a + 1)).mul (hasDerivAt_exp' x)).div_const 2).congr_deriv ?_
        rw [stdLaplace, abs_of_nonpos hx, neg_neg]; simp only [id]; ring
      · intro x hx
        refine ((((((hasDerivAt_id x).sub_const a).add_const 1).mul (expneg_deriv x)).div_const 2).add_const a).congr_deriv ?_
        rw [stdLaplace, abs_of_nonneg hx]; simp only [id]; ring
      · rw [abs_of_nonpos (by linarith)]; ring
    · intro x hx
      refine (((((((hasDerivAt_id x).sub_const a).add_const 1).neg).mul (expneg_deriv x)).div_const 2).add_const
        (a + Real.exp (-a))).congr_deriv ?_
      rw [stdLaplace, abs_of_nonneg (by linarith : 0 ≤ x), abs_of_nonneg (by linarith : 0 ≤ x - a)]
      simp only [id, Pi.neg_apply]; ring
  have l0 : Tendsto F atBot (𝓝 0) := by
    have : Tendsto (fun z : ℝ => (a + 1) / 2 * (z ^ 0 * Real.exp z) - 1 / 2 * (z ^ 1 * Real.exp z)) atBot
        (𝓝 ((a + 1) / 2 * 0 - 1 / 2 * 0)) :=
      ((tendsto_exp_atBot_mul_pow 0).const_mul _).sub ((tendsto_exp_atBot_mul_pow 1).const_mul _)
    simp only [mul_zero, sub_zero] at this
    refine this.congr' ?_
    filter_upwards [eventually_le_atBot 0] with z hz
    simp only [F, F0, hz, hz.trans ha, if_true]; ring
  have l1 : Tendsto F atTop (𝓝 (a + Real.exp (-a))) := by
    have : Tendsto (fun z : ℝ => -(1 / 2) * (z ^ 1 * Real.exp (-z)) + (a - 1) / 2 * (z ^ 0 * Real.exp (-z))
        + (a + Real.exp (-a))) atTop (𝓝 (-(1 / 2) * 0 + (a - 1) / 2 * 0 + (a + Real.exp (-a)))) :=
      (((Real.tendsto_pow_mul_exp_neg_atTop_nhds_zero 1).const_mul _).add
        ((Real.tendsto_pow_mul_exp_neg_atTop_nhds_zero 0).const_mul _)).add_const _
    simp only [mul_zero, zero_add] at this
    refine this.congr' ?_
    filter_upwards [eventually_gt_atTop a] with z hz
    simp only [F, not_le.2 hz, if_false]; ring
  have := integral_of_antideriv key (by unfold stdLaplace; fun_prop)
    (fun x => by unfold stdLaplace; positivity) l0 l1
  rw [sub_zero] at this
  exact this

theorem Spec.HasExp.comp_neg {g h : ℝ → ℝ} {e : ℝ} (hg : ∀ z, g (-z) = g z) (he : HasExp g h e) :
    HasExp g (fun z => h (-z)) e := by
  have e0 : (fun z => g z * h (-z)) = fun z => (fun w => g w * h w) (-z) := by ext z; simp only [hg]
  refine ⟨by rw [e0]; exact he.1.comp_neg, ?_⟩
  rw [e0, integral_neg_eq_self (fun w => g w * h w), he.2]

theorem stdLaplace_even (z : ℝ) : stdLaplace (-z) = stdLaplace z := by simp [stdLaplace]

theorem stdLaplace_abs (a : ℝ) : HasExp stdLaplace (fun z => |z - a|) (|a| + Real.exp (-|a|)) := by
  rcases le_total 0 a with h | h
  · rw [abs_of_nonneg h]; exact stdLaplace_abs_of_nonneg h
  · rw [abs_of_nonpos h]
    refine ((stdLaplace_abs_of_nonneg (a := -a) (by linarith)).comp_neg stdLaplace_even).congr fun z => ?_
    rw [show -z - -a = -(z - a) by ring, abs_neg]

theorem stdLaplace_abs_zero : HasExp stdLaplace (fun z => |z|) 1 := by
  have := stdLaplace_abs 0
  simp only [sub_zero, abs_zero, neg_zero, Real.exp_zero, zero_add] at this
  exact this

theorem even_mean {g : ℝ → ℝ} (hg : ∀ z, g (-z) = g z) (hi : Integrable fun x => g x * x) : HasMean g 0 := by
  refine ⟨hi, ?_⟩
  have h := integral_neg_eq_self (fun x => g x * x) volume
  simp only [hg, mul_neg] at h
  rw [integral_neg] at h
  linarith

theorem stdLaplace_mean : HasMean stdLaplace 0 := by
  refine even_mean stdLaplace_even ?_
  refine stdLaplace_abs_zero.1.mono' (by
    exact (stdLaplace_cont.mul continuous_id).aestronglyMeasurable) (ae_of_all _ fun z => ?_)
  rw [norm_mul, Real.norm_of_nonneg (by unfold stdLaplace; positivity), Real.norm_eq_abs]

theorem stdLaplace_sq : HasExp stdLaplace (fun z => z ^ 2) 2 := by
  let F : ℝ → ℝ := fun z => if z ≤ 0 then (z ^ 2 - 2 * z + 2) * Real.exp z / 2
    else 2 - (z ^ 2 + 2 * z + 2) * Real.exp (-z) / 2
  have key : ∀ x, HasDerivAt F (stdLaplace x * x ^ 2) x := by
    refine hasDerivAt_glue (a := 0) (F1 := fun z => (z ^ 2 - 2 * z + 2) * Real.exp z / 2)
      (F2 := fun z => 2 - (z ^ 2 + 2 * z + 2) * Real.exp (-z) / 2) ?_ ?_ ?_ ?_
    · intro x hx; simp [F, hx]
    · intro x hx
      rcases hx.eq_or_lt with rfl | h
      · simp [F]; norm_num
      · simp [F, not_le.2 h]
    · intro x hx
      refine ((((((hasDerivAt_pow 2 x).sub ((hasDerivAt_id x).const_mul 2)).add_const 2).mul
        (hasDerivAt_exp' x)).div_const 2)).congr_deriv ?_
      rw [stdLaplace, abs_of_nonpos hx, neg_neg]; simp only [id, Pi.sub_apply]; norm_num; ring
    · intro x hx
      refine ((((((hasDerivAt_pow 2 x).add ((hasDerivAt_id x).const_mul 2)).add_const 2).mul
        (expneg_deriv x)).div_const 2).const_sub 2).congr_deriv ?_
      rw [stdLaplace, abs_of_nonneg hx]; simp only [id, Pi.add_apply]; norm_num; ring
  have l0 : Tendsto F atBot (𝓝 0) := by
    have : Tendsto (fun z : ℝ => 1 / 2 * (z ^ 2 * Real.exp z) - 1 * (z ^ 1 * Real.exp z) + 1 * (z ^ 0 * Real.exp z)) atBot
        (𝓝 (1 / 2 * 0 - 1 * 0 + 1 * 0)) :=
      (((tendsto_exp_atBot_mul_pow 2).const_mul _).sub ((tendsto_exp_atBot_mul_pow 1).const_mul _)).add
        ((tendsto_exp_atBot_mul_pow 0).const_mul _)
    simp only [mul_zero, sub_zero, add_zero] at this
    refine this.congr' ?_
    filter_upwards [eventually_le_atBot 0] with z hz
    simp only [F, hz, if_true]; ring
  have l1 : Tendsto F atTop (𝓝 2) := by
    have := ((((Real.tendsto_pow_mul_exp_neg_atTop_nhds_zero 2).const_mul (1 / 2)).add
        ((Real.tendsto_pow_mul_exp_neg_atTop_nhds_zero 1).const_mul 1)).add
        ((Real.tendsto_pow_mul_exp_neg_atTop_nhds_zero 0).const_mul 1)).const_sub 2
    simp only [mul_zero, add_zero, sub_zero] at this
    refine this.congr' ?_
    filter_upwards [eventually_gt_atTop 0] with z hz
    simp only [F, not_le.2 hz, if_false]; ring
  have := integral_of_antideriv key (by unfold stdLaplace; fun_prop)
    (fun x => by unfold stdLaplace; positivity) l0 l1
  rw [sub_zero] at this
  exact this

theorem stdLaplace_variance : HasVariance stdLaplace 2 :=
  ⟨0, stdLaplace_mean, by simpa only [sub_zero] using stdLaplace_sq⟩

theorem stdLaplace_entropy : HasEntropy stdLaplace (Real.log 2 + 1) := by
  refine HasExp.congr ((stdLaplace_law.1.const (Real.log 2)).add stdLaplace_abs_zero) fun z => ?_
  rw [stdLaplace, Real.log_div (Real.exp_ne_zero _) two_ne_zero, Real.log_exp]; ring

end Distrax
