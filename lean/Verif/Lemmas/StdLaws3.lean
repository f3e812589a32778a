import Verif.Lemmas.StdLaws2
import Mathlib.Probability.Distributions.Beta
import Mathlib.Probability.Moments.MGFAnalytic
import Mathlib.Analysis.SpecialFunctions.Gamma.Deriv
import Mathlib.Analysis.SpecialFunctions.Trigonometric.Deriv

/-! Second moments of the logistic and Gumbel laws, through their moment generating functions; the real beta
integral. -/

namespace Distrax

open MeasureTheory Set Filter Topology Spec ProbabilityTheory

/-! ### Real beta integral -/

theorem betaPDFReal_nonneg {a b : ℝ} (ha : 0 < a) (hb : 0 < b) (x : ℝ) : 0 ≤ betaPDFReal a b x := by
  by_cases h : 0 < x ∧ x < 1
  · exact (betaPDFReal_pos h.1 h.2 ha hb).le
  · rw [betaPDFReal, if_neg h]

theorem betaPDF_isPdf {a b : ℝ} (ha : 0 < a) (hb : 0 < b) : IsPdf (betaPDFReal a b) := by
  have hl : ∫⁻ x, ENNReal.ofReal (betaPDFReal a b x) = 1 := lintegral_betaPDF_eq_one ha hb
  have hi : Integrable (betaPDFReal a b) := by
    refine ⟨(measurable_betaPDFReal a b).aestronglyMeasurable, ?_⟩
    rw [hasFiniteIntegral_iff_ofReal (ae_of_all _ (betaPDFReal_nonneg ha hb)), hl]
    exact ENNReal.one_lt_top
  refine ⟨betaPDFReal_nonneg ha hb, hi, ?_⟩
  rw [integral_eq_lintegral_of_nonneg_ae (ae_of_all _ (betaPDFReal_nonneg ha hb)) hi.1, hl, ENNReal.toReal_one]

theorem betaPDFReal_indicator (a b : ℝ) : betaPDFReal a b
    = (Ioo (0 : ℝ) 1).indicator fun x => (1 / beta a b) * (x ^ (a - 1) * (1 - x) ^ (b - 1)) := by
  ext x
  unfold betaPDFReal indicator
  by_cases h : 0 < x ∧ x < 1
  · rw [if_pos h, if_pos (by exact h), mul_assoc]
  · rw [if_neg h, if_neg (by exact h)]

/-- `∫₀¹ x^(a-1) (1-x)^(b-1) = B(a, b)`. -/
theorem beta_integral {a b : ℝ} (ha : 0 < a) (hb : 0 < b) :
    IntegrableOn (fun x : ℝ => x ^ (a - 1) * (1 - x) ^ (b - 1)) (Ioo 0 1) ∧
    ∫ x in Ioo (0 : ℝ) 1, x ^ (a - 1) * (1 - x) ^ (b - 1) = beta a b := by
  have h := betaPDF_isPdf ha hb
  have hp := beta_pos ha hb
  have h1 := h.integrable
  have h2 := h.one
  rw [betaPDFReal_indicator, integrable_indicator_iff measurableSet_Ioo] at h1
  rw [betaPDFReal_indicator, integral_indicator measurableSet_Ioo, integral_const_mul] at h2
  refine ⟨?_, by field_simp at h2; exact h2⟩
  have h3 := h1.const_mul (beta a b)
  refine h3.congr (ae_of_all _ fun x => ?_)
  show beta a b * (1 / beta a b * _) = _
  field_simp

/-! ### Moments from the moment generating function -/

theorem moments_of_mgf {g M : ℝ → ℝ} (hg : IsPdf g) (hc : Continuous g)
    (h : ∀ t, |t| < 1 → HasExp g (fun z => Real.exp (t * z)) (M t)) :
    AnalyticAt ℝ M 0 ∧ ∀ n : ℕ, HasExp g (fun z => z ^ n) (iteratedDeriv n M 0) := by
  set w : ℝ → ENNReal := fun x => ENNReal.ofReal (g x) with hw
  have hwm : Measurable w := hc.measurable.ennreal_ofReal
  have hwt : ∀ᵐ x ∂(volume : Measure ℝ), w x < ⊤ := ae_of_all _ fun x => ENNReal.ofReal_lt_top
  have hwr : ∀ x, (w x).toReal = g x := fun x => ENNReal.toReal_ofReal (hg.nonneg x)
  set μ : Measure ℝ := volume.withDensity w with hμ
  have hI : ∀ φ : ℝ → ℝ, Integrable φ μ ↔ Integrable fun x => g x * φ x := by
    intro φ
    rw [hμ, integrable_withDensity_iff_integrable_smul' hwm hwt]
    simp only [hwr, smul_eq_mul]
  have hE : ∀ φ : ℝ → ℝ, ∫ x, φ x ∂μ = ∫ x, g x * φ x := by
    intro φ
    rw [hμ, integral_withDensity_eq_integral_toReal_smul hwm hwt]
    simp only [hwr, smul_eq_mul]
  have hset : Ioo (-1 : ℝ) 1 ⊆ integrableExpSet id μ := by
    intro t ht
    show Integrable (fun ω => Real.exp (t * id ω)) μ
    rw [hI]; exact (h t (abs_lt.2 ht)).1
  have h0 : (0 : ℝ) ∈ interior (integrableExpSet id μ) :=
    interior_mono hset (by rw [interior_Ioo]; constructor <;> norm_num)
  have hM : mgf id μ =ᶠ[𝓝 0] M := by
    filter_upwards [Ioo_mem_nhds (by norm_num : (-1 : ℝ) < 0) (by norm_num : (0 : ℝ) < 1)] with t ht
    rw [mgf, hE]; exact (h t (abs_lt.2 ht)).2
  refine ⟨(analyticAt_mgf h0).congr hM, fun n => ?_⟩
  refine ⟨?_, ?_⟩
  · have := integrable_pow_of_mem_interior_integrableExpSet h0 n
    rw [hI] at this
    exact this
  · have h1 := iteratedDeriv_mgf_zero h0 n
    rw [hM.iteratedDeriv_eq] at h1
    rw [h1, hE]; rfl

theorem Spec.IsPdf.variance_of_sq {g : ℝ → ℝ} {m s : ℝ} (hg : IsPdf g) (hm : HasMean g m)
    (hs : HasExp g (fun z => z ^ 2) s) : HasVariance g (s - m ^ 2) := by
  refine ⟨m, hm, ?_⟩
  have := (hs.add (HasExp.smul (-2 * m) hm)).add (hg.const (m ^ 2))
  rw [show s + -2 * m * m + m ^ 2 = s - m ^ 2 by ring] at this
  exact this.congr fun z => by ring

/-! ### The function `Γ(1+t) Γ(1-t)` -/

theorem gamma_reflect {t : ℝ} : Real.Gamma (1 + t) * Real.Gamma (1 - t) * Real.sin (Real.pi * t) = Real.pi * t ∨
    Real.sin (Real.pi * t) = 0 := by
  by_cases h : Real.sin (Real.pi * t) = 0
  · exact .inr h
  · left
    have ht : t ≠ 0 := by rintro rfl; simp at h
    rw [add_comm, Real.Gamma_add_one ht, mul_assoc t, Real.Gamma_mul_Gamma_one_sub]
    rw [mul_assoc, div_mul_cancel₀ _ h, mul_comm]

/-- Its second derivative at zero. -/
theorem gamma_reflect_deriv2 {h : ℝ → ℝ} (ha : AnalyticAt ℝ h 0) (h0 : h 0 = 1)
    (hh : ∀ᶠ t in 𝓝 0, h t * Real.sin (Real.pi * t) = Real.pi * t) : iteratedDeriv 2 h 0 = Real.pi ^ 2 / 3 := by
  have hs : ContDiff ℝ 3 (fun t => Real.sin (Real.pi * t)) := by fun_prop
  have e1 : (fun t => h t * Real.sin (Real.pi * t)) =ᶠ[𝓝 0] fun t => Real.pi * t := hh
  have e2 := e1.iteratedDeriv_eq 3
  have e3 := iteratedDeriv_fun_mul (n := 3) (x := (0 : ℝ)) (ha.contDiffAt) (hs.contDiffAt (x := 0))
  have d : ∀ n : ℕ, iteratedDeriv n (fun t => Real.sin (Real.pi * t)) 0 = Real.pi ^ n * iteratedDeriv n Real.sin 0 := by
    intro n
    rw [iteratedDeriv_comp_const_mul (Real.contDiff_sin)]
    simp
  have s1 : iteratedDeriv 1 Real.sin 0 = 1 := by rw [iteratedDeriv_one, Real.deriv_sin, Real.cos_zero]
  have s2 : iteratedDeriv 2 Real.sin 0 = 0 := by
    simp
  have s3 : iteratedDeriv 3 Real.sin 0 = -1 := by
    simp
  have r : iteratedDeriv 3 (fun t : ℝ => Real.pi * t) 0 = 0 := by
    have := iteratedDeriv_comp_const_mul (n := 3) (f := id) (contDiff_id) Real.pi
    have h2 := congrFun this 0
    simp only [id] at h2
    rw [h2]
    have := iteratedDeriv_id (𝕜 := ℝ) (n := 3) (x := Real.pi * 0)
    rw [this]; simp
  rw [e3, r] at e2
  simp only [Finset.sum_range_succ, Finset.range_zero, Finset.sum_empty, d] at e2
  norm_num [s1, s2, s3, h0, show Nat.choose 3 2 = 3 by rfl] at e2
  have hp := Real.pi_pos
  have : 3 * iteratedDeriv 2 h 0 * Real.pi = Real.pi ^ 3 := by linarith
  field_simp
  have h4 : (3 * iteratedDeriv 2 h 0 - Real.pi ^ 2) * Real.pi = 0 := by linear_combination this
  rcases mul_eq_zero.1 h4 with h5 | h5
  · linarith
  · exact absurd h5 hp.ne'

/-! ### Logistic -/

theorem rsigmoid_image : rsigmoid '' univ = Ioo 0 1 := by
  rw [image_univ]
  ext u
  constructor
  · rintro ⟨z, rfl⟩; exact ⟨rsigmoid_pos z, rsigmoid_lt_one z⟩
  · rintro ⟨h0, h1⟩
    refine ⟨Real.log (u / (1 - u)), ?_⟩
    unfold rsigmoid
    have : 0 < u / (1 - u) := div_pos h0 (by linarith)
    rw [Real.exp_neg, Real.exp_log this]
    field_simp; ring

theorem rsigmoid_injOn : InjOn rsigmoid univ := by
  intro a _ b _ h
  unfold rsigmoid at h
  have h1 : (0 : ℝ) < 1 + Real.exp (-a) := by positivity
  have h2 : (0 : ℝ) < 1 + Real.exp (-b) := by positivity
  rw [div_eq_div_iff h1.ne' h2.ne'] at h
  have : Real.exp (-a) = Real.exp (-b) := by linarith
  have := Real.exp_injective this
  linarith

theorem rsigmoid_ratio (z t : ℝ) : Real.exp (t * z) = rsigmoid z ^ t * (1 - rsigmoid z) ^ (-t) := by
  have h1 := rsigmoid_pos z
  have h2 : 0 < 1 - rsigmoid z := by have := rsigmoid_lt_one z; linarith
  rw [Real.rpow_def_of_pos h1, Real.rpow_def_of_pos h2, ← Real.exp_add, ← rsigmoid_neg, rsigmoid_log, rsigmoid_log, neg_neg]
  congr 1
  have := rsoftplus_sub z
  linear_combination (-t) * this

theorem stdLogistic_mgf (t : ℝ) (ht : |t| < 1) :
    HasExp stdLogistic (fun z => Real.exp (t * z)) (Real.Gamma (1 + t) * Real.Gamma (1 - t)) := by
  obtain ⟨h1, h2⟩ := abs_lt.1 ht
  obtain ⟨a, b⟩ := beta_integral (a := 1 + t) (b := 1 - t) (by linarith) (by linarith)
  simp only [add_sub_cancel_left, sub_sub_cancel_left] at a b
  have e : (fun z => stdLogistic z * Real.exp (t * z)) =
      fun z => |rsigmoid z * (1 - rsigmoid z)| • (fun x : ℝ => x ^ t * (1 - x) ^ (-t)) (rsigmoid z) := by
    ext z
    have := stdLogistic_pos z
    unfold stdLogistic at this
    rw [abs_of_pos this, smul_eq_mul, rsigmoid_ratio]; rfl
  refine ⟨?_, ?_⟩
  · rw [← rsigmoid_image, integrableOn_image_iff_integrableOn_abs_deriv_smul MeasurableSet.univ
      (fun z _ => (rsigmoid_deriv z).hasDerivWithinAt) rsigmoid_injOn, integrableOn_univ] at a
    rw [e]; exact a
  · rw [← rsigmoid_image, integral_image_eq_integral_abs_deriv_smul MeasurableSet.univ
      (fun z _ => (rsigmoid_deriv z).hasDerivWithinAt) rsigmoid_injOn, setIntegral_univ] at b
    rw [e, b, beta, show 1 + t + (1 - t) = 2 by ring, Real.Gamma_two, div_one]

theorem gammaRefl_near : ∀ᶠ t : ℝ in 𝓝 0,
    Real.Gamma (1 + t) * Real.Gamma (1 - t) * Real.sin (Real.pi * t) = Real.pi * t := by
  filter_upwards [Ioo_mem_nhds (by norm_num : (-1 : ℝ) < 0) (by norm_num : (0 : ℝ) < 1)] with t ht
  rcases gamma_reflect (t := t) with h | h
  · exact h
  · rw [Real.sin_eq_zero_iff] at h
    obtain ⟨n, hn⟩ := h
    have h1 : (n : ℝ) = t := by
      have hp := Real.pi_pos
      have : ((n : ℝ) - t) * Real.pi = 0 := by linear_combination hn
      rcases mul_eq_zero.1 this with h5 | h5
      · linarith
      · exact absurd h5 hp.ne'
    have h2 : n = 0 := by
      have a1 : (-1 : ℝ) < n := h1 ▸ ht.1
      have a2 : (n : ℝ) < 1 := h1 ▸ ht.2
      have a3 : -1 < n := by exact_mod_cast a1
      have a4 : n < 1 := by exact_mod_cast a2
      omega
    rw [← h1, h2]; simp

theorem stdLogistic_variance : HasVariance stdLogistic (Real.pi ^ 2 / 3) := by
  obtain ⟨an, mom⟩ := moments_of_mgf stdLogistic_law.1 stdLogistic_cont stdLogistic_mgf
  have h2 := mom 2
  rw [gamma_reflect_deriv2 an (by simp) gammaRefl_near] at h2
  have := stdLogistic_law.1.variance_of_sq stdLogistic_mean h2
  simpa using this

/-! ### Gumbel -/

theorem stdGumbel_mgf (t : ℝ) (ht : |t| < 1) :
    HasExp stdGumbel (fun z => Real.exp (t * z)) (Real.Gamma (1 - t)) := by
  obtain ⟨a, b⟩ := abs_lt.1 ht
  have h1 := Real.GammaIntegral_convergent (s := 1 - t) (by linarith)
  have h2 := Real.Gamma_eq_integral (s := 1 - t) (by linarith)
  refine stdGumbel_hasExp (φ := fun u => Real.exp (-u) * u ^ (1 - t - 1)) h1 h2.symm ?_
  intro z
  rw [← Real.exp_mul]; ring_nf

theorem stdGumbel_variance : HasVariance stdGumbel (Real.pi ^ 2 / 6) := by
  obtain ⟨an, mom⟩ := moments_of_mgf stdGumbel_law.1 stdGumbel_cont stdGumbel_mgf
  set A : ℝ → ℝ := fun t => Real.Gamma (1 - t) with hA
  have an' : AnalyticAt ℝ (fun t => A (-t)) 0 := by
    have : AnalyticAt ℝ A (-(0 : ℝ)) := by rw [neg_zero]; exact an
    exact this.comp analyticAt_id.neg
  have hh : AnalyticAt ℝ (fun t => A (-t) * A t) 0 := an'.mul an
  have e0 : ∀ t, A (-t) * A t = Real.Gamma (1 + t) * Real.Gamma (1 - t) := by
    intro t; simp only [hA, sub_neg_eq_add]
  have k := gamma_reflect_deriv2 hh (by rw [e0]; simp) (by simp only [e0]; exact gammaRefl_near)
  have e3 := iteratedDeriv_fun_mul (n := 2) (x := (0 : ℝ)) an'.contDiffAt an.contDiffAt
  rw [k] at e3
  simp only [Finset.sum_range_succ, Finset.range_zero, Finset.sum_empty, iteratedDeriv_comp_neg] at e3
  have A0 : A 0 = 1 := by simp [hA]
  norm_num [A0] at e3
  have hm1 := mom 1
  have hm : HasMean stdGumbel (iteratedDeriv 1 A 0) := by
    refine HasExp.congr hm1 fun z => by simp
  have := stdGumbel_law.1.variance_of_sq hm (mom 2)
  rw [iteratedDeriv_one] at this
  convert this using 1
  linarith

end Distrax
