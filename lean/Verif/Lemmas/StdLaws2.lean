import Verif.Lemmas.StdLaws
import Verif.Model.Continuous
import Mathlib.Analysis.SpecialFunctions.Log.NegMulLog

/-! Standard logistic and Gumbel laws. -/

namespace Distrax

open MeasureTheory Set Filter Topology Spec

/-! ### Logistic -/

theorem rsigmoid_pos (x : ℝ) : 0 < rsigmoid x := by unfold rsigmoid; positivity

theorem rsigmoid_lt_one (x : ℝ) : rsigmoid x < 1 := by
  unfold rsigmoid
  rw [div_lt_one (by positivity)]
  have := Real.exp_pos (-x); linarith

theorem rsigmoid_neg (x : ℝ) : rsigmoid (-x) = 1 - rsigmoid x := by
  have h1 : 0 < 1 + Real.exp (-x) := by positivity
  have h2 : 0 < 1 + Real.exp x := by positivity
  have h3 : Real.exp x * Real.exp (-x) = 1 := by rw [← Real.exp_add]; simp
  unfold rsigmoid
  rw [neg_neg, eq_sub_iff_add_eq, div_add_div _ _ h2.ne' h1.ne', div_eq_one_iff_eq (by positivity)]
  linear_combination -h3

theorem rsigmoid_deriv (x : ℝ) : HasDerivAt rsigmoid (rsigmoid x * (1 - rsigmoid x)) x := by
  have h1 : (1 + Real.exp (-x)) ≠ 0 := by positivity
  have := ((expneg_deriv x).const_add 1).inv h1
  have e : rsigmoid = (fun z => 1 + Real.exp (-z))⁻¹ := by ext z; simp [rsigmoid]
  rw [e]
  refine this.congr_deriv ?_
  simp only [Pi.inv_apply]
  field_simp
  ring

theorem rsigmoid_log (x : ℝ) : Real.log (rsigmoid x) = -rsoftplus (-x) := by
  unfold rsigmoid rsoftplus; rw [one_div, Real.log_inv]

theorem rsoftplus_nonneg (x : ℝ) : 0 ≤ rsoftplus x := by
  unfold rsoftplus
  exact Real.log_nonneg (by have := Real.exp_pos x; linarith)

theorem rsoftplus_sub (x : ℝ) : rsoftplus x - rsoftplus (-x) = x := by
  unfold rsoftplus
  have h3 : Real.exp x * Real.exp (-x) = 1 := by rw [← Real.exp_add]; simp
  rw [← Real.log_div (by positivity) (by positivity)]
  have : (1 + Real.exp x) / (1 + Real.exp (-x)) = Real.exp x := by
    rw [div_eq_iff (by positivity)]; linear_combination -h3
  rw [this, Real.log_exp]

theorem rsoftplus_cont : Continuous rsoftplus := by
  unfold rsoftplus
  refine Continuous.log (by fun_prop) fun x => ?_
  have := Real.exp_pos x; positivity

theorem rsigmoid_cont : Continuous rsigmoid := continuous_iff_continuousAt.2 fun x => (rsigmoid_deriv x).continuousAt

theorem rsigmoid_bot : Tendsto rsigmoid atBot (𝓝 0) := by
  have : Tendsto (fun x : ℝ => 1 + Real.exp (-x)) atBot atTop :=
    tendsto_atTop_add_const_left _ _ (Real.tendsto_exp_atTop.comp tendsto_neg_atBot_atTop)
  exact (this.inv_tendsto_atTop).congr fun x => by simp [rsigmoid]

theorem rsigmoid_top : Tendsto rsigmoid atTop (𝓝 1) := by
  have := (rsigmoid_bot.comp tendsto_neg_atTop_atBot).const_sub 1
  rw [sub_zero] at this
  exact this.congr fun x => by simp [rsigmoid_neg]

/-- density of the standard logistic law -/
noncomputable def stdLogistic (z : ℝ) : ℝ := rsigmoid z * (1 - rsigmoid z)

theorem stdLogistic_pos (z : ℝ) : 0 < stdLogistic z :=
  mul_pos (rsigmoid_pos z) (by have := rsigmoid_lt_one z; linarith)

theorem stdLogistic_cont : Continuous stdLogistic := rsigmoid_cont.mul (continuous_const.sub rsigmoid_cont)

theorem stdLogistic_even (z : ℝ) : stdLogistic (-z) = stdLogistic z := by
  unfold stdLogistic; rw [rsigmoid_neg]; ring

theorem stdLogistic_exp (z : ℝ) : Real.exp (-z - 2 * rsoftplus (-z)) = stdLogistic z := by
  have h : Real.log (stdLogistic z) = -z - 2 * rsoftplus (-z) := by
    unfold stdLogistic
    rw [Real.log_mul (rsigmoid_pos z).ne' (by have := rsigmoid_lt_one z; linarith), ← rsigmoid_neg, rsigmoid_log,
      rsigmoid_log, neg_neg]
    have := rsoftplus_sub z; linarith
  rw [← h, Real.exp_log (stdLogistic_pos z)]

theorem stdLogistic_log (z : ℝ) : Real.log (stdLogistic z) = -rsoftplus z - rsoftplus (-z) := by
  rw [← stdLogistic_exp, Real.log_exp]
  have := rsoftplus_sub z; linarith

theorem stdLogistic_law : IsPdf stdLogistic ∧ IsCdf stdLogistic rsigmoid :=
  pdf_of_cdf rsigmoid_deriv stdLogistic_cont (fun z => (stdLogistic_pos z).le) rsigmoid_bot rsigmoid_top

theorem rsoftplus_deriv (x : ℝ) : HasDerivAt rsoftplus (rsigmoid x) x := by
  have h1 : (1 + Real.exp x) ≠ 0 := by positivity
  have := ((hasDerivAt_exp' x).const_add 1).log h1
  refine this.congr_deriv ?_
  have h3 : Real.exp x * Real.exp (-x) = 1 := by rw [← Real.exp_add]; simp
  unfold rsigmoid
  rw [div_eq_div_iff h1 (by positivity)]; linear_combination h3

theorem stdLogistic_softplus_neg : HasExp stdLogistic (fun z => rsoftplus (-z)) 1 := by
  have key : ∀ x, HasDerivAt (fun z => rsigmoid z + rsigmoid z * rsoftplus (-z)) (stdLogistic x * rsoftplus (-x)) x := by
    intro x
    have d : HasDerivAt (fun z => rsoftplus (-z)) (-rsigmoid (-x)) x := by
      have := (rsoftplus_deriv (-x)).comp x (hasDerivAt_neg x)
      exact this.congr_deriv (by ring)
    refine ((rsigmoid_deriv x).add ((rsigmoid_deriv x).mul d)).congr_deriv ?_
    rw [rsigmoid_neg, stdLogistic]; ring
  have e : (fun z => rsigmoid z + rsigmoid z * rsoftplus (-z)) = fun z => rsigmoid z + Real.negMulLog (rsigmoid z) := by
    ext z; rw [Real.negMulLog, rsigmoid_log]; ring
  have l0 : Tendsto (fun z => rsigmoid z + rsigmoid z * rsoftplus (-z)) atBot (𝓝 0) := by
    rw [e]
    have := rsigmoid_bot.add ((Real.continuous_negMulLog.tendsto 0).comp rsigmoid_bot)
    simpa using this
  have l1 : Tendsto (fun z => rsigmoid z + rsigmoid z * rsoftplus (-z)) atTop (𝓝 1) := by
    rw [e]
    have := rsigmoid_top.add ((Real.continuous_negMulLog.tendsto 1).comp rsigmoid_top)
    simpa using this
  have := integral_of_antideriv key (stdLogistic_cont.mul (rsoftplus_cont.comp continuous_neg))
    (fun x => mul_nonneg (stdLogistic_pos x).le (rsoftplus_nonneg _)) l0 l1
  rw [sub_zero] at this
  exact this

theorem stdLogistic_softplus : HasExp stdLogistic rsoftplus 1 := by
  have := stdLogistic_softplus_neg.comp_neg stdLogistic_even
  simpa only [neg_neg] using this

theorem stdLogistic_mean : HasMean stdLogistic 0 := by
  have := stdLogistic_softplus.add (stdLogistic_softplus_neg.smul (-1))
  rw [show (1 : ℝ) + -1 * 1 = 0 by norm_num] at this
  refine HasExp.congr this fun z => ?_
  have := rsoftplus_sub z
  linear_combination -(stdLogistic z) * this

theorem stdLogistic_entropy : HasEntropy stdLogistic 2 := by
  have := stdLogistic_softplus.add stdLogistic_softplus_neg
  rw [show (1 : ℝ) + 1 = 2 by norm_num] at this
  exact HasExp.congr this fun z => by rw [stdLogistic_log]; ring

/-! ### Integrals against `exp(-t)` -/

/-- `∫ t^(s-1) log t e^{-t} = Γ'(s)`. -/
theorem gamma_log_integral {s : ℝ} (hs : 0 < s) :
    IntegrableOn (fun t : ℝ => t ^ (s - 1) * (Real.log t * Real.exp (-t))) (Ioi 0) ∧
    ∫ t in Ioi (0 : ℝ), t ^ (s - 1) * (Real.log t * Real.exp (-t)) = deriv Real.Gamma s := by
  have hs' : 0 < (s : ℂ).re := by simpa using hs
  have hmel : MellinConvergent (fun t : ℝ => Real.log t • ((Real.exp (-t) : ℝ) : ℂ)) (s : ℂ) := by
    refine (mellin_hasDerivAt_of_isBigO_rpow (E := ℂ) (a := (s : ℂ).re + 1) (b := 0) ?_ ?_ (lt_add_one _) ?_ hs').1
    · refine (Continuous.continuousOn ?_).locallyIntegrableOn measurableSet_Ioi
      exact Complex.continuous_ofReal.comp (Real.continuous_exp.comp continuous_neg)
    · rw [← Asymptotics.isBigO_norm_left]
      simp_rw [Complex.norm_real, Asymptotics.isBigO_norm_left]
      simpa only [neg_one_mul] using (isLittleO_exp_neg_mul_rpow_atTop zero_lt_one _).isBigO
    · simp_rw [neg_zero, Real.rpow_zero]
      refine Asymptotics.isBigO_const_of_tendsto (?_ : Tendsto _ _ (𝓝 (1 : ℂ))) one_ne_zero
      rw [(by simp : (1 : ℂ) = Real.exp (-0))]
      exact (Complex.continuous_ofReal.comp (Real.continuous_exp.comp continuous_neg)).continuousWithinAt
  have e : ∀ t ∈ Ioi (0 : ℝ), (t : ℂ) ^ ((s : ℂ) - 1) * ((Real.log t : ℂ) * (Real.exp (-t) : ℝ))
      = ((t ^ (s - 1) * (Real.log t * Real.exp (-t)) : ℝ) : ℂ) := by
    intro t ht
    rw [Complex.ofReal_mul, Complex.ofReal_mul, Complex.ofReal_cpow (le_of_lt ht)]
    push_cast; ring
  refine ⟨?_, ?_⟩
  · have h1 : IntegrableOn (fun t : ℝ => ((t ^ (s - 1) * (Real.log t * Real.exp (-t)) : ℝ) : ℂ)) (Ioi 0) := by
      refine (integrableOn_congr_fun (fun t ht => ?_) measurableSet_Ioi).1 hmel
      rw [← e t ht]; simp [Complex.real_smul]
    exact h1.re
  · have hd := Complex.hasDerivAt_GammaIntegral hs'
    have hd2 : HasDerivAt Complex.Gamma (∫ t : ℝ in Ioi 0, (t : ℂ) ^ ((s : ℂ) - 1) * (Real.log t * Real.exp (-t))) s := by
      refine hd.congr_of_eventuallyEq ?_
      have : IsOpen {z : ℂ | 0 < z.re} := Complex.continuous_re.isOpen_preimage _ isOpen_Ioi
      filter_upwards [this.mem_nhds hs'] with z hz
      exact Complex.Gamma_eq_integral hz
    have h2 : ∫ t : ℝ in Ioi 0, (t : ℂ) ^ ((s : ℂ) - 1) * (Real.log t * Real.exp (-t))
        = ((∫ t in Ioi (0 : ℝ), t ^ (s - 1) * (Real.log t * Real.exp (-t)) : ℝ) : ℂ) := by
      rw [← integral_complex_ofReal]
      exact setIntegral_congr_fun measurableSet_Ioi e
    rw [h2] at hd2
    have h3 := HasDerivAt.real_of_complex hd2
    rw [Complex.ofReal_re] at h3
    have h4 : HasDerivAt Real.Gamma (∫ t in Ioi (0 : ℝ), t ^ (s - 1) * (Real.log t * Real.exp (-t))) s := by
      refine h3.congr_of_eventuallyEq (Eventually.of_forall fun x => ?_)
      show Real.Gamma x = (Complex.Gamma x).re
      rw [Complex.Gamma_ofReal, Complex.ofReal_re]
    exact h4.deriv.symm

/-! ### Standard Gumbel -/

/-- density of the standard Gumbel law -/
noncomputable def stdGumbel (z : ℝ) : ℝ := Real.exp (-(z + Real.exp (-z)))

/-- distribution function of the standard Gumbel law -/
noncomputable def stdGumbelCdf (z : ℝ) : ℝ := Real.exp (-Real.exp (-z))

theorem stdGumbel_eq (z : ℝ) : stdGumbel z = Real.exp (-z) * Real.exp (-Real.exp (-z)) := by
  rw [stdGumbel, ← Real.exp_add]; ring_nf

theorem stdGumbel_cont : Continuous stdGumbel := by unfold stdGumbel; fun_prop

theorem stdGumbel_law : IsPdf stdGumbel ∧ IsCdf stdGumbel stdGumbelCdf := by
  refine pdf_of_cdf ?_ stdGumbel_cont (fun z => (Real.exp_pos _).le) ?_ ?_
  · intro z
    have := (Real.hasDerivAt_exp (-Real.exp (-z))).comp z (expneg_deriv z).neg
    refine HasDerivAt.congr_deriv (f := stdGumbelCdf) this ?_
    rw [stdGumbel_eq]; ring
  · have h1 : Tendsto (fun z : ℝ => -Real.exp (-z)) atBot atBot :=
      tendsto_neg_atTop_atBot.comp (Real.tendsto_exp_atTop.comp tendsto_neg_atBot_atTop)
    exact Real.tendsto_exp_atBot.comp h1
  · have h1 : Tendsto (fun z : ℝ => -Real.exp (-z)) atTop (𝓝 0) := by
      simpa using Real.tendsto_exp_neg_atTop_nhds_zero.neg
    have := (Real.continuous_exp.tendsto 0).comp h1
    rw [Real.exp_zero] at this
    exact this

theorem stdGumbel_hasExp {φ : ℝ → ℝ} {e : ℝ} {h : ℝ → ℝ} (hφ : IntegrableOn φ (Ioi 0)) (he : ∫ u in Ioi 0, φ u = e)
    (hh : ∀ z, Real.exp (-Real.exp (-z)) * h z = φ (Real.exp (-z))) : HasExp stdGumbel h e := by
  have e0 : (fun z => stdGumbel z * h z) = fun z => Real.exp (-z) * φ (Real.exp (-z)) := by
    ext z; rw [← hh, stdGumbel_eq]; ring
  refine ⟨by rw [e0]; exact expneg_integrable hφ, ?_⟩
  rw [e0, expneg_integral, he]

theorem stdGumbel_mean : HasMean stdGumbel Real.eulerMascheroniConstant := by
  obtain ⟨h1, h2⟩ := gamma_log_integral one_pos
  simp only [sub_self, Real.rpow_zero, one_mul] at h1 h2
  refine stdGumbel_hasExp (φ := fun u => -(Real.log u * Real.exp (-u))) h1.neg ?_ ?_
  · rw [integral_neg, h2, Real.eulerMascheroniConstant_eq_neg_deriv]
  · intro z; simp only [Real.log_exp]; ring

theorem stdGumbel_expneg {k : ℝ} (hk : 0 ≤ k) : HasExp stdGumbel (fun z => Real.exp (-(k * z))) (Real.Gamma (k + 1)) := by
  have h1 := Real.GammaIntegral_convergent (s := k + 1) (by linarith)
  have h2 := Real.Gamma_eq_integral (s := k + 1) (by linarith)
  refine stdGumbel_hasExp (φ := fun u => Real.exp (-u) * u ^ (k + 1 - 1)) h1 h2.symm ?_
  intro z
  simp only [add_sub_cancel_right]
  rw [← Real.exp_mul]; ring_nf

theorem stdGumbel_entropy : HasEntropy stdGumbel (1 + Real.eulerMascheroniConstant) := by
  have h1 := stdGumbel_expneg zero_le_one
  rw [show (1 : ℝ) + 1 = 2 by norm_num, Real.Gamma_two] at h1
  refine HasExp.congr (h1.add stdGumbel_mean) fun z => ?_
  rw [stdGumbel, Real.log_exp]; ring_nf

end Distrax
