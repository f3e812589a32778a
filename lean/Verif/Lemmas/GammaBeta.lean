import Verif.Lemmas.StdLaws3
import Verif.Model.GammaBeta
import Verif.Lemmas.XR

/-! Integrals for the gamma and beta laws. -/

namespace Distrax

open MeasureTheory Set Filter Topology Spec ProbabilityTheory

/-! ### Gibbs' inequality for densities with common support -/

theorem kl_term_nonneg {p q : ℝ} (hp : 0 ≤ p) (hq : 0 ≤ q) (h : q = 0 → p = 0) :
    p - q ≤ p * (Real.log p - Real.log q) := by
  rcases hp.lt_or_eq with hp | hp
  · refine kl_integrand_ge hp (lt_of_le_of_ne hq fun e => ?_)
    exact hp.ne' (h e.symm)
  · subst hp; simp; exact hq

theorem Spec.HasKL.nonneg_of_support {f g : ℝ → ℝ} {k : ℝ} (h : HasKL f g k) (hf : IsPdf f) (hg : IsPdf g)
    (hs : ∀ x, g x = 0 → f x = 0) : 0 ≤ k := by
  have h1 : ∫ x, (f x - g x) ≤ ∫ x, f x * (Real.log (f x) - Real.log (g x)) :=
    integral_mono (hf.integrable.sub hg.integrable) h.1 fun x => kl_term_nonneg (hf.nonneg x) (hg.nonneg x) (hs x)
  rw [integral_sub hf.integrable hg.integrable, hf.one, hg.one, sub_self, h.2] at h1
  exact h1

theorem Spec.HasKL.ae_eq_of_zero {f g : ℝ → ℝ} (h : HasKL f g 0) (hf : IsPdf f) (hg : IsPdf g)
    (hs : ∀ x, g x = 0 → f x = 0) : ∀ᵐ x, f x = g x := by
  have hint : Integrable fun x => f x * (Real.log (f x) - Real.log (g x)) - (f x - g x) :=
    h.1.sub (hf.integrable.sub hg.integrable)
  have h0 : ∫ x, (f x * (Real.log (f x) - Real.log (g x)) - (f x - g x)) = 0 := by
    have e1 := integral_sub h.1 (hf.integrable.sub hg.integrable)
    have e2 := integral_sub hf.integrable hg.integrable
    simp only [Pi.sub_apply] at e1
    rw [e1, e2, hf.one, hg.one, h.2]
    norm_num
  rw [integral_eq_zero_iff_of_nonneg
    (fun x => sub_nonneg.2 (kl_term_nonneg (hf.nonneg x) (hg.nonneg x) (hs x))) hint] at h0
  filter_upwards [h0] with x hx
  have hx : f x * (Real.log (f x) - Real.log (g x)) = f x - g x := sub_eq_zero.1 hx
  rcases (hf.nonneg x).lt_or_eq with hp | hp
  · refine kl_integrand_eq hp (lt_of_le_of_ne (hg.nonneg x) fun e => ?_) hx
    exact hp.ne' (hs x e.symm)
  · rw [← hp] at hx ⊢; linarith

theorem Spec.HasExp.congr_ae {f g h : ℝ → ℝ} {e : ℝ} (a : HasExp f h e) (hh : ∀ᵐ x, f x = g x) : HasExp g h e := by
  have e1 : (fun x => f x * h x) =ᵐ[volume] fun x => g x * h x := by
    filter_upwards [hh] with x hx; rw [hx]
  exact ⟨a.1.congr e1, by rw [← integral_congr_ae e1]; exact a.2⟩

theorem Spec.IsPdf.congr_ae {f g : ℝ → ℝ} (a : IsPdf f) (hh : ∀ᵐ x, f x = g x) (h0 : ∀ x, 0 ≤ g x) : IsPdf g :=
  ⟨h0, a.integrable.congr hh, by rw [← integral_congr_ae hh]; exact a.one⟩

/-! ### The standard gamma law -/

/-- density of the gamma law with rate one -/
noncomputable def stdGamma (a : ℝ) : ℝ → ℝ :=
  (Ioi (0 : ℝ)).indicator fun x => x ^ (a - 1) * Real.exp (-x) / Real.Gamma a

theorem stdGamma_hasExp {a : ℝ} {h : ℝ → ℝ} {e : ℝ}
    (hi : IntegrableOn (fun x => x ^ (a - 1) * (h x * Real.exp (-x))) (Ioi 0))
    (he : ∫ x in Ioi (0 : ℝ), x ^ (a - 1) * (h x * Real.exp (-x)) = e) : HasExp (stdGamma a) h (e / Real.Gamma a) := by
  have e0 : (fun x => stdGamma a x * h x)
      = (Ioi (0 : ℝ)).indicator fun x => x ^ (a - 1) * (h x * Real.exp (-x)) / Real.Gamma a := by
    funext x
    by_cases hx : x ∈ Ioi (0 : ℝ)
    · rw [stdGamma, indicator_of_mem hx, indicator_of_mem hx]; ring
    · rw [stdGamma, indicator_of_notMem hx, indicator_of_notMem hx, zero_mul]
  unfold HasExp
  rw [e0]
  refine ⟨(integrable_indicator_iff measurableSet_Ioi).2 (hi.div_const _), ?_⟩
  rw [integral_indicator measurableSet_Ioi, integral_div, he]

theorem stdGamma_rpow {a : ℝ} (s : ℝ) (has : 0 < a + s) {h : ℝ → ℝ} (hh : ∀ x, 0 < x → h x = x ^ s) :
    HasExp (stdGamma a) h (Real.Gamma (a + s) / Real.Gamma a) := by
  have h1 := Real.GammaIntegral_convergent has
  have h2 := Real.Gamma_eq_integral has
  have e : ∀ x ∈ Ioi (0 : ℝ), Real.exp (-x) * x ^ (a + s - 1) = x ^ (a - 1) * (h x * Real.exp (-x)) := by
    intro x hx
    rw [hh x hx, show a + s - 1 = (a - 1) + s by ring, Real.rpow_add hx]; ring
  refine stdGamma_hasExp ((integrableOn_congr_fun e measurableSet_Ioi).1 h1) ?_
  rw [h2, setIntegral_congr_fun measurableSet_Ioi e]

theorem stdGamma_pdf {a : ℝ} (ha : 0 < a) : IsPdf (stdGamma a) := by
  have h := stdGamma_rpow (a := a) 0 (by linarith) (h := fun _ => 1) (fun x _ => by simp)
  rw [add_zero, div_self (Real.Gamma_pos_of_pos ha).ne'] at h
  refine ⟨fun x => ?_, by simpa using h.1, by simpa using h.2⟩
  refine indicator_nonneg (fun x hx => ?_) x
  exact div_nonneg (mul_nonneg (Real.rpow_nonneg (le_of_lt hx) _) (Real.exp_pos _).le) (Real.Gamma_pos_of_pos ha).le

theorem stdGamma_mean {a : ℝ} (ha : 0 < a) : HasMean (stdGamma a) a := by
  have h := stdGamma_rpow (a := a) 1 (by linarith) (h := fun x => x) (fun x _ => by simp)
  rwa [Real.Gamma_add_one ha.ne', mul_div_assoc, div_self (Real.Gamma_pos_of_pos ha).ne', mul_one] at h

theorem stdGamma_sq {a : ℝ} (ha : 0 < a) : HasExp (stdGamma a) (fun x => x ^ 2) (a * (a + 1)) := by
  have h := stdGamma_rpow (a := a) 2 (by linarith) (h := fun x => x ^ 2) (fun x _ => by norm_cast)
  rw [show a + 2 = (a + 1) + 1 by ring, Real.Gamma_add_one (by linarith), Real.Gamma_add_one ha.ne',
    mul_div_assoc, mul_div_assoc, div_self (Real.Gamma_pos_of_pos ha).ne', mul_one] at h
  rwa [mul_comm]

theorem stdGamma_variance {a : ℝ} (ha : 0 < a) : HasVariance (stdGamma a) a := by
  have := (stdGamma_pdf ha).variance_of_sq (stdGamma_mean ha) (stdGamma_sq ha)
  rwa [show a * (a + 1) - a ^ 2 = a by ring] at this

theorem stdGamma_log {a : ℝ} (ha : 0 < a) : HasExp (stdGamma a) Real.log (digamma a) := by
  have h := gamma_log_integral ha
  exact stdGamma_hasExp h.1 h.2

/-! ### The beta law -/

theorem hasDerivAt_Gamma {a : ℝ} (ha : 0 < a) : HasDerivAt Real.Gamma (deriv Real.Gamma a) a :=
  (Real.differentiableAt_Gamma fun m h => by
    have : (0 : ℝ) ≤ m := by positivity
    linarith).hasDerivAt

theorem beta_hasDerivAt {a b : ℝ} (ha : 0 < a) (hb : 0 < b) :
    HasDerivAt (fun x => beta x b) (beta a b * (digamma a - digamma (a + b))) a := by
  have g1 := (Real.Gamma_pos_of_pos ha).ne'
  have g3 := (Real.Gamma_pos_of_pos (add_pos ha hb)).ne'
  have h1 := (hasDerivAt_Gamma ha).mul_const (Real.Gamma b)
  have h2 : HasDerivAt (fun x => Real.Gamma (x + b)) (deriv Real.Gamma (a + b)) a := by
    have h := (hasDerivAt_Gamma (add_pos ha hb)).comp a ((hasDerivAt_id a).add_const b)
    rw [mul_one] at h; exact h
  have h3 := h1.div h2 g3
  refine h3.congr_deriv ?_
  unfold beta digamma
  field_simp

theorem beta_log_integral {a b : ℝ} (ha : 0 < a) (hb : 0 < b) :
    IntegrableOn (fun x : ℝ => x ^ (a - 1) * (Real.log x * (1 - x) ^ (b - 1))) (Ioo 0 1) ∧
    ∫ x in Ioo (0 : ℝ) 1, x ^ (a - 1) * (Real.log x * (1 - x) ^ (b - 1))
      = beta a b * (digamma a - digamma (a + b)) := by
  set F : ℝ → ℂ := fun t => (((Ioo (0 : ℝ) 1).indicator (fun t => (1 - t) ^ (b - 1)) t : ℝ) : ℂ)
  have hb1 : IntegrableOn (fun t : ℝ => (1 - t) ^ (b - 1)) (Ioo 0 1) := by
    have := (beta_integral one_pos hb).1
    simpa using this
  have hF : Integrable F := ((integrable_indicator_iff measurableSet_Ioo).2 hb1).ofReal
  have hs' : 0 < (a : ℂ).re := by simpa using ha
  have key := mellin_hasDerivAt_of_isBigO_rpow (E := ℂ) (f := F) (s := (a : ℂ)) (a := (a : ℂ).re + 1) (b := 0)
    (hF.locallyIntegrable.locallyIntegrableOn _) ?_ (lt_add_one _) ?_ hs'
  · obtain ⟨hconv, hder⟩ := key
    have e : ∀ t : ℝ, t ∈ Ioi (0 : ℝ) → (t : ℂ) ^ ((a : ℂ) - 1) • ((Real.log t) • F t)
        = (((Ioo (0 : ℝ) 1).indicator (fun t => t ^ (a - 1) * (Real.log t * (1 - t) ^ (b - 1))) t : ℝ) : ℂ) := by
      intro t ht
      by_cases h : t ∈ Ioo (0 : ℝ) 1
      · simp only [F, indicator_of_mem h]
        rw [Complex.real_smul, smul_eq_mul, Complex.ofReal_mul, Complex.ofReal_mul, Complex.ofReal_cpow (le_of_lt ht)]
        push_cast; ring
      · simp only [F, indicator_of_notMem h]; simp
    have hi : IntegrableOn (fun t : ℝ => (((Ioo (0 : ℝ) 1).indicator
        (fun t => t ^ (a - 1) * (Real.log t * (1 - t) ^ (b - 1))) t : ℝ) : ℂ)) (Ioi 0) :=
      (integrableOn_congr_fun e measurableSet_Ioi).1 hconv
    have hi' : IntegrableOn (fun x : ℝ => x ^ (a - 1) * (Real.log x * (1 - x) ^ (b - 1))) (Ioo 0 1) := by
      have h1 := hi.re
      have h2 : IntegrableOn ((Ioo (0 : ℝ) 1).indicator
          (fun t => t ^ (a - 1) * (Real.log t * (1 - t) ^ (b - 1)))) (Ioi 0) := h1
      have h3 := h2.mono_set (show Ioo (0 : ℝ) 1 ⊆ Ioi 0 from fun t ht => ht.1)
      exact (integrableOn_congr_fun (fun t ht => indicator_of_mem ht _) measurableSet_Ioo).1 h3
    refine ⟨hi', ?_⟩
    have hval : mellin (fun t => Real.log t • F t) (a : ℂ)
        = ((∫ x in Ioo (0 : ℝ) 1, x ^ (a - 1) * (Real.log x * (1 - x) ^ (b - 1)) : ℝ) : ℂ) := by
      rw [mellin, setIntegral_congr_fun measurableSet_Ioi e, integral_complex_ofReal,
        setIntegral_indicator measurableSet_Ioo]
      rw [show Ioi (0 : ℝ) ∩ Ioo 0 1 = Ioo 0 1 from inter_eq_right.2 Ioo_subset_Ioi_self]
    have hm : ∀ x : ℝ, 0 < x → mellin F (x : ℂ) = ((beta x b : ℝ) : ℂ) := by
      intro x hx
      rw [← (beta_integral hx hb).2, mellin]
      have e2 : ∀ t : ℝ, t ∈ Ioi (0 : ℝ) → (t : ℂ) ^ ((x : ℂ) - 1) • F t
          = (((Ioo (0 : ℝ) 1).indicator (fun t => t ^ (x - 1) * (1 - t) ^ (b - 1)) t : ℝ) : ℂ) := by
        intro t ht
        by_cases h : t ∈ Ioo (0 : ℝ) 1
        · simp only [F, indicator_of_mem h]
          rw [smul_eq_mul, Complex.ofReal_mul, Complex.ofReal_cpow (le_of_lt ht)]
          push_cast; ring
        · simp only [F, indicator_of_notMem h]; simp
      rw [setIntegral_congr_fun measurableSet_Ioi e2, integral_complex_ofReal,
        setIntegral_indicator measurableSet_Ioo]
      rw [show Ioi (0 : ℝ) ∩ Ioo 0 1 = Ioo 0 1 from inter_eq_right.2 Ioo_subset_Ioi_self]
    rw [hval] at hder
    have h4 := hder.real_of_complex
    rw [Complex.ofReal_re] at h4
    have h5 : HasDerivAt (fun x => beta x b)
        (∫ x in Ioo (0 : ℝ) 1, x ^ (a - 1) * (Real.log x * (1 - x) ^ (b - 1))) a := by
      refine h4.congr_of_eventuallyEq ?_
      filter_upwards [Ioi_mem_nhds ha] with x hx
      rw [hm x hx, Complex.ofReal_re]
    exact h5.unique (beta_hasDerivAt ha hb)
  · refine Asymptotics.IsBigO.of_bound 0 ?_
    filter_upwards [eventually_gt_atTop 1] with t ht
    have : t ∉ Ioo (0 : ℝ) 1 := fun h => absurd h.2 (not_lt.2 ht.le)
    simp [F, indicator_of_notMem this]
  · simp_rw [neg_zero, Real.rpow_zero]
    have ht : Tendsto (fun t : ℝ => (((1 - t) ^ (b - 1) : ℝ) : ℂ)) (𝓝[>] 0) (𝓝 ((1 : ℝ) : ℂ)) := by
      refine (Complex.continuous_ofReal.tendsto 1).comp ?_
      have : ContinuousAt (fun t : ℝ => (1 - t) ^ (b - 1)) 0 :=
        ContinuousAt.rpow_const (by fun_prop) (.inl (by norm_num))
      have := this.tendsto
      simp only [sub_zero, Real.one_rpow] at this
      exact this.mono_left nhdsWithin_le_nhds
    refine Asymptotics.isBigO_const_of_tendsto (ht.congr' ?_) (by simp)
    filter_upwards [Ioo_mem_nhdsGT (show (0 : ℝ) < 1 by norm_num)] with t ht
    simp [F, indicator_of_mem ht]

theorem betaPDF_hasExp {a b : ℝ} {h : ℝ → ℝ} {e : ℝ} (ha : 0 < a) (hb : 0 < b)
    (hi : IntegrableOn (fun x => x ^ (a - 1) * (h x * (1 - x) ^ (b - 1))) (Ioo 0 1))
    (he : ∫ x in Ioo (0 : ℝ) 1, x ^ (a - 1) * (h x * (1 - x) ^ (b - 1)) = beta a b * e) :
    HasExp (betaPDFReal a b) h e := by
  have e0 : (fun x => betaPDFReal a b x * h x)
      = (Ioo (0 : ℝ) 1).indicator fun x => 1 / beta a b * (x ^ (a - 1) * (h x * (1 - x) ^ (b - 1))) := by
    funext x
    rw [betaPDFReal_indicator]
    by_cases hx : x ∈ Ioo (0 : ℝ) 1
    · rw [indicator_of_mem hx, indicator_of_mem hx]; ring
    · rw [indicator_of_notMem hx, indicator_of_notMem hx, zero_mul]
  unfold HasExp
  rw [e0]
  refine ⟨(integrable_indicator_iff measurableSet_Ioo).2 (hi.const_mul _), ?_⟩
  rw [integral_indicator measurableSet_Ioo, integral_const_mul, he]
  have := (beta_pos ha hb).ne'
  field_simp

theorem betaPDF_log {a b : ℝ} (ha : 0 < a) (hb : 0 < b) :
    HasExp (betaPDFReal a b) Real.log (digamma a - digamma (a + b)) :=
  betaPDF_hasExp ha hb (beta_log_integral ha hb).1 (beta_log_integral ha hb).2

theorem beta_comm (a b : ℝ) : beta a b = beta b a := by
  unfold beta; rw [add_comm a b, mul_comm (Real.Gamma a)]

theorem betaPDF_flip (a b x : ℝ) : betaPDFReal a b (1 - x) = betaPDFReal b a x := by
  unfold betaPDFReal
  by_cases h : 0 < x ∧ x < 1
  · rw [if_pos h, if_pos ⟨by linarith, by linarith⟩, beta_comm, sub_sub_cancel]; ring
  · rw [if_neg h, if_neg fun h' => h ⟨by linarith, by linarith⟩]

theorem betaPDF_log_one_sub {a b : ℝ} (ha : 0 < a) (hb : 0 < b) :
    HasExp (betaPDFReal a b) (fun x => Real.log (1 - x)) (digamma b - digamma (a + b)) := by
  obtain ⟨h1, h2⟩ := betaPDF_log hb ha
  have e : (fun x => betaPDFReal a b x * Real.log (1 - x))
      = fun x => (fun y => betaPDFReal b a y * Real.log y) (1 - x) := by
    funext x
    show _ = betaPDFReal b a (1 - x) * _
    rw [betaPDF_flip]
  unfold HasExp
  rw [e]
  refine ⟨h1.comp_sub_left 1, ?_⟩
  rw [integral_sub_left_eq_self (fun y => betaPDFReal b a y * Real.log y) volume 1, h2, add_comm b a]

theorem betaPDF_rpow {a b : ℝ} (ha : 0 < a) (hb : 0 < b) {s : ℝ} (hs : 0 < a + s) {h : ℝ → ℝ}
    (hh : ∀ x, 0 < x → x < 1 → h x = x ^ s) : HasExp (betaPDFReal a b) h (beta (a + s) b / beta a b) := by
  have e : ∀ x ∈ Ioo (0 : ℝ) 1, x ^ (a + s - 1) * (1 - x) ^ (b - 1) = x ^ (a - 1) * (h x * (1 - x) ^ (b - 1)) := by
    intro x hx
    rw [hh x hx.1 hx.2, show a + s - 1 = (a - 1) + s by ring, Real.rpow_add hx.1]; ring
  refine betaPDF_hasExp ha hb ((integrableOn_congr_fun e measurableSet_Ioo).1 (beta_integral hs hb).1) ?_
  rw [← setIntegral_congr_fun measurableSet_Ioo e, (beta_integral hs hb).2]
  have := (beta_pos ha hb).ne'
  field_simp

theorem beta_succ {a b : ℝ} (ha : 0 < a) (hb : 0 < b) : beta (a + 1) b / beta a b = a / (a + b) := by
  unfold beta
  rw [show a + 1 + b = (a + b) + 1 by ring, Real.Gamma_add_one ha.ne', Real.Gamma_add_one (by linarith)]
  have g1 := (Real.Gamma_pos_of_pos ha).ne'
  have g2 := (Real.Gamma_pos_of_pos hb).ne'
  have g3 := (Real.Gamma_pos_of_pos (add_pos ha hb)).ne'
  have : a + b ≠ 0 := by linarith
  field_simp

theorem betaPDF_mean {a b : ℝ} (ha : 0 < a) (hb : 0 < b) : HasMean (betaPDFReal a b) (a / (a + b)) := by
  have := betaPDF_rpow ha hb (s := 1) (by linarith) (h := fun x => x) fun x _ _ => by simp
  rwa [beta_succ ha hb] at this

theorem betaPDF_sq {a b : ℝ} (ha : 0 < a) (hb : 0 < b) :
    HasExp (betaPDFReal a b) (fun x => x ^ 2) ((a + 1) / (a + b + 1) * (a / (a + b))) := by
  have := betaPDF_rpow ha hb (s := 2) (by linarith) (h := fun x => x ^ 2) fun x _ _ => by norm_cast
  have e : beta (a + 2) b / beta a b = (beta (a + 1 + 1) b / beta (a + 1) b) * (beta (a + 1) b / beta a b) := by
    have h1 := (beta_pos ha hb).ne'
    have h2 := (beta_pos (show 0 < a + 1 by linarith) hb).ne'
    rw [show a + 1 + 1 = a + 2 by ring]
    field_simp
  rwa [e, beta_succ ha hb, beta_succ (by linarith) hb, show a + 1 + b = a + b + 1 by ring] at this

theorem betaPDF_variance {a b : ℝ} (ha : 0 < a) (hb : 0 < b) :
    HasVariance (betaPDFReal a b) (a * b / ((a + b) ^ 2 * (a + b + 1))) := by
  have := (betaPDF_isPdf ha hb).variance_of_sq (betaPDF_mean ha hb) (betaPDF_sq ha hb)
  have h1 : a + b ≠ 0 := by linarith
  have h2 : a + b + 1 ≠ 0 := by linarith
  rwa [show (a + 1) / (a + b + 1) * (a / (a + b)) - (a / (a + b)) ^ 2 = a * b / ((a + b) ^ 2 * (a + b + 1)) by
    field_simp; ring] at this

theorem logBeta_eq {a b : ℝ} (ha : 0 < a) (hb : 0 < b) : logBeta a b = Real.log (beta a b) := by
  have g1 := Real.Gamma_pos_of_pos ha
  have g2 := Real.Gamma_pos_of_pos hb
  have g3 := Real.Gamma_pos_of_pos (add_pos ha hb)
  rw [logBeta, lgamma, lgamma, lgamma, abs_of_pos g1, abs_of_pos g2, abs_of_pos g3, beta,
    Real.log_div (by positivity) g3.ne', Real.log_mul g1.ne' g2.ne']

end Distrax
