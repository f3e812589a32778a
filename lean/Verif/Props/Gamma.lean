import Verif.Lemmas.GammaBeta
import Verif.Lemmas.Categorical
import Verif.Props.Multinomial

/-! Property C39 (Gamma). -/

namespace Distrax

open MeasureTheory Set Spec XR

open GammaD

/-- The density the object reports: `exp(log_prob(x))` where `log_prob` is a number, 0 elsewhere. -/
noncomputable def GammaD.pdf (d : GammaD) (x : ℝ) : ℝ := weight (d.logProb (fin x))

theorem xlgamma_pos {a : ℝ} (ha : 0 < a) : xlgamma a = fin (Real.log (Real.Gamma a)) := by
  rw [xlgamma, if_neg, lgamma, abs_of_pos (Real.Gamma_pos_of_pos ha)]
  rintro ⟨k, hk⟩
  have : (0 : ℝ) ≤ k := by positivity
  linarith

theorem GammaD.logProb_pos {d : GammaD} (ha : 0 < d.concentration) (hr : 0 < d.rate) {x : ℝ} (hx : 0 < x) :
    d.logProb (fin x) = fin (d.concentration * Real.log d.rate + (d.concentration - 1) * Real.log x - d.rate * x
      - Real.log (Real.Gamma d.concentration)) := by
  simp only [logProb, log_fin_pos hr, log_fin_pos hx, xlgamma_pos ha, fin_mul, fin_add, fin_sub]

/-- On the open support, `log_prob` is the log of `r^a x^(a-1) e^(-r x) / Gamma(a)`. -/
theorem C39_log_prob (d : GammaD) (ha : 0 < d.concentration) (hr : 0 < d.rate) {x : ℝ} (hx : 0 < x) :
    d.logProb (fin x) = fin (Real.log (d.rate ^ d.concentration * x ^ (d.concentration - 1) * Real.exp (-(d.rate * x))
      / Real.Gamma d.concentration)) := by
  rw [logProb_pos ha hr hx]
  congr 1
  have h1 := Real.rpow_pos_of_pos hr d.concentration
  have h2 := Real.rpow_pos_of_pos hx (d.concentration - 1)
  have h3 := Real.Gamma_pos_of_pos ha
  rw [Real.log_div (by positivity) h3.ne', Real.log_mul (by positivity) (by positivity),
    Real.log_mul h1.ne' h2.ne', Real.log_rpow hr, Real.log_rpow hx, Real.log_exp]
  ring

/-- At the boundary and outside the support.  Findings: at `x = 0` the result is nan when `concentration = 1`
(the density there is `rate`), and for negative `x` it is nan rather than `-inf`. -/
theorem C39_boundary (d : GammaD) (ha : 0 < d.concentration) (hr : 0 < d.rate) :
    (1 < d.concentration → d.logProb (fin 0) = ninf) ∧ (d.concentration < 1 → d.logProb (fin 0) = pinf) ∧
    (d.concentration = 1 → d.logProb (fin 0) = nan) ∧ ∀ x < 0, d.logProb (fin x) = nan := by
  have e : d.logProb (fin 0) = fin (d.concentration * Real.log d.rate) + fin (d.concentration - 1) * ninf - fin 0
      - fin (Real.log (Real.Gamma d.concentration)) := by
    simp only [logProb, log_fin_pos hr, log_fin_zero, xlgamma_pos ha, fin_mul, mul_zero]
  refine ⟨fun h => ?_, fun h => ?_, fun h => ?_, fun x hx => ?_⟩
  · have : (fin (d.concentration - 1) * ninf : XR) = ninf := by
      show infOf (-(d.concentration - 1)) = _
      unfold infOf
      rw [if_neg (by linarith), if_pos (by linarith)]
    rw [e, this]; rfl
  · have : (fin (d.concentration - 1) * ninf : XR) = pinf := by
      show infOf (-(d.concentration - 1)) = _
      unfold infOf
      rw [if_pos (by linarith)]
    rw [e, this]; rfl
  · have : (fin (d.concentration - 1) * ninf : XR) = nan := by
      show infOf (-(d.concentration - 1)) = _
      unfold infOf
      rw [if_neg (by linarith), if_neg (by linarith)]
    rw [e, this]; rfl
  · have : XR.log (fin x) = nan := by
      show (if 0 < x then _ else _) = _
      rw [if_neg (by linarith), if_neg (by linarith)]
    simp only [logProb, this, log_fin_pos hr, xlgamma_pos ha]
    rfl

theorem GammaD.pdf_eq {d : GammaD} (ha : 0 < d.concentration) (hr : 0 < d.rate) :
    d.pdf = fun x => stdGamma d.concentration ((x - 0) / (1 / d.rate)) / (1 / d.rate) := by
  funext x
  rw [show (x - 0) / (1 / d.rate) = d.rate * x by field_simp; ring]
  rcases lt_trichotomy x 0 with hx | hx | hx
  · rw [GammaD.pdf, (C39_boundary d ha hr).2.2.2 x hx, stdGamma, indicator_of_notMem]
    · simp [weight]
    · exact fun h => absurd (mem_Ioi.1 h) (not_lt.2 (mul_nonpos_of_nonneg_of_nonpos hr.le hx.le))
  · subst hx
    rw [stdGamma, indicator_of_notMem (by simp), zero_div, GammaD.pdf]
    obtain ⟨h1, h2, h3, _⟩ := C39_boundary d ha hr
    rcases lt_trichotomy d.concentration 1 with h | h | h
    · rw [h2 h]; rfl
    · rw [h3 h]; rfl
    · rw [h1 h]; rfl
  · rw [GammaD.pdf, C39_log_prob d ha hr hx, stdGamma, indicator_of_mem (mem_Ioi.2 (mul_pos hr hx))]
    have h1 := Real.rpow_pos_of_pos hr d.concentration
    have h2 := Real.rpow_pos_of_pos hx (d.concentration - 1)
    have h3 := Real.Gamma_pos_of_pos ha
    rw [weight, Real.exp_log (by positivity), Real.mul_rpow hr.le hx.le, Real.rpow_sub_one hr.ne']
    field_simp

theorem stdGamma_cdf {a : ℝ} : IsCdf (stdGamma a) fun x => if 0 ≤ x then igamma a x else 0 := by
  intro x
  rw [stdGamma, setIntegral_indicator measurableSet_Ioi]
  beta_reduce
  by_cases hx : 0 ≤ x
  · rw [if_pos hx, igamma, intervalIntegral.integral_of_le hx,
      show Iic x ∩ Ioi 0 = Ioc 0 x by rw [inter_comm, Ioi_inter_Iic], integral_div]
  · rw [if_neg hx, show Iic x ∩ Ioi 0 = (∅ : Set ℝ) by
      ext t; simp only [mem_inter_iff, mem_Iic, mem_Ioi, mem_empty_iff_false, iff_false]
      rintro ⟨h1, h2⟩; linarith]
    simp

/-- `exp(log_prob)` is a probability density; `cdf` is its distribution function on the support (below it, the
probability is zero). -/
theorem C39_law (d : GammaD) (ha : 0 < d.concentration) (hr : 0 < d.rate) :
    IsPdf d.pdf ∧ IsCdf d.pdf fun x => if 0 ≤ x then d.cdf x else 0 := by
  have hs : 0 < 1 / d.rate := by positivity
  rw [pdf_eq ha hr]
  refine ⟨(stdGamma_pdf ha).affine 0 hs, fun x => ?_⟩
  rw [stdGamma_cdf.affine 0 hs x]
  have e : (x - 0) / (1 / d.rate) = d.rate * x := by field_simp; ring
  simp only [e, cdf]
  by_cases hx : 0 ≤ x
  · rw [if_pos hx, if_pos (by positivity)]
  · rw [if_neg hx, if_neg (by push Not at hx ⊢; exact mul_neg_of_pos_of_neg hr hx)]

/-- Dividing a standard gamma draw by the rate gives the advertised law. -/
theorem C39_sample (d : GammaD) (hr : 0 < d.rate) :
    SampleLaw (stdGamma d.concentration) d.sample fun x => if 0 ≤ x then d.cdf x else 0 := by
  have hs : 0 < 1 / d.rate := by positivity
  have := sampleLaw_affine (stdGamma_cdf (a := d.concentration)) 0 hs (T := d.sample)
    fun z => by rw [sample]; field_simp; ring
  intro x
  rw [this x]
  have e : (x - 0) / (1 / d.rate) = d.rate * x := by field_simp; ring
  simp only [e, cdf]
  by_cases hx : 0 ≤ x
  · rw [if_pos hx, if_pos (by positivity)]
  · rw [if_neg hx, if_neg (by push Not at hx ⊢; exact mul_neg_of_pos_of_neg hr hx)]

theorem gamma_stdGamma_entropy {a : ℝ} (ha : 0 < a) :
    HasEntropy (stdGamma a) (a + Real.log (Real.Gamma a) + (1 - a) * digamma a) := by
  have h := (HasExp.add (stdGamma_mean ha) ((stdGamma_pdf ha).const (Real.log (Real.Gamma a)))).add
    ((stdGamma_log ha).smul (1 - a))
  refine HasExp.congr h fun x => ?_
  by_cases hx : x ∈ Ioi (0 : ℝ)
  · rw [stdGamma, indicator_of_mem hx]
    congr 1
    have h2 := Real.rpow_pos_of_pos hx (a - 1)
    have h3 := Real.Gamma_pos_of_pos ha
    rw [Real.log_div (by positivity) h3.ne', Real.log_mul h2.ne' (Real.exp_pos _).ne', Real.log_rpow hx, Real.log_exp]
    ring
  · rw [stdGamma, indicator_of_notMem hx, zero_mul, zero_mul]

/-- `mean`, `variance`, `stddev`, `entropy` are those of the law. -/
theorem C39_moments (d : GammaD) (ha : 0 < d.concentration) (hr : 0 < d.rate) :
    HasMean d.pdf d.mean ∧ HasVariance d.pdf d.variance ∧ (0 ≤ d.stddev ∧ d.stddev ^ 2 = d.variance) ∧
    HasEntropy d.pdf d.entropy := by
  have hs : 0 < 1 / d.rate := by positivity
  rw [pdf_eq ha hr]
  refine ⟨?_, ?_, ⟨?_, ?_⟩, ?_⟩
  · have := (stdGamma_mean ha).affine (stdGamma_pdf ha) 0 hs
    rwa [show 0 + 1 / d.rate * d.concentration = d.mean by rw [mean]; ring] at this
  · have := (stdGamma_variance ha).affine (stdGamma_pdf ha) 0 hs
    rwa [show (1 / d.rate) ^ 2 * d.concentration = d.variance by rw [variance]; ring] at this
  · exact div_nonneg (Real.sqrt_nonneg _) hr.le
  · rw [stddev, variance, div_pow, Real.sq_sqrt ha.le]
  · have := (gamma_stdGamma_entropy ha).affine (stdGamma_pdf ha) 0 hs
    rwa [show d.concentration + Real.log (Real.Gamma d.concentration) + (1 - d.concentration) * digamma d.concentration
      + Real.log (1 / d.rate) = d.entropy by
        rw [entropy, one_div, Real.log_inv, lgamma, abs_of_pos (Real.Gamma_pos_of_pos ha)]; ring] at this

/-- For `concentration ≥ 1` the reported mode is nonnegative and maximises `x^(a-1) e^(-r x)` over the support
(for `concentration = 1` it is the boundary point 0); for `concentration < 1` it is nan. -/
theorem C39_mode (d : GammaD) (hr : 0 < d.rate) :
    (1 ≤ d.concentration → ∃ m, d.mode = fin m ∧ 0 ≤ m ∧ ∀ x, 0 ≤ x →
      x ^ (d.concentration - 1) * Real.exp (-(d.rate * x)) ≤ m ^ (d.concentration - 1) * Real.exp (-(d.rate * m))) ∧
    (d.concentration < 1 → d.mode = nan) := by
  refine ⟨fun h => ⟨(d.concentration - 1) / d.rate, if_pos h, div_nonneg (by linarith) hr.le, fun x hx => ?_⟩,
    fun h => if_neg (by linarith)⟩
  set a := d.concentration
  set r := d.rate
  have hm : r * ((a - 1) / r) = a - 1 := by field_simp
  rw [hm]
  rcases h.lt_or_eq with h | h
  · have hm0 : 0 < (a - 1) / r := div_pos (by linarith) hr
    rcases hx.lt_or_eq with hx | hx
    · have h1 := Real.rpow_pos_of_pos hx (a - 1)
      have h2 := Real.rpow_pos_of_pos hm0 (a - 1)
      rw [← Real.log_le_log_iff (by positivity) (by positivity), Real.log_mul h1.ne' (Real.exp_pos _).ne',
        Real.log_mul h2.ne' (Real.exp_pos _).ne', Real.log_rpow hx, Real.log_rpow hm0, Real.log_exp, Real.log_exp]
      have h3 := Real.log_le_sub_one_of_pos (div_pos hx hm0)
      rw [Real.log_div hx.ne' hm0.ne'] at h3
      have h4 := mul_le_mul_of_nonneg_left h3 (show 0 ≤ a - 1 by linarith)
      have h5 : (a - 1) * (x / ((a - 1) / r) - 1) = r * x - (a - 1) := by
        have : a - 1 ≠ 0 := by linarith
        field_simp
      rw [h5] at h4
      linarith
    · subst hx
      rw [Real.zero_rpow (by linarith), zero_mul]
      exact mul_nonneg (Real.rpow_nonneg hm0.le _) (Real.exp_pos _).le
  · rw [← h]
    simp
    positivity

/-- The KL formula is the divergence of the laws; it is nonnegative, and zero exactly for equal parameters. -/
theorem C39_kl (p q : GammaD) (hp : 0 < p.concentration) (hpr : 0 < p.rate) (hq : 0 < q.concentration)
    (hqr : 0 < q.rate) :
    HasKL p.pdf q.pdf (p.kl q) ∧ 0 ≤ p.kl q ∧ (p.kl q = 0 ↔ p = q) := by
  have hs : 0 < 1 / p.rate := by positivity
  have hlog : HasExp p.pdf Real.log (digamma p.concentration - Real.log p.rate) := by
    rw [pdf_eq hp hpr]
    refine HasExp.affine 0 hs ?_
    refine HasExp.congr ((stdGamma_log hp).add ((stdGamma_pdf hp).const (-Real.log p.rate))) fun z => ?_
    by_cases hz : z ∈ Ioi (0 : ℝ)
    · congr 1
      rw [zero_add, Real.log_mul hs.ne' (ne_of_gt hz), one_div, Real.log_inv]; ring
    · rw [stdGamma, indicator_of_notMem hz, zero_mul, zero_mul]
  have hmean := (C39_moments p hp hpr).1
  have hkl : HasKL p.pdf q.pdf (p.kl q) := by
    have h := ((hlog.smul (p.concentration - q.concentration)).add (HasExp.smul (q.rate - p.rate) hmean)).add
      ((C39_law p hp hpr).1.const (p.concentration * Real.log p.rate - q.concentration * Real.log q.rate
        - Real.log (Real.Gamma p.concentration) + Real.log (Real.Gamma q.concentration)))
    have e : (p.concentration - q.concentration) * (digamma p.concentration - Real.log p.rate)
        + (q.rate - p.rate) * p.mean + (p.concentration * Real.log p.rate - q.concentration * Real.log q.rate
        - Real.log (Real.Gamma p.concentration) + Real.log (Real.Gamma q.concentration)) = p.kl q := by
      rw [kl, lgamma, lgamma, abs_of_pos (Real.Gamma_pos_of_pos hp), abs_of_pos (Real.Gamma_pos_of_pos hq), mean]
      ring
    rw [e] at h
    refine HasExp.congr h fun x => ?_
    rcases le_or_gt x 0 with hx | hx
    · have : p.pdf x = 0 := by
        rw [pdf_eq hp hpr]
        show stdGamma _ _ / _ = 0
        rw [stdGamma, indicator_of_notMem, zero_div]
        rw [show (x - 0) / (1 / p.rate) = p.rate * x by field_simp; ring]
        exact fun h' => absurd (mem_Ioi.1 h') (not_lt.2 (mul_nonpos_of_nonneg_of_nonpos hpr.le hx))
      rw [this, zero_mul, zero_mul]
    · congr 1
      rw [GammaD.pdf, GammaD.pdf, logProb_pos hp hpr hx, logProb_pos hq hqr hx, weight, weight, Real.log_exp, Real.log_exp]
      ring
  have hsupp : ∀ x, q.pdf x = 0 → p.pdf x = 0 := by
    intro x hx
    rcases le_or_gt x 0 with h | h
    · rw [pdf_eq hp hpr]
      show stdGamma _ _ / _ = 0
      rw [stdGamma, indicator_of_notMem, zero_div]
      rw [show (x - 0) / (1 / p.rate) = p.rate * x by field_simp; ring]
      exact fun h' => absurd (mem_Ioi.1 h') (not_lt.2 (mul_nonpos_of_nonneg_of_nonpos hpr.le h))
    · rw [GammaD.pdf, logProb_pos hq hqr h, weight] at hx
      exact absurd hx (Real.exp_pos _).ne'
  refine ⟨hkl, hkl.nonneg_of_support (C39_law p hp hpr).1 (C39_law q hq hqr).1 hsupp, fun h0 => ?_, fun e => ?_⟩
  · rw [h0] at hkl
    have hae := hkl.ae_eq_of_zero (C39_law p hp hpr).1 (C39_law q hq hqr).1 hsupp
    have h1 := HasExp.unique (HasExp.congr_ae (C39_moments p hp hpr).1 hae) (C39_moments q hq hqr).1
    obtain ⟨m1, hm1, hv1⟩ := (C39_moments p hp hpr).2.1
    obtain ⟨m2, hm2, hv2⟩ := (C39_moments q hq hqr).2.1
    have hm : m1 = m2 := HasExp.unique (HasExp.congr_ae hm1 hae) hm2
    subst hm
    have h2 := HasExp.unique (HasExp.congr_ae hv1 hae) hv2
    rw [mean, mean] at h1
    rw [variance, variance] at h2
    obtain ⟨a, r⟩ := p
    obtain ⟨a', r'⟩ := q
    simp only at *
    have h3 : a = a' / r' * r := by rw [← h1]; field_simp
    have h4 : r = r' := by
      rw [h3] at h2
      have e1 : a' / r' * r / r ^ 2 = a' / r' / r := by field_simp
      have e2 : a' / r' ^ 2 = a' / r' / r' := by field_simp
      rw [e1, e2] at h2
      have h5 : 0 < a' / r' := div_pos hq hqr
      rw [div_eq_div_iff hpr.ne' hqr.ne'] at h2
      exact (mul_left_cancel₀ h5.ne' h2).symm
    subst h4
    have : a = a' := by rw [h3]; field_simp
    rw [this]
  · subst e
    rw [kl]; ring

/-- The exponential law with rate 2. -/
example : IsPdf (GammaD.pdf ⟨1, 2⟩) ∧ HasMean (GammaD.pdf ⟨1, 2⟩) (1 / 2) ∧ GammaD.mode ⟨1, 2⟩ = fin 0 := by
  refine ⟨(C39_law _ (by norm_num) (by norm_num)).1, (C39_moments ⟨1, 2⟩ (by norm_num) (by norm_num)).1, ?_⟩
  rw [mode, if_pos (by norm_num)]; norm_num

end Distrax
