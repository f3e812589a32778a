import Verif.Lemmas.StdLaws2
import Verif.Lemmas.XR
import Mathlib.MeasureTheory.Integral.IntervalIntegral.FundThmCalculus
import Mathlib.Analysis.SpecialFunctions.Integrals.Basic

/-! Properties C29 (location-scale families), C30 (KL divergences), C31 (Uniform, Deterministic). -/

namespace Distrax

open MeasureTheory Set Spec

/-! ### Laplace -/

namespace Laplace

theorem prob_eq {d : Laplace} (h : 0 < d.scale) : d.prob = fun x => stdLaplace ((x - d.loc) / d.scale) / d.scale := by
  ext x
  unfold prob logProb standardize stdLaplace
  rw [Real.exp_sub, Real.exp_sub, Real.exp_log h, Real.exp_log two_pos]

theorem cdf_eq (d : Laplace) : d.cdf = fun x => stdLaplaceCdf ((x - d.loc) / d.scale) := by
  ext x
  unfold cdf standardize stdLaplaceCdf
  generalize (x - d.loc) / d.scale = z
  rcases lt_trichotomy z 0 with h | h | h
  · rw [sign_neg h, abs_of_neg h, if_pos h.le, neg_neg]; norm_num; ring
  · subst h; norm_num
  · rw [sign_pos h, abs_of_pos h, if_neg (not_le.2 h)]; norm_num; ring

theorem cont {d : Laplace} (h : 0 < d.scale) : Continuous d.prob := by
  rw [prob_eq h]; exact (stdLaplace_cont.comp (by fun_prop)).div_const _

end Laplace

theorem logCdfLaplace_eq (z : ℝ) : logCdfLaplace z = Real.log (stdLaplaceCdf z) := by
  unfold logCdfLaplace stdLaplaceCdf
  by_cases h : z ≤ 0
  · simp only [if_pos h]
    rw [Real.log_div (Real.exp_ne_zero _) two_ne_zero, Real.log_exp]
  · simp only [if_neg h]
    rw [abs_of_pos (not_le.1 h)]; congr 1; ring

theorem stdLaplaceCdf_neg (z : ℝ) : stdLaplaceCdf (-z) = 1 - stdLaplaceCdf z := by
  unfold stdLaplaceCdf
  rcases lt_trichotomy z 0 with h | h | h
  · rw [if_neg (by linarith), if_pos h.le, neg_neg]
  · subst h; norm_num
  · rw [if_pos (by linarith), if_neg (not_le.2 h)]; ring

/-- Laplace: density, distribution function, survival function and their logarithms describe one law. -/
theorem C29_laplace_law (d : Laplace) (h : 0 < d.scale) :
    IsPdf d.prob ∧ IsCdf d.prob d.cdf ∧ IsSurvival d.prob d.survival ∧ (∀ x, d.logProb x = Real.log (d.prob x)) ∧
    (∀ x, d.logCdf x = Real.log (d.cdf x)) ∧ ∀ x, d.logSurvival x = Real.log (d.survival x) := by
  have hp : IsPdf d.prob := by rw [Laplace.prob_eq h]; exact stdLaplace_law.1.affine _ h
  have hc : IsCdf d.prob d.cdf := by rw [Laplace.prob_eq h, Laplace.cdf_eq]; exact stdLaplace_law.2.affine _ h
  refine ⟨hp, hc, hp.survival hc, fun x => by rw [Laplace.prob, Real.log_exp], fun x => ?_, fun x => ?_⟩
  · rw [Laplace.cdf_eq, Laplace.logCdf, logCdfLaplace_eq]; rfl
  · rw [Laplace.logSurvival, logCdfLaplace_eq, Laplace.survival, Laplace.cdf_eq, stdLaplaceCdf_neg]; rfl

/-- Laplace: the sampler and `sample_and_log_prob`. -/
theorem C29_laplace_sample (d : Laplace) (h : 0 < d.scale) :
    SampleLaw stdLaplace d.sample d.cdf ∧
    ∀ rnd, (d.sampleAndLogProb rnd).1 = d.sample rnd ∧ (d.sampleAndLogProb rnd).2 = d.logProb (d.sample rnd) := by
  refine ⟨?_, fun rnd => ⟨rfl, ?_⟩⟩
  · rw [Laplace.cdf_eq]
    exact sampleLaw_affine stdLaplace_law.2 d.loc h fun z => by unfold Laplace.sample; ring
  · unfold Laplace.sampleAndLogProb Laplace.logProb Laplace.sample Laplace.standardize
    have : (d.loc + d.scale * rnd - d.loc) / d.scale = rnd := by field_simp; ring
    simp only [this]

/-- Laplace: moments, mode, median, entropy. -/
theorem C29_laplace_moments (d : Laplace) (h : 0 < d.scale) :
    HasMean d.prob d.mean ∧ HasVariance d.prob d.variance ∧ 0 ≤ d.stddev ∧ d.stddev ^ 2 = d.variance ∧
    IsMode d.prob d.mode ∧ IsMedian d.prob d.median ∧ HasEntropy d.prob d.entropy := by
  obtain ⟨hp, hc, -⟩ := C29_laplace_law d h
  refine ⟨?_, ?_, ?_, ?_, ?_, ?_, ?_⟩
  · rw [Laplace.prob_eq h]
    have := stdLaplace_mean.affine stdLaplace_law.1 d.loc h
    rwa [mul_zero, add_zero] at this
  · rw [Laplace.prob_eq h]
    have := stdLaplace_variance.affine stdLaplace_law.1 d.loc h
    rwa [mul_comm] at this
  · unfold Laplace.stddev; positivity
  · unfold Laplace.stddev Laplace.variance; rw [mul_pow, Real.sq_sqrt (by norm_num)]
  · intro x
    unfold Laplace.prob Laplace.logProb Laplace.mode Laplace.mean Laplace.standardize
    rw [Real.exp_le_exp]
    have := abs_nonneg ((x - d.loc) / d.scale)
    simp only [sub_self, zero_div, abs_zero]
    linarith
  · refine hp.median hc ?_
    rw [Laplace.cdf_eq]; simp [Laplace.median, Laplace.mean, stdLaplaceCdf]
  · rw [Laplace.prob_eq h]; exact stdLaplace_entropy.affine stdLaplace_law.1 d.loc h

/-- Laplace: the closed-form KL is `E_p[log p - log q]`, nonnegative, and zero exactly for equal parameters. -/
theorem C30_laplace_kl (p q : Laplace) (hp : 0 < p.scale) (hq : 0 < q.scale) :
    HasKL p.prob q.prob (Laplace.kl p q) ∧ 0 ≤ Laplace.kl p q ∧
    (Laplace.kl p q = 0 ↔ p.loc = q.loc ∧ p.scale = q.scale) := by
  obtain ⟨h1, -, -, l1, -⟩ := C29_laplace_law p hp
  obtain ⟨h2, -, -, l2, -⟩ := C29_laplace_law q hq
  have hkl : HasKL p.prob q.prob (Laplace.kl p q) := by
    have ha : HasExp p.prob (fun x => |(x - p.loc) / p.scale|) 1 := by
      rw [Laplace.prob_eq hp]
      refine HasExp.affine p.loc hp (stdLaplace_abs_zero.congr fun z => ?_)
      rw [show (p.loc + p.scale * z - p.loc) / p.scale = z by field_simp; ring]
    have hb : HasExp p.prob (fun x => |(x - q.loc) / q.scale|)
        (p.scale / q.scale * (|(q.loc - p.loc) / p.scale| + Real.exp (-|(q.loc - p.loc) / p.scale|))) := by
      rw [Laplace.prob_eq hp]
      refine HasExp.affine p.loc hp (((stdLaplace_abs ((q.loc - p.loc) / p.scale)).smul (p.scale / q.scale)).congr fun z => ?_)
      rw [show (p.loc + p.scale * z - q.loc) / q.scale = p.scale / q.scale * (z - (q.loc - p.loc) / p.scale) by
        field_simp; ring, abs_mul, abs_of_pos (div_pos hp hq)]
    have := ((ha.smul (-1)).add hb).add (h1.const (Real.log q.scale - Real.log p.scale))
    have e : -1 * 1 + p.scale / q.scale * (|(q.loc - p.loc) / p.scale| + Real.exp (-|(q.loc - p.loc) / p.scale|))
        + (Real.log q.scale - Real.log p.scale) = Laplace.kl p q := by
      unfold Laplace.kl
      simp only
      rw [Real.exp_add, ← Real.log_div hp.ne' hq.ne', Real.exp_log (div_pos hp hq), Real.log_div hp.ne' hq.ne',
        abs_div, abs_of_pos hp, abs_sub_comm q.loc, neg_div]
      field_simp
      ring
    rw [e] at this
    refine HasExp.congr this fun x => ?_
    rw [← l1, ← l2]
    unfold Laplace.logProb Laplace.standardize
    ring
  refine ⟨hkl, hkl.nonneg h1 h2 (fun x => Real.exp_pos _) fun x => Real.exp_pos _, fun h0 => ?_, ?_⟩
  · rw [h0] at hkl
    have e := hkl.eq_of_zero h1 h2 (fun x => Real.exp_pos _) (fun x => Real.exp_pos _) (Laplace.cont hp) (Laplace.cont hq)
    have m1 := (C29_laplace_moments p hp).1
    have m2 := (C29_laplace_moments q hq).1
    rw [e] at m1
    have hl : p.loc = q.loc := m1.unique m2
    refine ⟨hl, ?_⟩
    have hx := congrFun e p.loc
    have : p.logProb p.loc = q.logProb p.loc := Real.exp_injective hx
    unfold Laplace.logProb Laplace.standardize at this
    rw [hl, sub_self, zero_div, zero_div] at this
    exact Real.log_injOn_pos hp hq (by linarith)
  · rintro ⟨a, b⟩
    unfold Laplace.kl; simp [a, b]

/-! ### Logistic -/

namespace Logistic

theorem prob_eq {d : Logistic} (h : 0 < d.scale) : d.prob = fun x => stdLogistic ((x - d.loc) / d.scale) / d.scale := by
  ext x
  rw [← stdLogistic_exp]
  unfold prob logProb standardize
  simp only
  rw [Real.exp_sub, Real.exp_log h]

end Logistic

/-- Logistic: density, distribution function, survival function and their logarithms describe one law. -/
theorem C29_logistic_law (d : Logistic) (h : 0 < d.scale) :
    IsPdf d.prob ∧ IsCdf d.prob d.cdf ∧ IsSurvival d.prob d.survival ∧ (∀ x, d.logProb x = Real.log (d.prob x)) ∧
    (∀ x, d.logCdf x = Real.log (d.cdf x)) ∧ ∀ x, d.logSurvival x = Real.log (d.survival x) := by
  have hp : IsPdf d.prob := by rw [Logistic.prob_eq h]; exact stdLogistic_law.1.affine _ h
  have hc : IsCdf d.prob d.cdf := by rw [Logistic.prob_eq h]; exact stdLogistic_law.2.affine _ h
  refine ⟨hp, hc, fun x => ?_, fun x => by rw [Logistic.prob, Real.log_exp], fun x => ?_, fun x => ?_⟩
  · rw [hp.survival hc x, Logistic.survival, rsigmoid_neg]; rfl
  · rw [Logistic.cdf, rsigmoid_log]; rfl
  · rw [Logistic.survival, rsigmoid_log, neg_neg]; rfl

/-- Logistic: the sampler is the inverse distribution function of its uniform noise, hence has that law. -/
theorem C29_logistic_sample (d : Logistic) (h : 0 < d.scale) :
    (∀ u, 0 < u → u < 1 → d.cdf (d.sample u) = u) ∧ (∀ x, d.sample (d.cdf x) = x) ∧
    SampleLaw unitNoise d.sample d.cdf := by
  have inv1 : ∀ u, 0 < u → u < 1 → d.cdf (d.sample u) = u := by
    intro u h0 h1
    unfold Logistic.cdf Logistic.sample Logistic.standardize rsigmoid
    simp only
    rw [show (d.scale * (Real.log u - Real.log (1 + -u)) + d.loc - d.loc) / d.scale
      = Real.log u - Real.log (1 + -u) by field_simp; ring, neg_sub, Real.exp_sub, Real.exp_log h0, Real.exp_log (by linarith)]
    field_simp; ring
  have inv2 : ∀ x, d.sample (d.cdf x) = x := by
    intro x
    unfold Logistic.cdf Logistic.sample
    simp only
    rw [show 1 + -rsigmoid (d.standardize x) = rsigmoid (-d.standardize x) by rw [rsigmoid_neg]; ring, rsigmoid_log,
      rsigmoid_log, neg_neg]
    have := rsoftplus_sub (d.standardize x)
    rw [show -rsoftplus (-d.standardize x) - -rsoftplus (d.standardize x) = d.standardize x by linarith, Logistic.standardize]
    field_simp; ring
  have mono : ∀ a b, d.cdf a ≤ d.cdf b ↔ a ≤ b := by
    intro a b
    unfold Logistic.cdf rsigmoid Logistic.standardize
    rw [div_le_div_iff_of_pos_left one_pos (by positivity) (by positivity), add_le_add_iff_left, Real.exp_le_exp,
      neg_le_neg_iff, div_le_div_iff_of_pos_right h]
    constructor <;> intro h <;> linarith
  refine ⟨inv1, inv2, fun x => ?_⟩
  have hx0 : 0 < d.cdf x := rsigmoid_pos _
  have hx1 : d.cdf x < 1 := rsigmoid_lt_one _
  unfold unitNoise
  rw [setIntegral_indicator measurableSet_Ioo]
  have : {u | d.sample u ≤ x} ∩ Ioo 0 1 = Ioc 0 (d.cdf x) := by
    ext u
    simp only [mem_inter_iff, mem_ofPred_eq, mem_Ioo, mem_Ioc]
    constructor
    · rintro ⟨a, b, c⟩
      refine ⟨b, ?_⟩
      rw [← inv1 u b c]; exact (mono _ _).2 a
    · rintro ⟨a, b⟩
      have c : u < 1 := b.trans_lt hx1
      refine ⟨?_, a, c⟩
      rw [← inv1 u a c] at b; exact (mono _ _).1 b
  rw [this]
  simp [hx0.le]

/-- Logistic: mean, mode, median, entropy (variance: `C29_logistic_variance`, in Props/Variance.lean). -/
theorem C29_logistic_moments (d : Logistic) (h : 0 < d.scale) :
    HasMean d.prob d.mean ∧ 0 ≤ d.stddev ∧ d.stddev ^ 2 = d.variance ∧
    IsMode d.prob d.mode ∧ IsMedian d.prob d.median ∧ HasEntropy d.prob d.entropy := by
  obtain ⟨hp, hc, -⟩ := C29_logistic_law d h
  have hpi := Real.pi_pos
  refine ⟨?_, ?_, ?_, ?_, ?_, ?_⟩
  · rw [Logistic.prob_eq h]
    have := stdLogistic_mean.affine stdLogistic_law.1 d.loc h
    rwa [mul_zero, add_zero] at this
  · unfold Logistic.stddev; positivity
  · unfold Logistic.stddev Logistic.variance; rw [div_pow, Real.sq_sqrt (by norm_num)]
  · intro x
    rw [Logistic.prob_eq h]
    show stdLogistic ((x - d.loc) / d.scale) / d.scale ≤ stdLogistic ((d.loc - d.loc) / d.scale) / d.scale
    gcongr
    rw [sub_self, zero_div]
    generalize (x - d.loc) / d.scale = z
    have e0 : rsigmoid 0 = 1 / 2 := by unfold rsigmoid; norm_num
    unfold stdLogistic
    rw [e0]
    nlinarith [sq_nonneg (rsigmoid z - 1 / 2)]
  · refine hp.median hc ?_
    unfold Logistic.cdf Logistic.standardize Logistic.median Logistic.mean rsigmoid; norm_num
  · rw [Logistic.prob_eq h]; exact stdLogistic_entropy.affine stdLogistic_law.1 d.loc h

/-! ### Gumbel -/

namespace Gumbel

theorem prob_eq {d : Gumbel} (h : 0 < d.scale) : d.prob = fun x => stdGumbel ((x - d.loc) / d.scale) / d.scale := by
  ext x
  unfold prob logProb standardize stdGumbel
  simp only
  rw [Real.exp_sub, Real.exp_log h]

theorem cont {d : Gumbel} (h : 0 < d.scale) : Continuous d.prob := by
  rw [prob_eq h]; exact (stdGumbel_cont.comp (by fun_prop)).div_const _

end Gumbel

/-- Gumbel: density, distribution function and survival function describe one law. -/
theorem C29_gumbel_law (d : Gumbel) (h : 0 < d.scale) :
    IsPdf d.prob ∧ IsCdf d.prob d.cdf ∧ IsSurvival d.prob d.survival ∧ (∀ x, d.logProb x = Real.log (d.prob x)) ∧
    ∀ x, d.logCdf x = Real.log (d.cdf x) := by
  have hp : IsPdf d.prob := by rw [Gumbel.prob_eq h]; exact stdGumbel_law.1.affine _ h
  have hc : IsCdf d.prob d.cdf := by rw [Gumbel.prob_eq h]; exact stdGumbel_law.2.affine _ h
  exact ⟨hp, hc, hp.survival hc, fun x => by rw [Gumbel.prob, Real.log_exp], fun x => by rw [Gumbel.cdf, Real.log_exp]⟩

/-- Gumbel: the sampler and `sample_and_log_prob`. -/
theorem C29_gumbel_sample (d : Gumbel) (h : 0 < d.scale) :
    SampleLaw stdGumbel d.sample d.cdf ∧
    ∀ rnd, (d.sampleAndLogProb rnd).1 = d.sample rnd ∧ (d.sampleAndLogProb rnd).2 = d.logProb (d.sample rnd) := by
  refine ⟨sampleLaw_affine stdGumbel_law.2 d.loc h fun z => rfl, fun rnd => ⟨rfl, ?_⟩⟩
  unfold Gumbel.sampleAndLogProb Gumbel.logProb Gumbel.sample Gumbel.standardize
  have : (d.scale * rnd + d.loc - d.loc) / d.scale = rnd := by field_simp; ring
  simp only [this]

/-- Gumbel: mean, mode, median, entropy (variance: `C29_gumbel_variance`, in Props/Variance.lean). -/
theorem C29_gumbel_moments (d : Gumbel) (h : 0 < d.scale) :
    HasMean d.prob d.mean ∧ 0 ≤ d.stddev ∧ d.stddev ^ 2 = d.variance ∧
    IsMode d.prob d.mode ∧ IsMedian d.prob d.median ∧ HasEntropy d.prob d.entropy := by
  obtain ⟨hp, hc, -⟩ := C29_gumbel_law d h
  have hpi := Real.pi_pos
  refine ⟨?_, ?_, ?_, ?_, ?_, ?_⟩
  · rw [Gumbel.prob_eq h]; exact stdGumbel_mean.affine stdGumbel_law.1 d.loc h
  · unfold Gumbel.stddev; positivity
  · unfold Gumbel.stddev Gumbel.variance; rw [div_pow, Real.sq_sqrt (by norm_num)]
  · intro x
    unfold Gumbel.prob Gumbel.logProb Gumbel.mode Gumbel.standardize
    rw [Real.exp_le_exp]
    have := Real.add_one_le_exp (-((x - d.loc) / d.scale))
    simp only [sub_self, zero_div, neg_zero, Real.exp_zero]
    linarith
  · refine hp.median hc ?_
    have hl : 0 < Real.log 2 := Real.log_pos (by norm_num)
    unfold Gumbel.cdf Gumbel.logCdf Gumbel.standardize Gumbel.median
    rw [show -((d.loc - d.scale * Real.log (Real.log 2) - d.loc) / d.scale) = Real.log (Real.log 2) by field_simp; ring,
      Real.exp_log hl, Real.exp_neg, Real.exp_log two_pos]
    norm_num
  · rw [Gumbel.prob_eq h]
    have := stdGumbel_entropy.affine stdGumbel_law.1 d.loc h
    rwa [show 1 + Real.eulerMascheroniConstant + Real.log d.scale = d.entropy by unfold Gumbel.entropy; ring] at this

/-- Gumbel: the closed-form KL is `E_p[log p - log q]`, nonnegative, and zero exactly for equal parameters. -/
theorem C30_gumbel_kl (p q : Gumbel) (hp : 0 < p.scale) (hq : 0 < q.scale) :
    HasKL p.prob q.prob (Gumbel.kl p q) ∧ 0 ≤ Gumbel.kl p q ∧
    (Gumbel.kl p q = 0 ↔ p.loc = q.loc ∧ p.scale = q.scale) := by
  obtain ⟨h1, -, -, l1, -⟩ := C29_gumbel_law p hp
  obtain ⟨h2, -, -, l2, -⟩ := C29_gumbel_law q hq
  have hr : 0 < p.scale / q.scale := div_pos hp hq
  have hkl : HasKL p.prob q.prob (Gumbel.kl p q) := by
    -- log p = -z - e^{-z} - log s_p ;  log q = -w - e^{-w} - log s_q, with w = (m_p - m_q)/s_q + (s_p/s_q) z
    have hz := (C29_gumbel_moments p hp).1
    have ha : HasExp p.prob (fun x => Real.exp (-((x - p.loc) / p.scale))) 1 := by
      have h := stdGumbel_expneg zero_le_one
      rw [show (1 : ℝ) + 1 = 2 by norm_num, Real.Gamma_two] at h
      rw [Gumbel.prob_eq hp]
      refine HasExp.affine p.loc hp (h.congr fun z => ?_)
      rw [show (p.loc + p.scale * z - p.loc) / p.scale = 1 * z by field_simp; ring]
    have hb : HasExp p.prob (fun x => Real.exp (-((x - q.loc) / q.scale)))
        (Real.exp ((q.loc - p.loc) / q.scale) * Real.Gamma (p.scale / q.scale + 1)) := by
      rw [Gumbel.prob_eq hp]
      refine HasExp.affine p.loc hp (((stdGumbel_expneg hr.le).smul (Real.exp ((q.loc - p.loc) / q.scale))).congr fun z => ?_)
      rw [← Real.exp_add]
      congr 2
      field_simp; ring
    have := ((HasExp.smul (1 / q.scale - 1 / p.scale) hz).add ((ha.smul (-1)).add hb)).add
      (h1.const (Real.log q.scale - Real.log p.scale + p.loc / p.scale - q.loc / q.scale))
    have e : (1 / q.scale - 1 / p.scale) * p.mean + (-1 * 1 + Real.exp ((q.loc - p.loc) / q.scale) *
        Real.Gamma (p.scale / q.scale + 1)) + (Real.log q.scale - Real.log p.scale + p.loc / p.scale - q.loc / q.scale)
        = Gumbel.kl p q := by
      unfold Gumbel.kl Gumbel.mean lgamma
      have hG : 0 < Real.Gamma (p.scale / q.scale + 1) := Real.Gamma_pos_of_pos (by linarith)
      rw [Real.exp_add, abs_of_pos hG, Real.exp_log hG]
      field_simp
      ring
    rw [e] at this
    refine HasExp.congr this fun x => ?_
    rw [← l1, ← l2]
    unfold Gumbel.logProb Gumbel.standardize
    simp only
    ring
  refine ⟨hkl, hkl.nonneg h1 h2 (fun x => Real.exp_pos _) fun x => Real.exp_pos _, fun h0 => ?_, ?_⟩
  · rw [h0] at hkl
    have e := hkl.eq_of_zero h1 h2 (fun x => Real.exp_pos _) (fun x => Real.exp_pos _) (Gumbel.cont hp) (Gumbel.cont hq)
    -- both densities attain their maximum, exp(-1)/scale, at their own loc
    have m1 := (C29_gumbel_moments p hp).2.2.2.1
    have m2 := (C29_gumbel_moments q hq).2.2.2.1
    have a1 : p.prob p.loc = Real.exp (-1) / p.scale := by
      rw [Gumbel.prob_eq hp]; simp [stdGumbel]
    have a2 : q.prob q.loc = Real.exp (-1) / q.scale := by
      rw [Gumbel.prob_eq hq]; simp [stdGumbel]
    have le1 : p.prob p.loc ≤ q.prob q.loc := by rw [e]; exact m2 _
    have le2 : q.prob q.loc ≤ p.prob p.loc := by rw [← e]; exact m1 _
    have hs : p.scale = q.scale := by
      have h3 := le_antisymm le1 le2
      rw [a1, a2] at h3
      rw [div_eq_div_iff hp.ne' hq.ne'] at h3
      exact (mul_left_cancel₀ (Real.exp_ne_zero _) h3).symm
    have mm1 := (C29_gumbel_moments p hp).1
    have mm2 := (C29_gumbel_moments q hq).1
    rw [e] at mm1
    have := mm1.unique mm2
    unfold Gumbel.mean at this
    rw [hs] at this
    exact ⟨by linarith, hs⟩
  · rintro ⟨a, b⟩
    unfold Gumbel.kl lgamma
    rw [a, b, div_self hq.ne']
    norm_num

/-! ### Uniform -/

namespace Uniform

theorem prob_eq (d : Uniform) : d.prob = (Icc d.low d.high).indicator fun _ => 1 / d.range := by
  ext x
  unfold prob
  by_cases h : x ∈ Icc d.low d.high
  · rw [indicator_of_mem h, if_neg]
    rintro (h' | h')
    · exact absurd h.1 (not_le.2 h')
    · exact absurd h.2 (not_le.2 h')
  · rw [indicator_of_notMem h, if_pos]
    rw [mem_Icc, not_and_or, not_le, not_le] at h; exact h

theorem hasExp {d : Uniform} (h : d.low < d.high) {k : ℝ → ℝ} (hk : Continuous k) :
    HasExp d.prob k ((∫ x in d.low..d.high, k x) / d.range) := by
  have e : (fun x => d.prob x * k x) = (Icc d.low d.high).indicator fun x => k x / d.range := by
    ext x
    rw [prob_eq]
    by_cases hx : x ∈ Icc d.low d.high
    · rw [indicator_of_mem hx, indicator_of_mem hx]; ring
    · rw [indicator_of_notMem hx, indicator_of_notMem hx, zero_mul]
  refine ⟨?_, ?_⟩
  · rw [e, integrable_indicator_iff measurableSet_Icc]
    exact (hk.div_const _).integrableOn_Icc
  · rw [e, integral_indicator measurableSet_Icc, integral_Icc_eq_integral_Ioc, ← intervalIntegral.integral_of_le h.le,
      intervalIntegral.integral_div]

end Uniform

/-- Uniform: density, distribution function, survival function and their logarithms describe one law. -/
theorem C29_uniform_law (d : Uniform) (h : d.low < d.high) :
    IsPdf d.prob ∧ IsCdf d.prob d.cdf ∧ IsSurvival d.prob d.survival ∧ (∀ x, d.logProb x = XR.log (.fin (d.prob x))) ∧
    ∀ x, d.logCdf x = XR.log (.fin (d.cdf x)) := by
  have hr : 0 < d.range := by unfold Uniform.range; linarith
  have hp : IsPdf d.prob := by
    have h1 := Uniform.hasExp h (k := fun _ => 1) continuous_const
    refine ⟨fun x => ?_, by simpa using h1.1, ?_⟩
    · unfold Uniform.prob; split <;> positivity
    · have := h1.2
      simp only [mul_one] at this
      rw [this]; simp [Uniform.range]; unfold Uniform.range at hr; exact hr.ne'
  have hc : IsCdf d.prob d.cdf := by
    intro x
    rw [Uniform.prob_eq, setIntegral_indicator measurableSet_Icc]
    unfold Uniform.cdf
    simp only
    by_cases h1 : x > d.high
    · rw [if_pos h1]
      have : Iic x ∩ Icc d.low d.high = Icc d.low d.high := by
        ext u; simp only [mem_inter_iff, mem_Iic, mem_Icc]; constructor
        · exact fun a => a.2
        · exact fun a => ⟨by linarith [a.2], a⟩
      rw [this, setIntegral_const]
      simp only [Real.volume_real_Icc_of_le h.le, smul_eq_mul]
      unfold Uniform.range at hr ⊢; field_simp
    · rw [if_neg h1]
      by_cases h2 : x < d.low
      · rw [if_pos h2]
        have : Iic x ∩ Icc d.low d.high = ∅ := by
          ext u; simp only [mem_inter_iff, mem_Iic, mem_Icc, mem_empty_iff_false, iff_false]
          rintro ⟨a, b, c⟩; linarith
        rw [this]; simp
      · rw [if_neg h2]
        have : Iic x ∩ Icc d.low d.high = Icc d.low x := by
          ext u; simp only [mem_inter_iff, mem_Iic, mem_Icc]; constructor
          · exact fun a => ⟨a.2.1, a.1⟩
          · exact fun a => ⟨a.2, a.1, by linarith [a.2]⟩
        rw [this, setIntegral_const]
        simp only [Real.volume_real_Icc_of_le (not_lt.1 h2), smul_eq_mul]
        ring
  exact ⟨hp, hc, hp.survival hc, fun _ => rfl, fun _ => rfl⟩

/-- Uniform: samples lie in `[low, high)`, have this law, and `sample_and_log_prob` is consistent. -/
theorem C29_uniform_sample (d : Uniform) (h : d.low < d.high) :
    (∀ u, 0 ≤ u → u < 1 → d.low ≤ d.sample u ∧ d.sample u < d.high) ∧ SampleLaw unitNoise d.sample d.cdf ∧
    ∀ u, 0 ≤ u → u < 1 →
      (d.sampleAndLogProb u).1 = d.sample u ∧ (d.sampleAndLogProb u).2 = d.logProb (d.sample u) := by
  have hr : 0 < d.range := by unfold Uniform.range; linarith
  have hin : ∀ u, 0 ≤ u → u < 1 → d.low ≤ d.sample u ∧ d.sample u < d.high := by
    intro u h0 h1
    unfold Uniform.sample
    have : d.high = d.low + d.range := by unfold Uniform.range; ring
    constructor
    · nlinarith
    · rw [this]; nlinarith
  refine ⟨hin, fun x => ?_, fun u h0 h1 => ⟨rfl, ?_⟩⟩
  · unfold unitNoise
    rw [setIntegral_indicator measurableSet_Ioo]
    have hs : ∀ u, d.sample u ≤ x ↔ u ≤ (x - d.low) / d.range := by
      intro u
      unfold Uniform.sample
      rw [le_div_iff₀ hr]; constructor <;> intro h <;> nlinarith
    unfold Uniform.cdf
    simp only
    by_cases h1 : x > d.high
    · rw [if_pos h1]
      have : {u | d.sample u ≤ x} ∩ Ioo 0 1 = Ioo 0 1 := by
        ext u; simp only [mem_inter_iff, mem_ofPred_eq, mem_Ioo, hs]
        refine ⟨fun a => a.2, fun a => ⟨?_, a⟩⟩
        rw [le_div_iff₀ hr]
        have : d.range = d.high - d.low := rfl
        nlinarith [a.1, a.2]
      rw [this]; simp
    · rw [if_neg h1]
      by_cases h2 : x < d.low
      · rw [if_pos h2]
        have : {u | d.sample u ≤ x} ∩ Ioo 0 1 = ∅ := by
          ext u; simp only [mem_inter_iff, mem_ofPred_eq, mem_Ioo, hs, mem_empty_iff_false, iff_false]
          rintro ⟨a, b, -⟩
          rw [le_div_iff₀ hr] at a; nlinarith
        rw [this]; simp
      · rw [if_neg h2]
        have hq0 : 0 ≤ (x - d.low) / d.range := div_nonneg (by linarith) hr.le
        have hq1 : (x - d.low) / d.range ≤ 1 := by
          rw [div_le_one hr]; unfold Uniform.range; linarith
        have : ({u | d.sample u ≤ x} ∩ Ioo 0 1 : Set ℝ) =ᵐ[volume] Ioc 0 ((x - d.low) / d.range) := by
          refine Filter.EventuallyEq.trans (g := ({u | d.sample u ≤ x} ∩ Ioc 0 1 : Set ℝ))
            ((ae_eq_refl _).inter Ioo_ae_eq_Ioc) ?_
          refine Filter.EventuallyEq.of_eq ?_
          ext u; simp only [mem_inter_iff, mem_ofPred_eq, mem_Ioc, hs]
          exact ⟨fun a => ⟨a.2.1, a.1⟩, fun a => ⟨a.2, a.1, a.2.trans hq1⟩⟩
        rw [setIntegral_congr_set this]
        simp [hq0]
  · have := hin u h0 h1
    have hp : d.prob (d.sample u) = 1 / d.range := by
      unfold Uniform.prob; rw [if_neg]; rintro (a | a) <;> linarith
    unfold Uniform.sampleAndLogProb Uniform.logProb
    rw [hp]
    simp only [XR.log_fin_pos hr, XR.log_fin_pos (one_div_pos.2 hr)]
    show XR.fin (-Real.log d.range) = XR.fin (Real.log (1 / d.range))
    rw [one_div, Real.log_inv]

/-- Uniform: moments, median, entropy. -/
theorem C29_uniform_moments (d : Uniform) (h : d.low < d.high) :
    HasMean d.prob d.mean ∧ HasVariance d.prob d.variance ∧ 0 ≤ d.stddev ∧ d.stddev ^ 2 = d.variance ∧
    IsMedian d.prob d.median ∧ HasEntropy d.prob d.entropy := by
  have hr : 0 < d.range := by unfold Uniform.range; linarith
  obtain ⟨hp, hc, -⟩ := C29_uniform_law d h
  have hm : HasMean d.prob d.mean := by
    have := Uniform.hasExp h continuous_id
    unfold HasMean
    have e : (∫ x in d.low..d.high, id x) / d.range = d.mean := by
      simp only [id, integral_id]; unfold Uniform.range at hr ⊢; unfold Uniform.mean; field_simp; ring
    rw [e] at this; exact this
  refine ⟨hm, ⟨d.mean, hm, ?_⟩, ?_, ?_, ?_, ?_⟩
  · have := Uniform.hasExp h (k := fun x => (x - d.mean) ^ 2) (by fun_prop)
    have e : (∫ x in d.low..d.high, (x - d.mean) ^ 2) / d.range = d.variance := by
      rw [intervalIntegral.integral_comp_sub_right (fun x => x ^ 2), integral_pow]
      unfold Uniform.range at hr
      unfold Uniform.range Uniform.variance Uniform.mean Uniform.range
      field_simp; push_cast; ring
    rw [e] at this; exact this
  · unfold Uniform.stddev; positivity
  · unfold Uniform.stddev Uniform.variance; rw [div_pow, Real.sq_sqrt (by norm_num)]
  · refine hp.median hc ?_
    unfold Uniform.cdf Uniform.median Uniform.mean
    simp only
    rw [if_neg (by linarith), if_neg (by linarith)]
    unfold Uniform.range at hr ⊢
    field_simp; ring
  · refine HasExp.congr (hp.const d.entropy) fun x => ?_
    by_cases hx : x < d.low ∨ x > d.high
    · simp [Uniform.prob, hx]
    · simp only [Uniform.prob, if_neg hx]
      rw [one_div, Real.log_inv, neg_neg, Uniform.entropy]

/-- KL of Uniforms: `+inf` exactly when the support is not included; otherwise it is `E_p[log p - log q]`,
nonnegative, and zero exactly for equal parameters. -/
theorem C30_uniform_kl (p q : Uniform) (hp : p.low < p.high) (hq : q.low < q.high) :
    (Uniform.kl p q = .pinf ↔ ¬ Icc p.low p.high ⊆ Icc q.low q.high) ∧
    (Icc p.low p.high ⊆ Icc q.low q.high → ∃ k, Uniform.kl p q = .fin k ∧ HasKL p.prob q.prob k ∧ 0 ≤ k ∧
      (k = 0 ↔ p.low = q.low ∧ p.high = q.high)) := by
  have hrp : 0 < p.range := by unfold Uniform.range; linarith
  have hrq : 0 < q.range := by unfold Uniform.range; linarith
  have hsub : Icc p.low p.high ⊆ Icc q.low q.high ↔ q.low ≤ p.low ∧ p.high ≤ q.high := Icc_subset_Icc_iff hp.le
  have hfin : q.low ≤ p.low ∧ p.high ≤ q.high → Uniform.kl p q = .fin (Real.log q.range - Real.log p.range) := by
    intro hs
    unfold Uniform.kl
    rw [if_pos hs, XR.log_fin_pos (by linarith), XR.log_fin_pos (by linarith)]
    rfl
  refine ⟨?_, fun hs => ⟨_, hfin (hsub.1 hs), ?_, ?_, ?_⟩⟩
  · rw [hsub]
    constructor
    · intro hk hs; rw [hfin hs] at hk; cases hk
    · intro hs; unfold Uniform.kl; rw [if_neg hs]
  · have hs' := hsub.1 hs
    refine HasExp.congr ((C29_uniform_law p hp).1.const _) fun x => ?_
    by_cases hx : x ∈ Icc p.low p.high
    · have hx' := hs hx
      simp only [Uniform.prob_eq, indicator_of_mem hx, indicator_of_mem hx']
      rw [one_div, one_div, Real.log_inv, Real.log_inv]; ring
    · simp only [Uniform.prob_eq, indicator_of_notMem hx, zero_mul]
  · have hs' := hsub.1 hs
    have : p.range ≤ q.range := by unfold Uniform.range; linarith [hs'.1, hs'.2]
    have := Real.log_le_log hrp this
    linarith
  · have hs' := hsub.1 hs
    constructor
    · intro h0
      have : q.range = p.range := Real.log_injOn_pos hrq hrp (by linarith)
      unfold Uniform.range at this
      constructor <;> linarith [hs'.1, hs'.2]
    · rintro ⟨a, b⟩
      unfold Uniform.range; rw [a, b, sub_self]

/-- Uniform.prob: `1/(high-low)` on `[low, high]`, zero elsewhere; `log_prob` is `-inf` exactly outside; the cdf
clips to `[0, 1]`. -/
theorem C31_uniform_support (d : Uniform) (h : d.low < d.high) (x : ℝ) :
    (d.low ≤ x ∧ x ≤ d.high → d.prob x = 1 / (d.high - d.low) ∧ d.logProb x = .fin (-Real.log (d.high - d.low))) ∧
    (x < d.low ∨ d.high < x → d.prob x = 0 ∧ d.logProb x = .ninf) ∧
    (0 ≤ d.cdf x ∧ d.cdf x ≤ 1) ∧ (x ≤ d.low → d.cdf x = 0) ∧ (d.high ≤ x → d.cdf x = 1) := by
  have hr : 0 < d.high - d.low := by linarith
  refine ⟨fun hx => ?_, fun hx => ?_, ?_, fun hx => ?_, fun hx => ?_⟩
  · have : d.prob x = 1 / (d.high - d.low) := by
      unfold Uniform.prob; rw [if_neg]; · rfl
      rintro (a | a) <;> linarith [hx.1, hx.2]
    refine ⟨this, ?_⟩
    unfold Uniform.logProb
    rw [this, XR.log_fin_pos (one_div_pos.2 hr), one_div, Real.log_inv]
  · have : d.prob x = 0 := by unfold Uniform.prob; rw [if_pos hx]
    refine ⟨this, ?_⟩
    unfold Uniform.logProb; rw [this]; simp [XR.log]
  · unfold Uniform.cdf Uniform.range
    simp only
    split_ifs with h1 h2
    · norm_num
    · norm_num
    · refine ⟨div_nonneg (by linarith) hr.le, ?_⟩
      rw [div_le_one hr]; linarith
  · unfold Uniform.cdf Uniform.range
    simp only
    rw [if_neg (by linarith)]
    split_ifs
    · rfl
    · rw [show x = d.low by linarith]; simp
  · unfold Uniform.cdf Uniform.range
    simp only
    split_ifs
    · rfl
    · linarith
    · rw [show x = d.high by linarith]; field_simp

/-! ### Deterministic -/

/-- The tolerance is `atol + rtol * |loc|` (the code's special case for `rtol = 0` changes nothing). -/
theorem C31_deterministic_slack (d : Deterministic) : d.slack = d.atol + d.rtol * |d.loc| := by
  unfold Deterministic.slack
  split_ifs with h
  · rw [h, zero_mul, add_zero]
  · rfl

/-- `prob` is 1 within the tolerance and 0 outside; `log_prob` is its logarithm (0 or `-inf`); the cdf is the step at
the lower end of the tolerance interval; samples equal `loc` and have probability one. -/
theorem C31_deterministic (d : Deterministic) (x : ℝ) :
    (|x - d.loc| ≤ d.atol + d.rtol * |d.loc| → d.prob x = 1 ∧ d.logProb x = .fin 0) ∧
    (¬ |x - d.loc| ≤ d.atol + d.rtol * |d.loc| → d.prob x = 0 ∧ d.logProb x = .ninf) ∧
    (d.loc - (d.atol + d.rtol * |d.loc|) ≤ x → d.cdf x = 1 ∧ d.logCdf x = .fin 0) ∧
    (x < d.loc - (d.atol + d.rtol * |d.loc|) → d.cdf x = 0 ∧ d.logCdf x = .ninf) ∧
    d.sample = d.loc ∧ d.mean = d.loc ∧ d.mode = d.loc ∧ d.variance = 0 ∧ d.stddev = 0 ∧ d.entropy = 0 := by
  rw [← C31_deterministic_slack]
  have h1 : XR.log (.fin 1) = .fin 0 := by rw [XR.log_fin_pos one_pos, Real.log_one]
  have h0 : XR.log (.fin 0) = .ninf := by simp [XR.log]
  refine ⟨fun h => ?_, fun h => ?_, fun h => ?_, fun h => ?_, rfl, rfl, rfl, rfl, rfl, rfl⟩
  · have : d.prob x = 1 := by unfold Deterministic.prob; rw [if_pos h]
    exact ⟨this, by unfold Deterministic.logProb; rw [this, h1]⟩
  · have : d.prob x = 0 := by unfold Deterministic.prob; rw [if_neg h]
    exact ⟨this, by unfold Deterministic.logProb; rw [this, h0]⟩
  · have : d.cdf x = 1 := by unfold Deterministic.cdf; rw [if_pos h]
    exact ⟨this, by unfold Deterministic.logCdf; rw [this, h1]⟩
  · have : d.cdf x = 0 := by unfold Deterministic.cdf; rw [if_neg (not_le.2 h)]
    exact ⟨this, by unfold Deterministic.logCdf; rw [this, h0]⟩

/-- With nonnegative tolerances `sample_and_log_prob` is consistent with `log_prob`. -/
theorem C31_deterministic_sample (d : Deterministic) (ha : 0 ≤ d.atol) (hr : 0 ≤ d.rtol) :
    d.sampleAndLogProb = (d.sample, d.logProb d.sample) := by
  have : |d.loc - d.loc| ≤ d.atol + d.rtol * |d.loc| := by simp; positivity
  rw [show d.logProb d.sample = .fin 0 from ((C31_deterministic d d.loc).1 this).2]
  rfl

/-- Tolerances of higher rank than `loc` are rejected; otherwise the batch shape is `loc`'s shape. -/
theorem C31_deterministic_ctor (l a r : List ℕ) :
    ((∃ b, Deterministic.checkShapes l a r = .ok b) ↔ a.length ≤ l.length ∧ r.length ≤ l.length) ∧
    ∀ b, Deterministic.checkShapes l a r = .ok b → b = l := by
  unfold Deterministic.checkShapes
  by_cases h1 : l.length < r.length
  · simp [h1]
  · by_cases h2 : l.length < a.length
    · simp [h1, h2]
    · simp [h1, h2]; omega

/-- KL of Deterministics: 0 if the first location is within the second's tolerance, else `+inf`. -/
theorem C30_deterministic_kl (p q : Deterministic) :
    Deterministic.kl p q = (if |p.loc - q.loc| ≤ q.atol + q.rtol * |q.loc| then .fin 0 else .pinf) ∧
    Deterministic.kl p q = -(q.logProb p.sample) := by
  have h1 : XR.log (.fin 1) = .fin 0 := by rw [XR.log_fin_pos one_pos, Real.log_one]
  have h0 : XR.log (.fin 0) = .ninf := by simp [XR.log]
  unfold Deterministic.kl Deterministic.logProb Deterministic.prob
  rw [C31_deterministic_slack]
  constructor
  · simp only
    split_ifs
    · rw [h1]; show XR.fin (-0) = _; simp
    · rw [h0]; rfl
  · rfl

/-- Non-vacuity: parameters meeting the hypotheses, and a KL that is neither zero nor infinite. -/
example : (0 : ℝ) < (Gumbel.mk 1 2).scale ∧ 0 < (Gumbel.mk 0 3).scale ∧ 0 < Gumbel.kl ⟨1, 2⟩ ⟨0, 3⟩ := by
  refine ⟨by norm_num, by norm_num, ?_⟩
  obtain ⟨-, h1, h2⟩ := C30_gumbel_kl ⟨1, 2⟩ ⟨0, 3⟩ (by norm_num) (by norm_num)
  refine lt_of_le_of_ne h1 fun h => ?_
  have := (h2.1 h.symm).1
  norm_num at this

example : ∃ k, Uniform.kl ⟨0, 1⟩ ⟨-1, 1⟩ = .fin k ∧ 0 < k := by
  obtain ⟨k, h1, -, h2, h3⟩ := (C30_uniform_kl ⟨0, 1⟩ ⟨-1, 1⟩ (by norm_num) (by norm_num)).2
    (Icc_subset_Icc (by norm_num) (by norm_num))
  refine ⟨k, h1, lt_of_le_of_ne h2 fun h => ?_⟩
  have := (h3.1 h.symm).1
  norm_num at this

end Distrax
