import Verif.Lemmas.StdLaws2

/-! Property C28: Normal and LogStddevNormal. -/

namespace Distrax

open MeasureTheory Set Spec ProbabilityTheory

namespace Normal

/-- variance as a nonnegative real -/
noncomputable def vnn (d : Normal) : NNReal := ⟨d.scale ^ 2, sq_nonneg _⟩

theorem vnn_coe (d : Normal) : (d.vnn : ℝ) = d.scale ^ 2 := rfl

theorem vnn_ne {d : Normal} (h : 0 < d.scale) : d.vnn ≠ 0 := by
  intro h0
  have : d.scale ^ 2 = 0 := congrArg NNReal.toReal h0
  exact (pow_ne_zero 2 h.ne') this

theorem prob_eq {d : Normal} (h : 0 < d.scale) : d.prob = gaussianPDFReal d.loc d.vnn := by
  ext x
  unfold prob logProb standardize halfLog2pi gaussianPDFReal
  have hp : (0 : ℝ) < 2 * Real.pi := by positivity
  rw [vnn_coe, Real.sqrt_mul hp.le, Real.sqrt_sq h.le]
  have e2 : Real.exp (0.5 * Real.log (2 * Real.pi)) = Real.sqrt (2 * Real.pi) := by
    rw [Real.sqrt_eq_rpow, Real.rpow_def_of_pos hp]; congr 1; norm_num; ring
  show Real.exp (-0.5 * ((x - d.loc) / d.scale) ^ 2 - (0.5 * Real.log (2 * Real.pi) + Real.log d.scale)) = _
  rw [Real.exp_sub, Real.exp_add, e2, Real.exp_log h, div_eq_inv_mul]
  congr 2
  field_simp
  norm_num
  ring

theorem prob_affine {d : Normal} (h : 0 < d.scale) :
    d.prob = fun x => gaussianPDFReal 0 1 ((x - d.loc) / d.scale) / d.scale := by
  rw [prob_eq h]
  ext x
  unfold gaussianPDFReal
  have hp : (0 : ℝ) < 2 * Real.pi := by positivity
  rw [vnn_coe, Real.sqrt_mul hp.le, Real.sqrt_sq h.le, NNReal.coe_one, mul_one, mul_inv, sub_zero]
  rw [mul_assoc, mul_div_assoc, mul_comm (d.scale⁻¹), div_eq_mul_inv]
  congr 3
  field_simp

end Normal

/-- `exp(log_prob)` is a probability density, namely the Gaussian density, `cdf`/`survival_function` are its
distribution and survival functions, and the logarithmic versions are their logarithms. -/
theorem C28_normal_law (d : Normal) (h : 0 < d.scale) :
    IsPdf d.prob ∧ (∀ x, d.prob x = (Real.sqrt (2 * Real.pi * d.scale ^ 2))⁻¹ * Real.exp (-(x - d.loc) ^ 2 / (2 * d.scale ^ 2)))
    ∧ IsCdf d.prob d.cdf ∧ IsSurvival d.prob d.survival ∧
    (∀ x, d.logProb x = Real.log (d.prob x)) ∧ (∀ x, d.logCdf x = Real.log (d.cdf x)) ∧
    ∀ x, d.logSurvival x = Real.log (d.survival x) := by
  have hc : IsCdf (gaussianPDFReal 0 1) ndtr := fun x => rfl
  have hpdf : IsPdf (gaussianPDFReal 0 1) := gauss_pdf 0 one_ne_zero
  have hcd : IsCdf d.prob d.cdf := by rw [Normal.prob_affine h]; exact hc.affine d.loc h
  have hp : IsPdf d.prob := by rw [Normal.prob_eq h]; exact gauss_pdf _ (Normal.vnn_ne h)
  refine ⟨hp, ?_, hcd, ?_, fun x => by rw [Normal.prob, Real.log_exp], fun x => rfl, fun x => rfl⟩
  · intro x; rw [Normal.prob_eq h]; rfl
  · intro x
    rw [hp.survival hcd x]
    show 1 - ndtr (d.standardize x) = ndtr (-d.standardize x)
    have : _ = 1 - ndtr (d.standardize x) := hpdf.survival hc (d.standardize x)
    rw [← this]
    unfold ndtr
    have e := integral_comp_neg_Ioi (d.standardize x) (gaussianPDFReal 0 1)
    rw [← e]
    congr 1; ext t; simp [gaussianPDFReal]

/-- The sampler transports the standard normal to the distribution with this cdf, and `sample_and_log_prob` returns
the sample together with its log-probability. -/
theorem C28_normal_sample (d : Normal) (h : 0 < d.scale) :
    SampleLaw (gaussianPDFReal 0 1) d.sample d.cdf ∧
    ∀ rnd, (d.sampleAndLogProb rnd).1 = d.sample rnd ∧ (d.sampleAndLogProb rnd).2 = d.logProb (d.sample rnd) := by
  refine ⟨sampleLaw_affine (G := ndtr) (fun x => rfl) d.loc h fun z => rfl, fun rnd => ⟨rfl, ?_⟩⟩
  unfold Normal.sampleAndLogProb Normal.logProb Normal.sample Normal.standardize
  have : (d.scale * rnd + d.loc - d.loc) / d.scale = rnd := by field_simp; ring
  simp only [this]; ring

/-- Mean, variance, standard deviation, mode, median and entropy are those of the law. -/
theorem C28_normal_moments (d : Normal) (h : 0 < d.scale) :
    HasMean d.prob d.mean ∧ HasVariance d.prob d.variance ∧ 0 ≤ d.stddev ∧ d.stddev ^ 2 = d.variance ∧
    IsMode d.prob d.mode ∧ IsMedian d.prob d.median ∧ HasEntropy d.prob d.entropy := by
  obtain ⟨hp, -, hcd, hsv, hlog, -⟩ := C28_normal_law d h
  refine ⟨?_, ?_, h.le, rfl, ?_, ?_, ?_⟩
  · rw [Normal.prob_eq h]; exact gauss_mean _ (Normal.vnn_ne h)
  · rw [Normal.prob_eq h]; exact gauss_variance _ (Normal.vnn_ne h)
  · intro x
    unfold Normal.prob Normal.logProb Normal.mode Normal.mean Normal.standardize
    rw [Real.exp_le_exp]
    have : 0 ≤ ((x - d.loc) / d.scale) ^ 2 := sq_nonneg _
    simp only [sub_self, zero_div]
    norm_num
    linarith
  · refine hp.median hcd ?_
    show ndtr ((d.loc - d.loc) / d.scale) = 1 / 2
    have e1 := hp.survival hcd d.loc
    have e2 := hsv d.loc
    rw [e1] at e2
    have e3 : d.cdf d.loc = ndtr 0 := by simp [Normal.cdf, Normal.standardize]
    have e4 : d.survival d.loc = ndtr 0 := by simp [Normal.survival, Normal.standardize]
    simp only [e3, e4] at e2
    rw [sub_self, zero_div]; linarith
  · have h1 : HasExp d.prob (fun x => (x - d.loc) ^ 2) (d.scale ^ 2) := by
      rw [Normal.prob_eq h]; exact gauss_sq _ (Normal.vnn_ne h)
    have := (h1.smul (0.5 / d.scale ^ 2)).add (hp.const (halfLog2pi + Real.log d.scale))
    rw [show 0.5 / d.scale ^ 2 * d.scale ^ 2 = (0.5 : ℝ) by field_simp] at this
    refine HasExp.congr this fun x => ?_
    rw [← hlog]
    unfold Normal.logProb Normal.standardize
    simp only [div_pow]
    ring

/-- The closed-form KL is `E_p[log p - log q]`. -/
theorem C28_normal_kl (p q : Normal) (hp : 0 < p.scale) (hq : 0 < q.scale) : HasKL p.prob q.prob (Normal.kl p q) := by
  obtain ⟨h1, -, -, -, l1, -⟩ := C28_normal_law p hp
  obtain ⟨-, -, -, -, l2, -⟩ := C28_normal_law q hq
  have hm := (C28_normal_moments p hp).1
  have hs : HasExp p.prob (fun x => (x - p.loc) ^ 2) (p.scale ^ 2) := by
    rw [Normal.prob_eq hp]; exact gauss_sq _ (Normal.vnn_ne hp)
  -- E (x - q.loc)^2
  have h2 : HasExp p.prob (fun x => (x - q.loc) ^ 2) (p.scale ^ 2 + (p.loc - q.loc) ^ 2) := by
    have := (hs.add (HasExp.smul (2 * (p.loc - q.loc)) hm)).add (h1.const ((p.loc - q.loc) ^ 2 - 2 * (p.loc - q.loc) * p.loc))
    have e : p.scale ^ 2 + 2 * (p.loc - q.loc) * p.mean + ((p.loc - q.loc) ^ 2 - 2 * (p.loc - q.loc) * p.loc)
        = p.scale ^ 2 + (p.loc - q.loc) ^ 2 := by unfold Normal.mean; ring
    rw [e] at this
    exact this.congr fun x => by ring
  have := ((hs.smul (-0.5 / p.scale ^ 2)).add (h2.smul (0.5 / q.scale ^ 2))).add
    (h1.const (Real.log q.scale - Real.log p.scale))
  have e : -0.5 / p.scale ^ 2 * p.scale ^ 2 + 0.5 / q.scale ^ 2 * (p.scale ^ 2 + (p.loc - q.loc) ^ 2)
      + (Real.log q.scale - Real.log p.scale) = Normal.kl p q := by
    unfold Normal.kl
    have : Real.exp (2 * (Real.log p.scale - Real.log q.scale)) = p.scale ^ 2 / q.scale ^ 2 := by
      rw [← Real.log_div hp.ne' hq.ne', mul_comm, Real.exp_mul, Real.exp_log (div_pos hp hq)]
      norm_cast; rw [div_pow]
    simp only [this]
    field_simp
    ring
  rw [e] at this
  refine HasExp.congr this fun x => ?_
  rw [← l1, ← l2]
  unfold Normal.logProb Normal.standardize
  simp only [div_pow]
  ring

/-- It is nonnegative and zero exactly for equal parameters. -/
theorem C28_normal_kl_nonneg (p q : Normal) (hp : 0 < p.scale) (hq : 0 < q.scale) :
    0 ≤ Normal.kl p q ∧ (Normal.kl p q = 0 ↔ p.loc = q.loc ∧ p.scale = q.scale) := by
  set t := Real.log p.scale - Real.log q.scale with ht
  have h1 : Normal.kl p q = 0.5 * (p.loc / q.scale - q.loc / q.scale) ^ 2 + 0.5 * (Real.exp (2 * t) - 1 - 2 * t) := by
    simp only [Normal.kl]; rw [← ht]; ring
  have h2 : 0 ≤ Real.exp (2 * t) - 1 - 2 * t := by have := Real.add_one_le_exp (2 * t); linarith
  have h3 : 0 ≤ (p.loc / q.scale - q.loc / q.scale) ^ 2 := sq_nonneg _
  refine ⟨by rw [h1]; positivity, ?_, ?_⟩
  · intro h0
    rw [h1] at h0
    have a1 : (p.loc / q.scale - q.loc / q.scale) ^ 2 = 0 := by norm_num at h0; linarith
    have a2 : Real.exp (2 * t) - 1 - 2 * t = 0 := by norm_num at h0; linarith
    have a3 : p.loc / q.scale = q.loc / q.scale := by
      have := pow_eq_zero_iff (two_ne_zero) |>.1 a1; linarith
    have a4 : t = 0 := by
      by_contra hne
      have := Real.add_one_lt_exp (x := 2 * t) (by simpa using hne)
      linarith
    refine ⟨(div_left_inj' hq.ne').1 a3, Real.log_injOn_pos hp hq (by linarith)⟩
  · rintro ⟨a, b⟩
    have : t = 0 := by rw [ht, b, sub_self]
    rw [h1, a, this]; simp

/-- `LogStddevNormal` is the Normal with scale `exp(log_scale)`, and its KL formula computes the same number. -/
theorem C28_log_stddev (loc ls : ℝ) (m : Option ℝ) (d : LogStddevNormal) (h : LogStddevNormal.init loc ls m = .ok d) :
    d.loc = loc ∧ 0 < d.scale ∧ d.scale = Real.exp d.logScale ∧ d.maxScale = m ∧
      (m = none → d.logScale = ls) := by
  unfold LogStddevNormal.init at h
  split at h
  · split at h
    · simp at h
    · simp only [Except.ok.injEq] at h; subst h; exact ⟨rfl, Real.exp_pos _, rfl, rfl, fun h => nomatch h⟩
  · simp only [Except.ok.injEq] at h; subst h; exact ⟨rfl, Real.exp_pos _, rfl, rfl, fun _ => rfl⟩

theorem C28_log_stddev_kl (p q : LogStddevNormal) (hp : p.scale = Real.exp p.logScale) (hq : q.scale = Real.exp q.logScale) :
    LogStddevNormal.kl p q = Normal.kl p.toNormal q.toNormal := by
  unfold LogStddevNormal.kl Normal.kl
  have h1 : 0 < p.scale := by rw [hp]; exact Real.exp_pos _
  have h2 : 0 < q.scale := by rw [hq]; exact Real.exp_pos _
  have : Real.exp (2 * (Real.log p.scale - Real.log q.scale)) = p.scale ^ 2 / q.scale ^ 2 := by
    rw [← Real.log_div h1.ne' h2.ne', mul_comm, Real.exp_mul, Real.exp_log (div_pos h1 h2)]
    norm_cast; rw [div_pow]
  have e1 : p.logScale = Real.log p.scale := by rw [hp, Real.log_exp]
  have e2 : q.logScale = Real.log q.scale := by rw [hq, Real.log_exp]
  simp only [this, e1, e2]
  field_simp
  ring

/-- `max_scale` is never exceeded (nor reached), and small scales are almost unchanged:
`scale = max * e^ls / (max + e^ls)`.  A nonpositive `max_scale` is rejected. -/
theorem C28_max_scale (loc ls m : ℝ) (hm : 0 < m) :
    ∃ d, LogStddevNormal.init loc ls (some m) = .ok d ∧ d.scale < m ∧ d.scale < Real.exp ls ∧
      d.scale = m * Real.exp ls / (m + Real.exp ls) := by
  refine ⟨_, by rw [LogStddevNormal.init, if_neg (not_le.2 hm)], ?_⟩
  have hE := Real.exp_pos ls
  have key : Real.exp (Real.log m - rsoftplus (Real.log m - ls)) = m * Real.exp ls / (m + Real.exp ls) := by
    rw [Real.exp_sub, Real.exp_log hm, rsoftplus, Real.exp_log (by positivity), Real.exp_sub, Real.exp_log hm]
    field_simp
    ring
  refine ⟨?_, ?_, key⟩
  · show Real.exp _ < m
    rw [key, div_lt_iff₀ (by positivity)]; nlinarith
  · show Real.exp _ < _
    rw [key, div_lt_iff₀ (by positivity)]; nlinarith

theorem C28_max_scale_rejects (loc ls m : ℝ) (hm : m ≤ 0) :
    LogStddevNormal.init loc ls (some m) = .error .valueError := by
  rw [LogStddevNormal.init, if_pos hm]

/-- Slicing keeps the distribution when `max_scale` is not used. -/
theorem C28_slice_partial (loc ls : ℝ) (d : LogStddevNormal) (h : LogStddevNormal.init loc ls none = .ok d) :
    d.getItem = .ok d := by
  simp only [LogStddevNormal.init, Except.ok.injEq] at h; subst h; rfl

/-- Finding: with `max_scale` set, slicing applies the threshold a second time, so every sliced entry has a strictly
smaller scale than the distribution it was taken from. -/
theorem C28_slice_shrinks_scale (loc ls m : ℝ) (hm : 0 < m) :
    ∃ d d', LogStddevNormal.init loc ls (some m) = .ok d ∧ d.getItem = .ok d' ∧ d'.scale < d.scale := by
  obtain ⟨d, h1, -, -, -⟩ := C28_max_scale loc ls m hm
  obtain ⟨-, -, hs, hmx, -⟩ := C28_log_stddev loc ls (some m) d h1
  obtain ⟨d', h2, -, h3, -⟩ := C28_max_scale d.loc d.logScale m hm
  exact ⟨d, d', h1, by rw [LogStddevNormal.getItem, hmx]; exact h2, by rw [hs]; exact h3⟩

/-- Non-vacuity: a concrete pair of Normals with unequal parameters. -/
example : (0 : ℝ) < (Normal.mk 1 2).scale ∧ 0 < (Normal.mk 0 3).scale ∧ 0 < Normal.kl ⟨1, 2⟩ ⟨0, 3⟩ := by
  refine ⟨by norm_num, by norm_num, ?_⟩
  obtain ⟨h1, h2⟩ := C28_normal_kl_nonneg ⟨1, 2⟩ ⟨0, 3⟩ (by norm_num) (by norm_num)
  refine lt_of_le_of_ne h1 fun h => ?_
  have := (h2.1 h.symm).1
  norm_num at this

end Distrax
