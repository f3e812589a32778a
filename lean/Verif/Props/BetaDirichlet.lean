import Verif.Lemmas.GammaBeta
import Verif.Lemmas.Categorical
import Verif.Props.Gamma

/-! Property C38 (Beta and Dirichlet). -/

namespace Distrax

open MeasureTheory Set Spec XR ProbabilityTheory

/-! ### Beta -/

/-- The density the object reports: `exp(log_prob(x))` where `log_prob` is a number, 0 elsewhere. -/
noncomputable def BetaD.density (d : BetaD) (x : ℝ) : ℝ := weight (d.logProb x)

theorem BetaD.logProb_in {d : BetaD} {x : ℝ} (hx : x ∈ Ioo (0 : ℝ) 1) :
    d.logProb x = fin ((d.alpha - 1) * Real.log x + (d.beta - 1) * Real.log (1 - x) - d.logZ) := by
  have h : ¬((d.alpha = 1 ∧ x = 0) ∨ (d.beta = 1 ∧ x = 1)) := by
    rintro (⟨_, h⟩ | ⟨_, h⟩)
    · exact hx.1.ne' h
    · exact hx.2.ne h
  rw [BetaD.logProb, if_neg h, log_fin_pos hx.1, log_fin_pos (by linarith [hx.2])]
  simp only [fin_mul, fin_add, fin_sub]

theorem mul_ninf {a : ℝ} : fin a * ninf = if a < 0 then pinf else if 0 < a then ninf else nan := by
  show infOf (-a) = _
  unfold infOf
  rcases lt_trichotomy a 0 with h | h | h
  · rw [if_pos (by linarith), if_pos h]
  · subst h; simp
  · rw [if_neg (by linarith), if_pos (by linarith), if_neg (by linarith), if_pos h]

/-- `log_prob` at the two ends and outside `[0, 1]`.  The ends are treated exactly; finding: outside the support
the value is nan rather than `-inf`. -/
theorem C38_beta_boundary (d : BetaD) :
    (d.logProb 0 = if d.alpha < 1 then pinf else if 1 < d.alpha then ninf else fin (-d.logZ)) ∧
    (d.logProb 1 = if d.beta < 1 then pinf else if 1 < d.beta then ninf else fin (-d.logZ)) ∧
    ∀ x, x < 0 ∨ 1 < x → d.logProb x = nan := by
  refine ⟨?_, ?_, fun x hx => ?_⟩
  · unfold BetaD.logProb
    rcases lt_trichotomy d.alpha 1 with h | h | h
    · rw [if_neg (by rintro (⟨h', _⟩ | ⟨_, h'⟩) <;> linarith), if_pos h, log_fin_zero, mul_ninf,
        if_pos (by linarith), sub_zero, log_fin_pos one_pos, fin_mul]
      rfl
    · rw [if_pos (Or.inl ⟨h, rfl⟩), if_neg (by linarith), if_neg (by linarith)]; rfl
    · rw [if_neg (by rintro (⟨h', _⟩ | ⟨_, h'⟩) <;> linarith), if_neg (by linarith), if_pos h, log_fin_zero, mul_ninf,
        if_neg (by linarith), if_pos (by linarith), sub_zero, log_fin_pos one_pos, fin_mul]
      rfl
  · unfold BetaD.logProb
    rcases lt_trichotomy d.beta 1 with h | h | h
    · rw [if_neg (by rintro (⟨_, h'⟩ | ⟨h', _⟩) <;> linarith), if_pos h, sub_self, log_fin_zero, mul_ninf,
        if_pos (by linarith), log_fin_pos one_pos, fin_mul]
      rfl
    · rw [if_pos (Or.inr ⟨h, rfl⟩), if_neg (by linarith), if_neg (by linarith)]; rfl
    · rw [if_neg (by rintro (⟨_, h'⟩ | ⟨h', _⟩) <;> linarith), if_neg (by linarith), if_pos h, sub_self, log_fin_zero,
        mul_ninf, if_neg (by linarith), if_pos (by linarith), log_fin_pos one_pos, fin_mul]
      rfl
  · have hn : ∀ y : ℝ, y < 0 → XR.log (fin y) = nan := fun y hy => by
      show (if 0 < y then _ else _) = _
      rw [if_neg (by linarith), if_neg (by linarith)]
    unfold BetaD.logProb
    rcases hx with hx | hx
    · rw [if_neg (by rintro (⟨_, h'⟩ | ⟨_, h'⟩) <;> linarith), hn x hx, log_fin_pos (by linarith)]
      rfl
    · rw [if_neg (by rintro (⟨_, h'⟩ | ⟨_, h'⟩) <;> linarith), hn (1 - x) (by linarith), log_fin_pos (by linarith)]
      rfl

theorem BetaD.density_in {d : BetaD} (ha : 0 < d.alpha) (hb : 0 < d.beta) {x : ℝ} (hx : x ∈ Ioo (0 : ℝ) 1) :
    d.density x = betaPDFReal d.alpha d.beta x := by
  have h1 := beta_pos ha hb
  rw [BetaD.density, d.logProb_in hx, weight, betaPDFReal, if_pos (show 0 < x ∧ x < 1 from hx), BetaD.logZ, logBeta_eq ha hb, Real.exp_sub,
    Real.exp_add, Real.exp_log h1, mul_comm (d.alpha - 1), mul_comm (d.beta - 1), Real.exp_mul, Real.exp_mul,
    Real.exp_log hx.1, Real.exp_log (by linarith [hx.2])]
  field_simp

theorem BetaD.density_ae {d : BetaD} (ha : 0 < d.alpha) (hb : 0 < d.beta) :
    ∀ᵐ x, betaPDFReal d.alpha d.beta x = d.density x := by
  have h0 : ∀ᵐ x : ℝ, x ≠ 0 := Measure.ae_ne volume 0
  have h1 : ∀ᵐ x : ℝ, x ≠ 1 := Measure.ae_ne volume 1
  filter_upwards [h0, h1] with x h0 h1
  by_cases hx : x ∈ Ioo (0 : ℝ) 1
  · rw [BetaD.density_in ha hb hx]
  · rw [betaPDFReal, if_neg (show ¬(0 < x ∧ x < 1) from hx), BetaD.density, (C38_beta_boundary d).2.2 x]
    · rfl
    · by_contra h
      push Not at h
      exact hx ⟨lt_of_le_of_ne h.1 (Ne.symm h0), lt_of_le_of_ne h.2 h1⟩

theorem weight_nonneg' (a : XR) : 0 ≤ weight a := by
  cases a <;> simp [weight, Real.exp_nonneg]

/-- On `(0, 1)`, `exp(log_prob)` is `x^(alpha-1) (1-x)^(beta-1) / B(alpha, beta)`; it is a probability density and
`cdf` its distribution function on `[0, 1]`. -/
theorem C38_beta_law (d : BetaD) (ha : 0 < d.alpha) (hb : 0 < d.beta) :
    (∀ x ∈ Ioo (0 : ℝ) 1, ∃ l, d.logProb x = fin l ∧
      Real.exp l = x ^ (d.alpha - 1) * (1 - x) ^ (d.beta - 1) /
        (Real.Gamma d.alpha * Real.Gamma d.beta / Real.Gamma (d.alpha + d.beta))) ∧
    IsPdf d.density ∧ ∀ x ∈ Icc (0 : ℝ) 1, ∫ t in Iic x, d.density t = d.cdf x := by
  refine ⟨fun x hx => ⟨_, d.logProb_in hx, ?_⟩, ?_, fun x hx => ?_⟩
  · have := BetaD.density_in ha hb hx
    rw [BetaD.density, d.logProb_in hx, weight] at this
    rw [this, betaPDFReal, if_pos (show 0 < x ∧ x < 1 from hx), ProbabilityTheory.beta]; ring
  · exact (betaPDF_isPdf ha hb).congr_ae (BetaD.density_ae ha hb) fun x => weight_nonneg' _
  · rw [← setIntegral_congr_ae measurableSet_Iic ((BetaD.density_ae ha hb).mono fun x h _ => h), betaPDFReal_indicator,
      setIntegral_indicator measurableSet_Ioo, BetaD.cdf, betainc, integral_const_mul]
    have e : ∫ t in Iic x ∩ Ioo 0 1, t ^ (d.alpha - 1) * (1 - t) ^ (d.beta - 1)
        = ∫ t in (0 : ℝ)..x, t ^ (d.alpha - 1) * (1 - t) ^ (d.beta - 1) := by
      rw [intervalIntegral.integral_of_le hx.1, integral_Ioc_eq_integral_Ioo]
      rcases hx.2.lt_or_eq with h | h
      · have : Iic x ∩ Ioo 0 1 = Ioc 0 x := by
          ext t; simp only [mem_inter_iff, mem_Iic, mem_Ioo, mem_Ioc]
          constructor
          · rintro ⟨h1, h2, _⟩; exact ⟨h2, h1⟩
          · rintro ⟨h1, h2⟩; exact ⟨h2, h1, by linarith⟩
        rw [this, integral_Ioc_eq_integral_Ioo]
      · subst h
        have : Iic (1 : ℝ) ∩ Ioo 0 1 = Ioo 0 1 := by
          ext t; simp only [mem_inter_iff, mem_Iic, mem_Ioo]
          constructor
          · rintro ⟨_, h⟩; exact h
          · rintro ⟨h1, h2⟩; exact ⟨h2.le, h1, h2⟩
        rw [this]
    rw [e, beta]; ring

theorem beta_entropy {a b : ℝ} (ha : 0 < a) (hb : 0 < b) :
    HasEntropy (betaPDFReal a b) (Real.log (beta a b) - (a - 1) * (digamma a - digamma (a + b))
      - (b - 1) * (digamma b - digamma (a + b))) := by
  have h := ((betaPDF_isPdf ha hb).const (Real.log (beta a b))).add
    (((betaPDF_log ha hb).smul (-(a - 1))).add ((betaPDF_log_one_sub ha hb).smul (-(b - 1))))
  rw [show Real.log (beta a b) + (-(a - 1) * (digamma a - digamma (a + b)) + -(b - 1) * (digamma b - digamma (a + b)))
    = Real.log (beta a b) - (a - 1) * (digamma a - digamma (a + b)) - (b - 1) * (digamma b - digamma (a + b)) by
      ring] at h
  refine HasExp.congr h fun x => ?_
  by_cases hx : 0 < x ∧ x < 1
  · congr 1
    have h1 := beta_pos ha hb
    have h2 := Real.rpow_pos_of_pos hx.1 (a - 1)
    have hx' : 0 < 1 - x := by linarith [hx.2]
    have h3 := Real.rpow_pos_of_pos hx' (b - 1)
    rw [betaPDFReal, if_pos hx, Real.log_mul (by positivity) h3.ne', Real.log_mul (by positivity) h2.ne',
      Real.log_rpow hx.1, Real.log_rpow hx', one_div, Real.log_inv]
    ring
  · rw [betaPDFReal, if_neg (show ¬(0 < x ∧ x < 1) from hx), zero_mul, zero_mul]

/-- `mean`, `variance`, `entropy` are those of the law. -/
theorem C38_beta_moments (d : BetaD) (ha : 0 < d.alpha) (hb : 0 < d.beta) :
    HasMean d.density d.mean ∧ HasVariance d.density d.variance ∧ HasEntropy d.density d.entropy := by
  have hae := BetaD.density_ae ha hb
  refine ⟨HasExp.congr_ae (betaPDF_mean ha hb) hae, ?_, ?_⟩
  · obtain ⟨m, h1, h2⟩ := betaPDF_variance ha hb
    exact ⟨m, HasExp.congr_ae h1 hae, HasExp.congr_ae h2 hae⟩
  · have h := beta_entropy ha hb
    have e : Real.log (beta d.alpha d.beta) - (d.alpha - 1) * (digamma d.alpha - digamma (d.alpha + d.beta))
        - (d.beta - 1) * (digamma d.beta - digamma (d.alpha + d.beta)) = d.entropy := by
      rw [BetaD.entropy, BetaD.logZ, logBeta_eq ha hb]; ring
    rw [e] at h
    refine ⟨h.1.congr ?_, ?_⟩
    · filter_upwards [hae] with x hx; rw [hx]
    · rw [← h.2]; refine integral_congr_ae ?_
      filter_upwards [hae] with x hx; rw [hx]

/-- The KL formula is the divergence of the laws; it is nonnegative, and zero exactly for equal parameters. -/
theorem C38_beta_kl (p q : BetaD) (hpa : 0 < p.alpha) (hpb : 0 < p.beta) (hqa : 0 < q.alpha) (hqb : 0 < q.beta) :
    HasKL p.density q.density (p.kl q) ∧ 0 ≤ p.kl q ∧ (p.kl q = 0 ↔ p = q) := by
  have hpae := BetaD.density_ae hpa hpb
  have hqae := BetaD.density_ae hqa hqb
  have hb1 := beta_pos hpa hpb
  have hb2 := beta_pos hqa hqb
  have hkl : HasKL (betaPDFReal p.alpha p.beta) (betaPDFReal q.alpha q.beta) (p.kl q) := by
    have h := (((betaPDF_log hpa hpb).smul (p.alpha - q.alpha)).add
      ((betaPDF_log_one_sub hpa hpb).smul (p.beta - q.beta))).add
      ((betaPDF_isPdf hpa hpb).const (Real.log (beta q.alpha q.beta) - Real.log (beta p.alpha p.beta)))
    have e : (p.alpha - q.alpha) * (digamma p.alpha - digamma (p.alpha + p.beta))
        + (p.beta - q.beta) * (digamma p.beta - digamma (p.alpha + p.beta))
        + (Real.log (beta q.alpha q.beta) - Real.log (beta p.alpha p.beta)) = p.kl q := by
      rw [BetaD.kl, logBeta_eq hpa hpb, logBeta_eq hqa hqb]; ring
    rw [e] at h
    refine HasExp.congr h fun x => ?_
    by_cases hx : 0 < x ∧ x < 1
    · congr 1
      have hx' : 0 < 1 - x := by linarith [hx.2]
      have L : ∀ {a b : ℝ}, 0 < beta a b → Real.log (betaPDFReal a b x)
          = -Real.log (beta a b) + (a - 1) * Real.log x + (b - 1) * Real.log (1 - x) := by
        intro a b hab
        have h2 := Real.rpow_pos_of_pos hx.1 (a - 1)
        have h3 := Real.rpow_pos_of_pos hx' (b - 1)
        rw [betaPDFReal, if_pos hx, Real.log_mul (by positivity) h3.ne', Real.log_mul (by positivity) h2.ne',
          Real.log_rpow hx.1, Real.log_rpow hx', one_div, Real.log_inv]
      rw [L hb1, L hb2]; ring
    · rw [betaPDFReal, if_neg (show ¬(0 < x ∧ x < 1) from hx), zero_mul, zero_mul]
  have hsupp : ∀ x, betaPDFReal q.alpha q.beta x = 0 → betaPDFReal p.alpha p.beta x = 0 := by
    intro x h
    by_cases hx : 0 < x ∧ x < 1
    · exact absurd h (betaPDFReal_pos hx.1 hx.2 hqa hqb).ne'
    · rw [betaPDFReal, if_neg hx]
  refine ⟨?_, hkl.nonneg_of_support (betaPDF_isPdf hpa hpb) (betaPDF_isPdf hqa hqb) hsupp, fun h0 => ?_, fun e => ?_⟩
  · refine ⟨hkl.1.congr ?_, ?_⟩
    · filter_upwards [hpae, hqae] with x h1 h2; rw [h1, h2]
    · rw [← hkl.2]; refine integral_congr_ae ?_
      filter_upwards [hpae, hqae] with x h1 h2; rw [h1, h2]
  · rw [h0] at hkl
    have hae := hkl.ae_eq_of_zero (betaPDF_isPdf hpa hpb) (betaPDF_isPdf hqa hqb) hsupp
    have h1 := HasExp.unique (HasExp.congr_ae (betaPDF_mean hpa hpb) hae) (betaPDF_mean hqa hqb)
    have h2 := HasExp.unique (HasExp.congr_ae (betaPDF_sq hpa hpb) hae) (betaPDF_sq hqa hqb)
    obtain ⟨a, b⟩ := p
    obtain ⟨a', b'⟩ := q
    simp only at *
    rw [h1] at h2
    have hm : a' / (a' + b') ≠ 0 := (div_pos hqa (by linarith)).ne'
    have h3 := mul_right_cancel₀ hm h2
    have e1 : a + b ≠ 0 := by linarith
    have e2 : a' + b' ≠ 0 := by linarith
    have e3 : a + b + 1 ≠ 0 := by linarith
    have e4 : a' + b' + 1 ≠ 0 := by linarith
    rw [div_eq_div_iff e1 e2] at h1
    rw [div_eq_div_iff e3 e4] at h3
    have h5 : b = b' := by linarith
    subst h5
    have h6 : a = a' := mul_right_cancel₀ hpb.ne' (by linarith)
    rw [h6]
  · subst e
    rw [BetaD.kl]; ring

/-- Gibbs' inequality for two outcomes. -/
theorem two_gibbs {m x : ℝ} (hm : m ∈ Ioo (0 : ℝ) 1) (hx : x ∈ Ioo (0 : ℝ) 1) :
    m * Real.log x + (1 - m) * Real.log (1 - x) ≤ m * Real.log m + (1 - m) * Real.log (1 - m) := by
  have h1 := kl_integrand_ge hm.1 hx.1
  have h2 := kl_integrand_ge (show 0 < 1 - m by linarith [hm.2]) (show 0 < 1 - x by linarith [hx.2])
  linarith

/-- Where a mode is documented (not `alpha = beta = 1`, not both `< 1`, and not the undocumented corner
`min(alpha, beta) < 1 = max(alpha, beta)`), the reported value is in `[0, 1]` and no point of `[0, 1]` has a larger
`log_prob` (`+inf` at an end where the density is unbounded). -/
theorem C38_beta_mode (d : BetaD) (h : (1 < d.alpha ∨ 1 < d.beta)) :
    ∃ m ∈ Icc (0 : ℝ) 1, d.mode = fin m ∧ ∀ x ∈ Icc (0 : ℝ) 1, (d.logProb x).toE ≤ (d.logProb m).toE := by
  obtain ⟨h0, h1, _⟩ := C38_beta_boundary d
  by_cases ha : 1 < d.alpha <;> by_cases hb : 1 < d.beta
  · have hm : (d.alpha - 1) / (d.alpha + d.beta - 2) ∈ Ioo (0 : ℝ) 1 :=
      ⟨div_pos (by linarith) (by linarith), by rw [div_lt_one (by linarith)]; linarith⟩
    refine ⟨_, Ioo_subset_Icc_self hm, if_pos ⟨ha, hb⟩, fun x hx => ?_⟩
    rcases hx.1.lt_or_eq with hx0 | hx0
    · rcases hx.2.lt_or_eq with hx1 | hx1
      · rw [d.logProb_in hm, d.logProb_in ⟨hx0, hx1⟩]
        simp only [XR.toE, EReal.coe_le_coe_iff]
        have := two_gibbs hm ⟨hx0, hx1⟩
        have hS : 0 < d.alpha + d.beta - 2 := by linarith
        have h2 := mul_le_mul_of_nonneg_left this hS.le
        set m := (d.alpha - 1) / (d.alpha + d.beta - 2) with hmdef
        have e1 : (d.alpha + d.beta - 2) * m = d.alpha - 1 := by rw [hmdef]; field_simp
        have e2 : (d.alpha + d.beta - 2) * (1 - m) = d.beta - 1 := by linarith
        rw [mul_add, mul_add, ← mul_assoc, ← mul_assoc, ← mul_assoc, ← mul_assoc, e1, e2] at h2
        linarith
      · rw [hx1, h1, if_neg (by linarith), if_pos hb]; simp [XR.toE]
    · rw [← hx0, h0, if_neg (by linarith), if_pos ha]; simp [XR.toE]
  · refine ⟨1, by simp, ?_, fun x hx => ?_⟩
    · rw [BetaD.mode, if_neg (by tauto), if_neg (by rintro ⟨h', _⟩; linarith), if_pos ⟨ha, not_lt.1 hb⟩]; rfl
    · rw [h1]
      rcases (not_lt.1 hb).lt_or_eq with hb' | hb'
      · rw [if_pos hb']; simp [XR.toE]
      · rw [if_neg (by linarith), if_neg (by linarith)]
        rcases hx.1.lt_or_eq with hx0 | hx0
        · rcases hx.2.lt_or_eq with hx1 | hx1
          · rw [d.logProb_in ⟨hx0, hx1⟩]
            simp only [XR.toE, EReal.coe_le_coe_iff]
            have : (d.alpha - 1) * Real.log x ≤ 0 :=
              mul_nonpos_of_nonneg_of_nonpos (by linarith) (Real.log_nonpos hx0.le hx1.le)
            rw [hb']; linarith
          · rw [hx1, h1, if_neg (by linarith), if_neg (by linarith)]
        · rw [← hx0, h0, if_neg (by linarith), if_pos ha]; simp [XR.toE]
  · refine ⟨0, by simp, ?_, fun x hx => ?_⟩
    · rw [BetaD.mode, if_neg (by tauto), if_pos ⟨not_lt.1 ha, hb⟩]; rfl
    · rw [h0]
      rcases (not_lt.1 ha).lt_or_eq with ha' | ha'
      · rw [if_pos ha']; simp [XR.toE]
      · rw [if_neg (by linarith), if_neg (by linarith)]
        rcases hx.1.lt_or_eq with hx0 | hx0
        · rcases hx.2.lt_or_eq with hx1 | hx1
          · rw [d.logProb_in ⟨hx0, hx1⟩]
            simp only [XR.toE, EReal.coe_le_coe_iff]
            have : (d.beta - 1) * Real.log (1 - x) ≤ 0 :=
              mul_nonpos_of_nonneg_of_nonpos (by linarith) (Real.log_nonpos (by linarith) (by linarith))
            rw [ha']; linarith
          · rw [hx1, h1, if_neg (by linarith), if_pos hb]; simp [XR.toE]
        · rw [← hx0, h0, if_neg (by linarith), if_neg (by linarith)]
  · exact absurd h (by tauto)

/-- In all other cases the reported mode is nan.  Finding: this includes `alpha = 1, beta < 1` (and symmetrically),
where the density is largest at an end (`log_prob(1) = +inf`), and which the documentation does not list. -/
theorem C38_beta_mode_nan (d : BetaD) (ha : d.alpha ≤ 1) (hb : d.beta ≤ 1) :
    d.mode = nan ∧ (d.beta < 1 → d.logProb 1 = pinf) := by
  refine ⟨?_, fun h => ?_⟩
  · rw [BetaD.mode, if_neg (by rintro ⟨h, _⟩; linarith), if_neg (by rintro ⟨_, h⟩; linarith),
      if_neg (by rintro ⟨h, _⟩; linarith)]
  · rw [(C38_beta_boundary d).2.1, if_pos h]

/-- `log_prob` is never nan on the closed support. -/
theorem C38_beta_no_nan (d : BetaD) {x : ℝ} (hx : x ∈ Icc (0 : ℝ) 1) : d.logProb x ≠ nan := by
  obtain ⟨h0, h1, _⟩ := C38_beta_boundary d
  rcases hx.1.lt_or_eq with hx0 | hx0
  · rcases hx.2.lt_or_eq with hx1 | hx1
    · rw [d.logProb_in ⟨hx0, hx1⟩]; simp
    · rw [hx1, h1]; split_ifs <;> simp
  · rw [← hx0, h0]; split_ifs <;> simp

/-! ### Dirichlet -/

variable {K : ℕ}

/-- The constructor rejects exactly shapes without a last dimension of size at least two. -/
theorem C38_dirichlet_ctor (shape : List ℕ) (c : Fin K → ℝ) :
    (Dir.initShape shape = .error .valueError ↔ (shape = [] ∨ ∃ k < 2, ∃ b, shape = b ++ [k])) ∧
    (Dir.init c = .error .valueError ↔ K < 2) := by
  refine ⟨?_, by unfold Dir.init; split_ifs <;> simp_all⟩
  unfold Dir.initShape
  rcases List.eq_nil_or_concat shape with h | ⟨b, k, h⟩
  · subst h; simp
  · subst h
    simp only [List.concat_eq_append, List.length_append, List.length_singleton]
    rw [if_neg (by omega)]
    simp only [List.getLast?_append, List.getLast?_singleton, Option.some_or, Option.getD_some]
    by_cases hk : k < 2
    · rw [if_pos hk]
      simp only [true_iff]
      exact .inr ⟨k, hk, b, rfl⟩
    · rw [if_neg hk]
      simp only [reduceCtorEq, false_iff]
      rintro (h | ⟨k', hk', b', h⟩)
      · simp at h
      · have := List.append_inj_right' h rfl
        simp at this
        omega

/-- The mean is a probability vector. -/
theorem C38_dirichlet_mean (d : Dir K) (h : ∀ i, 0 < d.concentration i) (hK : 0 < K) : IsPmf d.mean := by
  have hs : 0 < ∑ i, d.concentration i := Finset.sum_pos (fun i _ => h i) ⟨⟨0, hK⟩, Finset.mem_univ _⟩
  refine ⟨fun i => div_nonneg (h i).le hs.le, ?_⟩
  unfold Dir.mean
  rw [← Finset.sum_div, div_self hs.ne']

/-- The covariance matrix is symmetric, its rows sum to zero, and `variance` is its diagonal. -/
theorem C38_dirichlet_covariance (d : Dir K) (h : ∀ i, 0 < d.concentration i) (i : Fin K) :
    (∀ j, d.covariance i j = d.covariance j i) ∧ ∑ j, d.covariance i j = 0 ∧ d.variance i = d.covariance i i ∧
    0 ≤ d.variance i := by
  have hs : 0 < ∑ i, d.concentration i := Finset.sum_pos (fun i _ => h i) ⟨i, Finset.mem_univ _⟩
  refine ⟨fun j => ?_, ?_, ?_, ?_⟩
  · unfold Dir.covariance
    by_cases e : i = j
    · subst e; rfl
    · simp only [e, Ne.symm e, if_false]; ring
  · unfold Dir.covariance
    simp only
    rw [Finset.sum_add_distrib, ← Finset.mul_sum, ← Finset.sum_div, div_self hs.ne']
    simp
  · unfold Dir.covariance Dir.variance
    simp only [if_true]
    ring
  · unfold Dir.variance
    have h1 : d.concentration i / ∑ j, d.concentration j ≤ 1 := by
      rw [div_le_one hs]
      exact Finset.single_le_sum (f := d.concentration) (fun j _ => (h j).le) (Finset.mem_univ i)
    have h2 : 0 ≤ d.concentration i / ∑ j, d.concentration j := div_nonneg (h i).le hs.le
    exact div_nonneg (mul_nonneg h2 (by linarith)) (by linarith)

/-- On the open simplex `log_prob` is `sum (alpha_i - 1) log x_i - log B(alpha)`. -/
theorem C38_dirichlet_log_prob (d : Dir K) {x : Fin K → ℝ} (hx : ∀ i, 0 < x i) :
    d.logProb x = fin (∑ i, (d.concentration i - 1) * Real.log (x i) - d.logZ) := by
  unfold Dir.logProb
  rw [Finset.sum_congr rfl fun i _ => by rw [log_fin_pos (hx i), fin_mul], sum_fin, fin_sub]

/-- If all concentrations exceed one, the mode is a point of the open simplex and maximises `log_prob` there;
otherwise all its entries are nan. -/
theorem C38_dirichlet_mode (d : Dir K) (hK : 0 < K) :
    ((∀ i, 1 < d.concentration i) → ∃ m : Fin K → ℝ, (∀ i, d.mode i = fin (m i)) ∧ IsPmf m ∧ (∀ i, 0 < m i) ∧
      ∀ x : Fin K → ℝ, IsPmf x → (∀ i, 0 < x i) → (d.logProb x).toE ≤ (d.logProb m).toE) ∧
    ((∃ i, d.concentration i ≤ 1) → ∀ i, d.mode i = nan) := by
  refine ⟨fun h => ?_, fun ⟨i, hi⟩ j => if_neg fun h => absurd (h i) (not_lt.2 hi)⟩
  have hs : 0 < ∑ i, (d.concentration i - 1) :=
    Finset.sum_pos (fun i _ => by linarith [h i]) ⟨⟨0, hK⟩, Finset.mem_univ _⟩
  set S := ∑ i, (d.concentration i - 1) with hS
  have hm0 : ∀ i, 0 < (d.concentration i - 1) / S := fun i => div_pos (by linarith [h i]) hs
  have hm : IsPmf fun i => (d.concentration i - 1) / S :=
    ⟨fun i => (hm0 i).le, by rw [← Finset.sum_div, ← hS, div_self hs.ne']⟩
  refine ⟨_, fun i => if_pos h, hm, hm0, fun x hx hx0 => ?_⟩
  rw [C38_dirichlet_log_prob d hx0, C38_dirichlet_log_prob d hm0]
  simp only [XR.toE, EReal.coe_le_coe_iff]
  have := klDiv_nonneg hm hx fun i hi => absurd hi (hx0 i).ne'
  rw [klDiv] at this
  have h2 := mul_nonneg hs.le this
  rw [Finset.mul_sum] at h2
  have e : ∀ i, S * ((d.concentration i - 1) / S * (Real.log ((d.concentration i - 1) / S) - Real.log (x i)))
      = (d.concentration i - 1) * Real.log ((d.concentration i - 1) / S) - (d.concentration i - 1) * Real.log (x i) := by
    intro i; field_simp
  rw [Finset.sum_congr rfl fun i _ => e i, Finset.sum_sub_distrib] at h2
  linarith

/-! ### Dirichlet against Beta -/

/-- `Beta(a, b)` and `Dirichlet([a, b])` have the same `log_prob` (at `x`, respectively `(x, 1 - x)`), except at the
two points Beta treats specially. -/
theorem C38_beta_dirichlet_log_prob (b : BetaD) (x : ℝ)
    (h : ¬((b.alpha = 1 ∧ x = 0) ∨ (b.beta = 1 ∧ x = 1))) :
    (Dir.ofBeta b).logProb ![x, 1 - x] = b.logProb x := by
  unfold Dir.logProb BetaD.logProb
  rw [if_neg h, Fin.sum_univ_two]
  simp only [Dir.ofBeta, Matrix.cons_val_zero, Matrix.cons_val_one]
  congr 3
  simp [Dir.logZ, BetaD.logZ, logBetaMultivariate, logBeta, Fin.sum_univ_two]

/-- Finding: at those points (`alpha = 1, x = 0`) Beta returns the density, Dirichlet nan. -/
theorem C38_dirichlet_boundary_nan (b : ℝ) : (Dir.ofBeta ⟨1, b⟩).logProb ![0, 1 - 0] = nan ∧
    ∃ l, BetaD.logProb ⟨1, b⟩ 0 = fin l := by
  refine ⟨?_, ⟨_, by rw [(C38_beta_boundary _).1, if_neg (lt_irrefl _), if_neg (lt_irrefl _)]⟩⟩
  unfold Dir.logProb
  rw [Fin.sum_univ_two]
  simp only [Dir.ofBeta, Matrix.cons_val_zero, Matrix.cons_val_one, sub_self, log_fin_zero, mul_ninf, lt_irrefl,
    if_false, nan_add]
  rfl

/-- Moments, entropy and KL divergence agree. -/
theorem C38_beta_dirichlet (b b' : BetaD) (ha : 0 < b.alpha) (hb : 0 < b.beta) :
    (Dir.ofBeta b).mean 0 = b.mean ∧ (Dir.ofBeta b).variance 0 = b.variance ∧
    (Dir.ofBeta b).entropy = b.entropy ∧ (Dir.ofBeta b).kl (Dir.ofBeta b') = .ok (b.kl b') := by
  have hs : b.alpha + b.beta ≠ 0 := by linarith
  have hs1 : b.alpha + b.beta + 1 ≠ 0 := by linarith
  refine ⟨?_, ?_, ?_, ?_⟩
  · simp [Dir.mean, Dir.ofBeta, BetaD.mean, Fin.sum_univ_two]
  · simp [Dir.variance, Dir.ofBeta, BetaD.variance, Fin.sum_univ_two]
    field_simp
    ring
  · simp [Dir.entropy, Dir.ofBeta, BetaD.entropy, Fin.sum_univ_two, Dir.logZ, BetaD.logZ, logBetaMultivariate, logBeta]
    ring
  · simp [Dir.kl, Dir.ofBeta, BetaD.kl, Fin.sum_univ_two, logBetaMultivariate, logBeta]
    ring

/-! ### KL divergence of Dirichlets, by splitting off one coordinate at a time -/

/-- The KL formula on concentration vectors. -/
noncomputable def dirKL (a c : Fin K → ℝ) : ℝ :=
  logBetaMultivariate c - logBetaMultivariate a
    + ∑ i, (a i - c i) * (digamma (a i) - digamma (∑ j, a j))

theorem dirKL_succ (a c : Fin (K + 1) → ℝ) :
    dirKL a c = BetaD.kl ⟨a 0, ∑ i, a (Fin.succ i)⟩ ⟨c 0, ∑ i, c (Fin.succ i)⟩
      + dirKL (fun i => a (Fin.succ i)) fun i => c (Fin.succ i) := by
  simp only [dirKL, BetaD.kl, logBetaMultivariate, logBeta, Fin.sum_univ_succ]
  have e : ∑ i : Fin K, (a i.succ - c i.succ) * (digamma (a i.succ) - digamma (a 0 + ∑ j : Fin K, a j.succ))
      = ∑ i : Fin K, (a i.succ - c i.succ) * (digamma (a i.succ) - digamma (∑ j : Fin K, a j.succ))
        + (∑ i : Fin K, a i.succ - ∑ i : Fin K, c i.succ) *
          (digamma (∑ j : Fin K, a j.succ) - digamma (a 0 + ∑ j : Fin K, a j.succ)) := by
    rw [← Finset.sum_sub_distrib, Finset.sum_mul, ← Finset.sum_add_distrib]
    exact Finset.sum_congr rfl fun i _ => by ring
  rw [e]; ring

theorem dirKL_one (a c : Fin 1 → ℝ) : dirKL a c = 0 := by
  simp [dirKL, logBetaMultivariate]

theorem dirKL_nonneg (n : ℕ) (a c : Fin (n + 1) → ℝ) (ha : ∀ i, 0 < a i) (hc : ∀ i, 0 < c i) :
    0 ≤ dirKL a c ∧ (1 ≤ n → dirKL a c = 0 → a = c) := by
  induction n with
  | zero => exact ⟨by rw [dirKL_one], by omega⟩
  | succ n ih =>
    have sa : 0 < ∑ i : Fin (n + 1), a (Fin.succ i) := Finset.sum_pos (fun i _ => ha _) ⟨0, Finset.mem_univ _⟩
    have sc : 0 < ∑ i : Fin (n + 1), c (Fin.succ i) := Finset.sum_pos (fun i _ => hc _) ⟨0, Finset.mem_univ _⟩
    obtain ⟨_, hk, hz⟩ := C38_beta_kl ⟨a 0, ∑ i : Fin (n + 1), a (Fin.succ i)⟩ ⟨c 0, ∑ i : Fin (n + 1), c (Fin.succ i)⟩
      (ha 0) sa (hc 0) sc
    obtain ⟨ih1, ih2⟩ := ih (fun i => a (Fin.succ i)) (fun i => c (Fin.succ i)) (fun i => ha _) fun i => hc _
    rw [dirKL_succ]
    refine ⟨add_nonneg hk ih1, fun _ h0 => ?_⟩
    have h1 := hz.1 (by linarith)
    have h2 : dirKL (fun i => a (Fin.succ i)) (fun i => c (Fin.succ i)) = 0 := by linarith
    simp only [BetaD.mk.injEq] at h1
    funext i
    refine Fin.cases h1.1 (fun j => ?_) i
    rcases Nat.eq_zero_or_pos n with hn | hn
    · subst hn
      have := h1.2
      simp at this
      rw [show j = 0 from Fin.ext (by omega)]
      exact this
    · exact congrFun (ih2 hn h2) j

/-- The Dirichlet KL divergence rejects different event dimensions; otherwise it is nonnegative and is zero exactly
for equal concentrations (for the constructor's `K ≥ 2`). -/
theorem C38_dirichlet_kl {K1 K2 : ℕ} (p : Dir K1) (q : Dir K2) :
    (K1 ≠ K2 → p.kl q = .error .valueError) ∧
    ∀ h : K2 = K1, 2 ≤ K1 → (∀ i, 0 < p.concentration i) → (∀ i, 0 < q.concentration i) →
      ∃ k, p.kl q = .ok k ∧ 0 ≤ k ∧ (k = 0 ↔ ∀ i, p.concentration i = q.concentration (Fin.cast h.symm i)) := by
  refine ⟨fun h => dif_pos h, ?_⟩
  rintro rfl hK hp hq
  obtain ⟨n, rfl⟩ : ∃ n, K2 = n + 1 := ⟨K2 - 1, by omega⟩
  have hk : p.kl q = .ok (dirKL p.concentration q.concentration) := by
    rw [Dir.kl, dif_neg (not_not.2 rfl)]; rfl
  obtain ⟨h1, h2⟩ := dirKL_nonneg n p.concentration q.concentration hp hq
  refine ⟨_, hk, h1, fun h0 i => congrFun (h2 (by omega) h0) i, fun h => ?_⟩
  have e : p.concentration = q.concentration := funext h
  rw [e, dirKL]; simp

/-! ### Concrete cases -/

example : HasMean (BetaD.density ⟨2, 3⟩) (2 / 5) := by
  have := (C38_beta_moments ⟨2, 3⟩ (by norm_num) (by norm_num)).1
  rwa [show BetaD.mean ⟨2, 3⟩ = 2 / 5 by norm_num [BetaD.mean]] at this

example : ∃ m ∈ Icc (0 : ℝ) 1, BetaD.mode ⟨2, 3⟩ = fin m :=
  let ⟨m, h, h', _⟩ := C38_beta_mode ⟨2, 3⟩ (by norm_num)
  ⟨m, h, h'⟩

example : ∃ m : Fin 3 → ℝ, (∀ i, Dir.mode ⟨![2, 3, 4]⟩ i = fin (m i)) ∧ IsPmf m := by
  obtain ⟨m, h1, h2, _⟩ := (C38_dirichlet_mode ⟨![2, 3, 4]⟩ (by norm_num)).1
    (by intro i; fin_cases i <;> norm_num)
  exact ⟨m, h1, h2⟩

end Distrax
