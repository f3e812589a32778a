import Verif.Props.MonteCarlo
import Verif.Props.Normal
import Mathlib.Analysis.Calculus.ParametricIntegral
import Mathlib.Analysis.SpecialFunctions.Log.Deriv
import Mathlib.Analysis.SpecialFunctions.Gaussian.GaussianIntegral

/-! # C48: gradients of the Monte Carlo estimators, for arbitrary supports -/

namespace Distrax

open XR Spec MeasureTheory Filter Topology

variable {E Ω : Type} [MeasurableSpace E] [MeasurableSpace Ω]

/-- The derivative of one term of the divergence. -/
noncomputable def klTerm' (a b a' b' : ℝ) : ℝ := a' * (Real.log a - Real.log b) + a' - a * b' / b

theorem klTerm_deriv {a b : ℝ → ℝ} {a' b' φ : ℝ} (ha : 0 < a φ) (hb : 0 < b φ) (hda : HasDerivAt a a' φ) (hdb : HasDerivAt b b' φ) :
    HasDerivAt (fun φ => a φ * (Real.log (a φ) - Real.log (b φ))) (klTerm' (a φ) (b φ) a' b') φ := by
  refine (hda.mul ((hda.log ha.ne').sub (hdb.log hb.ne'))).congr_deriv ?_
  unfold klTerm'
  simp only [Pi.sub_apply]
  field_simp
  ring

/-- **Gradient of `mc_estimate_kl`, any support.**  The samples `ω` are drawn from any proposal and, with their
log-probabilities under the proposal, do not depend on the parameter `φ`; the two log-densities do.  If the densities are
positive and differentiable near `φ₀` and the derivative of the divergence's integrand is dominated there (the usual
condition for the divergence itself to be differentiable under the integral), then for almost every outcome of the draws
the estimate is a differentiable function of `φ` at `φ₀`, and the expectation of its derivative is the derivative of the
divergence. -/
theorem C48_gradient_law (μ : Measure E) {lq : E → XR} {q : E → ℝ} {νq : Measure E} (hq : HasLogDensity μ lq q νq)
    (a b a' b' : ℝ → E → ℝ) (la lb : ℝ → E → XR) (hla : ∀ φ x, la φ x = xlog (a φ x)) (hlb : ∀ φ x, lb φ x = xlog (b φ x))
    (φ₀ : ℝ) (s : Set ℝ) (hs : s ∈ 𝓝 φ₀) (hqp : ∀ᵐ x ∂μ, 0 < q x)
    (hpos : ∀ᵐ x ∂μ, ∀ φ ∈ s, 0 < a φ x ∧ 0 < b φ x)
    (hd : ∀ᵐ x ∂μ, ∀ φ ∈ s, HasDerivAt (fun φ => a φ x) (a' φ x) φ ∧ HasDerivAt (fun φ => b φ x) (b' φ x) φ)
    (hm : ∀ φ ∈ s, Measurable (a φ) ∧ Measurable (b φ)) (hm' : Measurable (a' φ₀) ∧ Measurable (b' φ₀))
    (hint : Integrable (fun x => a φ₀ x * (Real.log (a φ₀ x) - Real.log (b φ₀ x))) μ)
    (g : E → ℝ) (hg : Integrable g μ)
    (hdom : ∀ᵐ x ∂μ, ∀ φ ∈ s, |a' φ x * (Real.log (a φ x) - Real.log (b φ x)) + a' φ x - a φ x * b' φ x / b φ x| ≤ g x)
    (n : ℕ) (hn : 0 < n) :
    (∀ᵐ ω ∂draws νq n, DifferentiableAt ℝ (fun φ => num (klFromSamples (la φ) (lb φ) fun i : Fin n => (ω i, lq (ω i)))) φ₀) ∧
    HasDerivAt (fun φ => ∫ x, a φ x * (Real.log (a φ x) - Real.log (b φ x)) ∂μ)
      (∫ ω, deriv (fun φ => num (klFromSamples (la φ) (lb φ) fun i : Fin n => (ω i, lq (ω i)))) φ₀ ∂draws νq n) φ₀ := by
  have hprob := hq.prob
  have h0 : φ₀ ∈ s := mem_of_mem_nhds hs
  have hder := hasDerivAt_integral_of_dominated_loc_of_deriv_le (μ := μ) (x₀ := φ₀) (s := s) (bound := g)
    (F := fun φ x => a φ x * (Real.log (a φ x) - Real.log (b φ x)))
    (F' := fun φ x => klTerm' (a φ x) (b φ x) (a' φ x) (b' φ x)) hs
    (Filter.mem_of_superset hs fun φ hφ => ((hm φ hφ).1.mul ((hm φ hφ).1.log.sub (hm φ hφ).2.log)).aestronglyMeasurable)
    hint
    (by
      refine Measurable.aestronglyMeasurable ?_
      unfold klTerm'
      exact ((hm'.1.mul ((hm φ₀ h0).1.log.sub (hm φ₀ h0).2.log)).add hm'.1).sub (((hm φ₀ h0).1.mul hm'.2).div (hm φ₀ h0).2))
    (by filter_upwards [hdom] with x hx φ hφ; exact hx φ hφ)
    hg
    (by
      filter_upwards [hpos, hd] with x hx hx' φ hφ
      exact klTerm_deriv (hx φ hφ).1 (hx φ hφ).2 (hx' φ hφ).1 (hx' φ hφ).2)
  set G : E → ℝ := fun x => klTerm' (a φ₀ x) (b φ₀ x) (a' φ₀ x) (b' φ₀ x) / q x with hG
  have hcong : (fun x => q x * G x) =ᵐ[μ] fun x => klTerm' (a φ₀ x) (b φ₀ x) (a' φ₀ x) (b' φ₀ x) := by
    filter_upwards [hqp] with x hx
    simp only [hG]
    field_simp
  have hGi : Integrable G νq := by rw [integrable_law hq]; exact hder.1.congr hcong.symm
  have hGv : ∫ x, G x ∂νq = ∫ x, klTerm' (a φ₀ x) (b φ₀ x) (a' φ₀ x) (b' φ₀ x) ∂μ := by
    rw [integral_law hq, integral_congr_ae hcong]
  have hac : νq ≪ μ := by rw [hq.law]; exact withDensity_absolutelyContinuous _ _
  have hgood : ∀ᵐ x ∂νq, (0 < q x ∧ ∀ φ ∈ s, 0 < a φ x ∧ 0 < b φ x) ∧
      ∀ φ ∈ s, HasDerivAt (fun φ => a φ x) (a' φ x) φ ∧ HasDerivAt (fun φ => b φ x) (b' φ x) φ :=
    hac.ae_le ((hqp.and hpos).and hd)
  have hest : ∀ᵐ ω ∂draws νq n, HasDerivAt
      (fun φ => num (klFromSamples (la φ) (lb φ) fun i : Fin n => (ω i, lq (ω i)))) ((∑ i, G (ω i)) / n) φ₀ := by
    filter_upwards [draws_ae (n := n) hgood] with ω hω
    have h1 : HasDerivAt (fun φ => (∑ i : Fin n, (a φ (ω i) * (Real.log (a φ (ω i)) - Real.log (b φ (ω i)))) / q (ω i)) / n)
        ((∑ i, G (ω i)) / n) φ₀ := by
      refine HasDerivAt.div_const ?_ _
      refine HasDerivAt.fun_sum fun i _ => ?_
      have hi := hω i
      exact (klTerm_deriv (a := fun φ => a φ (ω i)) (b := fun φ => b φ (ω i)) (hi.1.2 φ₀ h0).1 (hi.1.2 φ₀ h0).2
        (hi.2 φ₀ h0).1 (hi.2 φ₀ h0).2).div_const _
    refine h1.congr_of_eventuallyEq ?_
    filter_upwards [hs] with φ hφ
    have : klFromSamples (la φ) (lb φ) (fun i : Fin n => (ω i, lq (ω i)))
        = fin ((∑ i : Fin n, (a φ (ω i) * (Real.log (a φ (ω i)) - Real.log (b φ (ω i)))) / q (ω i)) / n) := by
      rw [← xmean_fin hn]
      unfold klFromSamples
      congr 1
      funext i
      simp only [hla, hlb, hq.report]
      rw [kl_term ((hω i).1.2 φ hφ).1 ((hω i).1.2 φ hφ).2 (hω i).1.1]
      rw [fin_inj]; ring
    rw [this]; rfl
  refine ⟨hest.mono fun ω h => h.differentiableAt, ?_⟩
  have : ∫ ω, deriv (fun φ => num (klFromSamples (la φ) (lb φ) fun i : Fin n => (ω i, lq (ω i)))) φ₀ ∂draws νq n
      = ∫ x, klTerm' (a φ₀ x) (b φ₀ x) (a' φ₀ x) (b' φ₀ x) ∂μ := by
    rw [← hGv, ← draws_mean hn hGi]
    exact integral_congr_ae (hest.mono fun ω h => h.deriv)
  rw [this]
  exact hder.2

/-- **Gradient of `mc_estimate_kl_with_reparameterized`.**  The samples are `T φ ω` for noise `ω` of a fixed law, so they
move with the parameter.  If the log-ratio along a sample path is differentiable near `φ₀` with a dominated derivative, the
expected derivative of the estimate is the derivative of the divergence. -/
theorem C48_reparam_gradient (μ : Measure E) (ν₀ : Measure Ω) [IsProbabilityMeasure ν₀] (T : ℝ → Ω → E)
    (a b : ℝ → E → ℝ) (la lb : ℝ → E → XR) (νb : ℝ → Measure E) (k : ℝ → ℝ) (φ₀ : ℝ) (s : Set ℝ) (hs : s ∈ 𝓝 φ₀)
    (hT : ∀ φ, Measurable (T φ))
    (ha : ∀ φ ∈ s, HasLogDensity μ (la φ) (a φ) (ν₀.map (T φ))) (hb : ∀ φ ∈ s, HasLogDensity μ (lb φ) (b φ) (νb φ))
    (hpos : ∀ᵐ ω ∂ν₀, ∀ φ ∈ s, 0 < a φ (T φ ω) ∧ 0 < b φ (T φ ω))
    (hk : ∀ φ ∈ s, KLOn μ Set.univ (a φ) (b φ) (k φ))
    (L' : ℝ → Ω → ℝ) (hL'm : Measurable (L' φ₀))
    (hL' : ∀ᵐ ω ∂ν₀, ∀ φ ∈ s, HasDerivAt (fun φ => Real.log (a φ (T φ ω)) - Real.log (b φ (T φ ω))) (L' φ ω) φ)
    (g : Ω → ℝ) (hg : Integrable g ν₀) (hdom : ∀ᵐ ω ∂ν₀, ∀ φ ∈ s, |L' φ ω| ≤ g ω) (n : ℕ) (hn : 0 < n) :
    (∀ᵐ ω ∂draws ν₀ n, DifferentiableAt ℝ
      (fun φ => num (klReparam (lb φ) fun i : Fin n => (T φ (ω i), la φ (T φ (ω i))))) φ₀) ∧
    HasDerivAt k (∫ ω, deriv (fun φ => num (klReparam (lb φ) fun i : Fin n => (T φ (ω i), la φ (T φ (ω i))))) φ₀
      ∂draws ν₀ n) φ₀ := by
  have h0 : φ₀ ∈ s := mem_of_mem_nhds hs
  have hlm : ∀ φ ∈ s, Measurable fun x => Real.log (a φ x) - Real.log (b φ x) := fun φ hφ =>
    (ha φ hφ).meas.log.sub (hb φ hφ).meas.log
  have hki : ∀ φ ∈ s, Integrable (fun ω => Real.log (a φ (T φ ω)) - Real.log (b φ (T φ ω))) ν₀ ∧
      k φ = ∫ ω, Real.log (a φ (T φ ω)) - Real.log (b φ (T φ ω)) ∂ν₀ := by
    intro φ hφ
    obtain ⟨h1, h2⟩ := hk φ hφ
    rw [integrableOn_univ] at h1
    rw [Measure.restrict_univ] at h2
    have h1' := (integrable_law (ha φ hφ) fun x => Real.log (a φ x) - Real.log (b φ x)).2 h1
    rw [← integral_law (ha φ hφ) fun x => Real.log (a φ x) - Real.log (b φ x)] at h2
    rw [integrable_map_measure (hlm φ hφ).aestronglyMeasurable (hT φ).aemeasurable] at h1'
    rw [integral_map (hT φ).aemeasurable (hlm φ hφ).aestronglyMeasurable] at h2
    exact ⟨h1', h2.symm⟩
  have hder := hasDerivAt_integral_of_dominated_loc_of_deriv_le (μ := ν₀) (x₀ := φ₀) (s := s) (bound := g)
    (F := fun φ ω => Real.log (a φ (T φ ω)) - Real.log (b φ (T φ ω))) (F' := L') hs
    (Filter.mem_of_superset hs fun φ hφ => ((hlm φ hφ).comp (hT φ)).aestronglyMeasurable)
    (hki φ₀ h0).1 hL'm.aestronglyMeasurable (by filter_upwards [hdom] with x hx φ hφ; exact hx φ hφ) hg hL'
  have hest : ∀ᵐ ω ∂draws ν₀ n, HasDerivAt
      (fun φ => num (klReparam (lb φ) fun i : Fin n => (T φ (ω i), la φ (T φ (ω i))))) ((∑ i, L' φ₀ (ω i)) / n) φ₀ := by
    filter_upwards [draws_ae (n := n) (hpos.and hL')] with ω hω
    have h1 : HasDerivAt (fun φ => (∑ i : Fin n, (Real.log (a φ (T φ (ω i))) - Real.log (b φ (T φ (ω i))))) / n)
        ((∑ i, L' φ₀ (ω i)) / n) φ₀ :=
      HasDerivAt.div_const (HasDerivAt.fun_sum fun i _ => (hω i).2 φ₀ h0) _
    refine h1.congr_of_eventuallyEq ?_
    filter_upwards [hs] with φ hφ
    have : klReparam (lb φ) (fun i : Fin n => (T φ (ω i), la φ (T φ (ω i))))
        = fin ((∑ i : Fin n, (Real.log (a φ (T φ (ω i))) - Real.log (b φ (T φ (ω i))))) / n) := by
      rw [← xmean_fin hn]
      unfold klReparam
      congr 1
      funext i
      simp only [(ha φ hφ).report, (hb φ hφ).report]
      unfold xlog
      rw [if_neg ((hω i).1 φ hφ).1.ne', if_neg ((hω i).1 φ hφ).2.ne', fin_sub]
      show fin _ = fin _
      rw [fin_inj]; ring
    rw [this]; rfl
  refine ⟨hest.mono fun ω h => h.differentiableAt, ?_⟩
  have : ∫ ω, deriv (fun φ => num (klReparam (lb φ) fun i : Fin n => (T φ (ω i), la φ (T φ (ω i))))) φ₀ ∂draws ν₀ n
      = ∫ ω, L' φ₀ ω ∂ν₀ := by
    rw [← draws_mean hn hder.1]
    exact integral_congr_ae (hest.mono fun ω h => h.deriv)
  rw [this]
  refine hder.2.congr_of_eventuallyEq ?_
  filter_upwards [hs] with φ hφ
  exact (hki φ hφ).2

/-! ### The two theorems on Normals -/

theorem normal_prob_log (d : Normal) (x : ℝ) : Real.log (d.prob x) = d.logProb x := by
  unfold Normal.prob; rw [Real.log_exp]

theorem normal_prob_meas (d : Normal) : Measurable d.prob := by
  unfold Normal.prob Normal.logProb Normal.standardize
  fun_prop

/-- What `Normal.log_prob` reports, and the law it reports it of. -/
theorem normal_logDensity (d : Normal) (h : 0 < d.scale) :
    HasLogDensity volume (fun x => fin (d.logProb x)) d.prob (volume.withDensity fun x => ENNReal.ofReal (d.prob x)) := by
  have hl := (C28_normal_law d h).1
  refine ⟨fun x => (Real.exp_pos _).le, normal_prob_meas d, fun x => ?_, rfl, ⟨?_⟩⟩
  · unfold xlog
    rw [if_neg (show d.prob x ≠ 0 from (Real.exp_pos _).ne'), normal_prob_log]
  · rw [withDensity_apply _ MeasurableSet.univ, Measure.restrict_univ,
      ← ofReal_integral_eq_lintegral_ofReal hl.integrable (ae_of_all _ hl.nonneg), hl.one, ENNReal.ofReal_one]

theorem normal_loc_deriv (s x φ : ℝ) (hs : 0 < s) :
    HasDerivAt (fun φ => (Normal.mk φ s).prob x) ((Normal.mk φ s).prob x * ((x - φ) / s ^ 2)) φ := by
  unfold Normal.prob Normal.logProb Normal.standardize
  simp only
  have h0 : HasDerivAt (fun φ => -0.5 * ((x - φ) / s) ^ 2 - (halfLog2pi + Real.log s)) ((x - φ) / s ^ 2) φ := by
    have h := (((((hasDerivAt_id φ).const_sub x).div_const s).pow 2).const_mul (-0.5)).sub_const (halfLog2pi + Real.log s)
    refine h.congr_deriv ?_
    simp only [id]
    norm_num
    field_simp
  exact h0.exp

theorem gauss_poly_integrable {b : ℝ} (hb : 0 < b) (c0 c1 c2 : ℝ) :
    Integrable fun x : ℝ => (c0 + c1 * x ^ 2 + c2 * x ^ 4) * Real.exp (-b * x ^ 2) := by
  have h2 := integrable_rpow_mul_exp_neg_mul_sq hb (s := 2) (by norm_num)
  have h4 := integrable_rpow_mul_exp_neg_mul_sq hb (s := 4) (by norm_num)
  have h0 := integrable_exp_neg_mul_sq hb
  refine (((h0.const_mul c0).add (h2.const_mul c1)).add (h4.const_mul c2)).congr (ae_of_all _ fun x => ?_)
  simp only [Pi.add_apply]
  have e2 : x ^ (2 : ℝ) = x ^ 2 := by exact_mod_cast Real.rpow_natCast x 2
  have e4 : x ^ (4 : ℝ) = x ^ 4 := by exact_mod_cast Real.rpow_natCast x 4
  rw [e2, e4]; ring

/-- Two Normals: with samples from *any* law with positive density, the expected derivative of the estimate with respect to
the location of the first is the derivative of the closed-form divergence. -/
theorem C48_gradient_normal {lq : ℝ → XR} {q : ℝ → ℝ} {νq : Measure ℝ} (hq : HasLogDensity volume lq q νq)
    (hqp : ∀ x, 0 < q x) (φ₀ s m t : ℝ) (hs : 0 < s) (ht : 0 < t) (n : ℕ) (hn : 0 < n) :
    HasDerivAt (fun φ => Normal.kl ⟨φ, s⟩ ⟨m, t⟩)
      (∫ ω, deriv (fun φ => num (klFromSamples (fun x => fin ((Normal.mk φ s).logProb x)) (fun x => fin ((Normal.mk m t).logProb x))
        fun i : Fin n => (ω i, lq (ω i)))) φ₀ ∂draws νq n) φ₀ := by
  set R := |φ₀| + 1 with hR
  set K := 1 + 2 * R ^ 2 + 2 * m ^ 2 with hK
  set D := 1 / (2 * s ^ 2) + 1 / (2 * t ^ 2) with hD
  set D' := |Real.log s| + |Real.log t| + 1 with hD'
  set C := 1 / s ^ 2 * Real.exp (-(halfLog2pi + Real.log s) + R ^ 2 / (2 * s ^ 2)) with hC
  have hkl := fun φ => C28_normal_kl ⟨φ, s⟩ ⟨m, t⟩ hs ht
  have key := C48_gradient_law volume hq (fun φ => (Normal.mk φ s).prob) (fun _ => (Normal.mk m t).prob)
    (fun φ x => (Normal.mk φ s).prob x * ((x - φ) / s ^ 2)) (fun _ _ => 0)
    (fun φ x => fin ((Normal.mk φ s).logProb x)) (fun _ x => fin ((Normal.mk m t).logProb x))
    (fun φ x => (normal_logDensity ⟨φ, s⟩ hs).report x) (fun φ x => (normal_logDensity ⟨m, t⟩ ht).report x)
    φ₀ (Metric.ball φ₀ 1) (Metric.ball_mem_nhds φ₀ one_pos) (ae_of_all _ hqp)
    (ae_of_all _ fun x φ _ => ⟨Real.exp_pos _, Real.exp_pos _⟩)
    (ae_of_all _ fun x φ _ => ⟨normal_loc_deriv s x φ hs, hasDerivAt_const _ _⟩)
    (fun φ _ => ⟨normal_prob_meas _, normal_prob_meas _⟩)
    ⟨(normal_prob_meas _).mul (by fun_prop), measurable_const⟩ (hkl φ₀).1
    (fun x => C * ((K + 2 * x ^ 2) * ((K + 2 * x ^ 2) * D + D')) * Real.exp (-(1 / (4 * s ^ 2)) * x ^ 2)) ?_ ?_ n hn
  · refine key.2.congr_of_eventuallyEq (Eventually.of_forall fun φ => ?_)
    exact (hkl φ).2.symm
  · refine (gauss_poly_integrable (b := 1 / (4 * s ^ 2)) (by positivity) (C * (K * (K * D + D')))
      (C * (2 * (K * D + D') + K * (2 * D))) (C * (4 * D))).congr (ae_of_all _ fun x => ?_)
    ring
  · refine ae_of_all _ fun x φ hφ => ?_
    rw [Metric.mem_ball, Real.dist_eq] at hφ
    have hφR : |φ| ≤ R := by
      have := abs_sub_abs_le_abs_sub φ φ₀
      rw [hR]; linarith
    have hφ2 : φ ^ 2 ≤ R ^ 2 := by rw [← sq_abs φ]; exact pow_le_pow_left₀ (abs_nonneg _) hφR 2
    have b1 : (x - φ) ^ 2 ≤ K + 2 * x ^ 2 := by rw [hK]; nlinarith [sq_nonneg (x + φ), sq_nonneg m]
    have b2 : (x - m) ^ 2 ≤ K + 2 * x ^ 2 := by rw [hK]; nlinarith [sq_nonneg (x + m), sq_nonneg R]
    have b3 : |x - φ| ≤ K + 2 * x ^ 2 := by
      have : |x - φ| ≤ 1 + (x - φ) ^ 2 / 2 := by rw [← sq_abs (x - φ)]; nlinarith [sq_nonneg (|x - φ| - 1), abs_nonneg (x - φ)]
      rw [hK]; nlinarith [sq_nonneg (x + φ), sq_nonneg m, sq_nonneg R, sq_nonneg x]
    have b0 : 0 ≤ K + 2 * x ^ 2 := (abs_nonneg _).trans b3
    have hprob : (Normal.mk φ s).prob x ≤ Real.exp (-(halfLog2pi + Real.log s) + R ^ 2 / (2 * s ^ 2)) * Real.exp (-(1 / (4 * s ^ 2)) * x ^ 2) := by
      rw [← Real.exp_add]
      unfold Normal.prob Normal.logProb Normal.standardize
      simp only
      refine Real.exp_le_exp.mpr ?_
      have : -0.5 * ((x - φ) / s) ^ 2 ≤ R ^ 2 / (2 * s ^ 2) + -(1 / (4 * s ^ 2)) * x ^ 2 := by
        have e : R ^ 2 / (2 * s ^ 2) + -(1 / (4 * s ^ 2)) * x ^ 2 - -0.5 * ((x - φ) / s) ^ 2
            = (2 * R ^ 2 - x ^ 2 + 2 * (x - φ) ^ 2) / (4 * s ^ 2) := by field_simp; ring
        have : 0 ≤ (2 * R ^ 2 - x ^ 2 + 2 * (x - φ) ^ 2) / (4 * s ^ 2) := by
          refine div_nonneg ?_ (by positivity)
          nlinarith [sq_nonneg (x - 2 * φ)]
        linarith
      linarith
    have hlog : |(Normal.mk φ s).logProb x - (Normal.mk m t).logProb x + 1| ≤ (K + 2 * x ^ 2) * D + D' := by
      have e : (Normal.mk φ s).logProb x - (Normal.mk m t).logProb x + 1
          = -((x - φ) ^ 2 * (1 / (2 * s ^ 2))) + (x - m) ^ 2 * (1 / (2 * t ^ 2)) - Real.log s + Real.log t + 1 := by
        unfold Normal.logProb Normal.standardize
        simp only
        field_simp
        ring
      have p1 : (x - φ) ^ 2 * (1 / (2 * s ^ 2)) ≤ (K + 2 * x ^ 2) * (1 / (2 * s ^ 2)) := mul_le_mul_of_nonneg_right b1 (by positivity)
      have p2 : (x - m) ^ 2 * (1 / (2 * t ^ 2)) ≤ (K + 2 * x ^ 2) * (1 / (2 * t ^ 2)) := mul_le_mul_of_nonneg_right b2 (by positivity)
      have p3 : 0 ≤ (x - φ) ^ 2 * (1 / (2 * s ^ 2)) := by positivity
      have p4 : 0 ≤ (x - m) ^ 2 * (1 / (2 * t ^ 2)) := by positivity
      have l1 := abs_le.mp (le_refl |Real.log s|)
      have l2 := abs_le.mp (le_refl |Real.log t|)
      rw [e, hD, hD', mul_add, abs_le]
      constructor <;> linarith [l1.1, l1.2, l2.1, l2.2]
    have e : (Normal.mk φ s).prob x * ((x - φ) / s ^ 2) * (Real.log ((Normal.mk φ s).prob x) - Real.log ((Normal.mk m t).prob x))
        + (Normal.mk φ s).prob x * ((x - φ) / s ^ 2) - (Normal.mk φ s).prob x * 0 / (Normal.mk m t).prob x
        = (Normal.mk φ s).prob x * (1 / s ^ 2) * (x - φ) * ((Normal.mk φ s).logProb x - (Normal.mk m t).logProb x + 1) := by
      rw [normal_prob_log, normal_prob_log]; ring
    rw [e, abs_mul, abs_mul, abs_of_nonneg (mul_nonneg (Real.exp_pos _).le (by positivity) : 0 ≤ (Normal.mk φ s).prob x * (1 / s ^ 2))]
    calc (Normal.mk φ s).prob x * (1 / s ^ 2) * |x - φ| * |(Normal.mk φ s).logProb x - (Normal.mk m t).logProb x + 1|
        ≤ (Real.exp (-(halfLog2pi + Real.log s) + R ^ 2 / (2 * s ^ 2)) * Real.exp (-(1 / (4 * s ^ 2)) * x ^ 2)) * (1 / s ^ 2)
            * (K + 2 * x ^ 2) * ((K + 2 * x ^ 2) * D + D') := by
          refine mul_le_mul (mul_le_mul (mul_le_mul_of_nonneg_right hprob (by positivity)) b3 (abs_nonneg _) (by positivity)) hlog
            (abs_nonneg _) (by positivity)
      _ = _ := by rw [hC]; ring

/-- The default proposal (the first Normal at the current parameter) meets the hypotheses. -/
example (φ₀ s m t : ℝ) (hs : 0 < s) (ht : 0 < t) : ∃ g, HasDerivAt (fun φ => Normal.kl ⟨φ, s⟩ ⟨m, t⟩) g φ₀ :=
  ⟨_, C48_gradient_normal (normal_logDensity ⟨φ₀, s⟩ hs) (fun _ => Real.exp_pos _) φ₀ s m t hs ht 1 one_pos⟩

/-- The sampler's law as a measure. -/
theorem normal_sample_law (d : Normal) (h : 0 < d.scale) :
    (ProbabilityTheory.gaussianReal 0 1).map d.sample = volume.withDensity fun x => ENNReal.ofReal (d.prob x) := by
  have e : d.sample = (fun x => x + d.loc) ∘ fun x => d.scale * x := by funext x; rfl
  rw [e, ← Measure.map_map (by fun_prop) (by fun_prop), ProbabilityTheory.gaussianReal_map_const_mul,
    ProbabilityTheory.gaussianReal_map_add_const, mul_zero, zero_add, mul_one, Normal.prob_eq h]
  exact ProbabilityTheory.gaussianReal_of_var_ne_zero _ (Normal.vnn_ne h)

/-- Two Normals, reparameterised samples `scale * ε + loc` with Gaussian noise `ε`: the expected pathwise derivative with
respect to the scale of the first is the derivative of the closed-form divergence. -/
theorem C48_reparam_gradient_normal (l φ₀ m t : ℝ) (hs : 0 < φ₀) (ht : 0 < t) (n : ℕ) (hn : 0 < n) :
    HasDerivAt (fun φ => Normal.kl ⟨l, φ⟩ ⟨m, t⟩)
      (∫ ω, deriv (fun φ => num (klReparam (fun x => fin ((Normal.mk m t).logProb x))
        fun i : Fin n => ((Normal.mk l φ).sample (ω i), fin ((Normal.mk l φ).logProb ((Normal.mk l φ).sample (ω i)))))) φ₀
        ∂draws (ProbabilityTheory.gaussianReal 0 1) n) φ₀ := by
  have hb0 : ∀ φ ∈ Metric.ball φ₀ (φ₀ / 2), φ₀ / 2 < φ ∧ φ < 3 * φ₀ / 2 := fun φ hφ => by
    rw [Metric.mem_ball, Real.dist_eq, abs_lt] at hφ
    constructor <;> linarith [hφ.1, hφ.2]
  have hpos : ∀ φ ∈ Metric.ball φ₀ (φ₀ / 2), 0 < φ := fun φ hφ => by linarith [(hb0 φ hφ).1]
  refine (C48_reparam_gradient volume (ProbabilityTheory.gaussianReal 0 1) (fun φ => (Normal.mk l φ).sample)
    (fun φ => (Normal.mk l φ).prob) (fun _ => (Normal.mk m t).prob) (fun φ x => fin ((Normal.mk l φ).logProb x))
    (fun _ x => fin ((Normal.mk m t).logProb x)) (fun _ => volume.withDensity fun x => ENNReal.ofReal ((Normal.mk m t).prob x))
    (fun φ => Normal.kl ⟨l, φ⟩ ⟨m, t⟩) φ₀ (Metric.ball φ₀ (φ₀ / 2)) (Metric.ball_mem_nhds φ₀ (by linarith))
    (fun φ => by unfold Normal.sample; fun_prop) ?_ (fun φ _ => normal_logDensity ⟨m, t⟩ ht)
    (ae_of_all _ fun ω φ _ => ⟨Real.exp_pos _, Real.exp_pos _⟩) ?_
    (fun φ ω => -(1 / φ) + ω * (φ * ω + l - m) / t ^ 2) (by fun_prop) ?_
    (fun ω => 2 / φ₀ + (3 * φ₀ / 2 * ω ^ 2 + |l - m| * |ω|) / t ^ 2) ?_ ?_ n hn).2
  · intro φ hφ
    rw [normal_sample_law ⟨l, φ⟩ (hpos φ hφ)]
    exact normal_logDensity ⟨l, φ⟩ (hpos φ hφ)
  · intro φ hφ
    obtain ⟨h1, h2⟩ := C28_normal_kl ⟨l, φ⟩ ⟨m, t⟩ (hpos φ hφ) ht
    exact ⟨by rw [integrableOn_univ]; exact h1, by rw [Measure.restrict_univ]; exact h2⟩
  · refine ae_of_all _ fun ω φ hφ => ?_
    have h0 := hpos φ hφ
    have hd : HasDerivAt (fun φ => (-0.5 * ω ^ 2 - (halfLog2pi + Real.log φ)) - (-0.5 * ((φ * ω + l - m) / t) ^ 2 - (halfLog2pi + Real.log t)))
        (-(1 / φ) + ω * (φ * ω + l - m) / t ^ 2) φ := by
      have d1 := ((Real.hasDerivAt_log h0.ne').const_add halfLog2pi).const_sub (-0.5 * ω ^ 2)
      have d2 := ((((((hasDerivAt_id φ).mul_const ω).add_const l).sub_const m).div_const t).pow 2).const_mul (-0.5)
      refine (d1.sub (d2.sub_const (halfLog2pi + Real.log t))).congr_deriv ?_
      simp only [id, show 2 - 1 = 1 from rfl, pow_one]
      push_cast
      field_simp
      ring
    refine hd.congr_of_eventuallyEq ?_
    filter_upwards [eventually_gt_nhds h0] with ψ hψ
    rw [normal_prob_log, normal_prob_log]
    unfold Normal.logProb Normal.sample Normal.standardize
    simp only
    rw [show (ψ * ω + l - l) / ψ = ω by field_simp; ring]
  · have h2 : Integrable (fun ω : ℝ => ω ^ 2) (ProbabilityTheory.gaussianReal 0 1) :=
      (ProbabilityTheory.memLp_id_gaussianReal 2).integrable_sq
    have h1 : Integrable (fun ω : ℝ => |ω|) (ProbabilityTheory.gaussianReal 0 1) :=
      (memLp_one_iff_integrable.1 (ProbabilityTheory.memLp_id_gaussianReal 1)).abs
    exact (integrable_const _).add (((h2.const_mul _).add (h1.const_mul _)).div_const _)
  · refine ae_of_all _ fun ω φ hφ => ?_
    have h0 := hpos φ hφ
    obtain ⟨ha, hb⟩ := hb0 φ hφ
    refine (abs_add_le _ _).trans (add_le_add ?_ ?_)
    · rw [abs_neg, abs_of_pos (by positivity : 0 < 1 / φ), div_le_div_iff₀ h0 hs]
      linarith
    · rw [abs_div, abs_of_pos (by positivity : 0 < t ^ 2)]
      refine div_le_div_of_nonneg_right ?_ (by positivity)
      have e : ω * (φ * ω + l - m) = φ * ω ^ 2 + (l - m) * ω := by ring
      rw [e]
      refine (abs_add_le _ _).trans (add_le_add ?_ ?_)
      · rw [abs_of_nonneg (by positivity : 0 ≤ φ * ω ^ 2)]
        exact mul_le_mul_of_nonneg_right hb.le (sq_nonneg _)
      · rw [abs_mul]

end Distrax
