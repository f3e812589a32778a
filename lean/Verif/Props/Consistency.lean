import Verif.Props.MonteCarlo
import Mathlib.Probability.StrongLaw
import Mathlib.Probability.Independence.InfinitePi

/-! # C47, C48: the estimators converge as the number of samples grows

The unbiasedness theorems say nothing about one long run.  Here the draws are an infinite sequence of independent
random elements with the proposal's law (`Spec.IsStream`), and the estimate from the first `n` of them is followed as `n`
grows. -/

namespace Distrax
open MeasureTheory ProbabilityTheory Filter Topology XR Spec

namespace Spec
/-- `X 0, X 1, …` are independent random elements, each with law `ν`. -/
structure IsStream {Ω E : Type} [MeasurableSpace Ω] [MeasurableSpace E] (P : Measure Ω) (X : ℕ → Ω → E) (ν : Measure E) : Prop where
  meas : ∀ i, Measurable (X i)
  law : ∀ i, P.map (X i) = ν
  indep : iIndepFun X P
end Spec

variable {Ω E : Type} [MeasurableSpace Ω] [MeasurableSpace E] {P : Measure Ω}

theorem stream_ae {X : ℕ → Ω → E} {ν : Measure E} (h : IsStream P X ν) {Q : E → Prop} (hQ : ∀ᵐ x ∂ν, Q x) :
    ∀ᵐ ω ∂P, ∀ i, Q (X i ω) := by
  rw [ae_all_iff]
  intro i
  rw [← h.law i] at hQ
  exact ae_of_ae_map (h.meas i).aemeasurable hQ

/-- Averages of an integrable function along a stream converge to its expectation. -/
theorem stream_average {X : ℕ → Ω → E} {ν : Measure E} (h : IsStream P X ν) {g : E → ℝ} (hm : Measurable g) (hg : Integrable g ν) :
    ∀ᵐ ω ∂P, Tendsto (fun n : ℕ => (∑ i : Fin n, g (X i ω)) / n) atTop (𝓝 (∫ x, g x ∂ν)) := by
  have hint : Integrable (fun ω => g (X 0 ω)) P := by
    rw [← h.law 0] at hg
    exact hg.comp_measurable (h.meas 0)
  have hi : Pairwise (Function.onFun (fun f g => f ⟂ᵢ[P] g) fun i ω => g (X i ω)) := fun i j hij =>
    (h.indep.indepFun hij).comp hm hm
  have hid : ∀ i, IdentDistrib (fun ω => g (X i ω)) (fun ω => g (X 0 ω)) P P := fun i =>
    IdentDistrib.comp ⟨(h.meas i).aemeasurable, (h.meas 0).aemeasurable, by rw [h.law, h.law]⟩ hm
  have hv : ∫ ω, g (X 0 ω) ∂P = ∫ x, g x ∂ν := by
    rw [← h.law 0, integral_map (h.meas 0).aemeasurable hm.aestronglyMeasurable]
  filter_upwards [strong_law_ae_real (fun i ω => g (X i ω)) hint hi hid] with ω hω
  rw [hv] at hω
  refine hω.congr fun n => ?_
  rw [Fin.sum_univ_eq_sum_range (fun i => g (X i ω))]

/-- **Consistency.**  Along almost every infinite run of independent draws from a proposal with the support of `a`, every
estimate of `KL(a ‖ b)` is an ordinary number and the estimates converge to the divergence as more samples are used. -/
theorem C48_consistent (μ : Measure E) {la lb lq : E → XR} {a b q : E → ℝ} {νa νb νq : Measure E}
    (ha : HasLogDensity μ la a νa) (hb : HasLogDensity μ lb b νb) (hq : HasLogDensity μ lq q νq)
    (haq : νa ≪ νq) (hqa : νq ≪ νa) (hab : νa ≪ νb) {k : ℝ} (hk : KLOn μ Set.univ a b k)
    {X : ℕ → Ω → E} (hX : IsStream P X νq) :
    ∀ᵐ ω ∂P, (∀ n, 0 < n → Ordinary (klFromSamples la lb fun i : Fin n => (X i ω, lq (X i ω)))) ∧
      Tendsto (fun n => num (klFromSamples la lb fun i : Fin n => (X i ω, lq (X i ω)))) atTop (𝓝 k) := by
  have hpos : ∀ᵐ x ∂νq, 0 < a x ∧ 0 < b x ∧ 0 < q x := by
    have h1 : ∀ᵐ x ∂νq, 0 < a x := hqa.ae_le (ae_pos ha)
    have h2 : ∀ᵐ x ∂νq, 0 < b x := hqa.ae_le (hab.ae_le (ae_pos hb))
    filter_upwards [h1, h2, ae_pos hq] with x h1 h2 h3
    exact ⟨h1, h2, h3⟩
  set g : E → ℝ := fun x => a x / q x * (Real.log (a x) - Real.log (b x)) with hg
  have hcong : (fun x => q x * g x) =ᵐ[μ] fun x => a x * (Real.log (a x) - Real.log (b x)) := by
    filter_upwards [ae_abs ha hq haq] with x hx
    simp only [hg]
    by_cases h0 : q x = 0
    · rw [h0, hx h0]; simp
    · field_simp
  obtain ⟨hki, hkv⟩ := hk
  rw [integrableOn_univ] at hki
  rw [Measure.restrict_univ] at hkv
  have hgi : Integrable g νq := by
    rw [integrable_law hq]; exact hki.congr hcong.symm
  have hgv : ∫ x, g x ∂νq = k := by
    rw [integral_law hq, integral_congr_ae hcong, hkv]
  have hgm : Measurable g := (ha.meas.div hq.meas).mul (ha.meas.log.sub hb.meas.log)
  have havg := stream_average hX hgm hgi
  rw [hgv] at havg
  filter_upwards [stream_ae hX hpos, havg] with ω hω ht
  have hval : ∀ n, 0 < n → klFromSamples la lb (fun i : Fin n => (X i ω, lq (X i ω))) = fin ((∑ i : Fin n, g (X i ω)) / n) := by
    intro n hn
    rw [← xmean_fin hn]
    unfold klFromSamples
    congr 1
    funext i
    simp only [ha.report, hb.report, hq.report]
    exact kl_term (hω i).1 (hω i).2.1 (hω i).2.2
  refine ⟨fun n hn => ⟨_, hval n hn⟩, ht.congr' ?_⟩
  filter_upwards [eventually_gt_atTop 0] with n hn
  rw [hval n hn]; rfl

/-- The estimator for reparameterised distributions is consistent too. -/
theorem C48_reparam_consistent (μ : Measure E) {la lb : E → XR} {a b : E → ℝ} {νa νb : Measure E}
    (ha : HasLogDensity μ la a νa) (hb : HasLogDensity μ lb b νb) (hab : νa ≪ νb) {k : ℝ} (hk : KLOn μ Set.univ a b k)
    {X : ℕ → Ω → E} (hX : IsStream P X νa) :
    ∀ᵐ ω ∂P, (∀ n, 0 < n → Ordinary (klReparam lb fun i : Fin n => (X i ω, la (X i ω)))) ∧
      Tendsto (fun n => num (klReparam lb fun i : Fin n => (X i ω, la (X i ω)))) atTop (𝓝 k) := by
  have hpos : ∀ᵐ x ∂νa, 0 < a x ∧ 0 < b x := by
    have h2 : ∀ᵐ x ∂νa, 0 < b x := hab.ae_le (ae_pos hb)
    filter_upwards [ae_pos ha, h2] with x h1 h2
    exact ⟨h1, h2⟩
  have h := C48_consistent μ ha hb ha Measure.AbsolutelyContinuous.rfl Measure.AbsolutelyContinuous.rfl hab hk hX
  filter_upwards [stream_ae hX hpos, h] with ω hω hc
  have e : ∀ n, klReparam lb (fun i : Fin n => (X i ω, la (X i ω))) = klFromSamples la lb fun i : Fin n => (X i ω, la (X i ω)) := by
    intro n
    unfold klReparam klFromSamples
    congr 1
    funext i
    simp only [ha.report, hb.report]
    rw [kl_term (hω i).1 (hω i).2 (hω i).1, div_self (hω i).1.ne', one_mul]
    unfold xlog
    rw [if_neg (hω i).1.ne', if_neg (hω i).2.ne', fin_sub]
    show fin _ = fin _
    rw [fin_inj]; ring
  simp only [e]
  exact hc

/-- Importance-weighted averages along almost every run from the sampling distribution converge to the expectation
under the target; in particular (`f = 1`) the average ratio converges to one. -/
theorem C47_consistent (μ : Measure E) {target sampling : E → XR} {p q : E → ℝ} {νp νq : Measure E}
    (hp : HasLogDensity μ target p νp) (hq : HasLogDensity μ sampling q νq) (hac : νp ≪ νq) (f : E → ℝ) (hfm : Measurable f)
    (hf : Integrable f νp) {X : ℕ → Ω → E} (hX : IsStream P X νq) :
    ∀ᵐ ω ∂P, (∀ i, Ordinary (importanceRatio target sampling (X i ω))) ∧
      Tendsto (fun n : ℕ => (∑ i : Fin n, num (importanceRatio target sampling (X i ω)) * f (X i ω)) / n) atTop (𝓝 (∫ x, f x ∂νp)) := by
  obtain ⟨h1, h2, h3⟩ := C47_reweight μ hp hq hac f
  have hr := fun x => C47_ratio target sampling (p x) (q x) x (hp.nonneg x) (hq.nonneg x) (hp.report x) (hq.report x)
  have hm : Measurable fun x => num (importanceRatio target sampling x) := by
    have : (fun x => num (importanceRatio target sampling x)) = fun x => p x / q x := by
      funext x
      rw [hr]
      by_cases h0 : q x = 0
      · rw [if_neg (by simpa using h0), h0, div_zero]
        split_ifs <;> rfl
      · rw [if_pos h0]; rfl
    rw [this]
    exact hp.meas.div hq.meas
  have havg := stream_average hX (hm.mul hfm) (h3.mpr hf)
  simp only [Pi.mul_apply] at havg
  rw [h2] at havg
  filter_upwards [stream_ae hX h1, havg] with ω a b
  exact ⟨a, b⟩

/-- Streams exist for every law: the coordinates of the infinite product. -/
example (ν : Measure E) [IsProbabilityMeasure ν] :
    IsStream (Measure.infinitePi fun _ : ℕ => ν) (fun i (ω : ℕ → E) => ω i) ν where
  meas i := measurable_pi_apply i
  law i := Measure.infinitePi_map_eval _ i
  indep := iIndepFun_infinitePi (X := fun _ x => x) fun _ => measurable_id

end Distrax
