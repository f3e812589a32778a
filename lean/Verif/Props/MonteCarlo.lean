import Verif.Model.MonteCarlo
import Verif.Spec.MonteCarlo
import Verif.Lemmas.XR
import Verif.Lemmas.Categorical
import Verif.Lemmas.Broadcast
import Mathlib.MeasureTheory.Integral.Pi
import Mathlib.MeasureTheory.Measure.Count
import Mathlib.MeasureTheory.Measure.Decomposition.RadonNikodym

/-! # C47 importance sampling, C48 Monte Carlo KL and mode -/

namespace Distrax

open XR Spec MeasureTheory

variable {E K : Type}

/-! ### C47 -/

/-- The ratio at every event, including impossible ones. -/
theorem C47_ratio (target sampling : E → XR) (p q : ℝ) (x : E) (hp : 0 ≤ p) (hq : 0 ≤ q) (h1 : target x = xlog p)
    (h2 : sampling x = xlog q) :
    importanceRatio target sampling x = if q ≠ 0 then fin (p / q) else if p ≠ 0 then pinf else nan := by
  unfold importanceRatio xlog at *
  simp only [h1, h2]
  by_cases hq0 : q = 0
  · by_cases hp0 : p = 0
    · simp [hq0, hp0, XR.exp]
    · simp [hq0, hp0, XR.exp]
  · have hqp : 0 < q := lt_of_le_of_ne hq (Ne.symm hq0)
    by_cases hp0 : p = 0
    · simp [hq0, hp0]
    · have hpp : 0 < p := lt_of_le_of_ne hp (Ne.symm hp0)
      simp only [hq0, hp0, if_false, fin_sub, exp_fin, ne_eq, not_false_eq_true, if_true, fin_inj]
      rw [Real.exp_sub, Real.exp_log hpp, Real.exp_log hqp]

/-- On-policy: the ratio is one at every event that can occur. -/
theorem C47_on_policy (lp : E → XR) (p : ℝ) (x : E) (hp : 0 < p) (h : lp x = xlog p) : importanceRatio lp lp x = 1 := by
  rw [C47_ratio lp lp p p x hp.le hp.le h h, if_pos hp.ne', div_self hp.ne']; rfl

variable [MeasurableSpace E]

theorem integral_law {μ : Measure E} {lp : E → XR} {p : E → ℝ} {ν : Measure E} (h : HasLogDensity μ lp p ν) (f : E → ℝ) :
    ∫ x, f x ∂ν = ∫ x, p x * f x ∂μ := by
  rw [h.law, integral_withDensity_eq_integral_toReal_smul (h.meas.ennreal_ofReal) (ae_of_all _ fun x => ENNReal.ofReal_lt_top)]
  refine integral_congr_ae (ae_of_all _ fun x => ?_)
  simp only [ENNReal.toReal_ofReal (h.nonneg x), smul_eq_mul]

theorem integrable_law {μ : Measure E} {lp : E → XR} {p : E → ℝ} {ν : Measure E} (h : HasLogDensity μ lp p ν) (f : E → ℝ) :
    Integrable f ν ↔ Integrable (fun x => p x * f x) μ := by
  rw [h.law, integrable_withDensity_iff_integrable_smul' (h.meas.ennreal_ofReal) (ae_of_all _ fun x => ENNReal.ofReal_lt_top)]
  refine integrable_congr (ae_of_all _ fun x => ?_)
  simp only [ENNReal.toReal_ofReal (h.nonneg x), smul_eq_mul]

/-- The density is positive at almost every draw. -/
theorem ae_pos {μ : Measure E} {lp : E → XR} {p : E → ℝ} {ν : Measure E} (h : HasLogDensity μ lp p ν) :
    ∀ᵐ x ∂ν, 0 < p x := by
  rw [h.law, ae_withDensity_iff h.meas.ennreal_ofReal]
  refine ae_of_all _ fun x hx => ?_
  have : ENNReal.ofReal (p x) ≠ 0 := hx
  rwa [ne_eq, ENNReal.ofReal_eq_zero, not_le] at this

/-- If `νp ≪ νq` then `p` vanishes wherever `q` does (almost everywhere). -/
theorem ae_abs {μ : Measure E} {l l' : E → XR} {p q : E → ℝ} {νp νq : Measure E} (hp : HasLogDensity μ l p νp)
    (hq : HasLogDensity μ l' q νq) (hac : νp ≪ νq) : ∀ᵐ x ∂μ, q x = 0 → p x = 0 := by
  have h : ∀ᵐ x ∂νp, 0 < q x := hac.ae_le (ae_pos hq)
  rw [hp.law, ae_withDensity_iff hp.meas.ennreal_ofReal] at h
  filter_upwards [h] with x hx hq0
  by_contra hp0
  have : 0 < p x := lt_of_le_of_ne (hp.nonneg x) (Ne.symm hp0)
  have := hx (by rw [ne_eq, ENNReal.ofReal_eq_zero, not_le]; exact this)
  linarith

/-- **Reweighting.**  If the target is absolutely continuous with respect to the sampling law then the ratios are
ordinary numbers at almost every draw, and `E_q[ρ f] = E_p[f]` for every `f` (with the integrals existing together). -/
theorem C47_reweight (μ : Measure E) {target sampling : E → XR} {p q : E → ℝ} {νp νq : Measure E}
    (hp : HasLogDensity μ target p νp) (hq : HasLogDensity μ sampling q νq) (hac : νp ≪ νq) (f : E → ℝ) :
    (∀ᵐ x ∂νq, Ordinary (importanceRatio target sampling x)) ∧
      ∫ x, num (importanceRatio target sampling x) * f x ∂νq = ∫ x, f x ∂νp ∧
      (Integrable (fun x => num (importanceRatio target sampling x) * f x) νq ↔ Integrable f νp) := by
  have hr := fun x => C47_ratio target sampling (p x) (q x) x (hp.nonneg x) (hq.nonneg x) (hp.report x) (hq.report x)
  have hcong : (fun x => q x * (num (importanceRatio target sampling x) * f x)) =ᵐ[μ] fun x => p x * f x := by
    filter_upwards [ae_abs hp hq hac] with x hx
    rw [hr]
    by_cases h0 : q x = 0
    · rw [h0, hx h0]; simp
    · rw [if_pos h0]; simp only [num]; field_simp
  refine ⟨?_, ?_, ?_⟩
  · filter_upwards [ae_pos hq] with x hx
    exact ⟨p x / q x, by rw [hr, if_pos hx.ne']⟩
  · rw [integral_law hq, integral_law hp]
    exact integral_congr_ae hcong
  · rw [integrable_law hq, integrable_law hp]
    exact integrable_congr hcong

/-- Discrete laws given by probability vectors meet the hypotheses. -/
theorem pmf_law {n : ℕ} {lp : Fin n → XR} {p : Fin n → ℝ} (hp : IsPmf p) (h : ∀ i, lp i = xlog (p i)) :
    HasLogDensity Measure.count lp p (Measure.count.withDensity fun x => ENNReal.ofReal (p x)) := by
  refine ⟨hp.1, measurable_of_finite _, h, rfl, ⟨?_⟩⟩
  rw [withDensity_apply _ MeasurableSet.univ, Measure.restrict_univ, lintegral_count, tsum_fintype,
    ← ENNReal.ofReal_sum_of_nonneg (fun i _ => hp.1 i), hp.2, ENNReal.ofReal_one]

/-- For two Categoricals (any valid construction): if every category that the target can produce can be produced by the
sampling distribution, the weighted sum of any `f` is its expectation under the target. -/
theorem C47_categorical {n : ℕ} {d e : Cat n} {p q : Fin n → ℝ} (hd : HasPmf d p) (he : HasPmf e q)
    (hac : ∀ i, 0 < p i → 0 < q i) (f : Fin n → ℝ) :
    ∑ i, q i * (num (importanceRatio (fun k : Fin n => d.logits k) (fun k => e.logits k) i) * f i) = ∑ i, p i * f i := by
  have hr := fun i => C47_ratio (fun k : Fin n => d.logits k) (fun k => e.logits k) (p i) (q i) i (hd.pmf.1 i) (he.pmf.1 i)
    (hd.logits i) (he.logits i)
  refine Finset.sum_congr rfl fun i _ => ?_
  rw [hr]
  by_cases h0 : q i = 0
  · have : p i = 0 := by
      by_contra hp0
      have := hac i (lt_of_le_of_ne (hd.pmf.1 i) (Ne.symm hp0))
      linarith
    rw [h0, this]; simp
  · rw [if_pos h0]; simp only [num]; field_simp

/-- Without absolute continuity the identity fails: mass that the sampling distribution never produces is lost. -/
theorem C47_needs_support {n : ℕ} {d e : Cat n} {p q : Fin n → ℝ} (hd : HasPmf d p) (he : HasPmf e q)
    (i : Fin n) (hp : 0 < p i) (hq : q i = 0) :
    ∑ j, q j * (num (importanceRatio (fun k : Fin n => d.logits k) (fun k => e.logits k) j) * 1) < ∑ j, p j * 1 := by
  have hr := fun i => C47_ratio (fun k : Fin n => d.logits k) (fun k => e.logits k) (p i) (q i) i (hd.pmf.1 i) (he.pmf.1 i)
    (hd.logits i) (he.logits i)
  refine Finset.sum_lt_sum (fun j _ => ?_) ⟨i, Finset.mem_univ i, ?_⟩
  · rw [hr]
    by_cases h0 : q j = 0
    · rw [h0]; simp [hd.pmf.1 j]
    · rw [if_pos h0]; simp only [num]; apply le_of_eq; field_simp
  · rw [hq]; simp [hp]

example : ∃ p q : Fin 2 → ℝ, IsPmf p ∧ IsPmf q ∧ p ≠ q ∧ (∀ i, 0 < p i → 0 < q i) := by
  refine ⟨![1, 0], ![1 / 4, 3 / 4], ⟨fun i => ?_, by simp⟩, ⟨fun i => ?_, by simp; norm_num⟩, fun h => ?_, fun i _ => ?_⟩
  · fin_cases i <;> simp
  · fin_cases i <;> (simp; try norm_num)
  · have := congrFun h 1; norm_num at this
  · fin_cases i <;> simp

/-! ### C48: value of the estimators -/

theorem xmean_fin {n : ℕ} (hn : 0 < n) (x : Fin n → ℝ) : xmean (fun i => fin (x i)) = fin ((∑ i, x i) / n) := by
  unfold xmean
  rw [XR.sum_fin, XR.div_fin (by exact_mod_cast hn.ne')]

/-- The average of `n ≥ 1` independent draws has the expectation of one draw. -/
theorem draws_mean {ν : Measure E} [IsProbabilityMeasure ν] {n : ℕ} (hn : 0 < n) {g : E → ℝ} (hg : Integrable g ν) :
    ∫ ω, (∑ i : Fin n, g (ω i)) / n ∂draws ν n = ∫ x, g x ∂ν := by
  unfold draws
  have hmp : ∀ i : Fin n, MeasurePreserving (fun ω : Fin n → E => ω i) (Measure.pi fun _ => ν) ν :=
    fun i => measurePreserving_eval (fun _ => ν) i
  have hint : ∀ i : Fin n, Integrable (fun ω : Fin n → E => g (ω i)) (Measure.pi fun _ => ν) := by
    intro i; exact (hmp i).integrable_comp_of_integrable hg
  have hval : ∀ i : Fin n, ∫ ω : Fin n → E, g (ω i) ∂(Measure.pi fun _ => ν) = ∫ x, g x ∂ν := by
    intro i
    have h := integral_map (μ := Measure.pi fun _ : Fin n => ν) (φ := fun ω : Fin n → E => ω i) (f := g)
      (hmp i).measurable.aemeasurable (by rw [(hmp i).map_eq]; exact hg.aestronglyMeasurable)
    rw [(hmp i).map_eq] at h
    exact h.symm
  rw [integral_div, integral_finsetSum _ (fun i _ => hint i)]
  simp only [hval, Finset.sum_const, Finset.card_univ, Fintype.card_fin, nsmul_eq_mul]
  have : (n : ℝ) ≠ 0 := by exact_mod_cast hn.ne'
  field_simp

theorem draws_ae {ν : Measure E} [IsProbabilityMeasure ν] {n : ℕ} {P : E → Prop} (h : ∀ᵐ x ∂ν, P x) :
    ∀ᵐ ω ∂draws ν n, ∀ i, P (ω i) := by
  rw [ae_all_iff]
  intro i
  exact (measurePreserving_eval (fun _ : Fin n => ν) i).quasiMeasurePreserving.ae h

/-- One term, when all three densities are positive. -/
theorem kl_term {a b q : ℝ} (ha : 0 < a) (hb : 0 < b) (hq : 0 < q) :
    XR.neg (XR.exp (xlog a - xlog q)) * (xlog b - xlog a) = fin (a / q * (Real.log a - Real.log b)) := by
  unfold xlog
  rw [if_neg ha.ne', if_neg hb.ne', if_neg hq.ne', fin_sub, fin_sub, exp_fin, Real.exp_sub, Real.exp_log ha, Real.exp_log hq]
  show fin (-(a / q)) * fin _ = _
  rw [fin_mul, fin_inj]; ring

/-- **Unbiased, with any proposal of the same support.**  For every number of samples `n ≥ 1`, the estimate is an
ordinary number for almost every outcome of the draws and its expectation is `KL(a ‖ b)`. -/
theorem C48_unbiased (μ : Measure E) {la lb lq : E → XR} {a b q : E → ℝ} {νa νb νq : Measure E}
    (ha : HasLogDensity μ la a νa) (hb : HasLogDensity μ lb b νb) (hq : HasLogDensity μ lq q νq)
    (haq : νa ≪ νq) (hqa : νq ≪ νa) (hab : νa ≪ νb) {k : ℝ} (hk : KLOn μ Set.univ a b k) (n : ℕ) (hn : 0 < n) :
    (∀ᵐ ω ∂draws νq n, Ordinary (klFromSamples la lb fun i : Fin n => (ω i, lq (ω i)))) ∧
      ∫ ω, num (klFromSamples la lb fun i : Fin n => (ω i, lq (ω i))) ∂draws νq n = k := by
  have := hq.prob
  have hpos : ∀ᵐ x ∂νq, 0 < a x ∧ 0 < b x ∧ 0 < q x := by
    have h1 : ∀ᵐ x ∂νq, 0 < a x := hqa.ae_le (ae_pos ha)
    have h2 : ∀ᵐ x ∂νq, 0 < b x := hqa.ae_le (hab.ae_le (ae_pos hb))
    filter_upwards [h1, h2, ae_pos hq] with x h1 h2 h3
    exact ⟨h1, h2, h3⟩
  set g : E → ℝ := fun x => a x / q x * (Real.log (a x) - Real.log (b x)) with hg
  have hcong : (fun x => q x * g x) =ᵐ[μ] fun x => a x * (Real.log (a x) - Real.log (b x)) := by
    filter_upwards [ae_abs ha hq haq] with x hx
    simp only [hg]
    by_cases h0 : q x = 0
    · rw [h0, hx h0]; simp
    · field_simp
  obtain ⟨hki, hkv⟩ := hk
  rw [integrableOn_univ] at hki
  rw [Measure.restrict_univ] at hkv
  have hgi : Integrable g νq := by
    rw [integrable_law hq]; exact hki.congr hcong.symm
  have hgv : ∫ x, g x ∂νq = k := by
    rw [integral_law hq, integral_congr_ae hcong, hkv]
  have hval : ∀ᵐ ω ∂draws νq n, klFromSamples la lb (fun i : Fin n => (ω i, lq (ω i))) = fin ((∑ i, g (ω i)) / n) := by
    filter_upwards [draws_ae (n := n) hpos] with ω hω
    rw [← xmean_fin hn]
    unfold klFromSamples
    congr 1
    funext i
    simp only [ha.report, hb.report, hq.report]
    exact kl_term (hω i).1 (hω i).2.1 (hω i).2.2
  refine ⟨hval.mono fun ω h => ⟨_, h⟩, ?_⟩
  rw [← hgv, ← draws_mean hn hgi]
  refine integral_congr_ae ?_
  filter_upwards [hval] with ω h
  rw [h]; rfl

/-- The default proposal (`a` itself). -/
theorem C48_unbiased_default (μ : Measure E) {la lb : E → XR} {a b : E → ℝ} {νa νb : Measure E}
    (ha : HasLogDensity μ la a νa) (hb : HasLogDensity μ lb b νb) (hab : νa ≪ νb) {k : ℝ} (hk : KLOn μ Set.univ a b k)
    (n : ℕ) (hn : 0 < n) :
    (∀ᵐ ω ∂draws νa n, Ordinary (klFromSamples la lb fun i : Fin n => (ω i, la (ω i)))) ∧
      ∫ ω, num (klFromSamples la lb fun i : Fin n => (ω i, la (ω i))) ∂draws νa n = k :=
  C48_unbiased μ ha hb ha Measure.AbsolutelyContinuous.rfl Measure.AbsolutelyContinuous.rfl hab hk n hn

/-- The estimator for reparameterised distributions is unbiased too. -/
theorem C48_reparam_unbiased (μ : Measure E) {la lb : E → XR} {a b : E → ℝ} {νa νb : Measure E}
    (ha : HasLogDensity μ la a νa) (hb : HasLogDensity μ lb b νb) (hab : νa ≪ νb) {k : ℝ} (hk : KLOn μ Set.univ a b k)
    (n : ℕ) (hn : 0 < n) :
    (∀ᵐ ω ∂draws νa n, Ordinary (klReparam lb fun i : Fin n => (ω i, la (ω i)))) ∧
      ∫ ω, num (klReparam lb fun i : Fin n => (ω i, la (ω i))) ∂draws νa n = k := by
  have := ha.prob
  have hae : ∀ᵐ ω ∂draws νa n, klReparam lb (fun i : Fin n => (ω i, la (ω i)))
      = klFromSamples la lb fun i : Fin n => (ω i, la (ω i)) := by
    have hpos : ∀ᵐ x ∂νa, 0 < a x ∧ 0 < b x := by
      have h2 : ∀ᵐ x ∂νa, 0 < b x := hab.ae_le (ae_pos hb)
      filter_upwards [ae_pos ha, h2] with x h1 h2
      exact ⟨h1, h2⟩
    filter_upwards [draws_ae (n := n) hpos] with ω hω
    unfold klReparam klFromSamples
    congr 1
    funext i
    simp only [ha.report, hb.report]
    rw [kl_term (hω i).1 (hω i).2 (hω i).1, div_self (hω i).1.ne', one_mul]
    unfold xlog
    rw [if_neg (hω i).1.ne', if_neg (hω i).2.ne', fin_sub]
    show fin _ = fin _
    rw [fin_inj]; ring
  have h := C48_unbiased_default μ ha hb hab hk n hn
  refine ⟨?_, ?_⟩
  · filter_upwards [hae, h.1] with ω h1 h2
    rw [h1]; exact h2
  · rw [← h.2]
    refine integral_congr_ae ?_
    filter_upwards [hae] with ω h1
    rw [h1]

omit [MeasurableSpace E] in
/-- The support condition on the proposal cannot be dropped: one sample that `a` cannot produce turns the whole estimate
into `nan` (the term is `-0 * (log b + inf)` instead of `0`). -/
theorem C48_outside_support_nan {n : ℕ} (la lb : E → XR) (a b q : E → ℝ) (hla : ∀ x, la x = xlog (a x))
    (hlb : ∀ x, lb x = xlog (b x)) (ω : Fin n → E) (lq : Fin n → XR) (i : Fin n) (h0 : a (ω i) = 0)
    (hq : 0 < q (ω i)) (hlq : lq i = xlog (q (ω i))) :
    klFromSamples la lb (fun i => (ω i, lq i)) = nan := by
  unfold klFromSamples xmean
  rw [XR.sum_nan]
  · cases n with
    | zero => exact i.elim0
    | succ n => rfl
  · refine ⟨i, Finset.mem_univ i, ?_⟩
    simp only [hla, hlb, hlq, h0]
    unfold xlog
    rw [if_pos rfl, if_neg hq.ne']
    by_cases hb0 : b (ω i) = 0
    · rw [if_pos hb0]; simp [XR.neg]; rfl
    · rw [if_neg hb0]; simp [XR.neg]; show XR.mul _ _ = _; simp [XR.mul, infOf]


omit [MeasurableSpace E] in
/-- If `b` excludes a sampled event that `a` allows (so that `KL = +inf`), the estimate is `+inf`, whatever the other
samples are, as long as the proposal stays in the support of `a`. -/
theorem C48_infinite {n : ℕ} (la lb : E → XR) (a b q : E → ℝ) (hb : ∀ x, 0 ≤ b x)
    (hla : ∀ x, la x = xlog (a x)) (hlb : ∀ x, lb x = xlog (b x)) (ω : Fin n → E) (lq : Fin n → XR)
    (hq : ∀ i, 0 < q (ω i)) (hlq : ∀ i, lq i = xlog (q (ω i))) (hsupp : ∀ i, 0 < a (ω i)) (i : Fin n) (h0 : b (ω i) = 0) :
    klFromSamples la lb (fun i => (ω i, lq i)) = pinf := by
  have hterm : ∀ j, b (ω j) = 0 → XR.neg (XR.exp (la (ω j) - lq j)) * (lb (ω j) - la (ω j)) = pinf := by
    intro j hj
    rw [hla, hlb, hlq]
    unfold xlog
    rw [if_pos hj, if_neg (hsupp j).ne', if_neg (hq j).ne', fin_sub, exp_fin]
    show XR.mul (fin (-_)) ninf = _
    have hpos := Real.exp_pos (Real.log (a (ω j)) - Real.log (q (ω j)))
    simp [XR.mul, infOf, hpos]
  unfold klFromSamples xmean
  rw [XR.sum_pinf]
  · show XR.div pinf (fin n) = _
    have hn : (0 : ℝ) < n := by exact_mod_cast i.pos
    simp [XR.div]
  · intro j _
    by_cases hj : b (ω j) = 0
    · exact Or.inl (hterm j hj)
    · have hbp : 0 < b (ω j) := lt_of_le_of_ne (hb _) (Ne.symm hj)
      refine Or.inr ⟨a (ω j) / q (ω j) * (Real.log (a (ω j)) - Real.log (b (ω j))), ?_⟩
      simp only [hla, hlb, hlq]
      exact kl_term (hsupp j) hbp (hq j)
  · exact ⟨i, Finset.mem_univ i, hterm i h0⟩

/-! ### C48: gradients -/

/-- For parameters `φ`, the expectation of the estimator over the *fixed* proposal is the divergence as a function of
`φ`, for any reference measure. -/
theorem C48_dice_expectation (μ : Measure E) {lq : E → XR} {q : E → ℝ} {νq : Measure E} (hq : HasLogDensity μ lq q νq)
    (a b : ℝ → E → ℝ) (hqp : ∀ x, 0 < q x) (ha : ∀ φ x, 0 < a φ x) (φ : ℝ) :
    ∫ x, diceTerm (fun φ => Real.log (a φ x)) (fun φ => Real.log (b φ x)) (Real.log (q x)) φ ∂νq
      = ∫ x, a φ x * (Real.log (a φ x) - Real.log (b φ x)) ∂μ := by
  rw [integral_law hq]
  refine integral_congr_ae (ae_of_all _ fun x => ?_)
  simp only [diceTerm]
  rw [Real.exp_sub, Real.exp_log (ha φ x), Real.exp_log (hqp x)]
  have := (hqp x).ne'
  field_simp
  ring

/-- **Gradient (finite support).**  With samples from *any* positive proposal `q` held constant, the expected derivative
of one term of the estimator is the derivative of the divergence. -/
theorem C48_gradient {m : ℕ} (a b : ℝ → Fin m → ℝ) (q : Fin m → ℝ) (hqp : ∀ x, 0 < q x) (φ₀ : ℝ)
    (ha : ∀ φ x, 0 < a φ x) (hb : ∀ φ x, 0 < b φ x) (hda : ∀ x, DifferentiableAt ℝ (fun φ => a φ x) φ₀)
    (hdb : ∀ x, DifferentiableAt ℝ (fun φ => b φ x) φ₀) :
    HasDerivAt (fun φ => ∑ x, a φ x * (Real.log (a φ x) - Real.log (b φ x)))
      (∑ x, q x * deriv (diceTerm (fun φ => Real.log (a φ x)) (fun φ => Real.log (b φ x)) (Real.log (q x))) φ₀) φ₀ := by
  have hdt : ∀ x, DifferentiableAt ℝ
      (diceTerm (fun φ => Real.log (a φ x)) (fun φ => Real.log (b φ x)) (Real.log (q x))) φ₀ := by
    intro x
    have h1 : DifferentiableAt ℝ (fun φ => Real.log (a φ x)) φ₀ := (hda x).log (ha φ₀ x).ne'
    have h2 : DifferentiableAt ℝ (fun φ => Real.log (b φ x)) φ₀ := (hdb x).log (hb φ₀ x).ne'
    unfold diceTerm
    exact ((h1.sub_const _).exp.neg).mul (h2.sub h1)
  have hsum : HasDerivAt (fun φ => ∑ x, q x * diceTerm (fun φ => Real.log (a φ x)) (fun φ => Real.log (b φ x))
      (Real.log (q x)) φ)
      (∑ x, q x * deriv (diceTerm (fun φ => Real.log (a φ x)) (fun φ => Real.log (b φ x)) (Real.log (q x))) φ₀) φ₀ := by
    refine HasDerivAt.fun_sum fun x _ => ?_
    exact (hdt x).hasDerivAt.const_mul (q x)
  refine hsum.congr_of_eventuallyEq (Filter.Eventually.of_forall fun φ => ?_)
  refine Finset.sum_congr rfl fun x _ => ?_
  simp only [diceTerm]
  rw [Real.exp_sub, Real.exp_log (ha φ x), Real.exp_log (hqp x)]
  have := (hqp x).ne'
  field_simp
  ring

/-- In particular for the default proposal, the distribution at the current parameter. -/
theorem C48_gradient_default {m : ℕ} (a b : ℝ → Fin m → ℝ) (φ₀ : ℝ)
    (ha : ∀ φ x, 0 < a φ x) (hb : ∀ φ x, 0 < b φ x) (hda : ∀ x, DifferentiableAt ℝ (fun φ => a φ x) φ₀)
    (hdb : ∀ x, DifferentiableAt ℝ (fun φ => b φ x) φ₀) :
    HasDerivAt (fun φ => ∑ x, a φ x * (Real.log (a φ x) - Real.log (b φ x)))
      (∑ x, a φ₀ x * deriv (diceTerm (fun φ => Real.log (a φ x)) (fun φ => Real.log (b φ x)) (Real.log (a φ₀ x))) φ₀) φ₀ :=
  C48_gradient a b (a φ₀) (ha φ₀) φ₀ ha hb hda hdb

/-! ### C48: dispatch and errors -/

omit [MeasurableSpace E] in
/-- The analytic value is returned whenever it exists; otherwise the Monte Carlo estimate, and only for
`NotImplementedError`. -/
theorem C48_best_effort (kl : MDist E K → MDist E K → Except Err XR) (a b : MDist E K) (key : K) (n : ℕ)
    (prop : Option (DistLike E K)) :
    (∀ v, kl a b = .ok v → estimateKlBestEffort kl (.distrax a) (.distrax b) key n prop = .ok v) ∧
    (kl a b = .error .notImplemented →
      estimateKlBestEffort kl (.distrax a) (.distrax b) key n prop = mcEstimateKl (.distrax a) (.distrax b) key n prop) ∧
    (∀ e, e ≠ .notImplemented → kl a b = .error e →
      estimateKlBestEffort kl (.distrax a) (.distrax b) key n prop = .error e) := by
  refine ⟨fun v h => ?_, fun h => ?_, fun e he h => ?_⟩
  · show (match kl a b with | .ok v => _ | .error .notImplemented => _ | .error e => _) = _
    rw [h]
  · show (match kl a b with | .ok v => _ | .error .notImplemented => _ | .error e => _) = _
    rw [h]
  · show (match kl a b with | .ok v => _ | .error .notImplemented => _ | .error e => _) = _
    rw [h]
    cases e <;> first | rfl | exact absurd rfl he

omit [MeasurableSpace E] in
/-- The value of the estimator for distribution-like arguments: the proposal is `a` unless one is given, and distributions
of the other library are used through their converted form. -/
theorem C48_estimate_value (a b : DistLike E K) (da db : MDist E K) (ha : asDist a = .ok da) (hb : asDist b = .ok db)
    (key : K) (n : ℕ) :
    mcEstimateKl a b key n none = .ok (klFromSamples da.logProb db.logProb (da.sampleAndLogProb key n)) ∧
    ∀ q dq, asDist q = .ok dq →
      mcEstimateKl a b key n (some q) = .ok (klFromSamples da.logProb db.logProb (dq.sampleAndLogProb key n)) := by
  refine ⟨?_, fun q dq hq => ?_⟩
  · unfold mcEstimateKl; simp only [Option.getD_none, ha, hb]; rfl
  · unfold mcEstimateKl; simp only [Option.getD_some, ha, hb, hq]; rfl

omit [MeasurableSpace E] in
/-- Anything that is not a distribution is rejected. -/
theorem C48_rejects (kl : MDist E K → MDist E K → Except Err XR) (a b : DistLike E K) (da : MDist E K)
    (ha : asDist a = .ok da) (key : K) (n : ℕ) :
    mcEstimateKl .other b key n none = .error .typeError ∧
    mcEstimateKl a .other key n none = .error .typeError ∧
    mcEstimateKl a b key n (some .other) = .error .typeError ∧
    estimateKlBestEffort kl .other b key n none = .error .typeError ∧
    estimateKlBestEffort kl a .other key n none = .error .typeError := by
  refine ⟨rfl, ?_, rfl, rfl, ?_⟩
  · unfold mcEstimateKl; simp only [Option.getD_none, ha]; rfl
  · unfold estimateKlBestEffort; simp only [ha]; rfl

omit [MeasurableSpace E] in
/-- The reparameterised estimator rejects TFP distributions that are not fully reparameterised and computes the mean
log-ratio under `a` otherwise. -/
theorem C48_reparam_dispatch (a b : DistLike E K) (da db : MDist E K) (hb : asDist b = .ok db) (key : K) (n : ℕ) :
    mcEstimateKlReparam (.tfp da false) b key n = .error .valueError ∧
    (asDist a = .ok da → (∀ d, a ≠ .tfp d false) →
      mcEstimateKlReparam a b key n = .ok (klReparam db.logProb (da.sampleAndLogProb key n))) := by
  refine ⟨rfl, fun ha hn => ?_⟩
  match a, ha, hn with
  | .distrax d, ha, _ => simp only [asDist, Except.ok.injEq] at ha; subst ha; simp only [mcEstimateKlReparam, hb]; rfl
  | .tfp d true, ha, _ => simp only [asDist, Except.ok.injEq] at ha; subst ha; simp only [mcEstimateKlReparam, hb]; rfl
  | .tfp d false, _, hn => exact absurd rfl (hn d)

/-! ### C48: the mode estimate -/

omit [MeasurableSpace E] in
/-- For `n + 1` samples of any batch shape and any event shape: the estimated mode has the shape of one sample, and for
every batch index it is one of the drawn samples - the whole event, not a mixture of entries - with maximal
log-probability, the first such. -/
theorem C48_mode (n : ℕ) (batch event : List ℕ) (samples : Arr) (logProbs : List ℕ → XR)
    (hs : samples.shape = (n + 1) :: (batch ++ event)) 
    (hnan : ∀ β, InRange batch β → ∀ k : Fin (n + 1), logProbs (k.val :: β) ≠ nan) :
    ∃ m, mcEstimateMode n batch samples logProbs = .ok m ∧ m.shape = batch ++ event ∧
      ∀ β, InRange batch β → ∃ k : Fin (n + 1),
        (∀ j : Fin (n + 1), (logProbs (j.val :: β)).toE ≤ (logProbs (k.val :: β)).toE) ∧
        (∀ j < k, (logProbs (j.val :: β)).toE < (logProbs (k.val :: β)).toE) ∧
        ∀ ε, InRange event ε → m.data (β ++ ε) = samples.data (k.val :: (β ++ ε)) := by
  have hpad : samples.shape.length - ((argmax0 n batch logProbs).expand0).shape.length = event.length := by
    rw [hs]; simp [IArr.expand0, argmax0]
  have hb : broadcastShapes (batch ++ event) (batch ++ List.replicate event.length 1) = some (batch ++ event) := by
    unfold broadcastShapes
    rw [List.reverse_append, List.reverse_append, List.reverse_replicate]
    have : ∀ (e r : List ℕ), brev (e ++ r) (List.replicate e.length 1 ++ r) = some (e ++ r) := by
      intro e r
      induction e with
      | nil => simpa using brev_self r
      | cons d e ih =>
        simp only [List.cons_append, List.length_cons, List.replicate_succ]
        unfold brev
        rw [ih]
        have hd : bdim d 1 = some d := by unfold bdim; by_cases hd : d = 1 <;> simp [hd]
        simp [hd]
    have h := this event.reverse batch.reverse
    rw [List.length_reverse] at h
    rw [h]
    simp
  refine ⟨⟨batch ++ event, fun i => samples.data (((argmax0 n batch logProbs).expand0.padRight event.length).data
    (0 :: proj (batch ++ List.replicate event.length 1) i) :: proj (batch ++ event) i)⟩, ?_, rfl, ?_⟩
  · unfold mcEstimateMode
    simp only
    rw [hpad]
    unfold takeAlong0Squeeze
    rw [hs]
    simp only [IArr.padRight, IArr.expand0, argmax0, List.cons_append]
    rw [if_neg (by simp), hb]
  · intro β hβ
    obtain ⟨h1, h2⟩ := argmaxIdx_spec (fun k : Fin (n + 1) => logProbs (k.val :: β)) fun k => hnan β hβ k
    refine ⟨argmaxIdx fun k : Fin (n + 1) => logProbs (k.val :: β), h1, h2, fun ε hε => ?_⟩
    have hβε : InRange (batch ++ event) (β ++ ε) := hβ.append hε
    have hp : (proj (batch ++ List.replicate event.length 1) (β ++ ε)).take batch.length = β := by
      unfold proj
      have hl : (β ++ ε).length - (batch ++ List.replicate event.length 1).length = 0 := by
        simp [hβ.length, hε.length]
      rw [hl, List.drop_zero, List.take_zipWith, List.take_left', ]
      · have := proj_self hβ
        unfold proj at this
        rw [hβ.length, Nat.sub_self, List.drop_zero] at this
        rw [List.take_left' hβ.length]
        exact this
      · rfl
    simp only [IArr.padRight, IArr.expand0, argmax0, List.tail_cons, List.length_cons, List.take_succ_cons, hp, proj_self hβε]


/-! ### Discrete instance (non-vacuity) -/

theorem pmf_ac {n : ℕ} {p q : Fin n → ℝ} (h : ∀ i, 0 < p i → 0 < q i) :
    (Measure.count.withDensity fun x => ENNReal.ofReal (p x)) ≪ Measure.count.withDensity fun x => ENNReal.ofReal (q x) := by
  refine Measure.AbsolutelyContinuous.mk fun s hs h0 => ?_
  rw [withDensity_apply_eq_zero (measurable_of_finite _), Measure.count_eq_zero_iff] at h0 ⊢
  rw [Set.eq_empty_iff_forall_notMem] at h0 ⊢
  intro x hx
  refine h0 x ⟨?_, hx.2⟩
  have h1 : ENNReal.ofReal (p x) ≠ 0 := hx.1
  have h2 : ENNReal.ofReal (q x) ≠ 0 := by
    rw [ne_eq, ENNReal.ofReal_eq_zero, not_le] at h1 ⊢
    exact h x h1
  exact h2

/-- For Categoricals `a`, `b` and a proposal with the same support as `a`: the estimate is unbiased for
`∑ a log(a/b)` with any number of samples. -/
theorem C48_categorical {m : ℕ} {da db dq : Cat m} {a b q : Fin m → ℝ} (ha : HasPmf da a) (hb : HasPmf db b)
    (hq : HasPmf dq q) (haq : ∀ i, 0 < a i ↔ 0 < q i) (hab : ∀ i, 0 < a i → 0 < b i) (n : ℕ) (hn : 0 < n) :
    ∫ ω, num (klFromSamples (fun k : Fin m => da.logits k) (fun k => db.logits k) fun i : Fin n => (ω i, dq.logits (ω i)))
        ∂draws (Measure.count.withDensity fun x => ENNReal.ofReal (q x)) n
      = ∑ i, a i * (Real.log (a i) - Real.log (b i)) := by
  refine (C48_unbiased Measure.count (pmf_law ha.pmf ha.logits) (pmf_law hb.pmf hb.logits) (pmf_law hq.pmf hq.logits)
    (pmf_ac fun i => (haq i).1) (pmf_ac fun i => (haq i).2) (pmf_ac hab) ⟨?_, ?_⟩ n hn).2
  · exact Integrable.of_finite
  · rw [Measure.restrict_univ, integral_count]

/-- The gradient theorem applies to a softmax family against a fixed distribution. -/
example (φ₀ : ℝ) : ∃ g, HasDerivAt
    (fun φ => ∑ x : Fin 2, (![Real.exp φ / (1 + Real.exp φ), 1 / (1 + Real.exp φ)] x) *
      (Real.log (![Real.exp φ / (1 + Real.exp φ), 1 / (1 + Real.exp φ)] x) - Real.log ((fun _ => (1 / 2 : ℝ)) x)))
    g φ₀ :=
  ⟨_, C48_gradient_default (fun φ => ![Real.exp φ / (1 + Real.exp φ), 1 / (1 + Real.exp φ)]) (fun _ _ => 1 / 2) φ₀
    (fun φ x => by fin_cases x <;> (simp; positivity)) (fun _ _ => by norm_num)
    (fun x => by
      have h : DifferentiableAt ℝ (fun φ : ℝ => 1 + Real.exp φ) φ₀ := by fun_prop
      have h0 : (1 + Real.exp φ₀) ≠ 0 := by positivity
      fin_cases x
      · exact Real.differentiableAt_exp.div h h0
      · exact (differentiableAt_const _).div h h0)
    (fun _ => differentiableAt_const _)⟩

end Distrax
