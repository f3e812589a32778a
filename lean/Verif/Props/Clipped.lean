import Verif.Props.Quantized
import Verif.Props.LocScale
import Verif.Props.Normal
import Mathlib.MeasureTheory.Measure.Map

/-! C33: `Clipped` is the law of the clipped base variable: two boundary atoms and the base density in between. -/

namespace Distrax

open MeasureTheory Set Spec XR

theorem weight_log {p : ℝ} (h : 0 ≤ p) : weight (XR.log (.fin p)) = p := by
  rw [XR.log_eq_xlog h, weight_xlog h]

variable {μ : Measure ℝ} [IsProbabilityMeasure μ]

/-- `sample` clips the base draw; for `minimum ≤ maximum` the result lies in `[minimum, maximum]`. -/
theorem C33_sample (b : Base) {mn mx : ℝ} (h : mn ≤ mx) (x : ℝ) :
    (Clipped.init b mn mx).sample x = clip mn mx x ∧ clip mn mx x ∈ Icc mn mx ∧
    (Clipped.init b mn mx).sampleAndLogProb x =
      (clip mn mx x, (Clipped.init b mn mx).logProb (clip mn mx x)) := by
  have e : (Clipped.init b mn mx).sample x = clip mn mx x := by
    simp only [Clipped.sample, Clipped.init, clip]
    split_ifs with h1 h2
    · rw [max_eq_right h1.le, min_eq_left h]
    · rw [max_eq_left (not_lt.1 h1), min_eq_right (le_of_lt h2)]
    · rw [max_eq_left (not_lt.1 h1), min_eq_left (not_lt.1 h2)]
  refine ⟨e, ?_, by rw [Clipped.sampleAndLogProb, e]⟩
  unfold clip
  split_ifs with h1 h2
  · exact ⟨le_rfl, h⟩
  · exact ⟨h, le_rfl⟩
  · exact ⟨not_lt.1 h1, not_lt.1 h2⟩

theorem measurable_clip (mn mx : ℝ) : Measurable (clip mn mx) := by
  unfold clip
  exact Measurable.ite measurableSet_Iio measurable_const
    (Measurable.ite measurableSet_Ioi measurable_const measurable_id)

/-- The law of the clipped variable, for an arbitrary base law. -/
theorem clip_law {mn mx : ℝ} (h : mn < mx) (A : Set ℝ) (hA : MeasurableSet A) [Decidable (mn ∈ A)] [Decidable (mx ∈ A)] :
    (μ.map (clip mn mx)).real A = (if mn ∈ A then μ.real (Iic mn) else 0) + (if mx ∈ A then μ.real (Ici mx) else 0) +
      μ.real (A ∩ Ioo mn mx) := by
  rw [measureReal_def, Measure.map_apply (measurable_clip mn mx) hA, ← measureReal_def]
  have hpre : clip mn mx ⁻¹' A = ((if mn ∈ A then Iic mn else ∅) ∪ (if mx ∈ A then Ici mx else ∅)) ∪ (A ∩ Ioo mn mx) := by
    ext x
    simp only [mem_preimage, clip]
    rcases lt_trichotomy x mn with hx | rfl | hx
    · rw [if_pos hx]
      have h1 : x ∉ Ioo mn mx := fun h' => not_lt.2 hx.le h'.1
      have h2 : ¬ mx ≤ x := by linarith
      by_cases hm : mn ∈ A <;> by_cases hM : mx ∈ A <;> simp [hm, hM, hx.le, h2, hx.le.not_gt]
    · rw [if_neg (lt_irrefl _), if_neg (not_lt.2 h.le)]
      by_cases hm : x ∈ A <;> by_cases hM : mx ∈ A <;> simp [hm, hM, h]
    · rw [if_neg (not_lt.2 hx.le)]
      rcases lt_trichotomy x mx with hx' | rfl | hx'
      · rw [if_neg (not_lt.2 hx'.le)]
        by_cases hm : mn ∈ A <;> by_cases hM : mx ∈ A <;> by_cases hxA : x ∈ A <;> simp [hm, hM, hxA, hx, hx', hx'.not_ge]
      · rw [if_neg (lt_irrefl _)]
        by_cases hm : mn ∈ A <;> by_cases hM : x ∈ A <;> simp [hm, hM, hx]
      · rw [if_pos hx']
        by_cases hm : mn ∈ A <;> by_cases hM : mx ∈ A <;> simp [hm, hM, hx.not_ge, hx'.le, hx'.not_gt]
  rw [hpre, measureReal_union, measureReal_union]
  · split_ifs <;> simp
  · split_ifs <;> simp [h]
  · split_ifs <;> simp
  · rw [Set.disjoint_left]
    rintro x (hx | hx) ⟨-, h1, h2⟩
    · split_ifs at hx
      · exact absurd h1 (not_lt.2 hx)
      · exact hx
    · split_ifs at hx
      · exact absurd h2 (not_lt.2 hx)
      · exact hx
  · exact hA.inter measurableSet_Ioo

/-- Outside `[minimum, maximum]` the log-probability is `-inf`; strictly inside it is the base log-probability. -/
theorem C33_outside (b : Base) (mn mx v : ℝ) :
    (v ∉ Icc mn mx → (Clipped.init b mn mx).logProb v = .ninf) ∧
    (v ∈ Ioo mn mx → (Clipped.init b mn mx).logProb v = b.logProb v) := by
  constructor
  · intro h
    have : v < mn ∨ v > mx := by by_contra h'; push Not at h'; exact h h'
    simp [Clipped.logProb, Clipped.init, this]
  · rintro ⟨h1, h2⟩
    have : ¬ (v < mn ∨ v > mx) := by rintro (h | h) <;> linarith
    simp [Clipped.logProb, Clipped.init, this, h1.ne', h2.ne]

theorem lp_min (b : Base) {mn mx : ℝ} (h : mn ≤ mx) : (Clipped.init b mn mx).logProb mn = b.logCdf mn := by
  have : ¬ mn > mx := not_lt.2 h
  simp [Clipped.logProb, Clipped.init, this]

theorem lp_max (b : Base) {mn mx : ℝ} (h : mn < mx) : (Clipped.init b mn mx).logProb mx = b.logSurvival mx := by
  simp [Clipped.logProb, Clipped.init, h.le, h.ne', h.not_gt]

/-- For a base with a density `f` and `minimum < maximum`: the law of the samples has, on every Borel set, the mass that
`log_prob` assigns: an atom of size `exp log_prob` at each boundary point and the density `exp log_prob` in between. -/
theorem C33_law (b : Base) (f : ℝ → ℝ) (hf : IsPdf f)
    (hb : BaseLaw b (volume.withDensity fun x => ENNReal.ofReal (f x))) (hlp : ∀ x, b.logProb x = XR.log (.fin (f x)))
    {mn mx : ℝ} (h : mn < mx) (A : Set ℝ) (hA : MeasurableSet A) [Decidable (mn ∈ A)] [Decidable (mx ∈ A)] :
    let d := Clipped.init b mn mx
    let base := volume.withDensity fun x => ENNReal.ofReal (f x)
    (base.map d.sample).real A =
      (if mn ∈ A then weight (d.logProb mn) else 0) + (if mx ∈ A then weight (d.logProb mx) else 0) +
        ∫ x in A ∩ Ioo mn mx, weight (d.logProb x) := by
  intro d base
  have hreal : ∀ s, MeasurableSet s → base.real s = ∫ x in s, f x := by
    intro s hs
    rw [measureReal_def, withDensity_apply _ hs, ← ofReal_integral_eq_lintegral_ofReal hf.integrable.integrableOn
      (Filter.Eventually.of_forall hf.nonneg), ENNReal.toReal_ofReal (integral_nonneg hf.nonneg)]
  have : IsProbabilityMeasure base := ⟨by
    rw [withDensity_apply _ MeasurableSet.univ, Measure.restrict_univ, ← ofReal_integral_eq_lintegral_ofReal hf.integrable
      (Filter.Eventually.of_forall hf.nonneg), hf.one, ENNReal.ofReal_one]⟩
  have hs : d.sample = clip mn mx := funext fun x => (C33_sample b h.le x).1
  rw [hs, clip_law h A hA]
  have h1 : weight (d.logProb mn) = base.real (Iic mn) := by
    rw [lp_min b h.le, hb.logCdf, weight_log (by rw [hb.cdf]; exact measureReal_nonneg), hb.cdf]
  have h2 : weight (d.logProb mx) = base.real (Ici mx) := by
    rw [lp_max b h, hb.logSurvival, weight_log (by rw [hb.survival]; exact measureReal_nonneg), hb.survival,
      hreal _ measurableSet_Ioi, hreal _ measurableSet_Ici, integral_Ici_eq_integral_Ioi]
  rw [h1, h2, hreal _ (hA.inter measurableSet_Ioo)]
  congr 1
  refine setIntegral_congr_fun (hA.inter measurableSet_Ioo) fun x hx => ?_
  show f x = weight (d.logProb x)
  rw [(C33_outside b mn mx x).2 hx.2, hlp, weight_log (hf.nonneg x)]

/-- In particular the total mass assigned by `log_prob` is one. -/
theorem C33_total (b : Base) (f : ℝ → ℝ) (hf : IsPdf f)
    (hb : BaseLaw b (volume.withDensity fun x => ENNReal.ofReal (f x))) (hlp : ∀ x, b.logProb x = XR.log (.fin (f x)))
    {mn mx : ℝ} (h : mn < mx) :
    let d := Clipped.init b mn mx
    weight (d.logProb mn) + weight (d.logProb mx) + ∫ x in Ioo mn mx, weight (d.logProb x) = 1 := by
  intro d
  classical
  have := C33_law b f hf hb hlp h univ MeasurableSet.univ
  simp only [mem_univ, if_true, univ_inter] at this
  rw [← this]
  have hbp : IsProbabilityMeasure (volume.withDensity fun x => ENNReal.ofReal (f x)) := ⟨by
    rw [withDensity_apply _ MeasurableSet.univ, Measure.restrict_univ, ← ofReal_integral_eq_lintegral_ofReal hf.integrable
      (Filter.Eventually.of_forall hf.nonneg), hf.one, ENNReal.ofReal_one]⟩
  have hs : d.sample = clip mn mx := funext fun x => (C33_sample b h.le x).1
  rw [hs, measureReal_def, Measure.map_apply (measurable_clip mn mx) MeasurableSet.univ]
  simp

/-- For an arbitrary base law (it may have atoms): the probability of the lower boundary is `exp log_prob(minimum)`, and
that of the upper boundary exceeds `exp log_prob(maximum)` by the base's atom at `maximum`. -/
theorem C33_boundary (b : Base) (hb : BaseLaw b μ) {mn mx : ℝ} (h : mn < mx) :
    let d := Clipped.init b mn mx
    (μ.map d.sample).real {mn} = weight (d.logProb mn) ∧
    (μ.map d.sample).real {mx} = weight (d.logProb mx) + μ.real {mx} := by
  intro d
  classical
  have hs : d.sample = clip mn mx := funext fun x => (C33_sample b h.le x).1
  rw [hs, clip_law h _ (measurableSet_singleton _), clip_law h _ (measurableSet_singleton _)]
  have e1 : ({mn} : Set ℝ) ∩ Ioo mn mx = ∅ := by ext x; simp
  have e2 : ({mx} : Set ℝ) ∩ Ioo mn mx = ∅ := by ext x; simp
  constructor
  · rw [lp_min b h.le, hb.logCdf, weight_log (by rw [hb.cdf]; exact measureReal_nonneg), hb.cdf, e1]
    simp [h.ne']
  · rw [lp_max b h, hb.logSurvival, weight_log (by rw [hb.survival]; exact measureReal_nonneg), hb.survival, e2]
    have : μ.real (Ici mx) = μ.real (Ioi mx) + μ.real {mx} := by
      rw [← measureReal_union (by simp) (measurableSet_singleton _)]
      congr 1; ext x; simp [le_iff_eq_or_lt, eq_comm]
    simp [h.ne, this]

/-- Finding: with `minimum = maximum` every sample is that point, yet `log_prob` there is `log_cdf(minimum)`, not 0;
with `minimum > maximum` every sample is `maximum` and `log_prob` is `-inf` everywhere. Neither is rejected. -/
theorem C33_degenerate (b : Base) (mn mx : ℝ) :
    (∀ x, (Clipped.init b mn mn).sample x = mn) ∧ (Clipped.init b mn mn).logProb mn = b.logCdf mn ∧
    (mx < mn → (∀ x, (Clipped.init b mn mx).sample x = mx) ∧ ∀ v, (Clipped.init b mn mx).logProb v = .ninf) := by
  refine ⟨fun x => min_eq_right (le_max_right _ _), lp_min b le_rfl, fun h => ⟨fun x => ?_, fun v => ?_⟩⟩
  · exact min_eq_right (h.le.trans (le_max_right _ _))
  · refine (C33_outside b mn mx v).1 fun hv => ?_
    have := hv.1.trans hv.2
    linarith

/-- The constructor rejects exactly non-scalar events and bounds of higher rank than the batch; slicing one entry keeps
the distribution. -/
theorem C33_ctor (event batch mn mx : List ℕ) (b : Base) (x y : ℝ) :
    (Clipped.checkShapes event batch mn mx = .ok () ↔
      event = [] ∧ mn.length ≤ batch.length ∧ mx.length ≤ batch.length) ∧
    (Clipped.init b x y).getItem = Clipped.init b x y := by
  refine ⟨?_, rfl⟩
  unfold Clipped.checkShapes
  split_ifs with h1 h2
  · simp [h1]
  · simp only [reduceCtorEq, false_iff]; rintro ⟨-, h3, h4⟩; omega
  · push Not at h1 h2
    simp [h1, h2]

theorem toReal_density {f : ℝ → ℝ} (hf : IsPdf f) {s : Set ℝ} (hs : MeasurableSet s) :
    (volume.withDensity fun x => ENNReal.ofReal (f x)).real s = ∫ x in s, f x := by
  rw [measureReal_def, withDensity_apply _ hs, ← ofReal_integral_eq_lintegral_ofReal hf.integrable.integrableOn
    (Filter.Eventually.of_forall hf.nonneg), ENNReal.toReal_ofReal (integral_nonneg hf.nonneg)]

theorem ndtr_pos (x : ℝ) : 0 < ndtr x := by
  unfold ndtr
  rw [setIntegral_pos_iff_support_of_nonneg_ae (Filter.Eventually.of_forall fun t => ProbabilityTheory.gaussianPDFReal_nonneg 0 1 t)
    (ProbabilityTheory.integrable_gaussianPDFReal 0 1).integrableOn]
  have : Function.support (ProbabilityTheory.gaussianPDFReal 0 1) = univ := by
    ext t; simp [(ProbabilityTheory.gaussianPDFReal_pos 0 1 t one_ne_zero).ne']
  rw [this, univ_inter, Real.volume_Iic]; simp

/-- `ClippedNormal` and `ClippedLogistic` meet the hypotheses of `C33_law`: for `scale > 0` and `minimum < maximum` the law
of the samples is the one described by `log_prob`. -/
theorem C33_normal_logistic (loc scale mn mx : ℝ) (hs : 0 < scale) (h : mn < mx) (A : Set ℝ) (hA : MeasurableSet A)
    [Decidable (mn ∈ A)] [Decidable (mx ∈ A)] :
    (let d := Clipped.clippedNormal loc scale mn mx
     ((volume.withDensity fun x => ENNReal.ofReal (Normal.prob ⟨loc, scale⟩ x)).map d.sample).real A =
      (if mn ∈ A then weight (d.logProb mn) else 0) + (if mx ∈ A then weight (d.logProb mx) else 0) +
        ∫ x in A ∩ Ioo mn mx, weight (d.logProb x)) ∧
    (let d := Clipped.clippedLogistic loc scale mn mx
     ((volume.withDensity fun x => ENNReal.ofReal (Logistic.prob ⟨loc, scale⟩ x)).map d.sample).real A =
      (if mn ∈ A then weight (d.logProb mn) else 0) + (if mx ∈ A then weight (d.logProb mx) else 0) +
        ∫ x in A ∩ Ioo mn mx, weight (d.logProb x)) := by
  constructor
  · obtain ⟨hp, -, hc, hsv, hl, hlc, hls⟩ := C28_normal_law ⟨loc, scale⟩ hs
    refine C33_law _ _ hp ⟨fun x => ?_, fun x => ?_, fun x => ?_, fun x => ?_⟩ (fun x => ?_) h A hA
    · rw [toReal_density hp measurableSet_Iic]; exact (hc x).symm
    · rw [toReal_density hp measurableSet_Ioi]; exact (hsv x).symm
    · show XR.fin _ = XR.log (.fin (Normal.cdf _ x)); rw [hlc]; exact (log_fin_pos (ndtr_pos _)).symm
    · show XR.fin _ = XR.log (.fin (Normal.survival _ x)); rw [hls]; exact (log_fin_pos (ndtr_pos _)).symm
    · show XR.fin _ = _; rw [hl]; exact (log_fin_pos (Real.exp_pos _)).symm
  · obtain ⟨hp, hc, hsv, hl, hlc, hls⟩ := C29_logistic_law ⟨loc, scale⟩ hs
    have hsig : ∀ z, 0 < rsigmoid z := fun z => by unfold rsigmoid; positivity
    refine C33_law _ _ hp ⟨fun x => ?_, fun x => ?_, fun x => ?_, fun x => ?_⟩ (fun x => ?_) h A hA
    · rw [toReal_density hp measurableSet_Iic]; exact (hc x).symm
    · rw [toReal_density hp measurableSet_Ioi]; exact (hsv x).symm
    · show XR.fin _ = XR.log (.fin (Logistic.cdf _ x)); rw [hlc]; exact (log_fin_pos (hsig _)).symm
    · show XR.fin _ = XR.log (.fin (Logistic.survival _ x)); rw [hls]; exact (log_fin_pos (hsig _)).symm
    · show XR.fin _ = _; rw [hl]; exact (log_fin_pos (Real.exp_pos _)).symm

/-- Non-vacuity: a fully atomic base law; the upper boundary is the base's atom, and the reported mass misses it. -/
example : let d := Clipped.init (Base.ofLaw (Measure.dirac (1 : ℝ))) 0 1
    ((Measure.dirac (1 : ℝ)).map d.sample).real {1} = 1 ∧ weight (d.logProb 1) = 0 := by
  intro d
  have h := C33_boundary (μ := Measure.dirac (1 : ℝ)) _ Base.ofLaw_law (show (0 : ℝ) < 1 by norm_num)
  have h2 : weight (d.logProb 1) = 0 := by
    rw [lp_max _ (by norm_num)]
    show weight (XR.log (.fin ((Measure.dirac (1 : ℝ)).real (Ioi 1)))) = 0
    rw [weight_log measureReal_nonneg]; simp [measureReal_def]
  refine ⟨?_, h2⟩
  rw [h.2, h2]; simp [measureReal_def]

end Distrax
