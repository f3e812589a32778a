import Verif.Lemmas.Pathwise
import Verif.Spec.Keys
import Verif.Props.CategoricalUniform
import Verif.Props.Grad
import Verif.Props.Quantized

/-! # C69: gradients through samples are unbiased -/

namespace Distrax

open Spec MeasureTheory ProbabilityTheory Topology

/-! ### The dual numbers compute the samples -/

/-- Forgetting tangents gives the samples of the other properties. -/
theorem C69_values (a b : Dual) (u : ℝ) (m : Option ℝ) (d : LogStddevNormal)
    (hd : LogStddevNormal.init a.val b.val m = .ok d) :
    (Dual.normalSample a b u).val = Normal.sample ⟨a.val, b.val⟩ u ∧
    (Dual.logStddevNormalSample m a b u).val = d.toNormal.sample u ∧
    (Dual.laplaceSample a b u).val = Laplace.sample ⟨a.val, b.val⟩ u ∧
    (Dual.logisticSample a b u).val = Logistic.sample ⟨a.val, b.val⟩ u ∧
    (Dual.gumbelSample a b u).val = Gumbel.sample ⟨a.val, b.val⟩ u ∧
    (Dual.uniformSample a b u).val = Uniform.sample ⟨a.val, b.val⟩ u := by
  refine ⟨rfl, ?_, rfl, ?_, ?_, rfl⟩
  · cases m with
    | none =>
      simp only [LogStddevNormal.init, Except.ok.injEq] at hd
      rw [← hd]; rfl
    | some m =>
      by_cases hm : m ≤ 0
      · simp [LogStddevNormal.init, hm] at hd
      · simp only [LogStddevNormal.init, if_neg hm, Except.ok.injEq] at hd
        rw [← hd]; rfl
  · rfl
  · rfl

section families

variable {loc loc' scale scale' : ℝ → ℝ} (hl : Curve loc loc') (hs : Curve scale scale') {t : ℝ} {f : ℝ → ℝ}
  (hf : TestFn f)
include hl hs hf

/-- Normal: for every differentiable way of moving `loc` and `scale`. -/
theorem C69_normal (hpos : 0 < scale t) :
    PathwiseUnbiased (fun s => lawOf (Normal.prob ⟨loc s, scale s⟩)) (lawOf (gaussianPDFReal 0 1))
      (fun rnd => Dual.normalSample ⟨loc t, loc' t⟩ ⟨scale t, scale' t⟩ rnd) f t := by
  have := lawOf_prob (gauss_pdf 0 one_ne_zero)
  refine locScale (law := fun a b => lawOf (Normal.prob ⟨a, b⟩)) measurable_id normal_noise hl hs hpos normal_map
    (fun u => ?_) (fun u => ?_) hf
  · show scale t * u + loc t = loc t + scale t * u; ring
  · show scale' t * u + scale t * 0 + loc' t = loc' t + scale' t * u; ring

/-- Laplace. -/
theorem C69_laplace (hpos : 0 < scale t) :
    PathwiseUnbiased (fun s => lawOf (Laplace.prob ⟨loc s, scale s⟩)) (lawOf stdLaplace)
      (fun rnd => Dual.laplaceSample ⟨loc t, loc' t⟩ ⟨scale t, scale' t⟩ rnd) f t := by
  have := lawOf_prob stdLaplace_law.1
  refine locScale (law := fun a b => lawOf (Laplace.prob ⟨a, b⟩)) measurable_id laplace_noise hl hs hpos laplace_map
    (fun u => ?_) (fun u => ?_) hf
  · show loc t + scale t * u = loc t + scale t * u; ring
  · show loc' t + (scale' t * u + scale t * 0) = loc' t + scale' t * u; ring

/-- Gumbel. -/
theorem C69_gumbel (hpos : 0 < scale t) :
    PathwiseUnbiased (fun s => lawOf (Gumbel.prob ⟨loc s, scale s⟩)) (lawOf stdGumbel)
      (fun rnd => Dual.gumbelSample ⟨loc t, loc' t⟩ ⟨scale t, scale' t⟩ rnd) f t := by
  have := lawOf_prob stdGumbel_law.1
  refine locScale (law := fun a b => lawOf (Gumbel.prob ⟨a, b⟩)) measurable_id gumbel_noise hl hs hpos gumbel_map
    (fun u => ?_) (fun u => ?_) hf
  · show scale t * u + loc t = loc t + scale t * u; ring
  · show scale' t * u + scale t * 0 + loc' t = loc' t + scale' t * u; ring

/-- Logistic. -/
theorem C69_logistic (hpos : 0 < scale t) :
    PathwiseUnbiased (fun s => lawOf (Logistic.prob ⟨loc s, scale s⟩)) (lawOf unitNoise)
      (fun u => Dual.logisticSample ⟨loc t, loc' t⟩ ⟨scale t, scale' t⟩ u) f t := by
  have := lawOf_prob unitNoise_pdf
  refine locScale (law := fun a b => lawOf (Logistic.prob ⟨a, b⟩)) (by fun_prop) logistic_noise hl hs hpos logistic_map
    (fun u => ?_) (fun u => ?_) hf
  · show scale t * (Real.log u - Real.log (1 + -u)) + loc t = _; ring
  · show scale' t * (Real.log u - Real.log (1 + -u)) + scale t * 0 + loc' t = _; ring

/-- Uniform, moving both ends (`loc` is `low`, `scale` is `high`). -/
theorem C69_uniform (hlt : loc t < scale t) :
    PathwiseUnbiased (fun s => lawOf (Uniform.prob ⟨loc s, scale s⟩)) (lawOf unitNoise)
      (fun u => Dual.uniformSample ⟨loc t, loc' t⟩ ⟨scale t, scale' t⟩ u) f t := by
  have := lawOf_prob unitNoise_pdf
  have hr : Curve (fun s => scale s - loc s) (fun s => scale' s - loc' s) :=
    ⟨fun s => (hs.deriv s).sub (hl.deriv s), hs.cont.sub hl.cont⟩
  have h := locScale (law := fun a b => lawOf (Uniform.prob ⟨a, a + b⟩)) measurable_id uniform_noise hl hr
    (sub_pos.2 hlt) uniform_map (d := fun u => Dual.uniformSample ⟨loc t, loc' t⟩ ⟨scale t, scale' t⟩ u)
    (fun u => ?_) (fun u => ?_) hf
  · simpa using h
  · rfl
  · show loc' t + ((scale' t - loc' t) * u + (scale t - loc t) * 0) = _; simp

/-- LogStddevNormal, with or without the smooth threshold on the scale. -/
theorem C69_log_stddev_normal (maxScale : Option ℝ) (d : ℝ → LogStddevNormal)
    (hd : ∀ s, LogStddevNormal.init (loc s) (scale s) maxScale = .ok (d s)) :
    PathwiseUnbiased (fun s => lawOf (d s).prob) (lawOf (gaussianPDFReal 0 1))
      (fun rnd => Dual.logStddevNormalSample maxScale ⟨loc t, loc' t⟩ ⟨scale t, scale' t⟩ rnd) f t := by
  cases maxScale with
  | none =>
    have hc : Curve (fun s => Real.exp (scale s)) (fun s => scale' s * Real.exp (scale s)) := by
      refine ⟨fun s => ?_, ?_⟩
      · have := (hs.deriv s).exp; rwa [mul_comm] at this
      · have : Continuous scale := continuous_iff_continuousAt.2 fun s => (hs.deriv s).continuousAt
        exact hs.cont.mul (Real.continuous_exp.comp this)
    have := C69_normal hl hc hf (t := t) (Real.exp_pos _)
    have e : ∀ s, (d s).toNormal = ⟨loc s, Real.exp (scale s)⟩ := fun s => by
      have := hd s
      simp only [LogStddevNormal.init, Except.ok.injEq] at this
      rw [← this]
    simp only [e]
    exact this
  | some m =>
    by_cases hm : m ≤ 0
    · have := hd t
      simp [LogStddevNormal.init, hm] at this
    have e : ∀ s, (d s).toNormal = ⟨loc s, Real.exp (Real.log m - rsoftplus (Real.log m - scale s))⟩ := fun s => by
      have := hd s
      simp only [LogStddevNormal.init, if_neg hm, Except.ok.injEq] at this
      rw [← this]
    have hcs : Continuous scale := continuous_iff_continuousAt.2 fun s => (hs.deriv s).continuousAt
    have hc : Curve (fun s => Real.exp (Real.log m - rsoftplus (Real.log m - scale s)))
        (fun s => (scale' s * (1 / (1 + Real.exp (-(Real.log m - scale s))))) *
          Real.exp (Real.log m - rsoftplus (Real.log m - scale s))) := by
      refine ⟨fun s => ?_, ?_⟩
      · have h1 : HasDerivAt (fun s => Real.log m - scale s) (-scale' s) s := (hs.deriv s).const_sub _
        have h2 := ((rsoftplus_deriv (Real.log m - scale s)).comp s h1).const_sub (Real.log m)
        have h3 := h2.exp
        refine h3.congr_deriv ?_
        simp only [Function.comp_apply, rsigmoid]
        ring
      · have : Continuous rsoftplus := continuous_iff_continuousAt.2 fun x => (rsoftplus_deriv x).continuousAt
        have h0 : ∀ s, 1 + Real.exp (-(Real.log m - scale s)) ≠ 0 := fun s => by positivity
        have := hs.cont
        fun_prop (disch := assumption)
    have := C69_normal hl hc hf (t := t) (Real.exp_pos _)
    simp only [e]
    refine cast ?_ this
    congr 1
    funext rnd
    simp only [Dual.logStddevNormalSample, Dual.exp, Dual.softplus, Dual.const]
    congr 1
    ext
    · rfl
    · show _ = (0 - (0 - scale' t) * (1 / (1 + Real.exp (-(Real.log m - scale t))))) * Real.exp _
      simp only [zero_sub, neg_mul, neg_neg]
      rfl

end families


/-! ### Clipped -/

theorem noAtoms_lawOf (p : ℝ → ℝ) (c : ℝ) : lawOf p {c} = 0 :=
  (withDensity_absolutelyContinuous _ _) (by simp)

/-- Clipping the output of a sampler whose law has no atoms keeps the gradient unbiased, whatever happens in a tie. -/
theorem locScale_clip {U : Type} [MeasurableSpace U] {ν : Measure U} [IsProbabilityMeasure ν] {law : ℝ → ℝ → Measure ℝ}
    {z : U → ℝ} (hz : Measurable z) (hz2 : Integrable (fun u => z u ^ 2) ν) {loc loc' scale scale' : ℝ → ℝ}
    (hl : Curve loc loc') (hs : Curve scale scale') {t : ℝ} (hpos : 0 < scale t)
    (hlaw : ∀ a b, 0 < b → law a b = ν.map fun u => a + b * z u) (hna : ∀ a b c, law a b {c} = 0) {d : U → Dual}
    (hv : ∀ u, (d u).val = loc t + scale t * z u) (hd : ∀ u, (d u).tan = loc' t + scale' t * z u) (tie : ℝ)
    {lo hi : ℝ} (hlh : lo ≤ hi) {f : ℝ → ℝ} (hf : TestFn f) :
    PathwiseUnbiased (fun s => (law (loc s) (scale s)).map (clip lo hi)) ν (fun u => Dual.clip tie lo hi (d u)) f t := by
  obtain ⟨M1, m1, b1⟩ := curve_bound hl t
  obtain ⟨M2, m2, b2⟩ := curve_bound hs t
  have hclip : clip lo hi = fun x => min (max x lo) hi := by
    funext x
    unfold clip
    by_cases h1 : x < lo
    · rw [if_pos h1, max_eq_right h1.le, min_eq_left hlh]
    · by_cases h2 : x > hi
      · rw [if_neg h1, if_pos h2, max_eq_left (not_lt.1 h1), min_eq_right h2.le]
      · rw [if_neg h1, if_neg h2, max_eq_left (not_lt.1 h1), min_eq_left (not_lt.1 h2)]
  have hmc : Measurable fun x : ℝ => min (max x lo) hi := by fun_prop
  have hatom : ∀ c : ℝ, ∀ᵐ u ∂ν, loc t + scale t * z u ≠ c := fun c => by
    have h0 : law (loc t) (scale t) {c} = 0 := hna _ _ c
    rw [hlaw _ _ hpos, Measure.map_apply (by fun_prop) (measurableSet_singleton c)] at h0
    exact measure_eq_zero_iff_ae_notMem.1 h0
  have hder : ∀ u, Tracks (fun s => loc s + scale s * z u) (d u) t := fun u =>
    ⟨hv u, by rw [hd]; exact (hl.deriv t).add ((hs.deriv t).mul_const (z u))⟩
  refine pathwise (x := fun s u => min (max (loc s + scale s * z u) lo) hi)
    (B := fun u => M1 + M2 * |z u| + (|lo| + |hi|)) (S := Metric.ball t 1)
    (fun s => by fun_prop) ?_ (Metric.ball_mem_nhds t one_pos) ?_ ?_ ?_ ?_ ?_ hf
  · have : ∀ᶠ s in 𝓝 t, 0 < scale s := (hs.deriv t).continuousAt.eventually (lt_mem_nhds hpos)
    filter_upwards [this] with s hs
    rw [hlaw _ _ hs, hclip, Measure.map_map hmc (by fun_prop)]
    rfl
  · refine Integrable.mono' ((integrable_const (2 * (M1 + (|lo| + |hi|)) ^ 2)).add (hz2.const_mul (2 * M2 ^ 2)))
      (by fun_prop : Measurable fun u => (M1 + M2 * |z u| + (|lo| + |hi|)) ^ 2).aestronglyMeasurable (.of_forall fun u => ?_)
    rw [Real.norm_eq_abs, abs_of_nonneg (sq_nonneg _), Pi.add_apply]
    nlinarith [sq_nonneg (M1 + (|lo| + |hi|) - M2 * |z u|), sq_abs (z u)]
  · exact (by fun_prop : Measurable fun u => M1 + M2 * |z u| + (|lo| + |hi|)).aestronglyMeasurable
  · refine .of_forall fun u s hs => ⟨?_, fun r hr => ?_⟩
    · have h1 := (b1 s hs).1
      have h2 := (b2 s hs).1
      refine (clip_abs _ _ _).trans (add_le_add_left ?_ _)
      calc |loc s + scale s * z u| ≤ |loc s| + |scale s * z u| := abs_add_le _ _
        _ = |loc s| + |scale s| * |z u| := by rw [abs_mul]
        _ ≤ _ := by have := mul_le_mul_of_nonneg_right h2 (abs_nonneg (z u)); linarith
    · have h1 := (b1 s hs).2.2 r hr
      have h2 := (b2 s hs).2.2 r hr
      refine (clip_lip _ _ _ _).trans ?_
      have e : loc s + scale s * z u - (loc r + scale r * z u) = (loc s - loc r) + (scale s - scale r) * z u := by ring
      rw [e]
      have hb : 0 ≤ (|lo| + |hi|) * |s - r| := by positivity
      calc |(loc s - loc r) + (scale s - scale r) * z u| ≤ |loc s - loc r| + |(scale s - scale r) * z u| := abs_add_le _ _
        _ = |loc s - loc r| + |scale s - scale r| * |z u| := by rw [abs_mul]
        _ ≤ _ := by have := mul_le_mul_of_nonneg_right h2 (abs_nonneg (z u)); nlinarith
  · intro u
    show min (max (d u).val lo) hi = _
    rw [hv]
  · filter_upwards [hatom lo, hatom hi] with u h1 h2
    exact ((hder u).clip tie hlh h1 h2).deriv

section clipped

variable {loc loc' scale scale' : ℝ → ℝ} (hl : Curve loc loc') (hs : Curve scale scale') {t : ℝ} (hpos : 0 < scale t)
  (tie : ℝ) {lo hi : ℝ} (hlh : lo ≤ hi) {f : ℝ → ℝ} (hf : TestFn f)
include hl hs hpos hlh hf

/-- ClippedNormal. -/
theorem C69_clipped_normal :
    PathwiseUnbiased (fun s => (lawOf (Normal.prob ⟨loc s, scale s⟩)).map (clip lo hi)) (lawOf (gaussianPDFReal 0 1))
      (fun rnd => Dual.clippedSample tie lo hi (Dual.normalSample ⟨loc t, loc' t⟩ ⟨scale t, scale' t⟩ rnd)) f t := by
  have := lawOf_prob (gauss_pdf 0 one_ne_zero)
  refine locScale_clip (law := fun a b => lawOf (Normal.prob ⟨a, b⟩)) measurable_id normal_noise hl hs hpos normal_map
    (fun _ _ => noAtoms_lawOf _) (fun u => ?_) (fun u => ?_) tie hlh hf
  · show scale t * u + loc t = loc t + scale t * u; ring
  · show scale' t * u + scale t * 0 + loc' t = loc' t + scale' t * u; ring

/-- ClippedLogistic. -/
theorem C69_clipped_logistic :
    PathwiseUnbiased (fun s => (lawOf (Logistic.prob ⟨loc s, scale s⟩)).map (clip lo hi)) (lawOf unitNoise)
      (fun u => Dual.clippedSample tie lo hi (Dual.logisticSample ⟨loc t, loc' t⟩ ⟨scale t, scale' t⟩ u)) f t := by
  have := lawOf_prob unitNoise_pdf
  refine locScale_clip (law := fun a b => lawOf (Logistic.prob ⟨a, b⟩)) (by fun_prop) logistic_noise hl hs hpos logistic_map
    (fun _ _ => noAtoms_lawOf _) (fun u => ?_) (fun u => ?_) tie hlh hf
  · show scale t * (Real.log u - Real.log (1 + -u)) + loc t = _; ring
  · show scale' t * (Real.log u - Real.log (1 + -u)) + scale t * 0 + loc' t = _; ring

omit hl hs hpos hlh hf in
/-- The value is the clipped sample. -/
theorem C69_clipped_values (c : Clipped) (raw : Dual) :
    (Dual.clippedSample tie c.minimum c.maximum raw).val = c.sample raw.val := rfl

end clipped

/-! ### Quantized: no gradient -/

/-- A quantized sample passes no gradient to the base distribution's parameters (its value is the quantized sample). -/
theorem C69_quantized (q : Quantized) (raw : Dual) :
    (Dual.quantizedSample q.low q.high raw).val = q.sample raw.val ∧ (Dual.quantizedSample q.low q.high raw).tan = 0 := by
  have hw : ∀ (p : Prop) [Decidable p] (a : ℝ) (d : Dual), (Dual.where_ (decide p) (.const a) d).val = (if p then a else d.val) ∧
      (d.tan = 0 → (Dual.where_ (decide p) (.const a) d).tan = 0) := fun p _ a d => by
    by_cases hp : p <;> simp [Dual.where_, hp, Dual.const]
  obtain ⟨base, low, high, eps⟩ := q
  unfold Quantized.sample Dual.quantizedSample
  classical
  have h0 : (Dual.ceil raw).val = (⌈raw.val⌉ : ℤ) ∧ (Dual.ceil raw).tan = 0 := ⟨rfl, rfl⟩
  generalize Dual.ceil raw = c at *
  obtain ⟨cv, ct⟩ := c
  obtain ⟨rfl, rfl⟩ := h0
  cases low with
  | none =>
    cases high with
    | none => exact ⟨rfl, rfl⟩
    | some h =>
      have h1 := hw (((⌈raw.val⌉ : ℤ) : ℝ) > h) h ⟨(⌈raw.val⌉ : ℤ), 0⟩
      exact ⟨by convert h1.1, by convert h1.2 rfl⟩
  | some l =>
    have h1 := (hw (((⌈raw.val⌉ : ℤ) : ℝ) < l) l ⟨(⌈raw.val⌉ : ℤ), 0⟩).1
    have h2 := (hw (((⌈raw.val⌉ : ℤ) : ℝ) < l) l ⟨(⌈raw.val⌉ : ℤ), 0⟩).2 rfl
    cases high with
    | none => exact ⟨by convert h1, by convert h2⟩
    | some h =>
      refine ⟨?_, ?_⟩
      · refine (hw _ _ _).1.trans ?_
        simp only [h1]
      · refine (hw _ _ _).2 ?_
        convert h2

/-! ### Mixtures -/

theorem mixed_prod {n : ℕ} {V : Type} [MeasurableSpace V] (w : Fin n → ℝ) (μ : Measure V) [IsProbabilityMeasure μ] :
    (mixed w fun k => Measure.dirac k).prod μ = mixed w fun k => μ.map (Prod.mk k) := by
  have : IsFiniteMeasure (mixed w fun k : Fin n => Measure.dirac k) := ⟨by
    simp only [mixed, Measure.finsetSum_apply, Measure.smul_apply, smul_eq_mul]
    exact ENNReal.sum_lt_top.2 fun k _ => by simp⟩
  refine Measure.prod_eq fun A B hA hB => ?_
  simp only [mixed, Measure.finsetSum_apply, Measure.smul_apply, smul_eq_mul, Finset.sum_mul]
  refine Finset.sum_congr rfl fun k _ => ?_
  rw [Measure.map_apply measurable_prodMk_left (hA.prod hB), Measure.dirac_apply' _ hA, mul_assoc]
  congr 1
  by_cases hk : k ∈ A
  · rw [Set.mk_preimage_prod_right hk]; simp [hk]
  · rw [Set.mk_preimage_prod_right_eq_empty hk]; simp [hk]

theorem mixture_sample {n : ℕ} (k : Fin n) (x : Fin n → Dual) : Dual.mixtureSameFamilySample k x = x k := by
  ext
  · show ∑ i, (x i).val * (if i = k then 1 else 0) = _
    simp
  · show ∑ i, ((x i).tan * (if i = k then 1 else 0) + (x i).val * 0) = _
    simp

/-- MixtureSameFamily, moving both the weights and the components.  What automatic differentiation reports is the derivative
of the expectation minus the part that comes from the weights: the drawn component number carries no gradient. -/
theorem C69_mixture_same_family {n : ℕ} {U : Type} [MeasurableSpace U] {law : Fin n → ℝ → Measure ℝ} {ν : Fin n → Measure U}
    [∀ k, IsProbabilityMeasure (ν k)] {x : Fin n → U → Dual} {f : ℝ → ℝ} {t : ℝ}
    (hx : ∀ k, PathwiseUnbiased (law k) (ν k) (x k) f t) {w : Fin n → ℝ → ℝ} {w' : Fin n → ℝ} (hw0 : ∀ k s, 0 ≤ w k s)
    (hw : ∀ k, HasDerivAt (w k) (w' k) t) :
    HasDerivAt (fun s => ∫ y, f y ∂mixed (fun k => w k s) fun k => law k s)
      ((∫ u : Fin n × (Fin n → U),
          deriv f (Dual.mixtureSameFamilySample u.1 fun k => x k (u.2 k)).val *
            (Dual.mixtureSameFamilySample u.1 fun k => x k (u.2 k)).tan
          ∂(mixed (fun k => w k t) fun k => Measure.dirac k).prod (Measure.pi ν)) +
        ∑ k, w' k * ∫ y, f y ∂law k t) t ∧
    Integrable (fun u : Fin n × (Fin n → U) =>
          deriv f (Dual.mixtureSameFamilySample u.1 fun k => x k (u.2 k)).val *
            (Dual.mixtureSameFamilySample u.1 fun k => x k (u.2 k)).tan)
          ((mixed (fun k => w k t) fun k => Measure.dirac k).prod (Measure.pi ν)) := by
  simp only [mixture_sample]
  set g : Fin n → U → ℝ := fun k u => deriv f (x k u).val * (x k u).tan with hg
  have hev : ∀ k, (Measure.pi ν).map (fun us => us k) = ν k := fun k => (measurePreserving_eval ν k).map_eq
  have hgi : ∀ k, Integrable (fun us : Fin n → U => g k (us k)) (Measure.pi ν) := fun k => by
    have h := (hx k).2.1
    rw [← hev k] at h
    exact (integrable_map_measure h.aestronglyMeasurable (measurable_pi_apply k).aemeasurable).1 h
  have hge : ∀ k, ∫ us, g k (us k) ∂Measure.pi ν = ∫ u, g k u ∂ν k := fun k => by
    have h := (hx k).2.1.aestronglyMeasurable
    conv_rhs => rw [← hev k]
    rw [← hev k] at h
    rw [integral_map (measurable_pi_apply k).aemeasurable h]
  have hemb : ∀ k : Fin n, MeasurableEmbedding (Prod.mk (β := Fin n → U) k) := fun k =>
    measurableEmbedding_prodMk_left k
  have hint : ∀ k, Integrable (fun u : Fin n × (Fin n → U) => g u.1 (u.2 u.1)) ((Measure.pi ν).map (Prod.mk k)) := fun k =>
    (hemb k).integrable_map_iff.2 (hgi k)
  refine ⟨?_, ?_⟩
  · have e : ∀ᶠ s in 𝓝 t, ∫ y, f y ∂mixed (fun k => w k s) (fun k => law k s) = ∑ k, w k s * ∫ y, f y ∂law k s := by
      have hall : ∀ᶠ s in 𝓝 t, ∀ k, Integrable f (law k s) := Filter.eventually_all.2 fun k => (hx k).1
      filter_upwards [hall] with s hs
      unfold mixed
      rw [integral_finsetSum_measure fun k _ => (hs k).smul_measure ENNReal.ofReal_ne_top]
      refine Finset.sum_congr rfl fun k _ => ?_
      rw [integral_smul_measure, ENNReal.toReal_ofReal (hw0 k s), smul_eq_mul]
    refine HasDerivAt.congr_of_eventuallyEq ?_ e
    refine (HasDerivAt.fun_sum fun k _ => (hw k).mul (hx k).2.2).congr_deriv ?_
    rw [mixed_prod]
    unfold mixed
    rw [integral_finsetSum_measure fun k _ => (hint k).smul_measure ENNReal.ofReal_ne_top, ← Finset.sum_add_distrib]
    refine Finset.sum_congr rfl fun k _ => ?_
    rw [integral_smul_measure, ENNReal.toReal_ofReal (hw0 k t), smul_eq_mul, (hemb k).integral_map, hge k]
    ring
  · rw [mixed_prod]
    unfold mixed
    exact integrable_finsetSum_measure.2 fun k _ => (hint k).smul_measure ENNReal.ofReal_ne_top

/-- MixtureOfTwo, the same: the gradient with respect to the mixing probability is lost. -/
theorem C69_mixture_of_two {U V : Type} [MeasurableSpace U] [MeasurableSpace V] {lawA lawB : ℝ → Measure ℝ} {νa : Measure U}
    {νb : Measure V} [IsProbabilityMeasure νa] [IsProbabilityMeasure νb] {xa : U → Dual} {xb : V → Dual} {f : ℝ → ℝ} {t : ℝ}
    (ha : PathwiseUnbiased lawA νa xa f t) (hb : PathwiseUnbiased lawB νb xb f t) {p : ℝ → ℝ} {p' : ℝ}
    (hp01 : ∀ s, 0 ≤ p s ∧ p s ≤ 1) (hp : HasDerivAt p p' t) :
    HasDerivAt (fun s => ∫ y, f y ∂(ENNReal.ofReal (p s) • lawA s + ENNReal.ofReal (1 - p s) • lawB s))
      ((∫ u : Bool × U × V,
          deriv f (Dual.mixtureOfTwoSample u.1 (xa u.2.1) (xb u.2.2)).val *
            (Dual.mixtureOfTwoSample u.1 (xa u.2.1) (xb u.2.2)).tan ∂(flag (p t)).prod (νa.prod νb)) +
        p' * (∫ y, f y ∂lawA t - ∫ y, f y ∂lawB t)) t ∧
    Integrable (fun u : Bool × U × V =>
          deriv f (Dual.mixtureOfTwoSample u.1 (xa u.2.1) (xb u.2.2)).val *
            (Dual.mixtureOfTwoSample u.1 (xa u.2.1) (xb u.2.2)).tan) ((flag (p t)).prod (νa.prod νb)) := by
  set ga : U → ℝ := fun u => deriv f (xa u).val * (xa u).tan with hga
  set gb : V → ℝ := fun u => deriv f (xb u).val * (xb u).tan with hgb
  have hfn : (fun u : Bool × U × V => deriv f (Dual.mixtureOfTwoSample u.1 (xa u.2.1) (xb u.2.2)).val *
      (Dual.mixtureOfTwoSample u.1 (xa u.2.1) (xb u.2.2)).tan) = fun u => if u.1 then ga u.2.1 else gb u.2.2 := by
    funext u
    obtain ⟨m, a, b⟩ := u
    cases m <;> rfl
  rw [hfn]
  have hfin : IsFiniteMeasure (flag (p t)) := ⟨by
    simp [flag, ENNReal.add_lt_top]⟩
  have hprod : (flag (p t)).prod (νa.prod νb) = ENNReal.ofReal (p t) • (νa.prod νb).map (Prod.mk true) +
      ENNReal.ofReal (1 - p t) • (νa.prod νb).map (Prod.mk false) := by
    refine Measure.prod_eq fun A B hA hB => ?_
    simp only [flag, Measure.add_apply, Measure.smul_apply, smul_eq_mul, add_mul]
    rw [Measure.map_apply measurable_prodMk_left (hA.prod hB), Measure.map_apply measurable_prodMk_left (hA.prod hB),
      Measure.dirac_apply' _ hA, Measure.dirac_apply' _ hA, mul_assoc, mul_assoc]
    congr 2
    · by_cases hk : true ∈ A
      · rw [Set.mk_preimage_prod_right hk]; simp [hk]
      · rw [Set.mk_preimage_prod_right_eq_empty hk]; simp [hk]
    · by_cases hk : false ∈ A
      · rw [Set.mk_preimage_prod_right hk]; simp [hk]
      · rw [Set.mk_preimage_prod_right_eq_empty hk]; simp [hk]
  have hemb : ∀ k : Bool, MeasurableEmbedding (Prod.mk (β := U × V) k) := fun k => measurableEmbedding_prodMk_left k
  have ia : Integrable (fun u : Bool × U × V => if u.1 then ga u.2.1 else gb u.2.2) ((νa.prod νb).map (Prod.mk true)) :=
    (hemb true).integrable_map_iff.2 (ha.2.1.comp_fst νb)
  have ib : Integrable (fun u : Bool × U × V => if u.1 then ga u.2.1 else gb u.2.2) ((νa.prod νb).map (Prod.mk false)) :=
    (hemb false).integrable_map_iff.2 (hb.2.1.comp_snd νa)
  refine ⟨?_, ?_⟩
  · have e : ∀ᶠ s in 𝓝 t, ∫ y, f y ∂(ENNReal.ofReal (p s) • lawA s + ENNReal.ofReal (1 - p s) • lawB s) =
        p s * ∫ y, f y ∂lawA s + (1 - p s) * ∫ y, f y ∂lawB s := by
      filter_upwards [ha.1, hb.1] with s h1 h2
      rw [integral_add_measure (h1.smul_measure ENNReal.ofReal_ne_top) (h2.smul_measure ENNReal.ofReal_ne_top),
        integral_smul_measure, integral_smul_measure, ENNReal.toReal_ofReal (hp01 s).1,
        ENNReal.toReal_ofReal (by linarith [(hp01 s).2]), smul_eq_mul, smul_eq_mul]
    refine HasDerivAt.congr_of_eventuallyEq ?_ e
    refine ((hp.mul ha.2.2).add ((hp.const_sub 1).mul hb.2.2)).congr_deriv ?_
    rw [hprod, integral_add_measure (ia.smul_measure ENNReal.ofReal_ne_top) (ib.smul_measure ENNReal.ofReal_ne_top),
      integral_smul_measure, integral_smul_measure, ENNReal.toReal_ofReal (hp01 t).1,
      ENNReal.toReal_ofReal (by linarith [(hp01 t).2]), (hemb true).integral_map, (hemb false).integral_map]
    have e1 : ∫ a : U × V, ga a.1 ∂νa.prod νb = ∫ u, ga u ∂νa := by
      rw [integral_fun_fst]; simp
    have e2 : ∫ a : U × V, gb a.2 ∂νa.prod νb = ∫ u, gb u ∂νb := by
      rw [integral_fun_snd]; simp
    simp only [if_true, Bool.false_eq_true, if_false, e1, e2, smul_eq_mul]
    ring
  · rw [hprod]
    exact (ia.smul_measure ENNReal.ofReal_ne_top).add_measure (ib.smul_measure ENNReal.ofReal_ne_top)

/-- So with weights that do not depend on the parameter the gradient is unbiased … -/
theorem C69_mixture_components {n : ℕ} {U : Type} [MeasurableSpace U] {law : Fin n → ℝ → Measure ℝ} {ν : Fin n → Measure U}
    [∀ k, IsProbabilityMeasure (ν k)] {x : Fin n → U → Dual} {f : ℝ → ℝ} {t : ℝ}
    (hx : ∀ k, PathwiseUnbiased (law k) (ν k) (x k) f t) {w : Fin n → ℝ} (hw0 : ∀ k, 0 ≤ w k) :
    PathwiseUnbiased (fun s => mixed w fun k => law k s) ((mixed w fun k => Measure.dirac k).prod (Measure.pi ν))
      (fun u => Dual.mixtureSameFamilySample u.1 fun k => x k (u.2 k)) f t := by
  have h := C69_mixture_same_family hx (w := fun k _ => w k) (w' := fun _ => 0) (fun k _ => hw0 k)
    (fun k => hasDerivAt_const t _)
  refine ⟨?_, h.2, h.1.congr_deriv (by simp)⟩
  have hall : ∀ᶠ s in 𝓝 t, ∀ k, Integrable f (law k s) := Filter.eventually_all.2 fun k => (hx k).1
  filter_upwards [hall] with s hs
  exact integrable_finsetSum_measure.2 fun k _ => (hs k).smul_measure ENNReal.ofReal_ne_top

theorem testFn_id : TestFn fun x => x :=
  ⟨differentiable_id, 1, fun x => by simp⟩

theorem curve_const (c : ℝ) : Curve (fun _ => c) (fun _ => 0) := ⟨fun t => hasDerivAt_const t c, continuous_const⟩

theorem normal_mean {a b : ℝ} (hb : 0 < b) : ∫ y, y ∂lawOf (Normal.prob ⟨a, b⟩) = a := by
  have hp := (C28_normal_law ⟨a, b⟩ hb).1
  unfold lawOf
  rw [integral_withDensity_eq_integral_toReal_smul₀ hp.integrable.aemeasurable.ennreal_ofReal
    (.of_forall fun x => ENNReal.ofReal_lt_top)]
  have h := (C28_normal_moments ⟨a, b⟩ hb).1.2
  refine Eq.trans ?_ h
  refine integral_congr_ae (.of_forall fun x => ?_)
  simp only [smul_eq_mul, ENNReal.toReal_ofReal (hp.nonneg x)]

/-- … but a gradient with respect to the mixing probability is wrong: for two normal components with different means and a
mixing probability that depends on the parameter, already the gradient of the mean is biased (it is always 0). -/
theorem C69_mixture_weights_biased (a b : Normal) (ha : 0 < a.scale) (hb : 0 < b.scale) (hne : a.loc ≠ b.loc) {p : ℝ → ℝ}
    {p' t : ℝ} (hp01 : ∀ s, 0 ≤ p s ∧ p s ≤ 1) (hp : HasDerivAt p p' t) (hp' : p' ≠ 0) :
    ¬ PathwiseUnbiased (fun s => ENNReal.ofReal (p s) • lawOf a.prob + ENNReal.ofReal (1 - p s) • lawOf b.prob)
      ((flag (p t)).prod ((lawOf (gaussianPDFReal 0 1)).prod (lawOf (gaussianPDFReal 0 1))))
      (fun u => Dual.mixtureOfTwoSample u.1 (Dual.normalSample ⟨a.loc, 0⟩ ⟨a.scale, 0⟩ u.2.1)
        (Dual.normalSample ⟨b.loc, 0⟩ ⟨b.scale, 0⟩ u.2.2)) (fun x => x) t := by
  intro h
  have := lawOf_prob (gauss_pdf 0 one_ne_zero)
  have h1 := C69_normal (curve_const a.loc) (curve_const a.scale) testFn_id (t := t) ha
  have h2 := C69_normal (curve_const b.loc) (curve_const b.scale) testFn_id (t := t) hb
  have k := (C69_mixture_of_two h1 h2 hp01 hp).1
  have e := k.unique h.2.2
  have m1 : ∫ y, y ∂lawOf (Normal.prob ⟨a.loc, a.scale⟩) = a.loc := normal_mean ha
  have m2 : ∫ y, y ∂lawOf (Normal.prob ⟨b.loc, b.scale⟩) = b.loc := normal_mean hb
  rw [m1, m2] at e
  have : p' * (a.loc - b.loc) = 0 := by linarith
  rcases mul_eq_zero.1 this with h | h
  · exact hp' h
  · exact hne (by linarith)

/-! ### Discrete distributions: the score function -/

/-- Categorical: averaging `f(k) * grad(log_prob(k))` over the draws `k` gives the gradient of the expectation of `f` (the
draw itself carries no gradient).  The pullbacks are the ones of C66; logits may be `-inf`. -/
theorem C69_score_categorical {n : ℕ} {l : Fin n → XR} (h : LegalLogits l) (f : Fin n → ℝ) :
    ∃ g : Fin n → Fin n → ℝ, (∀ (k : Fin n) c i, (Grad.catLogProbL (.fin (k : ℕ)) l).2 (.fin c) i = .fin (c * g k i)) ∧
      ∀ v, HasDerivAt (fun t => ∑ k, softP (along l v t) k * f k) (∑ i, (∑ k, softP l k * (f k * g k i)) * v i) 0 := by
  refine ⟨fun k i => (if i = k then 1 else 0) - softP l i, fun k c i => catLogProbL_pull h k c i, fun v => ?_⟩
  refine (HasDerivAt.fun_sum fun k _ => (softP_deriv h v k).mul_const (f k)).congr_deriv ?_
  have e : ∀ i, (∑ k, softP l k * (f k * ((if i = k then 1 else 0) - softP l i))) * v i =
      ∑ k, softP l k * f k * (((if i = k then 1 else 0) - softP l i) * v i) := fun i => by
    rw [Finset.sum_mul]; exact Finset.sum_congr rfl fun k _ => by ring
  simp only [e]
  rw [Finset.sum_comm]
  refine Finset.sum_congr rfl fun k _ => ?_
  rw [← Finset.mul_sum, sum_ind]
  ring

/-- Bernoulli, the same. -/
theorem C69_score_bernoulli (l : ℝ) (f : Bool → ℝ) :
    ∃ g : Bool → ℝ, (∀ v c, (Grad.bernLogProbL (.fin (bit v)) (.fin l)).2 (.fin c) = .fin (c * g v)) ∧
      HasDerivAt (fun x => ∑ v, bernProb v (sig x) * f v) (∑ v, bernProb v (sig l) * (f v * g v)) l := by
  have h := fun v => (C66_bernoulli_log_prob l v).2
  choose g hg hd using h
  refine ⟨g, hg, ?_⟩
  have hs : ∀ x, 0 < sig x ∧ sig x < 1 := fun x => by
    unfold sig
    have := Real.exp_pos (-x)
    exact ⟨by positivity, by rw [div_lt_one (by positivity)]; linarith⟩
  have hpos : ∀ v x, 0 < bernProb v (sig x) := fun v x => by
    cases v <;> simp [bernProb, hs x]
  refine (HasDerivAt.fun_sum fun v _ => ?_)
  have e := (hd v).exp
  have : (fun x => Real.exp (Real.log (bernProb v (sig x)))) = fun x => bernProb v (sig x) :=
    funext fun x => Real.exp_log (hpos v x)
  rw [this, Real.exp_log (hpos v l)] at e
  exact (e.mul_const (f v)).congr_deriv (by ring)

/-! ### CategoricalUniform -/

namespace CatUni

theorem curve_cont {g g' : ℝ → ℝ} (h : Curve g g') : Continuous g :=
  continuous_iff_continuousAt.2 fun s => (h.deriv s).continuousAt

theorem curve_div {a a' b b' : ℝ → ℝ} (ha : Curve a a') (hb : Curve b b') (h0 : ∀ s, b s ≠ 0) :
    Curve (fun s => a s / b s) (fun s => (a' s * b s - a s * b' s) / b s ^ 2) := by
  refine ⟨fun s => (ha.deriv s).div (hb.deriv s) (h0 s), ?_⟩
  have h1 := curve_cont ha
  have h2 := curve_cont hb
  have h3 := ha.cont
  have h4 := hb.cont
  have h5 : ∀ s, b s ^ 2 ≠ 0 := fun s => pow_ne_zero _ (h0 s)
  fun_prop (disch := assumption)

theorem curve_sum {n : ℕ} {a a' : Fin n → ℝ → ℝ} (h : ∀ i, Curve (a i) (a' i)) :
    Curve (fun s => ∑ i, a i s) (fun s => ∑ i, a' i s) :=
  ⟨fun s => HasDerivAt.fun_sum fun i _ => (h i).deriv s, continuous_finsetSum _ fun i _ => (h i).cont⟩

theorem curve_exp {a a' : ℝ → ℝ} (h : Curve a a') : Curve (fun s => Real.exp (a s)) (fun s => Real.exp (a s) * a' s) :=
  ⟨fun s => (h.deriv s).exp, (Real.continuous_exp.comp (curve_cont h)).mul h.cont⟩

/-- The distribution at parameter value `s`. -/
def at_ {K : ℕ} (low high : ℝ → ℝ) (lg : Fin K → ℝ → ℝ) (s : ℝ) : CatUniform K := ⟨low s, high s, fun k => .fin (lg k s)⟩

variable {K : ℕ} {low low' high high' : ℝ → ℝ} {lg lg' : Fin K → ℝ → ℝ}

theorem legal (hK : 0 < K) (s : ℝ) : LegalLogits (at_ low high lg s).logits :=
  ⟨fun i => .inr ⟨_, rfl⟩, ⟨0, hK⟩, _, rfl⟩

theorem pm_eq (s : ℝ) (k : Fin K) : (at_ low high lg s).pm k = Real.exp (lg k s) / ∑ j, Real.exp (lg j s) := rfl

theorem pm_pos (s : ℝ) (k : Fin K) : 0 < (at_ low high lg s).pm k := by
  rw [pm_eq]
  exact div_pos (Real.exp_pos _) (Finset.sum_pos (fun j _ => Real.exp_pos _) ⟨k, Finset.mem_univ k⟩)

theorem pm_curve (hlg : ∀ k, Curve (lg k) (lg' k)) (k : Fin K) : ∃ g, Curve (fun s => (at_ low high lg s).pm k) g :=
  ⟨_, curve_div (curve_exp (hlg k)) (curve_sum fun j => curve_exp (hlg j)) fun s =>
    (Finset.sum_pos (fun j _ => Real.exp_pos _) ⟨k, Finset.mem_univ k⟩).ne'⟩

theorem cumQ_eq (s : ℝ) (i : ℕ) :
    CatUniform.cumQ (at_ low high lg s) i = ∑ k : Fin K, if k.val < i then (at_ low high lg s).pm k else 0 := by
  unfold CatUniform.cumQ
  rw [Finset.sum_filter]

theorem cumQ_curve (hlg : ∀ k, Curve (lg k) (lg' k)) (i : ℕ) :
    ∃ g, Curve (fun s => CatUniform.cumQ (at_ low high lg s) i) g := by
  choose g hg using fun k => pm_curve (low := low) (high := high) hlg k
  simp only [cumQ_eq]
  refine ⟨_, curve_sum (a' := fun (k : Fin K) s => if k.val < i then g k s else 0) fun k => ?_⟩
  by_cases hk : k.val < i
  · simpa only [if_pos hk] using hg k
  · simpa only [if_neg hk] using curve_const 0

/-- The tangent is the derivative, away from the bin edges of the noise. -/
theorem tracks (hl : Curve low low') (hh : Curve high high') (hlg : ∀ k, Curve (lg k) (lg' k)) (hK : 0 < K) (tie t u : ℝ)
    (hu : ∀ i, u ≠ CatUniform.cumQ (at_ low high lg t) i) :
    Tracks (fun s => CatUniform.invR (at_ low high lg s) u)
      (Dual.catUniformSample tie ⟨low t, low' t⟩ ⟨high t, high' t⟩ (fun k => ⟨lg k t, lg' k t⟩) u) t := by
  have tl : Tracks low ⟨low t, low' t⟩ t := ⟨rfl, hl.deriv t⟩
  have th : Tracks high ⟨high t, high' t⟩ t := ⟨rfl, hh.deriv t⟩
  have tp : ∀ k, Tracks (fun s => (at_ low high lg s).pm k) (Dual.softmax (fun k => ⟨lg k t, lg' k t⟩) k) t :=
    fun k => Tracks.softmax (x := lg) (fun j => ⟨rfl, (hlg j).deriv t⟩) k
  have tq : ∀ i : ℕ, Tracks (fun s => CatUniform.cumQ (at_ low high lg s) i)
      (Dual.sum fun k : Fin K => if k.val < i then Dual.softmax (fun k => ⟨lg k t, lg' k t⟩) k else .const 0) t := fun i => by
    refine Tracks.congr (Tracks.sum (x := fun (k : Fin K) s => if k.val < i then (at_ low high lg s).pm k else 0) fun k => ?_)
      fun s => (cumQ_eq s i).symm
    by_cases hk : k.val < i
    · simpa only [if_pos hk] using tp k
    · simpa only [if_neg hk] using Tracks.const 0 t
  have tlin : ∀ i : ℕ, Tracks (fun s => (at_ low high lg s).limits i)
      (Dual.linspace K ⟨low t, low' t⟩ ⟨high t, high' t⟩ i) t := fun i =>
    (tl.mul (Tracks.const _ t)).add (th.mul (Tracks.const _ t))
  have tqd : ∀ k : Fin K, Tracks (fun s => (at_ low high lg s).pm k) _ t := fun k =>
    ((tq (k + 1)).sub (tq k)).congr fun s => by
      unfold CatUniform.cumQ; rw [CatUniform.cumQ_succ]; ring
  have tdd : ∀ k : Fin K, Tracks (fun s => (at_ low high lg s).wd) _ t := fun k =>
    ((tlin (k + 1)).sub (tlin k)).congr fun s => CatUniform.dom_diff _ (legal hK s) k
  refine tl.add (Tracks.sum fun k => ((tdd k).div (tqd k) (pm_pos t k).ne').mul
    (Tracks.minimum tie (tqd k) (Tracks.relu ((Tracks.const u t).sub (tq k)) (sub_ne_zero.2 (hu k))) ?_))
  intro e
  rcases max_choice (u - CatUniform.cumQ (at_ low high lg t) k) 0 with h | h <;> rw [h] at e
  · refine hu (k + 1) ?_
    have : CatUniform.cumQ (at_ low high lg t) (k + 1) = CatUniform.cumQ (at_ low high lg t) k + (at_ low high lg t).pm k := by
      unfold CatUniform.cumQ; rw [CatUniform.cumQ_succ]
    rw [this]; linarith
  · exact (pm_pos t k).ne' e

/-- The value, also at the edges. -/
theorem value (hK : 0 < K) (tie : ℝ) (a b : Dual) (l : Fin K → Dual) (u : ℝ) :
    (Dual.catUniformSample tie a b l u).val = CatUniform.invR ⟨a.val, b.val, fun k => .fin (l k).val⟩ u := by
  have hL : LegalLogits (⟨a.val, b.val, fun k => .fin (l k).val⟩ : CatUniform K).logits := ⟨fun i => .inr ⟨_, rfl⟩, ⟨0, hK⟩, _, rfl⟩
  have hq : ∀ i : ℕ, ∑ k : Fin K, (if k.val < i then Dual.softmax l k else .const 0).val =
      CatUniform.cumQ ⟨a.val, b.val, fun k => .fin (l k).val⟩ i := fun i => by
    unfold CatUniform.cumQ
    rw [Finset.sum_filter]
    refine Finset.sum_congr rfl fun k _ => ?_
    split_ifs <;> rfl
  have hd : ∀ k : Fin K, CatUniform.cumQ ⟨a.val, b.val, fun k => .fin (l k).val⟩ (k + 1) -
      CatUniform.cumQ ⟨a.val, b.val, fun k => .fin (l k).val⟩ k = CatUniform.pm ⟨a.val, b.val, fun k => .fin (l k).val⟩ k :=
    fun k => by unfold CatUniform.cumQ; rw [CatUniform.cumQ_succ]; ring
  have e : ∀ Q : ℕ → Dual, (∀ i, (Q i).val = CatUniform.cumQ ⟨a.val, b.val, fun k => .fin (l k).val⟩ i) →
      (a + Dual.sum fun k : Fin K => (Dual.linspace K a b (k + 1) - Dual.linspace K a b k) / (Q (k + 1) - Q k) *
        Dual.minimum tie (Q (k + 1) - Q k) (Dual.relu (Dual.const u - Q k))).val =
      a.val + ∑ k : Fin K, ((Dual.linspace K a b (k + 1)).val - (Dual.linspace K a b k).val) /
        CatUniform.pm ⟨a.val, b.val, fun k => .fin (l k).val⟩ k *
        min (CatUniform.pm ⟨a.val, b.val, fun k => .fin (l k).val⟩ k)
          (max (u - CatUniform.cumQ ⟨a.val, b.val, fun k => .fin (l k).val⟩ k) 0) := fun Q hQ => by
    have : (a + Dual.sum fun k : Fin K => (Dual.linspace K a b (k + 1) - Dual.linspace K a b k) / (Q (k + 1) - Q k) *
        Dual.minimum tie (Q (k + 1) - Q k) (Dual.relu (Dual.const u - Q k))).val =
      a.val + ∑ k : Fin K, ((Dual.linspace K a b (k + 1)).val - (Dual.linspace K a b k).val) / ((Q (k + 1)).val - (Q k).val) *
        min ((Q (k + 1)).val - (Q k).val) (max (u - (Q k).val) 0) := rfl
    rw [this]
    simp only [hQ, hd]
  refine (e (fun i : ℕ => Dual.sum fun k : Fin K => if k.val < i then Dual.softmax l k else .const 0) hq).trans ?_
  unfold CatUniform.invR
  congr 1
  refine Finset.sum_congr rfl fun k _ => ?_
  rw [← CatUniform.dom_diff _ hL k]
  rfl

/-- The sampler as clamped linear functions of the noise. -/
theorem invR_clamp (s u : ℝ) : CatUniform.invR (at_ low high lg s) u = low s + ∑ k, (at_ low high lg s).wd *
    min (max (1 / (at_ low high lg s).pm k * u - CatUniform.cumQ (at_ low high lg s) k / (at_ low high lg s).pm k) 0) 1 := by
  unfold CatUniform.invR
  congr 1
  refine Finset.sum_congr rfl fun k _ => ?_
  have hp := pm_pos (low := low) (high := high) (lg := lg) s k
  generalize CatUniform.cumQ (at_ low high lg s) k = Q
  generalize (at_ low high lg s).pm k = p at *
  have e : 1 / p * u - Q / p = (u - Q) / p := by field_simp
  rw [e, div_mul_eq_mul_div, mul_div_assoc]
  congr 1
  rw [min_comm, ← min_div_div_right hp.le, ← max_div_div_right hp.le, zero_div, div_self hp.ne']

end CatUni

/-- The value is the sample of C35. -/
theorem C69_categorical_uniform_value {K : ℕ} (hK : 0 < K) (tie : ℝ) (a b : Dual) (l : Fin K → Dual) (u : ℝ) :
    CatUniform.sample ⟨a.val, b.val, fun k => .fin (l k).val⟩ u = .fin (Dual.catUniformSample tie a b l u).val := by
  rw [CatUni.value hK tie a b l u]
  exact CatUniform.inverseCdf_real _ ⟨fun i => .inr ⟨_, rfl⟩, ⟨0, hK⟩, _, rfl⟩
    (fun k => CatUni.pm_pos (low := fun _ => a.val) (high := fun _ => b.val) (lg := fun k _ => (l k).val) 0 k) u

open CatUni in
/-- CategoricalUniform, moving both ends and all logits. -/
theorem C69_categorical_uniform {K : ℕ} (hK : 0 < K) {low low' high high' : ℝ → ℝ} {lg lg' : Fin K → ℝ → ℝ}
    (hl : Curve low low') (hh : Curve high high') (hlg : ∀ k, Curve (lg k) (lg' k)) {t : ℝ} (hlt : low t < high t) (tie : ℝ)
    {f : ℝ → ℝ} (hf : TestFn f) :
    PathwiseUnbiased (fun s => lawOf fun x => weight (CatUniform.logProb ⟨low s, high s, fun k => .fin (lg k s)⟩ x))
      (lawOf unitNoise)
      (fun u => Dual.catUniformSample tie ⟨low t, low' t⟩ ⟨high t, high' t⟩ (fun k => ⟨lg k t, lg' k t⟩) u) f t := by
  have := lawOf_prob unitNoise_pdf
  have hw : Curve (fun s => (at_ low high lg s).wd) (fun s => (high' s - low' s) / K) :=
    ⟨fun s => ((hh.deriv s).sub (hl.deriv s)).div_const _, (hh.cont.sub hl.cont).div_const _⟩
  choose p' hp' using fun k => pm_curve (low := low) (high := high) hlg k
  choose q' hq' using fun i => cumQ_curve (low := low) (high := high) hlg i
  have hne : ∀ k s, (at_ low high lg s).pm k ≠ 0 := fun k s => (pm_pos s k).ne'
  obtain ⟨M0, m0, b0⟩ := curve_bound hl t
  obtain ⟨Mw, mw, bw⟩ := curve_bound hw t
  choose Ma ma ba using fun k => curve_bound (curve_div (curve_const 1) (hp' k) (hne k)) t
  choose Mb mb bb using fun k : Fin K => curve_bound (curve_div (hq' k) (hp' k) (hne k)) t
  have hmeas : ∀ s, Measurable fun u => CatUniform.invR (at_ low high lg s) u := fun s => by
    unfold CatUniform.invR; fun_prop
  have hb2 : ∀ k, 0 ≤ Ma k := ma
  have hcl : ∀ h : ℝ, 0 ≤ min (max h 0) 1 ∧ min (max h 0) 1 ≤ 1 := fun h =>
    ⟨le_min (le_max_right _ _) zero_le_one, min_le_right _ _⟩
  refine pathwise (x := fun s u => CatUniform.invR (at_ low high lg s) u)
    (B := fun u => (M0 + ∑ k : Fin K, (Mw + Mw * Mb k)) + (∑ k : Fin K, Mw * Ma k) * |u|) (S := Metric.ball t 1)
    hmeas ?_ (Metric.ball_mem_nhds t one_pos) ?_ ?_ ?_ ?_ ?_ hf
  · filter_upwards [(hl.deriv t).continuousAt.eventually_lt (hh.deriv t).continuousAt hlt] with s hs
    have hL := legal (low := low) (high := high) (lg := lg) hK s
    obtain ⟨T, F, hT, hF, hS⟩ := C35_sample (at_ low high lg s) hL hs (pm_pos s)
    have hTe : T = fun u => CatUniform.invR (at_ low high lg s) u := by
      funext u
      have h1 := hT u
      rw [CatUniform.sample, CatUniform.inverseCdf_real _ hL (pm_pos s)] at h1
      exact (XR.fin.inj h1).symm
    rw [hTe] at hS
    exact (map_lawOf unitNoise_pdf (C35_moments (at_ low high lg s) hL hs).1 hF hS (hmeas s)).symm
  · generalize (M0 + ∑ k : Fin K, (Mw + Mw * Mb k)) = A
    generalize (∑ k : Fin K, Mw * Ma k) = C
    refine Integrable.mono' ((integrable_const (2 * A ^ 2)).add (uniform_noise.const_mul (2 * C ^ 2)))
      (by fun_prop : Measurable fun u : ℝ => (A + C * |u|) ^ 2).aestronglyMeasurable (.of_forall fun u => ?_)
    rw [Real.norm_eq_abs, abs_of_nonneg (sq_nonneg _), Pi.add_apply]
    nlinarith [sq_nonneg (A - C * |u|), sq_abs u]
  · exact (by fun_prop : Measurable fun u : ℝ => (M0 + ∑ k : Fin K, (Mw + Mw * Mb k)) + (∑ k : Fin K, Mw * Ma k) * |u|
      ).aestronglyMeasurable
  · refine .of_forall fun u s hs => ⟨?_, fun r hr => ?_⟩
    · rw [invR_clamp]
      refine (abs_add_le _ _).trans ?_
      rw [add_assoc]
      refine add_le_add (b0 s hs).1 ((Finset.abs_sum_le_sum_abs _ _).trans ?_)
      rw [Finset.sum_mul, ← Finset.sum_add_distrib]
      refine Finset.sum_le_sum fun k _ => ?_
      rw [abs_mul, abs_of_nonneg (hcl _).1]
      have h1 : 0 ≤ Mw * Mb k := mul_nonneg mw (mb k)
      have h2 : 0 ≤ Mw * Ma k * |u| := mul_nonneg (mul_nonneg mw (ma k)) (abs_nonneg u)
      have h3 := mul_le_mul (bw s hs).1 (hcl (1 / (at_ low high lg s).pm k * u -
        CatUniform.cumQ (at_ low high lg s) k / (at_ low high lg s).pm k)).2 (hcl _).1 mw
      linarith
    · rw [invR_clamp, invR_clamp, add_sub_add_comm, ← Finset.sum_sub_distrib]
      refine (abs_add_le _ _).trans ?_
      rw [add_assoc, add_mul]
      refine add_le_add ((b0 s hs).2.2 r hr) ((Finset.abs_sum_le_sum_abs _ _).trans ?_)
      rw [Finset.sum_mul, ← Finset.sum_add_distrib, Finset.sum_mul]
      refine Finset.sum_le_sum fun k _ => ?_
      have ea := (ba k s hs).2.2 r hr
      have eb := (bb k s hs).2.2 r hr
      have ew := (bw s hs).2.2 r hr
      have ewr := (bw r hr).1
      generalize (at_ low high lg s).wd = ws at *
      generalize (at_ low high lg r).wd = wr at *
      generalize (1 : ℝ) / (at_ low high lg s).pm k = as at *
      generalize (1 : ℝ) / (at_ low high lg r).pm k = ar at *
      generalize CatUniform.cumQ (at_ low high lg s) k / (at_ low high lg s).pm k = bs at *
      generalize CatUniform.cumQ (at_ low high lg r) k / (at_ low high lg r).pm k = br at *
      have h1 := clip_lip 0 1 (as * u - bs) (ar * u - br)
      have h2 : |as * u - bs - (ar * u - br)| ≤ (Ma k * |u| + Mb k) * |s - r| := by
        have : as * u - bs - (ar * u - br) = (as - ar) * u - (bs - br) := by ring
        rw [this]
        refine (abs_sub _ _).trans ?_
        rw [abs_mul]
        have := mul_le_mul_of_nonneg_right ea (abs_nonneg u)
        linarith
      have hc := hcl (as * u - bs)
      generalize min (max (as * u - bs) 0) 1 = cs at *
      generalize min (max (ar * u - br) 0) 1 = cr at *
      have e : ws * cs - wr * cr = (ws - wr) * cs + wr * (cs - cr) := by ring
      rw [e]
      refine (abs_add_le _ _).trans ?_
      rw [abs_mul, abs_mul, abs_of_nonneg hc.1]
      have h3 : |ws - wr| * cs ≤ Mw * |s - r| := by
        have := mul_le_mul_of_nonneg_left hc.2 (abs_nonneg (ws - wr)); linarith
      have h4 : |wr| * |cs - cr| ≤ Mw * ((Ma k * |u| + Mb k) * |s - r|) :=
        mul_le_mul ewr (h1.trans h2) (abs_nonneg _) mw
      linarith
  · intro u
    exact value hK tie ⟨low t, low' t⟩ ⟨high t, high' t⟩ (fun k => ⟨lg k t, lg' k t⟩) u
  · have hnull : ∀ᵐ u ∂lawOf unitNoise, ∀ i : ℕ, u ≠ CatUniform.cumQ (at_ low high lg t) i :=
      ae_all_iff.2 fun i => measure_eq_zero_iff_ae_notMem.1 (noAtoms_lawOf unitNoise _)
    filter_upwards [hnull] with u hu
    exact (tracks hl hh hlg hK tie t u hu).deriv

/-! ### The hypotheses can be met -/

theorem testFn_sq : TestFn fun x => x ^ 2 :=
  ⟨by fun_prop, 2, fun x => by simp [abs_mul]⟩

theorem curve_id : Curve (fun s => s) fun _ => 1 := ⟨fun t => hasDerivAt_id t, continuous_const⟩

/-- The second moment of `Normal(s, exp s)`, `Laplace`, `Gumbel`, `Logistic`, differentiated at 0. -/
example :
    PathwiseUnbiased (fun s => lawOf (Normal.prob ⟨s, Real.exp s⟩)) (lawOf (gaussianPDFReal 0 1))
      (fun rnd => Dual.normalSample ⟨0, 1⟩ ⟨Real.exp 0, Real.exp 0 * 1⟩ rnd) (fun x => x ^ 2) 0 :=
  C69_normal curve_id (CatUni.curve_exp curve_id) testFn_sq (Real.exp_pos _)

example :
    PathwiseUnbiased (fun s => lawOf (Uniform.prob ⟨s, Real.exp s⟩)) (lawOf unitNoise)
      (fun u => Dual.uniformSample ⟨0, 1⟩ ⟨Real.exp 0, Real.exp 0 * 1⟩ u) (fun x => x ^ 2) 0 :=
  C69_uniform curve_id (CatUni.curve_exp curve_id) testFn_sq (by simp)

/-- The derivative is the right number: for the mean of `Normal(s, 1)` the reported gradient is always 1. -/
example (rnd : ℝ) : deriv (fun x : ℝ => x) (Dual.normalSample ⟨0, 1⟩ ⟨1, 0⟩ rnd).val * (Dual.normalSample ⟨0, 1⟩ ⟨1, 0⟩ rnd).tan = 1 := by
  simp only [Dual.normalSample]
  show deriv _ _ * ((0 : ℝ) * rnd + 1 * 0 + 1) = 1
  simp

example :
    PathwiseUnbiased (fun s => (lawOf (Normal.prob ⟨s, 1⟩)).map (clip (-1) 1)) (lawOf (gaussianPDFReal 0 1))
      (fun rnd => Dual.clippedSample (1 / 2) (-1) 1 (Dual.normalSample ⟨0, 1⟩ ⟨1, 0⟩ rnd)) (fun x => x ^ 2) 0 :=
  C69_clipped_normal curve_id (curve_const 1) one_pos (1 / 2) (by norm_num) testFn_sq

/-- Three bins, moving the left end and one logit. -/
example :
    PathwiseUnbiased (fun s => lawOf fun x => weight (CatUniform.logProb ⟨s, 1, fun k : Fin 3 => .fin (![s, 0, 1] k)⟩ x))
      (lawOf unitNoise)
      (fun u => Dual.catUniformSample (1 / 2) ⟨0, 1⟩ ⟨1, 0⟩ (fun k : Fin 3 => ⟨![0, 0, 1] k, ![1, 0, 0] k⟩) u) (fun x => x ^ 2) 0 := by
  refine C69_categorical_uniform (lg := fun k s => ![s, 0, 1] k) (lg' := fun k _ => ![1, 0, 0] k) (by norm_num) curve_id
    (curve_const 1) (fun k => ?_) (by norm_num) (1 / 2) testFn_sq
  match k with
  | 0 => exact curve_id
  | 1 => exact curve_const 0
  | 2 => exact curve_const 1

example (m : ℝ) (hm : 0 < m) (d : ℝ → LogStddevNormal) (hd : ∀ s, LogStddevNormal.init s s (some m) = .ok (d s)) :
    PathwiseUnbiased (fun s => lawOf (d s).prob) (lawOf (gaussianPDFReal 0 1))
      (fun rnd => Dual.logStddevNormalSample (some m) ⟨0, 1⟩ ⟨0, 1⟩ rnd) (fun x => x ^ 2) 0 :=
  C69_log_stddev_normal curve_id curve_id testFn_sq (some m) d hd

example (m : ℝ) (hm : 0 < m) : ∃ d : ℝ → LogStddevNormal, ∀ s, LogStddevNormal.init s s (some m) = .ok (d s) := by
  have h : ∀ s : ℝ, ∃ d, LogStddevNormal.init s s (some m) = .ok d := fun s => by
    simp [LogStddevNormal.init, hm.not_ge]
  choose d hd using h
  exact ⟨d, hd⟩

/-- The mixture whose weight gradient is lost: `MixtureOfTwo(sigmoid(s), Normal(0,1), Normal(1,1))`. -/
example : ¬ PathwiseUnbiased (fun s => ENNReal.ofReal (sig s) • lawOf (Normal.prob ⟨0, 1⟩) +
        ENNReal.ofReal (1 - sig s) • lawOf (Normal.prob ⟨1, 1⟩))
      ((flag (sig 0)).prod ((lawOf (gaussianPDFReal 0 1)).prod (lawOf (gaussianPDFReal 0 1))))
      (fun u => Dual.mixtureOfTwoSample u.1 (Dual.normalSample ⟨0, 0⟩ ⟨1, 0⟩ u.2.1)
        (Dual.normalSample ⟨1, 0⟩ ⟨1, 0⟩ u.2.2)) (fun x => x) 0 := by
  have hs : ∀ x, 0 < sig x ∧ sig x < 1 := fun x => by
    unfold sig
    have := Real.exp_pos (-x)
    exact ⟨by positivity, by rw [div_lt_one (by positivity)]; linarith⟩
  have hd : HasDerivAt sig (1 / 4) 0 := by
    have h1 : HasDerivAt (fun x : ℝ => 1 + Real.exp (-x)) (-1) 0 := by
      have := ((hasDerivAt_neg (0 : ℝ)).exp).const_add 1
      simpa using this
    have h2 := h1.fun_inv (by positivity)
    have e : sig = fun x => (1 + Real.exp (-x))⁻¹ := by funext x; simp [sig]
    rw [e]
    exact h2.congr_deriv (by norm_num)
  exact C69_mixture_weights_biased ⟨0, 1⟩ ⟨1, 1⟩ one_pos one_pos (by norm_num) (fun s => ⟨(hs s).1.le, (hs s).2.le⟩) hd
    (by norm_num)

end Distrax
