import Verif.Spec.Pathwise
import Verif.Props.ArrayLaw
import Verif.Props.Variance
import Mathlib.Analysis.Calculus.ParametricIntegral
import Mathlib.Analysis.Calculus.MeanValue
import Mathlib.Analysis.SpecialFunctions.ExpDeriv
import Mathlib.MeasureTheory.Constructions.BorelSpace.WithTop

/-! Lemmas for C69: differentiation under the expectation, and dual numbers that track a differentiable function. -/

namespace Distrax

open Spec MeasureTheory ProbabilityTheory Topology

/-! ### Tools -/

theorem TestFn.lip {f : ℝ → ℝ} {K : ℝ} (hf : Differentiable ℝ f) (hK : ∀ x, |deriv f x| ≤ K * (1 + |x|)) {R a b : ℝ}
    (ha : |a| ≤ R) (hb : |b| ≤ R) : |f a - f b| ≤ K * (1 + R) * |a - b| := by
  have hK0 : 0 ≤ K := by have := (abs_nonneg _).trans (hK 0); simpa using this
  have h := Convex.norm_image_sub_le_of_norm_deriv_le (f := f) (s := Set.Icc (-R) R) (C := K * (1 + R)) (x := b) (y := a)
    (fun x _ => hf x) (fun x hx => ?_) (convex_Icc _ _) (abs_le.1 hb) (abs_le.1 ha)
  · simpa [Real.norm_eq_abs] using h
  · rw [Real.norm_eq_abs]
    refine (hK x).trans ?_
    have : |x| ≤ R := abs_le.2 hx
    nlinarith

theorem curve_bound {g g' : ℝ → ℝ} (h : Curve g g') (t : ℝ) :
    ∃ M, 0 ≤ M ∧ ∀ s ∈ Metric.ball t 1, |g s| ≤ M ∧ |g' s| ≤ M ∧ ∀ r ∈ Metric.ball t 1, |g s - g r| ≤ M * |s - r| := by
  have hg : Continuous g := continuous_iff_continuousAt.2 fun s => (h.deriv s).continuousAt
  obtain ⟨M1, h1⟩ := (isCompact_closedBall t 1).exists_bound_of_continuousOn hg.continuousOn
  obtain ⟨M2, h2⟩ := (isCompact_closedBall t 1).exists_bound_of_continuousOn h.cont.continuousOn
  refine ⟨max (max M1 M2) 0, le_max_right _ _, fun s hs => ⟨?_, ?_, fun r hr => ?_⟩⟩
  · exact (h1 s (Metric.ball_subset_closedBall hs)).trans ((le_max_left _ _).trans (le_max_left _ _))
  · exact (h2 s (Metric.ball_subset_closedBall hs)).trans ((le_max_right _ _).trans (le_max_left _ _))
  · have := Convex.norm_image_sub_le_of_norm_hasDerivWithin_le (f := g) (f' := g') (s := Metric.ball t 1)
      (C := max (max M1 M2) 0) (x := r) (y := s) (fun x _ => (h.deriv x).hasDerivWithinAt)
      (fun x hx => (h2 x (Metric.ball_subset_closedBall hx)).trans ((le_max_right _ _).trans (le_max_left _ _)))
      (convex_ball _ _) hr hs
    simpa [Real.norm_eq_abs] using this

/-- Differentiation under the expectation for a sampler that is locally Lipschitz in the parameter, with a bound that has
a second moment, and differentiable for almost all noise. -/
theorem pathwise {U : Type} [MeasurableSpace U] {ν : Measure U} [IsProbabilityMeasure ν] {law : ℝ → Measure ℝ}
    {x : ℝ → U → ℝ} {d : U → Dual} {t : ℝ} {B : U → ℝ} (hm : ∀ s, Measurable (x s))
    (hlaw : ∀ᶠ s in 𝓝 t, law s = ν.map (x s)) {S : Set ℝ} (hS : S ∈ 𝓝 t)
    (hB : Integrable (fun u => B u ^ 2) ν) (hBm : AEStronglyMeasurable B ν)
    (hx : ∀ᵐ u ∂ν, ∀ s ∈ S, |x s u| ≤ B u ∧ ∀ r ∈ S, |x s u - x r u| ≤ B u * |s - r|)
    (hval : ∀ u, (d u).val = x t u) (hder : ∀ᵐ u ∂ν, HasDerivAt (fun s => x s u) (d u).tan t)
    {f : ℝ → ℝ} (hf : TestFn f) : PathwiseUnbiased law ν d f t := by
  have hd : AEStronglyMeasurable (fun u => (d u).tan) ν := by
    refine aestronglyMeasurable_of_tendsto_ae (𝓝[≠] (0 : ℝ)) (f := fun h u => h⁻¹ • (x (t + h) u - x t u))
      (fun h => (show Measurable fun u => h⁻¹ • (x (t + h) u - x t u) from
        ((hm (t + h)).sub (hm t)).const_smul h⁻¹).aestronglyMeasurable) ?_
    filter_upwards [hder] with u hu
    exact hasDerivAt_iff_tendsto_slope_zero.1 hu
  obtain ⟨hf, K, hK⟩ := hf
  have hK0 : 0 ≤ K := by have := (abs_nonneg _).trans (hK 0); simpa using this
  have hfm : Measurable f := hf.continuous.measurable
  have hB1 : Integrable B ν := by
    refine Integrable.mono' ((integrable_const (1 : ℝ)).add hB) hBm (.of_forall fun u => ?_)
    rw [Real.norm_eq_abs, Pi.add_apply]
    nlinarith [sq_abs (B u), sq_nonneg (|B u| - 1), abs_nonneg (B u)]
  have hbd : Integrable (fun u => K * (1 + B u) * B u) ν := by
    have : (fun u => K * (1 + B u) * B u) = fun u => K * B u + K * B u ^ 2 := by funext u; ring
    rw [this]; exact (hB1.const_mul K).add (hB.const_mul K)
  have ht : t ∈ S := mem_of_mem_nhds hS
  have hint : ∀ s ∈ S, Integrable (fun u => f (x s u)) ν := by
    intro s hs
    refine Integrable.mono' ((integrable_const (|f 0|)).add hbd) (hfm.comp (hm s)).aestronglyMeasurable ?_
    filter_upwards [hx] with u hu
    have hb := (hu s hs).1
    have hB0 : 0 ≤ B u := (abs_nonneg _).trans hb
    have := TestFn.lip hf hK hb (show |(0 : ℝ)| ≤ B u by simpa using hB0)
    rw [Real.norm_eq_abs, Pi.add_apply]
    rw [sub_zero] at this
    have h3 : |f (x s u)| ≤ |f (x s u) - f 0| + |f 0| := by
      have := abs_add_le (f (x s u) - f 0) (f 0); simpa using this
    have h4 : K * (1 + B u) * |x s u| ≤ K * (1 + B u) * B u := mul_le_mul_of_nonneg_left hb (by positivity)
    linarith
  have key := hasDerivAt_integral_of_dominated_loc_of_lip (μ := ν) (F := fun s u => f (x s u))
    (F' := fun u => deriv f (d u).val * (d u).tan) (x₀ := t) (bound := fun u => K * (1 + B u) * B u) hS
    (.of_forall fun s => (hfm.comp (hm s)).aestronglyMeasurable) (hint t ht) ?_ ?_ hbd ?_
  · refine ⟨?_, key.1, key.2.congr_of_eventuallyEq ?_⟩
    · filter_upwards [hlaw, hS] with s hs hsS
      rw [hs]
      exact (integrable_map_measure hfm.aestronglyMeasurable (hm s).aemeasurable).2 (hint s hsS)
    filter_upwards [hlaw] with s hs
    rw [hs, integral_map (hm s).aemeasurable hfm.aestronglyMeasurable]
  · have : Measurable fun u => (d u).val := by
      have : (fun u => (d u).val) = x t := funext hval
      rw [this]; exact hm t
    exact ((measurable_deriv f).comp this).aestronglyMeasurable.mul hd
  · filter_upwards [hx] with u hu
    have hB0 : 0 ≤ B u := (abs_nonneg _).trans (hu t ht).1
    refine LipschitzOnWith.of_dist_le_mul fun s hs r hr => ?_
    have h1 := TestFn.lip hf hK (hu s hs).1 (hu r hr).1
    have h2 := (hu s hs).2 r hr
    rw [Real.dist_eq, Real.dist_eq, Real.coe_nnabs, abs_of_nonneg (show 0 ≤ K * (1 + B u) * B u by positivity)]
    refine h1.trans ?_
    rw [mul_assoc (K * (1 + B u))]
    exact mul_le_mul_of_nonneg_left h2 (by positivity)
  · filter_upwards [hder] with u hu
    have := ((hf (x t u)).hasDerivAt).comp t hu
    rw [hval u]
    exact this

/-! ### Location-scale families -/

/-- The generic sampler: location plus scale times standardised noise. -/
theorem locScale {U : Type} [MeasurableSpace U] {ν : Measure U} [IsProbabilityMeasure ν] {law : ℝ → ℝ → Measure ℝ}
    {z : U → ℝ} (hz : Measurable z) (hz2 : Integrable (fun u => z u ^ 2) ν) {loc loc' scale scale' : ℝ → ℝ}
    (hl : Curve loc loc') (hs : Curve scale scale') {t : ℝ} (hpos : 0 < scale t)
    (hlaw : ∀ a b, 0 < b → law a b = ν.map fun u => a + b * z u) {d : U → Dual}
    (hv : ∀ u, (d u).val = loc t + scale t * z u) (hd : ∀ u, (d u).tan = loc' t + scale' t * z u)
    {f : ℝ → ℝ} (hf : TestFn f) : PathwiseUnbiased (fun s => law (loc s) (scale s)) ν d f t := by
  obtain ⟨M1, m1, b1⟩ := curve_bound hl t
  obtain ⟨M2, m2, b2⟩ := curve_bound hs t
  refine pathwise (x := fun s u => loc s + scale s * z u) (B := fun u => M1 + M2 * |z u|) (S := Metric.ball t 1)
    (fun s => by fun_prop) ?_ (Metric.ball_mem_nhds t one_pos) ?_ ?_ ?_ hv ?_ hf
  · have : ∀ᶠ s in 𝓝 t, 0 < scale s := (hs.deriv t).continuousAt.eventually (lt_mem_nhds hpos)
    filter_upwards [this] with s hs
    exact hlaw _ _ hs
  · refine Integrable.mono' ((integrable_const (2 * M1 ^ 2)).add (hz2.const_mul (2 * M2 ^ 2)))
      (by fun_prop : Measurable fun u => (M1 + M2 * |z u|) ^ 2).aestronglyMeasurable (.of_forall fun u => ?_)
    rw [Real.norm_eq_abs, abs_of_nonneg (sq_nonneg _), Pi.add_apply]
    nlinarith [sq_nonneg (M1 - M2 * |z u|), sq_abs (z u)]
  · exact (by fun_prop : Measurable fun u => M1 + M2 * |z u|).aestronglyMeasurable
  · refine .of_forall fun u s hs => ⟨?_, fun r hr => ?_⟩
    · have h1 := (b1 s hs).1
      have h2 := (b2 s hs).1
      calc |loc s + scale s * z u| ≤ |loc s| + |scale s * z u| := abs_add_le _ _
        _ = |loc s| + |scale s| * |z u| := by rw [abs_mul]
        _ ≤ _ := by have := mul_le_mul_of_nonneg_right h2 (abs_nonneg (z u)); linarith
    · have h1 := (b1 s hs).2.2 r hr
      have h2 := (b2 s hs).2.2 r hr
      have e : loc s + scale s * z u - (loc r + scale r * z u) = (loc s - loc r) + (scale s - scale r) * z u := by ring
      rw [e]
      calc |(loc s - loc r) + (scale s - scale r) * z u| ≤ |loc s - loc r| + |(scale s - scale r) * z u| := abs_add_le _ _
        _ = |loc s - loc r| + |scale s - scale r| * |z u| := by rw [abs_mul]
        _ ≤ _ := by have := mul_le_mul_of_nonneg_right h2 (abs_nonneg (z u)); nlinarith
  · refine .of_forall fun u => ?_
    rw [hd]
    exact (hl.deriv t).add ((hs.deriv t).mul_const (z u))

/-- A density with a variance has a second moment under its law. -/
theorem second_moment {p : ℝ → ℝ} (hp : IsPdf p) {v : ℝ} (hv : HasVariance p v) :
    Integrable (fun x => x ^ 2) (lawOf p) := by
  obtain ⟨m, hm, hv⟩ := hv
  unfold lawOf
  rw [integrable_withDensity_iff_integrable_smul₀' hp.integrable.aemeasurable.ennreal_ofReal
    (.of_forall fun x => ENNReal.ofReal_lt_top)]
  have h := (hv.1.add (hm.1.const_mul (2 * m))).sub (hp.integrable.const_mul (m ^ 2))
  refine h.congr (.of_forall fun x => ?_)
  simp only [Pi.add_apply, Pi.sub_apply, smul_eq_mul, ENNReal.toReal_ofReal (hp.nonneg x)]
  ring

/-- The standardised noise of a sampler whose output has a density with a variance. -/
theorem noise_moment {noise p z : ℝ → ℝ} (hz : Measurable z) (hlaw : (lawOf noise).map z = lawOf p) (hp : IsPdf p) {v : ℝ}
    (hv : HasVariance p v) : Integrable (fun u => z u ^ 2) (lawOf noise) := by
  have h := second_moment hp hv
  rw [← hlaw] at h
  exact (integrable_map_measure h.aestronglyMeasurable hz.aemeasurable).1 h

theorem normal_map (a b : ℝ) (hb : 0 < b) :
    lawOf (Normal.prob ⟨a, b⟩) = (lawOf (gaussianPDFReal 0 1)).map fun u => a + b * u := by
  have hl := C28_normal_law ⟨a, b⟩ hb
  rw [← map_lawOf (gauss_pdf 0 one_ne_zero) hl.1 hl.2.2.1 (C28_normal_sample ⟨a, b⟩ hb).1 (by unfold Normal.sample; fun_prop)]
  congr 1; funext u; unfold Normal.sample; ring

theorem laplace_map (a b : ℝ) (hb : 0 < b) :
    lawOf (Laplace.prob ⟨a, b⟩) = (lawOf stdLaplace).map fun u => a + b * u := by
  have hl := C29_laplace_law ⟨a, b⟩ hb
  rw [← map_lawOf stdLaplace_law.1 hl.1 hl.2.1 (C29_laplace_sample ⟨a, b⟩ hb).1 (by unfold Laplace.sample; fun_prop)]
  rfl

theorem gumbel_map (a b : ℝ) (hb : 0 < b) :
    lawOf (Gumbel.prob ⟨a, b⟩) = (lawOf stdGumbel).map fun u => a + b * u := by
  have hl := C29_gumbel_law ⟨a, b⟩ hb
  rw [← map_lawOf stdGumbel_law.1 hl.1 hl.2.1 (C29_gumbel_sample ⟨a, b⟩ hb).1 (by unfold Gumbel.sample; fun_prop)]
  congr 1; funext u; unfold Gumbel.sample; ring

theorem logistic_map (a b : ℝ) (hb : 0 < b) :
    lawOf (Logistic.prob ⟨a, b⟩) = (lawOf unitNoise).map fun u => a + b * (Real.log u - Real.log (1 + -u)) := by
  have hl := C29_logistic_law ⟨a, b⟩ hb
  rw [← map_lawOf unitNoise_pdf hl.1 hl.2.1 (C29_logistic_sample ⟨a, b⟩ hb).2.2
    (by unfold Logistic.sample; simp only; fun_prop)]
  congr 1; funext u; unfold Logistic.sample; ring

theorem uniform_map (a b : ℝ) (hb : 0 < b) :
    lawOf (Uniform.prob ⟨a, a + b⟩) = (lawOf unitNoise).map fun u => a + b * u := by
  have hlt : a < a + b := by linarith
  have hl := C29_uniform_law ⟨a, a + b⟩ hlt
  rw [← map_lawOf unitNoise_pdf hl.1 hl.2.1 (C29_uniform_sample ⟨a, a + b⟩ hlt).2.1 (by unfold Uniform.sample; fun_prop)]
  congr 1; funext u; unfold Uniform.sample Uniform.range; ring

theorem normal_noise : Integrable (fun u : ℝ => u ^ 2) (lawOf (gaussianPDFReal 0 1)) := by
  have h := noise_moment (z := fun u => 0 + 1 * u) (by fun_prop) (normal_map 0 1 one_pos).symm (C28_normal_law ⟨0, 1⟩ one_pos).1
    (C28_normal_moments ⟨0, 1⟩ one_pos).2.1
  simpa using h

theorem laplace_noise : Integrable (fun u : ℝ => u ^ 2) (lawOf stdLaplace) := by
  have h := noise_moment (z := fun u => 0 + 1 * u) (by fun_prop) (laplace_map 0 1 one_pos).symm (C29_laplace_law ⟨0, 1⟩ one_pos).1
    (C29_laplace_moments ⟨0, 1⟩ one_pos).2.1
  simpa using h

theorem gumbel_noise : Integrable (fun u : ℝ => u ^ 2) (lawOf stdGumbel) := by
  have h := noise_moment (z := fun u => 0 + 1 * u) (by fun_prop) (gumbel_map 0 1 one_pos).symm (C29_gumbel_law ⟨0, 1⟩ one_pos).1
    (C29_gumbel_variance ⟨0, 1⟩ one_pos).1
  simpa using h

theorem logistic_noise : Integrable (fun u : ℝ => (Real.log u - Real.log (1 + -u)) ^ 2) (lawOf unitNoise) := by
  have h := noise_moment (z := fun u => 0 + 1 * (Real.log u - Real.log (1 + -u))) (by fun_prop) (logistic_map 0 1 one_pos).symm
    (C29_logistic_law ⟨0, 1⟩ one_pos).1 (C29_logistic_variance ⟨0, 1⟩ one_pos).1
  simpa using h

theorem uniform_noise : Integrable (fun u : ℝ => u ^ 2) (lawOf unitNoise) := by
  have hlt : (⟨0, 0 + 1⟩ : Uniform).low < (⟨0, 0 + 1⟩ : Uniform).high := by norm_num
  have h := noise_moment (z := fun u => 0 + 1 * u) (by fun_prop) (uniform_map 0 1 one_pos).symm
    (C29_uniform_law ⟨0, 0 + 1⟩ hlt).1 (C29_uniform_moments ⟨0, 0 + 1⟩ hlt).2.1
  simpa using h

/-! ### Dual numbers that track a function of the parameter -/

/-- The dual number `d` carries the value and the derivative of `x` at `t`. -/
structure Tracks (x : ℝ → ℝ) (d : Dual) (t : ℝ) : Prop where
  val : d.val = x t
  deriv : HasDerivAt x d.tan t

namespace Tracks
variable {x y : ℝ → ℝ} {a b : Dual} {t : ℝ}

theorem const (c t : ℝ) : Tracks (fun _ => c) (Dual.const c) t := ⟨rfl, hasDerivAt_const t c⟩

theorem congr (h : Tracks x a t) (e : ∀ s, x s = y s) : Tracks y a t := (funext e : x = y) ▸ h

theorem add (h : Tracks x a t) (k : Tracks y b t) : Tracks (fun s => x s + y s) (a + b) t :=
  ⟨by show a.val + b.val = _; rw [h.val, k.val], h.deriv.add k.deriv⟩

theorem sub (h : Tracks x a t) (k : Tracks y b t) : Tracks (fun s => x s - y s) (a - b) t :=
  ⟨by show a.val - b.val = _; rw [h.val, k.val], h.deriv.sub k.deriv⟩

theorem mul (h : Tracks x a t) (k : Tracks y b t) : Tracks (fun s => x s * y s) (a * b) t :=
  ⟨by show a.val * b.val = _; rw [h.val, k.val],
    (h.deriv.mul k.deriv).congr_deriv (by show _ = a.tan * b.val + a.val * b.tan; rw [h.val, k.val])⟩

theorem div (h : Tracks x a t) (k : Tracks y b t) (hy : y t ≠ 0) : Tracks (fun s => x s / y s) (a / b) t :=
  ⟨by show a.val / b.val = _; rw [h.val, k.val],
    (h.deriv.div k.deriv hy).congr_deriv (by
      show _ = a.tan / b.val - a.val * b.tan / b.val ^ 2
      rw [h.val, k.val]; field_simp)⟩

theorem exp (h : Tracks x a t) : Tracks (fun s => Real.exp (x s)) a.exp t :=
  ⟨by show Real.exp a.val = _; rw [h.val],
    h.deriv.exp.congr_deriv (by show _ = a.tan * Real.exp a.val; rw [h.val, mul_comm])⟩

theorem sum {n : ℕ} {x : Fin n → ℝ → ℝ} {a : Fin n → Dual} (h : ∀ i, Tracks (x i) (a i) t) :
    Tracks (fun s => ∑ i, x i s) (Dual.sum a) t :=
  ⟨by show ∑ i, (a i).val = _; exact Finset.sum_congr rfl fun i _ => (h i).val, HasDerivAt.fun_sum fun i _ => (h i).deriv⟩

theorem softmax {n : ℕ} {x : Fin n → ℝ → ℝ} {a : Fin n → Dual} (h : ∀ i, Tracks (x i) (a i) t) (i : Fin n) :
    Tracks (fun s => Real.exp (x i s) / ∑ k, Real.exp (x k s)) (Dual.softmax a i) t := by
  have hv : ∀ i, (a i).val = x i t := fun i => (h i).val
  have hS : (∑ k, Real.exp (x k t)) ≠ 0 :=
    (Finset.sum_pos (fun k _ => Real.exp_pos _) ⟨i, Finset.mem_univ i⟩).ne'
  refine ⟨by simp only [Dual.softmax, hv], ?_⟩
  refine (((h i).deriv.exp).div (HasDerivAt.fun_sum fun k _ => (h k).deriv.exp) hS).congr_deriv ?_
  simp only [Dual.softmax, hv]
  have e : ∑ j, Real.exp (x j t) / (∑ k, Real.exp (x k t)) * (a j).tan =
      (∑ j, Real.exp (x j t) * (a j).tan) / ∑ k, Real.exp (x k t) := by
    rw [Finset.sum_div]; exact Finset.sum_congr rfl fun j _ => by ring
  rw [e]
  generalize ∑ j, Real.exp (x j t) * (a j).tan = A at *
  generalize ∑ k, Real.exp (x k t) = S at *
  field_simp

theorem minimum (tie : ℝ) (h : Tracks x a t) (k : Tracks y b t) (hne : x t ≠ y t) :
    Tracks (fun s => min (x s) (y s)) (Dual.minimum tie a b) t := by
  refine ⟨by show min a.val b.val = _; rw [h.val, k.val], ?_⟩
  rcases lt_or_gt_of_ne hne with hlt | hgt
  · have hd : (Dual.minimum tie a b).tan = a.tan := if_pos (by rw [h.val, k.val]; exact hlt)
    rw [hd]
    refine h.deriv.congr_of_eventuallyEq ?_
    filter_upwards [h.deriv.continuousAt.eventually_lt k.deriv.continuousAt hlt] with s hs
    exact min_eq_left hs.le
  · have hd : (Dual.minimum tie a b).tan = b.tan :=
      (if_neg (by rw [h.val, k.val]; exact hgt.not_gt)).trans (if_pos (by rw [h.val, k.val]; exact hgt))
    rw [hd]
    refine k.deriv.congr_of_eventuallyEq ?_
    filter_upwards [k.deriv.continuousAt.eventually_lt h.deriv.continuousAt hgt] with s hs
    exact min_eq_right hs.le

theorem relu (h : Tracks x a t) (hne : x t ≠ 0) : Tracks (fun s => max (x s) 0) a.relu t := by
  refine ⟨by show max a.val 0 = _; rw [h.val], ?_⟩
  rcases lt_or_gt_of_ne hne with hlt | hgt
  · have hd : a.relu.tan = 0 := if_neg (by rw [h.val]; exact hlt.not_gt)
    rw [hd]
    refine (hasDerivAt_const t (0 : ℝ)).congr_of_eventuallyEq ?_
    filter_upwards [h.deriv.continuousAt.eventually (gt_mem_nhds hlt)] with s hs
    exact max_eq_right hs.le
  · have hd : a.relu.tan = a.tan := if_pos (by rw [h.val]; exact hgt)
    rw [hd]
    refine h.deriv.congr_of_eventuallyEq ?_
    filter_upwards [h.deriv.continuousAt.eventually (lt_mem_nhds hgt)] with s hs
    exact max_eq_left hs.le

theorem clip (tie : ℝ) {lo hi : ℝ} (hle : lo ≤ hi) (h : Tracks x a t) (h1 : x t ≠ lo) (h2 : x t ≠ hi) :
    Tracks (fun s => min (max (x s) lo) hi) (Dual.clip tie lo hi a) t := by
  refine ⟨by show min (max a.val lo) hi = _; rw [h.val], ?_⟩
  have hc := h.deriv.continuousAt
  rcases lt_or_gt_of_ne h1 with hlt | hgt
  · have hd : (Dual.clip tie lo hi a).tan = 0 := if_pos (.inl (by rw [h.val]; exact hlt))
    rw [hd]
    refine (hasDerivAt_const t lo).congr_of_eventuallyEq ?_
    filter_upwards [hc.eventually (gt_mem_nhds hlt)] with s hs
    rw [max_eq_right hs.le, min_eq_left hle]
  rcases lt_or_gt_of_ne h2 with hlt2 | hgt2
  · have hd : (Dual.clip tie lo hi a).tan = a.tan :=
      (if_neg (by rw [h.val]; exact not_or.2 ⟨hgt.not_gt, hlt2.not_gt⟩)).trans
        (if_neg (by rw [h.val]; exact not_or.2 ⟨h1, h2⟩))
    rw [hd]
    refine h.deriv.congr_of_eventuallyEq ?_
    filter_upwards [hc.eventually (lt_mem_nhds hgt), hc.eventually (gt_mem_nhds hlt2)] with s hs hs2
    rw [max_eq_left hs.le, min_eq_left hs2.le]
  · have hd : (Dual.clip tie lo hi a).tan = 0 := if_pos (.inr (by rw [h.val]; exact hgt2))
    rw [hd]
    refine (hasDerivAt_const t hi).congr_of_eventuallyEq ?_
    filter_upwards [hc.eventually (lt_mem_nhds hgt), hc.eventually (lt_mem_nhds hgt2)] with s hs hs2
    rw [max_eq_left hs.le, min_eq_right hs2.le]

end Tracks

/-- Clipping is 1-Lipschitz and does not enlarge by more than the bounds. -/
theorem clip_lip (lo hi x y : ℝ) : |min (max x lo) hi - min (max y lo) hi| ≤ |x - y| :=
  (abs_min_sub_min_le_max _ _ _ _).trans (by
    simp only [sub_self, abs_zero]
    refine max_le ((abs_max_sub_max_le_max _ _ _ _).trans (by simp)) (abs_nonneg _))

theorem clip_abs (lo hi x : ℝ) : |min (max x lo) hi| ≤ |x| + (|lo| + |hi|) := by
  rcases min_choice (max x lo) hi with h | h <;> rw [h]
  · rcases max_choice x lo with h' | h' <;> rw [h'] <;> linarith [abs_nonneg x, abs_nonneg lo, abs_nonneg hi]
  · linarith [abs_nonneg x, abs_nonneg lo, abs_nonneg hi]

end Distrax
