import Verif.Model.Pathwise
import Verif.Props.VonMisesSample
import Verif.Props.VonMisesNormalGrad

/-! # C69: gradients through von Mises samples -/

namespace Distrax

open MeasureTheory Set Filter Topology Real

/-- Differentiation of an integral over an interval whose integrand has a jointly continuous derivative. -/
theorem deriv_param {h : ℝ → ℝ} (hh : Continuous h) {F F' : ℝ → ℝ → ℝ} (hd : ∀ m x, HasDerivAt (fun m => F m x) (F' m x) m)
    (hc : ∀ m, Continuous (F m)) (hc' : Continuous (Function.uncurry F')) (a b m : ℝ) :
    HasDerivAt (fun m => ∫ x in a..b, h x * F m x) (∫ x in a..b, h x * F' m x) m := by
  have hcont : Continuous fun u : ℝ × ℝ => h u.2 * F' u.1 u.2 := (hh.comp continuous_snd).mul hc'
  obtain ⟨C, hC⟩ := ((isCompact_closedBall m 1).prod (isCompact_uIcc (a := a) (b := b))).exists_bound_of_continuousOn
    hcont.continuousOn
  have hcm : Continuous (F' m) := hc'.comp (Continuous.prodMk_right m)
  refine (intervalIntegral.hasDerivAt_integral_of_dominated_loc_of_deriv_le (μ := volume) (a := a) (b := b)
    (F := fun m x => h x * F m x) (F' := fun m x => h x * F' m x) (bound := fun _ => C)
    (Metric.ball_mem_nhds m one_pos) ?_ ?_ ?_ ?_ ?_ ?_).2
  · exact Eventually.of_forall fun κ => (hh.mul (hc κ)).aestronglyMeasurable
  · exact (hh.mul (hc m)).intervalIntegrable _ _
  · exact (hh.mul hcm).aestronglyMeasurable
  · refine Eventually.of_forall fun x hx κ hκ => ?_
    exact hC (κ, x) ⟨Metric.ball_subset_closedBall hκ, uIoc_subset_uIcc hx⟩
  · exact intervalIntegrable_const
  · exact Eventually.of_forall fun x _ κ _ => (hd κ x).const_mul (h x)

/-- Inside the turn nothing is converted. -/
theorem convertAngle_inside {x : ℝ} (h1 : -π < x) (h2 : x < π) : convertAngle x = x := by
  have hpi := Real.pi_pos
  have : rint (x / (2 * π)) = 0 := by
    apply rint_unique
    rw [Int.cast_zero, sub_zero, abs_lt]
    constructor
    · rw [lt_div_iff₀ (by positivity)]; linarith
    · rw [div_lt_iff₀ (by positivity)]; linarith
  unfold convertAngle
  simp [this]

/-- Expectation of a function of the converted, rotated standard draw. -/
theorem vm_expect (loc k : ℝ) (g : ℝ → ℝ) :
    ∫ s in (-π)..π, g (convertAngle (s + loc)) * vmPdf ⟨0, k⟩ s = ∫ x in (-π)..π, g x * vmPdf ⟨loc, k⟩ x := by
  classical
  have hpi := Real.pi_pos
  set T : Set ℝ := {x | convertAngle x = π ∨ convertAngle x = -π} with hT
  set H : ℝ → ℝ := fun y => (if y ∈ T then 0 else g (convertAngle y)) * vmPdf ⟨loc, k⟩ y with hH
  have hper : Function.Periodic H (2 * π) := by
    intro x
    simp only [hH, (vmPdf_periodic ⟨loc, k⟩) x]
    congr 1
    rcases convertAngle_add x with h | ⟨h1, h2⟩
    · have : (x + 2 * π ∈ T) ↔ x ∈ T := by simp only [hT, Set.mem_ofPred_eq, h]
      simp only [this, h]
    · rw [if_pos (show x + 2 * π ∈ T from h1), if_pos (show x ∈ T from h2)]
  have hshift := circle_shift hper (-loc)
  have hpdf : ∀ θ, vmPdf ⟨0, k⟩ θ = vmPdf ⟨loc, k⟩ (θ + loc) := by
    intro θ; unfold vmPdf; simp
  have hnull : ∀ᵐ θ : ℝ, θ + loc ∉ T := by
    have h2 : volume ((fun θ : ℝ => θ + loc) ⁻¹' T) = 0 := by
      rw [measure_preimage_add_right, convertAngle_tie_null]
    exact measure_eq_zero_iff_ae_notMem.1 h2
  have hl : ∫ s in (-π)..π, g (convertAngle (s + loc)) * vmPdf ⟨0, k⟩ s = ∫ s in (-π)..π, H (s - -loc) := by
    refine intervalIntegral.integral_congr_ae ?_
    filter_upwards [hnull] with s hs _
    simp only [hH, sub_neg_eq_add, if_neg hs, hpdf]
  have hr : ∫ x in (-π)..π, H x = ∫ x in (-π)..π, g x * vmPdf ⟨loc, k⟩ x := by
    refine intervalIntegral.integral_congr_ae ?_
    have hne : ∀ᵐ x : ℝ, x ∉ ({π} : Set ℝ) := measure_eq_zero_iff_ae_notMem.1 (by simp)
    filter_upwards [hne] with x hx hx2
    rw [uIoc_of_le (by linarith)] at hx2
    have hxp : x < π := lt_of_le_of_ne hx2.2 hx
    have hin := convertAngle_inside hx2.1 hxp
    have : x ∉ T := by
      rintro (h | h) <;> rw [hin] at h
      · linarith
      · linarith [hx2.1]
    simp only [hH, if_neg this, hin]
  rw [hl, hshift, hr]

/-- The value is the model's sample, and the tangents of the draw and of the location add up. -/
theorem C69_von_mises_value (dcore : ℝ → ℝ → ℝ) (loc concentration : Dual) (s : ℝ) :
    (Dual.vonMisesSample dcore loc concentration s).val = convertAngle (s + loc.val) ∧
    (Dual.vonMisesSample dcore loc concentration s).tan =
      VonMises.sampleTangent dcore s concentration.val concentration.tan + loc.tan := by
  refine ⟨rfl, ?_⟩
  show _ + _ - (0 * _ + _ * 0) = _
  ring

theorem vmPdf_shift (loc k x : ℝ) : vmPdf ⟨loc, k⟩ x = vmPdf ⟨0, k⟩ (x - loc) := by
  unfold vmPdf; simp

section
variable {f f' : ℝ → ℝ} (hf : ∀ x, HasDerivAt f (f' x) x) (hc : Continuous f')
include hf hc

/-- Gradient with respect to the location.  What automatic differentiation reports on average is the derivative of the
expectation plus a term for the probability that flows through the cut of the circle. -/
theorem C69_von_mises_loc (dcore : ℝ → ℝ → ℝ) {loc k : ℝ} (hk : 0 ≤ k) :
    HasDerivAt (fun m => ∫ x in (-π)..π, f x * (VonMises.mk m k).prob x)
      ((∫ s in (-π)..π, f' (Dual.vonMisesSample dcore ⟨loc, 1⟩ ⟨k, 0⟩ s).val *
          (Dual.vonMisesSample dcore ⟨loc, 1⟩ ⟨k, 0⟩ s).tan * (VonMises.mk 0 k).prob s) -
        (f π - f (-π)) * (VonMises.mk loc k).prob π) loc := by
  have hpi := Real.pi_pos
  have hfc : Continuous f := continuous_iff_continuousAt.2 fun x => (hf x).continuousAt
  have htan : ∀ s, (Dual.vonMisesSample dcore ⟨loc, 1⟩ ⟨k, 0⟩ s).tan = 1 := fun s => by
    rw [(C69_von_mises_value _ _ _ _).2]; simp [VonMises.sampleTangent]
  have hp : ∀ m x, (VonMises.mk m k).prob x = vmPdf ⟨m, k⟩ x := fun m x => vm_prob_eq ⟨m, k⟩ hk x
  simp only [htan, hp, (C69_von_mises_value _ _ _ _).1, mul_one]
  rw [vm_expect]
  have hF : ∀ m x, HasDerivAt (fun x => vmF k (x - m)) (vmPdf ⟨m, k⟩ x) x := fun m x => by
    rw [vmPdf_shift]; exact (vmF_deriv k (x - m)).comp_sub_const x m
  have hFm : ∀ m x, HasDerivAt (fun m => vmF k (x - m)) (-vmPdf ⟨m, k⟩ x) m := fun m x => by
    rw [vmPdf_shift]; exact (vmF_deriv k (x - m)).comp_const_sub x m
  have hvc : Continuous (vmF k) := continuous_iff_continuousAt.2 fun x => (vmF_deriv k x).continuousAt
  have hparts : ∀ m, ∫ x in (-π)..π, f x * vmPdf ⟨m, k⟩ x =
      f π * vmF k (π - m) - f (-π) * vmF k (-π - m) - ∫ x in (-π)..π, f' x * vmF k (x - m) := fun m =>
    intervalIntegral.integral_mul_deriv_eq_deriv_mul (fun x _ => hf x) (fun x _ => hF m x)
      (hc.intervalIntegrable _ _) ((vmPdf_cont _).intervalIntegrable _ _)
  simp only [hparts]
  have hpar := deriv_param hc (F := fun m x => vmF k (x - m)) (F' := fun m x => -vmPdf ⟨m, k⟩ x) hFm
    (fun m => hvc.comp (continuous_id.sub continuous_const)) (by
      have : (Function.uncurry fun m x => -vmPdf ⟨m, k⟩ x) = fun u : ℝ × ℝ => -vmPdf ⟨0, k⟩ (u.2 - u.1) := by
        funext u; show -vmPdf ⟨u.1, k⟩ u.2 = _; rw [vmPdf_shift]
      rw [this]
      exact ((vmPdf_cont _).comp (continuous_snd.sub continuous_fst)).neg) (-π) π loc
  refine ((((hFm loc π).const_mul (f π)).sub ((hFm loc (-π)).const_mul (f (-π)))).sub hpar).congr_deriv ?_
  have hper : vmPdf ⟨loc, k⟩ (-π) = vmPdf ⟨loc, k⟩ π := by
    have := vmPdf_periodic ⟨loc, k⟩ (-π)
    rw [← this]; congr 1; ring
  rw [hper]
  simp only [mul_neg, intervalIntegral.integral_neg, sub_neg_eq_add]
  ring

/-- So it is exact for functions on the circle … -/
theorem C69_von_mises_loc_circle (dcore : ℝ → ℝ → ℝ) {loc k : ℝ} (hk : 0 ≤ k) (hend : f π = f (-π)) :
    HasDerivAt (fun m => ∫ x in (-π)..π, f x * (VonMises.mk m k).prob x)
      (∫ s in (-π)..π, f' (Dual.vonMisesSample dcore ⟨loc, 1⟩ ⟨k, 0⟩ s).val *
          (Dual.vonMisesSample dcore ⟨loc, 1⟩ ⟨k, 0⟩ s).tan * (VonMises.mk 0 k).prob s) loc :=
  (C69_von_mises_loc hf hc dcore hk).congr_deriv (by rw [hend]; ring)

/-- … and wrong for every function that takes different values at the two ends of the turn. -/
theorem C69_von_mises_loc_biased (dcore : ℝ → ℝ → ℝ) {loc k : ℝ} (hk : 0 ≤ k) (hend : f π ≠ f (-π)) :
    ¬ HasDerivAt (fun m => ∫ x in (-π)..π, f x * (VonMises.mk m k).prob x)
      (∫ s in (-π)..π, f' (Dual.vonMisesSample dcore ⟨loc, 1⟩ ⟨k, 0⟩ s).val *
          (Dual.vonMisesSample dcore ⟨loc, 1⟩ ⟨k, 0⟩ s).tan * (VonMises.mk 0 k).prob s) loc := by
  intro h
  have e := (C69_von_mises_loc hf hc dcore (loc := loc) hk).unique h
  have hp : 0 < (VonMises.mk loc k).prob π := by rw [vm_prob_eq ⟨loc, k⟩ hk]; exact vmPdf_pos _ _
  have : (f π - f (-π)) * (VonMises.mk loc k).prob π = 0 := by linarith
  rcases mul_eq_zero.1 this with h | h
  · exact hend (by linarith)
  · exact hp.ne' h

/-- Gradient with respect to the concentration, for a recipe `dcore` that is within `ε` of the exact derivative. -/
theorem vm_conc (dcore : ℝ → ℝ → ℝ) {loc k ε : ℝ} (hk : 1e-7 ≤ k) (hper : Function.Periodic f (2 * π) ∨ loc = 0)
    (hm : AEStronglyMeasurable (fun s => dcore s k) (volume.restrict (Ioc (-π) π)))
    (hacc : ∀ s, -π ≤ s → s ≤ π → |dcore s k - vmF' k s| ≤ ε) :
    ∃ D, HasDerivAt (fun c => ∫ x in (-π)..π, f x * (VonMises.mk loc c).prob x) D k ∧
      |(∫ s in (-π)..π, f' (Dual.vonMisesSample dcore ⟨loc, 0⟩ ⟨k, 1⟩ s).val *
          (Dual.vonMisesSample dcore ⟨loc, 0⟩ ⟨k, 1⟩ s).tan * (VonMises.mk 0 k).prob s) - D| ≤
        ε * ∫ x in (-π)..π, |f' x| := by
  have hpi := Real.pi_pos
  have hk0 : 0 < k := lt_of_lt_of_le (by norm_num) hk
  have hne : ∀ᵐ x : ℝ, x ∉ ({π} : Set ℝ) := measure_eq_zero_iff_ae_notMem.1 (by simp)
  -- conversion does not matter
  have hper' : Function.Periodic f (2 * π) → Function.Periodic f' (2 * π) := fun h x => by
    have h1 : HasDerivAt (fun y => f (y + 2 * π)) (f' (x + 2 * π)) x := by
      simpa using (hf (x + 2 * π)).comp_add_const x (2 * π)
    have e : (fun y => f (y + 2 * π)) = f := funext h
    rw [e] at h1
    exact h1.unique (hf x)
  have hconv : ∀ (g : ℝ → ℝ) , (Function.Periodic g (2 * π) ∨ loc = 0) → ∀ s, -π < s → s < π →
      g (convertAngle (s + loc)) = g (s + loc) := by
    intro g hg s h1 h2
    rcases hg with hg | h0
    · unfold convertAngle
      simp only
      have := (hg.int_mul (rint ((s + loc) / (2 * π)))).sub_eq (s + loc)
      rw [← this]; congr 1; ring
    · rw [h0, add_zero, convertAngle_inside h1 h2]
  have hmid : ∀ (g : ℝ → ℝ) (c : ℝ), (Function.Periodic g (2 * π) ∨ loc = 0) →
      ∫ x in (-π)..π, g x * vmPdf ⟨loc, c⟩ x = ∫ s in (-π)..π, g (s + loc) * vmPdf ⟨0, c⟩ s := by
    intro g c hg
    rw [← vm_expect]
    refine intervalIntegral.integral_congr_ae ?_
    filter_upwards [hne] with s hs hs2
    rw [uIoc_of_le (by linarith)] at hs2
    rw [hconv g hg s hs2.1 (lt_of_le_of_ne hs2.2 hs)]
  have hfl : ∀ x, HasDerivAt (fun s => f (s + loc)) (f' (x + loc)) x := fun x => by
    simpa using (hf (x + loc)).comp_add_const x loc
  have hcl : Continuous fun s => f' (s + loc) := hc.comp (continuous_id.add continuous_const)
  have hF'c : Continuous (vmF' k) := vmF'_cont.comp (Continuous.prodMk_right k)
  have hvc : ∀ c, Continuous (vmF c) := fun c => continuous_iff_continuousAt.2 fun x => (vmF_deriv c x).continuousAt
  have hbot : ∀ c, vmF c (-π) = 0 := fun c => by unfold vmF; simp
  have hparts : ∀ c, ∫ s in (-π)..π, f (s + loc) * vmPdf ⟨0, c⟩ s =
      f (π + loc) - ∫ s in (-π)..π, f' (s + loc) * vmF c s := fun c => by
    have h := intervalIntegral.integral_mul_deriv_eq_deriv_mul (a := -π) (b := π) (u := fun s => f (s + loc)) (v := vmF c)
      (u' := fun s => f' (s + loc)) (v' := vmPdf ⟨0, c⟩) (fun x _ => hfl x) (fun x _ => vmF_deriv c x)
      (hcl.intervalIntegrable _ _) ((vmPdf_cont _).intervalIntegrable _ _)
    rw [h, hbot, vmF_top]; ring
  refine ⟨-∫ s in (-π)..π, f' (s + loc) * vmF' k s, ?_, ?_⟩
  · have hpar := deriv_param hcl (F := fun c s => vmF c s) (F' := fun c s => vmF' c s) vmF_deriv_k hvc
      vmF'_cont (-π) π k
    refine (hpar.const_sub (f (π + loc))).congr_of_eventuallyEq ?_
    filter_upwards [lt_mem_nhds hk0] with c hc0
    have : ∀ x, (VonMises.mk loc c).prob x = vmPdf ⟨loc, c⟩ x := fun x => vm_prob_eq ⟨loc, c⟩ hc0.le x
    simp only [this]
    rw [hmid f c hper, hparts]
  · have hauto : ∀ s, -π < s → s < π → f' (Dual.vonMisesSample dcore ⟨loc, 0⟩ ⟨k, 1⟩ s).val *
          (Dual.vonMisesSample dcore ⟨loc, 0⟩ ⟨k, 1⟩ s).tan * (VonMises.mk 0 k).prob s = -(f' (s + loc) * dcore s k) := by
      intro s h1 h2
      rw [(C69_von_mises_value _ _ _ _).1, (C69_von_mises_value _ _ _ _).2,
        hconv f' (hper.imp_left hper') s h1 h2, vm_prob_eq ⟨0, k⟩ hk0.le]
      unfold VonMises.sampleTangent
      simp only
      rw [max_eq_left hk]
      have e2 : Real.exp (-k * (Real.cos s - 1)) * (2 * π * i0e k) = 1 / vmPdf ⟨0, k⟩ s := by
        have := tangent_prob hk0.le s 0
        rw [Int.cast_zero, mul_zero, sub_zero] at this
        rw [← this, neg_mul, Real.exp_neg]
        have := i0e_pos k
        field_simp
      rw [e2]
      unfold VonMises.cdfTangent
      simp only
      have : s - 2 * π * (rint (s / (2 * π)) : ℝ) = s := convertAngle_inside h1 h2
      rw [this]
      have := (vmPdf_pos ⟨0, k⟩ s).ne'
      field_simp
      ring
    have hae : ∀ᵐ s : ℝ, s ∈ uIoc (-π) π → f' (Dual.vonMisesSample dcore ⟨loc, 0⟩ ⟨k, 1⟩ s).val *
          (Dual.vonMisesSample dcore ⟨loc, 0⟩ ⟨k, 1⟩ s).tan * (VonMises.mk 0 k).prob s = -(f' (s + loc) * dcore s k) := by
      filter_upwards [hne] with s hs hs2
      rw [uIoc_of_le (by linarith)] at hs2
      exact hauto s hs2.1 (lt_of_le_of_ne hs2.2 hs)
    rw [intervalIntegral.integral_congr_ae hae]
    obtain ⟨C, hC⟩ := (isCompact_Icc (a := -π) (b := π)).exists_bound_of_continuousOn (hcl.continuousOn)
    obtain ⟨C2, hC2⟩ := (isCompact_Icc (a := -π) (b := π)).exists_bound_of_continuousOn (hF'c.continuousOn)
    have hint : IntervalIntegrable (fun s => f' (s + loc) * dcore s k) volume (-π) π := by
      rw [intervalIntegrable_iff_integrableOn_Ioc_of_le (by linarith)]
      refine Integrable.of_bound (C := C * (C2 + ε)) (hcl.aestronglyMeasurable.mul hm) ?_
      refine (ae_restrict_iff' measurableSet_Ioc).2 (.of_forall fun s hs => ?_)
      have hs' : s ∈ Icc (-π) π := ⟨hs.1.le, hs.2⟩
      have h1 := hC s hs'
      have h2 := hC2 s hs'
      have h3 := hacc s hs'.1 hs'.2
      rw [Real.norm_eq_abs] at *
      rw [abs_mul]
      have h4 : |dcore s k| ≤ C2 + ε := by
        have := abs_sub_abs_le_abs_sub (dcore s k) (vmF' k s); linarith
      exact mul_le_mul h1 h4 (abs_nonneg _) ((abs_nonneg _).trans h1)
    have hint2 : IntervalIntegrable (fun s => f' (s + loc) * vmF' k s) volume (-π) π :=
      (hcl.mul hF'c).intervalIntegrable _ _
    rw [intervalIntegral.integral_neg, sub_neg_eq_add, neg_add_eq_sub, ← intervalIntegral.integral_sub hint2 hint]
    have hbound := intervalIntegral.norm_integral_le_of_norm_le (a := -π) (b := π) (μ := volume)
      (f := fun s => f' (s + loc) * vmF' k s - f' (s + loc) * dcore s k) (g := fun s => ε * |f' (s + loc)|) (by linarith)
      (.of_forall fun s hs => ?_) ((continuous_const.mul hcl.abs).intervalIntegrable _ _)
    · rw [Real.norm_eq_abs] at hbound
      refine hbound.trans (le_of_eq ?_)
      rw [intervalIntegral.integral_const_mul]
      congr 1
      rcases hper with h | h
      · have hp2 : Function.Periodic (fun x => |f' x|) (2 * π) := fun x => by simp only [hper' h x]
        have := circle_shift hp2 (-loc)
        simpa using this
      · simp [h]
    · rw [Real.norm_eq_abs, ← mul_sub, abs_mul, abs_sub_comm, mul_comm]
      exact mul_le_mul_of_nonneg_right (hacc s hs.1.le hs.2) (abs_nonneg _)

/-- The shipped rule, series recipe: within `3e-7` (times the total variation of `f`) of the derivative of the
expectation, for functions on the circle, and for every function when `loc = 0`. -/
theorem C69_von_mises_concentration {loc k : ℝ} (hk : 1e-7 ≤ k) (hk2 : k < 10.5)
    (hper : Function.Periodic f (2 * π) ∨ loc = 0) :
    ∃ D, HasDerivAt (fun c => ∫ x in (-π)..π, f x * (VonMises.mk loc c).prob x) D k ∧
      |(∫ s in (-π)..π, f' (Dual.vonMisesSample VonMises.dcdfCore ⟨loc, 0⟩ ⟨k, 1⟩ s).val *
          (Dual.vonMisesSample VonMises.dcdfCore ⟨loc, 0⟩ ⟨k, 1⟩ s).tan * (VonMises.mk 0 k).prob s) - D| ≤
        3 / 10 ^ 7 * ∫ x in (-π)..π, |f' x| := by
  have hk0 : 0 < k := lt_of_lt_of_le (by norm_num) hk
  have e : ∀ s, VonMises.dcdfCore s k = VonMises.dcdfSeries s k := fun s => by
    unfold VonMises.dcdfCore; rw [if_pos hk2]
  refine vm_conc hf hc VonMises.dcdfCore hk hper ?_ fun s h1 h2 => ?_
  · simp only [e]
    have hl : ∀ (n : ℕ) (acc : ℝ → VonMises.SeriesAcc), Measurable (fun s => (acc s).rn) → Measurable (fun s => (acc s).drn) →
        Measurable (fun s => (acc s).vn) → Measurable (fun s => (acc s).dvn) →
        Measurable (fun s => (VonMises.seriesLoop s k n (acc s)).vn) ∧
        Measurable fun s => (VonMises.seriesLoop s k n (acc s)).dvn := by
      intro n
      induction n with
      | zero => intro acc _ _ h3 h4; exact ⟨h3, h4⟩
      | succ n ih =>
        intro acc h1 h2 h3 h4
        simp only [VonMises.seriesLoop]
        exact ih (fun s => VonMises.seriesStep s k (n + 1) (acc s)) (by simp only [VonMises.seriesStep]; fun_prop)
          (by simp only [VonMises.seriesStep]; fun_prop) (by simp only [VonMises.seriesStep]; fun_prop)
          (by simp only [VonMises.seriesStep]; fun_prop)
    have h := hl 20 (fun _ => VonMises.seriesInit) measurable_const measurable_const measurable_const measurable_const
    have hr : Measurable fun s => VonMises.cdfSeriesRaw 20 s k := by
      have := h.1
      unfold VonMises.cdfSeriesRaw; fun_prop
    have : Measurable fun s => VonMises.dcdfSeries s k := by
      unfold VonMises.dcdfSeries
      simp only
      refine (h.2.div_const _).mul (Measurable.ite ?_ measurable_const measurable_const)
      exact (measurableSet_le measurable_const hr).inter (measurableSet_le hr measurable_const)
    exact this.aestronglyMeasurable
  · rw [e]
    exact C56_gradient_accuracy k hk0 hk2 s h1 h2 _
      ((vmF_deriv_k k s).congr_of_eventuallyEq (Eventually.of_forall fun κ => stdCdf_eq κ s))

/-- The shipped rule at large concentrations: within `2/κ³`. -/
theorem C69_von_mises_concentration_large {loc k : ℝ} (hk : 10.5 ≤ k) (hper : Function.Periodic f (2 * π) ∨ loc = 0) :
    ∃ D, HasDerivAt (fun c => ∫ x in (-π)..π, f x * (VonMises.mk loc c).prob x) D k ∧
      |(∫ s in (-π)..π, f' (Dual.vonMisesSample VonMises.dcdfCore ⟨loc, 0⟩ ⟨k, 1⟩ s).val *
          (Dual.vonMisesSample VonMises.dcdfCore ⟨loc, 0⟩ ⟨k, 1⟩ s).tan * (VonMises.mk 0 k).prob s) - D| ≤
        2 / k ^ 3 * ∫ x in (-π)..π, |f' x| := by
  have e : ∀ s, VonMises.dcdfCore s k = VonMises.dcdfNormal s k := fun s => by
    unfold VonMises.dcdfCore; rw [if_neg (by linarith)]
  have hacc := fun s h1 h2 => C56_normal_gradient_accuracy k hk s h1 h2 _
      ((vmF_deriv_k k s).congr_of_eventuallyEq (Eventually.of_forall fun κ => stdCdf_eq κ s))
  refine vm_conc hf hc VonMises.dcdfCore (by norm_num; linarith) hper ?_ fun s h1 h2 => ?_
  · simp only [e]
    have hmeas : ∀ c, Measurable fun s => VonMises.cdfNormal s c := fun c => by
      unfold VonMises.cdfNormal
      have : Measurable (Normal.mk 0 1).cdf := by
        have hn : Continuous ndtr := continuous_iff_continuousAt.2 fun y => (ndtr_deriv y).continuousAt
        unfold Normal.cdf Normal.standardize
        have := hn.measurable
        fun_prop
      simp only
      fun_prop
    refine aestronglyMeasurable_of_tendsto_ae (𝓝[≠] (0 : ℝ))
      (f := fun h s => h⁻¹ • (VonMises.cdfNormal s (k + h) - VonMises.cdfNormal s k))
      (fun h => (((hmeas (k + h)).sub (hmeas k)).const_mul h⁻¹).aestronglyMeasurable) ?_
    refine (ae_restrict_iff' measurableSet_Ioc).2 (.of_forall fun s hs => ?_)
    exact hasDerivAt_iff_tendsto_slope_zero.1 (hacc s hs.1.le hs.2).1
  · rw [e]
    exact (hacc s h1 h2).2

end

/-- The hypotheses can be met: the resultant `cos` is a function on the circle, the angle itself is not. -/
example : (∀ x, HasDerivAt Real.cos (-Real.sin x) x) ∧ Continuous (fun x => -Real.sin x) ∧
    Function.Periodic Real.cos (2 * π) ∧ Real.cos π = Real.cos (-π) ∧ (fun x : ℝ => x) π ≠ (fun x : ℝ => x) (-π) := by
  refine ⟨Real.hasDerivAt_cos, by fun_prop, Real.cos_periodic, by simp, ?_⟩
  have := Real.pi_pos
  show π ≠ -π
  linarith

/-- For instance: the location gradient of the mean angle is reported as 1 on average, although rotating the law by a full
turn changes nothing. -/
example (dcore : ℝ → ℝ → ℝ) : ¬ HasDerivAt (fun m => ∫ x in (-π)..π, x * (VonMises.mk m 2).prob x)
    (∫ s in (-π)..π, 1 * (Dual.vonMisesSample dcore ⟨0, 1⟩ ⟨2, 0⟩ s).tan * (VonMises.mk 0 2).prob s) 0 :=
  C69_von_mises_loc_biased (f := fun x => x) (f' := fun _ => 1) (fun x => hasDerivAt_id x) continuous_const dcore
    (by norm_num) (by have := Real.pi_pos; show π ≠ -π; linarith)

end Distrax
