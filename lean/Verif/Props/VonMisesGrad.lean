import Verif.Props.VonMisesSeries
import Mathlib.Analysis.Calculus.FDeriv.Partial
import Mathlib.Analysis.Calculus.ImplicitFunction.Bivariate
import Mathlib.Analysis.Calculus.ParametricIntervalIntegral
import Mathlib.MeasureTheory.Integral.DominatedConvergence
import Mathlib.Analysis.Normed.Module.FiniteDimension

/-! # C56: the `custom_jvp` rules of the CDF and of the sampler -/

namespace Distrax

open MeasureTheory Real Set Filter Topology

/-! ### The recipe's derivative -/

theorem seriesLoop_deriv {k : ℝ} (hk : 0 < k) (x : ℝ) : ∀ (n : ℕ) (acc : ℝ → VonMises.SeriesAcc), 0 ≤ (acc k).rn →
    HasDerivAt (fun κ => (acc κ).rn) (acc k).drn k → HasDerivAt (fun κ => (acc κ).vn) (acc k).dvn k →
    HasDerivAt (fun κ => (VonMises.seriesLoop x κ n (acc κ)).vn) (VonMises.seriesLoop x k n (acc k)).dvn k
  | 0, acc, _, _, h => h
  | n + 1, acc, h0, h1, h2 => by
    have hD : 0 < 2 * ((n + 1 : ℕ) : ℝ) / k + (acc k).rn := by
      have : (0 : ℝ) < ((n + 1 : ℕ) : ℝ) := by positivity
      positivity
    have hden : HasDerivAt (fun κ => 2 * ((n + 1 : ℕ) : ℝ) / κ + (acc κ).rn) (-2 * ((n + 1 : ℕ) : ℝ) / k ^ 2 + (acc k).drn) k := by
      refine (((hasDerivAt_const k (2 * ((n + 1 : ℕ) : ℝ))).div (hasDerivAt_id k) hk.ne').add h1).congr_deriv ?_
      simp only [id]
      ring
    have hrn : HasDerivAt (fun κ => (VonMises.seriesStep x κ (n + 1) (acc κ)).rn) (VonMises.seriesStep x k (n + 1) (acc k)).drn k := by
      refine ((hasDerivAt_const k (1 : ℝ)).div hden hD.ne').congr_deriv ?_
      simp only [VonMises.seriesStep]
      ring
    refine seriesLoop_deriv hk x n (fun κ => VonMises.seriesStep x κ (n + 1) (acc κ)) ?_ hrn ?_
    · simp only [VonMises.seriesStep]; positivity
    · exact hrn.mul (h2.const_add (Real.sin (((n + 1 : ℕ) : ℝ) * x) / ((n + 1 : ℕ) : ℝ)))

theorem seriesRaw_deriv {k : ℝ} (hk : 0 < k) (x : ℝ) (n : ℕ) : HasDerivAt (fun κ => VonMises.cdfSeriesRaw n x κ)
    ((VonMises.seriesLoop x k n VonMises.seriesInit).dvn / π) k := by
  have := seriesLoop_deriv hk x n (fun _ => VonMises.seriesInit) le_rfl (hasDerivAt_const _ _) (hasDerivAt_const _ _)
  exact (this.div_const π).const_add (0.5 + x / (2 * π))

/-- The second result of the series recipe is the derivative of the first with respect to the concentration, at every
positive concentration and every value where the unclipped sum is not exactly `0` or `1`. -/
theorem C56_series_gradient (x k : ℝ) (hk : 0 < k) (h0 : VonMises.cdfSeriesRaw 20 x k ≠ 0) (h1 : VonMises.cdfSeriesRaw 20 x k ≠ 1) :
    HasDerivAt (fun κ => VonMises.cdfSeries x κ) (VonMises.dcdfSeries x k) k := by
  have hd := seriesRaw_deriv hk x 20
  have hc := hd.continuousAt
  unfold VonMises.dcdfSeries
  simp only
  rcases lt_or_gt_of_ne h0 with h | h
  · rw [if_neg (by rintro ⟨a, _⟩; linarith), mul_zero]
    refine (hasDerivAt_const k (0 : ℝ)).congr_of_eventuallyEq ?_
    filter_upwards [hc.eventually (eventually_lt_nhds h)] with κ hκ
    unfold VonMises.cdfSeries VonMises.clip01
    rw [max_eq_right hκ.le]; simp
  · rcases lt_or_gt_of_ne h1 with h' | h'
    · rw [if_pos ⟨h.le, h'.le⟩, mul_one]
      refine hd.congr_of_eventuallyEq ?_
      filter_upwards [hc.eventually (eventually_lt_nhds h'), hc.eventually (eventually_gt_nhds h)] with κ hκ hκ'
      exact clip01_id hκ'.le hκ.le
    · rw [if_neg (by rintro ⟨_, a⟩; linarith), mul_zero]
      refine (hasDerivAt_const k (1 : ℝ)).congr_of_eventuallyEq ?_
      filter_upwards [hc.eventually (eventually_gt_nhds h')] with κ hκ
      unfold VonMises.cdfSeries VonMises.clip01
      rw [max_eq_left (by linarith), min_eq_right hκ.le]

/-- At the ends of the turn and at its centre (where the unclipped sum is constantly `0`, `1` or `1/2`) the returned
derivative is `0`, the true one. -/
theorem C56_series_gradient_ends (k : ℝ) : VonMises.dcdfSeries (-π) k = 0 ∧ VonMises.dcdfSeries 0 k = 0 ∧
    VonMises.dcdfSeries π k = 0 := by
  have key : ∀ (x : ℝ), (∀ n : ℕ, Real.sin (n * x) = 0) → ∀ (n : ℕ) (acc : VonMises.SeriesAcc), acc.vn = 0 → acc.dvn = 0 →
      (VonMises.seriesLoop x k n acc).dvn = 0 := by
    intro x hs n
    induction n with
    | zero => exact fun acc _ h => h
    | succ n ih =>
      intro acc h1 h2
      rw [VonMises.seriesLoop]
      refine ih _ ?_ ?_
      · simp only [VonMises.seriesStep]; rw [hs, h1]; simp
      · simp only [VonMises.seriesStep]; rw [hs, h1, h2]; simp
  have a1 : ∀ n : ℕ, Real.sin (n * π) = 0 := fun n => Real.sin_nat_mul_pi n
  have a2 : ∀ n : ℕ, Real.sin (n * -π) = 0 := fun n => by rw [mul_neg, Real.sin_neg, a1, neg_zero]
  have a3 : ∀ n : ℕ, Real.sin (n * (0 : ℝ)) = 0 := fun n => by simp
  unfold VonMises.dcdfSeries
  simp only
  rw [key _ a1 20 _ rfl rfl, key _ a2 20 _ rfl rfl, key _ a3 20 _ rfl rfl]
  simp

/-! ### The exact CDF as a function of angle and concentration -/

noncomputable def vmG (x k : ℝ) : ℝ := ∫ t in (-π)..x, Real.exp (k * Real.cos t)

noncomputable def vmG' (x k : ℝ) : ℝ := ∫ t in (-π)..x, Real.exp (k * Real.cos t) * Real.cos t

theorem vmG_pos (k : ℝ) : 0 < vmG π k := by
  unfold vmG; rw [circle_bessel0]; have := bessel0_pos k; positivity

theorem vmF_eq (k x : ℝ) : vmF k x = vmG x k / vmG π k := by
  unfold vmF vmPdf vmG
  simp only [sub_zero]
  rw [circle_bessel0, intervalIntegral.integral_div]

theorem vmG_deriv_x (x k : ℝ) : HasDerivAt (fun y => vmG y k) (Real.exp (k * Real.cos x)) x :=
  intervalIntegral.integral_hasDerivAt_right ((vm_cont k).intervalIntegrable _ _)
    (vm_cont k).stronglyMeasurable.stronglyMeasurableAtFilter (vm_cont k).continuousAt

theorem vmG_deriv_k (x k : ℝ) : HasDerivAt (fun κ => vmG x κ) (vmG' x k) k := by
  refine (intervalIntegral.hasDerivAt_integral_of_dominated_loc_of_deriv_le (μ := volume) (a := -π) (b := x)
    (F := fun κ t => Real.exp (κ * Real.cos t)) (F' := fun κ t => Real.exp (κ * Real.cos t) * Real.cos t)
    (bound := fun _ => Real.exp (|k| + 1)) (Metric.ball_mem_nhds k one_pos) ?_ ?_ ?_ ?_ ?_ ?_).2
  · exact Eventually.of_forall fun κ => (vm_cont κ).aestronglyMeasurable
  · exact (vm_cont k).intervalIntegrable _ _
  · exact (by fun_prop : Continuous fun t => Real.exp (k * Real.cos t) * Real.cos t).aestronglyMeasurable
  · refine Eventually.of_forall fun t _ κ hκ => ?_
    rw [Real.norm_eq_abs, abs_mul, abs_of_pos (Real.exp_pos _)]
    have h1 := Real.abs_cos_le_one t
    have h2 : |κ| ≤ |k| + 1 := by
      rw [Metric.mem_ball, Real.dist_eq] at hκ
      have := abs_sub_abs_le_abs_sub κ k
      linarith
    have h3 : κ * Real.cos t ≤ |k| + 1 := by
      refine (le_abs_self _).trans ?_
      rw [abs_mul]
      calc |κ| * |Real.cos t| ≤ |κ| * 1 := mul_le_mul_of_nonneg_left h1 (abs_nonneg _)
        _ ≤ _ := by linarith
    exact (mul_le_of_le_one_right (Real.exp_pos _).le h1).trans (Real.exp_le_exp.mpr h3)
  · exact intervalIntegrable_const
  · refine Eventually.of_forall fun t _ κ _ => ?_
    have := ((hasDerivAt_id κ).mul_const (Real.cos t)).exp
    simpa using this

theorem vmG'_cont : Continuous fun u : ℝ × ℝ => vmG' u.1 u.2 := by
  unfold vmG'
  refine intervalIntegral.continuous_parametric_intervalIntegral_of_continuous
    (f := fun (u : ℝ × ℝ) t => Real.exp (u.2 * Real.cos t) * Real.cos t) ?_ continuous_fst
  unfold Function.uncurry
  fun_prop

/-- Partial derivatives of the exact CDF `(k, x) ↦ vmF k x`. -/
noncomputable def vmF' (k x : ℝ) : ℝ := (vmG' x k * vmG π k - vmG x k * vmG' π k) / vmG π k ^ 2

theorem vmF_deriv_k (k x : ℝ) : HasDerivAt (fun κ => vmF κ x) (vmF' k x) k := by
  have h := (vmG_deriv_k x k).div (vmG_deriv_k π k) (vmG_pos k).ne'
  exact h.congr_of_eventuallyEq (Eventually.of_forall fun κ => vmF_eq κ x)

theorem vmG_cont : Continuous fun u : ℝ × ℝ => vmG u.1 u.2 := by
  unfold vmG
  refine intervalIntegral.continuous_parametric_intervalIntegral_of_continuous
    (f := fun (u : ℝ × ℝ) t => Real.exp (u.2 * Real.cos t)) ?_ continuous_fst
  unfold Function.uncurry
  fun_prop

theorem vmF'_cont : Continuous fun u : ℝ × ℝ => vmF' u.1 u.2 := by
  unfold vmF'
  have h1 : Continuous fun u : ℝ × ℝ => vmG' u.2 u.1 := vmG'_cont.comp continuous_swap
  have h2 : Continuous fun u : ℝ × ℝ => vmG u.2 u.1 := vmG_cont.comp continuous_swap
  have h3 : Continuous fun u : ℝ × ℝ => vmG π u.1 := vmG_cont.comp (by fun_prop : Continuous fun u : ℝ × ℝ => (π, u.1))
  have h4 : Continuous fun u : ℝ × ℝ => vmG' π u.1 := vmG'_cont.comp (by fun_prop : Continuous fun u : ℝ × ℝ => (π, u.1))
  exact ((h1.mul h3).sub (h2.mul h4)).div (h3.pow 2) fun u => (pow_pos (vmG_pos _) 2).ne'

theorem vmPdf_cont2 : Continuous fun u : ℝ × ℝ => vmPdf ⟨0, u.1⟩ u.2 := by
  have e : (fun u : ℝ × ℝ => vmPdf ⟨0, u.1⟩ u.2) = fun u => Real.exp (u.1 * Real.cos u.2) / vmG π u.1 := by
    funext u; unfold vmPdf vmG; simp only [sub_zero]; rw [circle_bessel0]
  rw [e]
  have h3 : Continuous fun u : ℝ × ℝ => vmG π u.1 := vmG_cont.comp (by fun_prop : Continuous fun u : ℝ × ℝ => (π, u.1))
  exact (by fun_prop : Continuous fun u : ℝ × ℝ => Real.exp (u.1 * Real.cos u.2)).div h3 fun u => (vmG_pos _).ne'

/-- Partial derivatives as linear maps. -/
noncomputable def lin (a : ℝ) : ℝ →L[ℝ] ℝ := ContinuousLinearMap.toSpanSingleton ℝ a

theorem lin_cont : Continuous lin := by
  rw [continuous_clm_apply]
  intro y
  simp only [lin, ContinuousLinearMap.toSpanSingleton_apply, smul_eq_mul]
  fun_prop

theorem vmF_df1 (u : ℝ × ℝ) : HasFDerivAt (fun k => vmF k u.2) (lin (vmF' u.1 u.2)) u.1 := by
  simpa [lin] using (vmF_deriv_k u.1 u.2).hasFDerivAt

theorem vmF_df2 (u : ℝ × ℝ) : HasFDerivAt (fun x => vmF u.1 x) (lin (vmPdf ⟨0, u.1⟩ u.2)) u.2 := by
  simpa [lin] using (vmF_deriv u.1 u.2).hasFDerivAt

theorem vmF_strict (u : ℝ × ℝ) : HasStrictFDerivAt (fun v : ℝ × ℝ => vmF v.1 v.2)
    ((lin (vmF' u.1 u.2)).coprod (lin (vmPdf ⟨0, u.1⟩ u.2))) u :=
  hasStrictFDerivAt_uncurry_coprod (f := vmF) (f₁ := fun k x => lin (vmF' k x)) (f₂ := fun k x => lin (vmPdf ⟨0, k⟩ x))
    (Eventually.of_forall vmF_df1) (Eventually.of_forall vmF_df2)
    (lin_cont.comp vmF'_cont).continuousAt (lin_cont.comp vmPdf_cont2).continuousAt

theorem vmF_turn (k x : ℝ) (n : ℤ) : vmF k (x - 2 * π * n) = vmF k x - n := by
  have hi : ∀ a b, IntervalIntegrable (vmPdf ⟨0, k⟩) volume a b := fun a b => (vmPdf_cont _).intervalIntegrable a b
  have h2 := vm_turns_integral ⟨0, k⟩ (x - 2 * π * n) n
  rw [show x - 2 * π * n + n * (2 * π) = x by ring] at h2
  have := intervalIntegral.integral_add_adjacent_intervals (hi (-π) (x - 2 * π * n)) (hi (x - 2 * π * n) x)
  unfold vmF
  linarith

theorem vm_std_pdf (k : ℝ) : (fun t => Real.exp ((VonMises.mk 0 k).logProb t)) = vmPdf ⟨0, k⟩ := by
  funext x
  rw [← Real.exp_log (vmPdf_pos _ x), log_vmPdf]; rfl

/-- The exact CDF of the standard law with concentration `k`, extended to the line: the integral of the density from
`-π`. -/
noncomputable def stdCdf (k x : ℝ) : ℝ := ∫ t in (-π)..x, Real.exp ((VonMises.mk 0 k).logProb t)

theorem stdCdf_eq (k x : ℝ) : stdCdf k x = vmF k x := by
  unfold stdCdf vmF
  exact congrArg (fun f => ∫ t in (-π)..x, f t) (vm_std_pdf k)

theorem tangent_prob {k : ℝ} (hk : 0 ≤ k) (x : ℝ) (n : ℤ) :
    Real.exp (k * (Real.cos (x - 2 * π * n) - 1)) / (2 * π * i0e k) = vmPdf ⟨0, k⟩ x := by
  have := vm_prob_eq ⟨0, k⟩ hk x
  rw [← this]
  unfold VonMises.prob
  simp only [sub_zero]
  rw [show x - 2 * π * n = x + (-n : ℤ) * (2 * π) by push_cast; ring, Real.cos_add_int_mul_two_pi]

theorem cdfTangent_eq {dcore : ℝ → ℝ → ℝ} {k : ℝ} (hk : 0 ≤ k)
    (h : ∀ y, -π ≤ y → y ≤ π → HasDerivAt (fun κ => stdCdf κ y) (dcore y k) k) (x dx dk : ℝ) :
    VonMises.cdfTangent dcore x k dx dk = dk * vmF' k x + dx * vmPdf ⟨0, k⟩ x := by
  have hp := C40_angle_partial x
  have h1 := h _ hp.2.1 hp.2.2.1
  have e : (fun κ => stdCdf κ (convertAngle x)) = fun κ => vmF κ x - (rint (x / (2 * π)) : ℝ) := by
    funext κ; rw [stdCdf_eq]; exact vmF_turn κ x _
  rw [e] at h1
  have h2 := (vmF_deriv_k k x).sub_const (rint (x / (2 * π)) : ℝ)
  have h3 : dcore (convertAngle x) k = vmF' k x := h1.unique h2
  unfold VonMises.cdfTangent
  simp only
  rw [tangent_prob hk]
  have : x - 2 * π * (rint (x / (2 * π)) : ℝ) = convertAngle x := rfl
  rw [this, h3]

/-- The `custom_jvp` rule of the CDF is the derivative of the exact CDF along every differentiable curve of
(angle, concentration), when the recipe's concentration derivative is exact on one turn. -/
theorem C56_cdf_jvp (dcore : ℝ → ℝ → ℝ) (X K : ℝ → ℝ) (t dx dk : ℝ) (hX : HasDerivAt X dx t) (hK : HasDerivAt K dk t)
    (hk : 0 ≤ K t) (h : ∀ y, -π ≤ y → y ≤ π → HasDerivAt (fun κ => stdCdf κ y) (dcore y (K t)) (K t)) :
    HasDerivAt (fun s => stdCdf (K s) (X s)) (VonMises.cdfTangent dcore (X t) (K t) dx dk) t := by
  rw [cdfTangent_eq hk h]
  have h1 : HasDerivAt (fun s => (K s, X s)) (dk, dx) t := hK.prodMk hX
  have h2 := (vmF_strict (K t, X t)).hasFDerivAt.comp_hasDerivAt t h1
  have e : (fun s => stdCdf (K s) (X s)) = (fun v : ℝ × ℝ => vmF v.1 v.2) ∘ fun s => (K s, X s) := by
    funext s; exact stdCdf_eq _ _
  rw [e]
  refine h2.congr_deriv ?_
  simp [lin]

/-- The reparameterisation rule of the sampler.  Through every sample there is a curve of samples, as the concentration
varies, along which the CDF stays constant; it is differentiable, every such differentiable curve has the same derivative,
and that derivative is the tangent the code returns. -/
theorem C56_sample_jvp (dcore : ℝ → ℝ → ℝ) (s k : ℝ) (hk : 1e-7 ≤ k)
    (h : ∀ y, -π ≤ y → y ≤ π → HasDerivAt (fun κ => stdCdf κ y) (dcore y k) k) :
    (∃ S : ℝ → ℝ, S k = s ∧ (∀ᶠ κ in 𝓝 k, stdCdf κ (S κ) = stdCdf k s) ∧
      HasDerivAt S (VonMises.sampleTangent dcore s k 1) k) ∧
    (∀ (S : ℝ → ℝ) (ds : ℝ), S k = s → (∀ᶠ κ in 𝓝 k, stdCdf κ (S κ) = stdCdf k s) → HasDerivAt S ds k →
      ∀ dk, VonMises.sampleTangent dcore s k dk = dk * ds) := by
  have hk0 : 0 ≤ k := le_trans (by norm_num) hk
  have hpdf := vmPdf_pos ⟨0, k⟩ s
  have hval : ∀ dk, VonMises.sampleTangent dcore s k dk = dk * (-(vmF' k s / vmPdf ⟨0, k⟩ s)) := by
    intro dk
    unfold VonMises.sampleTangent
    simp only
    rw [max_eq_left hk, cdfTangent_eq hk0 h]
    have e : Real.exp (-k * (Real.cos s - 1)) * (2 * π * i0e k) = 1 / vmPdf ⟨0, k⟩ s := by
      have := tangent_prob hk0 s 0
      rw [Int.cast_zero, mul_zero, sub_zero] at this
      rw [← this, neg_mul, Real.exp_neg]
      have := i0e_pos k
      field_simp
    rw [e]; ring
  have huniq : ∀ (S : ℝ → ℝ) (ds : ℝ), S k = s → (∀ᶠ κ in 𝓝 k, stdCdf κ (S κ) = stdCdf k s) → HasDerivAt S ds k →
      ds = -(vmF' k s / vmPdf ⟨0, k⟩ s) := by
    intro S ds hS hc hd
    have h1 : HasDerivAt (fun κ => stdCdf κ (S κ)) (VonMises.cdfTangent dcore (S k) k ds 1) k :=
      C56_cdf_jvp dcore S id k ds 1 hd (hasDerivAt_id k) hk0 h
    have h2 : HasDerivAt (fun κ => stdCdf κ (S κ)) 0 k := (hasDerivAt_const k (stdCdf k s)).congr_of_eventuallyEq hc
    have h3 := h1.unique h2
    rw [cdfTangent_eq hk0 h, hS] at h3
    field_simp
    linarith
  refine ⟨?_, fun S ds hS hc hd dk => by rw [hval, huniq S ds hS hc hd]⟩
  have hinv : (lin (vmPdf ⟨0, k⟩ s)).IsInvertible := by
    refine ⟨ContinuousLinearEquiv.unitsEquivAut ℝ (Units.mk0 _ hpdf.ne'), ?_⟩
    ext
    simp [lin]
  have df1 : ∀ᶠ v in 𝓝 ((k, s) : ℝ × ℝ), HasFDerivAt (vmF · v.2) (lin (vmF' v.1 v.2)) v.1 := Eventually.of_forall vmF_df1
  have df2 : ∀ᶠ v in 𝓝 ((k, s) : ℝ × ℝ), HasFDerivAt (vmF v.1 ·) (lin (vmPdf ⟨0, v.1⟩ v.2)) v.2 := Eventually.of_forall vmF_df2
  let f1 : ℝ → ℝ → ℝ →L[ℝ] ℝ := fun k x => lin (vmF' k x)
  let f2 : ℝ → ℝ → ℝ →L[ℝ] ℝ := fun k x => lin (vmPdf ⟨0, k⟩ x)
  have cf1 : ContinuousAt (Function.uncurry f1) (k, s) := (lin_cont.comp vmF'_cont).continuousAt
  have cf2 : ContinuousAt (Function.uncurry f2) (k, s) := (lin_cont.comp vmPdf_cont2).continuousAt
  have hev := eventually_apply_implicitFunctionOfBivariate (f := vmF) (f₁ := f1) (f₂ := f2) (u := (k, s)) df1 df2 cf1 cf2 hinv
  have hiff := eventually_apply_eq_iff_implicitFunctionOfBivariate (f := vmF) (f₁ := f1) (f₂ := f2) (u := (k, s)) df1 df2 cf1 cf2 hinv
  have hder := hasStrictFDerivAt_implicitFunctionOfBivariate (f := vmF) (f₁ := f1) (f₂ := f2) (u := (k, s)) df1 df2 cf1 cf2 hinv
  set S := implicitFunctionOfBivariate (f := vmF) (f₁ := f1) (f₂ := f2) (u := (k, s)) df1 df2 cf1 cf2 hinv with hSdef
  have hSk : S k = s := (hiff.self_of_nhds).1 rfl
  have hconst : ∀ᶠ κ in 𝓝 k, stdCdf κ (S κ) = stdCdf k s := by
    filter_upwards [hev] with κ hκ
    rw [stdCdf_eq, stdCdf_eq]; exact hκ
  have hd := hder.hasFDerivAt.hasDerivAt
  refine ⟨S, hSk, hconst, ?_⟩
  rw [hval, one_mul, ← huniq S _ hSk hconst hd]
  exact hd

/-- The hypothesis of the two rules can be met. -/
example : ∃ dcore : ℝ → ℝ → ℝ, ∀ y, -π ≤ y → y ≤ π → HasDerivAt (fun κ => stdCdf κ y) (dcore y 3) 3 :=
  ⟨fun y k => vmF' k y, fun y _ _ => (vmF_deriv_k 3 y).congr_of_eventuallyEq (Eventually.of_forall fun κ => stdCdf_eq κ y)⟩

end Distrax
