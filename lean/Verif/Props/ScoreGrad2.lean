import Verif.Props.ScoreGrad
import Verif.Props.PathwiseVM

/-! C73, continued: von Mises; the Uniform bias; sampling without reparameterisation. -/

namespace Distrax

open MeasureTheory Filter Topology Spec ProbabilityTheory

variable {t : ℝ}

/-! ### von Mises -/

theorem bessel0_deriv (k : ℝ) : HasDerivAt bessel0 (bessel1 k) k := by
  have h := deriv_param (h := fun _ => 1) continuous_const (F := fun k x => Real.exp (k * Real.cos x))
    (F' := fun k x => Real.exp (k * Real.cos x) * Real.cos x)
    (fun m x => by simpa using ((hasDerivAt_id m).mul_const (Real.cos x)).exp)
    (fun m => by fun_prop) (by unfold Function.uncurry; fun_prop) 0 Real.pi k
  simp only [one_mul] at h
  exact h.div_const _

theorem bessel1_cont : Continuous bessel1 := by
  refine continuous_iff_continuousAt.2 fun k => ?_
  have h := deriv_param (h := fun x => Real.cos x) Real.continuous_cos (F := fun k x => Real.exp (k * Real.cos x))
    (F' := fun k x => Real.exp (k * Real.cos x) * Real.cos x)
    (fun m x => by simpa using ((hasDerivAt_id m).mul_const (Real.cos x)).exp)
    (fun m => by fun_prop) (by unfold Function.uncurry; fun_prop) 0 Real.pi k
  have h2 : ContinuousAt (fun k => (∫ x in (0 : ℝ)..Real.pi, Real.cos x * Real.exp (k * Real.cos x)) / Real.pi) k :=
    (h.div_const Real.pi).continuousAt
  refine h2.congr (Eventually.of_forall fun s => ?_)
  simp only [bessel1, mul_comm]

/-- Von Mises, in the location and the concentration: unbiased for every test function, in particular for those for which the
gradient through the sample is wrong (`C69_von_mises_loc_biased`). -/
theorem C73_von_mises {loc conc : Param} (hl : Curve loc.val loc.der) (hc : Curve conc.val conc.der) (hpos : 0 < conc.val t)
    {f : ℝ → ℝ} (hf : PolyGrowth f) :
    ScoreUnbiased (fun s => vonMisesLaw (loc.val s) (conc.val s))
      (fun x => Dual.vonMisesLogProb (loc.at t) (conc.at t) (Dual.const x)) f t := by
  set μ := volume.restrict (Set.Ioc (-Real.pi) Real.pi) with hμ
  obtain ⟨hfm, K, k, hK⟩ := hf
  have hid : Tame μ lineGauge (fun _ x => x) (fun x => Dual.const x) t :=
    Tame.fixed measurable_id (K := 1) (k := 1) (fun x => by unfold lineGauge; simp) lineGauge_one
  have hcos : Tame μ lineGauge (fun s x => Real.cos (x - loc.val s)) (fun x => Dual.cos (Dual.const x - loc.at t)) t := by
    refine (hid.sub lineGauge_one (Tame.param (curve_contDiff hl t) (hl.deriv t))).lip lineGauge_one (φ := Real.cos) (L := 1)
      (by fun_prop) zero_le_one (fun a b => ?_) (fun x => rfl) (ae_of_all _ fun x => ⟨_, Real.hasDerivAt_cos _, ?_⟩)
    · rw [one_mul]; exact Real.abs_cos_sub_cos_le a b
    · simp only [Dual.cos, Param.at]; ring
  have hbc : Curve (fun s => bessel0 (conc.val s)) (fun s => bessel1 (conc.val s) * conc.der s) :=
    ⟨fun s => (bessel0_deriv _).comp s (hc.deriv s), (bessel1_cont.comp
      (continuous_iff_continuousAt.2 fun s => (hc.deriv s).continuousAt)).mul hc.cont⟩
  have hlp : Tame μ lineGauge (fun s x => VonMises.logProb ⟨loc.val s, conc.val s⟩ x)
      (fun x => Dual.vonMisesLogProb (loc.at t) (conc.at t) (Dual.const x)) t := by
    refine ((((Tame.param (curve_contDiff hc t) (hc.deriv t)).mul lineGauge_one hcos).sub lineGauge_one
      (Tame.const (Real.log (2 * Real.pi)) lineGauge_one)).sub lineGauge_one
      (log_scale_tame hbc (bessel0_pos _))).congr fun x => ?_
    ext
    · rfl
    · simp only [Dual.vonMisesLogProb, Dual.tan_sub, Dual.tan_mul, Dual.log, Dual.i0, Param.at, Dual.tan_const]
      ring
  have hdom : Dominated μ lineGauge (fun s x => VonMises.logProb ⟨loc.val s, conc.val s⟩ x) t := by
    have c1 : ContinuousAt (fun s => |conc.val s| - Real.log (2 * Real.pi) - Real.log (bessel0 (conc.val s))) t :=
      (((hc.deriv t).continuousAt.abs).sub continuousAt_const).sub ((hbc.deriv t).continuousAt.log (bessel0_pos _).ne')
    refine ⟨fun _ => Real.exp (|conc.val t| - Real.log (2 * Real.pi) - Real.log (bessel0 (conc.val t)) + 1), fun k => ?_, ?_⟩
    · refine (ContinuousOn.integrableOn_Icc ?_).mono_set Set.Ioc_subset_Icc_self
      unfold lineGauge; fun_prop
    · filter_upwards [c1.eventually_lt (continuousAt_const (y := _ + 1)) (lt_add_one _)] with s hs x
      refine Real.exp_le_exp.2 (le_trans ?_ hs.le)
      simp only [VonMises.logProb]
      have : conc.val s * Real.cos (x - loc.val s) ≤ |conc.val s| := by
        refine (le_abs_self _).trans ?_
        rw [abs_mul]
        exact mul_le_of_le_one_right (abs_nonneg _) (Real.abs_cos_le_one _)
      linarith
  have hsc := score_of_tame lineGauge_one hlp hdom hfm hK
  have hnear : ∀ᶠ s in 𝓝 t, 0 < conc.val s := (hc.deriv t).continuousAt.eventually (lt_mem_nhds hpos)
  have elaw : ∀ s, 0 < conc.val s → vonMisesLaw (loc.val s) (conc.val s) =
      densLaw μ fun x => Real.exp (VonMises.logProb ⟨loc.val s, conc.val s⟩ x) := fun s hs => by
    unfold vonMisesLaw
    congr 1
    funext x
    rw [vm_prob_eq _ hs.le, vmPdf, VonMises.logProb, Real.exp_sub, Real.exp_sub, Real.exp_log (bessel0_pos _),
      Real.exp_log (by positivity)]
    field_simp
  obtain ⟨h1, h2, h3⟩ := hsc
  refine ⟨?_, ?_, ?_⟩
  · filter_upwards [h1, hnear] with s hs hs'
    rw [elaw s hs']; exact hs
  · beta_reduce; rw [elaw t hpos]; exact h2
  · beta_reduce; rw [elaw t hpos]
    refine h3.congr_of_eventuallyEq ?_
    filter_upwards [hnear] with s hs
    rw [elaw s hs]

/-! ### Uniform -/

theorem uniform_integral {a b : ℝ} (h : a < b) (f : ℝ → ℝ) :
    ∫ x, f x ∂lawOf (Uniform.prob ⟨a, b⟩) = (∫ x in a..b, f x) / (b - a) := by
  have hp := (C29_uniform_law ⟨a, b⟩ h).1
  have hm : Measurable (Uniform.prob ⟨a, b⟩) := by
    have : Uniform.prob ⟨a, b⟩ = (Set.Icc a b).indicator fun _ => 1 / (b - a) := by
      funext x
      unfold Uniform.prob Uniform.range
      by_cases hx : x ∈ Set.Icc a b
      · rw [Set.indicator_of_mem hx, if_neg]; rintro (h | h); exacts [absurd hx.1 (not_le.2 h), absurd hx.2 (not_le.2 h)]
      · rw [Set.indicator_of_notMem hx, if_pos]
        by_contra h'
        push Not at h'
        exact hx ⟨h'.1, h'.2⟩
    rw [this]; exact measurable_const.indicator measurableSet_Icc
  have e := (densLaw_integral (μ := volume) (f := f) hm hp.nonneg).2
  rw [show lawOf (Uniform.prob ⟨a, b⟩) = densLaw volume (Uniform.prob ⟨a, b⟩) from rfl, e,
    intervalIntegral.integral_of_le h.le, ← integral_Icc_eq_integral_Ioc, div_eq_inv_mul, ← integral_const_mul,
    ← integral_indicator measurableSet_Icc]
  refine integral_congr_ae (ae_of_all _ fun x => ?_)
  simp only [Uniform.prob, Uniform.range]
  by_cases hx : x ∈ Set.Icc a b
  · rw [Set.indicator_of_mem hx, if_neg]
    · rw [one_div]
    · rintro (h | h); exacts [absurd hx.1 (not_le.2 h), absurd hx.2 (not_le.2 h)]
  · rw [Set.indicator_of_notMem hx, if_pos, zero_mul]
    by_contra h'
    push Not at h'
    exact hx ⟨h'.1, h'.2⟩

/-- Uniform: the score-function gradient misses exactly the contribution of the moving ends of the support. -/
theorem C73_uniform_bias {low high : Param} (hl : Curve low.val low.der) (hh : Curve high.val high.der)
    (hlt : low.val t < high.val t) {f : ℝ → ℝ} (hf : Continuous f) :
    HasDerivAt (fun s => ∫ x, f x ∂lawOf (Uniform.prob ⟨low.val s, high.val s⟩))
      ((∫ x, f x * (Dual.uniformLogProb (low.at t) (high.at t)).tan ∂lawOf (Uniform.prob ⟨low.val t, high.val t⟩)) +
        (f (high.val t) * high.der t - f (low.val t) * low.der t) / (high.val t - low.val t)) t := by
  have hnear : ∀ᶠ s in 𝓝 t, low.val s < high.val s := (hl.deriv t).continuousAt.eventually_lt (hh.deriv t).continuousAt hlt
  have htan : (Dual.uniformLogProb (low.at t) (high.at t)).tan = -(high.der t - low.der t) / (high.val t - low.val t) := by
    have : high.val t - low.val t ≠ 0 := by linarith
    simp only [Dual.uniformLogProb, Dual.log, Dual.tan_div, Dual.val_div, Dual.tan_const, Dual.val_const, Dual.val_sub, Dual.tan_sub,
      Param.at]
    field_simp
    ring
  have hii : ∀ a b, IntervalIntegrable f volume a b := fun a b => hf.intervalIntegrable a b
  have hF : ∀ x, HasDerivAt (fun y => ∫ u in (0 : ℝ)..y, f u) (f x) x := fun x =>
    intervalIntegral.integral_hasDerivAt_right (hii _ _) hf.aestronglyMeasurable.stronglyMeasurableAtFilter hf.continuousAt
  have hd : HasDerivAt (fun s => ∫ u in low.val s..high.val s, f u) (f (high.val t) * high.der t - f (low.val t) * low.der t) t := by
    refine (((hF _).comp t (hh.deriv t)).sub ((hF _).comp t (hl.deriv t))).congr_of_eventuallyEq (Eventually.of_forall fun s => ?_)
    exact (intervalIntegral.integral_interval_sub_left (hii _ _) (hii _ _)).symm
  have hq := hd.div ((hh.deriv t).sub (hl.deriv t)) (by simp only [Pi.sub_apply]; linarith)
  refine (hq.congr_of_eventuallyEq ?_).congr_deriv ?_
  · filter_upwards [hnear] with s hs
    simp only [Pi.div_apply, Pi.sub_apply]
    exact uniform_integral hs f
  · rw [integral_mul_const, uniform_integral hlt, htan]
    simp only [Pi.sub_apply]
    have : high.val t - low.val t ≠ 0 := by linarith
    generalize ∫ u in low.val t..high.val t, f u = I
    field_simp
    ring

/-- So it is wrong whenever that contribution is not zero, for example for the mean of `Uniform(0, s)`. -/
theorem C73_uniform_biased {low high : Param} (hl : Curve low.val low.der) (hh : Curve high.val high.der)
    (hlt : low.val t < high.val t) {f : ℝ → ℝ} (hf : Continuous f)
    (hb : f (high.val t) * high.der t ≠ f (low.val t) * low.der t) :
    ¬ ScoreUnbiased (fun s => lawOf (Uniform.prob ⟨low.val s, high.val s⟩))
      (fun _ => Dual.uniformLogProb (low.at t) (high.at t)) f t := fun h => by
  have e := h.2.2.unique (C73_uniform_bias hl hh hlt hf)
  have h0 : (f (high.val t) * high.der t - f (low.val t) * low.der t) / (high.val t - low.val t) = 0 := by linarith
  rcases div_eq_zero_iff.1 h0 with h1 | h1
  · exact hb (by linarith)
  · linarith

example : ¬ ScoreUnbiased (fun s => lawOf (Uniform.prob ⟨0, s⟩)) (fun _ => Dual.uniformLogProb ⟨0, 0⟩ ⟨1, 1⟩) (fun x => x) 1 :=
  C73_uniform_biased (low := ⟨fun _ => 0, fun _ => 0⟩) (high := ⟨fun s => s, fun _ => 1⟩) (curve_const 0)
    ⟨fun s => hasDerivAt_id s, continuous_const⟩ (by norm_num) continuous_id (by norm_num)

/-! ### Samples that are not reparameterised -/

/-- `mc_estimate_kl_with_reparameterized` accepts every distrax distribution `a`, also when its samples do not depend
differentiably on the parameter (mixture weights, discrete distributions).  Here the samples are constants for the derivative
and `b` does not depend on the parameter: the reported gradient is zero on average, whatever the divergence does. -/
theorem C73_reparam_not_reparameterized (a : ScalarDist) (ha : Valid t a) (lpB : ℝ → ℝ) {n : ℕ} (hn : 0 < n) :
    ∫ z, (Dual.mean fun i : Fin n => Dual.reparamTerm (a.logProb t (Dual.const (z i))) (Dual.const (lpB (z i)))).tan
      ∂Measure.pi (fun _ => sampleLaw a t) = 0 := by
  have := lawOf_prob (C73_density a ha).self_of_nhds
  have h := C73_score_zero a ha
  have := pi_mean (n := n) (ν := lawOf fun x => density t x a) hn h.1
  refine Eq.trans ?_ (this.2.trans h.2)
  refine integral_congr_ae (ae_of_all _ fun z => ?_)
  simp only [Dual.tan_mean, Dual.reparamTerm, Dual.tan_neg, Dual.tan_sub, Dual.tan_const, zero_sub, neg_neg]

/-- A mixture of two unit normals, as a function of its weight. -/
def weightCurve (c : ℝ → ℝ) (c' : ℝ → ℝ) : ScalarDist :=
  .mixtureOfTwo ⟨c, c'⟩ (.normal ⟨fun _ => 0, fun _ => 0⟩ ⟨fun _ => 1, fun _ => 0⟩)
    (.normal ⟨fun _ => 1, fun _ => 0⟩ ⟨fun _ => 1, fun _ => 0⟩)

theorem weightCurve_valid {c c' : ℝ → ℝ} (hc : Curve c c') (h0 : 0 < c t) (h1 : c t < 1) : Valid t (weightCurve c c') :=
  ⟨hc, h0, h1, ⟨curve_const 0, curve_const 1, one_pos⟩, ⟨curve_const 1, curve_const 1, one_pos⟩⟩

/-- The divergence of that mixture from the balanced one does change with the weight (at 3/4). -/
theorem C73_reparam_mixture_weight_wrong {n : ℕ} (hn : 0 < n) :
    ¬ HasDerivAt (fun s => klInt volume (fun x => density s x (weightCurve (fun s => s) fun _ => 1))
        fun x => density s x (weightCurve (fun _ => 1 / 2) fun _ => 0))
      (∫ z, (Dual.mean fun i : Fin n => Dual.reparamTerm
          ((weightCurve (fun s => s) fun _ => 1).logProb (3 / 4) (Dual.const (z i)))
          ((weightCurve (fun _ => 1 / 2) fun _ => 0).logProb (3 / 4) (Dual.const (z i)))).tan
        ∂Measure.pi (fun _ => sampleLaw (weightCurve (fun s => s) fun _ => 1) (3 / 4))) (3 / 4) := by
  set a := weightCurve (fun s => s) fun _ => 1 with ha
  set b := weightCurve (fun _ => 1 / 2) fun _ => 0 with hb
  have va : Valid (3 / 4) a := weightCurve_valid ⟨fun s => hasDerivAt_id s, continuous_const⟩ (by norm_num) (by norm_num)
  have vb : Valid (3 / 4) b := weightCurve_valid (curve_const _) (by norm_num) (by norm_num)
  have htb : ∀ x, (b.logProb (3 / 4) (Dual.const x)).tan = 0 := fun x => by
    simp [hb, weightCurve, ScalarDist.logProb, Dual.mixtureOfTwoLogProb, Dual.logaddexp, Dual.normalLogProb, Dual.standardize,
      Dual.square, Dual.log, Param.at, Dual.tan_add, Dual.tan_sub, Dual.tan_mul, Dual.tan_div, Dual.tan_const]
  intro h
  have hz : ∀ z : Fin n → ℝ, (Dual.mean fun i : Fin n => Dual.reparamTerm (a.logProb (3 / 4) (Dual.const (z i)))
      (b.logProb (3 / 4) (Dual.const (z i)))).tan = (Dual.mean fun i : Fin n => Dual.reparamTerm
        (a.logProb (3 / 4) (Dual.const (z i))) (Dual.const 0)).tan := fun z => by
    simp only [Dual.tan_mean, Dual.reparamTerm, Dual.tan_neg, Dual.tan_sub, htb, Dual.tan_const]
  simp only [hz] at h
  rw [C73_reparam_not_reparameterized a va (fun _ => 0) hn] at h
  have hla := dist_line a va ⟨trivial, trivial⟩
  have hlb := dist_line b vb ⟨trivial, trivial⟩
  obtain ⟨k1, k2, k3⟩ := expect_deriv lineGauge_one hla.1 hla.2 (hla.1.sub lineGauge_one hlb.1)
  have hp := density_pos a va
  have hk : HasDerivAt (fun s => klInt volume (fun x => density s x a) fun x => density s x b) _ (3 / 4) :=
    k3.congr_of_eventuallyEq (by
      filter_upwards [hp] with s hs
      simp only [klInt, Real.exp_log (hs _)])
  have e := hk.unique h
  set A : ℝ → ℝ := fun x => Normal.prob ⟨0, 1⟩ x with hA
  set B : ℝ → ℝ := fun x => Normal.prob ⟨1, 1⟩ x with hB
  have da : ∀ s x, density s x a = s * A x + (1 - s) * B x := fun s x => rfl
  have db : ∀ s x, density s x b = 1 / 2 * A x + (1 - 1 / 2) * B x := fun s x => rfl
  have hAp : ∀ x, 0 < A x := fun x => Real.exp_pos _
  have hBp : ∀ x, 0 < B x := fun x => Real.exp_pos _
  have hs : ∀ᵐ x, density (3 / 4) x a * (a.logProb (3 / 4) (Dual.const x)).tan = A x - B x := by
    filter_upwards [density_deriv a va] with x hx
    have h2 : HasDerivAt (fun s => s * A x + (1 - s) * B x) (1 * A x + (-1) * B x) (3 / 4) :=
      ((hasDerivAt_id _).mul_const _).add (((hasDerivAt_id _).const_sub 1).mul_const _)
    have := hx.unique h2
    linarith
  set G : ℝ → ℝ := fun x => (A x - B x) * (Real.log (3 / 4 * A x + (1 - 3 / 4) * B x) - Real.log (1 / 2 * A x + (1 - 1 / 2) * B x))
    with hG
  have hsc := C73_score_zero a va
  have hsd := (densLaw_integral (μ := volume) (f := fun x => (a.logProb (3 / 4) (Dual.const x)).tan) (density_meas a (3 / 4))
    fun x => (hp.self_of_nhds x).le)
  have hs0 : ∫ x, density (3 / 4) x a * (a.logProb (3 / 4) (Dual.const x)).tan = 0 := hsd.2.symm.trans hsc.2
  have hsi : Integrable fun x => density (3 / 4) x a * (a.logProb (3 / 4) (Dual.const x)).tan := hsd.1.1 hsc.1
  have key : ∀ᵐ x, Real.exp (Real.log (density (3 / 4) x a)) * ((a.logProb (3 / 4) (Dual.const x)).tan *
      (Real.log (density (3 / 4) x a) - Real.log (density (3 / 4) x b)) +
      (a.logProb (3 / 4) (Dual.const x) - b.logProb (3 / 4) (Dual.const x)).tan) =
      G x + density (3 / 4) x a * (a.logProb (3 / 4) (Dual.const x)).tan := by
    filter_upwards [hs] with x hx
    rw [Real.exp_log (hp.self_of_nhds x), Dual.tan_sub, htb, sub_zero, mul_add, ← mul_assoc, hx, da, db]
  have hGi : Integrable G := by
    have := (k2.congr key).sub hsi
    refine this.congr (ae_of_all _ fun x => ?_)
    simp
  rw [integral_congr_ae key, integral_add hGi hsi, hs0, add_zero] at e
  have hG0 : ∀ x, 0 ≤ G x := fun x => by
    rcases le_total (B x) (A x) with hx | hx
    · refine mul_nonneg (by linarith) (sub_nonneg.2 (Real.log_le_log ?_ ?_)) <;> [skip; linarith]
      have := hAp x; have := hBp x; linarith
    · refine mul_nonneg_of_nonpos_of_nonpos (by linarith) (sub_nonpos.2 (Real.log_le_log ?_ ?_)) <;> [skip; linarith]
      have := hAp x; have := hBp x; linarith
  have hGc : Continuous G := by
    have c1 : Continuous A := by simp only [hA, Normal.prob, Normal.logProb, Normal.standardize]; fun_prop
    have c2 : Continuous B := by simp only [hB, Normal.prob, Normal.logProb, Normal.standardize]; fun_prop
    refine (c1.sub c2).mul ((Continuous.log (by fun_prop) fun x => ?_).sub (Continuous.log (by fun_prop) fun x => ?_))
    · have := hAp x; have := hBp x; exact (by linarith : 0 < 3 / 4 * A x + (1 - 3 / 4) * B x).ne'
    · have := hAp x; have := hBp x; exact (by linarith : 0 < 1 / 2 * A x + (1 - 1 / 2) * B x).ne'
  have hz0 : G =ᵐ[volume] 0 := (integral_eq_zero_iff_of_nonneg hG0 hGi).1 e
  have hzz : G = 0 := (hGc.ae_eq_iff_eq volume continuous_zero).1 hz0
  have h1 : A 0 > B 0 := by
    simp only [hA, hB, Normal.prob, Normal.logProb, Normal.standardize]
    refine Real.exp_lt_exp.2 ?_
    rw [show ((0 : ℝ) - 1) / 1 = -1 by norm_num, show ((0 : ℝ) - 0) / 1 = 0 by norm_num]
    linarith
  have h2 : G 0 = 0 := by rw [hzz]; rfl
  have h3 : 0 < G 0 := by
    refine mul_pos (by linarith) (sub_pos.2 (Real.log_lt_log ?_ ?_)) <;> [skip; linarith]
    have := hAp 0; have := hBp 0; linarith
  linarith

/-! ### Hypotheses -/

/-- A mixture of a Laplace, a Gumbel and a bounded-scale normal, all of them moving. -/
noncomputable def mixedExample : ScalarDist :=
  .mixtureSameFamily 2 ![⟨fun s => s, fun _ => 1⟩, ⟨fun _ => 0, fun _ => 0⟩]
    ![.mixtureOfTwo ⟨fun s => s / 2, fun _ => 1 / 2⟩ (.laplace ⟨fun s => s, fun _ => 1⟩ ⟨fun _ => 2, fun _ => 0⟩)
        (.gumbel ⟨fun _ => 0, fun _ => 0⟩ ⟨fun s => s, fun _ => 1⟩),
      .logStddevNormal (some 3) ⟨fun _ => 0, fun _ => 0⟩ ⟨fun s => s, fun _ => 1⟩]

theorem mixedExample_valid : Valid 1 mixedExample := by
  have hid : Curve (fun s : ℝ => s) fun _ => 1 := ⟨fun s => hasDerivAt_id s, continuous_const⟩
  refine ⟨two_pos, fun k => ?_, fun k => ?_⟩
  · fin_cases k
    · exact hid
    · exact curve_const 0
  · fin_cases k
    · exact ⟨⟨fun s => (hasDerivAt_id s).div_const 2, continuous_const⟩, by norm_num, by norm_num,
        ⟨hid, curve_const 2, two_pos⟩, ⟨curve_const 0, hid, one_pos⟩⟩
    · exact ⟨curve_const 0, hid⟩

/-- A discontinuous test function. -/
example : ScoreUnbiased (sampleLaw mixedExample) (fun x => mixedExample.logProb 1 (Dual.const x))
    (Set.indicator (Set.Ioi 0) fun x => x ^ 2) 1 :=
  C73_score _ mixedExample_valid ⟨(measurable_id.pow_const 2).indicator measurableSet_Ioi, 1, 2, fun x => by
    by_cases h : x ∈ Set.Ioi (0 : ℝ)
    · rw [Set.indicator_of_mem h, one_mul, abs_pow]
      exact pow_le_pow_left₀ (abs_nonneg _) (by linarith) 2
    · rw [Set.indicator_of_notMem h, abs_zero]; positivity⟩

example : EstimatesWithGradient (Measure.pi fun _ : Fin 5 => sampleLaw (.normal ⟨fun s => s, fun _ => 1⟩ ⟨fun _ => 2, fun _ => 0⟩) 1)
    (fun z => Dual.mean fun i => Dual.diceTerm
      (ScalarDist.logProb 1 (Dual.const (z i)) (.normal ⟨fun s => s, fun _ => 1⟩ ⟨fun _ => 2, fun _ => 0⟩))
      (mixedExample.logProb 1 (Dual.const (z i)))
      (ScalarDist.logProb 1 (Dual.const (z i)) (.normal ⟨fun s => s, fun _ => 1⟩ ⟨fun _ => 2, fun _ => 0⟩)).val)
    (fun s => klInt volume (fun x => density s x (.normal ⟨fun s => s, fun _ => 1⟩ ⟨fun _ => 2, fun _ => 0⟩))
      fun x => density s x mixedExample) 1 :=
  C73_mc_kl_default (a := .normal ⟨fun s => s, fun _ => 1⟩ ⟨fun _ => 2, fun _ => 0⟩) ⟨⟨fun s => hasDerivAt_id s, continuous_const⟩, curve_const 2, two_pos⟩ mixedExample_valid (Or.inl trivial)
    (by norm_num)

end Distrax
