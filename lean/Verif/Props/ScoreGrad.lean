import Verif.Lemmas.ScoreGrad3
import Verif.Spec.ScoreGrad
import Verif.Props.Pathwise
import Verif.Props.Mixture

/-! C73: score-function gradients and the gradients of the Monte-Carlo KL estimators are unbiased. -/

namespace Distrax

open MeasureTheory Filter Topology Spec ProbabilityTheory

variable {t : ℝ}

/-- The modelled log-probability is the logarithm of the density, for every distribution built from the families. -/
theorem C73_values (d : ScalarDist) (hd : Valid t d) (x : ℝ) :
    Real.exp (d.logProb t (Dual.const x)).val = density t x d := by
  rw [(dist_gauge d hd).val x, Real.exp_log ((density_pos d hd).self_of_nhds x)]

/-- It is also the value computed by the `log_prob` of the classes as modelled for C28, C29 and C34. -/
theorem C73_values_classes (loc scale x p lpA lpB : ℝ) (hp : 0 < p) (hp1 : p < 1) (c : Dual) :
    (Dual.normalLogProb ⟨loc, c.tan⟩ ⟨scale, c.val⟩ (Dual.const x)).val = Normal.logProb ⟨loc, scale⟩ x ∧
    (Dual.laplaceLogProb ⟨loc, c.tan⟩ ⟨scale, c.val⟩ (Dual.const x)).val = Laplace.logProb ⟨loc, scale⟩ x ∧
    (Dual.logisticLogProb ⟨loc, c.tan⟩ ⟨scale, c.val⟩ (Dual.const x)).val = Logistic.logProb ⟨loc, scale⟩ x ∧
    (Dual.gumbelLogProb ⟨loc, c.tan⟩ ⟨scale, c.val⟩ (Dual.const x)).val = Gumbel.logProb ⟨loc, scale⟩ x ∧
    XR.fin (Dual.mixtureOfTwoLogProb ⟨p, c.tan⟩ ⟨lpA, c.val⟩ ⟨lpB, c.tan⟩).val =
      MixtureOfTwo.logProb ⟨p, fun _ : Unit => XR.fin lpA, fun _ => XR.fin lpB⟩ () := by
  refine ⟨?_, ?_, ?_, ?_, ?_⟩
  · rfl
  · rfl
  · rfl
  · rfl
  · rw [(C34_two_log_prob ⟨p, fun _ : Unit => XR.fin lpA, fun _ => XR.fin lpB⟩ hp.le hp1.le () (by simp [IsLogDensity]) (by simp [IsLogDensity])).1]
    have h : 0 < p * Real.exp lpA + (1 - p) * Real.exp lpB :=
      add_pos (mul_pos hp (Real.exp_pos _)) (mul_pos (by linarith) (Real.exp_pos _))
    rw [show p * weight (XR.fin lpA) + MixtureOfTwo.probB (E := Unit) ⟨p, fun _ => XR.fin lpA, fun _ => XR.fin lpB⟩ *
      weight (XR.fin lpB) = p * Real.exp lpA + (1 - p) * Real.exp lpB from rfl, xlog, if_neg h.ne', Dual.mixtureOfTwoLogProb,
      logaddexp_val]
    simp only [Dual.val_add, Dual.val_sub, Dual.val_const, Dual.log, Real.exp_add, Real.exp_log hp,
      Real.exp_log (by linarith : 0 < 1 - p)]

/-- Near `t` the density is a probability density. -/
theorem C73_density (d : ScalarDist) (hd : Valid t d) : ∀ᶠ s in 𝓝 t, IsPdf fun x => density s x d := by
  have near : ∀ {g g' : ℝ → ℝ}, Curve g g' → 0 < g t → ∀ᶠ s in 𝓝 t, 0 < g s := fun h h0 =>
    (h.deriv t).continuousAt.eventually (lt_mem_nhds h0)
  have mix : ∀ {n : ℕ} (W : Fin n → ℝ) (f : Fin n → ℝ → ℝ), (∀ k, 0 ≤ W k) → ∑ k, W k = 1 → (∀ k, IsPdf (f k)) →
      IsPdf fun x => ∑ k, W k * f k x := fun W f h0 h1 hf => by
    refine ⟨fun x => Finset.sum_nonneg fun k _ => mul_nonneg (h0 k) ((hf k).nonneg x),
      integrable_finsetSum _ fun k _ => (hf k).integrable.const_mul _, ?_⟩
    rw [integral_finsetSum _ fun k _ => (hf k).integrable.const_mul _]
    simp only [integral_const_mul, (hf _).one, mul_one, h1]
  induction d with
  | normal loc scale => filter_upwards [near hd.2.1 hd.2.2] with s hs using (C28_normal_law ⟨loc.val s, scale.val s⟩ hs).1
  | logStddevNormal m loc ls =>
    refine Eventually.of_forall fun s => ?_
    simp only [density_lsn]
    exact (C28_normal_law ⟨loc.val s, stddevR m (ls.val s)⟩ (stddevR_pos _ _)).1
  | laplace loc scale => filter_upwards [near hd.2.1 hd.2.2] with s hs using (C29_laplace_law ⟨loc.val s, scale.val s⟩ hs).1
  | logistic loc scale => filter_upwards [near hd.2.1 hd.2.2] with s hs using (C29_logistic_law ⟨loc.val s, scale.val s⟩ hs).1
  | gumbel loc scale => filter_upwards [near hd.2.1 hd.2.2] with s hs using (C29_gumbel_law ⟨loc.val s, scale.val s⟩ hs).1
  | mixtureOfTwo p a b ha hb =>
    obtain ⟨h1, h2, h3, h4, h5⟩ := hd
    filter_upwards [ha h4, hb h5, weight_near h1 h2 h3] with s p1 p2 p3
    have := mix ![p.val s, 1 - p.val s] ![fun x => density s x a, fun x => density s x b]
      (fun k => by fin_cases k; exacts [p3.1.le, (by simp; linarith [p3.2])]) (by simp)
      (fun k => by fin_cases k; exacts [p1, p2])
    simpa [Fin.sum_univ_two, density] using this
  | mixtureSameFamily n lg c h =>
    obtain ⟨h1, h2, h3⟩ := hd
    filter_upwards [eventually_all.2 fun k => h k (h3 k)] with s hs
    refine mix (fun k => Real.exp ((lg k).val s) / ∑ j, Real.exp ((lg j).val s)) _ (fun k => (weight_pos (fun j => (lg j).val s) k).le) ?_ hs
    rw [← Finset.sum_div]
    exact div_self (Finset.sum_pos (fun _ _ => Real.exp_pos _) ⟨⟨0, h1⟩, Finset.mem_univ _⟩).ne'

/-- Score-function gradients: for every distribution built from Normal, LogStddevNormal, Laplace, Logistic, Gumbel and nested
mixtures of them, `f(x) * d/dθ log_prob(x)` is an unbiased estimate of `d/dθ E[f(x)]`, for every `f` of polynomial growth. -/
theorem C73_score (d : ScalarDist) (hd : Valid t d) {f : ℝ → ℝ} (hf : PolyGrowth f) :
    ScoreUnbiased (sampleLaw d) (fun x => d.logProb t (Dual.const x)) f t := by
  obtain ⟨h1, h2, h3⟩ := scoreOK d hd hf
  have hp := density_pos d hd
  have hi : ∀ s (g : ℝ → ℝ), (∀ x, 0 < density s x d) → _ := fun s g hs =>
    densLaw_integral (μ := volume) (f := g) (density_meas d s) fun x => (hs x).le
  refine ⟨?_, (hi t _ hp.self_of_nhds).1.2 h2, ?_⟩
  · filter_upwards [h1, hp] with s hs hs' using (hi s f hs').1.2 hs
  · have e := (hi t (fun x => f x * (d.logProb t (Dual.const x)).tan) hp.self_of_nhds).2
    rw [show sampleLaw d t = densLaw volume fun x => density t x d from rfl, e]
    refine h3.congr_of_eventuallyEq ?_
    filter_upwards [hp] with s hs using (hi s f hs).2

/-- The expected score is zero, so that subtracting a constant baseline does not bias the gradient. -/
theorem C73_score_zero (d : ScalarDist) (hd : Valid t d) :
    Integrable (fun x => (d.logProb t (Dual.const x)).tan) (sampleLaw d t) ∧
      ∫ x, (d.logProb t (Dual.const x)).tan ∂sampleLaw d t = 0 := by
  obtain ⟨-, h2, h3⟩ := C73_score d hd (f := fun _ => 1) ⟨measurable_const, 1, 0, fun x => by simp⟩
  simp only [one_mul] at h2 h3
  refine ⟨h2, h3.unique ((hasDerivAt_const t (1 : ℝ)).congr_of_eventuallyEq ?_)⟩
  filter_upwards [C73_density d hd] with s hs
  have := lawOf_prob hs
  show ∫ _, (1 : ℝ) ∂lawOf _ = 1
  simp

/-- `mc_estimate_kl`: with any number of independent draws from any proposal with a finite log-density, the estimate has the
right expected value and its automatic derivative the right expected value. -/
theorem C73_mc_kl {a b : ScalarDist} (ha : Valid t a) (hb : Valid t b) (hab : LightLeft a ∨ NoGumbel a ∧ NoGumbel b)
    {lq : ℝ → ℝ} (hq : Measurable lq) (hq1 : IsPdf fun x => Real.exp (lq x)) {n : ℕ} (hn : 0 < n) :
    EstimatesWithGradient (Measure.pi fun _ : Fin n => lawOf fun x => Real.exp (lq x))
      (fun z => Dual.mean fun i => Dual.diceTerm (a.logProb t (Dual.const (z i))) (b.logProb t (Dual.const (z i))) (lq (z i)))
      (fun s => klInt volume (fun x => density s x a) fun x => density s x b) t := by
  have := lawOf_prob hq1
  suffices key : EstimatesWithGradient (lawOf fun x => Real.exp (lq x)) (fun x => Dual.diceTerm (a.logProb t (Dual.const x))
      (b.logProb t (Dual.const x)) (lq x)) (fun s => klInt volume (fun x => density s x a) fun x => density s x b) t from
    estimates_mean hn (est := fun x => Dual.diceTerm (a.logProb t (Dual.const x)) (b.logProb t (Dual.const x)) (lq x)) key
  rcases hab with h | ⟨h1, h2⟩
  · have := dist_light a ha h
    exact dice_of_tame gumbelGauge_one ha this.1 this.2 (dist_gauge b hb) hq
  · have := dist_line a ha h1
    exact dice_of_tame lineGauge_one ha this.1 this.2 (dist_line b hb h2).1 hq

/-- The default proposal is `a` itself, behind `stop_gradient`. -/
theorem C73_mc_kl_default {a b : ScalarDist} (ha : Valid t a) (hb : Valid t b) (hab : LightLeft a ∨ NoGumbel a ∧ NoGumbel b)
    {n : ℕ} (hn : 0 < n) :
    EstimatesWithGradient (Measure.pi fun _ : Fin n => sampleLaw a t)
      (fun z => Dual.mean fun i => Dual.diceTerm (a.logProb t (Dual.const (z i))) (b.logProb t (Dual.const (z i)))
        (a.logProb t (Dual.const (z i))).val)
      (fun s => klInt volume (fun x => density s x a) fun x => density s x b) t := by
  have e : ∀ x, Real.exp (a.logProb t (Dual.const x)).val = density t x a := C73_values a ha
  have := C73_mc_kl ha hb hab (lq := fun x => (a.logProb t (Dual.const x)).val) (by
    have : (fun x => (a.logProb t (Dual.const x)).val) = fun x => Real.log (density t x a) := funext fun x => by
      rw [← e, Real.log_exp]
    rw [this]; exact (density_meas a t).log) (by simp only [e]; exact (C73_density a ha).self_of_nhds) hn
  simp only [e] at this
  exact this

/-! ### Reparameterised -/

theorem gauge_moments {ν : Measure ℝ} [IsProbabilityMeasure ν] {g w : ℝ → ℝ} (hg : Measurable g) (hw : Measurable w)
    (hw1 : ∀ x, 1 ≤ w x) {lp : ℝ → ℝ} (hlp : Measurable lp)
    (hd : Dominated volume w (fun _ => lp) 0) (hmap : lawOf (fun x => Real.exp (lp x)) = ν.map g) (k : ℕ) :
    Integrable (fun u => w (g u) ^ k) ν := by
  obtain ⟨B, h1, h2⟩ := hd
  have hB := h2.self_of_nhds
  have : Integrable (fun x => w x ^ k) (lawOf fun x => Real.exp (lp x)) := by
    refine (densLaw_integral (μ := volume) hlp.exp fun x => (Real.exp_pos _).le).1.2 ?_
    refine (h1 k).mono' (by fun_prop) (ae_of_all _ fun x => ?_)
    have := hw1 x
    rw [Real.norm_eq_abs, abs_of_nonneg (by positivity), mul_comm]
    exact mul_le_mul_of_nonneg_left (hB x) (by positivity)
  rw [hmap] at this
  exact (integrable_map_measure (by fun_prop) hg.aemeasurable).1 this

theorem lineGauge_meas : Measurable lineGauge := by unfold lineGauge; fun_prop
theorem gumbelGauge_meas : Measurable gumbelGauge := by unfold gumbelGauge; fun_prop

/-- `mc_estimate_kl_with_reparameterized` for Normal `a`, any scalar distribution `b`. -/
theorem C73_reparam_normal {loc scale : Param} (ha : Valid t (.normal loc scale)) {b : ScalarDist} (hb : Valid t b) {n : ℕ}
    (hn : 0 < n) :
    EstimatesWithGradient (Measure.pi fun _ : Fin n => lawOf (gaussianPDFReal 0 1))
      (fun z => Dual.mean fun i =>
        let sl := Dual.normalSampleAndLogProb (loc.at t) (scale.at t) (z i)
        Dual.reparamTerm sl.2 (b.logProb t sl.1))
      (fun s => klInt volume (fun x => density s x (.normal loc scale)) fun x => density s x b) t := by
  have := lawOf_prob (gauss_pdf 0 one_ne_zero)
  have hm : ∀ k : ℕ, Integrable (fun u => gumbelGauge u ^ k) (lawOf (gaussianPDFReal 0 1)) := fun k =>
    gauge_moments (g := fun u => u) measurable_id gumbelGauge_meas gumbelGauge_one
      (lp := Normal.logProb ⟨0, 1⟩) (by unfold Normal.logProb Normal.standardize; fun_prop)
      (normal_dom_light (curve_const 0) (curve_const 1) one_pos) (by
        have := normal_map 0 1 one_pos
        simp only [zero_add, one_mul] at this
        exact this) k
  refine estimates_mean hn (est := fun u => Dual.reparamTerm (Dual.normalSampleAndLogProb (loc.at t) (scale.at t) u).2
    (b.logProb t (Dual.normalSampleAndLogProb (loc.at t) (scale.at t) u).1)) ?_
  refine reparam_of_tame (sl := Dual.normalSampleAndLogProb (loc.at t) (scale.at t)) (g := fun u => u) (w := gumbelGauge) measurable_id (fun u => ?_) gumbelGauge_one hm
    ha hb ha.1 ha.2.1 ha.2.2 (fun s hs => normal_map _ _ hs) (fun u => ?_)
    (la := fun s u => -0.5 * u ^ 2 - halfLog2pi - Real.log (scale.val s)) ?_ (fun s hs u => ?_)
    (Or.inr fun u => ?_)
  · unfold gumbelGauge; linarith [Real.exp_pos (-u)]
  · ext
    · show scale.val t * u + loc.val t = loc.val t + scale.val t * u; ring
    · show scale.der t * u + scale.val t * 0 + loc.der t = loc.der t + scale.der t * u; ring
  · have hid : Tame (lawOf (gaussianPDFReal 0 1)) gumbelGauge (fun _ u => u) (fun u => Dual.const u) t :=
      Tame.fixed measurable_id (K := 1) (k := 1) (fun u => by
        unfold gumbelGauge; have := Real.exp_pos (-u); simp; linarith) gumbelGauge_one
    refine (((((Tame.const (-0.5) gumbelGauge_one).mul gumbelGauge_one (hid.mul gumbelGauge_one hid)).sub gumbelGauge_one
      (Tame.const halfLog2pi gumbelGauge_one)).sub gumbelGauge_one (log_scale_tame ha.2.1 ha.2.2)).congr' fun s u => ?_).congr
      fun u => ?_
    · ring
    · ext
      · simp only [Dual.normalSampleAndLogProb, Dual.val_sub, Dual.val_mul, Dual.val_const, Dual.square, Dual.log, Param.at]; ring
      · simp only [Dual.normalSampleAndLogProb, Dual.tan_sub, Dual.val_mul, Dual.tan_mul, Dual.val_const, Dual.tan_const,
          Dual.square, Dual.log, Param.at]; ring
  · show _ = Real.log (Real.exp _)
    rw [Real.log_exp, Normal.logProb, Normal.standardize]
    simp only
    rw [show (loc.val s + scale.val s * u - loc.val s) / scale.val s = u by field_simp; ring]; ring
  · unfold gumbelGauge; linarith [abs_nonneg u]

/-- LogStddevNormal inherits the sampler of Normal, with the scale computed from the log-scale. -/
theorem C73_reparam_log_stddev_normal {m : Option ℝ} {loc ls : Param} (ha : Valid t (.logStddevNormal m loc ls)) {b : ScalarDist}
    (hb : Valid t b) {n : ℕ} (hn : 0 < n) :
    EstimatesWithGradient (Measure.pi fun _ : Fin n => lawOf (gaussianPDFReal 0 1))
      (fun z => Dual.mean fun i =>
        let sl := Dual.normalSampleAndLogProb (loc.at t) (Dual.stddev m (ls.at t)) (z i)
        Dual.reparamTerm sl.2 (b.logProb t sl.1))
      (fun s => klInt volume (fun x => density s x (.logStddevNormal m loc ls)) fun x => density s x b) t := by
  have h := C73_reparam_normal (loc := loc) (scale := ⟨fun s => stddevR m (ls.val s), fun s => stddevR' m (ls.val s) (ls.der s)⟩)
    ⟨ha.1, stddevR_curve m ha.2, stddevR_pos _ _⟩ hb hn
  simp only [density_lsn]
  simp only [Param.at, stddev_dual] at h ⊢
  exact h

/-- Laplace `a`; `b` has no Gumbel component (otherwise the divergence can be infinite). -/
theorem C73_reparam_laplace {loc scale : Param} (ha : Valid t (.laplace loc scale)) {b : ScalarDist} (hb : Valid t b)
    (hg : NoGumbel b) {n : ℕ} (hn : 0 < n) :
    EstimatesWithGradient (Measure.pi fun _ : Fin n => lawOf stdLaplace)
      (fun z => Dual.mean fun i =>
        let sl := Dual.laplaceSampleAndLogProb (loc.at t) (scale.at t) (z i)
        Dual.reparamTerm sl.2 (b.logProb t sl.1))
      (fun s => klInt volume (fun x => density s x (.laplace loc scale)) fun x => density s x b) t := by
  have := lawOf_prob stdLaplace_law.1
  have hm : ∀ k : ℕ, Integrable (fun u => lineGauge u ^ k) (lawOf stdLaplace) := fun k =>
    gauge_moments (g := fun u => u) measurable_id lineGauge_meas lineGauge_one
      (lp := Laplace.logProb ⟨0, 1⟩) (by unfold Laplace.logProb Laplace.standardize; fun_prop)
      (laplace_dom (curve_const 0) (curve_const 1) one_pos) (by
        have := laplace_map 0 1 one_pos
        simp only [zero_add, one_mul] at this
        exact this) k
  refine estimates_mean hn (est := fun u => Dual.reparamTerm (Dual.laplaceSampleAndLogProb (loc.at t) (scale.at t) u).2
    (b.logProb t (Dual.laplaceSampleAndLogProb (loc.at t) (scale.at t) u).1)) ?_
  refine reparam_of_tame (sl := Dual.laplaceSampleAndLogProb (loc.at t) (scale.at t)) (g := fun u => u) (w := lineGauge)
    measurable_id (fun u => ?_) lineGauge_one hm
    ha hb ha.1 ha.2.1 ha.2.2 (fun s hs => laplace_map _ _ hs) (fun u => ?_)
    (la := fun s u => -|u| - Real.log 2 - Real.log (scale.val s)) ?_ (fun s hs u => ?_)
    (Or.inl hg)
  · unfold lineGauge; linarith
  · ext
    · show loc.val t + scale.val t * u = loc.val t + scale.val t * u; ring
    · show loc.der t + (scale.der t * u + scale.val t * 0) = loc.der t + scale.der t * u; ring
  · have hid : Tame (lawOf stdLaplace) lineGauge (fun _ u => |u|) (fun u => Dual.const |u|) t :=
      Tame.fixed (by fun_prop) (K := 1) (k := 1) (fun u => by
        unfold lineGauge; simp) lineGauge_one
    refine (((hid.neg).sub lineGauge_one (Tame.const (Real.log 2) lineGauge_one)).sub lineGauge_one
      (log_scale_tame ha.2.1 ha.2.2)).congr fun u => ?_
    ext
    · simp only [Dual.laplaceSampleAndLogProb, Dual.val_sub, Dual.val_neg, Dual.val_const, Dual.abs, Dual.log, Param.at]
    · simp only [Dual.laplaceSampleAndLogProb, Dual.tan_sub, Dual.tan_neg, Dual.val_const, Dual.tan_const, Dual.abs, Dual.log,
        Param.at]; ring
  · show _ = Real.log (Real.exp _)
    rw [Real.log_exp, Laplace.logProb, Laplace.standardize]
    simp only
    rw [show (loc.val s + scale.val s * u - loc.val s) / scale.val s = u by field_simp; ring]

/-- Logistic `a`, whose log-probability is evaluated at the differentiable sample. -/
theorem C73_reparam_logistic {loc scale : Param} (ha : Valid t (.logistic loc scale)) {b : ScalarDist} (hb : Valid t b)
    (hg : NoGumbel b) {n : ℕ} (hn : 0 < n) :
    EstimatesWithGradient (Measure.pi fun _ : Fin n => lawOf unitNoise)
      (fun z => Dual.mean fun i =>
        let sl := Dual.logisticSampleAndLogProb (loc.at t) (scale.at t) (z i)
        Dual.reparamTerm sl.2 (b.logProb t sl.1))
      (fun s => klInt volume (fun x => density s x (.logistic loc scale)) fun x => density s x b) t := by
  have := lawOf_prob unitNoise_pdf
  let g : ℝ → ℝ := fun u => Real.log u - Real.log (1 + -u)
  have hgm : Measurable g := by fun_prop
  have hm : ∀ k : ℕ, Integrable (fun u => lineGauge (g u) ^ k) (lawOf unitNoise) := fun k =>
    gauge_moments (g := g) hgm lineGauge_meas lineGauge_one
      (lp := Logistic.logProb ⟨0, 1⟩) (by unfold Logistic.logProb Logistic.standardize rsoftplus; fun_prop)
      (logistic_dom (curve_const 0) (curve_const 1) one_pos) (by
        have := logistic_map 0 1 one_pos
        simp only [zero_add, one_mul] at this
        exact this) k
  have hw : ∀ u, 1 ≤ lineGauge (g u) := fun u => lineGauge_one _
  have hs1 : ∀ u, (Dual.logisticSampleAndLogProb (loc.at t) (scale.at t) u).1 =
      ⟨loc.val t + scale.val t * g u, loc.der t + scale.der t * g u⟩ := fun u => by
    ext
    · show scale.val t * g u + loc.val t = loc.val t + scale.val t * g u; ring
    · show scale.der t * g u + scale.val t * 0 + loc.der t = loc.der t + scale.der t * g u; ring
  refine estimates_mean hn (est := fun u => Dual.reparamTerm (Dual.logisticSampleAndLogProb (loc.at t) (scale.at t) u).2
    (b.logProb t (Dual.logisticSampleAndLogProb (loc.at t) (scale.at t) u).1)) ?_
  refine reparam_of_tame (sl := Dual.logisticSampleAndLogProb (loc.at t) (scale.at t)) (g := g) (w := fun u => lineGauge (g u))
    hgm (fun u => ?_) hw hm
    ha hb ha.1 ha.2.1 ha.2.2 (fun s hs => logistic_map _ _ hs) hs1
    (la := fun s u => Logistic.logProb ⟨loc.val s, scale.val s⟩ (loc.val s + scale.val s * g u)) ?_ (fun s hs u => ?_)
    (Or.inl hg)
  · unfold lineGauge; linarith
  · have hV : Tame (lawOf unitNoise) (fun u => lineGauge (g u)) (fun s u => loc.val s + scale.val s * g u)
        (fun u => (Dual.logisticSampleAndLogProb (loc.at t) (scale.at t) u).1) t := by
      refine ((Tame.param (curve_contDiff ha.1 t) (ha.1.deriv t)).add hw
        ((Tame.param (curve_contDiff ha.2.1 t) (ha.2.1.deriv t)).mul hw
        (Tame.fixed hgm (K := 1) (k := 1) (fun u => by rw [one_mul, pow_one]; unfold lineGauge; linarith) hw))).congr fun u => ?_
      rw [hs1]
      ext
      · rfl
      · simp only [Dual.tan_add, Dual.tan_mul, Dual.val_const, Dual.tan_const]; ring
    exact logistic_tame ha.1 ha.2.1 ha.2.2 hw hV
  · exact (Real.log_exp _).symm

/-- Gumbel `a`, any scalar distribution `b`. -/
theorem C73_reparam_gumbel {loc scale : Param} (ha : Valid t (.gumbel loc scale)) {b : ScalarDist} (hb : Valid t b) {n : ℕ}
    (hn : 0 < n) :
    EstimatesWithGradient (Measure.pi fun _ : Fin n => lawOf stdGumbel)
      (fun z => Dual.mean fun i =>
        let sl := Dual.gumbelSampleAndLogProb (loc.at t) (scale.at t) (z i)
        Dual.reparamTerm sl.2 (b.logProb t sl.1))
      (fun s => klInt volume (fun x => density s x (.gumbel loc scale)) fun x => density s x b) t := by
  have := lawOf_prob stdGumbel_law.1
  have hm : ∀ k : ℕ, Integrable (fun u => gumbelGauge u ^ k) (lawOf stdGumbel) := fun k =>
    gauge_moments (g := fun u => u) measurable_id gumbelGauge_meas gumbelGauge_one
      (lp := Gumbel.logProb ⟨0, 1⟩) (by unfold Gumbel.logProb Gumbel.standardize; fun_prop)
      (gumbel_dom (curve_const 0) (curve_const 1) one_pos) (by
        have := gumbel_map 0 1 one_pos
        simp only [zero_add, one_mul] at this
        exact this) k
  refine estimates_mean hn (est := fun u => Dual.reparamTerm (Dual.gumbelSampleAndLogProb (loc.at t) (scale.at t) u).2
    (b.logProb t (Dual.gumbelSampleAndLogProb (loc.at t) (scale.at t) u).1)) ?_
  refine reparam_of_tame (sl := Dual.gumbelSampleAndLogProb (loc.at t) (scale.at t)) (g := fun u => u) (w := gumbelGauge)
    measurable_id (fun u => ?_) gumbelGauge_one hm
    ha hb ha.1 ha.2.1 ha.2.2 (fun s hs => gumbel_map _ _ hs) (fun u => ?_)
    (la := fun s u => -(u + Real.exp (-u)) - Real.log (scale.val s)) ?_ (fun s hs u => ?_)
    (Or.inr fun u => ?_)
  · unfold gumbelGauge; linarith [Real.exp_pos (-u)]
  · ext
    · show scale.val t * u + loc.val t = loc.val t + scale.val t * u; ring
    · show scale.der t * u + scale.val t * 0 + loc.der t = loc.der t + scale.der t * u; ring
  · have hid : Tame (lawOf stdGumbel) gumbelGauge (fun _ u => u + Real.exp (-u)) (fun u => Dual.const (u + Real.exp (-u))) t :=
      Tame.fixed (by fun_prop) (K := 1) (k := 1) (fun u => by
        have h1 := Real.exp_pos (-u); have := abs_add_le u (Real.exp (-u))
        rw [abs_of_pos h1] at this
        unfold gumbelGauge; simp only [one_mul, pow_one]; linarith) gumbelGauge_one
    refine ((hid.neg).sub gumbelGauge_one (log_scale_tame ha.2.1 ha.2.2)).congr fun u => ?_
    ext
    · simp only [Dual.gumbelSampleAndLogProb, Dual.val_sub, Dual.val_add, Dual.val_neg, Dual.val_const, Dual.exp, Dual.log, Param.at]
    · simp only [Dual.gumbelSampleAndLogProb, Dual.tan_sub, Dual.tan_add, Dual.tan_neg, Dual.val_neg, Dual.val_const,
        Dual.tan_const, Dual.exp, Dual.log, Param.at]; ring
  · show _ = Real.log (Real.exp _)
    rw [Real.log_exp, Gumbel.logProb, Gumbel.standardize]
    simp only
    rw [show (loc.val s + scale.val s * u - loc.val s) / scale.val s = u by field_simp; ring]
  · unfold gumbelGauge; linarith [abs_nonneg u]

end Distrax
