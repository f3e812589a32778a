import Verif.Lemmas.Tame
import Verif.Spec.ScoreGrad
import Verif.Lemmas.StdLaws
import Verif.Lemmas.Dirichlet
import Mathlib.Analysis.Calculus.Deriv.Abs

/-! Lemmas for C73: the log-densities of the scalar families are tame and dominated. -/

namespace Distrax

open Spec MeasureTheory Topology Filter

/-- The gauge for densities on the line with exponential tails. -/
def lineGauge (x : ℝ) : ℝ := 1 + |x|

theorem lineGauge_one (x : ℝ) : 1 ≤ lineGauge x := by unfold lineGauge; linarith [abs_nonneg x]

theorem curve_contDiff {g g' : ℝ → ℝ} (h : Curve g g') (t : ℝ) : ContDiffAt ℝ 1 g t := by
  have : ContDiff ℝ 1 g := contDiff_one_iff_deriv.2 ⟨fun s => (h.deriv s).differentiableAt, by
    have e : deriv g = g' := funext fun s => (h.deriv s).deriv
    rw [e]; exact h.cont⟩
  exact this.contDiffAt

/-! ### Integrability -/

theorem integrable_exp_abs {c : ℝ} (hc : 0 < c) : Integrable fun x : ℝ => Real.exp (-(c * |x|)) := by
  have h := stdLaplace_law.1.integrable
  have h2 := (h.comp_mul_left' hc.ne').const_mul 2
  refine h2.congr (ae_of_all _ fun x => ?_)
  simp only [stdLaplace, abs_mul, abs_of_pos hc]
  ring

theorem pow_le_exp {c : ℝ} (hc : 0 < c) (k : ℕ) {y : ℝ} (hy : 0 ≤ y) : y ^ k ≤ k.factorial / c ^ k * Real.exp (c * y) := by
  have h := Real.pow_div_factorial_le_exp (c * y) (by positivity) k
  rw [div_le_iff₀ (by positivity), mul_pow] at h
  rw [div_mul_eq_mul_div, le_div_iff₀ (by positivity)]
  linarith

theorem lineGauge_integrable {c : ℝ} (hc : 0 < c) (A : ℝ) (k : ℕ) :
    Integrable fun x : ℝ => lineGauge x ^ k * Real.exp (A - c * |x|) := by
  have hm : Measurable fun x : ℝ => lineGauge x ^ k * Real.exp (A - c * |x|) := by unfold lineGauge; fun_prop
  refine ((integrable_exp_abs (half_pos hc)).const_mul (k.factorial / (c / 2) ^ k * Real.exp (c / 2) * Real.exp A)).mono'
    hm.aestronglyMeasurable (ae_of_all _ fun x => ?_)
  have h1 := lineGauge_one x
  rw [Real.norm_eq_abs, abs_of_nonneg (by positivity)]
  have h := pow_le_exp (half_pos hc) k (y := lineGauge x) (by linarith)
  refine (mul_le_mul_of_nonneg_right h (Real.exp_pos _).le).trans (le_of_eq ?_)
  have e : Real.exp (c / 2 * lineGauge x) * Real.exp (A - c * |x|) =
      Real.exp (c / 2) * Real.exp A * Real.exp (-(c / 2 * |x|)) := by
    rw [← Real.exp_add, ← Real.exp_add, ← Real.exp_add]; congr 1; unfold lineGauge; ring
  rw [mul_assoc, e]; ring

theorem dominated_of_tail {lp : ℝ → ℝ → ℝ} {t A c : ℝ} (hc : 0 < c) (h : ∀ᶠ s in 𝓝 t, ∀ x, lp s x ≤ A - c * |x|) :
    Dominated volume lineGauge lp t :=
  ⟨fun x => Real.exp (A - c * |x|), fun k => lineGauge_integrable hc A k, by
    filter_upwards [h] with s hs x using Real.exp_le_exp.2 (hs x)⟩

/-! ### From tame families to unbiased gradients -/

section laws

variable {X : Type} [MeasurableSpace X] {μ : Measure X} {w : X → ℝ} {lp : ℝ → X → ℝ} {D : X → Dual} {t : ℝ}

theorem densLaw_integral {p f : X → ℝ} (hp : Measurable p) (h0 : ∀ x, 0 ≤ p x) :
    (Integrable f (densLaw μ p) ↔ Integrable (fun x => p x * f x) μ) ∧ ∫ x, f x ∂densLaw μ p = ∫ x, p x * f x ∂μ :=
  integrable_withDensity_ofReal hp (ae_of_all _ h0)

theorem score_of_tame (hw : ∀ x, 1 ≤ w x) (hl : Tame μ w lp D t) (hd : Dominated μ w lp t) {f : X → ℝ} (hf : Measurable f)
    {K : ℝ} {k : ℕ} (hb : ∀ x, |f x| ≤ K * w x ^ k) :
    ScoreUnbiased (fun s => densLaw μ fun x => Real.exp (lp s x)) D f t := by
  obtain ⟨h1, h2, h3⟩ := expect_deriv hw hl hd (Tame.fixed hf hb hw)
  have hi : ∀ s g, _ := fun s (g : X → ℝ) => densLaw_integral (μ := μ) (f := g) (hl.meas s).exp fun x => (Real.exp_pos _).le
  have e : ∀ x, Real.exp (lp t x) * ((D x).tan * f x + (Dual.const (f x)).tan) = Real.exp (lp t x) * (f x * (D x).tan) :=
    fun x => by rw [Dual.tan_const]; ring
  simp only [e] at h2 h3
  refine ⟨?_, (hi t _).1.2 h2, ?_⟩
  · filter_upwards [h1] with s hs using (hi s f).1.2 hs
  · rw [(hi t _).2]
    refine h3.congr_of_eventuallyEq (Eventually.of_forall fun s => ?_)
    exact (hi s f).2

end laws

/-! ### Location and scale -/

theorem scale_bounds {loc loc' scale scale' : ℝ → ℝ} (hl : Curve loc loc') (hs : Curve scale scale') {t : ℝ} (hpos : 0 < scale t) :
    ∃ M, 1 ≤ M ∧ ∀ᶠ s in 𝓝 t, |loc s| ≤ M ∧ 0 < scale s ∧ scale s ≤ M ∧ 1 ≤ M * scale s ∧ |Real.log (scale s)| ≤ M := by
  have c1 := (hl.deriv t).continuousAt
  have c2 := (hs.deriv t).continuousAt
  have c3 : ContinuousAt (fun s => Real.log (scale s)) t := c2.log hpos.ne'
  refine ⟨|loc t| + 1 + (scale t + 1) + 2 / scale t + (|Real.log (scale t)| + 1), ?_, ?_⟩
  · have := abs_nonneg (loc t); have := abs_nonneg (Real.log (scale t))
    have : 0 < 2 / scale t := by positivity
    linarith
  · have e1 := c1.abs.eventually_lt (continuousAt_const (y := |loc t| + 1)) (by linarith)
    have e2 := c2.eventually_lt (continuousAt_const (y := scale t + 1)) (by linarith)
    have e3 := (continuousAt_const (y := scale t / 2)).eventually_lt c2 (by linarith)
    have e4 := c3.abs.eventually_lt (continuousAt_const (y := |Real.log (scale t)| + 1)) (by linarith)
    filter_upwards [e1, e2, e3, e4] with s h1 h2 h3 h4
    have p1 := abs_nonneg (loc t); have p2 := abs_nonneg (Real.log (scale t))
    have p3 : 0 < 2 / scale t := by positivity
    have p4 : 0 < scale s := by linarith
    refine ⟨by linarith, p4, by linarith, ?_, by linarith⟩
    have : 1 ≤ 2 / scale t * scale s := by
      rw [div_mul_eq_mul_div, le_div_iff₀ hpos]; linarith
    nlinarith

theorem std_tame {X : Type} [MeasurableSpace X] {μ : Measure X} {w : X → ℝ} (hw : ∀ x, 1 ≤ w x) {V : ℝ → X → ℝ} {DV : X → Dual}
    {t : ℝ} (hV : Tame μ w V DV t) {loc loc' scale scale' : ℝ → ℝ}
    (hl : Curve loc loc') (hs : Curve scale scale') (hpos : 0 < scale t) :
    Tame μ w (fun s x => (V s x - loc s) / scale s)
      (fun x => Dual.standardize ⟨loc t, loc' t⟩ ⟨scale t, scale' t⟩ (DV x)) t :=
  (hV.sub hw
    (Tame.param (curve_contDiff hl t) (hl.deriv t))).div hw (curve_contDiff hs t) (hs.deriv t) hpos.ne'

theorem log_scale_tame {X : Type} [MeasurableSpace X] {w : X → ℝ} {μ : Measure X} {scale scale' : ℝ → ℝ} (hs : Curve scale scale')
    {t : ℝ} (hpos : 0 < scale t) :
    Tame μ w (fun s _ => Real.log (scale s)) (fun _ => Dual.log ⟨scale t, scale' t⟩) t :=
  Tame.param ((curve_contDiff hs t).log hpos.ne') ((hs.deriv t).log hpos.ne')

/-- `|x|` in terms of the standardised value. -/
theorem std_abs {x l s : ℝ} (hs : 0 < s) : |x| ≤ |l| + s * |(x - l) / s| := by
  have e : x = l + s * ((x - l) / s) := by field_simp; ring
  calc |x| = |l + s * ((x - l) / s)| := by rw [← e]
    _ ≤ |l| + |s * ((x - l) / s)| := abs_add_le _ _
    _ = _ := by rw [abs_mul, abs_of_pos hs]

section families

variable {loc loc' scale scale' : ℝ → ℝ} (hl : Curve loc loc') (hs : Curve scale scale') {t : ℝ} (hpos : 0 < scale t)
  {X : Type} [MeasurableSpace X] {μ : Measure X} {w : X → ℝ} {V : ℝ → X → ℝ} {DV : X → Dual}
include hl hs hpos

theorem normal_tame (hw : ∀ x, 1 ≤ w x) (hV : Tame μ w V DV t) :
    Tame μ w (fun s x => Normal.logProb ⟨loc s, scale s⟩ (V s x))
      (fun x => Dual.normalLogProb ⟨loc t, loc' t⟩ ⟨scale t, scale' t⟩ (DV x)) t := by
  have hz := std_tame hw hV hl hs hpos
  refine ((((Tame.const (-0.5) hw).mul hw (hz.mul hw hz)).sub hw
    ((Tame.const halfLog2pi hw).add hw (log_scale_tame hs hpos))).congr' fun s x => ?_).congr fun x => ?_
  · simp only [Normal.logProb, Normal.standardize]; ring
  · ext
    · simp only [Dual.normalLogProb, Dual.val_sub, Dual.val_mul, Dual.square]; ring
    · simp only [Dual.normalLogProb, Dual.tan_sub, Dual.tan_mul, Dual.square, Dual.val_mul]; ring

theorem normal_dom : Dominated volume lineGauge (fun s x => Normal.logProb ⟨loc s, scale s⟩ x) t := by
  obtain ⟨M, hM, h⟩ := scale_bounds hl hs hpos
  refine dominated_of_tail (A := M + M ^ 2 + |halfLog2pi| + M) (c := 1) one_pos ?_
  filter_upwards [h] with s ⟨h1, h2, h3, h4, h5⟩ x
  simp only [Normal.logProb, Normal.standardize]
  have hx := std_abs (x := x) (l := loc s) h2
  have a1 := neg_abs_le halfLog2pi
  have a2 := neg_abs_le (Real.log (scale s))
  rw [show ((x - loc s) / scale s) ^ 2 = |(x - loc s) / scale s| ^ 2 from (sq_abs _).symm]
  generalize |(x - loc s) / scale s| = z at *
  have : scale s ^ 2 ≤ M ^ 2 := pow_le_pow_left₀ h2.le h3 2
  nlinarith [sq_nonneg (z - scale s)]

theorem laplace_tame (hw : ∀ x, 1 ≤ w x) (hV : Tame μ w V DV t) (hc : ∀ c, ∀ᵐ x ∂μ, V t x ≠ c) :
    Tame μ w (fun s x => Laplace.logProb ⟨loc s, scale s⟩ (V s x))
      (fun x => Dual.laplaceLogProb ⟨loc t, loc' t⟩ ⟨scale t, scale' t⟩ (DV x)) t := by
  have hz := std_tame hw hV hl hs hpos
  have ha : Tame μ w (fun s x => |(V s x - loc s) / scale s|)
      (fun x => Dual.abs (Dual.standardize ⟨loc t, loc' t⟩ ⟨scale t, scale' t⟩ (DV x))) t := by
    refine hz.lip hw (φ := fun a => |a|) (L := 1) (by fun_prop) zero_le_one
      (fun a b => by rw [one_mul]; exact abs_abs_sub_abs_le _ _) (fun x => rfl) ?_
    filter_upwards [hc (loc t)] with x hx
    have hne : (Dual.standardize ⟨loc t, loc' t⟩ ⟨scale t, scale' t⟩ (DV x)).val ≠ 0 :=
      div_ne_zero (sub_ne_zero.2 (by rw [hV.val]; exact hx)) hpos.ne'
    exact ⟨_, hasDerivAt_abs hne, mul_comm _ _⟩
  exact (((ha.neg.sub hw (Tame.const (Real.log 2) hw)).sub hw (log_scale_tame hs hpos)).congr' fun s x => rfl).congr fun x => rfl

theorem laplace_dom : Dominated volume lineGauge (fun s x => Laplace.logProb ⟨loc s, scale s⟩ x) t := by
  obtain ⟨M, hM, h⟩ := scale_bounds hl hs hpos
  refine dominated_of_tail (A := 1 + |Real.log 2| + M) (c := 1 / M) (by positivity) ?_
  filter_upwards [h] with s ⟨h1, h2, h3, h4, h5⟩ x
  simp only [Laplace.logProb, Laplace.standardize]
  have hx := std_abs (x := x) (l := loc s) h2
  have a1 := neg_abs_le (Real.log 2)
  have a2 := neg_abs_le (Real.log (scale s))
  have hz := abs_nonneg ((x - loc s) / scale s)
  generalize |(x - loc s) / scale s| = z at *
  have : |x| ≤ M + M * z := by nlinarith
  have h6 : 1 / M * |x| ≤ 1 + z := by
    rw [div_mul_eq_mul_div, one_mul, div_le_iff₀ (by linarith)]; linarith
  linarith

theorem logistic_tame (hw : ∀ x, 1 ≤ w x) (hV : Tame μ w V DV t) :
    Tame μ w (fun s x => Logistic.logProb ⟨loc s, scale s⟩ (V s x))
      (fun x => Dual.logisticLogProb ⟨loc t, loc' t⟩ ⟨scale t, scale' t⟩ (DV x)) t := by
  have hz := std_tame hw hV hl hs hpos
  have hd : ∀ a, HasDerivAt rsoftplus (1 / (1 + Real.exp (-a))) a := fun a => by
    have := ((Real.hasDerivAt_exp a).const_add 1).log (by positivity)
    refine this.congr_deriv ?_
    rw [Real.exp_neg]
    have := Real.exp_pos a
    field_simp
    ring
  have hsp : Tame μ w (fun s x => rsoftplus (-((V s x - loc s) / scale s)))
      (fun x => Dual.softplus (-Dual.standardize ⟨loc t, loc' t⟩ ⟨scale t, scale' t⟩ (DV x))) t := by
    refine hz.neg.lip hw (φ := rsoftplus) (L := 1) (by unfold rsoftplus; fun_prop) zero_le_one
      (fun a b => ?_) (fun x => rfl) (ae_of_all _ fun x => ⟨_, hd _, mul_comm _ _⟩)
    have := Convex.norm_image_sub_le_of_norm_hasDerivWithin_le (f := rsoftplus) (f' := fun a => 1 / (1 + Real.exp (-a)))
      (s := Set.univ) (C := 1) (x := b) (y := a) (fun x _ => (hd x).hasDerivWithinAt) (fun x _ => ?_) convex_univ
      trivial trivial
    · simpa [Real.norm_eq_abs] using this
    · have := Real.exp_pos (-x)
      rw [Real.norm_eq_abs, abs_of_pos (by positivity), div_le_one (by positivity)]
      linarith
  exact (((hz.neg.sub hw ((Tame.const 2 hw).mul hw hsp)).sub hw (log_scale_tame hs hpos)).congr' fun s x => rfl).congr
    fun x => rfl

theorem logistic_dom : Dominated volume lineGauge (fun s x => Logistic.logProb ⟨loc s, scale s⟩ x) t := by
  obtain ⟨M, hM, h⟩ := scale_bounds hl hs hpos
  refine dominated_of_tail (A := 1 + M) (c := 1 / M) (by positivity) ?_
  filter_upwards [h] with s ⟨h1, h2, h3, h4, h5⟩ x
  simp only [Logistic.logProb, Logistic.standardize]
  have hx := std_abs (x := x) (l := loc s) h2
  have a2 := neg_abs_le (Real.log (scale s))
  have hz := abs_nonneg ((x - loc s) / scale s)
  have hsp : -((x - loc s) / scale s) - 2 * rsoftplus (-((x - loc s) / scale s)) ≤ -|(x - loc s) / scale s| := by
    generalize (x - loc s) / scale s = z
    have p1 : 0 ≤ rsoftplus (-z) := Real.log_nonneg (by linarith [Real.exp_pos (-z)])
    have p2 : -z ≤ rsoftplus (-z) := by
      calc -z = Real.log (Real.exp (-z)) := (Real.log_exp _).symm
        _ ≤ _ := Real.log_le_log (Real.exp_pos _) (by linarith)
    rcases abs_cases z with ⟨h, _⟩ | ⟨h, _⟩ <;> rw [h] <;> linarith
  generalize |(x - loc s) / scale s| = z at *
  have : |x| ≤ M + M * z := by nlinarith
  have h6 : 1 / M * |x| ≤ 1 + z := by
    rw [div_mul_eq_mul_div, one_mul, div_le_iff₀ (by linarith)]; linarith
  linarith

end families

end Distrax
