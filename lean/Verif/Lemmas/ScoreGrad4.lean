import Verif.Lemmas.ScoreGrad3
import Verif.Lemmas.GammaBeta
import Verif.Lemmas.Dirichlet
import Mathlib.Analysis.Complex.RealDeriv
import Mathlib.Analysis.Complex.CauchyIntegral
import Mathlib.Analysis.SpecialFunctions.Gaussian.GaussianIntegral

/-! Families whose log-density is a combination of logarithms, on the half-line, the unit interval and the simplex. -/

namespace Distrax

open MeasureTheory Filter Topology Spec

/-! ### The logarithm of the gamma function -/

theorem gamma_contDiff {a : ℝ} (ha : 0 < a) : ContDiffAt ℝ 1 Real.Gamma a := by
  have hd : DifferentiableOn ℂ Complex.Gamma {z : ℂ | 0 < z.re} := fun z hz =>
    (Complex.differentiableAt_Gamma z fun m h => by
      have : z.re = -(m : ℝ) := by rw [h]; simp
      have h0 : (0 : ℝ) < z.re := hz
      linarith [(Nat.cast_nonneg m : (0 : ℝ) ≤ m)]).differentiableWithinAt
  have ho : IsOpen {z : ℂ | 0 < z.re} := isOpen_lt continuous_const Complex.continuous_re
  have h := (hd.contDiffOn ho (n := 1)).contDiffAt (ho.mem_nhds (show (0 : ℝ) < ((a : ℂ)).re by simpa using ha))
  exact h.real_of_complex

theorem lgamma_contDiff {a : ℝ} (ha : 0 < a) : ContDiffAt ℝ 1 lgamma a := by
  have h := (gamma_contDiff ha).log (Real.Gamma_pos_of_pos ha).ne'
  refine h.congr_of_eventuallyEq ?_
  filter_upwards [eventually_gt_nhds ha] with b hb
  rw [lgamma, abs_of_pos (Real.Gamma_pos_of_pos hb)]

theorem lgamma_hasDerivAt {a : ℝ} (ha : 0 < a) : HasDerivAt lgamma (digamma a) a := by
  have h := (hasDerivAt_Gamma ha).log (Real.Gamma_pos_of_pos ha).ne'
  refine h.congr_of_eventuallyEq ?_
  filter_upwards [eventually_gt_nhds ha] with b hb
  rw [lgamma, abs_of_pos (Real.Gamma_pos_of_pos hb)]

variable {X : Type} [MeasurableSpace X] {μ : Measure X} {w : X → ℝ} {t : ℝ}

theorem lgamma_tame {a a' : ℝ → ℝ} (h : Curve a a') (hpos : 0 < a t) :
    Tame μ w (fun s _ => lgamma (a s)) (fun _ => Dual.lgamma ⟨a t, a' t⟩) t := by
  refine (Tame.param ((lgamma_contDiff hpos).comp t (curve_contDiff h t))
    ((lgamma_hasDerivAt hpos).comp t (h.deriv t))).congr fun x => ?_
  ext
  · rfl
  · simp only [Dual.lgamma]; ring

/-! ### Bounds on the support only -/

theorem dominated_on {lp : ℝ → X → ℝ} {D : X → Dual} (hl : Tame μ w lp D t) {S : Set X} (hS : ∀ᵐ x ∂μ, x ∈ S)
    {B : X → ℝ} (hi : ∀ k : ℕ, Integrable (fun x => w x ^ k * B x) μ)
    (hb : ∀ᶠ s in 𝓝 t, ∀ x ∈ S, Real.exp (lp s x) ≤ B x) : Dominated μ w lp t := by
  classical
  obtain ⟨K, hK, k, ε, hε, hg⟩ := hl.grow
  refine ⟨fun x => if x ∈ S then B x else Real.exp (K * w x ^ k), fun j => ?_, ?_⟩
  · refine (hi j).congr ?_
    filter_upwards [hS] with x hx
    simp [hx]
  · filter_upwards [hb, Metric.ball_mem_nhds t hε] with s hs hs' x
    by_cases hx : x ∈ S
    · simpa [hx] using hs x hx
    · simp only [hx, if_false]
      exact Real.exp_le_exp.2 ((le_abs_self _).trans (hg x s hs').1)

theorem score_on {lp : ℝ → X → ℝ} {D : X → Dual} (hw : ∀ x, 1 ≤ w x) (hl : Tame μ w lp D t) (hd : Dominated μ w lp t)
    {S : Set X} (hSm : MeasurableSet S) (hS : ∀ᵐ x ∂μ, x ∈ S) {f : X → ℝ} (hf : Measurable f)
    {K : ℝ} {k : ℕ} (hb : ∀ x ∈ S, |f x| ≤ K * w x ^ k) :
    ScoreUnbiased (fun s => densLaw μ fun x => Real.exp (lp s x)) D f t := by
  have hb' : ∀ x, |S.indicator f x| ≤ max K 0 * w x ^ k := fun x => by
    have h1 := hw x
    by_cases hx : x ∈ S
    · rw [Set.indicator_of_mem hx]
      exact (hb x hx).trans (mul_le_mul_of_nonneg_right (le_max_left _ _) (by positivity))
    · rw [Set.indicator_of_notMem hx, abs_zero]
      have : (0 : ℝ) ≤ max K 0 := le_max_right _ _
      positivity
  obtain ⟨h1, h2, h3⟩ := score_of_tame hw hl hd (hf.indicator hSm) hb'
  have ae : ∀ s, ∀ᵐ x ∂densLaw μ (fun x => Real.exp (lp s x)), S.indicator f x = f x := fun s =>
    (withDensity_absolutelyContinuous μ _).ae_le <| hS.mono fun x hx => Set.indicator_of_mem hx f
  have ae' : ∀ s, ∀ᵐ x ∂densLaw μ (fun x => Real.exp (lp s x)), S.indicator f x * (D x).tan = f x * (D x).tan := fun s =>
    (ae s).mono fun x hx => by rw [hx]
  refine ⟨h1.mono fun s hs => hs.congr (ae s), h2.congr (ae' t), ?_⟩
  rw [← integral_congr_ae (ae' t)]
  refine h3.congr_of_eventuallyEq (Eventually.of_forall fun s => ?_)
  exact (integral_congr_ae (ae s)).symm

/-! ### Products of powers of numbers in `(0, 1]` -/

section powers
variable {m : ℕ} {u : Fin m → X → ℝ}

/-- `1 + Σ |log (u i)|`. -/
noncomputable def logGauge (u : Fin m → X → ℝ) (x : X) : ℝ := 1 + ∑ i, |Real.log (u i x)|

theorem logGauge_one (x : X) : 1 ≤ logGauge u x := by
  unfold logGauge; linarith [Finset.sum_nonneg fun i (_ : i ∈ Finset.univ) => abs_nonneg (Real.log (u i x))]

theorem log_tame (hu : ∀ i, Measurable (u i)) (i : Fin m) :
    Tame μ (logGauge u) (fun _ x => Real.log (u i x)) (fun x => Dual.const (Real.log (u i x))) t :=
  Tame.fixed (Real.measurable_log.comp (hu i)) (K := 1) (k := 1) (fun x => by
    have := Finset.single_le_sum (f := fun i => |Real.log (u i x)|) (fun i _ => abs_nonneg _) (Finset.mem_univ i)
    simp only [logGauge, pow_one, one_mul] at *
    linarith) logGauge_one

theorem log_const (c : ℝ) : Dual.log (Dual.const c) = Dual.const (Real.log c) := by
  ext
  · rfl
  · simp [Dual.log, Dual.const]

theorem powers_tame (hu : ∀ i, Measurable (u i)) {α α' : Fin m → ℝ → ℝ} (hα : ∀ i, Curve (α i) (α' i)) :
    Tame μ (logGauge u) (fun s x => ∑ i, (α i s - 1) * Real.log (u i x))
      (fun x => Dual.sum fun i => (⟨α i t, α' i t⟩ - Dual.const 1) * Dual.log (Dual.const (u i x))) t := by
  refine Tame.sum logGauge_one fun i => ?_
  simp only [log_const]
  exact ((Tame.param (curve_contDiff (hα i) t) ((hα i).deriv t)).sub logGauge_one (Tame.const 1 logGauge_one)).mul
    logGauge_one (log_tame hu i)

theorem logGauge_prod (x : X) : logGauge u x ≤ ∏ i, (1 + |Real.log (u i x)|) := by
  unfold logGauge
  have : ∀ s : Finset (Fin m), 1 + ∑ i ∈ s, |Real.log (u i x)| ≤ ∏ i ∈ s, (1 + |Real.log (u i x)|) := fun s => by
    induction s using Finset.induction_on with
    | empty => simp
    | insert a s ha ih =>
      rw [Finset.sum_insert ha, Finset.prod_insert ha]
      have h0 := abs_nonneg (Real.log (u a x))
      have h1 : 0 ≤ ∑ i ∈ s, |Real.log (u i x)| := Finset.sum_nonneg fun i _ => abs_nonneg _
      nlinarith
  exact this _

theorem powers_dominated (hu : ∀ i, Measurable (u i)) {α α' : Fin m → ℝ → ℝ} (hα : ∀ i, Curve (α i) (α' i))
    (hpos : ∀ i, 0 < α i t) (h01 : ∀ᵐ x ∂μ, x ∈ {x | ∀ i, 0 < u i x ∧ u i x ≤ 1})
    (hint : ∀ β : Fin m → ℝ, (∀ i, 0 < β i) → Integrable (fun x => Real.exp (∑ i, (β i - 1) * Real.log (u i x))) μ)
    {Z : ℝ → ℝ} (hZ : ContinuousAt Z t) {D : X → Dual}
    (hl : Tame μ (logGauge u) (fun s x => ∑ i, (α i s - 1) * Real.log (u i x) - Z s) D t) :
    Dominated μ (logGauge u) (fun s x => ∑ i, (α i s - 1) * Real.log (u i x) - Z s) t := by
  refine dominated_on hl h01 (B := fun x => Real.exp (∑ i, (3 / 4 * α i t - 1) * Real.log (u i x)) * Real.exp (1 - Z t))
    (fun k => ?_) ?_
  · have hI := (hint (fun i => α i t / 2) fun i => half_pos (hpos i)).const_mul
      ((∏ i, ((k.factorial / (α i t / 4) ^ k) * Real.exp (α i t / 4))) * Real.exp (1 - Z t))
    have hlm : ∀ i, Measurable fun x => Real.log (u i x) := fun i => Real.measurable_log.comp (hu i)
    have hm : Measurable fun x => logGauge u x ^ k *
        (Real.exp (∑ i, (3 / 4 * α i t - 1) * Real.log (u i x)) * Real.exp (1 - Z t)) := by
      unfold logGauge
      refine Measurable.mul (Measurable.pow_const (measurable_const.add (Finset.measurable_sum _ fun i _ => ?_)) _)
        (Measurable.mul_const (Real.measurable_exp.comp (Finset.measurable_sum _ fun i _ => (hlm i).const_mul _)) _)
      exact (hlm i).abs
    refine hI.mono' hm.aestronglyMeasurable ?_
    filter_upwards [h01] with x hx
    have hg := logGauge_one (u := u) x
    rw [Real.norm_eq_abs, abs_of_nonneg (by positivity), ← mul_assoc, mul_right_comm _ (Real.exp (1 - Z t))]
    refine mul_le_mul_of_nonneg_right ?_ (Real.exp_pos _).le
    have h1 : logGauge u x ^ k ≤ ∏ i, (1 + |Real.log (u i x)|) ^ k := by
      rw [Finset.prod_pow]
      exact pow_le_pow_left₀ (by linarith) (logGauge_prod x) k
    have h2 : ∏ i, (1 + |Real.log (u i x)|) ^ k ≤
        ∏ i, (((k.factorial / (α i t / 4) ^ k) * Real.exp (α i t / 4)) * Real.exp (-(α i t / 4) * Real.log (u i x))) := by
      refine Finset.prod_le_prod (fun i _ => by positivity) fun i _ => ?_
      have hp := pow_le_exp (c := α i t / 4) (by linarith [hpos i]) k (y := 1 + |Real.log (u i x)|) (by positivity)
      refine hp.trans (le_of_eq ?_)
      rw [mul_assoc, ← Real.exp_add, abs_of_nonpos (Real.log_nonpos (hx i).1.le (hx i).2)]
      congr 2; ring
    refine (mul_le_mul_of_nonneg_right (h1.trans h2) (Real.exp_pos _).le).trans (le_of_eq ?_)
    rw [Finset.prod_mul_distrib, mul_assoc, ← Real.exp_sum, ← Real.exp_add, ← Finset.sum_add_distrib]
    congr 2
    exact Finset.sum_congr rfl fun i _ => by ring
  · have e1 : ∀ i, ∀ᶠ s in 𝓝 t, 3 / 4 * α i t < α i s := fun i =>
      ((hα i).deriv t).continuousAt.eventually_const_lt (by linarith [hpos i])
    have e2 : ∀ᶠ s in 𝓝 t, Z t - 1 < Z s := hZ.eventually_const_lt (by linarith)
    filter_upwards [eventually_all.2 e1, e2] with s h1 h2 x hx
    rw [← Real.exp_add]
    refine Real.exp_le_exp.2 ?_
    have : ∑ i, (α i s - 1) * Real.log (u i x) ≤ ∑ i, (3 / 4 * α i t - 1) * Real.log (u i x) :=
      Finset.sum_le_sum fun i _ => by
        have := Real.log_nonpos (hx i).1.le (hx i).2
        nlinarith [h1 i]
    linarith

end powers

/-! ### The half-line -/

/-- `1 + |x| + |log x|`. -/
noncomputable def posGauge (x : ℝ) : ℝ := 1 + |x| + |Real.log x|

theorem posGauge_one (x : ℝ) : 1 ≤ posGauge x := by
  unfold posGauge; linarith [abs_nonneg x, abs_nonneg (Real.log x)]

theorem posGauge_pow {a b : ℝ} (ha : 0 < a) (hb : 0 < b) (k : ℕ) :
    ∃ C, ∀ x, 0 < x → posGauge x ^ k ≤ C * ((x ^ (-a) + 1) * Real.exp (b * x)) := by
  refine ⟨k.factorial / a ^ k * Real.exp (2 * a) + k.factorial / (b / 2) ^ k * Real.exp (b / 2), fun x hx => ?_⟩
  have hxa : 0 < x ^ (-a) := Real.rpow_pos_of_pos hx _
  have hC1 : 0 < k.factorial / a ^ k * Real.exp (2 * a) := by positivity
  have hC2 : 0 < k.factorial / (b / 2) ^ k * Real.exp (b / 2) := by positivity
  have he : 1 ≤ Real.exp (b * x) := Real.one_le_exp (by positivity)
  have hg0 := posGauge_one x
  rcases le_total x 1 with h | h
  · have hl := Real.log_nonpos hx.le h
    have h1 : posGauge x ≤ 2 - Real.log x := by
      unfold posGauge; rw [abs_of_pos hx, abs_of_nonpos hl]; linarith
    have h2 := (pow_le_pow_left₀ (by linarith) h1 k).trans (pow_le_exp ha k (by linarith))
    have h3 : Real.exp (a * (2 - Real.log x)) = Real.exp (2 * a) * x ^ (-a) := by
      rw [Real.rpow_def_of_pos hx, ← Real.exp_add]; congr 1; ring
    rw [h3, ← mul_assoc] at h2
    refine h2.trans ?_
    generalize k.factorial / a ^ k * Real.exp (2 * a) = A at *
    generalize k.factorial / (b / 2) ^ k * Real.exp (b / 2) = B at *
    generalize Real.exp (b * x) = E at *
    generalize x ^ (-a) = Y at *
    have : Y ≤ (Y + 1) * E := by nlinarith
    nlinarith [mul_le_mul_of_nonneg_left this hC1.le, mul_nonneg hC2.le (by linarith : (0:ℝ) ≤ (Y + 1) * E)]
  · have hl := Real.log_nonneg h
    have h1 : posGauge x ≤ 1 + 2 * x := by
      unfold posGauge; rw [abs_of_pos hx, abs_of_nonneg hl]; linarith [Real.log_le_sub_one_of_pos hx]
    have h2 := (pow_le_pow_left₀ (by linarith) h1 k).trans (pow_le_exp (half_pos hb) k (by linarith))
    have h3 : Real.exp (b / 2 * (1 + 2 * x)) = Real.exp (b / 2) * Real.exp (b * x) := by
      rw [← Real.exp_add]; congr 1; ring
    rw [h3, ← mul_assoc] at h2
    refine h2.trans ?_
    generalize k.factorial / a ^ k * Real.exp (2 * a) = A at *
    generalize k.factorial / (b / 2) ^ k * Real.exp (b / 2) = B at *
    generalize Real.exp (b * x) = E at *
    generalize x ^ (-a) = Y at *
    have : E ≤ (Y + 1) * E := by nlinarith
    nlinarith [mul_le_mul_of_nonneg_left this hC2.le, mul_nonneg hC1.le (by linarith : (0:ℝ) ≤ (Y + 1) * E)]

theorem gamma_integrable {c b : ℝ} (hc : 0 < c) (hb : 0 < b) :
    Integrable (fun x : ℝ => x ^ (c - 1) * Real.exp (-b * x)) (volume.restrict (Set.Ioi 0)) := by
  have := integrableOn_rpow_mul_exp_neg_mul_rpow (p := 1) (s := c - 1) (b := b) (by linarith) one_pos hb
  simpa [IntegrableOn] using this

theorem gamma_moments {a b : ℝ} (ha : 0 < a) (hb : 0 < b) (k : ℕ) :
    Integrable (fun x : ℝ => posGauge x ^ k * (x ^ (a - 1) * Real.exp (-b * x))) (volume.restrict (Set.Ioi 0)) := by
  obtain ⟨C, hC⟩ := posGauge_pow (half_pos ha) (half_pos hb) k
  have hI := ((gamma_integrable (half_pos ha) (half_pos hb)).add (gamma_integrable ha (half_pos hb))).const_mul C
  refine hI.mono' (Measurable.aestronglyMeasurable (by unfold posGauge; fun_prop)) ?_
  filter_upwards [ae_restrict_mem measurableSet_Ioi] with x hx
  have hx : 0 < x := hx
  have hg := posGauge_one x
  have hp : 0 < x ^ (a - 1) := Real.rpow_pos_of_pos hx _
  rw [Real.norm_eq_abs, abs_of_nonneg (by positivity)]
  refine (mul_le_mul_of_nonneg_right (hC x hx) (by positivity)).trans (le_of_eq ?_)
  simp only [Pi.add_apply]
  have h1 : x ^ (a / 2 - 1) = x ^ (-(a / 2)) * x ^ (a - 1) := by rw [← Real.rpow_add hx]; congr 1; ring
  have h2 : Real.exp (-(b / 2) * x) = Real.exp (b / 2 * x) * Real.exp (-b * x) := by rw [← Real.exp_add]; congr 1; ring
  rw [h1, h2]; ring

section gamma
variable {conc rate : Param} (hc : Curve conc.val conc.der) (hr : Curve rate.val rate.der) (hc0 : 0 < conc.val t)
  (hr0 : 0 < rate.val t)
include hc hr hc0 hr0

/-- The formula of `log_prob`. -/
theorem gamma_tame : Tame (volume.restrict (Set.Ioi 0)) posGauge
    (fun s x => conc.val s * Real.log (rate.val s) + (conc.val s - 1) * Real.log x - rate.val s * x - lgamma (conc.val s))
    (fun x => Dual.gammaLogProb (conc.at t) (rate.at t) (Dual.const x)) t := by
  have g := posGauge_one
  have hlog : Tame (volume.restrict (Set.Ioi 0)) posGauge (fun _ x => Real.log x) (fun x => Dual.const (Real.log x)) t :=
    Tame.fixed Real.measurable_log (K := 1) (k := 1) (fun x => by unfold posGauge; linarith [abs_nonneg x]) g
  have hid : Tame (volume.restrict (Set.Ioi 0)) posGauge (fun _ x => x) (fun x => Dual.const x) t :=
    Tame.fixed measurable_id (K := 1) (k := 1) (fun x => by unfold posGauge; linarith [abs_nonneg (Real.log x)]) g
  have hcp : Tame (volume.restrict (Set.Ioi 0)) posGauge (fun s _ => conc.val s) (fun _ => conc.at t) t :=
    Tame.param (curve_contDiff hc t) (hc.deriv t)
  have hrp : Tame (volume.restrict (Set.Ioi 0)) posGauge (fun s _ => rate.val s) (fun _ => rate.at t) t :=
    Tame.param (curve_contDiff hr t) (hr.deriv t)
  have h := ((((hcp.mul g (log_scale_tame hr hr0)).add g ((hcp.sub g (Tame.const 1 g)).mul g hlog)).sub g (hrp.mul g hid)).sub g
    (lgamma_tame hc hc0))
  refine h.congr fun x => ?_
  rw [Dual.gammaLogProb, log_const]
  rfl

theorem gamma_dominated : Dominated (volume.restrict (Set.Ioi 0)) posGauge
    (fun s x => conc.val s * Real.log (rate.val s) + (conc.val s - 1) * Real.log x - rate.val s * x - lgamma (conc.val s)) t := by
  set a := conc.val t with ha
  set b := rate.val t with hb
  set A := fun s => conc.val s * Real.log (rate.val s) - lgamma (conc.val s) with hA
  have hAc : ContinuousAt A t := by
    refine ((hc.deriv t).continuousAt.mul ((hr.deriv t).continuousAt.log hr0.ne')).sub ?_
    exact ContinuousAt.comp (g := lgamma) (lgamma_hasDerivAt hc0).continuousAt (hc.deriv t).continuousAt
  refine dominated_on (gamma_tame hc hr hc0 hr0) (ae_restrict_mem measurableSet_Ioi)
    (B := fun x => Real.exp (A t + 1) * (x ^ (a / 2 - 1) * Real.exp (-(b / 2) * x) + x ^ (2 * a - 1) * Real.exp (-(b / 2) * x)))
    (fun k => ?_) ?_
  · have := ((gamma_moments (half_pos hc0) (half_pos hr0) k).add
      (gamma_moments (a := 2 * a) (by linarith) (half_pos hr0) k)).const_mul (Real.exp (A t + 1))
    refine this.congr (ae_of_all _ fun x => ?_)
    simp only [Pi.add_apply]; ring
  · have e1 : ∀ᶠ s in 𝓝 t, a / 2 < conc.val s := (hc.deriv t).continuousAt.eventually_const_lt (by linarith)
    have e2 : ∀ᶠ s in 𝓝 t, conc.val s < 2 * a := (hc.deriv t).continuousAt.eventually_lt_const (by linarith)
    have e3 : ∀ᶠ s in 𝓝 t, b / 2 < rate.val s := (hr.deriv t).continuousAt.eventually_const_lt (by linarith)
    have e4 : ∀ᶠ s in 𝓝 t, A s < A t + 1 := hAc.eventually_lt_const (by linarith)
    filter_upwards [e1, e2, e3, e4] with s h1 h2 h3 h4 x hx
    have hx : 0 < x := hx
    have e : conc.val s * Real.log (rate.val s) + (conc.val s - 1) * Real.log x - rate.val s * x - lgamma (conc.val s) =
        A s + ((conc.val s - 1) * Real.log x + -rate.val s * x) := by simp only [hA]; ring
    rw [e, Real.exp_add, Real.exp_add]
    refine mul_le_mul (Real.exp_le_exp.2 h4.le) ?_ (by positivity) (by positivity)
    have k1 : Real.exp (-rate.val s * x) ≤ Real.exp (-(b / 2) * x) := Real.exp_le_exp.2 (by nlinarith)
    have k2 : Real.exp ((conc.val s - 1) * Real.log x) ≤ x ^ (a / 2 - 1) + x ^ (2 * a - 1) := by
      rw [mul_comm, Real.exp_mul, Real.exp_log hx]
      have p1 : 0 < x ^ (a / 2 - 1) := Real.rpow_pos_of_pos hx _
      have p2 : 0 < x ^ (2 * a - 1) := Real.rpow_pos_of_pos hx _
      rcases le_total x 1 with h | h
      · linarith [Real.rpow_le_rpow_of_exponent_ge hx h (by linarith : a / 2 - 1 ≤ conc.val s - 1)]
      · linarith [Real.rpow_le_rpow_of_exponent_le h (by linarith : conc.val s - 1 ≤ 2 * a - 1)]
    refine (mul_le_mul k2 k1 (by positivity) ?_).trans (le_of_eq (by ring))
    have p1 : 0 < x ^ (a / 2 - 1) := Real.rpow_pos_of_pos hx _
    have p2 : 0 < x ^ (2 * a - 1) := Real.rpow_pos_of_pos hx _
    positivity

end gamma

end Distrax
