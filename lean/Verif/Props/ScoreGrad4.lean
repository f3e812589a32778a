import Verif.Props.ScoreGrad3
import Verif.Lemmas.ScoreGrad4
import Verif.Props.Gamma
import Verif.Props.BetaDirichlet
import Verif.Props.DirichletLaw

/-! C73, continued: Gamma, Beta and Dirichlet. -/

namespace Distrax

open MeasureTheory Filter Topology Spec ProbabilityTheory

variable {t : ℝ} {n : ℕ}

/-- Values: the differentiated `log_prob` computes the `log_prob` of the classes as modelled for C38 and C39. -/
theorem C73_values_gamma_beta_dirichlet (a b a' b' : ℝ) (ha : 0 < a) (hb : 0 < b) (α α' : Fin n → ℝ) :
    (∀ x, 0 < x → GammaD.logProb ⟨a, b⟩ (XR.fin x) = XR.fin (Dual.gammaLogProb ⟨a, a'⟩ ⟨b, b'⟩ (Dual.const x)).val) ∧
    (∀ x, x ∈ Set.Ioo (0 : ℝ) 1 → BetaD.logProb ⟨a, b⟩ x = XR.fin (Dual.betaLogProb ⟨a, a'⟩ ⟨b, b'⟩ (Dual.const x)).val) ∧
    (∀ x : Fin n → ℝ, (∀ i, 0 < x i) →
      Dir.logProb ⟨α⟩ x = XR.fin (Dual.dirichletLogProb (fun i => ⟨α i, α' i⟩) fun i => Dual.const (x i)).val) := by
  refine ⟨fun x hx => ?_, fun x hx => ?_, fun x hx => ?_⟩
  · rw [GammaD.logProb_pos (d := ⟨a, b⟩) ha hb hx]
    simp only [Dual.gammaLogProb, Dual.val_sub, Dual.val_add, Dual.val_mul, Dual.log, Dual.lgamma, Dual.const, lgamma,
      abs_of_pos (Real.Gamma_pos_of_pos ha)]
  · rw [BetaD.logProb_in (d := ⟨a, b⟩) hx]; rfl
  · rw [C38_dirichlet_log_prob ⟨α⟩ hx]; rfl

/-! ### Transfer to the laws of the classes -/

section transfer
variable {X : Type} [MeasurableSpace X] {μ : Measure X} {w : X → ℝ} {lp lb : ℝ → X → ℝ} {D DB : X → Dual}

theorem score_transfer (hw : ∀ x, 1 ≤ w x) (hl : Tame μ w lp D t) (hd : Dominated μ w lp t) {S : Set X}
    (hSm : MeasurableSet S) (hS : ∀ᵐ x ∂μ, x ∈ S) {law : ℝ → Measure X}
    (hlaw : ∀ᶠ s in 𝓝 t, law s = densLaw μ fun x => Real.exp (lp s x)) {f : X → ℝ} (hf : Measurable f)
    {K : ℝ} {k : ℕ} (hb : ∀ x ∈ S, |f x| ≤ K * w x ^ k) : ScoreUnbiased law D f t := by
  obtain ⟨h1, h2, h3⟩ := score_on hw hl hd hSm hS hf hb
  refine ⟨?_, ?_, ?_⟩
  · filter_upwards [h1, hlaw] with s hs hs'
    rw [hs']; exact hs
  · rw [hlaw.self_of_nhds]; exact h2
  · rw [hlaw.self_of_nhds]
    refine h3.congr_of_eventuallyEq ?_
    filter_upwards [hlaw] with s hs
    rw [hs]

theorem kl_transfer (hw : ∀ x, 1 ≤ w x) (hl : Tame μ w lp D t) (hd : Dominated μ w lp t) (hB : Tame μ w lb DB t)
    {kl : ℝ → ℝ} (hkl : ∀ᶠ s in 𝓝 t, ∫ x, Real.exp (lp s x) * (lp s x - lb s x) ∂μ = kl s)
    {lq : X → ℝ} (hq : Measurable lq) [IsProbabilityMeasure (densLaw μ fun x => Real.exp (lq x))] {m : ℕ} (hm : 0 < m) :
    EstimatesWithGradient (Measure.pi fun _ : Fin m => densLaw μ fun x => Real.exp (lq x))
      (fun z => Dual.mean fun j => Dual.diceTerm (D (z j)) (DB (z j)) (lq (z j))) kl t := by
  obtain ⟨k1, k2, k3, k4⟩ := dice_general hw hl hd hB hq
  have e : ∀ᶠ s in 𝓝 t, kl s = klInt μ (fun x => Real.exp (lp s x)) fun x => Real.exp (lb s x) := by
    filter_upwards [hkl] with s hs
    rw [← hs, klInt]; simp only [Real.log_exp]
  have key : EstimatesWithGradient (densLaw μ fun x => Real.exp (lq x)) (fun x => Dual.diceTerm (D x) (DB x) (lq x)) kl t :=
    ⟨k1, k2.trans e.self_of_nhds.symm, k3, k4.congr_of_eventuallyEq e⟩
  have hν : IsProbabilityMeasure (densLaw μ fun x => Real.exp (lq x)) := inferInstance
  clear hq k1 k2 k3 k4
  generalize (densLaw μ fun x => Real.exp (lq x)) = ν at *
  have h := @estimates_mean X _ ν _ m hm _ kl t key
  beta_reduce at h
  exact h

end transfer

theorem lawOf_restrict {p q : ℝ → ℝ} {S : Set ℝ} (hS : MeasurableSet S) (h1 : ∀ x ∈ S, p x = q x)
    (h0 : ∀ᵐ x, x ∉ S → p x = 0) : lawOf p = densLaw (volume.restrict S) q := by
  rw [lawOf, densLaw, ← withDensity_indicator hS]
  refine withDensity_congr_ae ?_
  filter_upwards [h0] with x hx
  by_cases h : x ∈ S
  · rw [Set.indicator_of_mem h, h1 x h]
  · rw [Set.indicator_of_notMem h, hx h, ENNReal.ofReal_zero]

theorem restrict_kl {p q lp lb : ℝ → ℝ} {S : Set ℝ} (hS : MeasurableSet S) (h1 : ∀ x ∈ S, p x = Real.exp (lp x))
    (h2 : ∀ x ∈ S, q x = Real.exp (lb x)) (h0 : ∀ᵐ x, x ∉ S → p x = 0) {k : ℝ} (hk : HasKL p q k) :
    ∫ x in S, Real.exp (lp x) * (lp x - lb x) = k := by
  rw [← hk.2]
  have e : ∫ x in S, Real.exp (lp x) * (lp x - lb x) = ∫ x in S, p x * (Real.log (p x) - Real.log (q x)) :=
    setIntegral_congr_fun hS fun x hx => by simp only [h1 x hx, h2 x hx, Real.log_exp]
  rw [e, ← integral_indicator hS]
  refine integral_congr_ae ?_
  filter_upwards [h0] with x hx
  by_cases h : x ∈ S
  · rw [Set.indicator_of_mem h]
  · rw [Set.indicator_of_notMem h, hx h, zero_mul]

/-! ### Gamma -/

section gamma

theorem gamma_pdf_pos {a b x : ℝ} (ha : 0 < a) (hb : 0 < b) (hx : x ∈ Set.Ioi (0 : ℝ)) :
    GammaD.pdf ⟨a, b⟩ x = Real.exp (a * Real.log b + (a - 1) * Real.log x - b * x - lgamma a) := by
  rw [GammaD.pdf, GammaD.logProb_pos (d := ⟨a, b⟩) ha hb hx, lgamma, abs_of_pos (Real.Gamma_pos_of_pos ha)]
  rfl

theorem gamma_pdf_zero {a b : ℝ} (ha : 0 < a) (hb : 0 < b) : ∀ᵐ x : ℝ, x ∉ Set.Ioi (0 : ℝ) → GammaD.pdf ⟨a, b⟩ x = 0 := by
  filter_upwards [Measure.ae_ne volume (0 : ℝ)] with x h0 hx
  have : x < 0 := lt_of_le_of_ne (not_lt.1 hx) h0
  rw [GammaD.pdf, (C39_boundary ⟨a, b⟩ ha hb).2.2.2 x this]
  rfl

variable {conc rate : Param} (hc : Curve conc.val conc.der) (hr : Curve rate.val rate.der) (hc0 : 0 < conc.val t)
  (hr0 : 0 < rate.val t)
include hc hr hc0 hr0

/-- Score-function gradients for the Gamma distribution, in the concentration and the rate, for test functions that grow at
most like a power of `1 + x + |log x|`. -/
theorem C73_gamma {f : ℝ → ℝ} (hf : Measurable f) {K : ℝ} {k : ℕ}
    (hb : ∀ x, 0 < x → |f x| ≤ K * (1 + |x| + |Real.log x|) ^ k) :
    ScoreUnbiased (fun s => lawOf (GammaD.pdf ⟨conc.val s, rate.val s⟩))
      (fun x => Dual.gammaLogProb (conc.at t) (rate.at t) (Dual.const x)) f t := by
  refine score_transfer posGauge_one (gamma_tame hc hr hc0 hr0) (gamma_dominated hc hr hc0 hr0) measurableSet_Ioi
    (ae_restrict_mem measurableSet_Ioi) ?_ hf hb
  filter_upwards [(hc.deriv t).continuousAt.eventually_const_lt hc0, (hr.deriv t).continuousAt.eventually_const_lt hr0] with s h1 h2
  exact lawOf_restrict measurableSet_Ioi (fun x hx => gamma_pdf_pos h1 h2 hx) (gamma_pdf_zero h1 h2)

/-- `mc_estimate_kl` between two Gamma distributions, any proposal with a positive density on the half-line, `m` draws: the
estimate is unbiased for the closed form of `kl_divergence`, and its gradient for the gradient of the closed form. -/
theorem C73_gamma_mc_kl {concB rateB : Param} (hcb : Curve concB.val concB.der) (hrb : Curve rateB.val rateB.der)
    (hcb0 : 0 < concB.val t) (hrb0 : 0 < rateB.val t) {lq : ℝ → ℝ} (hq : Measurable lq)
    [IsProbabilityMeasure (densLaw (volume.restrict (Set.Ioi 0)) fun x => Real.exp (lq x))] {m : ℕ} (hm : 0 < m) :
    EstimatesWithGradient (Measure.pi fun _ : Fin m => densLaw (volume.restrict (Set.Ioi 0)) fun x => Real.exp (lq x))
      (fun z => Dual.mean fun j => Dual.diceTerm (Dual.gammaLogProb (conc.at t) (rate.at t) (Dual.const (z j)))
        (Dual.gammaLogProb (concB.at t) (rateB.at t) (Dual.const (z j))) (lq (z j)))
      (fun s => GammaD.kl ⟨conc.val s, rate.val s⟩ ⟨concB.val s, rateB.val s⟩) t := by
  refine kl_transfer posGauge_one (gamma_tame hc hr hc0 hr0) (gamma_dominated hc hr hc0 hr0) (gamma_tame hcb hrb hcb0 hrb0)
    ?_ hq hm
  filter_upwards [(hc.deriv t).continuousAt.eventually_const_lt hc0, (hr.deriv t).continuousAt.eventually_const_lt hr0,
    (hcb.deriv t).continuousAt.eventually_const_lt hcb0, (hrb.deriv t).continuousAt.eventually_const_lt hrb0] with s h1 h2 h3 h4
  exact restrict_kl measurableSet_Ioi (fun x hx => gamma_pdf_pos h1 h2 hx) (fun x hx => gamma_pdf_pos h3 h4 hx)
    (gamma_pdf_zero h1 h2) (C39_kl ⟨_, _⟩ ⟨_, _⟩ h1 h2 h3 h4).1

end gamma

/-! ### Dirichlet -/

section dirichlet

theorem dir_coord (y : Fin n → ℝ) (hy : y ∈ openSimplex n) (i : Fin (n + 1)) :
    0 < simplexPoint y i ∧ simplexPoint y i ≤ 1 := by
  refine ⟨hy i, ?_⟩
  rw [← simplexPoint_sum y]
  exact Finset.single_le_sum (f := fun i => simplexPoint y i) (fun j _ => (hy j).le) (Finset.mem_univ i)

variable {α : Fin (n + 1) → Param} (hα : ∀ i, Curve (α i).val (α i).der) (hpos : ∀ i, 0 < (α i).val t)
include hα hpos

theorem logBeta_tame {X : Type} [MeasurableSpace X] {μ : Measure X} {w : X → ℝ} (hw : ∀ x, 1 ≤ w x) :
    Tame μ w (fun s _ => logBetaMultivariate fun i => (α i).val s)
      (fun _ => Dual.logBetaMultivariate fun i => (α i).at t) t := by
  have hs : Curve (fun s => ∑ i, (α i).val s) (fun s => ∑ i, (α i).der s) :=
    ⟨fun s => HasDerivAt.fun_sum fun i _ => (hα i).deriv s, continuous_finset_sum _ fun i _ => (hα i).cont⟩
  have hs0 : 0 < ∑ i, (α i).val t := Finset.sum_pos (fun i _ => hpos i) ⟨0, Finset.mem_univ _⟩
  exact (Tame.sum hw fun i => lgamma_tame (hα i) (hpos i)).sub hw (lgamma_tame hs hs0)

theorem dir_tame : Tame (volume.restrict (openSimplex n)) (logGauge fun i y => simplexPoint y i)
    (fun s y => ∑ i, ((α i).val s - 1) * Real.log (simplexPoint y i) - logBetaMultivariate fun i => (α i).val s)
    (fun y => Dual.dirichletLogProb (fun i => (α i).at t) fun i => Dual.const (simplexPoint y i)) t :=
  (powers_tame (fun i => simplexPoint_measurable i) hα).sub logGauge_one (logBeta_tame hα hpos logGauge_one)

theorem logBeta_cont : ContinuousAt (fun s => logBetaMultivariate fun i => (α i).val s) t := by
  have h := (logBeta_tame (μ := (0 : Measure ℝ)) (w := fun _ => 1) hα hpos fun _ => le_rfl).grow
  obtain ⟨K, hK, k, ε, hε, hb⟩ := h
  refine continuousAt_of_locally_lipschitz hε (K * 1 ^ k) fun s hs => ?_
  exact (hb 0 s hs).2 t (Metric.mem_ball_self hε)

theorem dir_dominated : Dominated (volume.restrict (openSimplex n)) (logGauge fun i y => simplexPoint y i)
    (fun s y => ∑ i, ((α i).val s - 1) * Real.log (simplexPoint y i) - logBetaMultivariate fun i => (α i).val s) t := by
  refine powers_dominated (fun i => simplexPoint_measurable i) hα hpos ?_ (fun β hβ => ?_) (logBeta_cont hα hpos) (dir_tame hα hpos)
  · filter_upwards [ae_restrict_mem (measurableSet_openSimplex n)] with y hy using dir_coord y hy
  · have h := ((dirDens_isDensity hβ).integrable).const_mul (Real.exp (logBetaMultivariate β))
    refine h.congr (ae_of_all _ fun y => ?_)
    simp only [dirDens]
    rw [← Real.exp_add]; congr 1; ring

theorem dir_near : ∀ᶠ s in 𝓝 t, ∀ i, 0 < (α i).val s :=
  eventually_all.2 fun i => ((hα i).deriv t).continuousAt.eventually_const_lt (hpos i)

/-- Score-function gradients for the Dirichlet distribution in `n + 1` dimensions (any `n`), in all concentrations, for test
functions that grow at most like a power of `1 + Σ |log x_i|` (all bounded ones, in particular). -/
theorem C73_dirichlet {f : (Fin n → ℝ) → ℝ} (hf : Measurable f) {K : ℝ} {k : ℕ}
    (hb : ∀ y ∈ openSimplex n, |f y| ≤ K * (1 + ∑ i, |Real.log (simplexPoint y i)|) ^ k) :
    ScoreUnbiased (fun s => densLaw (volume.restrict (openSimplex n)) (Dir.density ⟨fun i => (α i).val s⟩))
      (fun y => Dual.dirichletLogProb (fun i => (α i).at t) fun i => Dual.const (simplexPoint y i)) f t := by
  refine score_transfer logGauge_one (dir_tame hα hpos) (dir_dominated hα hpos) (measurableSet_openSimplex n)
    (ae_restrict_mem (measurableSet_openSimplex n)) (Eventually.of_forall fun s => ?_) hf hb
  refine withDensity_congr_ae ?_
  filter_upwards [ae_restrict_mem (measurableSet_openSimplex n)] with y hy
  rw [Dir.density_eq _ hy]; rfl

/-- `mc_estimate_kl` between two Dirichlet distributions. -/
theorem C73_dirichlet_mc_kl {β : Fin (n + 1) → Param} (hβ : ∀ i, Curve (β i).val (β i).der) (hpos' : ∀ i, 0 < (β i).val t)
    {lq : (Fin n → ℝ) → ℝ} (hq : Measurable lq)
    [IsProbabilityMeasure (densLaw (volume.restrict (openSimplex n)) fun x => Real.exp (lq x))] {m : ℕ} (hm : 0 < m) :
    ∃ kl : ℝ → ℝ, (∀ s, Dir.kl ⟨fun i => (α i).val s⟩ ⟨fun i => (β i).val s⟩ = .ok (kl s)) ∧
      EstimatesWithGradient (Measure.pi fun _ : Fin m => densLaw (volume.restrict (openSimplex n)) fun x => Real.exp (lq x))
      (fun z => Dual.mean fun j =>
        Dual.diceTerm (Dual.dirichletLogProb (fun i => (α i).at t) fun i => Dual.const (simplexPoint (z j) i))
        (Dual.dirichletLogProb (fun i => (β i).at t) fun i => Dual.const (simplexPoint (z j) i)) (lq (z j))) kl t := by
  choose kl hkl using fun s => (⟨_, dif_neg (by simp)⟩ :
    ∃ k, Dir.kl ⟨fun i => (α i).val s⟩ (⟨fun i => (β i).val s⟩ : Dir (n + 1)) = .ok k)
  refine ⟨kl, hkl, kl_transfer logGauge_one (dir_tame hα hpos) (dir_dominated hα hpos) (dir_tame hβ hpos') ?_ hq hm⟩
  filter_upwards [dir_near hα hpos, dir_near hβ hpos'] with s h1 h2
  obtain ⟨k, hk, hk'⟩ := C38_dirichlet_kl_meaning ⟨fun i => (α i).val s⟩ h1 ⟨fun i => (β i).val s⟩ h2
  have : kl s = k := by have := (hkl s).symm.trans hk; simpa using this
  rw [this, ← hk'.2]
  refine setIntegral_congr_fun (measurableSet_openSimplex n) fun y hy => ?_
  simp only [Dir.density_eq _ hy, dirDens, Real.log_exp]

end dirichlet

/-! ### Beta -/

section beta

theorem beta_coord (x : ℝ) (hx : x ∈ Set.Ioo (0 : ℝ) 1) (i : Fin 2) :
    0 < (![fun x : ℝ => x, fun x => 1 - x] i) x ∧ (![fun x : ℝ => x, fun x => 1 - x] i) x ≤ 1 := by
  fin_cases i
  · exact ⟨hx.1, hx.2.le⟩
  · simpa using ⟨hx.2, hx.1.le⟩

theorem beta_meas (i : Fin 2) : Measurable (![fun x : ℝ => x, fun x => 1 - x] i) := by
  fin_cases i
  · exact measurable_id
  · exact measurable_const.sub measurable_id

theorem logBeta_two (a b : ℝ) : logBetaMultivariate ![a, b] = logBeta a b := by
  simp [logBetaMultivariate, logBeta, Fin.sum_univ_two]

theorem beta_density_zero {a b : ℝ} (ha : 0 < a) (hb : 0 < b) :
    ∀ᵐ x : ℝ, x ∉ Set.Ioo (0 : ℝ) 1 → BetaD.density ⟨a, b⟩ x = 0 := by
  filter_upwards [BetaD.density_ae (d := ⟨a, b⟩) ha hb] with x hx h
  rw [← hx, betaPDFReal]; exact if_neg h

theorem beta_density_in {a b x : ℝ} (hx : x ∈ Set.Ioo (0 : ℝ) 1) :
    BetaD.density ⟨a, b⟩ x =
      Real.exp (∑ i, (![a, b] i - 1) * Real.log ((![fun x : ℝ => x, fun x => 1 - x] i) x) - logBetaMultivariate ![a, b]) := by
  rw [BetaD.density, BetaD.logProb_in hx, logBeta_two, Fin.sum_univ_two]
  rfl

variable {alpha beta : Param} (ha : Curve alpha.val alpha.der) (hb : Curve beta.val beta.der) (ha0 : 0 < alpha.val t)
  (hb0 : 0 < beta.val t)
include ha hb ha0 hb0

theorem beta_tame : Tame (volume.restrict (Set.Ioo 0 1)) (logGauge ![fun x : ℝ => x, fun x => 1 - x])
    (fun s x => ∑ i, (![alpha.val s, beta.val s] i - 1) * Real.log ((![fun x : ℝ => x, fun x => 1 - x] i) x)
      - logBetaMultivariate ![alpha.val s, beta.val s])
    (fun x => Dual.betaLogProb (alpha.at t) (beta.at t) (Dual.const x)) t := by
  have hα : ∀ i : Fin 2, Curve (![alpha, beta] i).val (![alpha, beta] i).der := fun i => by fin_cases i <;> assumption
  have hpos : ∀ i : Fin 2, 0 < (![alpha, beta] i).val t := fun i => by fin_cases i <;> assumption
  have h := (powers_tame (μ := volume.restrict (Set.Ioo 0 1)) beta_meas hα).sub logGauge_one
    (logBeta_tame hα hpos logGauge_one)
  have e : ∀ s, (fun i => (![alpha, beta] i).val s) = ![alpha.val s, beta.val s] := fun s => by
    funext i; fin_cases i <;> rfl
  refine (h.congr' fun s x => ?_).congr fun x => ?_
  · rw [e s, Fin.sum_univ_two, Fin.sum_univ_two]; rfl
  · ext <;>
    simp only [Dual.betaLogProb, Dual.logBetaMultivariate, Dual.logBeta, Dual.sum, Fin.sum_univ_two, Dual.val_sub, Dual.val_add,
      Dual.val_mul, Dual.tan_sub, Dual.tan_add, Dual.tan_mul, Dual.lgamma, Dual.log, Dual.const, Param.at] <;> simp

theorem beta_dominated : Dominated (volume.restrict (Set.Ioo 0 1)) (logGauge ![fun x : ℝ => x, fun x => 1 - x])
    (fun s x => ∑ i, (![alpha.val s, beta.val s] i - 1) * Real.log ((![fun x : ℝ => x, fun x => 1 - x] i) x)
      - logBetaMultivariate ![alpha.val s, beta.val s]) t := by
  have hα : ∀ i : Fin 2, Curve (![alpha, beta] i).val (![alpha, beta] i).der := fun i => by fin_cases i <;> assumption
  have hpos : ∀ i : Fin 2, 0 < (![alpha, beta] i).val t := fun i => by fin_cases i <;> assumption
  have e : ∀ s, ![alpha.val s, beta.val s] = fun i => (![alpha, beta] i).val s := fun s => by
    funext i; fin_cases i <;> rfl
  have ht := beta_tame ha hb ha0 hb0
  simp only [e] at ht ⊢
  refine powers_dominated beta_meas hα hpos ?_ (fun β hβ => ?_) (logBeta_cont hα hpos) ht
  · filter_upwards [ae_restrict_mem measurableSet_Ioo] with x hx using beta_coord x hx
  · have h := (betaPDF_isPdf (hβ 0) (hβ 1)).integrable.const_mul (ProbabilityTheory.beta (β 0) (β 1))
    refine (h.restrict (s := Set.Ioo 0 1)).congr ?_
    filter_upwards [ae_restrict_mem measurableSet_Ioo] with x hx
    have h1 := beta_pos (hβ 0) (hβ 1)
    rw [betaPDFReal, if_pos (show 0 < x ∧ x < 1 from hx), Fin.sum_univ_two, Real.exp_add]
    simp only [Matrix.cons_val_zero, Matrix.cons_val_one]
    rw [mul_comm (β 0 - 1), mul_comm (β 1 - 1), Real.exp_mul, Real.exp_mul, Real.exp_log hx.1,
      Real.exp_log (by linarith [hx.2])]
    field_simp

/-- Score-function gradients for the Beta distribution, in both parameters, for test functions that grow at most like a power
of `1 + |log x| + |log (1 - x)|` (all bounded ones, in particular). -/
theorem C73_beta {f : ℝ → ℝ} (hf : Measurable f) {K : ℝ} {k : ℕ}
    (hbd : ∀ x, 0 < x → x < 1 → |f x| ≤ K * (1 + |Real.log x| + |Real.log (1 - x)|) ^ k) :
    ScoreUnbiased (fun s => lawOf (BetaD.density ⟨alpha.val s, beta.val s⟩))
      (fun x => Dual.betaLogProb (alpha.at t) (beta.at t) (Dual.const x)) f t := by
  refine score_transfer logGauge_one (beta_tame ha hb ha0 hb0) (beta_dominated ha hb ha0 hb0) measurableSet_Ioo
    (ae_restrict_mem measurableSet_Ioo) ?_ hf (K := K) (k := k) (fun x hx => (hbd x hx.1 hx.2).trans (le_of_eq ?_))
  · filter_upwards [(ha.deriv t).continuousAt.eventually_const_lt ha0, (hb.deriv t).continuousAt.eventually_const_lt hb0] with s h1 h2
    exact lawOf_restrict measurableSet_Ioo (fun x hx => beta_density_in hx) (beta_density_zero h1 h2)
  · simp [logGauge, Fin.sum_univ_two, add_assoc]

/-- `mc_estimate_kl` between two Beta distributions. -/
theorem C73_beta_mc_kl {alphaB betaB : Param} (ha' : Curve alphaB.val alphaB.der) (hb' : Curve betaB.val betaB.der)
    (ha0' : 0 < alphaB.val t) (hb0' : 0 < betaB.val t) {lq : ℝ → ℝ} (hq : Measurable lq)
    [IsProbabilityMeasure (densLaw (volume.restrict (Set.Ioo 0 1)) fun x => Real.exp (lq x))] {m : ℕ} (hm : 0 < m) :
    EstimatesWithGradient (Measure.pi fun _ : Fin m => densLaw (volume.restrict (Set.Ioo 0 1)) fun x => Real.exp (lq x))
      (fun z => Dual.mean fun j => Dual.diceTerm (Dual.betaLogProb (alpha.at t) (beta.at t) (Dual.const (z j)))
        (Dual.betaLogProb (alphaB.at t) (betaB.at t) (Dual.const (z j))) (lq (z j)))
      (fun s => BetaD.kl ⟨alpha.val s, beta.val s⟩ ⟨alphaB.val s, betaB.val s⟩) t := by
  refine kl_transfer logGauge_one (beta_tame ha hb ha0 hb0) (beta_dominated ha hb ha0 hb0) (beta_tame ha' hb' ha0' hb0')
    ?_ hq hm
  filter_upwards [(ha.deriv t).continuousAt.eventually_const_lt ha0, (hb.deriv t).continuousAt.eventually_const_lt hb0,
    (ha'.deriv t).continuousAt.eventually_const_lt ha0', (hb'.deriv t).continuousAt.eventually_const_lt hb0'] with s h1 h2 h3 h4
  exact restrict_kl measurableSet_Ioo (fun x hx => beta_density_in hx) (fun x hx => beta_density_in hx)
    (beta_density_zero h1 h2) (C38_beta_kl ⟨_, _⟩ ⟨_, _⟩ h1 h2 h3 h4).1

end beta

/-- The mean of `log x` under a Gamma distribution with a varying concentration. -/
example : ScoreUnbiased (fun s => lawOf (GammaD.pdf ⟨s, 2⟩))
    (fun x => Dual.gammaLogProb ⟨3, 1⟩ ⟨2, 0⟩ (Dual.const x)) Real.log 3 :=
  C73_gamma (conc := ⟨fun s => s, fun _ => 1⟩) (rate := ⟨fun _ => 2, fun _ => 0⟩)
    ⟨fun s => hasDerivAt_id s, continuous_const⟩ (curve_const 2) (by norm_num) (by norm_num) Real.measurable_log (K := 1) (k := 1)
    fun x _ => by simp only [pow_one, one_mul]; linarith [abs_nonneg x]

/-- A proposal for the Gamma estimators: the Gamma distribution itself. -/
example : IsProbabilityMeasure (densLaw (volume.restrict (Set.Ioi 0)) fun x =>
    Real.exp (3 * Real.log 2 + (3 - 1) * Real.log x - 2 * x - lgamma 3)) := by
  rw [← lawOf_restrict (p := GammaD.pdf ⟨3, 2⟩) measurableSet_Ioi (fun x hx => gamma_pdf_pos (by norm_num) (by norm_num) hx)
    (gamma_pdf_zero (by norm_num) (by norm_num))]
  exact lawOf_prob (C39_law ⟨3, 2⟩ (by norm_num) (by norm_num)).1

/-- The first entry of a three-dimensional Dirichlet vector. -/
example : ScoreUnbiased (fun s => densLaw (volume.restrict (openSimplex 2)) (Dir.density ⟨fun i : Fin 3 => ((if i = 0 then
      ⟨fun s => s, fun _ => 1⟩ else ⟨fun _ => 1 / 2, fun _ => 0⟩ : Param)).val s⟩))
    (fun y => Dual.dirichletLogProb (fun i : Fin 3 => ((if i = 0 then ⟨fun s => s, fun _ => 1⟩ else ⟨fun _ => 1 / 2, fun _ => 0⟩ : Param)).at 2)
      fun i => Dual.const (simplexPoint y i)) (fun y => y 0) 2 := by
  refine C73_dirichlet (fun i => ?_) (fun i => ?_) (measurable_pi_apply 0) (K := 1) (k := 0) fun y hy => ?_
  · split_ifs
    · exact ⟨fun s => hasDerivAt_id s, continuous_const⟩
    · exact curve_const _
  · split_ifs <;> norm_num
  · have := dir_coord y hy (Fin.castSucc 0)
    rw [simplexPoint, Fin.snoc_castSucc] at this
    rw [abs_of_pos this.1]; simpa using this.2

/-- A Beta distribution with a varying first parameter. -/
example : ScoreUnbiased (fun s => lawOf (BetaD.density ⟨s, 1 / 2⟩))
    (fun x => Dual.betaLogProb ⟨2, 1⟩ ⟨1 / 2, 0⟩ (Dual.const x)) (fun x => if x < 1 / 3 then 1 else 0) 2 :=
  C73_beta (alpha := ⟨fun s => s, fun _ => 1⟩) (beta := ⟨fun _ => 1 / 2, fun _ => 0⟩)
    ⟨fun s => hasDerivAt_id s, continuous_const⟩ (curve_const _) (by norm_num) (by norm_num)
    (Measurable.ite measurableSet_Iio measurable_const measurable_const) (K := 1) (k := 0)
    fun x _ _ => by split_ifs <;> simp

end Distrax
