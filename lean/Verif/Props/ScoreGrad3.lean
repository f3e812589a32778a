import Verif.Props.ScoreGrad2
import Mathlib.MeasureTheory.Integral.Pi

/-! C73, continued: `Independent` over vectors of scalar distributions. -/

namespace Distrax

open MeasureTheory Filter Topology Spec ProbabilityTheory

variable {t : ℝ} {n : ℕ}

/-- `1 + Σ |x i|`. -/
noncomputable def vecGauge (x : Fin n → ℝ) : ℝ := 1 + ∑ i, |x i|

theorem vecGauge_one (x : Fin n → ℝ) : 1 ≤ vecGauge x := by
  unfold vecGauge; linarith [Finset.sum_nonneg fun i (_ : i ∈ Finset.univ) => abs_nonneg (x i)]

theorem vecGauge_le (x : Fin n → ℝ) (i : Fin n) : lineGauge (x i) ≤ vecGauge x := by
  unfold vecGauge lineGauge
  linarith [Finset.single_le_sum (f := fun i => |x i|) (fun i _ => abs_nonneg (x i)) (Finset.mem_univ i)]

theorem vecGauge_prod (x : Fin n → ℝ) : vecGauge x ≤ ∏ i, lineGauge (x i) := by
  unfold vecGauge lineGauge
  have : ∀ s : Finset (Fin n), 1 + ∑ i ∈ s, |x i| ≤ ∏ i ∈ s, (1 + |x i|) := fun s => by
    induction s using Finset.induction_on with
    | empty => simp
    | insert a s ha ih =>
      rw [Finset.sum_insert ha, Finset.prod_insert ha]
      have h0 := abs_nonneg (x a)
      have h1 : 0 ≤ ∑ i ∈ s, |x i| := Finset.sum_nonneg fun i _ => abs_nonneg _
      nlinarith
  exact this _

theorem Tame.coord {F : ℝ → ℝ → ℝ} {D : ℝ → Dual} (h : Tame volume lineGauge F D t) (i : Fin n) :
    Tame (volume : Measure (Fin n → ℝ)) vecGauge (fun s x => F s (x i)) (fun x => D (x i)) t := by
  refine ⟨fun x => h.val _, fun s => (h.meas s).comp (measurable_pi_apply i), ?_, ?_⟩
  · obtain ⟨K, hK, k, ε, hε, hb⟩ := h.grow
    have hle : ∀ x : Fin n → ℝ, K * lineGauge (x i) ^ k ≤ K * vecGauge x ^ k := fun x =>
      mul_le_mul_of_nonneg_left (pow_le_pow_left₀ (by linarith [lineGauge_one (x i)]) (vecGauge_le x i) k) hK
    refine ⟨K, hK, k, ε, hε, fun x s hs => ⟨((hb (x i) s hs).1).trans (hle x), fun r hr => ((hb (x i) s hs).2 r hr).trans ?_⟩⟩
    exact mul_le_mul_of_nonneg_right (hle x) (abs_nonneg _)
  · exact (Measure.quasiMeasurePreserving_eval (fun _ : Fin n => (volume : Measure ℝ)) i).ae h.deriv

/-- Products of laws with densities. -/
theorem pi_densLaw {p : Fin n → ℝ → ℝ} (hp : ∀ i, IsPdf (p i)) (hm : ∀ i, Measurable (p i)) :
    Measure.pi (fun i => lawOf (p i)) = densLaw volume fun x => ∏ i, p i (x i) := by
  have := fun i => lawOf_prob (hp i)
  refine Measure.pi_eq fun s hs => ?_
  have hprod : Integrable (fun x : Fin n → ℝ => ∏ i, p i (x i)) := Integrable.fintype_prod (fun i => (hp i).integrable)
  have h0 : ∀ x : Fin n → ℝ, 0 ≤ ∏ i, p i (x i) := fun x => Finset.prod_nonneg fun i _ => (hp i).nonneg _
  rw [densLaw, withDensity_apply _ (MeasurableSet.univ_pi hs), ← ofReal_integral_eq_lintegral_ofReal hprod.integrableOn
    (ae_of_all _ h0)]
  have hr : (volume : Measure (Fin n → ℝ)).restrict (Set.univ.pi s) = Measure.pi fun i => volume.restrict (s i) :=
    Measure.restrict_pi_pi _ _
  rw [hr, integral_fintype_prod_eq_prod (fun i x => p i x), ENNReal.ofReal_prod_of_nonneg fun i _ =>
    setIntegral_nonneg (hs i) fun x _ => (hp i).nonneg x]
  refine Finset.prod_congr rfl fun i _ => ?_
  exact (lawOf_apply (hp i) (hs i)).symm

section
variable {d : Fin n → ScalarDist} (hd : ∀ i, Valid t (d i)) (hg : ∀ i, NoGumbel (d i))
include hd hg

theorem indep_tame : Tame (volume : Measure (Fin n → ℝ)) vecGauge (fun s x => ∑ i, Real.log (density s (x i) (d i)))
    (fun x => Dual.independentLogProb fun i => (d i).logProb t (Dual.const (x i))) t :=
  Tame.sum vecGauge_one fun i => Tame.coord (dist_line (d i) (hd i) (hg i)).1 i

theorem indep_dom : Dominated (volume : Measure (Fin n → ℝ)) vecGauge (fun s x => ∑ i, Real.log (density s (x i) (d i))) t := by
  choose B h1 h2 using fun i => (dist_line (d i) (hd i) (hg i)).2
  have hB0 : ∀ i x, 0 ≤ B i x := fun i x => (Real.exp_pos _).le.trans ((h2 i).self_of_nhds x)
  refine ⟨fun x => ∏ i, B i (x i), fun k => ?_, ?_⟩
  · have hI : Integrable fun x : Fin n → ℝ => ∏ i, (lineGauge (x i) ^ k * B i (x i)) :=
      Integrable.fintype_prod fun i => h1 i k
    have hBm : Integrable fun x : Fin n → ℝ => ∏ i, B i (x i) :=
      Integrable.fintype_prod fun i => by simpa using h1 i 0
    refine hI.mono' ?_ (ae_of_all _ fun x => ?_)
    · refine (Measurable.aestronglyMeasurable ?_).mul hBm.aestronglyMeasurable
      unfold vecGauge; fun_prop
    · have hg0 := vecGauge_one x
      have hp0 : 0 ≤ ∏ i, B i (x i) := Finset.prod_nonneg fun i _ => hB0 i _
      rw [Real.norm_eq_abs, abs_of_nonneg (by positivity), Finset.prod_mul_distrib, Finset.prod_pow]
      exact mul_le_mul_of_nonneg_right (pow_le_pow_left₀ (by linarith) (vecGauge_prod x) k) hp0
  · filter_upwards [eventually_all.2 h2] with s hs x
    rw [Real.exp_sum]
    exact Finset.prod_le_prod (fun i _ => (Real.exp_pos _).le) fun i _ => hs i (x i)

/-- The law of a sample of `Independent`: independent coordinates. -/
theorem indep_law : ∀ᶠ s in 𝓝 t, Measure.pi (fun i => sampleLaw (d i) s) =
    densLaw volume fun x : Fin n → ℝ => Real.exp (∑ i, Real.log (density s (x i) (d i))) := by
  filter_upwards [eventually_all.2 fun i => C73_density (d i) (hd i), eventually_all.2 fun i => density_pos (d i) (hd i)]
    with s h1 h2
  have := pi_densLaw (p := fun i x => density s x (d i)) h1 fun i => density_meas (d i) s
  refine this.trans ?_
  congr 1
  funext x
  rw [Real.exp_sum]
  exact Finset.prod_congr rfl fun i _ => (Real.exp_log (h2 i _)).symm

/-- Score-function gradients of `Independent(d_1, …, d_n)`, for vectors of any length. -/
theorem C73_independent_score {f : (Fin n → ℝ) → ℝ} (hf : PolyGrowthV f) :
    ScoreUnbiased (fun s => Measure.pi fun i => sampleLaw (d i) s)
      (fun x => Dual.independentLogProb fun i => (d i).logProb t (Dual.const (x i))) f t := by
  obtain ⟨hfm, K, k, hK⟩ := hf
  obtain ⟨h1, h2, h3⟩ := score_of_tame vecGauge_one (indep_tame hd hg) (indep_dom hd hg) hfm hK
  have hl := indep_law hd hg
  refine ⟨?_, ?_, ?_⟩
  · filter_upwards [h1, hl] with s hs hs'
    rw [hs']; exact hs
  · beta_reduce; rw [hl.self_of_nhds]; exact h2
  · beta_reduce; rw [hl.self_of_nhds]
    refine h3.congr_of_eventuallyEq ?_
    filter_upwards [hl] with s hs
    rw [hs]

/-- `mc_estimate_kl` between two such vectors with a proposal of the same kind, with `m` draws. -/
theorem C73_independent_mc_kl {b : Fin n → ScalarDist} (hb : ∀ i, Valid t (b i)) (hgb : ∀ i, NoGumbel (b i))
    {lq : (Fin n → ℝ) → ℝ} (hq : Measurable lq) [IsProbabilityMeasure (densLaw volume fun x => Real.exp (lq x))] {m : ℕ}
    (hm : 0 < m) :
    EstimatesWithGradient (Measure.pi fun _ : Fin m => densLaw volume fun x => Real.exp (lq x))
      (fun z => Dual.mean fun j => Dual.diceTerm (Dual.independentLogProb fun i => (d i).logProb t (Dual.const (z j i)))
        (Dual.independentLogProb fun i => (b i).logProb t (Dual.const (z j i))) (lq (z j)))
      (fun s => klInt volume (fun x : Fin n → ℝ => ∏ i, density s (x i) (d i)) fun x => ∏ i, density s (x i) (b i)) t := by
  suffices key : EstimatesWithGradient (densLaw volume fun x => Real.exp (lq x))
      (fun x => Dual.diceTerm (Dual.independentLogProb fun i => (d i).logProb t (Dual.const (x i)))
        (Dual.independentLogProb fun i => (b i).logProb t (Dual.const (x i))) (lq x))
      (fun s => klInt volume (fun x : Fin n → ℝ => ∏ i, density s (x i) (d i)) fun x => ∏ i, density s (x i) (b i)) t by
    have hν : IsProbabilityMeasure (densLaw volume fun x : Fin n → ℝ => Real.exp (lq x)) := inferInstance
    clear hq
    generalize (densLaw volume fun x : Fin n → ℝ => Real.exp (lq x)) = ν at *
    generalize (fun s => klInt volume (fun x : Fin n → ℝ => ∏ i, density s (x i) (d i)) fun x => ∏ i, density s (x i) (b i)) = kk at *
    have h := @estimates_mean (Fin n → ℝ) _ ν _ m hm _ kk t key
    beta_reduce at h
    exact h
  have := dice_general vecGauge_one (indep_tame hd hg) (indep_dom hd hg) (indep_tame hb hgb) hq
  obtain ⟨k1, k2, k3, k4⟩ := this
  have hk : ∀ᶠ s in 𝓝 t, klInt volume (fun x : Fin n → ℝ => ∏ i, density s (x i) (d i)) (fun x => ∏ i, density s (x i) (b i)) =
      klInt volume (fun x : Fin n → ℝ => Real.exp (∑ i, Real.log (density s (x i) (d i))))
        (fun x => Real.exp (∑ i, Real.log (density s (x i) (b i)))) := by
    filter_upwards [eventually_all.2 fun i => density_pos (d i) (hd i), eventually_all.2 fun i => density_pos (b i) (hb i)]
      with s h1 h2
    simp only [Real.exp_sum, Real.exp_log (h1 _ _), Real.exp_log (h2 _ _)]
  refine ⟨k1, k2.trans hk.self_of_nhds.symm, k3, k4.congr_of_eventuallyEq hk⟩

end

/-- Two coordinates, one of them a mixture. -/
example : ScoreUnbiased
    (fun s => Measure.pi fun i => sampleLaw ((![weightCurve (fun s => s) fun _ => 1,
      .logistic ⟨fun s => s, fun _ => 1⟩ ⟨fun _ => 1, fun _ => 0⟩] : Fin 2 → ScalarDist) i) s)
    (fun x => Dual.independentLogProb fun i => ((![weightCurve (fun s => s) fun _ => 1,
      .logistic ⟨fun s => s, fun _ => 1⟩ ⟨fun _ => 1, fun _ => 0⟩] : Fin 2 → ScalarDist) i).logProb (1 / 2) (Dual.const (x i)))
    (fun x => x 0 * x 1) (1 / 2) := by
  refine C73_independent_score (fun i => ?_) (fun i => ?_) ⟨by fun_prop, 1, 2, fun x => ?_⟩
  · fin_cases i
    · exact weightCurve_valid ⟨fun s => hasDerivAt_id s, continuous_const⟩ (by norm_num) (by norm_num)
    · exact ⟨⟨fun s => hasDerivAt_id s, continuous_const⟩, curve_const 1, one_pos⟩
  · fin_cases i
    · exact ⟨trivial, trivial⟩
    · exact trivial
  · rw [abs_mul, Fin.sum_univ_two, one_mul]
    nlinarith [abs_nonneg (x 0), abs_nonneg (x 1)]

end Distrax
