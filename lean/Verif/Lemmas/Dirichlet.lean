import Verif.Spec.Dirichlet
import Verif.Spec.Density
import Verif.Lemmas.GammaBeta
import Verif.Model.MathUtils
import Mathlib.MeasureTheory.Measure.Lebesgue.EqHaar
import Mathlib.MeasureTheory.Constructions.Pi
import Mathlib.MeasureTheory.Integral.Prod

/-! Stick breaking: the Dirichlet law with `n + 2` entries is a Beta draw and an independent Dirichlet law with `n + 1`. -/

namespace Distrax
open MeasureTheory Set Spec ProbabilityTheory
open scoped ENNReal

/-- Attach a first piece `t` and shrink the rest. -/
def stick {n : ℕ} (p : ℝ × (Fin n → ℝ)) : Fin (n + 1) → ℝ := Fin.cons p.1 ((1 - p.1) • p.2)

theorem stick_measurable {n : ℕ} : Measurable (stick (n := n)) := by
  rw [measurable_pi_iff]
  intro i
  refine Fin.cases ?_ (fun i => ?_) i
  · simpa [stick] using measurable_fst
  · simp only [stick, Fin.cons_succ, Pi.smul_apply, smul_eq_mul]
    fun_prop

theorem simplexPoint_stick {n : ℕ} (t : ℝ) (w : Fin n → ℝ) :
    simplexPoint (stick (t, w)) = Fin.cons t ((1 - t) • simplexPoint w) := by
  funext i
  unfold simplexPoint stick
  have hs : ∑ i, (Fin.cons t ((1 - t) • w) : Fin (n + 1) → ℝ) i = t + (1 - t) * ∑ i, w i := by
    rw [Fin.sum_univ_succ]
    simp [Finset.mul_sum]
  rw [hs]
  have : (Fin.snoc (Fin.cons t ((1 - t) • w) : Fin (n + 1) → ℝ) (1 - (t + (1 - t) * ∑ i, w i)) : Fin (n + 2) → ℝ)
      = Fin.cons t (Fin.snoc ((1 - t) • w) (1 - (t + (1 - t) * ∑ i, w i)) : Fin (n + 1) → ℝ) := by
    exact (Fin.cons_snoc_eq_snoc_cons (β := ℝ) t ((1 - t) • w) _).symm
  rw [this]
  congr 1
  funext j
  refine Fin.lastCases ?_ (fun j => ?_) j
  · simp; ring
  · simp

theorem measurableSet_openSimplex (n : ℕ) : MeasurableSet (openSimplex n) := by
  have : openSimplex n = ⋂ i, (fun y => simplexPoint y i) ⁻¹' Ioi 0 := by
    ext y; simp [openSimplex]
  rw [this]
  refine MeasurableSet.iInter fun i => ?_
  suffices h : Measurable fun y : Fin n → ℝ => simplexPoint y i from h measurableSet_Ioi
  refine Fin.lastCases ?_ (fun j => ?_) i
  · simp only [simplexPoint, Fin.snoc_last]; fun_prop
  · simp only [simplexPoint, Fin.snoc_castSucc]; fun_prop

theorem simplexPoint_sum {n : ℕ} (y : Fin n → ℝ) : ∑ i, simplexPoint y i = 1 := by
  rw [Fin.sum_univ_castSucc]
  simp [simplexPoint]

theorem stick_mem {n : ℕ} {t : ℝ} {w : Fin n → ℝ} :
    stick (t, w) ∈ openSimplex (n + 1) ↔ t ∈ Ioo (0 : ℝ) 1 ∧ w ∈ openSimplex n := by
  simp only [openSimplex, mem_ofPred_eq, simplexPoint_stick, Fin.forall_fin_succ (n := n + 1), Fin.cons_zero, Fin.cons_succ,
    Pi.smul_apply, smul_eq_mul]
  constructor
  · rintro ⟨h0, h⟩
    have h1 : 0 < 1 - t := by
      have : 0 < ∑ j, (1 - t) * simplexPoint w j := Finset.sum_pos (fun j _ => h j) Finset.univ_nonempty
      rwa [← Finset.mul_sum, simplexPoint_sum, mul_one] at this
    exact ⟨⟨h0, by linarith⟩, fun j => (mul_pos_iff_of_pos_left h1).1 (h j)⟩
  · rintro ⟨⟨h0, h1⟩, h⟩
    exact ⟨h0, fun j => mul_pos (by linarith) (h j)⟩

/-- Change of variables. -/
theorem lintegral_stick {n : ℕ} (g : (Fin (n + 1) → ℝ) → ℝ≥0∞) (hg : Measurable g) :
    ∫⁻ y, g y = ∫⁻ t, ∫⁻ w : Fin n → ℝ, ENNReal.ofReal (|1 - t| ^ n) * g (stick (t, w)) := by
  have h1 := (volume_preserving_piFinSuccAbove (fun _ : Fin (n + 1) => ℝ) 0).symm
  rw [← h1.lintegral_comp hg, Measure.volume_eq_prod, lintegral_prod]
  · refine lintegral_congr_ae ?_
    have : ∀ᵐ t : ℝ, t ≠ 1 := by simp [ae_iff, measure_singleton]
    filter_upwards [this] with t ht
    have hr : (1 - t) ≠ 0 := sub_ne_zero.2 (Ne.symm ht)
    have hm : Measurable fun w : Fin n → ℝ => g (Fin.cons t w) := by
      refine hg.comp ?_
      rw [measurable_pi_iff]
      intro i
      refine Fin.cases ?_ (fun i => ?_) i
      · simp
      · simpa using measurable_pi_apply i
    have h2 := Measure.map_addHaar_smul (volume : Measure (Fin n → ℝ)) hr
    have h3 : ∫⁻ w, g (Fin.cons t w) ∂(Measure.map ((1 - t) • ·) (volume : Measure (Fin n → ℝ)))
        = ∫⁻ w, g (Fin.cons t ((1 - t) • w)) := lintegral_map hm (by fun_prop)
    rw [h2, lintegral_smul_measure] at h3
    rw [lintegral_const_mul _ (by
      have : Measurable fun w : Fin n → ℝ => stick (t, w) := stick_measurable.comp (by fun_prop)
      exact hg.comp this)]
    show _ = _ * ∫⁻ w, g (Fin.cons t ((1 - t) • w))
    rw [← h3, smul_eq_mul, ← mul_assoc, ← ENNReal.ofReal_mul (by positivity)]
    have : |1 - t| ^ n * |((1 - t) ^ Module.finrank ℝ (Fin n → ℝ))⁻¹| = 1 := by
      rw [Module.finrank_fin_fun, abs_inv, abs_pow]
      exact mul_inv_cancel₀ (pow_ne_zero _ (abs_ne_zero.2 hr))
    rw [this, ENNReal.ofReal_one, one_mul]
    refine lintegral_congr fun w => ?_
    congr 1
    funext i
    refine Fin.cases ?_ (fun i => ?_) i
    · simp [MeasurableEquiv.piFinSuccAbove]
    · simp [MeasurableEquiv.piFinSuccAbove]
  · exact (hg.comp h1.measurable).aemeasurable

/-- The density, in the coordinates of the simplex. -/
noncomputable def dirDens {n : ℕ} (α : Fin (n + 1) → ℝ) (y : Fin n → ℝ) : ℝ :=
  Real.exp (∑ i, (α i - 1) * Real.log (simplexPoint y i) - logBetaMultivariate α)

/-- The law with that density. -/
noncomputable def dirMeasure {n : ℕ} (α : Fin (n + 1) → ℝ) : Measure (Fin n → ℝ) :=
  (volume.restrict (openSimplex n)).withDensity fun y => ENNReal.ofReal (dirDens α y)

theorem simplexPoint_measurable {n : ℕ} (i : Fin (n + 1)) : Measurable fun y : Fin n → ℝ => simplexPoint y i := by
  refine Fin.lastCases ?_ (fun j => ?_) i
  · simp only [simplexPoint, Fin.snoc_last]; fun_prop
  · simp only [simplexPoint, Fin.snoc_castSucc]; fun_prop

theorem dirDens_measurable {n : ℕ} (α : Fin (n + 1) → ℝ) : Measurable (dirDens α) := by
  unfold dirDens
  refine Real.measurable_exp.comp ((Finset.measurable_sum _ fun i _ => ?_).sub_const _)
  exact (Real.measurable_log.comp (simplexPoint_measurable i)).const_mul _

theorem logBetaMultivariate_cons {n : ℕ} (a : ℝ) (α : Fin n → ℝ) :
    logBetaMultivariate (Fin.cons a α : Fin (n + 1) → ℝ) = logBeta a (∑ i, α i) + logBetaMultivariate α := by
  simp only [logBetaMultivariate, logBeta, Fin.sum_univ_succ, Fin.cons_zero, Fin.cons_succ]
  ring

theorem dirDens_stick {n : ℕ} {a : ℝ} {α : Fin (n + 1) → ℝ} (ha : 0 < a) (hα : ∀ i, 0 < α i) {t : ℝ} {w : Fin n → ℝ}
    (ht : t ∈ Ioo (0 : ℝ) 1) (hw : w ∈ openSimplex n) :
    |1 - t| ^ n * dirDens (Fin.cons a α) (stick (t, w)) = betaPDFReal a (∑ i, α i) t * dirDens α w := by
  have hA : 0 < ∑ i, α i := Finset.sum_pos (fun i _ => hα i) Finset.univ_nonempty
  have h1 : 0 < 1 - t := by linarith [ht.2]
  have hB : betaPDFReal a (∑ i, α i) t
      = Real.exp (-(logBeta a (∑ i, α i)) + (a - 1) * Real.log t + (∑ i, α i - 1) * Real.log (1 - t)) := by
    rw [betaPDFReal, if_pos ⟨ht.1, ht.2⟩, Real.exp_add, Real.exp_add, logBeta_eq ha hA, Real.exp_neg,
      Real.exp_log (beta_pos ha hA), Real.rpow_def_of_pos ht.1, Real.rpow_def_of_pos h1, one_div,
      mul_comm (Real.log t), mul_comm (Real.log (1 - t))]
  have hn : |1 - t| ^ n = Real.exp (n * Real.log (1 - t)) := by
    rw [abs_of_pos h1, Real.exp_nat_mul, Real.exp_log h1]
  rw [hB, hn, dirDens, dirDens, ← Real.exp_add, ← Real.exp_add]
  congr 1
  rw [simplexPoint_stick, Fin.sum_univ_succ, logBetaMultivariate_cons]
  simp only [Fin.cons_zero, Fin.cons_succ, Pi.smul_apply, smul_eq_mul]
  have : ∑ j, (α j - 1) * Real.log ((1 - t) * simplexPoint w j)
      = (∑ j, α j - (n + 1)) * Real.log (1 - t) + ∑ j, (α j - 1) * Real.log (simplexPoint w j) := by
    rw [Finset.sum_congr rfl fun j _ => by rw [Real.log_mul h1.ne' (hw j).ne', mul_add], Finset.sum_add_distrib,
      ← Finset.sum_mul, Finset.sum_sub_distrib]
    simp
  rw [this]
  ring

/-- **Stick breaking.** -/
theorem dirMeasure_cons {n : ℕ} {a : ℝ} {α : Fin (n + 1) → ℝ} (ha : 0 < a) (hα : ∀ i, 0 < α i)
    [SFinite (dirMeasure α)] :
    dirMeasure (Fin.cons a α : Fin (n + 2) → ℝ) = ((betaMeasure a (∑ i, α i)).prod (dirMeasure α)).map stick := by
  ext s hs
  rw [Measure.map_apply stick_measurable hs, dirMeasure, withDensity_apply _ hs,
    Measure.restrict_restrict hs, ← lintegral_indicator (hs.inter (measurableSet_openSimplex _)), lintegral_stick]
  · rw [Measure.prod_apply (stick_measurable hs), betaMeasure, lintegral_withDensity_eq_lintegral_mul₀]
    · refine lintegral_congr fun t => ?_
      have hpre : MeasurableSet (Prod.mk t ⁻¹' (stick ⁻¹' s) : Set (Fin n → ℝ)) :=
        measurable_prodMk_left (stick_measurable hs)
      rw [Pi.mul_apply, dirMeasure, withDensity_apply _ hpre, Measure.restrict_restrict hpre,
        ← lintegral_indicator (hpre.inter (measurableSet_openSimplex _)), betaPDF,
        ← lintegral_const_mul' _ _ ENNReal.ofReal_ne_top]
      refine lintegral_congr fun w => ?_
      by_cases h : t ∈ Ioo (0 : ℝ) 1 ∧ w ∈ openSimplex n
      · by_cases h' : stick (t, w) ∈ s
        · have m1 : stick (t, w) ∈ s ∩ openSimplex (n + 1) := ⟨h', stick_mem.2 h⟩
          have m2 : w ∈ Prod.mk t ⁻¹' (stick ⁻¹' s) ∩ openSimplex n := ⟨h', h.2⟩
          rw [indicator_of_mem m1, indicator_of_mem m2, ← ENNReal.ofReal_mul (by positivity),
            dirDens_stick ha hα h.1 h.2, ENNReal.ofReal_mul]
          exact betaPDFReal_nonneg ha (Finset.sum_pos (fun i _ => hα i) Finset.univ_nonempty) t
        · rw [indicator_of_notMem fun x => h' x.1, indicator_of_notMem fun x => h' x.1, mul_zero, mul_zero]
      · rw [indicator_of_notMem fun x => h (stick_mem.1 x.2), mul_zero]
        by_cases ht : t ∈ Ioo (0 : ℝ) 1
        · rw [indicator_of_notMem fun x => h ⟨ht, x.2⟩, mul_zero]
        · rw [betaPDFReal, if_neg fun x => ht ⟨x.1, x.2⟩, ENNReal.ofReal_zero, zero_mul]
    · exact (measurable_betaPDFReal _ _).ennreal_ofReal.aemeasurable
    · exact (measurable_measure_prodMk_left (stick_measurable hs)).aemeasurable
  · exact (dirDens_measurable _).ennreal_ofReal.indicator (hs.inter (measurableSet_openSimplex _))

theorem dirMeasure_zero (α : Fin 1 → ℝ) : dirMeasure α = volume := by
  have h1 : openSimplex 0 = univ := by
    ext y; simp [openSimplex, simplexPoint, Fin.forall_fin_one, Fin.snoc]
  have h2 : ∀ y, dirDens α y = 1 := by
    intro y
    simp [dirDens, simplexPoint, Fin.snoc, logBetaMultivariate]
  simp only [dirMeasure, h1, h2, Measure.restrict_univ, ENNReal.ofReal_one]
  exact withDensity_one

/-- The Dirichlet density is normalised, in every dimension. -/
theorem dirMeasure_prob : ∀ {n : ℕ} {α : Fin (n + 1) → ℝ}, (∀ i, 0 < α i) → IsProbabilityMeasure (dirMeasure α)
  | 0, α, _ => by
    rw [dirMeasure_zero]
    constructor
    rw [Measure.volume_pi_eq_dirac (fun _ => 0)]
    simp
  | n + 1, α, h => by
    have h' : ∀ i : Fin (n + 1), 0 < Fin.tail α i := fun i => h i.succ
    have := dirMeasure_prob h'
    have := isProbabilityMeasureBeta (h 0) (Finset.sum_pos (fun i _ => h' i) Finset.univ_nonempty)
    rw [← Fin.cons_self_tail α, dirMeasure_cons (h 0) h']
    exact Measure.isProbabilityMeasure_map stick_measurable.aemeasurable

theorem integrable_withDensity_ofReal {E : Type} [MeasurableSpace E] {μ : Measure E} {f h : E → ℝ} (hf : Measurable f)
    (h0 : ∀ᵐ x ∂μ, 0 ≤ f x) : (Integrable h (μ.withDensity fun x => ENNReal.ofReal (f x)) ↔ Integrable (fun x => f x * h x) μ) ∧
    ∫ x, h x ∂(μ.withDensity fun x => ENNReal.ofReal (f x)) = ∫ x, f x * h x ∂μ := by
  constructor
  · rw [integrable_withDensity_iff_integrable_smul' hf.ennreal_ofReal (ae_of_all _ fun x => ENNReal.ofReal_lt_top)]
    refine integrable_congr ?_
    filter_upwards [h0] with x hx
    rw [ENNReal.toReal_ofReal hx, smul_eq_mul]
  · rw [integral_withDensity_eq_integral_toReal_smul hf.ennreal_ofReal (ae_of_all _ fun x => ENNReal.ofReal_lt_top)]
    refine integral_congr_ae ?_
    filter_upwards [h0] with x hx
    rw [ENNReal.toReal_ofReal hx, smul_eq_mul]

theorem betaMeasure_exp {a b : ℝ} (ha : 0 < a) (hb : 0 < b) {h : ℝ → ℝ} {e : ℝ} (he : HasExp (betaPDFReal a b) h e) :
    Integrable h (betaMeasure a b) ∧ ∫ x, h x ∂betaMeasure a b = e := by
  have := integrable_withDensity_ofReal (μ := volume) (f := betaPDFReal a b) (h := h) (measurable_betaPDFReal _ _)
    (ae_of_all _ fun x => betaPDFReal_nonneg ha hb x)
  exact ⟨this.1.2 he.1, this.2.trans he.2⟩

theorem betaMeasure_mem {a b : ℝ} : ∀ᵐ t ∂betaMeasure a b, t ∈ Ioo (0 : ℝ) 1 := by
  unfold betaMeasure
  rw [ae_withDensity_iff (show Measurable (betaPDF a b) from (measurable_betaPDFReal _ _).ennreal_ofReal)]
  refine ae_of_all _ fun t ht => ?_
  by_contra hn
  apply ht
  rw [betaPDF, betaPDFReal, if_neg fun x => hn ⟨x.1, x.2⟩, ENNReal.ofReal_zero]

theorem dirMeasure_mem {n : ℕ} {α : Fin (n + 1) → ℝ} : ∀ᵐ y ∂dirMeasure α, y ∈ openSimplex n := by
  unfold dirMeasure
  rw [ae_withDensity_iff (dirDens_measurable _).ennreal_ofReal]
  filter_upwards [ae_restrict_mem (measurableSet_openSimplex n)] with y hy _ using hy

/-- `E[log xᵢ] = ψ(αᵢ) - ψ(Σα)`. -/
theorem dir_log : ∀ {n : ℕ} {α : Fin (n + 1) → ℝ}, (∀ i, 0 < α i) → ∀ i,
    Integrable (fun y => Real.log (simplexPoint y i)) (dirMeasure α) ∧
      ∫ y, Real.log (simplexPoint y i) ∂dirMeasure α = digamma (α i) - digamma (∑ j, α j)
  | 0, α, _, i => by
    have hi : i = 0 := Fin.fin_one_eq_zero i
    subst hi
    have : ∀ y : Fin 0 → ℝ, Real.log (simplexPoint y 0) = 0 := by
      intro y; simp [simplexPoint, Fin.snoc]
    simp [this]
  | n + 1, α, h, i => by
    have h' : ∀ i : Fin (n + 1), 0 < Fin.tail α i := fun i => h i.succ
    have hA : 0 < ∑ i, Fin.tail α i := Finset.sum_pos (fun i _ => h' i) Finset.univ_nonempty
    have i1 := dirMeasure_prob h'
    have i2 := isProbabilityMeasureBeta (h 0) hA
    have hsum : ∑ j, α j = α 0 + ∑ j, Fin.tail α j := Fin.sum_univ_succ α
    have hmeas : Measurable fun y : Fin (n + 1) → ℝ => Real.log (simplexPoint y i) :=
      Real.measurable_log.comp (simplexPoint_measurable i)
    rw [show dirMeasure α = ((betaMeasure (α 0) (∑ i, Fin.tail α i)).prod (dirMeasure (Fin.tail α))).map stick by
      conv_lhs => rw [← Fin.cons_self_tail α]
      exact dirMeasure_cons (h 0) h']
    rw [integrable_map_measure hmeas.aestronglyMeasurable stick_measurable.aemeasurable,
      integral_map stick_measurable.aemeasurable hmeas.aestronglyMeasurable]
    clear hmeas
    revert i
    refine Fin.cases ?_ fun i => ?_
    · obtain ⟨b1, b2⟩ := betaMeasure_exp (h 0) hA (betaPDF_log (h 0) hA)
      have e : ((fun y : Fin (n + 1) → ℝ => Real.log (simplexPoint y 0)) ∘ stick) = fun p : ℝ × (Fin n → ℝ) => Real.log p.1 := by
        funext p
        show Real.log (simplexPoint (stick (p.1, p.2)) 0) = _
        rw [simplexPoint_stick, Fin.cons_zero]
      rw [e, show (fun p : ℝ × (Fin n → ℝ) => Real.log (simplexPoint (stick p) 0)) = fun p => Real.log p.1 from e]
      refine ⟨b1.comp_fst _, ?_⟩
      rw [integral_fun_fst, b2, hsum]
      simp
    · obtain ⟨b1, b2⟩ := betaMeasure_exp (h 0) hA (betaPDF_log_one_sub (h 0) hA)
      obtain ⟨c1, c2⟩ := dir_log h' i
      have e : (fun p : ℝ × (Fin n → ℝ) => Real.log (simplexPoint (stick p) i.succ))
          =ᵐ[(betaMeasure (α 0) (∑ i, Fin.tail α i)).prod (dirMeasure (Fin.tail α))]
          fun p => Real.log (1 - p.1) + Real.log (simplexPoint p.2 i) := by
        filter_upwards [Measure.quasiMeasurePreserving_fst.ae betaMeasure_mem,
          Measure.quasiMeasurePreserving_snd.ae dirMeasure_mem] with p h1 h2
        rw [simplexPoint_stick, Fin.cons_succ, Pi.smul_apply, smul_eq_mul,
          Real.log_mul (by linarith [h1.2]) (h2 i).ne']
      refine ⟨(integrable_congr e).2 ((b1.comp_fst _).add (c1.comp_snd _)), ?_⟩
      rw [integral_congr_ae e, integral_add (b1.comp_fst _) (c1.comp_snd _),
        integral_fun_fst (fun t => Real.log (1 - t)), integral_fun_snd (fun w : Fin n → ℝ => Real.log (simplexPoint w i)), b2, c2, hsum]
      rw [probReal_univ, probReal_univ, one_smul, one_smul, show Fin.tail α i = α i.succ from rfl]
      ring

/-- One concentration raised by one. -/
def bump {n : ℕ} (α : Fin n → ℝ) (i : Fin n) (j : Fin n) : ℝ := α j + if j = i then 1 else 0

theorem bump_pos {n : ℕ} {α : Fin n → ℝ} (h : ∀ i, 0 < α i) (i j : Fin n) : 0 < bump α i j := by
  unfold bump; split <;> linarith [h j]

theorem bump_sum {n : ℕ} (α : Fin n → ℝ) (i : Fin n) : ∑ j, bump α i j = ∑ j, α j + 1 := by
  simp [bump, Finset.sum_add_distrib]

theorem lgamma_succ {a : ℝ} (ha : 0 < a) : lgamma (a + 1) = lgamma a + Real.log a := by
  have g1 := Real.Gamma_pos_of_pos ha
  rw [lgamma, lgamma, Real.Gamma_add_one ha.ne', abs_mul, Real.log_mul (abs_ne_zero.2 ha.ne') (abs_ne_zero.2 g1.ne'),
    abs_of_pos ha, add_comm]

theorem logBeta_bump {n : ℕ} {α : Fin (n + 1) → ℝ} (h : ∀ i, 0 < α i) (i : Fin (n + 1)) :
    logBetaMultivariate (bump α i) = logBetaMultivariate α + Real.log (α i / ∑ j, α j) := by
  have hA : 0 < ∑ i, α i := Finset.sum_pos (fun i _ => h i) Finset.univ_nonempty
  have : ∑ j, lgamma (bump α i j) = ∑ j, lgamma (α j) + Real.log (α i) := by
    rw [show Real.log (α i) = ∑ j, if j = i then Real.log (α i) else 0 by simp, ← Finset.sum_add_distrib]
    refine Finset.sum_congr rfl fun j _ => ?_
    unfold bump
    split
    · next hj => subst hj; exact lgamma_succ (h j)
    · simp
  rw [logBetaMultivariate, logBetaMultivariate, this, bump_sum, lgamma_succ hA, Real.log_div (h i).ne' hA.ne']
  ring

/-- Multiplying the density by an entry raises that concentration by one. -/
theorem dirDens_mul {n : ℕ} {α : Fin (n + 1) → ℝ} (h : ∀ i, 0 < α i) (i : Fin (n + 1)) {y : Fin n → ℝ}
    (hy : y ∈ openSimplex n) :
    dirDens α y * simplexPoint y i = α i / (∑ j, α j) * dirDens (bump α i) y := by
  have hA : 0 < ∑ i, α i := Finset.sum_pos (fun i _ => h i) Finset.univ_nonempty
  have h1 : 0 < α i / ∑ j, α j := div_pos (h i) hA
  have hs : ∑ j, (bump α i j - 1) * Real.log (simplexPoint y j)
      = ∑ j, (α j - 1) * Real.log (simplexPoint y j) + Real.log (simplexPoint y i) := by
    rw [show Real.log (simplexPoint y i) = ∑ j, if j = i then Real.log (simplexPoint y i) else 0 by simp,
      ← Finset.sum_add_distrib]
    refine Finset.sum_congr rfl fun j _ => ?_
    unfold bump
    split
    · next hj => subst hj; ring
    · ring
  rw [dirDens, dirDens, logBeta_bump h, hs]
  conv_lhs => rw [← Real.exp_log (hy i)]
  conv_rhs => rw [← Real.exp_log h1]
  rw [← Real.exp_add, ← Real.exp_add]
  congr 1
  rw [Real.exp_log h1]
  ring

theorem dirDens_isDensity {n : ℕ} {α : Fin (n + 1) → ℝ} (h : ∀ i, 0 < α i) :
    IsDensityOn volume (openSimplex n) (dirDens α) := by
  have hp := dirMeasure_prob h
  have h1 := integrable_withDensity_ofReal (μ := volume.restrict (openSimplex n)) (f := dirDens α) (h := fun _ => 1)
    (dirDens_measurable α) (ae_of_all _ fun x => (Real.exp_pos _).le)
  refine ⟨fun x _ => (Real.exp_pos _).le, ?_, ?_⟩
  · have := h1.1.1 (show Integrable (fun _ => (1 : ℝ)) (dirMeasure α) from integrable_const 1)
    simp only [mul_one] at this
    exact this
  · have := h1.2
    simp only [mul_one] at this
    rw [← this]
    show ∫ _, (1 : ℝ) ∂dirMeasure α = 1
    simp

theorem dir_expOn_log {n : ℕ} {α : Fin (n + 1) → ℝ} (h : ∀ i, 0 < α i) (i : Fin (n + 1)) :
    ExpOn volume (openSimplex n) (dirDens α) (fun y => Real.log (simplexPoint y i)) (digamma (α i) - digamma (∑ j, α j)) := by
  have h1 := integrable_withDensity_ofReal (μ := volume.restrict (openSimplex n)) (f := dirDens α)
    (h := fun y => Real.log (simplexPoint y i)) (dirDens_measurable α) (ae_of_all _ fun x => (Real.exp_pos _).le)
  obtain ⟨a, b⟩ := dir_log h i
  exact ⟨h1.1.1 a, h1.2.symm.trans b⟩

theorem dir_expOn_entry {n : ℕ} {α : Fin (n + 1) → ℝ} (h : ∀ i, 0 < α i) (i : Fin (n + 1)) {g : (Fin n → ℝ) → ℝ} {e : ℝ}
    (hg : ExpOn volume (openSimplex n) (dirDens (bump α i)) g e) :
    ExpOn volume (openSimplex n) (dirDens α) (fun y => simplexPoint y i * g y) (α i / (∑ j, α j) * e) := by
  have e1 : ∀ y ∈ openSimplex n, α i / (∑ j, α j) * (dirDens (bump α i) y * g y) = dirDens α y * (simplexPoint y i * g y) := by
    intro y hy
    rw [← mul_assoc, ← dirDens_mul h i hy]; ring
  refine ⟨(integrableOn_congr_fun e1 (measurableSet_openSimplex n)).1 (hg.1.const_mul _), ?_⟩
  rw [← setIntegral_congr_fun (measurableSet_openSimplex n) e1, integral_const_mul, hg.2]

theorem dir_expOn_one {n : ℕ} {α : Fin (n + 1) → ℝ} (h : ∀ i, 0 < α i) :
    ExpOn volume (openSimplex n) (dirDens α) (fun _ => 1) 1 := by
  obtain ⟨-, h1, h2⟩ := dirDens_isDensity h
  exact ⟨by simpa using h1, by simpa using h2⟩

end Distrax
