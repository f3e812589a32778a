import Verif.Spec.Noise
import Verif.Lemmas.Categorical
import Mathlib.MeasureTheory.Measure.Prod
import Mathlib.MeasureTheory.Integral.Lebesgue.Basic
import Mathlib.Analysis.SpecialFunctions.Integrals.Basic
import Mathlib.Analysis.SpecialFunctions.Pow.Continuity
import Mathlib.MeasureTheory.Function.SpecialFunctions.Basic

/-! The Gumbel-max theorem: `argmax(gumbel + log p)` has law `p`. -/

namespace Distrax

open XR Spec Finset MeasureTheory

instance unit_prob : IsProbabilityMeasure unit := ⟨by
  simp [unit]⟩

instance unitN_prob (n : ℕ) : IsProbabilityMeasure (unitN n) := by unfold unitN; infer_instance

theorem unit_Iio {b : ℝ} (h0 : 0 ≤ b) (h1 : b ≤ 1) : unit (Set.Iio b) = ENNReal.ofReal b := by
  rw [unit, Measure.restrict_apply measurableSet_Iio]
  have : Set.Iio b ∩ Set.Ioo 0 1 = Set.Ioo 0 b := by
    ext x; simp only [Set.mem_inter_iff, Set.mem_Iio, Set.mem_Ioo]
    constructor
    · rintro ⟨h, h', _⟩; exact ⟨h', h⟩
    · rintro ⟨h, h'⟩; exact ⟨h', h, by linarith⟩
  rw [this, Real.volume_Ioo, sub_zero]

theorem unit_ae : ∀ᵐ u ∂unit, u ∈ Set.Ioo (0 : ℝ) 1 := ae_restrict_mem measurableSet_Ioo

theorem unitN_ae (n : ℕ) : ∀ᵐ u ∂unitN n, ∀ i, u i ∈ Set.Ioo (0 : ℝ) 1 := by
  rw [ae_all_iff]
  intro i
  exact (Measure.quasiMeasurePreserving_eval (fun _ : Fin n => unit) i).ae unit_ae

/-- Category `k` wins strictly. -/
def winSet {n : ℕ} (p : Fin (n + 1) → ℝ) (k : Fin (n + 1)) : Set (Fin (n + 1) → ℝ) :=
  {u | ∀ j, u (k.succAbove j) < u k ^ (p (k.succAbove j) / p k)}

theorem winSet_measurable {n : ℕ} (p : Fin (n + 1) → ℝ) (k : Fin (n + 1)) : MeasurableSet (winSet p k) := by
  have : winSet p k = ⋂ j, {u | u (k.succAbove j) < u k ^ (p (k.succAbove j) / p k)} := by
    ext u; simp [winSet]
  rw [this]
  refine MeasurableSet.iInter fun j => measurableSet_lt (measurable_pi_apply _) ?_
  exact (measurable_pi_apply k).pow_const _

theorem winSet_measure {n : ℕ} {p : Fin (n + 1) → ℝ} (hp : IsPmf p) (k : Fin (n + 1)) (hk : 0 < p k) :
    unitN (n + 1) (winSet p k) = ENNReal.ofReal (p k) := by
  have mp := measurePreserving_piFinSuccAbove (fun _ : Fin (n + 1) => unit) k
  set T : Set (ℝ × (Fin n → ℝ)) := {z | ∀ j, z.2 j < z.1 ^ (p (k.succAbove j) / p k)}
  have hT : MeasurableSet T := by
    have : T = ⋂ j, {z : ℝ × (Fin n → ℝ) | z.2 j < z.1 ^ (p (k.succAbove j) / p k)} := by ext z; simp [T]
    rw [this]
    refine MeasurableSet.iInter fun j => measurableSet_lt ((measurable_pi_apply j).comp measurable_snd) ?_
    exact measurable_fst.pow_const _
  have e : winSet p k = (MeasurableEquiv.piFinSuccAbove (fun _ => ℝ) k) ⁻¹' T := by
    ext u; rfl
  rw [unitN, e, mp.measure_preimage hT.nullMeasurableSet, Measure.prod_apply hT]
  have hsum : ∑ j, p (k.succAbove j) / p k = (1 - p k) / p k := by
    rw [← sum_div]
    congr 1
    have := hp.sum_one
    rw [Fin.sum_univ_succAbove _ k] at this
    linarith
  have hpk := hp.le_one k
  have step : ∀ x ∈ Set.Ioo (0 : ℝ) 1, Measure.pi (fun _ : Fin n => unit) (Prod.mk x ⁻¹' T)
      = ENNReal.ofReal (x ^ ((1 - p k) / p k)) := by
    intro x hx
    have : Prod.mk x ⁻¹' T = Set.univ.pi fun j => Set.Iio (x ^ (p (k.succAbove j) / p k)) := by
      ext y; simp [T]
    rw [this, Measure.pi_pi]
    have : ∀ j, unit (Set.Iio (x ^ (p (k.succAbove j) / p k)))
        = ENNReal.ofReal (x ^ (p (k.succAbove j) / p k)) := fun j =>
      unit_Iio (Real.rpow_nonneg hx.1.le _)
        (Real.rpow_le_one hx.1.le hx.2.le (div_nonneg (hp.nonneg _) hk.le))
    simp only [this]
    rw [← ENNReal.ofReal_prod_of_nonneg (fun j _ => Real.rpow_nonneg hx.1.le _), ← hsum,
      Real.rpow_sum_of_pos hx.1]
  have swap : ∫⁻ x, Measure.pi (fun _ : Fin n => unit) (Prod.mk x ⁻¹' T) ∂unit
      = ∫⁻ x in Set.Ioo (0 : ℝ) 1, ENNReal.ofReal (x ^ ((1 - p k) / p k)) :=
    setLIntegral_congr_fun measurableSet_Ioo step
  rw [swap]
  have ha : 0 ≤ (1 - p k) / p k := div_nonneg (by linarith) hk.le
  rw [← ofReal_integral_eq_lintegral_ofReal]
  · congr 1
    rw [← integral_Ioc_eq_integral_Ioo, ← intervalIntegral.integral_of_le zero_le_one,
      integral_rpow (Or.inl (by linarith))]
    rw [Real.one_rpow, Real.zero_rpow (by linarith)]
    field_simp
    ring
  · have := (intervalIntegral.intervalIntegrable_rpow' (a := 0) (b := 1) (r := (1 - p k) / p k)
      (by linarith)).1
    exact this.mono_set Set.Ioo_subset_Ioc_self
  · exact (ae_restrict_mem measurableSet_Ioo).mono fun x hx => Real.rpow_nonneg hx.1.le _

/-- A strict winner is the argmax. -/
theorem win_argmax {n : ℕ} {p : Fin (n + 1) → ℝ} (hp : IsPmf p) (k : Fin (n + 1)) (hk : 0 < p k)
    {u : Fin (n + 1) → ℝ} (hu : ∀ i, u i ∈ Set.Ioo (0 : ℝ) 1) (hw : u ∈ winSet p k) :
    argmaxIdx (fun i => fin (gumbelOf (u i)) + xlog (p i)) = k := by
  set x : Fin (n + 1) → XR := fun i => fin (gumbelOf (u i)) + xlog (p i)
  have hx : ∀ i, x i ≠ nan := by
    intro i
    rcases xlog_cases (p i) with h | ⟨a, h⟩ <;> simp [x, h]
  have hlt : ∀ j, j ≠ k → (x j).toE < (x k).toE := by
    intro j hj
    obtain ⟨j', rfl⟩ := Fin.exists_succAbove_eq hj
    have h1 := hw j'
    set j := k.succAbove j'
    have hxk : x k = fin (gumbelOf (u k) + Real.log (p k)) := by
      simp [x, xlog, hk.ne']
    rw [hxk]
    by_cases h0 : p j = 0
    · have : x j = ninf := by simp [x, xlog, h0]
      rw [this]; simp [XR.toE]
    · have hpj : 0 < p j := lt_of_le_of_ne (hp.nonneg j) (Ne.symm h0)
      have : x j = fin (gumbelOf (u j) + Real.log (p j)) := by simp [x, xlog, h0]
      rw [this]
      simp only [XR.toE, EReal.coe_lt_coe_iff]
      have l1 : Real.log (u k) < 0 := Real.log_neg (hu k).1 (hu k).2
      have l2 : Real.log (u j) < 0 := Real.log_neg (hu j).1 (hu j).2
      have h2 : Real.log (u j) < p j / p k * Real.log (u k) := by
        have := Real.log_lt_log (hu j).1 h1
        rwa [Real.log_rpow (hu k).1] at this
      have h3 : -Real.log (u k) * p j < -Real.log (u j) * p k := by
        have := mul_lt_mul_of_pos_right h2 hk
        rw [show p j / p k * Real.log (u k) * p k = p j * Real.log (u k) by field_simp] at this
        linarith
      have h4 := Real.log_lt_log (mul_pos (neg_pos.2 l1) hpj) h3
      rw [Real.log_mul (neg_pos.2 l1).ne' hpj.ne', Real.log_mul (neg_pos.2 l2).ne' hk.ne'] at h4
      unfold gumbelOf
      linarith
  by_contra hne
  have h1 := (argmaxIdx_spec x hx).1 k
  exact absurd (hlt _ hne) (not_lt.2 h1)

/-- The Gumbel-max theorem. -/
theorem gumbel_max {n : ℕ} {p : Fin (n + 1) → ℝ} (hp : IsPmf p) (k : Fin (n + 1)) :
    unitN (n + 1) {u | argmaxIdx (fun i => fin (gumbelOf (u i)) + xlog (p i)) = k} = ENNReal.ofReal (p k) ∧
    NullMeasurableSet {u | argmaxIdx (fun i => fin (gumbelOf (u i)) + xlog (p i)) = k} (unitN (n + 1)) := by
  classical
  set μ := unitN (n + 1)
  set A : Fin (n + 1) → Set (Fin (n + 1) → ℝ) := fun k =>
    {u | argmaxIdx (fun i => fin (gumbelOf (u i)) + xlog (p i)) = k}
  set S : Fin (n + 1) → Set (Fin (n + 1) → ℝ) := fun k => if 0 < p k then winSet p k else ∅
  set G : Set (Fin (n + 1) → ℝ) := {u | ∀ i, u i ∈ Set.Ioo (0 : ℝ) 1}
  have hG : MeasurableSet G := by
    have : G = ⋂ i, (fun u : Fin (n + 1) → ℝ => u i) ⁻¹' Set.Ioo (0 : ℝ) 1 := by
      ext u; simp only [G, Set.mem_ofPred_eq, Set.mem_iInter, Set.mem_preimage]
    rw [this]
    exact MeasurableSet.iInter fun i => measurable_pi_apply i measurableSet_Ioo
  have hGae : ∀ᵐ u ∂μ, u ∈ G := unitN_ae _
  have hSm : ∀ k, MeasurableSet (S k) := fun k => by
    simp only [S]; split_ifs
    · exact winSet_measurable p k
    · exact MeasurableSet.empty
  have hS : ∀ k, μ (S k) = ENNReal.ofReal (p k) := fun k => by
    simp only [S]; split_ifs with h
    · exact winSet_measure hp k h
    · rw [measure_empty, ENNReal.ofReal_of_nonpos (not_lt.1 h)]
  have hSA : ∀ k, S k ∩ G ⊆ A k := fun k u hu => by
    by_cases h : 0 < p k
    · simp only [S, if_pos h] at hu
      exact win_argmax hp k h hu.2 hu.1
    · simp only [S, if_neg h] at hu
      exact hu.1.elim
  have hSG : ∀ k, μ (S k ∩ G) = ENNReal.ofReal (p k) := fun k => by
    rw [← hS k]
    refine measure_congr ?_
    filter_upwards [hGae] with u hu
    exact propext ⟨fun h => h.1, fun h => ⟨h, hu⟩⟩
  have hdisj : Pairwise (Function.onFun Disjoint fun k => S k ∩ G) := by
    intro i j hij
    refine Set.disjoint_left.2 fun u h1 h2 => hij ?_
    exact (hSA i h1).symm.trans (hSA j h2)
  have hU : μ (⋃ j ∈ univ.erase k, S j ∩ G) = ENNReal.ofReal (1 - p k) := by
    rw [measure_biUnion_finset (fun i _ j _ h => hdisj h) fun j _ => (hSm j).inter hG]
    simp only [hSG]
    rw [← ENNReal.ofReal_sum_of_nonneg fun i _ => hp.nonneg i]
    congr 1
    have := hp.sum_one
    rw [← add_sum_erase univ p (mem_univ k)] at this
    linarith
  have hUm : MeasurableSet (⋃ j ∈ univ.erase k, S j ∩ G) :=
    Finset.measurableSet_biUnion _ fun j _ => (hSm j).inter hG
  have hA : A k ⊆ (⋃ j ∈ univ.erase k, S j ∩ G)ᶜ := by
    intro u hu h
    simp only [Set.mem_iUnion] at h
    obtain ⟨j, hj, h⟩ := h
    have hu' : argmaxIdx (fun i => fin (gumbelOf (u i)) + xlog (p i)) = k := hu
    exact ne_of_mem_erase hj ((hSA j h).symm.trans hu')
  have hub : μ (A k) ≤ ENNReal.ofReal (p k) := by
    refine (measure_mono hA).trans ?_
    rw [prob_compl_eq_one_sub hUm, hU, ← ENNReal.ofReal_one,
      ← ENNReal.ofReal_sub 1 (by linarith [hp.le_one k])]
    simp
  have hlb : ENNReal.ofReal (p k) ≤ μ (A k) := by rw [← hSG k]; exact measure_mono (hSA k)
  have hAk := le_antisymm hub hlb
  refine ⟨hAk, ?_⟩
  have h1 : MeasurableSet (S k ∩ G) := (hSm k).inter hG
  refine ⟨S k ∩ G, h1, ?_⟩
  have hnull : μ (A k \ (S k ∩ G)) = 0 := by
    have := measure_diff_add_inter (μ := μ) (A k) h1
    rw [Set.inter_eq_self_of_subset_right (hSA k), hAk, hSG k] at this
    have h2 : μ (A k \ (S k ∩ G)) + ENNReal.ofReal (p k) = 0 + ENNReal.ofReal (p k) := by rw [this, zero_add]
    exact (ENNReal.add_left_inj ENNReal.ofReal_ne_top).1 h2
  have : ∀ᵐ u ∂μ, u ∉ A k \ (S k ∩ G) := measure_eq_zero_iff_ae_notMem.1 hnull
  filter_upwards [this] with u hu
  refine propext ⟨fun h => ?_, fun h => hSA k h⟩
  by_contra h'
  exact hu ⟨h, h'⟩

end Distrax
