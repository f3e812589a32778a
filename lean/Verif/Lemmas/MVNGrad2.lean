import Verif.Lemmas.MVNGrad
import Mathlib.Analysis.SpecialFunctions.Sqrt
import Mathlib.Analysis.Normed.Module.FiniteDimension

/-! Lemmas for C74: the Cholesky factor along a curve. -/

namespace Distrax

open Matrix MeasureTheory Filter Topology Spec

/-- The Cholesky factor of a continuously differentiable curve of matrices is continuously differentiable. -/
theorem chol_smooth {t : ℝ} : ∀ {n : ℕ} {L C : ℝ → Matrix (Fin n) (Fin n) ℝ}, (∀ i j, ContDiffAt ℝ 1 (fun s => C s i j) t) →
    (∀ᶠ s in 𝓝 t, (∀ i j, i < j → L s i j = 0) ∧ (∀ i, 0 < L s i i) ∧ L s * (L s)ᵀ = C s) →
    ∀ i j, ContDiffAt ℝ 1 (fun s => L s i j) t
  | 0, _, _, _, _, i, _ => i.elim0
  | n + 1, L, C, hC, hL, i, j => by
    have e00 : (fun s => L s 0 0) =ᶠ[𝓝 t] fun s => Real.sqrt (C s 0 0) := by
      filter_upwards [hL] with s ⟨h1, h2, h3⟩
      rw [← h3, Matrix.mul_apply, Fin.sum_univ_succ]
      simp only [Matrix.transpose_apply, h1 0 _ (Fin.succ_pos _), mul_zero, Finset.sum_const_zero, add_zero]
      rw [Real.sqrt_mul_self (h2 0).le]
    have hpos : 0 < C t 0 0 := by
      obtain ⟨h1, h2, h3⟩ := hL.self_of_nhds
      rw [← h3, Matrix.mul_apply, Fin.sum_univ_succ]
      simp only [Matrix.transpose_apply, h1 0 _ (Fin.succ_pos _), mul_zero, Finset.sum_const_zero, add_zero]
      exact mul_pos (h2 0) (h2 0)
    have s00 : ContDiffAt ℝ 1 (fun s => L s 0 0) t := ((hC 0 0).sqrt hpos.ne').congr_of_eventuallyEq e00
    have ei0 : ∀ i : Fin n, (fun s => L s i.succ 0) =ᶠ[𝓝 t] fun s => C s i.succ 0 / L s 0 0 := fun i => by
      filter_upwards [hL] with s ⟨h1, h2, h3⟩
      rw [eq_div_iff (h2 0).ne', ← h3, Matrix.mul_apply, Fin.sum_univ_succ]
      simp only [Matrix.transpose_apply, h1 0 _ (Fin.succ_pos _), mul_zero, Finset.sum_const_zero, add_zero]
    have si0 : ∀ i : Fin n, ContDiffAt ℝ 1 (fun s => L s i.succ 0) t := fun i =>
      ((hC i.succ 0).div s00 (hL.self_of_nhds.2.1 0).ne').congr_of_eventuallyEq (ei0 i)
    have sub := chol_smooth (t := t) (L := fun s => (L s).submatrix Fin.succ Fin.succ)
      (C := fun s => Matrix.of fun i j => C s i.succ j.succ - L s i.succ 0 * L s j.succ 0)
      (fun i j => (hC _ _).sub ((si0 i).mul (si0 j))) (by
        filter_upwards [hL] with s ⟨h1, h2, h3⟩
        refine ⟨fun i j hij => h1 _ _ (Fin.succ_lt_succ_iff.2 hij), fun i => h2 _, ?_⟩
        ext i j
        rw [Matrix.of_apply, ← h3, Matrix.mul_apply, Matrix.mul_apply, Fin.sum_univ_succ]
        simp)
    refine Fin.cases ?_ (fun i => ?_) i
    · refine Fin.cases s00 (fun j => ?_) j
      refine (contDiffAt_const (c := (0 : ℝ))).congr_of_eventuallyEq ?_
      filter_upwards [hL] with s ⟨h1, _, _⟩ using h1 0 _ (Fin.succ_pos _)
    · refine Fin.cases (si0 i) (fun j => ?_) j
      exact sub i j

section
variable {n : ℕ} {t : ℝ}

theorem lower_det {L : Matrix (Fin n) (Fin n) ℝ} (h : ∀ i j, i < j → L i j = 0) : L.det = ∏ i, L i i :=
  Matrix.det_of_lowerTriangular L h

theorem lower_inv {L : Matrix (Fin n) (Fin n) ℝ} (h : ∀ i j, i < j → L i j = 0) (hd : L.det ≠ 0) :
    ∀ i j, i < j → L⁻¹ i j = 0 := by
  have : Invertible L := Matrix.invertibleOfIsUnitDet L (isUnit_iff_ne_zero.2 hd)
  have hb : L.BlockTriangular (OrderDual.toDual : Fin n → (Fin n)ᵒᵈ) := fun i j hij => h i j (OrderDual.toDual_lt_toDual.1 hij)
  have := Matrix.blockTriangular_inv_of_blockTriangular hb
  exact fun i j hij => this (OrderDual.toDual_lt_toDual.2 hij)

theorem lower_mul {L P : Matrix (Fin n) (Fin n) ℝ} (h : ∀ i j, i < j → L i j = 0) (k : ∀ i j, i < j → P i j = 0) :
    ∀ i j, i < j → (L * P) i j = 0 := fun i j hij => by
  rw [Matrix.mul_apply]
  refine Finset.sum_eq_zero fun l _ => ?_
  rcases lt_or_ge i l with g | g
  · rw [h _ _ g, zero_mul]
  · rw [k _ _ (g.trans_lt hij), mul_zero]

/-- A lower triangular matrix is `phi` of its symmetrisation. -/
theorem phi_sym {P : Matrix (Fin n) (Fin n) ℝ} (h : ∀ i j, i < j → P i j = 0) : Dual.phi (P + Pᵀ) = P := by
  ext i j
  simp only [Dual.phi, Matrix.of_apply, Matrix.add_apply, Matrix.transpose_apply]
  split_ifs with h1 h2
  · rw [h j i h1, add_zero]
  · subst h2; ring
  · exact (h i j (lt_of_le_of_ne (not_lt.1 h1) h2)).symm

/-- jax's rule for the derivative of the Cholesky factor. -/
theorem CA.cholesky {chol : Matrix (Fin n) (Fin n) ℝ → Matrix (Fin n) (Fin n) ℝ} (hc : IsCholesky chol)
    {C : ℝ → Matrix (Fin n) (Fin n) ℝ} {Cd : Fin n → Fin n → Dual} (h : ∀ i j, CA (fun s => C s i j) (Cd i j) t)
    (hs : ∀ s i j, C s i j = C s j i) (hp : ∀ᶠ s in 𝓝 t, (C s).PosDef) (i j : Fin n) :
    CA (fun s => chol (C s) i j) (Dual.cholesky chol Cd i j) t := by
  have hL : ∀ᶠ s in 𝓝 t, (∀ i j, i < j → chol (C s) i j = 0) ∧ (∀ i, 0 < chol (C s) i i) ∧ chol (C s) * (chol (C s))ᵀ = C s := by
    filter_upwards [hp] with s h using hc _ h
  have hsm := chol_smooth (fun i j => (h i j).smooth) hL
  have hd : ∀ i j, HasDerivAt (fun s => chol (C s) i j) (_root_.deriv (fun s => chol (C s) i j) t) t := fun i j =>
    ((hsm i j).differentiableAt one_ne_zero).hasDerivAt
  set H : Matrix (Fin n) (Fin n) ℝ := Matrix.of fun i j => _root_.deriv (fun s => chol (C s) i j) t with hH
  obtain ⟨l1, l2, l3⟩ := hL.self_of_nhds
  have hdet : (chol (C t)).det ≠ 0 := by rw [lower_det l1]; exact Finset.prod_ne_zero_iff.2 fun i _ => (l2 i).ne'
  have hv : Dual.matVal Cd = C t := matVal_eq h
  have symV : (1 / 2 : ℝ) • (Dual.matVal Cd + (Dual.matVal Cd)ᵀ) = C t := by
    ext i j
    simp only [hv, Matrix.smul_apply, Matrix.add_apply, Matrix.transpose_apply, hs t j i, smul_eq_mul]; ring
  have symT : (1 / 2 : ℝ) • (Dual.matTan Cd + (Dual.matTan Cd)ᵀ) = Dual.matTan Cd := by
    ext i j
    have : (Cd j i).tan = (Cd i j).tan := (h j i).deriv.unique ((h i j).deriv.congr_of_eventuallyEq
      (Eventually.of_forall fun s => hs s j i))
    simp only [Matrix.smul_apply, Matrix.add_apply, Matrix.transpose_apply, smul_eq_mul, Dual.matTan, Matrix.of_apply, this]; ring
  have h0 : ∀ i j, i < j → H i j = 0 := fun i j hij => by
    refine (hd i j).unique ((hasDerivAt_const t (0 : ℝ)).congr_of_eventuallyEq ?_)
    filter_upwards [hL] with s g using g.1 i j hij
  have key : H * (chol (C t))ᵀ + chol (C t) * Hᵀ = Dual.matTan Cd := by
    ext i j
    have h1 : HasDerivAt (fun s => ∑ k, chol (C s) i k * chol (C s) j k)
        (∑ k, (H i k * chol (C t) j k + chol (C t) i k * H j k)) t :=
      HasDerivAt.fun_sum fun k _ => (hd i k).mul (hd j k)
    have h2 : HasDerivAt (fun s => ∑ k, chol (C s) i k * chol (C s) j k) (Cd i j).tan t := by
      refine (h i j).deriv.congr_of_eventuallyEq ?_
      filter_upwards [hL] with s g
      conv_rhs => rw [← g.2.2]
      rw [Matrix.mul_apply]; rfl
    have := h1.unique h2
    rw [Finset.sum_add_distrib] at this
    simpa [Matrix.mul_apply, Matrix.add_apply, Dual.matTan] using this
  have e : H = chol (C t) * Dual.phi ((chol (C t))⁻¹ * Dual.matTan Cd * ((chol (C t))⁻¹)ᵀ) := by
    set L := chol (C t)
    have hu : IsUnit L.det := isUnit_iff_ne_zero.2 hdet
    have hP : L⁻¹ * Dual.matTan Cd * (L⁻¹)ᵀ = L⁻¹ * H + (L⁻¹ * H)ᵀ := by
      rw [← key, Matrix.mul_add, Matrix.add_mul, Matrix.transpose_mul]
      congr 1
      · rw [← Matrix.mul_assoc, Matrix.mul_assoc, ← Matrix.transpose_mul, Matrix.nonsing_inv_mul _ hu, Matrix.transpose_one,
          Matrix.mul_one]
      · rw [← Matrix.mul_assoc, Matrix.nonsing_inv_mul _ hu, Matrix.one_mul]
    rw [hP, phi_sym (lower_mul (lower_inv l1 hdet) h0), ← Matrix.mul_assoc, Matrix.mul_nonsing_inv _ hu, Matrix.one_mul]
  refine ⟨?_, hsm i j, ?_⟩
  · simp only [Dual.cholesky, symV]
  · simp only [Dual.cholesky, symV, symT]
    rw [← e]; exact hd i j

/-- Positive definiteness survives small changes. -/
theorem posDef_near {C : ℝ → Matrix (Fin n) (Fin n) ℝ} (hc : ∀ i j, ContinuousAt (fun s => C s i j) t)
    (hs : ∀ s i j, C s i j = C s j i) (hp : (C t).PosDef) : ∀ᶠ s in 𝓝 t, (C s).PosDef := by
  classical
  obtain ⟨m, hm, hle⟩ : ∃ m > 0, ∀ x : Fin n → ℝ, m * ‖x‖ ^ 2 ≤ x ⬝ᵥ (C t *ᵥ x) := by
    have hcont : Continuous fun x : Fin n → ℝ => x ⬝ᵥ (C t *ᵥ x) := by
      simp only [dotProduct, mulVec]; fun_prop
    rcases (Metric.sphere (0 : Fin n → ℝ) 1).eq_empty_or_nonempty with he | hne
    · refine ⟨1, one_pos, fun x => ?_⟩
      have : x = 0 := by
        by_contra hx
        have : ‖x‖⁻¹ • x ∈ Metric.sphere (0 : Fin n → ℝ) 1 := by
          rw [mem_sphere_zero_iff_norm, norm_smul, norm_inv, norm_norm, inv_mul_cancel₀ (norm_ne_zero_iff.2 hx)]
        rw [he] at this; exact this
      simp [this]
    · obtain ⟨z, hz, hmin⟩ := (isCompact_sphere (0 : Fin n → ℝ) 1).exists_isMinOn hne hcont.continuousOn
      have hz0 : z ≠ 0 := fun h => by rw [h] at hz; simp at hz
      refine ⟨z ⬝ᵥ (C t *ᵥ z), by simpa using hp.dotProduct_mulVec_pos hz0, fun x => ?_⟩
      rcases eq_or_ne x 0 with rfl | hx
      · simp
      have hx' : 0 < ‖x‖ := norm_pos_iff.2 hx
      have h1 := hmin (a := ‖x‖⁻¹ • x) (by
        rw [mem_sphere_zero_iff_norm, norm_smul, norm_inv, norm_norm, inv_mul_cancel₀ hx'.ne'])
      have h2 : (‖x‖⁻¹ • x) ⬝ᵥ (C t *ᵥ (‖x‖⁻¹ • x)) = (x ⬝ᵥ (C t *ᵥ x)) / ‖x‖ ^ 2 := by
        rw [Matrix.mulVec_smul, dotProduct_smul, smul_dotProduct]
        simp only [smul_eq_mul]; field_simp
      rw [Set.mem_ofPred_eq] at h1; beta_reduce at h1; rw [h2, le_div_iff₀ (by positivity)] at h1
      exact h1
  have hsum : Tendsto (fun s => ∑ i, ∑ j, |C s i j - C t i j|) (𝓝 t) (𝓝 0) := by
    have : ContinuousAt (fun s => ∑ i, ∑ j, |C s i j - C t i j|) t := by
      refine tendsto_finsetSum _ fun i _ => tendsto_finsetSum _ fun j _ => ?_
      exact ((hc i j).sub continuousAt_const).abs
    have h := this.tendsto
    simpa using h
  filter_upwards [hsum.eventually_lt_const hm] with s hlt
  refine Matrix.PosDef.of_dotProduct_mulVec_pos (by ext i j; simpa using hs s j i) fun x hx => ?_
  have hx' : 0 < ‖x‖ := norm_pos_iff.2 hx
  have hdiff : |x ⬝ᵥ (C s *ᵥ x) - x ⬝ᵥ (C t *ᵥ x)| ≤ (∑ i, ∑ j, |C s i j - C t i j|) * ‖x‖ ^ 2 := by
    have e : x ⬝ᵥ (C s *ᵥ x) - x ⬝ᵥ (C t *ᵥ x) = ∑ i, ∑ j, x i * ((C s i j - C t i j) * x j) := by
      simp only [dotProduct, mulVec, Finset.mul_sum, ← Finset.sum_sub_distrib]
      refine Finset.sum_congr rfl fun i _ => Finset.sum_congr rfl fun j _ => by ring
    rw [e, Finset.sum_mul]
    refine (Finset.abs_sum_le_sum_abs _ _).trans (Finset.sum_le_sum fun i _ => ?_)
    rw [Finset.sum_mul]
    refine (Finset.abs_sum_le_sum_abs _ _).trans (Finset.sum_le_sum fun j _ => ?_)
    rw [abs_mul, abs_mul]
    have hi : |x i| ≤ ‖x‖ := norm_le_pi_norm x i
    have hj : |x j| ≤ ‖x‖ := norm_le_pi_norm x j
    have h0 := abs_nonneg (C s i j - C t i j)
    calc |x i| * (|C s i j - C t i j| * |x j|) = |C s i j - C t i j| * (|x i| * |x j|) := by ring
      _ ≤ |C s i j - C t i j| * (‖x‖ * ‖x‖) :=
        mul_le_mul_of_nonneg_left (mul_le_mul hi hj (abs_nonneg _) (norm_nonneg _)) h0
      _ = _ := by ring
  have h1 := hle x
  have h2 := (abs_le.1 hdiff).1
  have h3 : (∑ i, ∑ j, |C s i j - C t i j|) * ‖x‖ ^ 2 < m * ‖x‖ ^ 2 := mul_lt_mul_of_pos_right hlt (by positivity)
  simp only [star_trivial]
  linarith

end

end Distrax
