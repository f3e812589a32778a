import Verif.Spec.MVNGrad
import Verif.Props.ScoreGrad4
import Verif.Lemmas.Gauss
import Mathlib.LinearAlgebra.Matrix.Charpoly.Coeff
import Mathlib.LinearAlgebra.Matrix.SchurComplement
import Mathlib.LinearAlgebra.Matrix.Block
import Mathlib.Analysis.Calculus.ContDiff.Operations
import Mathlib.Analysis.Calculus.Deriv.Prod
import Mathlib.Analysis.Calculus.Deriv.Polynomial

/-! Lemmas for C74: derivatives of matrix inverses, determinants and Cholesky factors along curves. -/

namespace Distrax

open Matrix MeasureTheory Filter Topology Spec

/-- `g` is continuously differentiable at `t`, and `d` is its value and its derivative there. -/
structure CA (g : ℝ → ℝ) (d : Dual) (t : ℝ) : Prop where
  val : d.val = g t
  smooth : ContDiffAt ℝ 1 g t
  deriv : HasDerivAt g d.tan t

namespace CA

variable {f g : ℝ → ℝ} {d e : Dual} {t : ℝ}

theorem unique (h : CA g d t) (k : CA f e t) (hfg : g =ᶠ[𝓝 t] f) : d = e := by
  ext
  · rw [h.val, k.val, hfg.eq_of_nhds]
  · exact h.deriv.unique (k.deriv.congr_of_eventuallyEq hfg)

theorem congr (h : CA g d t) (e : f =ᶠ[𝓝 t] g) : CA f d t :=
  ⟨h.val.trans e.eq_of_nhds.symm, h.smooth.congr_of_eventuallyEq e, h.deriv.congr_of_eventuallyEq e⟩

theorem line (d : Dual) (t : ℝ) : CA (fun s => d.val + (s - t) * d.tan) d t :=
  ⟨by simp, by fun_prop, by simpa using (((hasDerivAt_id t).sub_const t).mul_const d.tan).const_add d.val⟩

theorem param {p : Param} (h : Curve p.val p.der) (t : ℝ) : CA p.val (p.at t) t := ⟨rfl, curve_contDiff h t, h.deriv t⟩

theorem const (c t : ℝ) : CA (fun _ => c) (Dual.const c) t := ⟨rfl, contDiffAt_const, hasDerivAt_const _ _⟩

theorem add (h : CA g d t) (k : CA f e t) : CA (fun s => g s + f s) (d + e) t :=
  ⟨by rw [Dual.val_add, h.val, k.val], h.smooth.add k.smooth, h.deriv.add k.deriv⟩

theorem neg (h : CA g d t) : CA (fun s => -g s) (-d) t :=
  ⟨by rw [Dual.val_neg, h.val], h.smooth.neg, h.deriv.neg⟩

theorem sub (h : CA g d t) (k : CA f e t) : CA (fun s => g s - f s) (d - e) t :=
  ⟨by rw [Dual.val_sub, h.val, k.val], h.smooth.sub k.smooth, h.deriv.sub k.deriv⟩

theorem mul (h : CA g d t) (k : CA f e t) : CA (fun s => g s * f s) (d * e) t :=
  ⟨by rw [Dual.val_mul, h.val, k.val], h.smooth.mul k.smooth, (h.deriv.mul k.deriv).congr_deriv (by
    rw [Dual.tan_mul, h.val, k.val])⟩

theorem div (h : CA g d t) (k : CA f e t) (h0 : f t ≠ 0) : CA (fun s => g s / f s) (d / e) t :=
  ⟨by rw [Dual.val_div, h.val, k.val], h.smooth.div k.smooth h0, (h.deriv.div k.deriv h0).congr_deriv (by
    rw [Dual.tan_div, h.val, k.val]; field_simp)⟩

theorem sum {n : ℕ} {g : Fin n → ℝ → ℝ} {d : Fin n → Dual} (h : ∀ i, CA (g i) (d i) t) :
    CA (fun s => ∑ i, g i s) (Dual.sum d) t :=
  ⟨by simp only [Dual.sum, (h _).val], ContDiffAt.sum fun i _ => (h i).smooth,
    HasDerivAt.fun_sum fun i _ => (h i).deriv⟩

theorem logAbs (h : CA g d t) (h0 : g t ≠ 0) : CA (fun s => Real.log |g s|) (Dual.log (Dual.abs d)) t := by
  simp only [Real.log_abs]
  refine ⟨?_, h.smooth.log h0, (h.deriv.log h0).congr_deriv ?_⟩
  · show Real.log |d.val| = _; rw [h.val, Real.log_abs]
  · show _ = d.tan * (SignType.sign d.val : ℝ) / |d.val|
    rw [h.val]
    rcases lt_or_gt_of_ne h0 with g0 | g0
    · rw [sign_neg g0, abs_of_neg g0]; field_simp; simp
    · rw [sign_pos g0, abs_of_pos g0]; simp

theorem near (h : CA g d t) (h0 : g t ≠ 0) : ∀ᶠ s in 𝓝 t, g s ≠ 0 := h.deriv.continuousAt.eventually_ne h0

theorem tame {X : Type} [MeasurableSpace X] {μ : Measure X} {w : X → ℝ} (h : CA g d t) :
    Tame μ w (fun s _ => g s) (fun _ => d) t :=
  (Tame.param h.smooth h.deriv).congr fun x => by ext <;> simp [h.val]

end CA

section
variable {n : ℕ} {M : ℝ → Matrix (Fin n) (Fin n) ℝ} {Md : Fin n → Fin n → Dual} {t : ℝ}

theorem det_contDiffAt (h : ∀ i j, ContDiffAt ℝ 1 (fun s => M s i j) t) : ContDiffAt ℝ 1 (fun s => (M s).det) t := by
  simp only [Matrix.det_apply']
  exact ContDiffAt.sum fun σ _ => contDiffAt_const.mul (contDiffAt_prod fun i _ => h _ _)

theorem matVal_eq (h : ∀ i j, CA (fun s => M s i j) (Md i j) t) : Dual.matVal Md = M t := by
  ext i j; exact (h i j).val

theorem det_near (h : ∀ i j, CA (fun s => M s i j) (Md i j) t) (h0 : (M t).det ≠ 0) : ∀ᶠ s in 𝓝 t, (M s).det ≠ 0 :=
  (det_contDiffAt fun i j => (h i j).smooth).continuousAt.eventually_ne h0

theorem inv_contDiffAt (h : ∀ i j, ContDiffAt ℝ 1 (fun s => M s i j) t) (h0 : (M t).det ≠ 0) (i j : Fin n) :
    ContDiffAt ℝ 1 (fun s => (M s)⁻¹ i j) t := by
  simp only [Matrix.inv_def, Ring.inverse_eq_inv', Matrix.smul_apply, smul_eq_mul, Matrix.adjugate_apply]
  refine ((det_contDiffAt h).inv h0).mul (det_contDiffAt fun k l => ?_)
  by_cases hk : k = j
  · subst hk; simp only [Matrix.updateRow_self]; exact contDiffAt_const
  · simp only [Matrix.updateRow_ne hk]; exact h k l

theorem CA.matInv (h : ∀ i j, CA (fun s => M s i j) (Md i j) t) (h0 : (M t).det ≠ 0) (i j : Fin n) :
    CA (fun s => (M s)⁻¹ i j) ⟨(M t)⁻¹ i j, -((M t)⁻¹ * Dual.matTan Md * (M t)⁻¹) i j⟩ t := by
  have hc := inv_contDiffAt (fun i j => (h i j).smooth) h0
  refine ⟨rfl, hc i j, ?_⟩
  have hd : ∀ i j, HasDerivAt (fun s => (M s)⁻¹ i j) (_root_.deriv (fun s => (M s)⁻¹ i j) t) t := fun i j =>
    ((hc i j).differentiableAt one_ne_zero).hasDerivAt
  set H : Matrix (Fin n) (Fin n) ℝ := Matrix.of fun i j => _root_.deriv (fun s => (M s)⁻¹ i j) t with hH
  have key : Dual.matTan Md * (M t)⁻¹ + M t * H = 0 := by
    ext i j
    have h1 : HasDerivAt (fun s => ∑ k, M s i k * (M s)⁻¹ k j)
        (∑ k, ((Md i k).tan * (M t)⁻¹ k j + M t i k * _root_.deriv (fun s => (M s)⁻¹ k j) t)) t :=
      HasDerivAt.fun_sum fun k _ => (h i k).deriv.mul (hd k j)
    have h2 : HasDerivAt (fun s => ∑ k, M s i k * (M s)⁻¹ k j) 0 t := by
      refine (hasDerivAt_const t ((1 : Matrix (Fin n) (Fin n) ℝ) i j)).congr_of_eventuallyEq ?_
      filter_upwards [det_near h h0] with s hs
      rw [← Matrix.mul_nonsing_inv _ (isUnit_iff_ne_zero.2 hs), Matrix.mul_apply]
    have := h1.unique h2
    rw [Finset.sum_add_distrib] at this
    simpa [Matrix.mul_apply, Matrix.add_apply, Dual.matTan, hH] using this
  have : H = -((M t)⁻¹ * Dual.matTan Md * (M t)⁻¹) := by
    have e := congrArg (fun Z => (M t)⁻¹ * Z) key
    simp only [Matrix.mul_add, Matrix.mul_zero, ← Matrix.mul_assoc, Matrix.nonsing_inv_mul _ (isUnit_iff_ne_zero.2 h0),
      Matrix.one_mul] at e
    exact eq_neg_of_add_eq_zero_right e
  rw [show -((M t)⁻¹ * Dual.matTan Md * (M t)⁻¹) i j = H i j by rw [this]; rfl]
  exact hd i j

/-- The tangent rule of `solve` is the product rule for `A⁻¹ b`. -/
theorem solve_dual (h : ∀ i j, CA (fun s => M s i j) (Md i j) t) (b : Fin n → Dual) (i : Fin n) :
    (Dual.sum fun j => (⟨(M t)⁻¹ i j, -((M t)⁻¹ * Dual.matTan Md * (M t)⁻¹) i j⟩ : Dual) * b j) = Dual.solve Md b i := by
  have hv := matVal_eq h
  ext
  · simp only [Dual.sum, Dual.val_mul, Dual.solve, hv, Dual.vals, Matrix.mulVec, dotProduct]
  · simp only [Dual.sum, Dual.tan_mul, Dual.solve, hv, Matrix.mulVec_sub, Matrix.mulVec_mulVec, Pi.sub_apply]
    rw [Finset.sum_add_distrib]
    simp only [Matrix.mulVec, dotProduct, Dual.vals, Dual.tans, neg_mul, Finset.sum_neg_distrib]
    simp only [Matrix.mul_assoc]
    ring

theorem CA.solve (h : ∀ i j, CA (fun s => M s i j) (Md i j) t) (h0 : (M t).det ≠ 0) {b : Fin n → ℝ → ℝ} {bd : Fin n → Dual}
    (hb : ∀ i, CA (b i) (bd i) t) (i : Fin n) : CA (fun s => ((M s)⁻¹ *ᵥ fun j => b j s) i) (Dual.solve Md bd i) t := by
  rw [← solve_dual h]
  exact CA.sum fun j => (CA.matInv h h0 i j).mul (hb j)

theorem Tame.solve {X : Type} [MeasurableSpace X] {μ : Measure X} {w : X → ℝ} (hw : ∀ x, 1 ≤ w x)
    (h : ∀ i j, CA (fun s => M s i j) (Md i j) t) (h0 : (M t).det ≠ 0) {F : Fin n → ℝ → X → ℝ} {D : Fin n → X → Dual}
    (hF : ∀ i, Tame μ w (F i) (D i) t) (i : Fin n) :
    Tame μ w (fun s x => ((M s)⁻¹ *ᵥ fun j => F j s x) i) (fun x => Dual.solve Md (fun j => D j x) i) t :=
  (Tame.sum hw fun j => ((CA.matInv h h0 i j).tame).mul hw (hF j)).congr fun x => solve_dual h (fun j => D j x) i

/-- **Jacobi's formula.** -/
theorem det_deriv (h : ∀ i j, HasDerivAt (fun s => M s i j) ((Md i j).tan) t) (h0 : (M t).det ≠ 0) :
    HasDerivAt (fun s => (M s).det) ((M t).det * ((M t)⁻¹ * Dual.matTan Md).trace) t := by
  let F : (Fin n → Fin n → ℝ) → ℝ := fun A => (Matrix.of A).det
  have hF : Differentiable ℝ F := by
    show Differentiable ℝ fun A : Fin n → Fin n → ℝ => (Matrix.of A).det
    simp only [Matrix.det_apply', Matrix.of_apply]
    fun_prop
  have hM : HasDerivAt (fun s => (fun i j => M s i j : Fin n → Fin n → ℝ)) (fun i j => (Md i j).tan) t :=
    hasDerivAt_pi.2 fun i => hasDerivAt_pi.2 fun j => h i j
  have h1 := (hF (fun i j => M t i j)).hasFDerivAt.comp_hasDerivAt t hM
  have hL : HasDerivAt (fun r : ℝ => (fun i j => M t i j + r * (Md i j).tan : Fin n → Fin n → ℝ)) (fun i j => (Md i j).tan) 0 :=
    hasDerivAt_pi.2 fun i => hasDerivAt_pi.2 fun j => by
      simpa using ((hasDerivAt_id (0 : ℝ)).mul_const (Md i j).tan).const_add (M t i j)
  have h2 := (show HasFDerivAt F (fderiv ℝ F fun i j => M t i j) (fun i j => M t i j + 0 * (Md i j).tan) by
    simpa using (hF (fun i j => M t i j)).hasFDerivAt).comp_hasDerivAt (0 : ℝ) hL
  have h3 : HasDerivAt (fun r : ℝ => (M t).det * (1 + ((M t)⁻¹ * Dual.matTan Md).trace * r +
      (det (1 + (Polynomial.X : Polynomial ℝ) • ((M t)⁻¹ * Dual.matTan Md).map Polynomial.C)).divX.divX.eval r * r ^ 2))
      ((M t).det * ((M t)⁻¹ * Dual.matTan Md).trace) 0 := by
    generalize (det (1 + (Polynomial.X : Polynomial ℝ) • ((M t)⁻¹ * Dual.matTan Md).map Polynomial.C)).divX.divX = q
    have := ((((hasDerivAt_id (0 : ℝ)).const_mul ((M t)⁻¹ * Dual.matTan Md).trace).const_add 1).add
      ((q.hasDerivAt (0 : ℝ)).mul (hasDerivAt_pow 2 (0 : ℝ)))).const_mul (M t).det
    refine this.congr_deriv ?_
    simp
  have e : (F ∘ fun r : ℝ => (fun i j => M t i j + r * (Md i j).tan : Fin n → Fin n → ℝ)) =
      fun r : ℝ => (M t).det * (1 + ((M t)⁻¹ * Dual.matTan Md).trace * r +
      (det (1 + (Polynomial.X : Polynomial ℝ) • ((M t)⁻¹ * Dual.matTan Md).map Polynomial.C)).divX.divX.eval r * r ^ 2) := by
    funext r
    rw [← Matrix.det_one_add_smul, ← Matrix.det_mul]
    show Matrix.det _ = _
    congr 1
    rw [Matrix.mul_add, Matrix.mul_one, Matrix.mul_smul, ← Matrix.mul_assoc,
      Matrix.mul_nonsing_inv _ (isUnit_iff_ne_zero.2 h0), Matrix.one_mul]
    rfl
  rw [e] at h2
  exact h1.congr_deriv (h2.unique h3)

theorem CA.slogdet (h : ∀ i j, CA (fun s => M s i j) (Md i j) t) (h0 : (M t).det ≠ 0) :
    CA (fun s => Real.log |(M s).det|) (Dual.slogdet Md) t := by
  simp only [Real.log_abs]
  have hv := matVal_eq h
  refine ⟨by simp only [Dual.slogdet, hv, Real.log_abs], (det_contDiffAt fun i j => (h i j).smooth).log h0, ?_⟩
  refine ((det_deriv (fun i j => (h i j).deriv) h0).log h0).congr_deriv ?_
  simp only [Dual.slogdet, hv]
  field_simp

end

end Distrax
