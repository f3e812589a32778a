import Verif.Model.KLGrad
import Verif.Spec.KLGrad
import Verif.Lemmas.ScoreGrad4
import Verif.Lemmas.MVNGrad3
import Verif.Props.ScoreGrad2
import Mathlib.Analysis.Calculus.ContDiff.Deriv

/-! Lemmas for C75: derivatives of the primitives of the closed forms. -/

namespace Distrax

open MeasureTheory Filter Topology Spec

namespace Tracks
variable {x y : ℝ → ℝ} {a b : Dual} {t : ℝ}

theorem param {p : Param} (h : HasDerivAt p.val (p.der t) t) : Tracks p.val (p.at t) t := ⟨rfl, h⟩

theorem comp {f : ℝ → ℝ} {v r : ℝ} (h : Tracks x a t) (hf : HasDerivAt f r (x t)) (hv : v = f a.val) :
    Tracks (fun s => f (x s)) ⟨v, a.tan * r⟩ t := by
  refine ⟨by rw [hv, h.val], ?_⟩
  have := hf.comp t h.deriv
  exact this.congr_deriv (mul_comm _ _)

theorem square (h : Tracks x a t) : Tracks (fun s => x s ^ 2) a.square t := by
  refine h.comp (f := fun z => z ^ 2) (r := 2 * a.val) ?_ rfl
  rw [h.val]
  exact (hasDerivAt_pow 2 (x t)).congr_deriv (by norm_num)

theorem expm1 (h : Tracks x a t) : Tracks (fun s => Real.exp (x s) - 1) a.expm1 t := by
  refine h.comp (f := fun z => Real.exp z - 1) ?_ rfl
  rw [h.val, sub_add_cancel]
  exact (Real.hasDerivAt_exp _).sub_const 1

theorem cos (h : Tracks x a t) : Tracks (fun s => Real.cos (x s)) a.cos t := by
  have := h.comp (f := Real.cos) (r := -Real.sin a.val) (v := Real.cos a.val) (by rw [h.val]; exact Real.hasDerivAt_cos _) rfl
  refine ⟨this.val, this.deriv.congr_deriv ?_⟩
  simp only [Dual.cos]; ring

theorem abs (h : Tracks x a t) (h0 : x t ≠ 0) : Tracks (fun s => |x s|) a.abs t := by
  refine h.comp (f := fun z => |z|) ?_ rfl
  rw [h.val]
  exact hasDerivAt_abs h0

theorem lgamma (h : Tracks x a t) (h0 : 0 < x t) : Tracks (fun s => Distrax.lgamma (x s)) a.lgamma t := by
  refine h.comp ?_ rfl
  rw [h.val]
  exact lgamma_hasDerivAt h0

theorem softplus (h : Tracks x a t) : Tracks (fun s => Real.log (1 + Real.exp (x s))) a.softplus t := by
  refine h.comp (f := fun z => Real.log (1 + Real.exp z)) ?_ rfl
  rw [h.val]
  have hp := Real.exp_pos (x t)
  refine (((Real.hasDerivAt_exp (x t)).const_add 1).log (by positivity)).congr_deriv ?_
  rw [Real.exp_neg]
  field_simp
  ring

/-- From a smooth formula to a statement about the quantity it computes. -/
theorem trueAt {Is : ℝ → ℝ → Prop} (h : Tracks x a t) (hs : ∀ᶠ s in 𝓝 t, Is s (x s)) : TrueWithGradient Is a t :=
  ⟨x, hs, h.val, h.deriv⟩

theorem trueOn {Is : ℝ → ℝ → Prop} {S : Set ℝ} (h : Tracks x a t) (ht : Is t (x t)) (hs : ∀ᶠ s in 𝓝[S] t, Is s (x s)) :
    TrueWithGradientOn S Is a t :=
  ⟨x, ht, hs, h.val, h.deriv.hasDerivWithinAt⟩

theorem pos_near (h : Tracks x a t) (h0 : 0 < x t) : ∀ᶠ s in 𝓝 t, 0 < x s := h.deriv.continuousAt.eventually_const_lt h0

end Tracks

theorem gamma_contDiff2 {a : ℝ} (ha : 0 < a) : ContDiffAt ℝ 2 Real.Gamma a := by
  have hd : DifferentiableOn ℂ Complex.Gamma {z : ℂ | 0 < z.re} := fun z hz =>
    (Complex.differentiableAt_Gamma z fun m h => by
      have : z.re = -(m : ℝ) := by rw [h]; simp
      have h0 : (0 : ℝ) < z.re := hz
      linarith [(Nat.cast_nonneg m : (0 : ℝ) ≤ m)]).differentiableWithinAt
  have ho : IsOpen {z : ℂ | 0 < z.re} := isOpen_lt continuous_const Complex.continuous_re
  have h := (hd.contDiffOn ho (n := 2)).contDiffAt (ho.mem_nhds (show (0 : ℝ) < ((a : ℂ)).re by simpa using ha))
  exact h.real_of_complex

theorem digamma_hasDerivAt {a : ℝ} (ha : 0 < a) : HasDerivAt digamma (trigamma a) a := by
  have h1 : ContDiffAt ℝ 1 (deriv Real.Gamma) a := by
    have := ((gamma_contDiff2 ha).fderiv_right (m := 1) (by norm_num)).clm_apply (contDiffAt_const (c := (1 : ℝ)))
    exact this
  have h2 : DifferentiableAt ℝ digamma a :=
    (h1.differentiableAt one_ne_zero).div ((gamma_contDiff ha).differentiableAt one_ne_zero) (Real.Gamma_pos_of_pos ha).ne'
  exact h2.hasDerivAt

theorem Tracks.digamma {x : ℝ → ℝ} {a : Dual} {t : ℝ} (h : Tracks x a t) (h0 : 0 < x t) :
    Tracks (fun s => Distrax.digamma (x s)) a.digamma t := by
  refine h.comp ?_ rfl
  rw [h.val]
  exact digamma_hasDerivAt h0

/-! ### Bessel functions -/

/-- The derivative of `I_1`. -/
noncomputable def bessel1' (k : ℝ) : ℝ := (∫ t in (0 : ℝ)..Real.pi, Real.cos t * (Real.exp (k * Real.cos t) * Real.cos t)) / Real.pi

theorem bessel1_deriv (k : ℝ) : HasDerivAt bessel1 (bessel1' k) k := by
  have h := deriv_param (h := fun x => Real.cos x) Real.continuous_cos (F := fun k x => Real.exp (k * Real.cos x))
    (F' := fun k x => Real.exp (k * Real.cos x) * Real.cos x)
    (fun m x => by simpa using ((hasDerivAt_id m).mul_const (Real.cos x)).exp)
    (fun m => by fun_prop) (by unfold Function.uncurry; fun_prop) 0 Real.pi k
  refine (h.div_const Real.pi).congr_of_eventuallyEq (Eventually.of_forall fun s => ?_)
  simp only [bessel1, mul_comm]

/-- `k I_1'(k) = k I_0(k) - I_1(k)`. -/
theorem bessel1'_eq (k : ℝ) : k * bessel1' k = k * bessel0 k - bessel1 k := by
  have hd : ∀ x ∈ Set.uIcc 0 Real.pi, HasDerivAt (fun x => Real.exp (k * Real.cos x) * Real.sin x)
      (Real.exp (k * Real.cos x) * Real.cos x - k * (Real.exp (k * Real.cos x) * Real.sin x ^ 2)) x := fun x _ => by
    have h1 : HasDerivAt (fun x => Real.exp (k * Real.cos x)) (Real.exp (k * Real.cos x) * (k * -Real.sin x)) x :=
      ((Real.hasDerivAt_cos x).const_mul k).exp
    exact (h1.mul (Real.hasDerivAt_sin x)).congr_deriv (by ring)
  have hi : ∀ f : ℝ → ℝ, Continuous f → IntervalIntegrable f volume 0 Real.pi := fun f hf => hf.intervalIntegrable _ _
  have h := intervalIntegral.integral_eq_sub_of_hasDerivAt hd (hi _ (by fun_prop))
  rw [Real.sin_pi, Real.sin_zero, mul_zero, mul_zero, sub_zero, intervalIntegral.integral_sub (hi _ (by fun_prop)) (hi _ (by fun_prop)),
    intervalIntegral.integral_const_mul] at h
  have e : (∫ x in (0 : ℝ)..Real.pi, Real.exp (k * Real.cos x) * Real.sin x ^ 2) =
      (∫ x in (0 : ℝ)..Real.pi, Real.exp (k * Real.cos x)) -
        ∫ x in (0 : ℝ)..Real.pi, Real.cos x * (Real.exp (k * Real.cos x) * Real.cos x) := by
    rw [← intervalIntegral.integral_sub (hi _ (by fun_prop)) (hi _ (by fun_prop))]
    refine intervalIntegral.integral_congr fun x _ => ?_
    rw [Real.sin_sq]; ring
  rw [e] at h
  unfold bessel1' bessel0 bessel1
  generalize (∫ x in (0 : ℝ)..Real.pi, Real.exp (k * Real.cos x)) = I0 at *
  generalize (∫ x in (0 : ℝ)..Real.pi, Real.exp (k * Real.cos x) * Real.cos x) = I1 at *
  generalize (∫ x in (0 : ℝ)..Real.pi, Real.cos x * (Real.exp (k * Real.cos x) * Real.cos x)) = I2 at *
  have hp := Real.pi_pos
  field_simp
  linarith

theorem bessel1'_zero : bessel1' 0 = 1 / 2 := by
  unfold bessel1'
  have : ∀ x : ℝ, Real.cos x * (Real.exp (0 * Real.cos x) * Real.cos x) = Real.cos x ^ 2 := fun x => by simp; ring
  simp only [this, integral_cos_sq, Real.sin_pi, Real.sin_zero]
  field_simp
  ring

end Distrax
