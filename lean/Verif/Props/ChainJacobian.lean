import Verif.Props.Chain
import Mathlib.Analysis.Calculus.FDeriv.Comp
import Mathlib.Analysis.Calculus.FDeriv.Equiv
import Mathlib.Analysis.Calculus.FDeriv.Add
import Mathlib.Analysis.Calculus.FDeriv.OfCompLeft
import Mathlib.Analysis.Calculus.FDeriv.Mul
import Mathlib.Analysis.Calculus.Deriv.Mul
import Mathlib.Analysis.SpecialFunctions.Log.Basic
import Mathlib.LinearAlgebra.Determinant
import Mathlib.Topology.Algebra.Module.Determinant
import Mathlib.Topology.Algebra.Module.FiniteDimension
import Mathlib.Analysis.Calculus.FDeriv.Equiv

/-! C02: chains of arbitrary (not only elementwise) bijectors report the log of the true Jacobian determinant of the composed
map, when their components do. -/

namespace Distrax
namespace BObj
open Filter Topology

variable {E : Type} [NormedAddCommGroup E] [NormedSpace ℝ E]

/-- At `x`, the method `m` (`forward_and_log_det` or `inverse_and_log_det`) computes, around `x`, a function differentiable at
`x` with invertible derivative, with value `y` at `x`, and the log-det it reports at `x` is `log |det|` of that derivative. -/
def TrueLogDetAt (m : E → Except Err (E × ℝ)) (x y : E) : Prop :=
  ∃ (f : E → E) (J : E →L[ℝ] E), (∀ᶠ v in 𝓝 x, ∃ l, m v = .ok (f v, l)) ∧ HasFDerivAt f J x ∧
    LinearMap.det (J : E →ₗ[ℝ] E) ≠ 0 ∧ m x = .ok (y, Real.log |LinearMap.det (J : E →ₗ[ℝ] E)|)

/-- `y = f1(f2(...fN(x)))`, every `fi` reporting truthfully at the value it receives. -/
def TruePath : List (BObj E ℝ) → E → E → Prop
  | [], x, y => x = y
  | f :: fs, x, y => ∃ z, TruePath fs x z ∧ TrueLogDetAt f.fwdLd z y

/-- `x` is reached from `y` by undoing `f1` first, every inverse reporting truthfully. -/
def TrueInvPath : List (BObj E ℝ) → E → E → Prop
  | [], y, x => y = x
  | f :: fs, y, x => ∃ z, TrueLogDetAt f.invLd y z ∧ TrueInvPath fs z x

/-- helper: composition of two truthful methods. -/
theorem TrueLogDetAt.comp {m1 m2 m : E → Except Err (E × ℝ)} {x z y : E} (h1 : TrueLogDetAt m1 x z)
    (h2 : TrueLogDetAt m2 z y)
    (hm : ∀ v, m v = (do let p ← m1 v; let q ← m2 p.1; pure (q.1, p.2 + q.2))) : TrueLogDetAt m x y := by
  obtain ⟨f, J, e1, d1, n1, v1⟩ := h1
  obtain ⟨g, K, e2, d2, n2, v2⟩ := h2
  have hfx : f x = z := by
    obtain ⟨l, hl⟩ := e1.self_of_nhds
    rw [v1] at hl
    simpa using (Prod.ext_iff.1 (Except.ok.inj hl)).1.symm
  refine ⟨fun v => g (f v), K.comp J, ?_, ?_, ?_, ?_⟩
  · have : ∀ᶠ v in 𝓝 x, ∃ l, m2 (f v) = .ok (g (f v), l) := by
      have := d1.continuousAt.tendsto
      rw [hfx] at this
      exact this.eventually e2
    filter_upwards [e1, this] with v hv1 hv2
    obtain ⟨l1, h1⟩ := hv1
    obtain ⟨l2, h2⟩ := hv2
    refine ⟨l1 + l2, ?_⟩
    rw [hm, h1]
    show (do let q ← m2 (f v); pure (q.1, l1 + q.2)) = _
    rw [h2]; rfl
  · rw [← hfx] at d2
    exact d2.comp x d1
  · rw [ContinuousLinearMap.toLinearMap_comp, LinearMap.det_comp]
    exact mul_ne_zero n2 n1
  · rw [hm, v1]
    show (do let q ← m2 z; pure (q.1, _ + q.2)) = _
    rw [v2]
    show Except.ok (y, _) = _
    congr 2
    rw [ContinuousLinearMap.toLinearMap_comp, LinearMap.det_comp, abs_mul,
      Real.log_mul (abs_ne_zero.2 n2) (abs_ne_zero.2 n1)]
    ring

/-- helper: the empty composition. -/
theorem TrueLogDetAt.id (x : E) : TrueLogDetAt (fun v : E => Except.ok (v, (0 : ℝ))) x x :=
  ⟨fun v => v, ContinuousLinearMap.id ℝ E, Eventually.of_forall fun v => ⟨0, rfl⟩, hasFDerivAt_id x, by simp, by simp⟩

/-- **C02 (true Jacobian of a chain).** If every component reports the log of the true Jacobian determinant at the value it
receives, so does `Chain`, for the derivative of the composed map; likewise for the inverse. -/
theorem C02_chain_jacobian (bs : List (BObj E ℝ)) (c : BObj E ℝ) (h : mkChain bs = .ok c) (x y : E) :
    (TruePath bs x y → TrueLogDetAt c.fwdLd x y) ∧ (TrueInvPath bs y x → TrueLogDetAt c.invLd y x) := by
  obtain ⟨-, h2, h3, -⟩ : _ ∧ (∀ x, c.fwdLd x = nestedLd bs x) ∧ (∀ x, c.invLd x = nestedInvLd bs x) ∧ True :=
    ⟨fun x => (C02_chain_order bs c h x).1, fun x => (C02_chain_order bs c h x).2.1,
      fun x => (C02_chain_order bs c h x).2.2.1, trivial⟩
  rw [show c.fwdLd = nestedLd bs from funext h2, show c.invLd = nestedInvLd bs from funext h3]
  clear h h2 h3
  constructor
  · induction bs generalizing x y with
    | nil => rintro (rfl : x = y); exact TrueLogDetAt.id x
    | cons f fs ih =>
      rintro ⟨z, hz, hf⟩
      exact (ih x z hz).comp hf fun v => rfl
  · induction bs generalizing x y with
    | nil => rintro (rfl : y = x); exact TrueLogDetAt.id y
    | cons f fs ih =>
      rintro ⟨z, hf, hz⟩
      exact hf.comp (ih x z hz) fun v => rfl

/-- **C01/C02 (true Jacobian of the inverse).** If `forward_and_log_det` is truthful at `x`, the inverse method returns `x` at
`y = forward(x)` with the opposite log-det, is computed by a function continuous at `y` that forward undoes around `y`, then
the inverse method is truthful at `y`. -/
theorem C02_inverse_jacobian [FiniteDimensional ℝ E] (b : BObj E ℝ) (x y : E) (l : ℝ) (g : E → E)
    (hf : TrueLogDetAt b.fwdLd x y)
    (hl : b.fwdLd x = .ok (y, l)) (hi : b.invLd y = .ok (x, -l)) (hg : ContinuousAt g y)
    (hgi : ∀ᶠ w in 𝓝 y, ∃ l', b.invLd w = .ok (g w, l'))
    (hfg : ∀ᶠ w in 𝓝 y, ∃ l', b.fwdLd (g w) = .ok (w, l')) : TrueLogDetAt b.invLd y x := by
  obtain ⟨f, J, e1, d1, n1, v1⟩ := hf
  have hgy : g y = x := by
    obtain ⟨l', h'⟩ := hgi.self_of_nhds
    rw [hi] at h'
    simpa using (Prod.ext_iff.1 (Except.ok.inj h')).1.symm
  have hll : l = Real.log |LinearMap.det (J : E →ₗ[ℝ] E)| := by
    rw [v1] at hl
    simpa using (Prod.ext_iff.1 (Except.ok.inj hl)).2.symm
  have hfgw : ∀ᶠ w in 𝓝 y, f (g w) = w := by
    have hpull : ∀ᶠ w in 𝓝 y, ∃ l', b.fwdLd (g w) = .ok (f (g w), l') := by
      have := hg.tendsto
      rw [hgy] at this
      exact this.eventually e1
    filter_upwards [hpull, hfg] with w h1 h2
    obtain ⟨_, h1⟩ := h1
    obtain ⟨_, h2⟩ := h2
    rw [h1] at h2
    simpa using (Prod.ext_iff.1 (Except.ok.inj h2)).1
  let K : E ≃L[ℝ] E := J.toContinuousLinearEquivOfDetNeZero n1
  have hK : (K : E →L[ℝ] E) = J := J.coe_toContinuousLinearEquivOfDetNeZero n1
  have dg : HasFDerivAt g (K.symm : E →L[ℝ] E) y := by
    refine HasFDerivAt.of_local_left_inverse hg ?_ hfgw
    rw [hgy, hK]; exact d1
  have hdet : LinearMap.det ((K.symm : E →L[ℝ] E) : E →ₗ[ℝ] E) * LinearMap.det (J : E →ₗ[ℝ] E) = 1 := by
    rw [← hK, ← LinearMap.det_comp, ← ContinuousLinearMap.toLinearMap_comp]
    simp
  have hne : LinearMap.det ((K.symm : E →L[ℝ] E) : E →ₗ[ℝ] E) ≠ 0 := left_ne_zero_of_mul_eq_one hdet
  refine ⟨g, K.symm, hgi, dg, hne, ?_⟩
  rw [hi, hll]
  congr 2
  have : Real.log |LinearMap.det ((K.symm : E →L[ℝ] E) : E →ₗ[ℝ] E)| + Real.log |LinearMap.det (J : E →ₗ[ℝ] E)| = 0 := by
    rw [← Real.log_mul (abs_ne_zero.2 hne) (abs_ne_zero.2 n1), ← abs_mul, hdet]; simp
  linarith

/-- The scalar bijector `x ↦ 3 x`, for the examples. -/
noncomputable def exLin : BObj ℝ ℝ where
  ndimsIn := 0
  ndimsOut := 0
  constJac := true
  constLogDet := true
  forward := fun x => .ok (3 * x)
  inverse := fun y => .ok (y / 3)
  fldj := fun _ => .ok (Real.log 3)
  ildj := fun _ => .ok (-Real.log 3)
  fwdLd := fun x => .ok (3 * x, Real.log 3)
  invLd := fun y => .ok (y / 3, -Real.log 3)

theorem exLin_true (x : ℝ) : TrueLogDetAt exLin.fwdLd x (3 * x) := by
  refine ⟨fun v => 3 * v, (3 : ℝ) • ContinuousLinearMap.id ℝ ℝ, Eventually.of_forall fun v => ⟨_, rfl⟩, ?_, ?_, ?_⟩
  · have := ((hasFDerivAt_id (𝕜 := ℝ) x).const_mul (3 : ℝ))
    exact this
  · have : (((3 : ℝ) • ContinuousLinearMap.id ℝ ℝ : ℝ →L[ℝ] ℝ) : ℝ →ₗ[ℝ] ℝ) = (3 : ℝ) • LinearMap.id := rfl
    rw [this, LinearMap.det_smul]; simp
  · have : (((3 : ℝ) • ContinuousLinearMap.id ℝ ℝ : ℝ →L[ℝ] ℝ) : ℝ →ₗ[ℝ] ℝ) = (3 : ℝ) • LinearMap.id := rfl
    rw [this, LinearMap.det_smul]; simp [exLin]

/-- Non-vacuity: a chain of two such maps, and its inverse. -/
example : ∃ c, mkChain [exLin, exLin] = .ok c ∧ TrueLogDetAt c.fwdLd 1 9 ∧ TrueLogDetAt exLin.invLd 3 1 := by
  refine ⟨_, rfl, ?_, ?_⟩
  · refine (C02_chain_jacobian [exLin, exLin] _ rfl 1 9).1 ⟨3, ⟨1, rfl, ?_⟩, ?_⟩
    · have := exLin_true 1; norm_num at this; exact this
    · have := exLin_true 3; norm_num at this; exact this
  · refine C02_inverse_jacobian exLin 1 3 (Real.log 3) (fun y => y / 3) ?_ ?_ ?_ ?_ ?_ ?_
    · have := exLin_true 1; norm_num at this; exact this
    · simp [exLin]
    · simp [exLin]
    · fun_prop
    · exact Eventually.of_forall fun w => ⟨_, rfl⟩
    · exact Eventually.of_forall fun w => ⟨Real.log 3, by simp [exLin]; ring⟩

end BObj
end Distrax
