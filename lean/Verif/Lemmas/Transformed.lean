import Verif.Spec.Density
import Mathlib.MeasureTheory.Function.Jacobian

/-! Change of variables for `Diffeo`. -/

namespace Distrax

open MeasureTheory Spec

variable {E : Type} [NormedAddCommGroup E] [NormedSpace ℝ E] [FiniteDimensional ℝ E] [MeasurableSpace E] [BorelSpace E]
  {μ : Measure E} [μ.IsAddHaarMeasure] {S T : Set E} {f g : E → E} {ld : E → ℝ}

omit [FiniteDimensional ℝ E] [BorelSpace E] in
theorem Spec.Diffeo.image (h : Diffeo S T f g ld) (B : Set E) : f '' (S ∩ f ⁻¹' B) = T ∩ B := by
  ext y; constructor
  · rintro ⟨x, ⟨hx, hB⟩, rfl⟩; exact ⟨h.maps x hx, hB⟩
  · rintro ⟨hy, hB⟩
    exact ⟨g y, ⟨h.maps_inv y hy, by simpa [h.right y hy] using hB⟩, h.right y hy⟩

omit [FiniteDimensional ℝ E] in
theorem Spec.Diffeo.measPre (h : Diffeo S T f g ld) {B : Set E} (hB : MeasurableSet B) : MeasurableSet (S ∩ f ⁻¹' B) := by
  have hc : ContinuousOn f S := fun x hx => by
    obtain ⟨J, hJ, _⟩ := h.jac x hx
    exact hJ.continuousWithinAt
  have h1 : Measurable (S.restrict f) := hc.restrict.measurable
  have h2 := MeasurableSet.subtype_image h.meas (h1 hB)
  convert h2 using 1
  ext x; simp [Set.restrict_apply]; tauto

omit [FiniteDimensional ℝ E] [BorelSpace E] in
theorem Spec.Diffeo.injOn (h : Diffeo S T f g ld) : Set.InjOn f S := fun x hx y hy e => by
  rw [← h.left x hx, ← h.left y hy, e]

/-- `∫_{T∩B} w(g y) e^{-ld(g y)} dy = ∫_{S∩f⁻¹B} w(x) dx`, with integrability both ways. -/
theorem Spec.Diffeo.cov (h : Diffeo S T f g ld) {B : Set E} (hB : MeasurableSet B) (w : E → ℝ) :
    (∫ y in T ∩ B, w (g y) * Real.exp (-ld (g y)) ∂μ = ∫ x in S ∩ f ⁻¹' B, w x ∂μ) ∧
    (IntegrableOn (fun y => w (g y) * Real.exp (-ld (g y))) (T ∩ B) μ ↔ IntegrableOn w (S ∩ f ⁻¹' B) μ) := by
  classical
  choose! J hJ using h.jac
  have hm := h.measPre hB
  have hd : ∀ x ∈ S ∩ f ⁻¹' B, HasFDerivWithinAt f (J x) (S ∩ f ⁻¹' B) x := fun x hx =>
    (hJ x hx.1).1.mono Set.inter_subset_left
  have hinj : Set.InjOn f (S ∩ f ⁻¹' B) := h.injOn.mono Set.inter_subset_left
  have key : ∀ x ∈ S ∩ f ⁻¹' B, |(J x).det| • (w (g (f x)) * Real.exp (-ld (g (f x)))) = w x := by
    intro x hx
    obtain ⟨-, h1, h2⟩ := hJ x hx.1
    rw [h.left x hx.1, h2, Real.exp_neg, Real.exp_log (abs_pos.2 h1), smul_eq_mul]
    field_simp [abs_ne_zero.2 h1]
  rw [← h.image B]
  constructor
  · rw [integral_image_eq_integral_abs_det_fderiv_smul μ hm hd hinj]
    exact setIntegral_congr_fun hm key
  · rw [integrableOn_image_iff_integrableOn_abs_det_fderiv_smul μ hm hd hinj]
    exact integrableOn_congr_fun key hm

theorem Spec.Diffeo.cov_univ (h : Diffeo S T f g ld) (w : E → ℝ) :
    (∫ y in T, w (g y) * Real.exp (-ld (g y)) ∂μ = ∫ x in S, w x ∂μ) ∧
    (IntegrableOn (fun y => w (g y) * Real.exp (-ld (g y))) T μ ↔ IntegrableOn w S μ) := by
  simpa using h.cov (μ := μ) (B := Set.univ) MeasurableSet.univ w

theorem Spec.Diffeo.meas_image (h : Diffeo S T f g ld) : MeasurableSet T := by
  have := h.image Set.univ
  simp only [Set.preimage_univ, Set.inter_univ] at this
  rw [← this]
  choose! J hJ using h.jac
  exact measurable_image_of_fderivWithin h.meas (fun x hx => (hJ x hx).1) h.injOn

/-- Expectations transport. -/
theorem Spec.Diffeo.expOn (h : Diffeo S T f g ld) {p q w v : E → ℝ} {e : ℝ} (hp : ExpOn μ S p w e)
    (hq : ∀ y ∈ T, q y = p (g y) * Real.exp (-ld (g y))) (hv : ∀ y ∈ T, v y = w (g y)) : ExpOn μ T q v e := by
  have hc := h.cov_univ (μ := μ) fun x => p x * w x
  have hT := h.meas_image
  have e1 : ∀ y ∈ T, p (g y) * w (g y) * Real.exp (-ld (g y)) = q y * v y := fun y hy => by
    rw [hq y hy, hv y hy]; ring
  refine ⟨?_, ?_⟩
  · exact (integrableOn_congr_fun e1 hT).1 (hc.2.2 hp.1)
  · rw [← setIntegral_congr_fun hT e1, hc.1, hp.2]

end Distrax
