import Verif.Spec.Continuous
import Mathlib.MeasureTheory.Integral.IntegralEqImproper
import Mathlib.MeasureTheory.Function.JacobianOneDim
import Mathlib.MeasureTheory.Measure.Haar.NormedSpace
import Mathlib.MeasureTheory.Integral.IntervalIntegral.FundThmCalculus

/-! General facts about densities on the real line. -/

namespace Distrax

open MeasureTheory Set Filter Topology Spec

/-! ### Expectations -/

theorem Spec.HasExp.congr {f h h' : ℝ → ℝ} {e : ℝ} (a : HasExp f h e) (hh : ∀ x, f x * h' x = f x * h x) : HasExp f h' e := by
  unfold HasExp
  simp only [hh]; exact a

theorem Spec.HasExp.add {f h k : ℝ → ℝ} {a b : ℝ} (ha : HasExp f h a) (hb : HasExp f k b) :
    HasExp f (fun x => h x + k x) (a + b) := by
  have e : (fun x => f x * (h x + k x)) = fun x => f x * h x + f x * k x := by ext x; ring
  refine ⟨by rw [e]; exact ha.1.add hb.1, ?_⟩
  simp only [e]; rw [integral_add ha.1 hb.1, ha.2, hb.2]

theorem Spec.HasExp.smul {f h : ℝ → ℝ} {a : ℝ} (c : ℝ) (ha : HasExp f h a) : HasExp f (fun x => c * h x) (c * a) := by
  have e : (fun x => f x * (c * h x)) = fun x => c * (f x * h x) := by ext x; ring
  refine ⟨by rw [e]; exact ha.1.const_mul c, ?_⟩
  simp only [e]; rw [integral_const_mul, ha.2]

theorem Spec.IsPdf.const {f : ℝ → ℝ} (hf : IsPdf f) (c : ℝ) : HasExp f (fun _ => c) c :=
  ⟨hf.integrable.mul_const c, by rw [integral_mul_const, hf.one, one_mul]⟩

theorem Spec.HasExp.unique {f h : ℝ → ℝ} {a b : ℝ} (ha : HasExp f h a) (hb : HasExp f h b) : a = b := by
  rw [← ha.2, hb.2]

theorem Spec.IsPdf.survival {f F : ℝ → ℝ} (hf : IsPdf f) (hF : IsCdf f F) : IsSurvival f fun x => 1 - F x := by
  intro x
  have := integral_add_compl (μ := volume) (measurableSet_Iic (a := x)) hf.integrable
  rw [compl_Iic, hF x, hf.one] at this
  linarith

theorem Spec.IsPdf.median {f F : ℝ → ℝ} (hf : IsPdf f) (hF : IsCdf f F) {m : ℝ} (hm : F m = 1 / 2) : IsMedian f m :=
  ⟨by rw [hF, hm], by rw [hf.survival hF m]; show 1 - F m = _; rw [hm]; norm_num⟩

/-! ### Affine change of variables -/

theorem affine_integrable {φ : ℝ → ℝ} (m : ℝ) {s : ℝ} (hs : 0 < s) (h : Integrable φ) :
    Integrable fun x => φ ((x - m) / s) / s := by
  have h1 : Integrable fun x => φ (x / s) := h.comp_div hs.ne'
  exact (h1.comp_sub_right m).div_const s

theorem affine_integral (φ : ℝ → ℝ) (m : ℝ) {s : ℝ} (hs : 0 < s) : ∫ x, φ ((x - m) / s) / s = ∫ z, φ z := by
  rw [integral_div, integral_sub_right_eq_self (fun x => φ (x / s)) m, Measure.integral_comp_div φ s, abs_of_pos hs,
    smul_eq_mul]
  field_simp

theorem affine_set_integral (φ : ℝ → ℝ) (m : ℝ) {s : ℝ} (hs : 0 < s) (x : ℝ) :
    ∫ t in Iic x, φ ((t - m) / s) / s = ∫ z in Iic ((x - m) / s), φ z := by
  rw [← integral_indicator measurableSet_Iic, ← integral_indicator measurableSet_Iic,
    ← affine_integral ((Iic ((x - m) / s)).indicator φ) m hs]
  congr 1; ext t
  by_cases ht : t ≤ x
  · have h2 : (t - m) / s ≤ (x - m) / s := by gcongr
    rw [indicator_of_mem (by exact ht), indicator_of_mem (by exact h2)]
  · have h2 : ¬ (t - m) / s ≤ (x - m) / s := by
      rw [not_le] at *; gcongr
    rw [indicator_of_notMem (by exact ht), indicator_of_notMem (by exact h2), zero_div]

theorem Spec.IsPdf.affine {g : ℝ → ℝ} (hg : IsPdf g) (m : ℝ) {s : ℝ} (hs : 0 < s) : IsPdf fun x => g ((x - m) / s) / s :=
  ⟨fun x => div_nonneg (hg.nonneg _) hs.le, affine_integrable m hs hg.integrable, by rw [affine_integral _ m hs, hg.one]⟩

theorem Spec.IsCdf.affine {g G : ℝ → ℝ} (hG : IsCdf g G) (m : ℝ) {s : ℝ} (hs : 0 < s) :
    IsCdf (fun x => g ((x - m) / s) / s) fun x => G ((x - m) / s) := fun x => by
  rw [affine_set_integral _ m hs, hG]

theorem Spec.HasExp.affine {g h : ℝ → ℝ} {e : ℝ} (m : ℝ) {s : ℝ} (hs : 0 < s)
    (he : HasExp g (fun z => h (m + s * z)) e) : HasExp (fun x => g ((x - m) / s) / s) h e := by
  have e0 : (fun x => g ((x - m) / s) / s * h x)
      = fun x => (fun z => g z * h (m + s * z)) ((x - m) / s) / s := by
    ext x
    have : m + s * ((x - m) / s) = x := by field_simp; ring
    simp only [this]; ring
  refine ⟨by rw [e0]; exact affine_integrable m hs he.1, ?_⟩
  rw [e0, affine_integral (fun z => g z * h (m + s * z)) m hs, he.2]

theorem Spec.HasMean.affine {g : ℝ → ℝ} {a : ℝ} (hg : IsPdf g) (h : HasMean g a) (m : ℝ) {s : ℝ} (hs : 0 < s) :
    HasMean (fun x => g ((x - m) / s) / s) (m + s * a) :=
  HasExp.affine m hs ((hg.const m).add (HasExp.smul s h))

theorem Spec.HasVariance.affine {g : ℝ → ℝ} {v : ℝ} (hg : IsPdf g) (h : HasVariance g v) (m : ℝ) {s : ℝ} (hs : 0 < s) :
    HasVariance (fun x => g ((x - m) / s) / s) (s ^ 2 * v) := by
  obtain ⟨a, h1, h2⟩ := h
  refine ⟨m + s * a, h1.affine hg m hs, HasExp.affine m hs ((h2.smul (s ^ 2)).congr fun x => by ring)⟩

theorem Spec.HasEntropy.affine {g : ℝ → ℝ} {e : ℝ} (hg : IsPdf g) (h : HasEntropy g e) (m : ℝ) {s : ℝ} (hs : 0 < s) :
    HasEntropy (fun x => g ((x - m) / s) / s) (e + Real.log s) := by
  refine HasExp.affine m hs ((HasExp.add h (hg.const (Real.log s))).congr fun z => ?_)
  have : (m + s * z - m) / s = z := by field_simp; ring
  simp only [this]
  rcases eq_or_ne (g z) 0 with h0 | h0
  · simp [h0]
  · rw [Real.log_div h0 hs.ne']; ring

/-- The affine image of the standard noise has the affine distribution function. -/
theorem sampleLaw_affine {g G : ℝ → ℝ} (hG : IsCdf g G) (m : ℝ) {s : ℝ} (hs : 0 < s) {T : ℝ → ℝ}
    (hT : ∀ z, T z = s * z + m) : SampleLaw g T fun x => G ((x - m) / s) := by
  intro x
  have : {u | T u ≤ x} = Iic ((x - m) / s) := by
    ext u
    simp only [mem_ofPred_eq, mem_Iic, hT]
    rw [le_div_iff₀ hs]
    constructor <;> intro h <;> nlinarith
  rw [this, hG]

/-! ### Integrals from antiderivatives -/

theorem integral_of_antideriv {F f : ℝ → ℝ} {a b : ℝ} (hF : ∀ x, HasDerivAt F (f x) x) (hc : Continuous f)
    (h0 : ∀ x, 0 ≤ f x) (ha : Tendsto F atBot (𝓝 a)) (hb : Tendsto F atTop (𝓝 b)) :
    Integrable f ∧ ∫ x, f x = b - a := by
  have hi : Integrable f := by
    refine integrable_of_intervalIntegral_norm_tendsto (l := atTop) (a := fun i : ℝ => -i) (b := fun i => i) (b - a)
      (fun i => (hc.integrableOn_Icc).mono_set Ioc_subset_Icc_self) tendsto_neg_atTop_atBot tendsto_id ?_
    have e : ∀ i : ℝ, ∫ x in (-i)..i, ‖f x‖ = F i - F (-i) := by
      intro i
      rw [← intervalIntegral.integral_eq_sub_of_hasDerivAt (fun x _ => hF x) (hc.intervalIntegrable _ _)]
      congr 1; ext x; exact Real.norm_of_nonneg (h0 x)
    simp only [e]
    exact hb.sub (ha.comp tendsto_neg_atTop_atBot)
  exact ⟨hi, integral_of_hasDerivAt_of_tendsto hF hi ha hb⟩

theorem pdf_of_cdf {F f : ℝ → ℝ} (hF : ∀ x, HasDerivAt F (f x) x) (hc : Continuous f)
    (h0 : ∀ x, 0 ≤ f x) (ha : Tendsto F atBot (𝓝 0)) (hb : Tendsto F atTop (𝓝 1)) : IsPdf f ∧ IsCdf f F := by
  obtain ⟨h1, h2⟩ := integral_of_antideriv hF hc h0 ha hb
  refine ⟨⟨h0, h1, by rw [h2, sub_zero]⟩, fun x => ?_⟩
  rw [integral_Iic_of_hasDerivAt_of_tendsto' (fun y _ => hF y) h1.integrableOn ha, sub_zero]

/-! ### Substitution `u = exp(-z)` -/

theorem expneg_image : (fun z : ℝ => Real.exp (-z)) '' univ = Ioi 0 := by
  rw [image_univ]
  ext u
  simp only [mem_range, mem_Ioi]
  exact ⟨by rintro ⟨z, rfl⟩; exact Real.exp_pos _, fun h => ⟨-Real.log u, by rw [neg_neg, Real.exp_log h]⟩⟩

theorem expneg_deriv (z : ℝ) : HasDerivAt (fun z : ℝ => Real.exp (-z)) (-Real.exp (-z)) z := by
  have := (Real.hasDerivAt_exp (-z)).comp z (hasDerivAt_neg z)
  refine HasDerivAt.congr_deriv (f := fun z : ℝ => Real.exp (-z)) this (by ring)

theorem expneg_inj : InjOn (fun z : ℝ => Real.exp (-z)) univ := by
  intro a _ b _ h
  have := Real.exp_injective h
  linarith

theorem expneg_integrable {φ : ℝ → ℝ} (h : IntegrableOn φ (Ioi 0)) :
    Integrable fun z => Real.exp (-z) * φ (Real.exp (-z)) := by
  rw [← expneg_image] at h
  rw [integrableOn_image_iff_integrableOn_abs_deriv_smul MeasurableSet.univ
    (fun z _ => (expneg_deriv z).hasDerivWithinAt) expneg_inj, integrableOn_univ] at h
  simpa only [abs_neg, abs_of_pos (Real.exp_pos _), smul_eq_mul] using h

theorem expneg_integral (φ : ℝ → ℝ) : ∫ z, Real.exp (-z) * φ (Real.exp (-z)) = ∫ u in Ioi 0, φ u := by
  rw [← expneg_image, integral_image_eq_integral_abs_deriv_smul MeasurableSet.univ
    (fun z _ => (expneg_deriv z).hasDerivWithinAt) expneg_inj, setIntegral_univ]
  simp only [abs_neg, abs_of_pos (Real.exp_pos _), smul_eq_mul]

/-! ### Gibbs' inequality -/

theorem kl_integrand_ge {p q : ℝ} (hp : 0 < p) (hq : 0 < q) : p - q ≤ p * (Real.log p - Real.log q) := by
  have h := Real.log_le_sub_one_of_pos (div_pos hq hp)
  rw [Real.log_div hq.ne' hp.ne'] at h
  have : p * (Real.log q - Real.log p) ≤ p * (q / p - 1) := mul_le_mul_of_nonneg_left h hp.le
  have e : p * (q / p - 1) = q - p := by field_simp
  rw [e] at this; linarith

theorem kl_integrand_eq {p q : ℝ} (hp : 0 < p) (hq : 0 < q) (h : p * (Real.log p - Real.log q) = p - q) : p = q := by
  by_contra hne
  have h1 : q / p ≠ 1 := fun hh => hne (by rw [div_eq_one_iff_eq hp.ne'] at hh; exact hh.symm)
  have h2 := Real.log_lt_sub_one_of_pos (div_pos hq hp) h1
  rw [Real.log_div hq.ne' hp.ne'] at h2
  have : p * (Real.log q - Real.log p) < p * (q / p - 1) := mul_lt_mul_of_pos_left h2 hp
  have e : p * (q / p - 1) = q - p := by field_simp
  rw [e] at this; linarith

theorem Spec.HasKL.nonneg {f g : ℝ → ℝ} {k : ℝ} (h : HasKL f g k) (hf : IsPdf f) (hg : IsPdf g) (hf0 : ∀ x, 0 < f x)
    (hg0 : ∀ x, 0 < g x) : 0 ≤ k := by
  have h1 : ∫ x, (f x - g x) ≤ ∫ x, f x * (Real.log (f x) - Real.log (g x)) :=
    integral_mono (hf.integrable.sub hg.integrable) h.1 fun x => kl_integrand_ge (hf0 x) (hg0 x)
  rw [integral_sub hf.integrable hg.integrable, hf.one, hg.one, sub_self, h.2] at h1
  exact h1

theorem Spec.HasKL.eq_of_zero {f g : ℝ → ℝ} (h : HasKL f g 0) (hf : IsPdf f) (hg : IsPdf g) (hf0 : ∀ x, 0 < f x)
    (hg0 : ∀ x, 0 < g x) (hfc : Continuous f) (hgc : Continuous g) : f = g := by
  have hint : Integrable fun x => f x * (Real.log (f x) - Real.log (g x)) - (f x - g x) :=
    h.1.sub (hf.integrable.sub hg.integrable)
  have h0 : ∫ x, (f x * (Real.log (f x) - Real.log (g x)) - (f x - g x)) = 0 := by
    have e1 := integral_sub h.1 (hf.integrable.sub hg.integrable)
    have e2 := integral_sub hf.integrable hg.integrable
    simp only [Pi.sub_apply] at e1
    rw [e1, e2, hf.one, hg.one, h.2]
    norm_num
  rw [integral_eq_zero_iff_of_nonneg (fun x => sub_nonneg.2 (kl_integrand_ge (hf0 x) (hg0 x))) hint] at h0
  refine (Continuous.ae_eq_iff_eq volume hfc hgc).1 ?_
  filter_upwards [h0] with x hx
  exact kl_integrand_eq (hf0 x) (hg0 x) (sub_eq_zero.1 hx)

theorem hasKL_self (f : ℝ → ℝ) : HasKL f f 0 := by
  unfold HasKL HasExp
  simp

end Distrax
