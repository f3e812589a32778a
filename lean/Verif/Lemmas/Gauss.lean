import Verif.Spec.MVN
import Verif.Spec.Continuous
import Verif.Lemmas.Transformed
import Verif.Lemmas.StdLaws
import Mathlib.MeasureTheory.Integral.Pi
import Mathlib.LinearAlgebra.Matrix.ToLin
import Mathlib.Topology.Algebra.Module.FiniteDimension

/-! The multivariate Gaussian law. -/

namespace Distrax

open MeasureTheory Matrix Spec ProbabilityTheory

/-! ### expectation algebra -/

section ExpOn
variable {E : Type} [MeasurableSpace E] {μ : Measure E} {S : Set E} {p : E → ℝ}

theorem Spec.ExpOn.add {f g : E → ℝ} {a b : ℝ} (hf : ExpOn μ S p f a) (hg : ExpOn μ S p g b) :
    ExpOn μ S p (fun x => f x + g x) (a + b) := by
  have e : (fun x => p x * (f x + g x)) = fun x => p x * f x + p x * g x := by funext x; ring
  refine ⟨?_, ?_⟩
  · rw [e]; exact hf.1.add hg.1
  · rw [e, integral_add hf.1 hg.1, hf.2, hg.2]

theorem Spec.ExpOn.const_mul {f : E → ℝ} {a : ℝ} (c : ℝ) (hf : ExpOn μ S p f a) :
    ExpOn μ S p (fun x => c * f x) (c * a) := by
  have e : (fun x => p x * (c * f x)) = fun x => c * (p x * f x) := by funext x; ring
  refine ⟨?_, ?_⟩
  · rw [e]; exact hf.1.const_mul c
  · rw [e, integral_const_mul, hf.2]

theorem Spec.ExpOn.sum {ι : Type} (s : Finset ι) {f : ι → E → ℝ} {a : ι → ℝ} (hf : ∀ i ∈ s, ExpOn μ S p (f i) (a i)) :
    ExpOn μ S p (fun x => ∑ i ∈ s, f i x) (∑ i ∈ s, a i) := by
  classical
  induction s using Finset.induction_on with
  | empty => exact ⟨by simp [IntegrableOn], by simp⟩
  | insert i s hi ih =>
    simp only [Finset.sum_insert hi]
    exact (hf i (by simp)).add (ih fun j hj => hf j (by simp [hj]))

theorem Spec.ExpOn.congr {f g : E → ℝ} {a b : ℝ} (hf : ExpOn μ S p f a) (h : ∀ x, f x = g x) (hab : a = b) :
    ExpOn μ S p g b := by
  have : f = g := funext h
  rw [← this, ← hab]; exact hf

theorem Spec.IsDensityOn.expConst (h : IsDensityOn μ S p) (c : ℝ) : ExpOn μ S p (fun _ => c) c := by
  refine ⟨h.integrable.mul_const c, ?_⟩
  rw [integral_mul_const, h.one, one_mul]

/-- **Gibbs.** The KL divergence of two positive densities is nonnegative, and zero only if they agree almost
everywhere. -/
theorem Spec.KLOn.gibbs {q : E → ℝ} {k : ℝ} (hS : MeasurableSet S) (hp : IsDensityOn μ S p) (hq : IsDensityOn μ S q)
    (hp0 : ∀ x ∈ S, 0 < p x) (hq0 : ∀ x ∈ S, 0 < q x) (hk : KLOn μ S p q k) :
    0 ≤ k ∧ (k = 0 → ∀ᵐ x ∂(μ.restrict S), p x = q x) := by
  have hi : IntegrableOn (fun x => p x * (Real.log (p x) - Real.log (q x)) - p x + q x) S μ :=
    (hk.1.sub hp.integrable).add hq.integrable
  have hI : ∫ x in S, (p x * (Real.log (p x) - Real.log (q x)) - p x + q x) ∂μ = k := by
    have hk1 : IntegrableOn (fun x => p x * (Real.log (p x) - Real.log (q x))) S μ := hk.1
    have hk2 : ∫ x in S, p x * (Real.log (p x) - Real.log (q x)) ∂μ = k := hk.2
    have hs : IntegrableOn (fun x => p x * (Real.log (p x) - Real.log (q x)) - p x) S μ := hk1.sub hp.integrable
    rw [integral_add hs hq.integrable, integral_sub hk1 hp.integrable, hk2, hp.one, hq.one]
    ring
  have hnn : ∀ x ∈ S, 0 ≤ p x * (Real.log (p x) - Real.log (q x)) - p x + q x := by
    intro x hx
    have h := Real.log_le_sub_one_of_pos (div_pos (hq0 x hx) (hp0 x hx))
    rw [Real.log_div (hq0 x hx).ne' (hp0 x hx).ne'] at h
    have h2 := mul_le_mul_of_nonneg_left h (hp0 x hx).le
    have h3 : p x * (q x / p x - 1) = q x - p x := by
      have := (hp0 x hx).ne'
      field_simp
    rw [h3] at h2
    nlinarith
  have hae : ∀ᵐ x ∂(μ.restrict S), 0 ≤ p x * (Real.log (p x) - Real.log (q x)) - p x + q x :=
    (ae_restrict_iff' hS).2 (ae_of_all _ hnn)
  refine ⟨?_, fun h0 => ?_⟩
  · rw [← hI]; exact integral_nonneg_of_ae hae
  · rw [h0] at hI
    have := (integral_eq_zero_iff_of_nonneg_ae hae hi).1 hI
    have hm : ∀ᵐ x ∂(μ.restrict S), x ∈ S := ae_restrict_mem hS
    filter_upwards [this, hm] with x hx hxS
    simp only [Pi.zero_apply] at hx
    by_contra hne
    have hne' : q x / p x ≠ 1 := by
      rw [Ne, div_eq_one_iff_eq (hp0 x hxS).ne']; exact fun h => hne h.symm
    have h := Real.log_lt_sub_one_of_pos (div_pos (hq0 x hxS) (hp0 x hxS)) hne'
    rw [Real.log_div (hq0 x hxS).ne' (hp0 x hxS).ne'] at h
    have h2 := mul_lt_mul_of_pos_left h (hp0 x hxS)
    have h3 : p x * (q x / p x - 1) = q x - p x := by
      have := (hp0 x hxS).ne'
      field_simp
    rw [h3] at h2
    nlinarith

end ExpOn

/-! ### standard normal vectors -/

/-- The product of standard normal densities. -/
noncomputable def stdPhi {n : ℕ} (z : Fin n → ℝ) : ℝ := ∏ k, gaussianPDFReal 0 1 (z k)

theorem stdPhi_exp {n : ℕ} (h : Fin n → ℝ → ℝ) (e : Fin n → ℝ)
    (hh : ∀ k, Spec.HasExp (gaussianPDFReal 0 1) (h k) (e k)) :
    ExpOn volume Set.univ stdPhi (fun z : Fin n → ℝ => ∏ k, h k (z k)) (∏ k, e k) := by
  have e1 : (fun z : Fin n → ℝ => stdPhi z * ∏ k, h k (z k)) =
      fun z => ∏ k, (fun k (t : ℝ) => gaussianPDFReal 0 1 t * h k t) k (z k) := by
    funext z; simp [stdPhi, Finset.prod_mul_distrib]
  refine ⟨?_, ?_⟩
  · rw [e1, integrableOn_univ]
    exact Integrable.fintype_prod fun k => (hh k).1
  · rw [e1, setIntegral_univ]
    refine (integral_fintype_prod_volume_eq_prod (fun k (t : ℝ) => gaussianPDFReal 0 1 t * h k t)).trans ?_
    exact Finset.prod_congr rfl fun k _ => (hh k).2

theorem gauss_std_one : Spec.HasExp (gaussianPDFReal 0 1) (fun _ => 1) 1 := by
  have h := gauss_pdf 0 (v := 1) one_ne_zero
  exact ⟨by simpa using h.integrable, by simpa using h.one⟩

theorem gauss_std_id : Spec.HasExp (gaussianPDFReal 0 1) (fun x => x) 0 := gauss_mean 0 (v := 1) one_ne_zero

theorem gauss_std_sq : Spec.HasExp (gaussianPDFReal 0 1) (fun x => x * x) 1 := by
  have h := gauss_sq 0 (v := 1) one_ne_zero
  simpa [sq] using h

theorem stdPhi_pos {n : ℕ} (z : Fin n → ℝ) : 0 < stdPhi z :=
  Finset.prod_pos fun k _ => gaussianPDFReal_pos 0 1 (z k) one_ne_zero

theorem stdPhi_density (n : ℕ) : IsDensityOn volume Set.univ (stdPhi (n := n)) := by
  have h := stdPhi_exp (n := n) (fun _ _ => 1) (fun _ => 1) fun _ => gauss_std_one
  exact ⟨fun x _ => (stdPhi_pos x).le, by simpa using h.1, by simpa using h.2⟩

theorem stdPhi_coord {n : ℕ} (i : Fin n) : ExpOn volume Set.univ stdPhi (fun z : Fin n → ℝ => z i) 0 := by
  classical
  have h := stdPhi_exp (n := n) (fun k t => if k = i then t else 1) (fun k => if k = i then 0 else 1) fun k => by
    by_cases hk : k = i
    · simpa [hk] using gauss_std_id
    · simpa [hk] using gauss_std_one
  refine h.congr (fun z => ?_) ?_ <;> rw [Finset.prod_ite_eq' Finset.univ i] <;> simp

theorem stdPhi_coord2 {n : ℕ} (i j : Fin n) :
    ExpOn volume Set.univ stdPhi (fun z : Fin n → ℝ => z i * z j) (if i = j then 1 else 0) := by
  classical
  by_cases hij : i = j
  · subst hij
    have h := stdPhi_exp (n := n) (fun k t => if k = i then t * t else 1) (fun k => if k = i then 1 else 1) fun k => by
      by_cases hk : k = i
      · simpa [hk] using gauss_std_sq
      · simpa [hk] using gauss_std_one
    refine h.congr (fun z => ?_) ?_ <;> rw [Finset.prod_ite_eq' Finset.univ i] <;> simp
  · have h := stdPhi_exp (n := n) (fun k t => (if k = i then t else 1) * if k = j then t else 1)
      (fun k => (if k = i then 0 else 1) * if k = j then 0 else 1) fun k => by
        by_cases hk : k = i
        · have : k ≠ j := fun h => hij (hk.symm.trans h)
          simpa [hk, hij] using gauss_std_id
        · by_cases hk' : k = j
          · have : j ≠ i := fun h => hij h.symm
            simpa [hk', this] using gauss_std_id
          · simpa [hk, hk'] using gauss_std_one
    refine h.congr (fun z => ?_) ?_ <;> simp only [Finset.prod_mul_distrib] <;>
      rw [Finset.prod_ite_eq' Finset.univ i, Finset.prod_ite_eq' Finset.univ j] <;> simp [hij]

/-- `E[zᵀQz + l·z + c] = tr Q + c`. -/
theorem stdPhi_quad {n : ℕ} (Q : Matrix (Fin n) (Fin n) ℝ) (l : Fin n → ℝ) (c : ℝ) :
    ExpOn volume Set.univ stdPhi (fun z : Fin n → ℝ => z ⬝ᵥ (Q *ᵥ z) + l ⬝ᵥ z + c) (Q.trace + c) := by
  have h1 : ExpOn volume Set.univ stdPhi (fun z : Fin n → ℝ => ∑ i, ∑ j, Q i j * (z i * z j))
      (∑ i, ∑ j, Q i j * if i = j then 1 else 0) :=
    Spec.ExpOn.sum _ fun i _ => Spec.ExpOn.sum _ fun j _ => (stdPhi_coord2 i j).const_mul _
  have h2 : ExpOn volume Set.univ stdPhi (fun z : Fin n → ℝ => ∑ i, l i * z i) (∑ i, l i * 0) :=
    Spec.ExpOn.sum _ fun i _ => (stdPhi_coord i).const_mul _
  refine ((h1.add h2).add ((stdPhi_density n).expConst c)).congr (fun z => ?_) ?_
  · simp only [dotProduct, mulVec, Finset.mul_sum]
    congr 2
    refine Finset.sum_congr rfl fun i _ => Finset.sum_congr rfl fun j _ => by ring
  · simp [Matrix.trace]

/-! ### affine images -/

variable {n : ℕ}

theorem affine_diffeo (A : Matrix (Fin n) (Fin n) ℝ) (b : Fin n → ℝ) (hA : A.det ≠ 0) :
    Diffeo Set.univ Set.univ (fun z => A *ᵥ z + b) (fun x => A⁻¹ *ᵥ (x - b)) (fun _ => Real.log |A.det|) := by
  have hu : IsUnit A.det := isUnit_iff_ne_zero.2 hA
  refine ⟨MeasurableSet.univ, fun _ _ => trivial, fun _ _ => trivial, fun x _ => ?_, fun y _ => ?_, fun x _ => ?_⟩
  · simp [Matrix.mulVec_mulVec, Matrix.nonsing_inv_mul _ hu]
  · simp [Matrix.mulVec_mulVec, Matrix.mul_nonsing_inv _ hu]
  · refine ⟨LinearMap.toContinuousLinearMap (Matrix.toLin' A), ?_, ?_, ?_⟩
    · exact ((LinearMap.toContinuousLinearMap (Matrix.toLin' A)).hasFDerivAt.add_const b).hasFDerivWithinAt
    · simpa [ContinuousLinearMap.det] using hA
    · simp [ContinuousLinearMap.det]

theorem quad_eq (A : Matrix (Fin n) (Fin n) ℝ) (v : Fin n → ℝ) :
    v ⬝ᵥ ((A * Aᵀ)⁻¹ *ᵥ v) = (A⁻¹ *ᵥ v) ⬝ᵥ (A⁻¹ *ᵥ v) := by
  rw [Matrix.mul_inv_rev, ← Matrix.mulVec_mulVec, ← Matrix.transpose_nonsing_inv, Matrix.dotProduct_mulVec,
    Matrix.vecMul_transpose]

theorem log_det_gram (A : Matrix (Fin n) (Fin n) ℝ) (hA : A.det ≠ 0) : Real.log (A * Aᵀ).det = 2 * Real.log |A.det| := by
  rw [Matrix.det_mul, Matrix.det_transpose, ← abs_mul_abs_self, Real.log_mul (abs_ne_zero.2 hA) (abs_ne_zero.2 hA)]
  ring

theorem log_stdPhi (z : Fin n → ℝ) : Real.log (stdPhi z) = -(1 / 2) * (n * Real.log (2 * Real.pi) + z ⬝ᵥ z) := by
  have hpi : (0 : ℝ) < 2 * Real.pi := by positivity
  rw [stdPhi, Real.log_prod fun k _ => (gaussianPDFReal_pos 0 1 (z k) one_ne_zero).ne']
  have : ∀ k, Real.log (gaussianPDFReal 0 1 (z k)) = -(1 / 2) * (Real.log (2 * Real.pi) + z k * z k) := by
    intro k
    rw [gaussianPDFReal, Real.log_mul (by positivity) (Real.exp_ne_zero _), Real.log_exp, Real.log_inv, Real.log_sqrt (by positivity)]
    simp; ring
  simp only [this, ← Finset.mul_sum, Finset.sum_add_distrib, dotProduct]
  simp

theorem gaussLogPdf_affine (A : Matrix (Fin n) (Fin n) ℝ) (b x : Fin n → ℝ) (hA : A.det ≠ 0) :
    gaussLogPdf b (A * Aᵀ) x = Real.log (stdPhi (A⁻¹ *ᵥ (x - b))) - Real.log |A.det| := by
  rw [gaussLogPdf, quad_eq, log_det_gram A hA, log_stdPhi]; ring

theorem gaussPdf_affine (A : Matrix (Fin n) (Fin n) ℝ) (b x : Fin n → ℝ) (hA : A.det ≠ 0) :
    gaussPdf b (A * Aᵀ) x = stdPhi (A⁻¹ *ᵥ (x - b)) * Real.exp (-Real.log |A.det|) := by
  rw [gaussPdf, gaussLogPdf_affine A b x hA, sub_eq_add_neg, Real.exp_add, Real.exp_log (stdPhi_pos _)]

/-- Expectations under the Gaussian are expectations of `w(A z + b)`. -/
theorem gauss_exp (A : Matrix (Fin n) (Fin n) ℝ) (b : Fin n → ℝ) (hA : A.det ≠ 0) {w : (Fin n → ℝ) → ℝ} {e : ℝ}
    (h : ExpOn volume Set.univ stdPhi (fun z => w (A *ᵥ z + b)) e) :
    ExpOn volume Set.univ (gaussPdf b (A * Aᵀ)) w e := by
  have hd := affine_diffeo A b hA
  refine hd.expOn h (fun y _ => gaussPdf_affine A b y hA) fun y hy => ?_
  exact congrArg w (hd.right y hy).symm

theorem gauss_density (A : Matrix (Fin n) (Fin n) ℝ) (b : Fin n → ℝ) (hA : A.det ≠ 0) :
    IsDensityOn volume Set.univ (gaussPdf b (A * Aᵀ)) := by
  have h := gauss_exp A b hA (w := fun _ => 1) ((stdPhi_density n).expConst 1)
  exact ⟨fun x _ => (Real.exp_pos _).le, by simpa using h.1, by simpa using h.2⟩

theorem gauss_law (A : Matrix (Fin n) (Fin n) ℝ) (b : Fin n → ℝ) (hA : A.det ≠ 0) :
    LawHasDensity volume Set.univ stdPhi (fun z => A *ᵥ z + b) Set.univ (gaussPdf b (A * Aᵀ)) := by
  intro B hB
  have := ((affine_diffeo A b hA).cov (μ := volume) hB stdPhi).1
  rw [← this]
  refine setIntegral_congr_fun (MeasurableSet.univ.inter hB) fun y _ => ?_
  exact (gaussPdf_affine A b y hA).symm

theorem gauss_coord (A : Matrix (Fin n) (Fin n) ℝ) (b : Fin n → ℝ) (hA : A.det ≠ 0) (i : Fin n) :
    ExpOn volume Set.univ (gaussPdf b (A * Aᵀ)) (fun x => x i) (b i) := by
  refine gauss_exp A b hA ?_
  refine (stdPhi_quad 0 (A i) (b i)).congr (fun z => ?_) (by simp)
  simp [mulVec]

theorem gauss_meanOn (A : Matrix (Fin n) (Fin n) ℝ) (b : Fin n → ℝ) (hA : A.det ≠ 0) :
    MeanOn volume Set.univ (gaussPdf b (A * Aᵀ)) b := by
  intro φ
  have hφ : ∀ x : Fin n → ℝ, φ x = ∑ i, φ (Pi.single i 1) * x i := by
    intro x
    conv_lhs => rw [← Finset.univ_sum_single x, map_sum]
    refine Finset.sum_congr rfl fun i _ => ?_
    have : (Pi.single i (x i) : Fin n → ℝ) = x i • Pi.single i 1 := by
      rw [← Pi.single_smul]; simp
    rw [this, map_smul, smul_eq_mul, mul_comm]
  refine (Spec.ExpOn.sum Finset.univ fun i _ => (gauss_coord A b hA i).const_mul (φ (Pi.single i 1))).congr (fun x => ?_) ?_
  · exact (hφ x).symm
  · exact (hφ b).symm

theorem gauss_cov (A : Matrix (Fin n) (Fin n) ℝ) (b : Fin n → ℝ) (hA : A.det ≠ 0) :
    HasCovariance (gaussPdf b (A * Aᵀ)) b (A * Aᵀ) := by
  intro i j
  refine gauss_exp A b hA ?_
  refine (stdPhi_quad (Matrix.of fun k l => A i k * A j l) 0 0).congr (fun z => ?_) ?_
  · simp only [Pi.add_apply, add_sub_cancel_right, mulVec, dotProduct, Matrix.of_apply, Pi.zero_apply, zero_mul,
      Finset.sum_const_zero, add_zero, Finset.mul_sum, Finset.sum_mul]
    rw [Finset.sum_comm]
    refine Finset.sum_congr rfl fun k _ => Finset.sum_congr rfl fun l _ => by ring
  · simp [Matrix.trace, Matrix.mul_apply]

theorem gauss_mode (A : Matrix (Fin n) (Fin n) ℝ) (b : Fin n → ℝ) :
    IsModeOn Set.univ (gaussPdf b (A * Aᵀ)) b := by
  refine ⟨trivial, fun x _ => Real.exp_le_exp.2 ?_⟩
  have : 0 ≤ (A⁻¹ *ᵥ (x - b)) ⬝ᵥ (A⁻¹ *ᵥ (x - b)) := Finset.sum_nonneg fun i _ => mul_self_nonneg _
  rw [gaussLogPdf, gaussLogPdf, quad_eq, quad_eq]
  simp only [sub_self, mulVec_zero, dotProduct_zero]
  linarith

theorem gauss_entropy (A : Matrix (Fin n) (Fin n) ℝ) (b : Fin n → ℝ) (hA : A.det ≠ 0) :
    EntropyOn volume Set.univ (gaussPdf b (A * Aᵀ))
      (n * (1 / 2 + 1 / 2 * Real.log (2 * Real.pi)) + Real.log |A.det|) := by
  have hu : IsUnit A.det := isUnit_iff_ne_zero.2 hA
  refine gauss_exp A b hA ?_
  refine (stdPhi_quad ((1 / 2 : ℝ) • (1 : Matrix (Fin n) (Fin n) ℝ)) 0
    (1 / 2 * (n * Real.log (2 * Real.pi)) + Real.log |A.det|)).congr (fun z => ?_) ?_
  · rw [gaussPdf, Real.log_exp, gaussLogPdf, quad_eq, log_det_gram A hA]
    simp [Matrix.mulVec_mulVec, Matrix.nonsing_inv_mul _ hu, Matrix.smul_mulVec]
    ring
  · simp [Matrix.trace_smul]; ring

/-- The textbook KL formula in terms of the scale matrices. -/
theorem gaussKL_scale (A B : Matrix (Fin n) (Fin n) ℝ) (a b : Fin n → ℝ) (hA : A.det ≠ 0) (hB : B.det ≠ 0) :
    gaussKL a (A * Aᵀ) b (B * Bᵀ) = Real.log |B.det| - Real.log |A.det| +
      1 / 2 * (-n + (∑ i, ∑ j, (B⁻¹ * A) i j ^ 2) + ∑ i, (B⁻¹ *ᵥ (b - a)) i ^ 2) := by
  have h1 : ((B * Bᵀ)⁻¹ * (A * Aᵀ)).trace = ∑ i, ∑ j, (B⁻¹ * A) i j ^ 2 := by
    rw [Matrix.mul_inv_rev, ← Matrix.transpose_nonsing_inv, Matrix.trace_mul_comm,
      show A * Aᵀ * ((B⁻¹)ᵀ * B⁻¹) = (A * (Aᵀ * (B⁻¹)ᵀ)) * B⁻¹ by simp only [Matrix.mul_assoc], Matrix.trace_mul_comm,
      ← Matrix.mul_assoc, ← Matrix.transpose_mul]
    generalize B⁻¹ * A = N
    simp only [Matrix.trace, Matrix.diag, Matrix.mul_apply, Matrix.transpose_apply, sq]
  rw [gaussKL, h1, quad_eq, log_det_gram A hA, log_det_gram B hB]
  simp only [dotProduct, ← sq]
  ring

theorem gauss_kl (A B : Matrix (Fin n) (Fin n) ℝ) (a b : Fin n → ℝ) (hA : A.det ≠ 0) (hB : B.det ≠ 0) :
    KLOn volume Set.univ (gaussPdf a (A * Aᵀ)) (gaussPdf b (B * Bᵀ)) (gaussKL a (A * Aᵀ) b (B * Bᵀ)) := by
  have hu : IsUnit A.det := isUnit_iff_ne_zero.2 hA
  refine gauss_exp A a hA ?_
  set M := B⁻¹ * A
  set d := B⁻¹ *ᵥ (b - a)
  refine (stdPhi_quad ((1 / 2 : ℝ) • (Mᵀ * M) - (1 / 2 : ℝ) • (1 : Matrix (Fin n) (Fin n) ℝ)) (-(Mᵀ *ᵥ d))
    (Real.log |B.det| - Real.log |A.det| + 1 / 2 * (d ⬝ᵥ d))).congr (fun z => ?_) ?_
  · rw [gaussPdf, gaussPdf, Real.log_exp, Real.log_exp, gaussLogPdf, gaussLogPdf, quad_eq, quad_eq, log_det_gram A hA,
      log_det_gram B hB]
    have e1 : A⁻¹ *ᵥ (A *ᵥ z + a - a) = z := by simp [Matrix.mulVec_mulVec, Matrix.nonsing_inv_mul _ hu]
    have e2 : B⁻¹ *ᵥ (A *ᵥ z + a - b) = M *ᵥ z - d := by
      rw [show A *ᵥ z + a - b = A *ᵥ z - (b - a) by abel, Matrix.mulVec_sub, Matrix.mulVec_mulVec]
    have e3 : z ⬝ᵥ ((Mᵀ * M) *ᵥ z) = (M *ᵥ z) ⬝ᵥ (M *ᵥ z) := by
      rw [← Matrix.mulVec_mulVec, Matrix.dotProduct_mulVec, Matrix.vecMul_transpose]
    have e4 : (Mᵀ *ᵥ d) ⬝ᵥ z = d ⬝ᵥ (M *ᵥ z) := by
      rw [Matrix.mulVec_transpose, ← Matrix.dotProduct_mulVec]
    rw [e1, e2, Matrix.sub_mulVec, Matrix.smul_mulVec, Matrix.smul_mulVec, Matrix.one_mulVec, dotProduct_sub,
      dotProduct_smul, dotProduct_smul, e3, neg_dotProduct, e4, sub_dotProduct, dotProduct_sub, dotProduct_sub,
      dotProduct_comm (M *ᵥ z) d]
    simp only [smul_eq_mul]
    ring
  · rw [gaussKL_scale A B a b hA hB]
    have : (Mᵀ * M).trace = ∑ i, ∑ j, M i j ^ 2 := by
      simp only [Matrix.trace, Matrix.diag, Matrix.mul_apply, Matrix.transpose_apply, ← sq]
      rw [Finset.sum_comm]
    rw [Matrix.trace_sub, Matrix.trace_smul, Matrix.trace_smul, this, Matrix.trace_one]
    simp only [smul_eq_mul, Fintype.card_fin, dotProduct, ← sq]
    ring

theorem gaussPdf_pos (b : Fin n → ℝ) (C : Matrix (Fin n) (Fin n) ℝ) (x : Fin n → ℝ) : 0 < gaussPdf b C x := Real.exp_pos _

theorem gaussPdf_continuous (b : Fin n → ℝ) (C : Matrix (Fin n) (Fin n) ℝ) : Continuous (gaussPdf b C) := by
  unfold gaussPdf gaussLogPdf
  fun_prop

theorem gaussKL_nonneg (A B : Matrix (Fin n) (Fin n) ℝ) (a b : Fin n → ℝ) (hA : A.det ≠ 0) (hB : B.det ≠ 0) :
    0 ≤ gaussKL a (A * Aᵀ) b (B * Bᵀ) ∧
      (gaussKL a (A * Aᵀ) b (B * Bᵀ) = 0 ↔ a = b ∧ A * Aᵀ = B * Bᵀ) := by
  have hg := (gauss_kl A B a b hA hB).gibbs MeasurableSet.univ (gauss_density A a hA) (gauss_density B b hB)
    (fun x _ => gaussPdf_pos _ _ x) (fun x _ => gaussPdf_pos _ _ x)
  refine ⟨hg.1, fun h0 => ?_, ?_⟩
  · have hae := hg.2 h0
    rw [Measure.restrict_univ] at hae
    have he : gaussPdf a (A * Aᵀ) = gaussPdf b (B * Bᵀ) :=
      (Continuous.ae_eq_iff_eq volume (gaussPdf_continuous _ _) (gaussPdf_continuous _ _)).1 hae
    have hab : a = b := by
      funext i
      have h1 := gauss_coord A a hA i
      rw [he] at h1
      exact h1.2.symm.trans (gauss_coord B b hB i).2
    refine ⟨hab, ?_⟩
    ext i j
    have h1 := gauss_cov A a hA i j
    rw [he, hab] at h1
    exact h1.2.symm.trans (gauss_cov B b hB i j).2
  · rintro ⟨rfl, hC⟩
    have hC0 : (A * Aᵀ).det ≠ 0 := by rw [Matrix.det_mul, Matrix.det_transpose]; exact mul_ne_zero hA hA
    rw [gaussKL, ← hC, Matrix.nonsing_inv_mul _ (isUnit_iff_ne_zero.2 hC0)]
    simp

end Distrax
