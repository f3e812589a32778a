import Verif.Lemmas.MVNGrad3
import Verif.Props.MVN2

/-! Lemmas for C74: the Gaussian log-density along a curve of scale matrices, and functions of vector-valued samples. -/

namespace Distrax

open Matrix MeasureTheory Filter Topology Spec ProbabilityTheory

variable {n : ℕ} {t : ℝ}

theorem gaussLogPdf_measurable (b : Fin n → ℝ) (C : Matrix (Fin n) (Fin n) ℝ) : Measurable (gaussLogPdf b C) := by
  have : Continuous (gaussLogPdf b C) := by
    unfold gaussLogPdf
    simp only [dotProduct, mulVec, Pi.sub_apply]
    fun_prop
  exact this.measurable

section
variable {A : ℝ → Matrix (Fin n) (Fin n) ℝ} {Ad : Fin n → Fin n → Dual} {b : Fin n → ℝ → ℝ} {bd : Fin n → Dual}
  {C : ℝ → Matrix (Fin n) (Fin n) ℝ}
  (hA : ∀ i j, CA (fun s => A s i j) (Ad i j) t) (h0 : (A t).det ≠ 0) (hb : ∀ i, CA (b i) (bd i) t)
  (hC : ∀ᶠ s in 𝓝 t, C s = A s * (A s)ᵀ)
include hA h0 hb hC

theorem gauss_tame {X : Type} [MeasurableSpace X] {μ : Measure X} {w : X → ℝ} (hw : ∀ x, 1 ≤ w x) {F : Fin n → ℝ → X → ℝ}
    {D : Fin n → X → Dual} (hF : ∀ i, Tame μ w (F i) (D i) t) :
    Tame μ w (fun s x => gaussLogPdf (fun i => b i s) (C s) fun i => F i s x)
      (fun x => (Dual.sum fun i => Dual.normalLogProb (Dual.const 0) (Dual.const 1) (Dual.solve Ad (fun i => D i x - bd i) i)) +
        (Dual.const 0 + -Dual.slogdet Ad)) t := by
  have hz := Tame.solve hw hA h0 fun i => (hF i).sub hw ((hb i).tame)
  have hn : ∀ i, Tame μ w _ (fun x => Dual.normalLogProb (Dual.const 0) (Dual.const 1)
      (Dual.solve Ad (fun i => D i x - bd i) i)) t := fun i =>
    (((Tame.const (-0.5) hw).mul hw ((hz i).mul hw (hz i))).sub hw (Tame.const halfLog2pi hw)).congr fun x => by
      ext
      · simp [Dual.normalLogProb, Dual.standardize, Dual.square, Dual.val_mul, Dual.val_sub, Dual.val_div, Dual.val_add,
          Dual.val_const, Dual.log, sq]
      · simp [Dual.normalLogProb, Dual.standardize, Dual.square, Dual.val_mul, Dual.val_sub, Dual.val_div, Dual.val_add,
          Dual.val_const, Dual.tan_mul, Dual.tan_sub, Dual.tan_div, Dual.tan_add, Dual.tan_const, Dual.log]
        left; ring
  have hl : Tame μ w _ (fun _ => Dual.const 0 + -Dual.slogdet Ad) t :=
    (((CA.const 0 t).add (CA.slogdet hA h0).neg)).tame
  refine ((Tame.sum hw hn).add hw hl).congr_near (fun s => ?_) ?_
  · exact (gaussLogPdf_measurable _ _).comp (measurable_pi_lambda _ fun i => (hF i).meas s)
  · filter_upwards [hC, det_near hA h0] with s hs hd x
    rw [hs, gaussLogPdf_affine _ _ _ hd, log_stdPhi]
    have e : ((fun i => F i s x) - fun i => b i s) = fun j => F j s x - b j s := rfl
    rw [e]
    generalize ((A s)⁻¹ *ᵥ fun j => F j s x - b j s) = z
    simp only [dotProduct, Finset.sum_sub_distrib, ← Finset.mul_sum, Finset.sum_const, Finset.card_univ, Fintype.card_fin,
      nsmul_eq_mul, halfLog2pi]
    ring

theorem gauss_dom : Dominated (volume : Measure (Fin n → ℝ)) vecGauge (fun s x => gaussLogPdf (fun i => b i s) (C s) x) t := by
  have hbound : ∀ {g : ℝ → ℝ} {d : Dual}, CA g d t → ∀ᶠ s in 𝓝 t, |g s| ≤ |g t| + 1 := fun h => by
    filter_upwards [h.deriv.continuousAt.abs.eventually_lt_const (show |_| < |_| + (1 : ℝ) from lt_add_one _)] with s hs
      using hs.le
  set a : ℝ := ∑ i, ∑ j, (|A t i j| + 1) with ha
  set β : ℝ := ∑ i, (|b i t| + 1) with hβ
  have ha0 : 0 ≤ a := by positivity
  have hβ0 : 0 ≤ β := by positivity
  set δ : ℝ := abs (Real.log (abs (A t).det)) + 1
  set c : ℝ := 1 / (a + 1) with hc
  have hc0 : 0 < c := by positivity
  set K : ℝ := n / 2 + δ + |1 / 2 * (n * Real.log (2 * Real.pi))| + c * β with hK
  refine ⟨fun x => Real.exp K * ∏ i, Real.exp (0 - c * |x i|), fun k => ?_, ?_⟩
  · have hI : Integrable fun x : Fin n → ℝ => ∏ i, (lineGauge (x i) ^ k * Real.exp (0 - c * |x i|)) :=
      Integrable.fintype_prod (f := fun _ x => lineGauge x ^ k * Real.exp (0 - c * |x|)) fun i => lineGauge_integrable hc0 0 k
    refine (hI.const_mul (Real.exp K)).mono' ?_ (ae_of_all _ fun x => ?_)
    · refine Measurable.aestronglyMeasurable ?_
      unfold vecGauge; fun_prop
    · have hg0 := vecGauge_one x
      have hp0 : 0 ≤ ∏ i, Real.exp (0 - c * |x i|) := Finset.prod_nonneg fun i _ => (Real.exp_pos _).le
      rw [Real.norm_eq_abs, abs_of_nonneg (by positivity), Finset.prod_mul_distrib, Finset.prod_pow]
      calc vecGauge x ^ k * (Real.exp K * ∏ i, Real.exp (0 - c * |x i|))
          = Real.exp K * (vecGauge x ^ k * ∏ i, Real.exp (0 - c * |x i|)) := by ring
        _ ≤ _ := mul_le_mul_of_nonneg_left (mul_le_mul_of_nonneg_right
            (pow_le_pow_left₀ (by linarith) (vecGauge_prod x) k) hp0) (Real.exp_pos _).le
  · filter_upwards [hC, det_near hA h0, hbound (CA.slogdet hA h0), eventually_all.2 fun i => eventually_all.2 fun j => hbound (hA i j),
      eventually_all.2 fun i => hbound (hb i)] with s hs hd hld hAb hbb x
    rw [← Real.exp_sum, ← Real.exp_add]
    refine Real.exp_le_exp.2 ?_
    rw [hs, gaussLogPdf_affine _ _ _ hd, log_stdPhi]
    set z := (A s)⁻¹ *ᵥ (x - fun i => b i s) with hz
    have hx : ∀ i, x i = (∑ j, A s i j * z j) + b i s := fun i => by
      have : A s *ᵥ z = x - fun i => b i s := by
        rw [hz, Matrix.mulVec_mulVec, Matrix.mul_nonsing_inv _ (isUnit_iff_ne_zero.2 hd), Matrix.one_mulVec]
      have := congrFun this i
      simp only [mulVec, dotProduct, Pi.sub_apply] at this
      linarith
    set Z := ∑ j, |z j|
    have hZ0 : 0 ≤ Z := Finset.sum_nonneg fun _ _ => abs_nonneg _
    have hxz : ∑ i, |x i| ≤ a * Z + β := by
      have h1 : ∀ i, |x i| ≤ (∑ j, (|A t i j| + 1)) * Z + (|b i t| + 1) := fun i => by
        rw [hx i]
        refine (abs_add_le _ _).trans (add_le_add ?_ (hbb i))
        refine (Finset.abs_sum_le_sum_abs _ _).trans ?_
        rw [Finset.sum_mul]
        refine Finset.sum_le_sum fun j _ => ?_
        rw [abs_mul]
        exact mul_le_mul (hAb i j) (Finset.single_le_sum (f := fun j => |z j|) (fun _ _ => abs_nonneg _) (Finset.mem_univ j))
          (abs_nonneg _) (by positivity)
      calc ∑ i, |x i| ≤ ∑ i, ((∑ j, (|A t i j| + 1)) * Z + (|b i t| + 1)) := Finset.sum_le_sum fun i _ => h1 i
        _ = a * Z + β := by rw [Finset.sum_add_distrib, ← Finset.sum_mul]
    have hzz : 2 * Z - n ≤ z ⬝ᵥ z := by
      have h1 : ∀ j, 2 * |z j| - 1 ≤ z j * z j := fun j => by
        rw [← abs_mul_abs_self (z j)]; nlinarith [sq_nonneg (|z j| - 1)]
      calc 2 * Z - n = ∑ j, (2 * |z j| - 1) := by
            rw [Finset.sum_sub_distrib, ← Finset.mul_sum]; simp [Z]
        _ ≤ _ := Finset.sum_le_sum fun j _ => h1 j
    have hcz : c * ∑ i, |x i| ≤ Z + c * β := by
      have h1 : c * (a + 1) = 1 := by rw [hc]; field_simp
      calc c * ∑ i, |x i| ≤ c * (a * Z + β) := mul_le_mul_of_nonneg_left hxz hc0.le
        _ ≤ c * ((a + 1) * Z + β) := mul_le_mul_of_nonneg_left (by nlinarith) hc0.le
        _ = (c * (a + 1)) * Z + c * β := by ring
        _ = _ := by rw [h1, one_mul]
    have e1 : ∑ i, (0 - c * |x i|) = -(c * ∑ i, |x i|) := by
      simp only [zero_sub, Finset.sum_neg_distrib, Finset.mul_sum]
    rw [e1]
    have h2 := neg_abs_le (1 / 2 * (n * Real.log (2 * Real.pi)))
    have h3 := neg_abs_le (Real.log (abs (A s).det))
    have h4 : abs (Real.log (abs (A s).det)) ≤ δ := hld
    generalize z ⬝ᵥ z = q at *
    generalize Real.log |(A s).det| = ld at *
    linarith

end

/-! ### Functions of a vector -/

theorem testFnV_lip {f : (Fin n → ℝ) → ℝ} (hf : Differentiable ℝ f) {K : ℝ} {k : ℕ}
    (hK : ∀ x, ‖fderiv ℝ f x‖ ≤ K * (1 + ∑ i, |x i|) ^ k) {R : ℝ} {x y : Fin n → ℝ} (hx : vecGauge x ≤ R) (hy : vecGauge y ≤ R) :
    |f x - f y| ≤ K * R ^ k * ∑ i, |x i - y i| := by
  have hK0 : 0 ≤ K := by
    have := (norm_nonneg _).trans (hK 0); simpa using this
  have hconv : Convex ℝ {x : Fin n → ℝ | vecGauge x ≤ R} := by
    intro u hu v hv p q hp hq hpq
    show vecGauge (p • u + q • v) ≤ R
    have hu' : 1 + ∑ i, |u i| ≤ R := hu
    have hv' : 1 + ∑ i, |v i| ≤ R := hv
    have h1 : ∑ i, |(p • u + q • v) i| ≤ p * ∑ i, |u i| + q * ∑ i, |v i| := by
      rw [Finset.mul_sum, Finset.mul_sum, ← Finset.sum_add_distrib]
      refine Finset.sum_le_sum fun i _ => ?_
      simp only [Pi.add_apply, Pi.smul_apply, smul_eq_mul]
      refine (abs_add_le _ _).trans (le_of_eq ?_)
      rw [abs_mul, abs_mul, abs_of_nonneg hp, abs_of_nonneg hq]
    unfold vecGauge
    generalize (∑ i, |u i|) = U at *
    generalize (∑ i, |v i|) = V at *
    have : 1 + (p * U + q * V) = p * (1 + U) + q * (1 + V) := by linear_combination -hpq
    have h3 : p * (1 + U) + q * (1 + V) ≤ p * R + q * R := add_le_add (mul_le_mul_of_nonneg_left hu' hp) (mul_le_mul_of_nonneg_left hv' hq)
    have h4 : p * R + q * R = R := by rw [← add_mul, hpq, one_mul]
    linarith
  have h := Convex.norm_image_sub_le_of_norm_fderiv_le (𝕜 := ℝ) (f := f) (s := {x : Fin n → ℝ | vecGauge x ≤ R}) (C := K * R ^ k)
    (x := y) (y := x) (fun z _ => hf z) (fun z hz => (hK z).trans ?_) hconv hy hx
  · rw [Real.norm_eq_abs] at h
    refine h.trans (mul_le_mul_of_nonneg_left ?_ ?_)
    · refine (pi_norm_le_iff_of_nonneg (Finset.sum_nonneg fun _ _ => abs_nonneg _)).2 fun i => ?_
      exact Finset.single_le_sum (f := fun i => |x i - y i|) (fun _ _ => abs_nonneg _) (Finset.mem_univ i)
    · have : 1 ≤ R := (vecGauge_one x).trans hx
      positivity
  · have hz' : vecGauge z ≤ R := hz
    exact mul_le_mul_of_nonneg_left (pow_le_pow_left₀ (by linarith [vecGauge_one z, show vecGauge z = 1 + ∑ i, |z i| from rfl]) hz' k) hK0

theorem Tame.compV {U : Type} [MeasurableSpace U] {ν : Measure U} {w : U → ℝ} (hw : ∀ x, 1 ≤ w x) {X : Fin n → ℝ → U → ℝ}
    {D : Fin n → U → Dual} (hX : ∀ i, Tame ν w (X i) (D i) t) {f : (Fin n → ℝ) → ℝ} (hf : TestFnV f) :
    Tame ν w (fun s u => f fun i => X i s u)
      (fun u => ⟨f fun i => (D i u).val, fderiv ℝ f (fun i => (D i u).val) fun i => (D i u).tan⟩) t := by
  obtain ⟨hfd, K, k, hK⟩ := hf
  have hK0 : 0 ≤ K := by
    have := (norm_nonneg _).trans (hK 0); simpa using this
  have hval : ∀ u, (fun i => (D i u).val) = fun i => X i t u := fun u => funext fun i => (hX i).val u
  refine ⟨fun u => by rw [hval], fun s => hfd.continuous.measurable.comp (measurable_pi_lambda _ fun i => (hX i).meas s), ?_, ?_⟩
  · choose L hL l ε hε hb using fun i => (hX i).grow
    obtain ⟨η, hη, hηε⟩ : ∃ η > 0, ∀ i, η ≤ ε i := by
      rcases isEmpty_or_nonempty (Fin n) with h | h
      · exact ⟨1, one_pos, fun i => (h.false i).elim⟩
      · exact ⟨Finset.univ.inf' Finset.univ_nonempty ε, (Finset.lt_inf'_iff _).2 fun i _ => hε i,
          fun i => Finset.inf'_le _ (Finset.mem_univ i)⟩
    set l0 := ∑ i, l i
    set L0 := 1 + ∑ i, L i
    have hL0 : 0 ≤ ∑ i, L i := Finset.sum_nonneg fun i _ => hL i
    have hL1 : 1 ≤ L0 := by simp only [L0]; linarith
    have hll : ∀ i, l i ≤ l0 := fun i => Finset.single_le_sum (f := l) (fun _ _ => Nat.zero_le _) (Finset.mem_univ i)
    have hpow : ∀ u i, L i * w u ^ l i ≤ L i * w u ^ l0 := fun u i =>
      mul_le_mul_of_nonneg_left (pow_le_pow_right₀ (hw u) (hll i)) (hL i)
    have hgauge : ∀ u, ∀ s ∈ Metric.ball t η, vecGauge (fun i => X i s u) ≤ L0 * w u ^ l0 := fun u s hs => by
      have h1 : ∑ i, |X i s u| ≤ (∑ i, L i) * w u ^ l0 := by
        rw [Finset.sum_mul]
        exact Finset.sum_le_sum fun i _ => ((hb i u s (Metric.ball_subset_ball (hηε i) hs)).1).trans (hpow u i)
      have h2 : 1 ≤ w u ^ l0 := one_le_pow₀ (hw u)
      unfold vecGauge; simp only [L0]; linarith
    have hdiff : ∀ u, ∀ s ∈ Metric.ball t η, ∀ r ∈ Metric.ball t η, ∑ i, |X i s u - X i r u| ≤ (∑ i, L i) * w u ^ l0 * |s - r| :=
      fun u s hs r hr => by
        rw [Finset.sum_mul, Finset.sum_mul]
        refine Finset.sum_le_sum fun i _ => ((hb i u s (Metric.ball_subset_ball (hηε i) hs)).2 r
          (Metric.ball_subset_ball (hηε i) hr)).trans ?_
        exact mul_le_mul_of_nonneg_right (hpow u i) (abs_nonneg _)
    refine ⟨|f 0| + K * L0 ^ k * L0, by positivity, l0 * k + l0, η, hη, fun u s hs => ⟨?_, fun r hr => ?_⟩⟩
    · have h1 := testFnV_lip hfd hK (hgauge u s hs) (y := 0) (R := L0 * w u ^ l0) (by
        have h2 : 1 ≤ w u ^ l0 := one_le_pow₀ (hw u)
        have : vecGauge (0 : Fin n → ℝ) = 1 := by simp [vecGauge]
        rw [this]; nlinarith)
      have h2 : ∑ i, |X i s u - (0 : Fin n → ℝ) i| ≤ L0 * w u ^ l0 := by
        have := hgauge u s hs
        unfold vecGauge at this
        simp only [Pi.zero_apply, sub_zero]; linarith
      have h3 : 1 ≤ w u ^ (l0 * k + l0) := one_le_pow₀ (hw u)
      have hw0 : 0 ≤ w u := by linarith [hw u]
      have h4 : |f fun i => X i s u| ≤ |f 0| + K * (L0 * w u ^ l0) ^ k * (L0 * w u ^ l0) := by
        have := abs_sub_abs_le_abs_sub (f fun i => X i s u) (f 0)
        have h5 := mul_le_mul_of_nonneg_left h2 (show 0 ≤ K * (L0 * w u ^ l0) ^ k by positivity)
        linarith
      refine h4.trans ?_
      have e : K * (L0 * w u ^ l0) ^ k * (L0 * w u ^ l0) = K * L0 ^ k * L0 * w u ^ (l0 * k + l0) := by
        rw [mul_pow, ← pow_mul, pow_add]; ring
      rw [e, add_mul]
      have := mul_le_mul_of_nonneg_left h3 (abs_nonneg (f 0))
      linarith
    · have h1 := testFnV_lip hfd hK (hgauge u s hs) (hgauge u r hr)
      have hw0 : 0 ≤ w u := by linarith [hw u]
      refine h1.trans ((mul_le_mul_of_nonneg_left (hdiff u s hs r hr) (show 0 ≤ K * (L0 * w u ^ l0) ^ k by positivity)).trans ?_)
      have e : K * (L0 * w u ^ l0) ^ k * ((∑ i, L i) * w u ^ l0 * |s - r|) =
          K * L0 ^ k * (∑ i, L i) * (w u ^ (l0 * k + l0) * |s - r|) := by
        rw [mul_pow, ← pow_mul, pow_add]; ring
      rw [e, mul_assoc (|f 0| + _)]
      refine mul_le_mul_of_nonneg_right ?_ (by positivity)
      have : K * L0 ^ k * (∑ i, L i) ≤ K * L0 ^ k * L0 :=
        mul_le_mul_of_nonneg_left (by simp only [L0]; linarith) (by positivity)
      linarith [abs_nonneg (f 0)]
  · filter_upwards [eventually_all.2 fun i => (hX i).deriv] with u hu
    have h1 : HasDerivAt (fun s => fun i => X i s u) (fun i => (D i u).tan) t := hasDerivAt_pi.2 hu
    rw [hval]
    exact (hfd _).hasFDerivAt.comp_hasDerivAt t h1

/-- Differentiation of an expectation over noise all of whose gauge moments exist. -/
theorem noise_deriv {U : Type} [MeasurableSpace U] {ν : Measure U} {w : U → ℝ} (hw : ∀ x, 1 ≤ w x)
    (hwi : ∀ k : ℕ, Integrable (fun u => w u ^ k) ν) {h : ℝ → U → ℝ} {H : U → Dual} (hh : Tame ν w h H t) :
    (∀ᶠ s in 𝓝 t, Integrable (h s) ν) ∧ Integrable (fun u => (H u).tan) ν ∧
      HasDerivAt (fun s => ∫ u, h s u ∂ν) (∫ u, (H u).tan ∂ν) t := by
  have hd : Dominated ν w (fun _ _ => 0) t := ⟨fun _ => 1, fun k => by simpa using hwi k, Eventually.of_forall fun s x => by simp⟩
  obtain ⟨h1, h2, h3⟩ := expect_deriv hw (Tame.const 0 hw) hd hh
  simpa [Dual.tan_const] using And.intro h1 (And.intro h2 h3)

end Distrax
