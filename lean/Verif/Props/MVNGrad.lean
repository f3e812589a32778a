import Verif.Lemmas.MVNGrad4

/-! C74. Gradients of the multivariate normal distributions. -/

namespace Distrax

open Matrix MeasureTheory Filter Topology Spec ProbabilityTheory

variable {n : ℕ} {t : ℝ} {chol : Matrix (Fin n) (Fin n) ℝ → Matrix (Fin n) (Fin n) ℝ}

/-- Standard normal noise, one number for every coordinate. -/
noncomputable def stdNoise (n : ℕ) : Measure (Fin n → ℝ) := Measure.pi fun _ => lawOf (gaussianPDFReal 0 1)

instance : IsProbabilityMeasure (stdNoise n) := by
  have := lawOf_prob (gauss_pdf 0 (v := 1) one_ne_zero)
  unfold stdNoise; infer_instance

/-- Each class is an affine map with a scale matrix whose Gram matrix is the documented covariance. -/
theorem mvn_facts (hc : IsCholesky chol) (d : MVNDist n) (h : MVNValid t d) :
    ∃ A Ad, ScaleFacts (d.scale chol t) A Ad t ∧ (∀ᶠ s in 𝓝 t, mvnCov s d = A s * (A s)ᵀ) ∧
      ∀ i, CA (d.loc i).val ((d.loc i).at t) t := by
  cases d with
  | diag l d =>
    obtain ⟨h1, h2, h3⟩ := h
    refine ⟨_, _, diag_facts' (fun i => CA.param (h2 i) t) h3, Eventually.of_forall fun s => ?_, fun i => CA.param (h1 i) t⟩
    rw [Matrix.diagonal_transpose, Matrix.diagonal_mul_diagonal]
    simp only [mvnCov, sq]
  | tri lower l a =>
    obtain ⟨h1, h2, h3⟩ := h
    exact ⟨_, _, tri_facts lower (a := fun s => Matrix.of fun i j => (a i j).val s) (fun i j => CA.param (h2 i j) t) h3,
      Eventually.of_forall fun s => rfl, fun i => CA.param (h1 i) t⟩
  | fullCovariance l c =>
    obtain ⟨h1, h2, h3, h4⟩ := h
    have hp := posDef_near (C := fun s => Matrix.of fun i j => (c i j).val s) (t := t)
      (fun i j => ((h2 i j).deriv t).continuousAt) (fun s i j => h3 i j s) h4
    have hca := CA.cholesky hc (C := fun s => Matrix.of fun i j => (c i j).val s) (fun i j => CA.param (h2 i j) t)
      (fun s i j => h3 i j s) hp
    refine ⟨_, _, tri_facts true hca (fun i => ((hc _ h4).2.1 i).ne'), ?_, fun i => CA.param (h1 i) t⟩
    filter_upwards [hp] with s hs
    obtain ⟨g1, _, g3⟩ := hc _ hs
    have : triangleOf true (chol (Matrix.of fun i j => (c i j).val s)) = chol (Matrix.of fun i j => (c i j).val s) := by
      ext i j
      simp only [triangleOf, Matrix.of_apply, if_true]
      split_ifs with hij
      · rfl
      · exact (g1 i j (not_le.1 hij)).symm
    rw [this, g3]; rfl
  | diagPlusLowRank k l d u v =>
    obtain ⟨h1, h2, h3, h4, h5, h6⟩ := h
    exact ⟨_, _, lowRank_facts' (U := fun s => Matrix.of fun i j => (u i j).val s) (V := fun s => Matrix.of fun i j => (v i j).val s)
      (fun i => CA.param (h2 i) t) h5 (fun i j => CA.param (h3 i j) t) (fun i j => CA.param (h4 i j) t) h6,
      Eventually.of_forall fun s => rfl, fun i => CA.param (h1 i) t⟩

section
variable (hc : IsCholesky chol) {d : MVNDist n} (h : MVNValid t d)
include hc h

/-- The log-density at a moving point, with its tangent. -/
theorem mvn_tame {X : Type} [MeasurableSpace X] {μ : Measure X} {w : X → ℝ} (hw : ∀ x, 1 ≤ w x) {F : Fin n → ℝ → X → ℝ}
    {D : Fin n → X → Dual} (hF : ∀ i, Tame μ w (F i) (D i) t) :
    Tame μ w (fun s x => gaussLogPdf (mvnMean d s) (mvnCov s d) fun i => F i s x) (fun x => d.logProb chol t fun i => D i x) t := by
  obtain ⟨A, Ad, hf, hcov, hl⟩ := mvn_facts hc d h
  refine (gauss_tame hf.entries hf.det hl hcov hw hF).congr fun x => ?_
  simp only [MVNDist.logProb, Dual.mvnLogProb, hf.inverse, hf.logDet]

theorem mvn_dom : Dominated (volume : Measure (Fin n → ℝ)) vecGauge (fun s x => gaussLogPdf (mvnMean d s) (mvnCov s d) x) t := by
  obtain ⟨A, Ad, hf, hcov, hl⟩ := mvn_facts hc d h
  exact gauss_dom hf.entries hf.det hl hcov

theorem mvn_tame_fixed : Tame (volume : Measure (Fin n → ℝ)) vecGauge (fun s x => gaussLogPdf (mvnMean d s) (mvnCov s d) x)
    (fun x => d.logProb chol t fun i => Dual.const (x i)) t :=
  mvn_tame hc h vecGauge_one (F := fun i _ x => x i) (D := fun i x => Dual.const (x i)) fun i =>
    Tame.fixed (measurable_pi_apply i) (K := 1) (k := 1) (fun x => by
      have := vecGauge_le x i
      unfold lineGauge at this
      rw [one_mul, pow_one]; linarith) vecGauge_one

/-- `log_prob` is the logarithm of the density of `N(mean, covariance)`, and samples have that law. -/
theorem C74_values (x : Fin n → ℝ) :
    (d.logProb chol t fun i => Dual.const (x i)).val = Real.log (gaussPdf (mvnMean d t) (mvnCov t d) x) := by
  rw [(mvn_tame_fixed hc h).val, gaussPdf, Real.log_exp]

/-- Score-function gradients of the four classes. -/
theorem C74_score {f : (Fin n → ℝ) → ℝ} (hf : PolyGrowthV f) :
    ScoreUnbiased (mvnLaw d) (fun x => d.logProb chol t fun i => Dual.const (x i)) f t := by
  obtain ⟨hfm, K, k, hK⟩ := hf
  exact score_of_tame vecGauge_one (mvn_tame_fixed hc h) (mvn_dom hc h) hfm hK

/-- `mc_estimate_kl` between any two of the classes, with `m` draws from any proposal with a positive density. -/
theorem C74_mc_kl {e : MVNDist n} (h' : MVNValid t e) {lq : (Fin n → ℝ) → ℝ} (hq : Measurable lq)
    [IsProbabilityMeasure (densLaw volume fun x => Real.exp (lq x))] {m : ℕ} (hm : 0 < m) :
    EstimatesWithGradient (Measure.pi fun _ : Fin m => densLaw volume fun x => Real.exp (lq x))
      (fun z => Dual.mean fun j => Dual.diceTerm (d.logProb chol t fun i => Dual.const (z j i))
        (e.logProb chol t fun i => Dual.const (z j i)) (lq (z j)))
      (fun s => klInt volume (gaussPdf (mvnMean d s) (mvnCov s d)) (gaussPdf (mvnMean e s) (mvnCov s e))) t := by
  refine kl_transfer vecGauge_one (mvn_tame_fixed hc h) (mvn_dom hc h) (mvn_tame_fixed hc h') (Eventually.of_forall fun s => ?_) hq hm
  simp only [klInt, gaussPdf, Real.log_exp]

/-- The divergence in these statements is the closed form that the classes' `kl_divergence` computes. -/
theorem C74_kl_closed {e : MVNDist n} (h' : MVNValid t e) : ∀ᶠ s in 𝓝 t,
    klInt volume (gaussPdf (mvnMean d s) (mvnCov s d)) (gaussPdf (mvnMean e s) (mvnCov s e)) =
      gaussKL (mvnMean d s) (mvnCov s d) (mvnMean e s) (mvnCov s e) := by
  obtain ⟨A, Ad, hf, hcov, _⟩ := mvn_facts hc d h
  obtain ⟨B, Bd, hf', hcov', _⟩ := mvn_facts hc e h'
  filter_upwards [hcov, hcov', det_near hf.entries hf.det, det_near hf'.entries hf'.det] with s h1 h2 h3 h4
  rw [h1, h2]
  have := (gauss_kl (A s) (B s) (mvnMean d s) (mvnMean e s) h3 h4).2
  rw [← this, klInt, Measure.restrict_univ]

/-- The sample along the curve, for fixed noise. -/
theorem sample_facts {w : (Fin n → ℝ) → ℝ} (hw : ∀ x, 1 ≤ w x) (hx : ∀ i x, |x i| ≤ w x) :
    ∃ A : ℝ → Matrix (Fin n) (Fin n) ℝ, (∀ᶠ s in 𝓝 t, (A s).det ≠ 0 ∧ mvnCov s d = A s * (A s)ᵀ) ∧
      (∀ i, Tame (stdNoise n) w (fun s z => (A s *ᵥ z + mvnMean d s) i) (fun z => d.sample chol t z i) t) ∧
      (∀ z, (d.sampleAndLogProb chol t z).1 = d.sample chol t z) ∧
      Tame (stdNoise n) w (fun s z => Real.log (stdPhi z) - Real.log |(A s).det|) (fun z => (d.sampleAndLogProb chol t z).2) t := by
  obtain ⟨A, Ad, hf, hcov, hl⟩ := mvn_facts hc d h
  have hz : ∀ i, Tame (stdNoise n) w (fun _ z => z i) (fun z => Dual.const (z i)) t := fun i =>
    Tame.fixed (measurable_pi_apply i) (K := 1) (k := 1) (fun x => by rw [one_mul, pow_one]; exact hx i x) hw
  have hn : ∀ r, Dual.normalSample (Dual.const 0) (Dual.const 1) r = Dual.const r := fun r => by
    ext <;> simp [Dual.normalSample, Dual.val_add, Dual.val_mul, Dual.tan_add, Dual.tan_mul, Dual.val_const, Dual.tan_const]
  have hn1 : ∀ r, (Dual.normalSampleAndLogProb (Dual.const 0) (Dual.const 1) r).1 = Dual.const r := hn
  refine ⟨A, (det_near hf.entries hf.det).and hcov, fun i => ?_, fun z => ?_, ?_⟩
  · refine ((Tame.sum hw fun j => ((hf.entries i j).tame).mul hw (hz j)).add hw (hl i).tame).congr fun z => ?_
    simp only [MVNDist.sample, Dual.mvnSample, hf.forward, hn, Dual.matVec]
  · simp only [MVNDist.sample, MVNDist.sampleAndLogProb, Dual.mvnSampleAndLogProb, Dual.mvnSample, hn, hn1]
  · have hlp : ∀ j, Tame (stdNoise n) w (fun _ z => -0.5 * (z j * z j) - halfLog2pi)
        (fun z => (Dual.normalSampleAndLogProb (Dual.const 0) (Dual.const 1) (z j)).2) t := fun j =>
      (((Tame.const (-0.5) hw).mul hw ((hz j).mul hw (hz j))).sub hw (Tame.const halfLog2pi hw)).congr fun z => by
        ext <;> simp [Dual.normalSampleAndLogProb, Dual.square, Dual.val_mul, Dual.val_sub, Dual.val_const, Dual.tan_mul, Dual.tan_sub,
          Dual.tan_const, Dual.log, sq]
    refine (((Tame.sum hw hlp).sub hw ((CA.slogdet hf.entries hf.det).add (CA.const 0 t)).tame).congr' fun s z => ?_).congr fun z => ?_
    · rw [log_stdPhi]
      simp only [dotProduct, Finset.sum_sub_distrib, ← Finset.mul_sum, Finset.sum_const, Finset.card_univ, Fintype.card_fin,
        nsmul_eq_mul, halfLog2pi]
      ring
    · simp only [MVNDist.sampleAndLogProb, Dual.mvnSampleAndLogProb, hf.logDet]

end

theorem stdNoise_dens : stdNoise n = densLaw volume (stdPhi (n := n)) :=
  pi_densLaw (fun _ => gauss_pdf 0 one_ne_zero) fun _ => measurable_gaussianPDFReal 0 1

theorem stdPhi_measurable : Measurable (stdPhi (n := n)) := by
  unfold stdPhi
  exact Finset.measurable_prod _ fun i _ => (measurable_gaussianPDFReal 0 1).comp (measurable_pi_apply i)

/-- All moments of the noise. -/
theorem stdNoise_moments (k : ℕ) : Integrable (fun z : Fin n → ℝ => vecGauge z ^ k) (stdNoise n) := by
  obtain ⟨B, h1, h2⟩ := gauss_dom (t := 0) (n := n) (A := fun _ => 1) (Ad := fun i j => Dual.const ((1 : Matrix (Fin n) (Fin n) ℝ) i j))
    (b := fun _ _ => 0) (bd := fun _ => Dual.const 0) (C := fun _ => 1) (fun i j => CA.const _ 0) (by simp) (fun i => CA.const 0 0)
    (Eventually.of_forall fun s => by simp)
  have hB := h2.self_of_nhds
  rw [stdNoise_dens]
  refine (densLaw_integral stdPhi_measurable fun x => (stdPhi_pos x).le).1.2 ?_
  refine (h1 k).mono' ?_ (ae_of_all _ fun x => ?_)
  · refine (stdPhi_measurable.mul ?_).aestronglyMeasurable
    unfold vecGauge; fun_prop
  · have hg := vecGauge_one x
    rw [Real.norm_eq_abs, abs_of_nonneg (mul_nonneg (stdPhi_pos x).le (by positivity)), mul_comm]
    refine mul_le_mul_of_nonneg_left ?_ (by positivity)
    refine le_trans (le_of_eq ?_) (hB x)
    beta_reduce
    have := gaussLogPdf_affine (1 : Matrix (Fin n) (Fin n) ℝ) (fun _ => 0) x (by simp)
    simp only [Matrix.transpose_one, Matrix.mul_one] at this
    rw [this, show (x - fun _ => (0 : ℝ)) = x by funext i; simp]
    simp [Real.exp_log (stdPhi_pos x)]

/-- An affine image of the noise. -/
theorem gauss_map (A : Matrix (Fin n) (Fin n) ℝ) (b : Fin n → ℝ) (hA : A.det ≠ 0) :
    densLaw volume (gaussPdf b (A * Aᵀ)) = (stdNoise n).map fun z => A *ᵥ z + b := by
  have hT : Measurable fun z : Fin n → ℝ => A *ᵥ z + b := by
    have : Continuous fun z : Fin n → ℝ => A *ᵥ z + b := by
      refine continuous_pi fun i => ?_
      simp only [Pi.add_apply, mulVec, dotProduct]; fun_prop
    exact this.measurable
  have hd := gauss_density A b hA
  have hs := stdPhi_density n
  refine Measure.ext fun B hB => ?_
  rw [Measure.map_apply hT hB, stdNoise_dens, densLaw, densLaw, withDensity_apply _ hB, withDensity_apply _ (hT hB),
    ← ofReal_integral_eq_lintegral_ofReal ?_ (ae_of_all _ fun x => hd.nonneg x trivial),
    ← ofReal_integral_eq_lintegral_ofReal ?_ (ae_of_all _ fun x => hs.nonneg x trivial)]
  · have := gauss_law A b hA B hB
    simp only [Set.univ_inter] at this
    rw [this]
  · exact (integrableOn_univ.1 hs.integrable).integrableOn
  · exact (integrableOn_univ.1 hd.integrable).integrableOn

section
variable (hc : IsCholesky chol) {d : MVNDist n} (h : MVNValid t d)
include hc h

/-- Gradients through samples of the four classes. -/
theorem C74_pathwise {f : (Fin n → ℝ) → ℝ} (hf : TestFnV f) :
    PathwiseUnbiasedV (mvnLaw d) (stdNoise n) (fun z => d.sample chol t z) f t := by
  obtain ⟨A, hA, hs, _, _⟩ := sample_facts hc h vecGauge_one fun i x => by
    have := vecGauge_le x i
    unfold lineGauge at this; linarith
  obtain ⟨h1, h2, h3⟩ := noise_deriv vecGauge_one stdNoise_moments (Tame.compV vecGauge_one hs hf)
  have hm : ∀ s, Measurable fun z : Fin n → ℝ => A s *ᵥ z + mvnMean d s := fun s => measurable_pi_lambda _ fun i => (hs i).meas s
  have hlaw : ∀ᶠ s in 𝓝 t, mvnLaw d s = (stdNoise n).map fun z => A s *ᵥ z + mvnMean d s := by
    filter_upwards [hA] with s ⟨h4, h5⟩
    rw [mvnLaw, h5, gauss_map _ _ h4]
  have hfm : Measurable f := hf.1.continuous.measurable
  refine ⟨?_, h2, h3.congr_of_eventuallyEq ?_⟩
  · filter_upwards [h1, hlaw] with s h4 h5
    rw [h5, integrable_map_measure hfm.aestronglyMeasurable (hm s).aemeasurable]
    exact h4
  · filter_upwards [hlaw] with s h5
    rw [h5, integral_map (hm s).aemeasurable hfm.aestronglyMeasurable]

theorem reparam_one {e : MVNDist n} (h' : MVNValid t e) :
    EstimatesWithGradient (stdNoise n) (fun z => Dual.reparamTerm (d.sampleAndLogProb chol t z).2
      (e.logProb chol t (d.sampleAndLogProb chol t z).1))
      (fun s => klInt volume (gaussPdf (mvnMean d s) (mvnCov s d)) (gaussPdf (mvnMean e s) (mvnCov s e))) t := by
  obtain ⟨A, hA, hs, hsl, hlp⟩ := sample_facts hc h vecGauge_one fun i x => by
    have := vecGauge_le x i
    unfold lineGauge at this; linarith
  have hb := mvn_tame hc h' vecGauge_one hs
  have hT := (hb.sub vecGauge_one hlp).neg
  obtain ⟨h1, h2, h3⟩ := noise_deriv vecGauge_one stdNoise_moments hT
  have hm' : ∀ s, Measurable fun z : Fin n → ℝ => A s *ᵥ z + mvnMean d s := fun s => measurable_pi_lambda _ fun i => (hs i).meas s
  have hk : ∀ᶠ s in 𝓝 t, klInt volume (gaussPdf (mvnMean d s) (mvnCov s d)) (gaussPdf (mvnMean e s) (mvnCov s e)) =
      ∫ z, -(gaussLogPdf (mvnMean e s) (mvnCov s e) (fun i => (A s *ᵥ z + mvnMean d s) i) -
        (Real.log (stdPhi z) - Real.log |(A s).det|)) ∂stdNoise n := by
    filter_upwards [hA] with s ⟨h4, h5⟩
    have e1 : klInt volume (gaussPdf (mvnMean d s) (mvnCov s d)) (gaussPdf (mvnMean e s) (mvnCov s e)) =
        ∫ x, (gaussLogPdf (mvnMean d s) (mvnCov s d) x - gaussLogPdf (mvnMean e s) (mvnCov s e) x)
          ∂densLaw volume (gaussPdf (mvnMean d s) (mvnCov s d)) := by
      rw [(densLaw_integral (p := gaussPdf (mvnMean d s) (mvnCov s d)) (gaussLogPdf_measurable _ _).exp fun x => (Real.exp_pos _).le).2]
      simp only [klInt, gaussPdf, Real.log_exp]
    rw [e1]
    conv_lhs => rw [h5]
    rw [gauss_map _ _ h4, integral_map (f := fun x => gaussLogPdf (mvnMean d s) (A s * (A s)ᵀ) x -
      gaussLogPdf (mvnMean e s) (mvnCov s e) x) (hm' s).aemeasurable
      ((gaussLogPdf_measurable _ _).sub (gaussLogPdf_measurable _ _)).aestronglyMeasurable]
    refine integral_congr_ae (ae_of_all _ fun z => ?_)
    beta_reduce
    rw [gaussLogPdf_affine _ _ _ h4]
    have e2 : (A s)⁻¹ *ᵥ (A s *ᵥ z + mvnMean d s - mvnMean d s) = z := by
      rw [add_sub_cancel_right, Matrix.mulVec_mulVec, Matrix.nonsing_inv_mul _ (isUnit_iff_ne_zero.2 h4), Matrix.one_mulVec]
    rw [e2]; ring
  have ev : ∀ z, Dual.reparamTerm (d.sampleAndLogProb chol t z).2 (e.logProb chol t (d.sampleAndLogProb chol t z).1) =
      -((e.logProb chol t fun i => d.sample chol t z i) - (d.sampleAndLogProb chol t z).2) := fun z => by
    rw [Dual.reparamTerm, hsl]
  simp only [ev]
  refine ⟨?_, ?_, h2, h3.congr_of_eventuallyEq hk⟩
  · simp only [hT.val]; exact h1.self_of_nhds
  · simp only [hT.val]; exact hk.self_of_nhds.symm

/-- `mc_estimate_kl_with_reparameterized` between any two of the classes, with `m` draws. -/
theorem C74_reparam_kl {e : MVNDist n} (h' : MVNValid t e) {m : ℕ} (hm : 0 < m) :
    EstimatesWithGradient (Measure.pi fun _ : Fin m => stdNoise n)
      (fun z => Dual.mean fun j => Dual.reparamTerm (d.sampleAndLogProb chol t (z j)).2
        (e.logProb chol t (d.sampleAndLogProb chol t (z j)).1))
      (fun s => klInt volume (gaussPdf (mvnMean d s) (mvnCov s d)) (gaussPdf (mvnMean e s) (mvnCov s e))) t := by
  have key := reparam_one hc h h'
  generalize (fun s => klInt volume (gaussPdf (mvnMean d s) (mvnCov s d)) (gaussPdf (mvnMean e s) (mvnCov s e))) = kk at *
  have hν : IsProbabilityMeasure (stdNoise n) := inferInstance
  generalize stdNoise n = ν at *
  have h := @estimates_mean (Fin n → ℝ) _ ν _ m hm _ kk t key
  beta_reduce at h
  exact h

/-- The derivative of `log_prob` with respect to the parameters and to the value is the true one. -/
theorem C74_log_prob_deriv {v : Fin n → Param} (hv : ∀ i, Curve (v i).val (v i).der) :
    HasDerivAt (fun s => Real.log (gaussPdf (mvnMean d s) (mvnCov s d) fun i => (v i).val s))
      (d.logProb chol t fun i => (v i).at t).tan t := by
  have hT := mvn_tame hc h (μ := Measure.dirac ()) (w := fun _ : Unit => 1) (fun _ => le_rfl) (F := fun i s _ => (v i).val s)
    (D := fun i _ => (v i).at t) fun i => (CA.param (hv i) t).tame
  have := hT.deriv
  rw [ae_dirac_eq] at this
  simp only [gaussPdf, Real.log_exp]
  exact this

/-- The values of samples have the law `N(mean, covariance)`, and `sample_and_log_prob` returns the logarithm of the density. -/
theorem C74_sample_values :
    (stdNoise n).map (fun z i => (d.sample chol t z i).val) = mvnLaw d t ∧
    ∀ z, (d.sampleAndLogProb chol t z).1 = d.sample chol t z ∧
      (d.sampleAndLogProb chol t z).2.val = Real.log (gaussPdf (mvnMean d t) (mvnCov t d) fun i => (d.sample chol t z i).val) := by
  obtain ⟨A, hA, hs, hsl, hlp⟩ := sample_facts hc h vecGauge_one fun i x => by
    have := vecGauge_le x i
    unfold lineGauge at this; linarith
  obtain ⟨h4, h5⟩ := hA.self_of_nhds
  have e : (fun (z : Fin n → ℝ) i => (d.sample chol t z i).val) = fun z => A t *ᵥ z + mvnMean d t := by
    funext z i; exact (hs i).val z
  refine ⟨by rw [e, mvnLaw, h5, gauss_map _ _ h4], fun z => ⟨hsl z, ?_⟩⟩
  have e1 : (fun i => (d.sample chol t z i).val) = A t *ᵥ z + mvnMean d t := congrFun e z
  rw [e1, hlp.val, gaussPdf, Real.log_exp, h5, gaussLogPdf_affine _ _ _ h4]
  have e2 : (A t)⁻¹ *ᵥ (A t *ᵥ z + mvnMean d t - mvnMean d t) = z := by
    rw [add_sub_cancel_right, Matrix.mulVec_mulVec, Matrix.nonsing_inv_mul _ (isUnit_iff_ne_zero.2 h4), Matrix.one_mulVec]
  rw [e2]

end

/-! ### The hypotheses can be met -/

/-- Cholesky factorisations exist. -/
theorem C74_cholesky : ∃ chol : Matrix (Fin n) (Fin n) ℝ → Matrix (Fin n) (Fin n) ℝ, IsCholesky chol := by
  classical
  exact ⟨fun C => if h : C.PosDef then (cholesky_exists C h).choose else 0, fun C h => by
    simp only [h, dif_pos]; exact (cholesky_exists C h).choose_spec⟩

/-- The parameter `s` itself. -/
def idParam : Param := ⟨fun s => s, fun _ => 1⟩
/-- A constant parameter. -/
def fixParam (c : ℝ) : Param := ⟨fun _ => c, fun _ => 0⟩

theorem idParam_curve : Curve idParam.val idParam.der := ⟨fun s => hasDerivAt_id s, continuous_const⟩
theorem fixParam_curve (c : ℝ) : Curve (fixParam c).val (fixParam c).der := curve_const c

/-- Two coordinates with correlation `s`, and mean `(s, 0)`, at `s = 0`. -/
def corrDist : MVNDist 2 := .fullCovariance ![idParam, fixParam 0] fun i j => if i = j then fixParam 1 else idParam

theorem corrDist_valid : MVNValid 0 corrDist := by
  refine ⟨fun i => ?_, fun i j => ?_, fun i j s => ?_, ?_⟩
  · fin_cases i
    · exact idParam_curve
    · exact fixParam_curve 0
  · by_cases hij : i = j
    · simp only [hij, if_true]; exact fixParam_curve 1
    · simp only [hij, if_false]; exact idParam_curve
  · by_cases hij : i = j
    · simp [hij]
    · simp [hij, Ne.symm hij]
  · have : (Matrix.of fun i j : Fin 2 => (if i = j then fixParam 1 else idParam).val 0) = 1 := by
      ext i j
      by_cases hij : i = j
      · subst hij; simp [fixParam]
      · simp [hij, idParam, Matrix.one_apply_ne hij]
    rw [this]; exact Matrix.PosDef.one

/-- A triangular scale with a moving entry. -/
def triDist : MVNDist 2 := .tri true ![idParam, fixParam 0] fun i j => if i = j then fixParam 2 else idParam

theorem triDist_valid (t : ℝ) : MVNValid t triDist := by
  refine ⟨fun i => ?_, fun i j => ?_, fun i => ?_⟩
  · fin_cases i
    · exact idParam_curve
    · exact fixParam_curve 0
  · by_cases hij : i = j
    · simp only [hij, if_true]; exact fixParam_curve 2
    · simp only [hij, if_false]; exact idParam_curve
  · simp [fixParam]

/-- Diagonal plus rank one. -/
def lowRankDist : MVNDist 1 := .diagPlusLowRank 1 (fun _ => fixParam 0) (fun _ => fixParam 1) (fun _ _ => idParam) fun _ _ => idParam

theorem lowRankDist_valid (t : ℝ) : MVNValid t lowRankDist := by
  refine ⟨fun i => fixParam_curve 0, fun i => fixParam_curve 1, fun _ _ => idParam_curve, fun _ _ => idParam_curve,
    fun i => one_ne_zero, ?_⟩
  rw [Matrix.det_fin_one]
  simp [Matrix.mul_apply, fixParam, idParam]
  nlinarith [mul_self_nonneg t]

example {chol} (hc : IsCholesky (n := 2) chol) : PathwiseUnbiasedV (mvnLaw corrDist) (stdNoise 2)
    (fun z => corrDist.sample chol 0 z) (fun x => x 0) 0 :=
  C74_pathwise hc corrDist_valid ⟨by fun_prop, 1, 0, fun x => by
    have : (fun x : Fin 2 → ℝ => x 0) = (ContinuousLinearMap.proj (R := ℝ) (φ := fun _ : Fin 2 => ℝ) 0) := rfl
    rw [this, ContinuousLinearMap.fderiv]
    refine ContinuousLinearMap.opNorm_le_bound _ (by positivity) fun y => ?_
    simpa using norm_le_pi_norm y 0⟩

example {chol} (hc : IsCholesky (n := 2) chol) : ScoreUnbiased (mvnLaw triDist)
    (fun x => triDist.logProb chol 1 fun i => Dual.const (x i)) (fun x => x 0 * x 1) 1 :=
  C74_score hc (triDist_valid 1) ⟨by fun_prop, 1, 2, fun x => by
    rw [abs_mul, Fin.sum_univ_two, one_mul]
    nlinarith [abs_nonneg (x 0), abs_nonneg (x 1)]⟩

example {chol} (hc : IsCholesky (n := 2) chol) : EstimatesWithGradient (Measure.pi fun _ : Fin 3 => stdNoise 2)
    (fun z => Dual.mean fun j => Dual.reparamTerm (corrDist.sampleAndLogProb chol 0 (z j)).2
      (triDist.logProb chol 0 (corrDist.sampleAndLogProb chol 0 (z j)).1))
    (fun s => klInt volume (gaussPdf (mvnMean corrDist s) (mvnCov s corrDist)) (gaussPdf (mvnMean triDist s) (mvnCov s triDist))) 0 :=
  C74_reparam_kl hc corrDist_valid (triDist_valid 0) (by norm_num)

example {chol} (hc : IsCholesky (n := 1) chol) :
    HasDerivAt (fun s => Real.log (gaussPdf (mvnMean lowRankDist s) (mvnCov s lowRankDist) fun _ => s))
      (lowRankDist.logProb chol 1 fun _ => idParam.at 1).tan 1 :=
  C74_log_prob_deriv hc (lowRankDist_valid 1) (v := fun _ => idParam) fun _ => idParam_curve

end Distrax
