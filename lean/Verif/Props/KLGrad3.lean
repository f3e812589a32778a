import Verif.Props.KLGrad2
import Verif.Props.MVNGrad

/-! C75, continued: the multivariate normals, in every pair of classes. -/

namespace Distrax

open Matrix MeasureTheory Filter Topology Spec

variable {n : ℕ} {t : ℝ} {chol : Matrix (Fin n) (Fin n) ℝ → Matrix (Fin n) (Fin n) ℝ}

theorem CA.square {g : ℝ → ℝ} {d : Dual} (h : CA g d t) : CA (fun s => g s ^ 2) d.square t :=
  ⟨by simp only [Dual.square, h.val], h.smooth.pow 2, (Tracks.square ⟨h.val, h.deriv⟩).deriv⟩

/-- As `mvn_facts`, and the `matrix` property is that scale matrix. -/
theorem mvn_facts_matrix (hc : IsCholesky chol) (d : MVNDist n) (h : MVNValid t d) :
    ∃ A Ad, ScaleFacts (d.scale chol t) A Ad t ∧ (∀ᶠ s in 𝓝 t, mvnCov s d = A s * (A s)ᵀ) ∧
      (∀ i, CA (d.loc i).val ((d.loc i).at t) t) ∧ (d.scale chol t).matrix = Ad := by
  cases d with
  | diag l d =>
    obtain ⟨h1, h2, h3⟩ := h
    refine ⟨_, _, diag_facts' (fun i => CA.param (h2 i) t) h3, Eventually.of_forall fun s => ?_, fun i => CA.param (h1 i) t, rfl⟩
    rw [Matrix.diagonal_transpose, Matrix.diagonal_mul_diagonal]
    simp only [mvnCov, sq]
  | tri lower l a =>
    obtain ⟨h1, h2, h3⟩ := h
    exact ⟨_, _, tri_facts lower (a := fun s => Matrix.of fun i j => (a i j).val s) (fun i j => CA.param (h2 i j) t) h3,
      Eventually.of_forall fun s => rfl, fun i => CA.param (h1 i) t, triangle_twice _ _⟩
  | fullCovariance l c =>
    obtain ⟨h1, h2, h3, h4⟩ := h
    have hp := posDef_near (C := fun s => Matrix.of fun i j => (c i j).val s) (t := t)
      (fun i j => ((h2 i j).deriv t).continuousAt) (fun s i j => h3 i j s) h4
    have hca := CA.cholesky hc (C := fun s => Matrix.of fun i j => (c i j).val s) (fun i j => CA.param (h2 i j) t)
      (fun s i j => h3 i j s) hp
    refine ⟨_, _, tri_facts true hca (fun i => ((hc _ h4).2.1 i).ne'), ?_, fun i => CA.param (h1 i) t, triangle_twice _ _⟩
    filter_upwards [hp] with s hs
    obtain ⟨g1, _, g3⟩ := hc _ hs
    have : triangleOf true (chol (Matrix.of fun i j => (c i j).val s)) = chol (Matrix.of fun i j => (c i j).val s) := by
      ext i j
      simp only [triangleOf, Matrix.of_apply, if_true]
      split_ifs with hij
      · rfl
      · exact (g1 i j (not_le.1 hij)).symm
    rw [this, g3]; rfl
  | diagPlusLowRank k l d u v =>
    obtain ⟨h1, h2, h3, h4, h5, h6⟩ := h
    exact ⟨_, _, lowRank_facts' (U := fun s => Matrix.of fun i j => (u i j).val s) (V := fun s => Matrix.of fun i j => (v i j).val s)
      (fun i => CA.param (h2 i) t) h5 (fun i j => CA.param (h3 i j) t) (fun i j => CA.param (h4 i j) t) h6,
      Eventually.of_forall fun s => rfl, fun i => CA.param (h1 i) t, rfl⟩

/-- The shortcut for two diagonal scales is, with tangents, the general computation. -/
theorem shortcut_entry {a b : Dual} (hb : b.val ≠ 0) :
    Dual.square (Dual.const 1 / b * (a - Dual.const 0)) = Dual.square (Dual.abs a / Dual.abs b) := by
  have key : ∀ x y : ℝ, y ≠ 0 → (1 / y * (x - 0)) ^ 2 = (|x| / |y|) ^ 2 := fun x y _ => by
    rw [sub_zero, div_pow, mul_pow, sq_abs, sq_abs, div_pow]; ring
  ext
  · exact key a.val b.val hb
  · simp only [Dual.square, Dual.tan_mul, Dual.tan_div, Dual.tan_sub, Dual.tan_const, Dual.val_mul, Dual.val_div, Dual.val_sub,
      Dual.val_const, Dual.abs]
    rcases lt_trichotomy a.val 0 with h | h | h <;> rcases lt_or_gt_of_ne hb with h' | h' <;>
      simp only [h, abs_of_neg, abs_of_pos, h', sign_neg, sign_pos, sign_zero, abs_zero] <;>
      simp <;> field_simp <;> ring

theorem zero_entry (b : Dual) : Dual.square (Dual.const 1 / b * (Dual.const 0 - Dual.const 0)) = Dual.const 0 := by
  ext <;> simp [Dual.square, Dual.tan_mul, Dual.tan_div, Dual.tan_sub, Dual.tan_const, Dual.val_mul, Dual.val_div, Dual.val_sub,
    Dual.val_const]

theorem dual_sum_single {a : Fin n → Dual} (i : Fin n) (h : ∀ j, j ≠ i → a j = Dual.const 0) : Dual.sum a = a i := by
  ext
  · simp only [Dual.sum]
    exact Finset.sum_eq_single i (fun j _ hj => by rw [h j hj]; rfl) (by simp)
  · simp only [Dual.sum]
    exact Finset.sum_eq_single i (fun j _ hj => by rw [h j hj]; rfl) (by simp)

theorem shortcut {d1 d2 : Fin n → Dual} (h : ∀ i, (d2 i).val ≠ 0) :
    Dual.sqFrobenius (fun i j => (ScaleD.diag d2).inverse (fun k => (ScaleD.diag d1).matrix k j) i) =
      Dual.sqFrobenius (fun i (_ : Fin 1) => Dual.abs (d1 i) / Dual.abs (d2 i)) := by
  unfold Dual.sqFrobenius
  congr 1
  funext i
  rw [dual_sum_single i fun j hj => ?_, dual_sum_single (0 : Fin 1) fun j hj => absurd (Subsingleton.elim j 0) hj]
  · simp only [ScaleD.inverse, ScaleD.diagInverse, ScaleD.matrix, if_true]
    exact shortcut_entry (h i)
  · simp only [ScaleD.inverse, ScaleD.diagInverse, ScaleD.matrix, if_neg (Ne.symm hj)]
    exact zero_entry _

theorem bInvA_ca {S1 S2 : ScaleD n} {A B : ℝ → Matrix (Fin n) (Fin n) ℝ} {Ad Bd : Fin n → Fin n → Dual} (f1 : ScaleFacts S1 A Ad t)
    (m1 : S1.matrix = Ad) (f2 : ScaleFacts S2 B Bd t) (m2 : S2.matrix = Bd) :
    CA (fun s => ∑ i, ∑ j, ((B s)⁻¹ * A s) i j ^ 2) (Dual.sqFrobenius (Dual.bInvA S1 S2).2) t := by
  have G : CA (fun s => ∑ i, ∑ j, ((B s)⁻¹ * A s) i j ^ 2)
      (Dual.sqFrobenius fun i j => S2.inverse (fun k => S1.matrix k j) i) t := by
    refine CA.sum fun i => CA.sum fun j => CA.square ?_
    beta_reduce
    rw [f2.inverse, m1]
    exact CA.solve f2.entries f2.det (fun k => f1.entries k j) i
  match S1, S2, G, m2 with
  | .diag d1, .diag d2, G, m2 =>
    have hb : ∀ i, (d2 i).val ≠ 0 := fun i => by
      have e : Dual.matVal Bd = Matrix.diagonal fun i => (d2 i).val := by
        rw [← m2]; ext i j
        by_cases hij : i = j
        · subst hij; simp [Dual.matVal, ScaleD.matrix]
        · simp [Dual.matVal, ScaleD.matrix, hij, Dual.const]
      have hd := f2.det
      rw [← matVal_eq f2.entries, e, Matrix.det_diagonal] at hd
      exact (Finset.prod_ne_zero_iff.1 hd) i (Finset.mem_univ i)
    rw [shortcut hb] at G
    exact G
  | .diag _, .tri _, G, _ => exact G
  | .diag _, .diagPlusLowRank .., G, _ => exact G
  | .tri _, _, G, _ => exact G
  | .diagPlusLowRank .., _, G, _ => exact G

section
variable (hc : IsCholesky chol) {d : MVNDist n} (h : MVNValid t d)
include hc h

/-- `entropy` of each of the four classes. -/
theorem C75_mvn_entropy :
    TrueWithGradient (fun s => EntropyOn volume Set.univ (gaussPdf (mvnMean d s) (mvnCov s d))) (d.entropy chol t) t := by
  obtain ⟨A, Ad, f, hcov, -⟩ := mvn_facts hc d h
  have hl := CA.slogdet f.entries f.det
  have hn : Tracks (fun _ => ∑ _i : Fin n, (0.5 + (halfLog2pi + Real.log 1))) (Dual.sum fun _ : Fin n => Dual.normalEntropy (Dual.const 1)) t :=
    Tracks.sum fun _ => (Tracks.const 0.5 t).add ((Tracks.const halfLog2pi t).add ((Tracks.const 1 t).log one_ne_zero))
  have hm : Tracks (fun s => (∑ _i : Fin n, (0.5 + (halfLog2pi + Real.log 1))) + (Real.log |(A s).det| + 0)) (d.entropy chol t) t := by
    have := hn.add ((show Tracks _ _ t from ⟨hl.val, hl.deriv⟩).add (Tracks.const 0 t))
    simp only [MVNDist.entropy, Dual.mvnEntropy, f.logDet]
    exact this
  refine hm.trueAt ?_
  filter_upwards [hcov, det_near f.entries f.det] with s h1 h2
  rw [h1]
  have := gauss_entropy (A s) (mvnMean d s) h2
  have e : (∑ _i : Fin n, ((0.5 : ℝ) + (halfLog2pi + Real.log 1))) + (Real.log |(A s).det| + 0) =
      n * (1 / 2 + 1 / 2 * Real.log (2 * Real.pi)) + Real.log |(A s).det| := by
    rw [Finset.sum_const, Finset.card_univ, Fintype.card_fin, nsmul_eq_mul, halfLog2pi, Real.log_one]
    norm_num
  rw [e]; exact this

/-- `kl_divergence` between any two of the four classes. -/
theorem C75_mvn_kl {e : MVNDist n} (h' : MVNValid t e) :
    TrueWithGradient (fun s => KLOn volume Set.univ (gaussPdf (mvnMean d s) (mvnCov s d)) (gaussPdf (mvnMean e s) (mvnCov s e)))
      (d.kl chol e t) t := by
  obtain ⟨A, Ad, f, hcov, hl, hm⟩ := mvn_facts_matrix hc d h
  obtain ⟨B, Bd, f', hcov', hl', hm'⟩ := mvn_facts_matrix hc e h'
  have hdet := (CA.slogdet f'.entries f'.det).sub (CA.slogdet f.entries f.det)
  have hA := bInvA_ca f hm f' hm'
  have hmean : CA (fun s => ∑ i, ((B s)⁻¹ *ᵥ (mvnMean e s - mvnMean d s)) i ^ 2)
      (Dual.sqFrobenius fun i (_ : Fin 1) => (e.scale chol t).inverse (fun i => (e.loc i).at t - (d.loc i).at t) i) t := by
    refine (CA.sum (g := fun i s => ∑ _j : Fin 1, ((B s)⁻¹ *ᵥ (mvnMean e s - mvnMean d s)) i ^ 2) fun i =>
      CA.sum fun _ => CA.square ?_).congr (Eventually.of_forall fun s => by simp)
    rw [f'.inverse]
    exact CA.solve f'.entries f'.det (fun k => (hl' k).sub (hl k)) i
  have hT := hdet.add ((CA.const 0.5 t).mul (((CA.const (n : ℝ) t).neg.add hA).add hmean))
  simp only [MVNDist.kl, Dual.mvnKL, f.logDet, f'.logDet]
  refine ⟨_, ?_, hT.val, hT.deriv⟩
  filter_upwards [hcov, hcov', det_near f.entries f.det, det_near f'.entries f'.det] with s h1 h2 h3 h4
  have := gauss_kl (A s) (B s) (mvnMean d s) (mvnMean e s) h3 h4
  rw [gaussKL_scale _ _ _ _ h3 h4] at this
  rw [h1, h2]
  convert this using 2
  norm_num

end

/-! ### The hypotheses can be met -/

/-- The divergence of a Normal with scale `s` from a standard Normal, at `s = 2`: value and derivative (`s - 1 / s`). -/
example : TrueWithGradient (fun s => HasKL (Normal.mk 0 s).prob (Normal.mk 0 1).prob)
    (Dual.normalKL ((fixParam 0).at 2) (idParam.at 2) ((fixParam 0).at 2) ((fixParam 1).at 2)) 2 ∧
    (Dual.normalKL ((fixParam 0).at 2) (idParam.at 2) ((fixParam 0).at 2) ((fixParam 1).at 2)).tan = 2 - 1 / 2 := by
  refine ⟨C75_normal_kl (loc1 := fixParam 0) (scale1 := idParam) (loc2 := fixParam 0) (scale2 := fixParam 1) ((fixParam_curve 0).deriv 2) (idParam_curve.deriv 2) ((fixParam_curve 0).deriv 2) ((fixParam_curve 1).deriv 2)
    (by norm_num [idParam]) (by norm_num [fixParam]), ?_⟩
  simp only [Dual.normalKL, Dual.square, Dual.expm1, Dual.log, Dual.tan_add, Dual.tan_sub, Dual.tan_mul, Dual.tan_div, Dual.tan_const,
    Dual.val_sub, Dual.val_mul, Dual.val_div, Dual.val_const, Param.at, idParam, fixParam]
  have : Real.exp (2 * (Real.log 2 - Real.log 1)) = 4 := by
    rw [Real.log_one, sub_zero, mul_comm, Real.exp_mul, Real.exp_log two_pos]; norm_num
  rw [this]; norm_num

/-- Laplace distributions with equal locations, the location of the first one moving. -/
example : TrueWithGradient (fun s => HasKL (Laplace.mk s 1).prob (Laplace.mk 0 3).prob)
    (Dual.laplaceKL (idParam.at 0) ((fixParam 1).at 0) ((fixParam 0).at 0) ((fixParam 3).at 0)) 0 :=
  C75_laplace_kl (loc1 := idParam) (scale1 := fixParam 1) (loc2 := fixParam 0) (scale2 := fixParam 3) (idParam_curve.deriv 0) ((fixParam_curve 1).deriv 0) ((fixParam_curve 0).deriv 0) ((fixParam_curve 3).deriv 0)
    (by norm_num [fixParam]) (by norm_num [fixParam])

example : TrueWithGradient (fun s => HasKL (GammaD.mk s 1).pdf (GammaD.mk 2 3).pdf)
    (Dual.gammaKL (idParam.at 5) ((fixParam 1).at 5) ((fixParam 2).at 5) ((fixParam 3).at 5)) 5 :=
  C75_gamma_kl (c1 := idParam) (r1 := fixParam 1) (c2 := fixParam 2) (r2 := fixParam 3) (idParam_curve.deriv 5) ((fixParam_curve 1).deriv 5) ((fixParam_curve 2).deriv 5) ((fixParam_curve 3).deriv 5)
    (by norm_num [idParam]) (by norm_num [fixParam]) (by norm_num [fixParam]) (by norm_num [fixParam])

example : TrueWithGradient (fun s => EntropyOn volume turn (VonMises.mk 0 s).prob) (Dual.vonMisesEntropy 0.001 (idParam.at 2)) 2 :=
  C75_von_mises_entropy (loc := fixParam 0) (conc := idParam) (idParam_curve.deriv 2) (by norm_num) (by norm_num [idParam])

/-- Correlation `s` and mean `(s, 0)`, against itself frozen as a diagonal distribution. -/
example {chol : Matrix (Fin 2) (Fin 2) ℝ → Matrix (Fin 2) (Fin 2) ℝ} (hc : IsCholesky chol) : TrueWithGradient (fun s => KLOn volume Set.univ (gaussPdf (mvnMean corrDist s) (mvnCov s corrDist))
    (gaussPdf (mvnMean (.diag (fun _ => fixParam 0) fun _ => fixParam 1) s) (mvnCov s (.diag (fun _ => fixParam 0) fun _ => fixParam 1))))
    (corrDist.kl chol (.diag (fun _ => fixParam 0) fun _ => fixParam 1) 0) 0 :=
  C75_mvn_kl hc corrDist_valid (e := .diag (fun _ => fixParam 0) fun _ => fixParam 1) ⟨fun _ => fixParam_curve 0, fun _ => fixParam_curve 1, fun _ => by simp [fixParam]⟩

end Distrax
