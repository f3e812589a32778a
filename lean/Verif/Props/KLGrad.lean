import Verif.Lemmas.KLGrad
import Verif.Props.Normal
import Verif.Props.LocScale
import Verif.Props.Gamma
import Verif.Props.DirichletLaw

/-!
Property C75: automatic differentiation of the closed-form `entropy` and `kl_divergence` gives the derivatives of the true entropy
and divergence of the laws.

Parameters are arbitrary functions of a scalar, differentiable at the point in question; so all partial derivatives, in the
parameters of either distribution, are covered, and so are parameters computed from others by differentiable code.
-/

namespace Distrax

open MeasureTheory Filter Topology Spec Tracks

variable {t : ℝ}

/-! ### Normal -/

/-- Normal: entropy. -/
theorem C75_normal_entropy {loc scale : Param} (hs : HasDerivAt scale.val (scale.der t) t) (h0 : 0 < scale.val t) :
    TrueWithGradient (fun s => HasEntropy (Normal.mk (loc.val s) (scale.val s)).prob) (Dual.normalEntropy (scale.at t)) t := by
  have hS := Tracks.param hs
  refine ((Tracks.const 0.5 t).add ((Tracks.const halfLog2pi t).add (hS.log h0.ne'))).trueAt ?_
  filter_upwards [hS.pos_near h0] with s h
  exact (C28_normal_moments ⟨loc.val s, scale.val s⟩ h).2.2.2.2.2.2

/-- Normal: KL divergence. -/
theorem C75_normal_kl {loc1 scale1 loc2 scale2 : Param} (hl1 : HasDerivAt loc1.val (loc1.der t) t)
    (hs1 : HasDerivAt scale1.val (scale1.der t) t) (hl2 : HasDerivAt loc2.val (loc2.der t) t)
    (hs2 : HasDerivAt scale2.val (scale2.der t) t) (h1 : 0 < scale1.val t) (h2 : 0 < scale2.val t) :
    TrueWithGradient (fun s => HasKL (Normal.mk (loc1.val s) (scale1.val s)).prob (Normal.mk (loc2.val s) (scale2.val s)).prob)
      (Dual.normalKL (loc1.at t) (scale1.at t) (loc2.at t) (scale2.at t)) t := by
  have L1 := Tracks.param hl1; have S1 := Tracks.param hs1; have L2 := Tracks.param hl2; have S2 := Tracks.param hs2
  have hd := (S1.log h1.ne').sub (S2.log h2.ne')
  refine ((((Tracks.const 0.5 t).mul ((L1.div S2 h2.ne').sub (L2.div S2 h2.ne')).square).add
    ((Tracks.const 0.5 t).mul ((Tracks.const 2 t).mul hd).expm1)).sub hd).trueAt ?_
  filter_upwards [S1.pos_near h1, S2.pos_near h2] with s k1 k2
  exact C28_normal_kl ⟨loc1.val s, scale1.val s⟩ ⟨loc2.val s, scale2.val s⟩ k1 k2

theorem storedLogScale_tracks {ls : ℝ → ℝ} {l : Dual} (h : Tracks ls l t) (m : Option ℝ) (hm : ∀ x ∈ m, 0 < x) :
    ∃ f : ℝ → ℝ, Tracks f (Dual.storedLogScale m l) t ∧
      ∀ loc s, LogStddevNormal.init loc (ls s) m = .ok ⟨⟨loc, Real.exp (f s)⟩, f s, m⟩ := by
  cases m with
  | none => exact ⟨ls, h, fun loc s => rfl⟩
  | some m =>
    refine ⟨_, (Tracks.const (Real.log m) t).sub ((Tracks.const (Real.log m) t).sub h).softplus, fun loc s => ?_⟩
    rw [LogStddevNormal.init]
    exact if_neg (not_le.2 (hm m rfl))

/-- LogStddevNormal, with or without a maximal scale: entropy. -/
theorem C75_log_stddev_normal_entropy {loc ls : Param} {m : Option ℝ} (hm : ∀ x ∈ m, 0 < x)
    (hls : HasDerivAt ls.val (ls.der t) t) :
    TrueWithGradient (fun s k => ∃ d, LogStddevNormal.init (loc.val s) (ls.val s) m = .ok d ∧ HasEntropy d.prob k)
      (Dual.logStddevNormalEntropy m (ls.at t)) t := by
  obtain ⟨f, hf, hi⟩ := storedLogScale_tracks (Tracks.param hls) m hm
  refine ((Tracks.const 0.5 t).add ((Tracks.const halfLog2pi t).add (hf.exp.log (Real.exp_pos _).ne'))).trueAt
    (Eventually.of_forall fun s => ⟨_, hi _ s, ?_⟩)
  exact (C28_normal_moments ⟨loc.val s, Real.exp (f s)⟩ (Real.exp_pos _)).2.2.2.2.2.2

/-- LogStddevNormal: KL divergence. -/
theorem C75_log_stddev_normal_kl {loc1 ls1 loc2 ls2 : Param} {m1 m2 : Option ℝ} (hm1 : ∀ x ∈ m1, 0 < x) (hm2 : ∀ x ∈ m2, 0 < x)
    (hl1 : HasDerivAt loc1.val (loc1.der t) t) (hs1 : HasDerivAt ls1.val (ls1.der t) t)
    (hl2 : HasDerivAt loc2.val (loc2.der t) t) (hs2 : HasDerivAt ls2.val (ls2.der t) t) :
    TrueWithGradient (fun s k => ∃ d1 d2, LogStddevNormal.init (loc1.val s) (ls1.val s) m1 = .ok d1 ∧
        LogStddevNormal.init (loc2.val s) (ls2.val s) m2 = .ok d2 ∧ HasKL d1.prob d2.prob k)
      (Dual.logStddevNormalKL m1 (loc1.at t) (ls1.at t) m2 (loc2.at t) (ls2.at t)) t := by
  obtain ⟨f1, hf1, hi1⟩ := storedLogScale_tracks (Tracks.param hs1) m1 hm1
  obtain ⟨f2, hf2, hi2⟩ := storedLogScale_tracks (Tracks.param hs2) m2 hm2
  have L1 := Tracks.param hl1; have L2 := Tracks.param hl2
  have hv2 : (2 : ℝ) * Real.exp (f2 t) ^ 2 ≠ 0 := by positivity
  refine (((((hf1.exp.square.add (L1.sub L2).square).div ((Tracks.const 2 t).mul hf2.exp.square) hv2).add hf2).sub hf1).sub
    (Tracks.const 0.5 t)).trueAt (Eventually.of_forall fun s => ⟨_, _, hi1 _ s, hi2 _ s, ?_⟩)
  have := C28_log_stddev_kl ⟨⟨loc1.val s, Real.exp (f1 s)⟩, f1 s, m1⟩ ⟨⟨loc2.val s, Real.exp (f2 s)⟩, f2 s, m2⟩ rfl rfl
  have hk := C28_normal_kl ⟨loc1.val s, Real.exp (f1 s)⟩ ⟨loc2.val s, Real.exp (f2 s)⟩ (Real.exp_pos _) (Real.exp_pos _)
  rw [← this] at hk
  exact hk

/-! ### Laplace -/

/-- Laplace: entropy. -/
theorem C75_laplace_entropy {loc scale : Param} (hs : HasDerivAt scale.val (scale.der t) t) (h0 : 0 < scale.val t) :
    TrueWithGradient (fun s => HasEntropy (Laplace.mk (loc.val s) (scale.val s)).prob) (Dual.laplaceEntropy (scale.at t)) t := by
  have hS := Tracks.param hs
  refine (((Tracks.const (Real.log 2) t).add (Tracks.const 1 t)).add (hS.log h0.ne')).trueAt ?_
  filter_upwards [hS.pos_near h0] with s h
  have := C29_laplace_moments ⟨loc.val s, scale.val s⟩ h
  tauto

/-- `|v| + exp(-|v|) - 1` is flat at zero. -/
theorem laplace_flat : HasDerivAt (fun v : ℝ => |v| + Real.exp (-|v|) - 1) 0 0 := by
  rw [hasDerivAt_iff_isLittleO]
  simp only [abs_zero, neg_zero, Real.exp_zero, zero_add, sub_self, sub_zero, smul_zero]
  have hb : ∀ᶠ v : ℝ in 𝓝 0, ‖|v| + Real.exp (-|v|) - 1‖ ≤ 1 * ‖v ^ 2‖ := by
    filter_upwards [Metric.ball_mem_nhds (0 : ℝ) one_pos] with v hv
    rw [Metric.mem_ball, dist_zero_right, Real.norm_eq_abs] at hv
    have h1 := Real.add_one_le_exp (-|v|)
    have h2 := Real.abs_exp_sub_one_sub_id_le (x := -|v|) (by rw [abs_neg, abs_abs]; exact hv.le)
    rw [Real.norm_eq_abs, Real.norm_eq_abs, one_mul, abs_of_nonneg (by positivity : (0:ℝ) ≤ v ^ 2)]
    have h3 : (-|v|) ^ 2 = v ^ 2 := by rw [neg_sq, sq_abs]
    rw [h3] at h2
    rw [show |v| + Real.exp (-|v|) - 1 = Real.exp (-|v|) - 1 - -|v| by ring]
    exact h2
  refine (Asymptotics.IsBigO.of_bound 1 hb).trans_isLittleO ?_
  exact Asymptotics.isLittleO_pow_id (by norm_num)

/-- Laplace: KL divergence.  There is no exception for equal locations: the divergence is differentiable there although
`abs` is not, and jax's `sign(0) = 0` makes the reported derivative the right one. -/
theorem C75_laplace_kl {loc1 scale1 loc2 scale2 : Param} (hl1 : HasDerivAt loc1.val (loc1.der t) t)
    (hs1 : HasDerivAt scale1.val (scale1.der t) t) (hl2 : HasDerivAt loc2.val (loc2.der t) t)
    (hs2 : HasDerivAt scale2.val (scale2.der t) t) (h1 : 0 < scale1.val t) (h2 : 0 < scale2.val t) :
    TrueWithGradient (fun s => HasKL (Laplace.mk (loc1.val s) (scale1.val s)).prob (Laplace.mk (loc2.val s) (scale2.val s)).prob)
      (Dual.laplaceKL (loc1.at t) (scale1.at t) (loc2.at t) (scale2.at t)) t := by
  have L1 := Tracks.param hl1; have S1 := Tracks.param hs1; have L2 := Tracks.param hl2; have S2 := Tracks.param hs2
  have hd := (S1.log h1.ne').sub (S2.log h2.ne')
  have htrue : ∀ᶠ s in 𝓝 t, HasKL (Laplace.mk (loc1.val s) (scale1.val s)).prob (Laplace.mk (loc2.val s) (scale2.val s)).prob
      (Laplace.kl ⟨loc1.val s, scale1.val s⟩ ⟨loc2.val s, scale2.val s⟩) := by
    filter_upwards [S1.pos_near h1, S2.pos_near h2] with s k1 k2
    exact (C30_laplace_kl ⟨loc1.val s, scale1.val s⟩ ⟨loc2.val s, scale2.val s⟩ k1 k2).1
  by_cases hne : loc1.val t = loc2.val t
  · -- equal locations
    set δ : ℝ → ℝ := fun s => (loc1.val s - loc2.val s) / scale1.val s with hδ
    have hδt : δ t = 0 := by simp [hδ, hne]
    have hδd : HasDerivAt δ ((loc1.at t - loc2.at t) / scale1.at t).tan t := ((L1.sub L2).div S1 h1.ne').deriv
    have hflat : HasDerivAt (fun s => |δ s| + Real.exp (-|δ s|) - 1) (0 * ((loc1.at t - loc2.at t) / scale1.at t).tan) t := by
      have : HasDerivAt (fun v : ℝ => |v| + Real.exp (-|v|) - 1) 0 (δ t) := hδt.symm ▸ laplace_flat
      exact this.comp t hδd
    have hrest := (hd.neg.add hd.exp).sub (Tracks.const 1 t)
    have hratio := S1.div S2 h2.ne'
    have hmain := hrest.deriv.add (hratio.deriv.mul hflat)
    refine ⟨_, htrue, ?_, ?_⟩
    · simp only [Dual.laplaceKL, Dual.val_add, Dual.val_sub, Dual.val_neg, Dual.val_div, Dual.val_const, Dual.abs, Dual.exp,
        Dual.val_log, Param.at, Laplace.kl]
    · refine (hmain.congr_of_eventuallyEq ?_).congr_deriv ?_
      · filter_upwards [S1.pos_near h1, S2.pos_near h2] with s k1 k2
        simp only [Laplace.kl, Pi.add_apply, Pi.mul_apply, hδ, abs_div, abs_of_pos k1]
        rw [Real.exp_add, neg_div, Real.exp_sub, Real.exp_log k1, Real.exp_log k2]
        have := k1.ne'; have := k2.ne'
        field_simp
        ring
      · simp only [Dual.laplaceKL, Dual.val_add, Dual.val_sub, Dual.val_neg, Dual.val_div, Dual.val_const, Dual.abs, Dual.exp,
          Dual.val_log, Param.at, Dual.tan_add, Dual.tan_sub, Dual.tan_neg, Dual.tan_div, Dual.tan_const, Dual.log, hne, hδ, sub_self,
          abs_zero, sign_zero, neg_zero, zero_div]
        simp
  · have hD : loc1.val t - loc2.val t ≠ 0 := sub_ne_zero.2 hne
    have hdist := (L1.sub L2).abs hD
    exact ((((hd.neg.add (hdist.div S2 h2.ne')).sub (Tracks.const 1 t)).add ((hdist.neg.div S1 h1.ne').add hd).exp)).trueAt htrue

/-! ### Logistic, Gumbel, Uniform -/

/-- Logistic: entropy. -/
theorem C75_logistic_entropy {loc scale : Param} (hs : HasDerivAt scale.val (scale.der t) t) (h0 : 0 < scale.val t) :
    TrueWithGradient (fun s => HasEntropy (Logistic.mk (loc.val s) (scale.val s)).prob) (Dual.logisticEntropy (scale.at t)) t := by
  have hS := Tracks.param hs
  refine ((Tracks.const 2 t).add (hS.log h0.ne')).trueAt ?_
  filter_upwards [hS.pos_near h0] with s h
  have := C29_logistic_moments ⟨loc.val s, scale.val s⟩ h
  tauto

/-- Gumbel: entropy. -/
theorem C75_gumbel_entropy {loc scale : Param} (hs : HasDerivAt scale.val (scale.der t) t) (h0 : 0 < scale.val t) :
    TrueWithGradient (fun s => HasEntropy (Gumbel.mk (loc.val s) (scale.val s)).prob) (Dual.gumbelEntropy (scale.at t)) t := by
  have hS := Tracks.param hs
  refine (((hS.log h0.ne').add (Tracks.const 1 t)).add (Tracks.const Real.eulerMascheroniConstant t)).trueAt ?_
  filter_upwards [hS.pos_near h0] with s h
  have := C29_gumbel_moments ⟨loc.val s, scale.val s⟩ h
  tauto

/-- Gumbel: KL divergence. -/
theorem C75_gumbel_kl {loc1 scale1 loc2 scale2 : Param} (hl1 : HasDerivAt loc1.val (loc1.der t) t)
    (hs1 : HasDerivAt scale1.val (scale1.der t) t) (hl2 : HasDerivAt loc2.val (loc2.der t) t)
    (hs2 : HasDerivAt scale2.val (scale2.der t) t) (h1 : 0 < scale1.val t) (h2 : 0 < scale2.val t) :
    TrueWithGradient (fun s => HasKL (Gumbel.mk (loc1.val s) (scale1.val s)).prob (Gumbel.mk (loc2.val s) (scale2.val s)).prob)
      (Dual.gumbelKL (loc1.at t) (scale1.at t) (loc2.at t) (scale2.at t)) t := by
  have L1 := Tracks.param hl1; have S1 := Tracks.param hs1; have L2 := Tracks.param hl2; have S2 := Tracks.param hs2
  have hr := S1.div S2 h2.ne'
  have hr1 := hr.add (Tracks.const 1 t)
  have hpos : 0 < scale1.val t / scale2.val t + 1 := by positivity
  refine (((((S2.log h2.ne').sub (S1.log h1.ne')).add ((Tracks.const Real.eulerMascheroniConstant t).mul (hr.sub (Tracks.const 1 t)))).add
    (((L2.sub L1).div S2 h2.ne').add (hr1.lgamma hpos)).expm1).add ((L1.sub L2).div S2 h2.ne')).trueAt ?_
  filter_upwards [S1.pos_near h1, S2.pos_near h2] with s k1 k2
  exact (C30_gumbel_kl ⟨loc1.val s, scale1.val s⟩ ⟨loc2.val s, scale2.val s⟩ k1 k2).1

/-- Uniform: entropy. -/
theorem C75_uniform_entropy {low high : Param} (hl : HasDerivAt low.val (low.der t) t) (hh : HasDerivAt high.val (high.der t) t)
    (h0 : low.val t < high.val t) :
    TrueWithGradient (fun s => HasEntropy (Uniform.mk (low.val s) (high.val s)).prob) (Dual.uniformEntropy (low.at t) (high.at t)) t := by
  have L := Tracks.param hl; have H := Tracks.param hh
  have hr := H.sub L
  have h0' : 0 < high.val t - low.val t := sub_pos.2 h0
  refine (hr.log h0'.ne').trueAt ?_
  filter_upwards [hr.pos_near h0'] with s h
  have := C29_uniform_moments ⟨low.val s, high.val s⟩ (sub_pos.1 h)
  tauto

/-- Uniform: KL divergence, as long as the parameters move so that the divergence stays finite. -/
theorem C75_uniform_kl {low1 high1 low2 high2 : Param} (hl1 : HasDerivAt low1.val (low1.der t) t)
    (hh1 : HasDerivAt high1.val (high1.der t) t) (hl2 : HasDerivAt low2.val (low2.der t) t)
    (hh2 : HasDerivAt high2.val (high2.der t) t) (h1 : low1.val t < high1.val t) (h2 : low2.val t < high2.val t)
    (hsub : Set.Icc (low1.val t) (high1.val t) ⊆ Set.Icc (low2.val t) (high2.val t)) :
    ∃ d, Dual.uniformKL (low1.at t) (high1.at t) (low2.at t) (high2.at t) = some d ∧
      TrueWithGradientOn {s | Set.Icc (low1.val s) (high1.val s) ⊆ Set.Icc (low2.val s) (high2.val s)}
        (fun s => HasKL (Uniform.mk (low1.val s) (high1.val s)).prob (Uniform.mk (low2.val s) (high2.val s)).prob) d t := by
  have L1 := Tracks.param hl1; have H1 := Tracks.param hh1; have L2 := Tracks.param hl2; have H2 := Tracks.param hh2
  have p1 : 0 < high1.val t - low1.val t := sub_pos.2 h1
  have p2 : 0 < high2.val t - low2.val t := sub_pos.2 h2
  have key : ∀ a b c e : ℝ, a < b → c < e → Set.Icc a b ⊆ Set.Icc c e →
      HasKL (Uniform.mk a b).prob (Uniform.mk c e).prob (Real.log (e - c) - Real.log (b - a)) := fun a b c e hab hce hs => by
    obtain ⟨k, e1, e2, -⟩ := (C30_uniform_kl ⟨a, b⟩ ⟨c, e⟩ hab hce).2 hs
    have hle := (Set.Icc_subset_Icc_iff hab.le).1 hs
    rw [Uniform.kl, if_pos hle] at e1
    simp only at e1
    rw [XR.log_fin_pos (by linarith), XR.log_fin_pos (by linarith)] at e1
    have e3 : Real.log (e - c) - Real.log (b - a) = k := XR.fin.inj e1
    rw [e3]; exact e2
  refine ⟨_, if_pos ((Set.Icc_subset_Icc_iff h1.le).1 hsub), ?_⟩
  refine (((H2.sub L2).log p2.ne').sub ((H1.sub L1).log p1.ne')).trueOn (key _ _ _ _ h1 h2 hsub) ?_
  filter_upwards [self_mem_nhdsWithin, nhdsWithin_le_nhds ((H1.sub L1).pos_near p1), nhdsWithin_le_nhds ((H2.sub L2).pos_near p2)]
    with s k k1 k2
  exact key _ _ _ _ (sub_pos.1 k1) (sub_pos.1 k2) k

/-- At the edge (here: two equal Uniforms, the upper end of the first one moving) the reported derivative is the one for moving
inwards; outwards the divergence is infinite at once. -/
theorem C75_uniform_kl_edge : ∃ d, Dual.uniformKL (Dual.const 0) ⟨1, 1⟩ (Dual.const 0) (Dual.const 1) = some d ∧ d.val = 0 ∧ d.tan = -1 ∧
    ∀ s : ℝ, 1 < s → Uniform.kl ⟨0, s⟩ ⟨0, 1⟩ = .pinf := by
  refine ⟨_, if_pos ⟨le_rfl, le_rfl⟩, ?_, ?_, fun s hs => ?_⟩
  · simp [Dual.val_sub, Dual.val_log, Dual.val_const]
  · simp [Dual.tan_sub, Dual.log, Dual.val_sub, Dual.tan_const, Dual.val_const]
  · rw [Uniform.kl, if_neg]
    simp only [not_and, not_le]
    intro _; exact hs

/-! ### Gamma, Beta, Dirichlet -/

/-- Gamma: entropy. -/
theorem C75_gamma_entropy {c r : Param} (hc : HasDerivAt c.val (c.der t) t) (hr : HasDerivAt r.val (r.der t) t) (hc0 : 0 < c.val t)
    (hr0 : 0 < r.val t) :
    TrueWithGradient (fun s => HasEntropy (GammaD.mk (c.val s) (r.val s)).pdf) (Dual.gammaEntropy (c.at t) (r.at t)) t := by
  have C := Tracks.param hc; have R := Tracks.param hr
  refine (((C.sub (R.log hr0.ne')).add (C.lgamma hc0)).add (((Tracks.const 1 t).sub C).mul (C.digamma hc0))).trueAt ?_
  filter_upwards [C.pos_near hc0, R.pos_near hr0] with s k1 k2
  exact (C39_moments ⟨c.val s, r.val s⟩ k1 k2).2.2.2

/-- Gamma: KL divergence. -/
theorem C75_gamma_kl {c1 r1 c2 r2 : Param} (hc1 : HasDerivAt c1.val (c1.der t) t) (hr1 : HasDerivAt r1.val (r1.der t) t)
    (hc2 : HasDerivAt c2.val (c2.der t) t) (hr2 : HasDerivAt r2.val (r2.der t) t) (p1 : 0 < c1.val t) (q1 : 0 < r1.val t)
    (p2 : 0 < c2.val t) (q2 : 0 < r2.val t) :
    TrueWithGradient (fun s => HasKL (GammaD.mk (c1.val s) (r1.val s)).pdf (GammaD.mk (c2.val s) (r2.val s)).pdf)
      (Dual.gammaKL (c1.at t) (r1.at t) (c2.at t) (r2.at t)) t := by
  have C1 := Tracks.param hc1; have R1 := Tracks.param hr1; have C2 := Tracks.param hc2; have R2 := Tracks.param hr2
  refine ((((C2.mul ((R1.log q1.ne').sub (R2.log q2.ne'))).add ((C2.lgamma p2).sub (C1.lgamma p1))).add
    ((C1.sub C2).mul (C1.digamma p1))).add ((R2.sub R1).mul (C1.div R1 q1.ne'))).trueAt ?_
  filter_upwards [C1.pos_near p1, R1.pos_near q1, C2.pos_near p2, R2.pos_near q2] with s k1 k2 k3 k4
  exact (C39_kl ⟨c1.val s, r1.val s⟩ ⟨c2.val s, r2.val s⟩ k1 k2 k3 k4).1

theorem logBeta_tracks {x y : ℝ → ℝ} {a b : Dual} (h : Tracks x a t) (k : Tracks y b t) (hx : 0 < x t) (hy : 0 < y t) :
    Tracks (fun s => logBeta (x s) (y s)) (Dual.logBeta a b) t :=
  ((h.lgamma hx).add (k.lgamma hy)).sub ((h.add k).lgamma (add_pos hx hy))

/-- Beta: entropy. -/
theorem C75_beta_entropy {a b : Param} (ha : HasDerivAt a.val (a.der t) t) (hb : HasDerivAt b.val (b.der t) t) (ha0 : 0 < a.val t)
    (hb0 : 0 < b.val t) :
    TrueWithGradient (fun s => HasEntropy (BetaD.mk (a.val s) (b.val s)).density) (Dual.betaEntropy (a.at t) (b.at t)) t := by
  have A := Tracks.param ha; have B := Tracks.param hb
  refine ((((logBeta_tracks A B ha0 hb0).sub ((A.sub (Tracks.const 1 t)).mul (A.digamma ha0))).sub
    ((B.sub (Tracks.const 1 t)).mul (B.digamma hb0))).add
    (((A.add B).sub (Tracks.const 2 t)).mul ((A.add B).digamma (add_pos ha0 hb0)))).trueAt ?_
  filter_upwards [A.pos_near ha0, B.pos_near hb0] with s k1 k2
  exact (C38_beta_moments ⟨a.val s, b.val s⟩ k1 k2).2.2

/-- Beta: KL divergence. -/
theorem C75_beta_kl {a1 b1 a2 b2 : Param} (ha1 : HasDerivAt a1.val (a1.der t) t) (hb1 : HasDerivAt b1.val (b1.der t) t)
    (ha2 : HasDerivAt a2.val (a2.der t) t) (hb2 : HasDerivAt b2.val (b2.der t) t) (p1 : 0 < a1.val t) (q1 : 0 < b1.val t)
    (p2 : 0 < a2.val t) (q2 : 0 < b2.val t) :
    TrueWithGradient (fun s => HasKL (BetaD.mk (a1.val s) (b1.val s)).density (BetaD.mk (a2.val s) (b2.val s)).density)
      (Dual.betaKL (a1.at t) (b1.at t) (a2.at t) (b2.at t)) t := by
  have A1 := Tracks.param ha1; have B1 := Tracks.param hb1; have A2 := Tracks.param ha2; have B2 := Tracks.param hb2
  refine (((((logBeta_tracks A2 B2 p2 q2).sub (logBeta_tracks A1 B1 p1 q1)).add ((A1.sub A2).mul (A1.digamma p1))).add
    ((B1.sub B2).mul (B1.digamma q1))).add
    ((((A2.sub A1).add B2).sub B1).mul ((A1.add B1).digamma (add_pos p1 q1)))).trueAt ?_
  filter_upwards [A1.pos_near p1, B1.pos_near q1, A2.pos_near p2, B2.pos_near q2] with s k1 k2 k3 k4
  exact (C38_beta_kl ⟨a1.val s, b1.val s⟩ ⟨a2.val s, b2.val s⟩ k1 k2 k3 k4).1

variable {n : ℕ}

theorem logBetaMultivariate_tracks {x : Fin (n + 1) → ℝ → ℝ} {a : Fin (n + 1) → Dual} (h : ∀ i, Tracks (x i) (a i) t)
    (hx : ∀ i, 0 < x i t) : Tracks (fun s => logBetaMultivariate fun i => x i s) (Dual.logBetaMultivariate a) t :=
  (Tracks.sum fun i => (h i).lgamma (hx i)).sub
    ((Tracks.sum h).lgamma (Finset.sum_pos (fun i _ => hx i) Finset.univ_nonempty))

/-- Dirichlet of any dimension: entropy. -/
theorem C75_dirichlet_entropy {c : Fin (n + 1) → Param} (hc : ∀ i, HasDerivAt (c i).val ((c i).der t) t) (h0 : ∀ i, 0 < (c i).val t) :
    TrueWithGradient (fun s => EntropyOn volume (openSimplex n) (Dir.mk fun i => (c i).val s).density)
      (Dual.dirichletEntropy fun i => (c i).at t) t := by
  have C := fun i => Tracks.param (hc i)
  have hs := Tracks.sum C
  have hp : 0 < ∑ i, (c i).val t := Finset.sum_pos (fun i _ => h0 i) Finset.univ_nonempty
  refine (((logBetaMultivariate_tracks C h0).add ((hs.sub (Tracks.const ((n + 1 : ℕ) : ℝ) t)).mul (hs.digamma hp))).sub
    (Tracks.sum fun i => ((C i).sub (Tracks.const 1 t)).mul ((C i).digamma (h0 i)))).trueAt ?_
  filter_upwards [eventually_all.2 fun i => (C i).pos_near (h0 i)] with s k
  exact C38_dirichlet_entropy ⟨fun i => (c i).val s⟩ k

/-- Dirichlet of any dimension: KL divergence. -/
theorem C75_dirichlet_kl {c e : Fin (n + 1) → Param} (hc : ∀ i, HasDerivAt (c i).val ((c i).der t) t) (h0 : ∀ i, 0 < (c i).val t)
    (he : ∀ i, HasDerivAt (e i).val ((e i).der t) t) (h0' : ∀ i, 0 < (e i).val t) :
    TrueWithGradient (fun s => KLOn volume (openSimplex n) (Dir.mk fun i => (c i).val s).density (Dir.mk fun i => (e i).val s).density)
      (Dual.dirichletKL (fun i => (c i).at t) fun i => (e i).at t) t := by
  have C := fun i => Tracks.param (hc i)
  have E := fun i => Tracks.param (he i)
  have hs := Tracks.sum C
  have hp : 0 < ∑ i, (c i).val t := Finset.sum_pos (fun i _ => h0 i) Finset.univ_nonempty
  refine (((logBetaMultivariate_tracks E h0').sub (logBetaMultivariate_tracks C h0)).add
    (Tracks.sum fun i => ((C i).sub (E i)).mul (((C i).digamma (h0 i)).sub (hs.digamma hp)))).trueAt ?_
  filter_upwards [eventually_all.2 fun i => (C i).pos_near (h0 i), eventually_all.2 fun i => (E i).pos_near (h0' i)] with s k k'
  obtain ⟨v, e1, e2⟩ := C38_dirichlet_kl_meaning ⟨fun i => (c i).val s⟩ k ⟨fun i => (e i).val s⟩ k'
  rw [Dir.kl, dif_neg (by simp)] at e1
  cases e1
  exact e2

end Distrax
