import Verif.Props.FloatSample
import Verif.Props.FloatAcc2
import Verif.Lemmas.FloatFmt
import Verif.Model.Continuous

/-!
C78: sampling in floating point (second part: location-scale families).
-/

namespace Distrax

open XR FX Spec

variable {F : Fmt} {u η : ℝ}

/-- The rounded sample `scale * rnd + loc`. -/
theorem loc_scale_sample (A : F.Acc u η) {a b c : FX F} {m s r : ℝ} (hm : b.1 = fin m) (hs : a.1 = fin s) (s0 : 0 < s) (hr : c.1 = fin r)
    (hf : (a * c + b).finite) :
    (a * c + b).Within (m + s * r) (u * (3 * (s * |r|) + |m|) + 2 * η) := by
  have u0 := A.u0
  have ul := A.u_le
  have η0 := A.η0
  obtain ⟨P, hP⟩ := (add_fin hf).1
  have hP' : F.rd (s * r) = fin P := by rw [mul_val, hs, hr, fin_mul] at hP; exact hP
  have Pe := A.err hP'
  rw [abs_mul, abs_of_pos s0] at Pe
  obtain ⟨S, hS⟩ := hf
  have hS' : F.rd (P + m) = fin S := by rw [add_val, hP, hm, fin_add] at hS; exact hS
  have Se := A.addErr (rep hP) (rep hm) hS'
  refine ⟨S, hS, ?_⟩
  have e : S - (m + s * r) = (S - (P + m)) + (P - s * r) := by ring
  rw [e]
  refine (abs_add_le _ _).trans ?_
  have a0 : 0 ≤ s * |r| := mul_nonneg s0.le (_root_.abs_nonneg r)
  have Pa : |P| ≤ s * |r| + (u * (s * |r|) + η) := by
    have := abs_sub_abs_le_abs_sub P (s * r)
    rw [abs_mul, abs_of_pos s0] at this
    linarith
  have t := mul_le_mul_of_nonneg_left ((abs_add_le P m).trans (add_le_add_left Pa |m|)) u0
  have uu : u * u ≤ u * (1 / 256) := mul_le_mul_of_nonneg_left ul u0
  have t2 : u * η ≤ 1 * η := mul_le_mul_of_nonneg_right (by linarith) η0
  have t3 := mul_le_mul_of_nonneg_right uu a0
  have t4 := mul_nonneg u0 a0
  nlinarith

/-- What the samples of the location-scale families are, in exact arithmetic, up to rounding. -/
theorem C78_location_scale (A : F.Acc u η) (d : LS F) (rnd : FX F) {m s r : ℝ} (hm : d.loc.1 = fin m) (hs : d.scale.1 = fin s) (s0 : 0 < s)
    (hr : rnd.1 = fin r) :
    ((FSample.normal d rnd).finite → (FSample.normal d rnd).Within (m + s * r) (u * (3 * (s * |r|) + |m|) + 2 * η)) ∧
    ((FSample.gumbel d rnd).finite → (FSample.gumbel d rnd).Within (m + s * r) (u * (3 * (s * |r|) + |m|) + 2 * η)) ∧
    ((FSample.laplace d rnd).finite → (FSample.laplace d rnd).Within (m + s * r) (u * (3 * (s * |r|) + |m|) + 2 * η)) ∧
    (FSample.normalJoint d rnd).1 = FSample.normal d rnd ∧ (FSample.gumbelJoint d rnd).1 = FSample.gumbel d rnd ∧
    (FSample.laplaceJoint d rnd).1 = FSample.laplace d rnd := by
  refine ⟨loc_scale_sample A hm hs s0 hr, loc_scale_sample A hm hs s0 hr, ?_, rfl, rfl, rfl⟩
  unfold FSample.laplace
  rw [add_comm' d.loc]
  exact loc_scale_sample A hm hs s0 hr

theorem std_back {m s r : ℝ} (s0 : 0 < s) : (m + s * r - m) / s = r := by field_simp; ring

/-- C78: the log-probability reported by `Normal.sample_and_log_prob` is the log-density at the unrounded sample. -/
theorem C78_normal_joint (A : F.Acc u η) (d : LS F) (rnd : FX F) {m s r : ℝ} (hs : d.scale.1 = fin s) (s0 : 0 < s)
    (hr : rnd.1 = fin r) (hf : (FSample.normalJoint d rnd).2.finite) :
    (FSample.normalJoint d rnd).2.Within ((⟨m, s⟩ : Normal).logProb (m + s * r)) (u * (3 * r ^ 2 + 3 * |Real.log s| + 4)) := by
  obtain ⟨f1, f2⟩ := sub_fin hf
  obtain ⟨f3, f4⟩ := sub_fin f1
  have f5 := (mul_fin f3).2
  have hsq := wu_mul A f5 (wu_exact (u := u) hr) (wu_exact (u := u) hr) le_rfl le_rfl
  have hh := wu_mul A f3 (wu_exact (u := u) (lit_val (x := -(1 / 2)) (F.rd_neg F.half))) hsq le_rfl (by positivity)
  have c0 := log_two_pi_nonneg
  have c1 := log_two_pi_le
  have hc : halfLog2pi = Real.log (2 * Real.pi) / 2 := by unfold halfLog2pi; ring
  have hcl := wu_lit A (c := Real.log (2 * Real.pi) / 2) (by rw [abs_of_nonneg (by linarith)]; linarith)
  have h1 := wu_sub A f1 hh hcl
  have h2 := wu_sub A hf h1 (wu_log A hs s0)
  have e : -(1 / 2) * (r * r) - Real.log (2 * Real.pi) / 2 - Real.log s = (⟨m, s⟩ : Normal).logProb (m + s * r) := by
    show _ = -0.5 * ((m + s * r - m) / s) ^ 2 - (halfLog2pi + Real.log s)
    rw [std_back s0, hc]; ring
  rw [← e]
  refine wu_mono A h2 ?_
  have zz : |r * r| = r ^ 2 := by rw [abs_mul_self]; ring
  have zh : |-(1 / 2) * (r * r)| = r ^ 2 / 2 := by rw [abs_mul, zz, abs_neg, abs_of_pos (by norm_num)]; ring
  have h12 : |(-(1 / 2) : ℝ)| = 1 / 2 := by rw [abs_neg, abs_of_pos (by norm_num)]
  have hcc : |Real.log (2 * Real.pi) / 2| ≤ 1 := by rw [abs_of_nonneg (by linarith)]; linarith
  have b1 := abs_sub (-(1 / 2) * (r * r)) (Real.log (2 * Real.pi) / 2)
  have b2 := abs_sub (-(1 / 2) * (r * r) - Real.log (2 * Real.pi) / 2) (Real.log s)
  have g0 := _root_.abs_nonneg (Real.log s)
  have r0 := sq_nonneg r
  rw [zh] at b1
  rw [zz, h12, zh]
  nlinarith

/-- C78: the same for `Laplace`. -/
theorem C78_laplace_joint (A : F.Acc u η) (d : LS F) (rnd : FX F) {m s r : ℝ} (hs : d.scale.1 = fin s) (s0 : 0 < s)
    (hr : rnd.1 = fin r) (hf : (FSample.laplaceJoint d rnd).2.finite) :
    (FSample.laplaceJoint d rnd).2.Within ((⟨m, s⟩ : Laplace).logProb (m + s * r)) (u * (3 * |r| + 3 * |Real.log s| + 4)) := by
  obtain ⟨f1, f2⟩ := sub_fin hf
  have l2 := log_two_abs
  have h1 := wu_sub A f1 (wu_neg (abs_within (wu_exact (u := u) hr))) (wu_lit A (c := Real.log 2) (by linarith))
  have h2 := wu_sub A hf h1 (wu_log A hs s0)
  have e : -|r| - Real.log 2 - Real.log s = (⟨m, s⟩ : Laplace).logProb (m + s * r) := by
    show _ = -|(m + s * r - m) / s| - Real.log 2 - Real.log s
    rw [std_back s0]
  rw [← e]
  refine wu_mono A h2 ?_
  have g0 := _root_.abs_nonneg (Real.log s)
  have r0 := _root_.abs_nonneg r
  have b1 := abs_sub (-|r|) (Real.log 2)
  have b2 := abs_sub (-|r| - Real.log 2) (Real.log s)
  have b3 : |(-|r|)| = |r| := by rw [abs_neg, abs_abs]
  rw [b3] at b1
  linarith

/-- C78: the same for `Gumbel`. -/
theorem C78_gumbel_joint (A : F.Acc u η) (d : LS F) (rnd : FX F) {m s r : ℝ} (hs : d.scale.1 = fin s) (s0 : 0 < s)
    (hr : rnd.1 = fin r) (hf : (FSample.gumbelJoint d rnd).2.finite) :
    (FSample.gumbelJoint d rnd).2.Within ((⟨m, s⟩ : Gumbel).logProb (m + s * r)) (u * (3 * |r| + 4 * Real.exp (-r) + 3 * |Real.log s| + 4)) := by
  obtain ⟨f1, f2⟩ := sub_fin hf
  have f3 := neg_finite.1 f1
  have f4 := (add_fin f3).2
  have hn : (-rnd).1 = fin (-r) := by rw [neg_val, hr]; rfl
  have he := wu_rd0 A (a := FX.exp (-rnd)) (x := Real.exp (-r)) (by rw [FX.exp, fn_val hn]; rfl) f4
  have h1 := wu_add A f3 (wu_exact (u := u) hr) he
  have h2 := wu_sub A hf (wu_neg h1) (wu_log A hs s0)
  have e : -(r + Real.exp (-r)) - Real.log s = (⟨m, s⟩ : Gumbel).logProb (m + s * r) := by
    show _ = -((m + s * r - m) / s + Real.exp (-((m + s * r - m) / s))) - Real.log s
    rw [std_back s0]
  rw [← e]
  refine wu_mono A h2 ?_
  have g0 := _root_.abs_nonneg (Real.log s)
  have r0 := _root_.abs_nonneg r
  have p0 := Real.exp_pos (-r)
  have b1 := abs_add_le r (Real.exp (-r))
  have b2 := abs_sub (-(r + Real.exp (-r))) (Real.log s)
  rw [abs_neg] at b2
  rw [abs_of_pos p0] at b1 ⊢
  linarith

/-- C78: `log_prob` of a sample is the log-density at the unrounded sample, up to what rounding the sample does: `δ` bounds the change of the
standardised value, `u (3 |rnd| + |loc| / scale)` when nothing underflows. -/
theorem C78_normal_own_partial (A : F.Acc u η) (d : LS F) (rnd : FX F) {m s r δ : ℝ} (hm : d.loc.1 = fin m) (hs : d.scale.1 = fin s) (s0 : 0 < s)
    (hr : rnd.1 = fin r) (hS : (FSample.normal d rnd).finite) (hf : (FloatNormal.logProb d (FSample.normal d rnd)).finite)
    (hδ : δ = u * (3 * |r| + |m| / s) + 2 * η / s) :
    (FloatNormal.logProb d (FSample.normal d rnd)).Within ((⟨m, s⟩ : Normal).logProb (m + s * r))
      (u * (8 * (r ^ 2 + δ ^ 2) + 4 * |Real.log s| + 4) + δ * (|r| + δ)) := by
  obtain ⟨S, hS1, hS2⟩ := (C78_location_scale A d rnd hm hs s0 hr).1 hS
  obtain ⟨y, hy, hb⟩ := C63_normal_log_prob A d _ m s S hm hs s0 hS1 hf
  refine ⟨y, hy, ?_⟩
  set t := (S - m) / s with ht
  have htr : |t - r| ≤ δ := by
    have e : t - r = (S - (m + s * r)) / s := by rw [ht]; field_simp; ring
    rw [e, abs_div, abs_of_pos s0, div_le_iff₀ s0, hδ]
    refine hS2.trans (le_of_eq ?_)
    field_simp
  have δ0 := (_root_.abs_nonneg _).trans htr
  have t2 : t ^ 2 ≤ 2 * (r ^ 2 + δ ^ 2) := by
    have h1 := abs_le.1 htr
    have h2 : (t - r) ^ 2 ≤ δ ^ 2 := by rw [← sq_abs]; exact pow_le_pow_left₀ (_root_.abs_nonneg _) htr 2
    nlinarith [sq_nonneg (t - 2 * r)]
  have e1 : |(⟨m, s⟩ : Normal).logProb S - (⟨m, s⟩ : Normal).logProb (m + s * r)| ≤ δ * (|r| + δ) := by
    have : (⟨m, s⟩ : Normal).logProb S - (⟨m, s⟩ : Normal).logProb (m + s * r) = -(1 / 2) * ((t - r) * (t + r)) := by
      show (-0.5 * ((S - m) / s) ^ 2 - (halfLog2pi + Real.log s)) - (-0.5 * ((m + s * r - m) / s) ^ 2 - (halfLog2pi + Real.log s)) = _
      rw [std_back s0, ← ht]; ring
    rw [this, abs_mul, abs_mul, abs_neg, abs_of_pos (by norm_num : (0 : ℝ) < 1 / 2)]
    have h1 : |t + r| ≤ 2 * |r| + δ := by
      have : t + r = (t - r) + 2 * r := by ring
      rw [this]
      refine (abs_add_le _ _).trans ?_
      rw [abs_mul, abs_of_pos (by norm_num : (0 : ℝ) < 2)]; linarith
    have h2 := mul_le_mul htr h1 (_root_.abs_nonneg _) δ0
    nlinarith [_root_.abs_nonneg r]
  have h3 := mul_le_mul_of_nonneg_left t2 A.u0
  have h4 := abs_sub_le y ((⟨m, s⟩ : Normal).logProb S) ((⟨m, s⟩ : Normal).logProb (m + s * r))
  linarith

/-- C78: the same for `Laplace`. -/
theorem C78_laplace_own_partial (A : F.Acc u η) (d : LS F) (rnd : FX F) {m s r δ : ℝ} (hm : d.loc.1 = fin m) (hs : d.scale.1 = fin s) (s0 : 0 < s)
    (hr : rnd.1 = fin r) (hS : (FSample.laplace d rnd).finite) (hf : (FloatLaplace.logProb d (FSample.laplace d rnd)).finite)
    (hδ : δ = u * (3 * |r| + |m| / s) + 2 * η / s) :
    (FloatLaplace.logProb d (FSample.laplace d rnd)).Within ((⟨m, s⟩ : Laplace).logProb (m + s * r))
      (u * (5 * (|r| + δ) + 4 * |Real.log s| + 4) + δ) := by
  obtain ⟨S, hS1, hS2⟩ := (C78_location_scale A d rnd hm hs s0 hr).2.2.1 hS
  obtain ⟨y, hy, hb⟩ := C63_laplace_log_prob A d _ m s S hm hs s0 hS1 hf
  refine ⟨y, hy, ?_⟩
  set t := (S - m) / s with ht
  have htr : |t - r| ≤ δ := by
    have e : t - r = (S - (m + s * r)) / s := by rw [ht]; field_simp; ring
    rw [e, abs_div, abs_of_pos s0, div_le_iff₀ s0, hδ]
    refine hS2.trans (le_of_eq ?_)
    field_simp
  have ta : |t| ≤ |r| + δ := by have := abs_sub_abs_le_abs_sub t r; linarith
  have e1 : |(⟨m, s⟩ : Laplace).logProb S - (⟨m, s⟩ : Laplace).logProb (m + s * r)| ≤ δ := by
    have : (⟨m, s⟩ : Laplace).logProb S - (⟨m, s⟩ : Laplace).logProb (m + s * r) = -(|t| - |r|) := by
      show (-|(S - m) / s| - Real.log 2 - Real.log s) - (-|(m + s * r - m) / s| - Real.log 2 - Real.log s) = _
      rw [std_back s0, ← ht]; ring
    rw [this, abs_neg]
    exact (abs_abs_sub_abs_le _ _).trans htr
  have h3 := mul_le_mul_of_nonneg_left ta A.u0
  have h4 := abs_sub_le y ((⟨m, s⟩ : Laplace).logProb S) ((⟨m, s⟩ : Laplace).logProb (m + s * r))
  linarith

/-- C78: in a format that rounds to nearest, a distribution never finds its own samples implausible: whatever the ratio of location and
scale, the standardised sample is at most about twice the draw. -/
theorem C78_own_bounded {p : ℕ} {emin emax : ℤ} (hI : IEEE p emin emax F.rd) (A : F.Acc u η) (d : LS F) (rnd : FX F) {m s r : ℝ}
    (hm : d.loc.1 = fin m) (hs : d.scale.1 = fin s) (s0 : 0 < s) (hr : rnd.1 = fin r) (hS : (FSample.normal d rnd).finite)
    (h1 : s * |r| ≤ F.top / 8) (h2 : |r| + η / s ≤ F.top / 8) :
    ∃ z, (d.standardize (FSample.normal d rnd)).1 = fin z ∧ |z| ≤ 3 * |r| + 4 * (η / s + η) := by
  have u0 := A.u0
  have ul := A.u_le
  have η0 := A.η0
  have ht := F.top_ge
  have r0 := _root_.abs_nonneg r
  have q0 : 0 ≤ η / s := div_nonneg η0 s0.le
  have ηs : η = s * (η / s) := by field_simp
  have η1 : η ≤ 1 := A.η_le.trans (by nlinarith)
  have a0 : 0 ≤ s * |r| := mul_nonneg s0.le r0
  obtain ⟨P, hP⟩ := (add_fin hS).1
  have hP' : F.rd (s * r) = fin P := by rw [mul_val, hs, hr, fin_mul] at hP; exact hP
  have Pe := A.err hP'
  rw [abs_mul, abs_of_pos s0] at Pe
  have Pa : |P| ≤ (1 + u) * (s * |r|) + η := by
    have := abs_sub_abs_le_abs_sub P (s * r)
    rw [abs_mul, abs_of_pos s0] at this
    linarith
  obtain ⟨S, hS1⟩ := hS
  have hS' : F.rd (P + m) = fin S := by
    have := hS1
    change (d.scale * rnd + d.loc).1 = _ at this
    rw [add_val, hP, hm, fin_add] at this; exact this
  have lim : |P + m| < ((2 : ℝ) ^ p - 1 / 2) * (2 : ℝ) ^ emax := by
    by_contra c
    push Not at c
    rcases le_abs.1 c with c | c
    · have := hI.above _ c; rw [hS'] at this; cases this
    · have := hI.below (P + m) (by linarith); rw [hS'] at this; cases this
  obtain ⟨y, -, hy, near⟩ := hI.near _ lim
  obtain rfl : S = y := by rw [hS'] at hy; exact fin.inj hy
  have mR : m ∈ binary p emin emax := (RoundsToNearest.mem hI (rep hm)).2
  have e1 := near m mR
  have e2 : |S - m| ≤ 2 * |P| := by
    have : S - m = (P + m - m) - (P + m - S) := by ring
    rw [this]
    refine (abs_sub _ _).trans ?_
    have h0 : P + m - m = P := by ring
    rw [h0] at e1 ⊢
    linarith
  have Pb : 2 * |P| ≤ 257 / 128 * (s * |r|) + 2 * η := by nlinarith
  obtain ⟨D, hD⟩ := fin_sub_of hS1 hm (by linarith)
  have hD' : F.rd (S - m) = fin D := by rw [sub_val, hS1, hm, fin_sub] at hD; exact hD
  have De : |D - (S - m)| ≤ u * |S - m| := by
    have := A.addErr (x := S) (y := -m) (z := D) (rep hS1) (F.rd_neg (rep hm)) (by rw [← sub_eq_add_neg]; exact hD')
    rwa [← sub_eq_add_neg] at this
  have Db : |D| ≤ 2.1 * (s * |r|) + 2.1 * η := by
    have := abs_sub_abs_le_abs_sub D (S - m)
    have := mul_le_mul_of_nonneg_right ul (_root_.abs_nonneg (S - m))
    nlinarith
  have Ds : |D / s| ≤ 2.1 * |r| + 2.1 * (η / s) := by
    rw [abs_div, abs_of_pos s0, div_le_iff₀ s0]
    nlinarith
  obtain ⟨z, hz⟩ := fin_div_of hD hs s0.ne' (by linarith)
  refine ⟨z, hz, ?_⟩
  have hz' : F.rd (D / s) = fin z := by
    rw [div_val, hD, hs] at hz
    change F.r (if s = 0 then _ else _) = _ at hz
    rw [if_neg s0.ne'] at hz; exact hz
  have ze := A.err hz'
  have := abs_sub_abs_le_abs_sub z (D / s)
  have := mul_le_mul_of_nonneg_right ul (_root_.abs_nonneg (D / s))
  linarith

/-- C78: but when the location is large compared with the scale, `sample_and_log_prob` and `log_prob` of the same sample disagree (here the
sample is the location itself, whatever was drawn: the draw 8 is reported as eight standard deviations out by one and as the mode by the
other). -/
theorem C78_joint_disagree : ∃ (d : LS F) (rnd : FX F), d.loc.finite ∧ Pos d.scale ∧ rnd.1 = fin 8 ∧
    (FSample.normalJoint d rnd).1 = d.loc ∧ (d.standardize (FSample.normalJoint d rnd).1).1 = fin 0 ∧
    FloatNormal.logProb d (FSample.normalJoint d rnd).1 = -(FloatNormal.halfLog2pi) ∧
    (FSample.normalJoint d rnd).2 ≤ lit (-16) := by
  have ht := F.top_ge
  have t1 : (lit F.top : FX F).1 = fin F.top := lit_val F.top_rep
  have h8 : (lit 8 : FX F).1 = fin 8 := lit_val (by simpa using F.small 8 (by norm_num))
  have hS : (lit 1 * lit 8 + lit F.top : FX F) = lit F.top := ext (by
    rw [one_mul', add_val, h8, t1, fin_add]
    obtain ⟨y, hy⟩ := F.fits (x := 8 + F.top) (by rw [abs_of_nonneg (by linarith)]; linarith)
    have h1 : y ≤ F.top := (le_abs_self y).trans (F.range hy)
    have h2 := F.mono (x := F.top) (y := 8 + F.top) (by linarith)
    rw [F.top_rep, hy, leB_fin] at h2
    show F.rd _ = _
    rw [hy, le_antisymm h1 h2])
  have hz : ((⟨lit F.top, lit 1⟩ : LS F).standardize (lit F.top)) = lit 0 := by
    unfold LS.standardize
    rw [sub_self' ⟨_, t1⟩, zero_div' lit_one one_pos]
  refine ⟨⟨lit F.top, lit 1⟩, lit 8, ⟨_, t1⟩, ⟨1, lit_one, one_pos⟩, h8, hS, ?_, ?_, ?_⟩
  · show ((⟨lit F.top, lit 1⟩ : LS F).standardize (lit 1 * lit 8 + lit F.top)).1 = _
    rw [hS, hz, lit_zero]
  · show FloatNormal.logProb ⟨lit F.top, lit 1⟩ (lit 1 * lit 8 + lit F.top) = _
    rw [hS]
    unfold FloatNormal.logProb
    rw [hz, log_one, add_zero', sub_eq]
    have : lit (-(1 / 2)) * square (lit 0 : FX F) = lit 0 := by
      unfold square
      have e : (lit 0 * lit 0 : FX F) = lit 0 := mul_pos_zero lit_zero
      rw [e, mul_comm', mul_comm', mul_pos_zero (x := -(1 / 2)) (lit_val (F.rd_neg F.half))]
    rw [this, zero_add']
  · have l0 : lit 0 ≤ (FloatNormal.halfLog2pi : FX F) := lit_le (by have := log_two_pi_nonneg; linarith)
    have hsq32 : (square (lit 8 : FX F)).1 = fin 64 := by
      show (lit 8 * lit 8 : FX F).1 = _
      rw [mul_val, h8, fin_mul]
      have a := F.double (F.rd_sixteen) (by rw [abs_of_pos] <;> linarith)
      have b := F.double a (by rw [abs_of_pos] <;> linarith)
      show F.rd _ = _
      have e : (8 : ℝ) * 8 = 2 * (2 * 16) := by norm_num
      rw [e, b]; norm_num
    have hh : (lit (-(1 / 2)) * square (lit 8 : FX F)) ≤ lit (-16) := by
      rw [le_def, mul_val, hsq32, lit_val (x := -(1 / 2)) (F.rd_neg F.half), fin_mul]
      exact F.mono (by norm_num)
    show lit (-(1 / 2)) * square (lit 8 : FX F) - FloatNormal.halfLog2pi - log (lit 1) ≤ _
    rw [log_one, sub_eq _ (lit 0), neg_zero', add_zero', sub_eq]
    refine (add_le hh.numL ?_ (neg_nonpos l0)).tr hh
    exact ne_pinf_of_le hh (by rw [abs_neg, abs_of_pos] <;> linarith)

/-! ### Logistic -/

/-- C78: the standard logistic draw is finite for every uniform draw, and is the logit of the draw up to rounding. -/
theorem C78_logistic_noise (A : F.Acc u η) (u0 : 0 < u) {w : FX F} {x : ℝ} (hw : w.1 = fin x) (hd : OpenUnitDraw u w) :
    (FSample.logisticNoise w).Within (Real.log (x / (1 - x))) (u * (4 * |Real.log x| + 4 * |Real.log (1 - x)| + 1)) := by
  obtain ⟨x', hx', x0, x1⟩ := hd
  obtain rfl : x' = x := by rw [hw] at hx'; exact (fin.inj hx').symm
  have x2 : x' < 1 := by linarith
  have hn : (-w).1 = fin (-x') := by rw [neg_val, hw]; rfl
  have f1 := log1p_neg_finite hw x0.le x2
  have h1 := wu_log A hw x0
  have h2 := wu_rd0 A (a := FX.log1p (-w)) (x := Real.log (1 - x')) (by
    rw [FX.log1p, fn_val hn, ← sub_eq_add_neg, XR.log_fin_pos (by linarith)]; rfl) f1
  have ht := F.top_ge
  have hlb := F.lb_le
  obtain ⟨v1, hv1, b1⟩ := h1
  obtain ⟨v2, hv2, b2⟩ := h2
  have L1 : |Real.log x'| ≤ F.lb := F.logs (rep hw) x0
  have L2 : |Real.log (1 - x')| ≤ F.lb := by
    by_cases c : 1 / 2 ≤ x'
    · exact F.logs (F.oneSub (rep hw) c x2.le) (by linarith)
    · push Not at c
      have h2 := F.logs F.rd_two (by norm_num)
      rw [abs_of_pos (Real.log_pos (by norm_num))] at h2
      refine le_trans ?_ h2
      rw [abs_of_nonpos (Real.log_nonpos (by linarith) (by linarith)), ← Real.log_inv]
      refine Real.log_le_log (by rw [inv_pos]; linarith) ?_
      rw [inv_le_comm₀ (by linarith) (by norm_num)]
      linarith
  have ul := A.u_le
  have B1 : |v1| ≤ F.lb + (F.lb + 1) / 256 := by
    have := abs_sub_abs_le_abs_sub v1 (Real.log x')
    have := mul_le_mul ul (add_le_add_left L1 (1 / 256)) (by positivity) (by norm_num)
    linarith
  have B2 : |v2| ≤ F.lb + (F.lb + 1) / 256 := by
    have := abs_sub_abs_le_abs_sub v2 (Real.log (1 - x'))
    have := mul_le_mul ul (add_le_add_left L2 (1 / 256)) (by positivity) (by norm_num)
    linarith
  have hf : (log w - log1p (-w)).finite := fin_sub_of hv1 hv2 (by
    have := abs_sub v1 v2
    linarith)
  have h3 := wu_sub A hf ⟨v1, hv1, b1⟩ ⟨v2, hv2, b2⟩
  rw [Real.log_div x0.ne' (by linarith)]
  refine wu_mono A h3 ?_
  have := abs_sub (Real.log x') (Real.log (1 - x'))
  have := _root_.abs_nonneg (Real.log x')
  have := _root_.abs_nonneg (Real.log (1 - x'))
  linarith

end Distrax
