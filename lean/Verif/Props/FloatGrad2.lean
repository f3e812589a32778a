import Verif.Props.FloatGrad

/-! C72 continued: the location-scale families and Uniform. -/

namespace Distrax

open FX Spec FloatGrad
open XR (fin pinf ninf nan leB ltB leB_fin leB_pinf ninf_leB pinf_leB leB_ninf fin_sub fin_mul fin_add infOf)

variable {F : Fmt}

/-- None of the three cotangents is `nan`. -/
def FloatGrad.LSPull.Num (p : LSPull F) : Prop := ¬ p.value.isNan ∧ ¬ p.loc.isNan ∧ ¬ p.scale.isNan

theorem ninf_le {a : FX F} (h : a.Num) : (negInf : FX F) ≤ a := ninf_leB h

theorem neg_one_val : (-(lit 1) : FX F).1 = fin (-1) := by rw [neg_val, lit_one]; rfl

theorem div_fin_val {a b : FX F} {x y : ℝ} (ha : a.1 = fin x) (hb : b.1 = fin y) (hy : y ≠ 0) : (a / b).1 = F.rd (x / y) := by
  rw [div_val, ha, hb]
  show F.r (if y = 0 then _ else _) = _
  rw [if_neg hy]; rfl

theorem div_zero_val {a b : FX F} {x : ℝ} (ha : a.1 = fin x) (hb : b.1 = fin 0) (hx : 0 < x) : (a / b).1 = pinf := by
  rw [div_val, ha, hb]
  show F.r (if (0 : ℝ) = 0 then infOf x else _) = _
  rw [if_pos rfl]; simp [infOf, hx]; rfl

/-- If `1 / scale**2` does not overflow, neither does `1 / scale`. -/
theorem inv_scale_finite {a : FX F} {s i : ℝ} (hs : a.1 = fin s) (s0 : 0 < s) (hi : (inv2 a).1 = fin i) :
    ((logR a).2 (-(lit 1))).finite := by
  have ht := F.top_ge
  suffices h : ∃ y, F.rd (1 / s) = fin y by
    obtain ⟨y, hy⟩ := h
    refine ⟨-y, ?_⟩
    simp only [logR]
    rw [div_fin_val neg_one_val hs s0.ne', neg_div]
    exact F.rd_neg hy
  rcases le_or_gt 1 s with h | h
  · refine F.fits ?_
    rw [abs_of_pos (by positivity)]
    exact (div_le_one s0 |>.2 h).trans (by linarith)
  · obtain ⟨q, hq, hm⟩ := rd_btw (x := s * s) (rep hs) (mem_uIcc_zero.2 (Or.inl ⟨by positivity, by nlinarith⟩))
    rw [Set.uIcc_of_le s0.le] at hm
    have h2 : (a * a).1 = fin q := by rw [mul_val, hs, fin_mul]; exact hq
    unfold inv2 at hi
    by_cases q0 : q = 0
    · rw [div_zero_val lit_one (q0 ▸ h2) one_pos] at hi; cases hi
    · rw [div_fin_val lit_one h2 q0] at hi
      have q1 : 0 < q := lt_of_le_of_ne hm.1 (Ne.symm q0)
      have g := F.mono (one_div_le_one_div_of_le q1 hm.2)
      have g0 := F.mono (show 0 ≤ 1 / s by positivity)
      rw [hi] at g
      rw [F.rd_zero] at g0
      cases e : F.rd (1 / s) with
      | fin y => exact ⟨y, rfl⟩
      | pinf => rw [e] at g; cases pinf_leB g
      | ninf => rw [e] at g0; cases leB_ninf g0
      | nan => exact absurd e (F.rd_ne_nan _)

theorem std_zero {d : LS F} (hd : d.Legal) {v : FX F} (h : (v - d.loc).1 = fin 0) : d.standardize v = lit 0 := by
  obtain ⟨s, hs, s0⟩ := hd.2
  unfold LS.standardize
  rw [show v - d.loc = lit 0 from ext (by rw [h, lit_zero]), zero_div' hs s0]

theorem sign_mem {z : FX F} (hz : z.Num) : ∃ t, (sign z).1 = fin t ∧ |t| ≤ 1 := by
  rcases fin_or hz with ⟨x, hx⟩ | h | h
  · rw [sign, fn_val hx]
    show ∃ t, F.rd _ = fin t ∧ _
    split_ifs
    · exact ⟨1, F.rd_one, by simp⟩
    · exact ⟨-1, F.rd_neg F.rd_one, by simp⟩
    · exact ⟨0, F.rd_zero, by simp⟩
  · exact ⟨1, by rw [sign, fn_pinf h]; exact F.rd_one, by simp⟩
  · exact ⟨-1, by rw [sign, fn_ninf h]; exact F.rd_neg F.rd_one, by simp⟩

/-- The cotangent that `Logistic.log_prob` sends to the standardised value. -/
theorem logistic_ct {z : FX F} (hz : z.Num) : ∃ y, (-(lit 1) + -((softplusR (-z)).2 (-(lit 1) * lit 2))).1 = fin y ∧ |y| ≤ 1 := by
  have h2 : (-(lit 1) * lit 2 : FX F).1 = fin (-2) := by
    rw [mul_val, neg_one_val, lit_two, fin_mul]
    show F.rd _ = _
    rw [show (-1 : ℝ) * 2 = -2 by norm_num]; exact F.rd_neg F.rd_two
  obtain ⟨k, hk, km⟩ := (softplus_pull (neg_num.2 hz) (rep h2) (btw_self h2)).neg
  rw [neg_neg, Set.uIcc_of_le (by norm_num)] at km
  obtain ⟨w, hw, hw'⟩ := rd_bound' (x := -1 + k) F.rd_one (abs_le.2 ⟨by linarith [km.1], by linarith [km.2]⟩)
  exact ⟨w, by rw [add_val, neg_one_val, hk, fin_add]; exact hw, hw'⟩

/-- `jax.grad` of `log_prob` of Normal, Laplace, Logistic and Gumbel with respect to value, location and scale: never `nan`, provided that
`value - loc` does not overflow and `1 / scale**2` neither overflows nor underflows (in `float32`: scales between `2**-63` and `2**63`). -/
theorem C72_log_prob_partial (d : LS F) (hd : d.Legal) (v : FX F) (hv : (v - d.loc).finite) (i : ℝ)
    (hi : (inv2 d.scale).1 = fin i) (i0 : 0 < i) :
    (normalLogProbPull d v (lit 1)).Num ∧ (laplaceLogProbPull d v (lit 1)).Num ∧ (logisticLogProbPull d v (lit 1)).Num ∧
    (gumbelLogProbPull d v (lit 1)).Num := by
  obtain ⟨s, hs, s0⟩ := hd.2
  have hz : (d.standardize v).Num := div_num_pos hv.num hs s0
  have hdir := inv_scale_finite hs s0 hi
  refine ⟨?_, ?_, ?_, ?_⟩
  · refine standardize_pull hd hi i0 hv ?_ (fun h => ⟨0, ?_, by simp⟩) hdir
    · rw [one_mul']
      exact mul_num lit_neg_half (by norm_num) (mul_num lit_two (by norm_num) hz)
    · rw [std_zero hd h, one_mul', mul_pos_zero lit_two, mul_val, lit_neg_half, lit_zero, fin_mul, mul_zero]
      exact F.rd_zero
  · obtain ⟨t, ht, t1⟩ := sign_mem hz
    have e : (-(lit 1) * sign (d.standardize v)).1 = fin (-t) := by
      rw [mul_val, neg_one_val, ht, fin_mul, neg_one_mul]
      exact rep (a := -(sign (d.standardize v))) (by rw [neg_val, ht]; rfl)
    exact standardize_pull hd hi i0 hv (finite.num ⟨_, e⟩) (fun _ => ⟨-t, e, by rwa [abs_neg]⟩) hdir
  · obtain ⟨y, hy, hy'⟩ := logistic_ct hz
    exact standardize_pull hd hi i0 hv (finite.num ⟨_, hy⟩) (fun _ => ⟨y, hy, hy'⟩) hdir
  · have e : (expR (-(d.standardize v))).2 (-(lit 1)) = -(exp (-(d.standardize v))) := by
      simp only [expR]
      exact ext (by
        rw [mul_val, neg_val, lit_one, neg_val]
        have hn := exp_nonneg (neg_num.2 hz)
        have r := (exp (-(d.standardize v))).2
        generalize (exp (-(d.standardize v))).1 = q at r ⊢
        cases q with
        | fin q => show F.rd (-1 * q) = _; rw [neg_one_mul, F.odd]; show -(F.r (fin q)) = _; rw [r]
        | pinf => show F.r (infOf (-1)) = _; unfold infOf; rw [if_neg (by norm_num), if_pos (by norm_num)]; rfl
        | ninf => show F.r (infOf (- -1)) = _; unfold infOf; rw [if_pos (by norm_num)]; rfl
        | nan => rfl)
    refine standardize_pull hd hi i0 hv ?_ (fun h => ⟨0, ?_, by simp⟩) hdir
    · rw [e, neg_neg'']
      exact add_num_fin ⟨_, neg_one_val⟩ (exp_num (neg_num.2 hz))
    · rw [e, neg_neg'', std_zero hd h, neg_zero', exp_zero, add_val, neg_one_val, lit_one, fin_add]
      norm_num; exact F.rd_zero

/-- Where `1 / scale**2` overflows the scale gradient at `value == loc`, the mode, is `nan` for all four families, although `log_prob` there
is a number.  In `float16` this happens for every scale up to `2**-9`, in `float32` for every scale up to `2**-65`. -/
theorem C72_small_scale_nan (d : LS F) (hd : d.Legal) (hi : (inv2 d.scale).1 = pinf) :
    (normalLogProbPull d d.loc (lit 1)).scale.isNan ∧ (laplaceLogProbPull d d.loc (lit 1)).scale.isNan ∧
    (logisticLogProbPull d d.loc (lit 1)).scale.isNan ∧ (gumbelLogProbPull d d.loc (lit 1)).scale.isNan ∧
    (FloatNormal.logProb d d.loc).finite ∧ (FloatLaplace.logProb d d.loc).finite ∧ ¬ (FloatLogistic.logProb d d.loc).isNan ∧
    ¬ (FloatGumbel.logProb d d.loc).isNan := by
  have key : ∀ gz direct : FX F, (standardizePull d d.loc gz direct).scale.isNan := by
    intro gz direct
    refine nan_add (Or.inl (nan_neg ?_))
    rw [sub_self' hd.1]
    by_cases c : (gz * inv2 d.scale).isNan
    · exact nan_mul (Or.inl c)
    · have : (gz * inv2 d.scale).isInf := by
        show (gz * inv2 d.scale).1 = pinf ∨ (gz * inv2 d.scale).1 = ninf
        have c' : ¬ (gz * inv2 d.scale).1 = nan := c
        rw [mul_val, hi] at c' ⊢
        generalize gz.1 = q at c' ⊢
        cases q with
        | fin q =>
          change ¬ F.r (infOf q) = nan at c'
          show F.r (infOf q) = pinf ∨ F.r (infOf q) = ninf
          unfold infOf at c' ⊢
          split_ifs at c' ⊢
          · exact Or.inl rfl
          · exact Or.inr rfl
          · exact absurd rfl c'
        | pinf => exact Or.inl rfl
        | ninf => exact Or.inr rfl
        | nan => exact absurd rfl c'
      rw [FX.mul_comm']
      exact zero_mul_inf lit_zero this
  have hz := std_loc hd
  have n0 : (d.standardize d.loc).1 ≠ ninf := by rw [hz]; simp
  refine ⟨key _ _, key _ _, key _ _, key _ _, ?_, ?_, ?_, ?_⟩
  · unfold FloatNormal.logProb
    rw [hz]
    have : lit (-(1 / 2)) * square (lit 0 : FX F) = lit 0 := by
      unfold square
      rw [mul_pos_zero lit_zero, mul_pos_zero lit_neg_half]
    rw [this, sub_eq, zero_add']
    exact neg_finite.2 (normal_const_finite hd)
  · unfold FloatLaplace.logProb
    rw [hz]
    have e : FX.abs (lit 0 : FX F) = lit 0 := ext (by rw [FX.abs, fn_val lit_zero, abs_zero, lit_zero]; exact F.rd_zero)
    rw [e, neg_zero', sub_eq, sub_eq, zero_add']
    obtain ⟨y, hy, hl⟩ := (by obtain ⟨s, hs, s0⟩ := hd.2; exact log_finite hs s0 : ∃ y, (log d.scale).1 = fin y ∧ |y| ≤ F.lb)
    obtain ⟨w, hw, w0, w1⟩ := unit_val (lit_log2_mem (F := F)).1 lit_log2_mem.2
    have := F.lb_le; have := F.top_ge
    refine fin_add_of (v := -w) (w := -y) (by rw [neg_val, hw]; rfl) (by rw [neg_val, hy]; rfl) ?_
    rw [abs_le] at hl ⊢
    constructor <;> linarith [hl.1, hl.2]
  · intro h
    exact n0 ((C61_logistic d hd d.loc hd.1).1 h)
  · intro h
    exact n0 ((C61_gumbel d hd d.loc hd.1).1 h)

/-- `1 / scale**2` overflows for small scales. -/
theorem inv2_over {a : FX F} {s b : ℝ} (hs : a.1 = fin s) (s0 : 0 < s) (hsb : s ≤ b) (hb : F.rd (b * b) = fin (b * b))
    (ht : 2 * F.top ≤ 1 / (b * b)) : (inv2 a).1 = pinf := by
  obtain ⟨q, hq, hm⟩ := rd_btw (x := s * s) hb (mem_uIcc_zero.2 (Or.inl ⟨by positivity, by nlinarith⟩))
  rw [Set.uIcc_of_le (by nlinarith)] at hm
  have h2 : (a * a).1 = fin q := by rw [mul_val, hs, fin_mul]; exact hq
  unfold inv2
  by_cases q0 : q = 0
  · exact div_zero_val lit_one (q0 ▸ h2) one_pos
  · rw [div_fin_val lit_one h2 q0]
    have q1 : 0 < q := lt_of_le_of_ne hm.1 (Ne.symm q0)
    exact F.over (ht.trans (one_div_le_one_div_of_le q1 hm.2))

theorem ieee_pow {p : ℕ} {emin emax k : ℤ} {rd : ℝ → XR} (h : IEEE p emin emax rd) (hp : 1 ≤ p) (h0 : emin ≤ k) (h1 : k ≤ emax) :
    rd ((2 : ℝ) ^ k) = fin ((2 : ℝ) ^ k) := by
  refine RoundsToNearest.rep h ⟨1, k, ?_, h0, h1, by simp⟩ ?_
  · rw [abs_one]; exact one_lt_pow₀ (by norm_num) (by omega)
  · rw [abs_of_pos (two_zpow_pos k)]
    have a : (2 : ℝ) ^ k ≤ (2 : ℝ) ^ emax := zpow_le_zpow_right₀ (by norm_num) h1
    have b : (2 : ℝ) ≤ (2 : ℝ) ^ p := le_self_pow₀ (by norm_num) (by omega)
    have c := two_zpow_pos emax
    nlinarith

theorem C72_small_scale_formats :
    (∀ rd, IEEE 11 (-24) 5 rd → ∃ F : Fmt, F.rd = rd ∧ ∀ d : LS F, d.Legal → (∀ s, d.scale.1 = fin s → s ≤ (2 : ℝ) ^ (-9 : ℤ)) →
      (normalLogProbPull d d.loc (lit 1)).scale.isNan ∧ (laplaceLogProbPull d d.loc (lit 1)).scale.isNan ∧
      (logisticLogProbPull d d.loc (lit 1)).scale.isNan ∧ (gumbelLogProbPull d d.loc (lit 1)).scale.isNan) ∧
    (∀ rd, IEEE 24 (-149) 104 rd → ∃ F : Fmt, F.rd = rd ∧ ∀ d : LS F, d.Legal → (∀ s, d.scale.1 = fin s → s ≤ (2 : ℝ) ^ (-65 : ℤ)) →
      (normalLogProbPull d d.loc (lit 1)).scale.isNan ∧ (laplaceLogProbPull d d.loc (lit 1)).scale.isNan ∧
      (logisticLogProbPull d d.loc (lit 1)).scale.isNan ∧ (gumbelLogProbPull d d.loc (lit 1)).scale.isNan) := by
  refine ⟨fun rd h => ?_, fun rd h => ?_⟩
  · obtain ⟨F, hF, ht⟩ := C61_formats.1 rd h
    refine ⟨F, hF, fun d hd hb => ?_⟩
    obtain ⟨s, hs, s0⟩ := hd.2
    have r : F.rd ((2 : ℝ) ^ (-18 : ℤ)) = _ := hF ▸ ieee_pow h (by norm_num) (by norm_num) (by norm_num)
    have e : (2 : ℝ) ^ (-9 : ℤ) * (2 : ℝ) ^ (-9 : ℤ) = (2 : ℝ) ^ (-18 : ℤ) := by norm_num
    have := C72_small_scale_nan d hd (inv2_over hs s0 (hb s hs) (by rw [e]; exact r) (by rw [ht]; norm_num))
    exact ⟨this.1, this.2.1, this.2.2.1, this.2.2.2.1⟩
  · obtain ⟨F, hF, ht⟩ := C61_formats.2.2.1 rd h
    refine ⟨F, hF, fun d hd hb => ?_⟩
    obtain ⟨s, hs, s0⟩ := hd.2
    have r : F.rd ((2 : ℝ) ^ (-130 : ℤ)) = _ := hF ▸ ieee_pow h (by norm_num) (by norm_num) (by norm_num)
    have e : (2 : ℝ) ^ (-65 : ℤ) * (2 : ℝ) ^ (-65 : ℤ) = (2 : ℝ) ^ (-130 : ℤ) := by norm_num
    have := C72_small_scale_nan d hd (inv2_over hs s0 (hb s hs) (by rw [e]; exact r) (by rw [ht]; norm_num))
    exact ⟨this.1, this.2.1, this.2.2.1, this.2.2.2.1⟩

/-! ### Distribution functions -/

/-- The gradients of `Laplace.cdf` and `Logistic.cdf` are not `nan` if `value - loc` and `1 / scale**2` do not overflow; that of `Gumbel.cdf` is
`nan` exactly when `exp(-z)` overflows for the standardised value `z`. -/
theorem C72_cdf_partial (d : LS F) (hd : d.Legal) (v : FX F) (hv : (v - d.loc).finite) (i : ℝ)
    (hi : (inv2 d.scale).1 = fin i) (i0 : 0 < i) :
    (laplaceCdfPull d v (lit 1)).Num ∧ (logisticCdfPull d v (lit 1)).Num ∧
    ((d.standardize v).finite → (((gumbelCdfPull d v (lit 1)).value.isNan ↔ (exp (-(d.standardize v))).1 = pinf) ∧
      ((exp (-(d.standardize v))).1 ≠ pinf → (gumbelCdfPull d v (lit 1)).Num))) := by
  obtain ⟨s, hs, s0⟩ := hd.2
  have hz : (d.standardize v).Num := div_num_pos hv.num hs s0
  have h0 : (lit 0 : FX F).finite := ⟨0, lit_zero⟩
  refine ⟨?_, ?_, fun hf => ?_⟩
  · obtain ⟨t, ht, t1⟩ := sign_mem hz
    have hz0 := FX.abs_nonneg hz
    -- every factor has size at most one
    have hm : ∃ m, (expm1 (-(FX.abs (d.standardize v))) + lit 1).1 = fin m ∧ |m| ≤ 1 := by
      have lo : lit (-1) ≤ expm1 (-(FX.abs (d.standardize v))) := by
        have := expm1_mono (ninf_le (neg_num.2 hz0.numR))
        rwa [show expm1 (negInf : FX F) = lit (-1) from ext (by rw [expm1, fn_ninf rfl]; rfl)] at this
      have hi' : expm1 (-(FX.abs (d.standardize v))) ≤ lit 0 := by
        have := expm1_mono (neg_nonpos hz0)
        rwa [show expm1 (lit 0 : FX F) = lit 0 from ext (by rw [expm1, fn_val lit_zero, Real.exp_zero, sub_self]; rfl)] at this
      obtain ⟨m, hm⟩ := finite_of_le lo hi' (by have := F.top_ge; rw [abs_neg, abs_one]; linarith) zero_fits
      rw [le_def, hm, lit_neg_one, leB_fin] at lo
      rw [le_def, hm, lit_zero, leB_fin] at hi'
      obtain ⟨w, hw, hw'⟩ := rd_bound' (x := m + 1) F.rd_one (abs_le.2 ⟨by linarith, by linarith⟩)
      exact ⟨w, by rw [add_val, hm, lit_one, fin_add]; exact hw, hw'⟩
    have mulb : ∀ {a b : FX F} {x y : ℝ}, a.1 = fin x → |x| ≤ 1 → b.1 = fin y → |y| ≤ 1 → ∃ w, (a * b).1 = fin w ∧ |w| ≤ 1 := by
      intro a b x y ha hx hb hy
      obtain ⟨w, hw, hw'⟩ := rd_bound' (x := x * y) F.rd_one (by
        rw [abs_mul]; nlinarith [_root_.abs_nonneg x, _root_.abs_nonneg y])
      exact ⟨w, by rw [mul_val, ha, hb, fin_mul]; exact hw, hw'⟩
    obtain ⟨m, hm, m1⟩ := hm
    obtain ⟨c, hc, c1⟩ := mulb (lit_half (F := F)) (by norm_num [abs_of_pos]) ht t1
    obtain ⟨a, ha, a1⟩ := mulb (neg_one_val (F := F)) (by simp) hc c1
    obtain ⟨b, hb, b1⟩ := mulb ha a1 hm m1
    obtain ⟨w, hw, w1⟩ := mulb (a := -(-(lit 1) * (lit (1 / 2) * sign (d.standardize v)) * (expm1 (-(FX.abs (d.standardize v))) + lit 1)))
      (x := -b) (by rw [neg_val, hb]; rfl) (by rwa [abs_neg]) ht t1
    exact standardize_pull hd hi i0 hv (finite.num ⟨w, hw⟩) (fun _ => ⟨w, hw, w1⟩) h0
  · obtain ⟨y, hy, hm⟩ := sigmoid_pull hz (lit_one (F := F))
    exact standardize_pull hd hi i0 hv (finite.num ⟨y, hy⟩) (fun _ => ⟨y, hy, by have := abs_le_of_btw hm; rwa [abs_one] at this⟩) h0
  · obtain ⟨-, g1, g2, -⟩ := C72_gumbel_cdf_partial (d.standardize v) (lit 1) hf 1 lit_one
    have key : (exp (-(d.standardize v))).1 ≠ pinf → (gumbelCdfPull d v (lit 1)).Num := by
      intro h
      obtain ⟨y, hy⟩ := g2 h (by simp)
      refine standardize_pull hd hi i0 hv (finite.num ⟨y, hy⟩) (fun hz0 => ⟨y, hy, ?_⟩) h0
      -- at the location: exp(-1) times 1
      have hl := std_zero hd hz0
      have m1 := exp_le_one (a := -(lit 1 : FX F)) (by rw [le_def, neg_one_val, lit_zero, leB_fin]; norm_num)
      have m0 := exp_nonneg (a := -(lit 1 : FX F)) (finite.num ⟨_, neg_one_val⟩)
      obtain ⟨w, hw, w0, w1⟩ := unit_val m0 m1
      rw [hl] at hy
      simp only [gumbelCdfR, expR] at hy
      rw [neg_zero', exp_zero, mul_one', one_mul', neg_neg'', hw] at hy
      cases hy
      rwa [abs_of_nonneg w0]
    refine ⟨⟨fun h => ?_, fun h => nan_div (g1.2 h)⟩, key⟩
    by_contra k
    exact (key k).1 h

/-- `Laplace.cdf` at `value == loc`: the code's gradient with respect to value and location is 0, because `sign(0) = 0`, while the distribution
function has slope `1 / (2 * scale)` there. -/
theorem C72_laplace_cdf_at_loc (d : LS F) (m s : ℝ) (hm : d.loc.1 = fin m) (hs : d.scale.1 = fin s) (s0 : 0 < s) :
    (laplaceCdfPull d d.loc (lit 1)).value = lit 0 ∧ (laplaceCdfPull d d.loc (lit 1)).loc = lit 0 ∧
    HasDerivAt (⟨m, s⟩ : Laplace).cdf (1 / (2 * s)) m ∧ 1 / (2 * s) ≠ 0 := by
  have hd : d.Legal := ⟨⟨m, hm⟩, s, hs, s0⟩
  have hsign : sign (d.standardize d.loc) = lit 0 := by
    rw [std_loc hd]
    exact ext (by rw [sign, fn_val lit_zero]; simp; exact F.rd_zero)
  have hv : (laplaceCdfPull d d.loc (lit 1)).value = lit 0 := by
    simp only [laplaceCdfPull, standardizePull]
    rw [hsign, mul_pos_zero lit_half, mul_pos_zero neg_one_val]
    have hm : (expm1 (-(FX.abs (d.standardize d.loc))) + lit 1).finite := by
      have : expm1 (-(FX.abs (d.standardize d.loc))) = lit 0 := by
        rw [std_loc hd, show FX.abs (lit 0 : FX F) = lit 0 from ext (by rw [FX.abs, fn_val lit_zero, abs_zero, lit_zero]; exact F.rd_zero), neg_zero']
        exact ext (by rw [expm1, fn_val lit_zero, Real.exp_zero, sub_self]; rfl)
      rw [this, zero_add']; exact ⟨1, lit_one⟩
    rw [zero_mul_fin hm, neg_zero', mul_pos_zero lit_zero, zero_div' hs s0]
  refine ⟨hv, ?_, ?_, by positivity⟩
  · have : (laplaceCdfPull d d.loc (lit 1)).loc = -(laplaceCdfPull d d.loc (lit 1)).value := rfl
    rw [this, hv, neg_zero']
  · rw [Laplace.cdf_eq]
    have hstd : HasDerivAt stdLaplaceCdf (1 / 2) 0 := by
      have l : HasDerivWithinAt stdLaplaceCdf (1 / 2) (Set.Iic 0) 0 := by
        have := ((Real.hasDerivAt_exp 0).div_const 2).hasDerivWithinAt (s := Set.Iic 0)
        rw [Real.exp_zero] at this
        exact this.congr (fun x hx => by simp only [stdLaplaceCdf]; exact if_pos hx) (by simp [stdLaplaceCdf])
      have r : HasDerivWithinAt stdLaplaceCdf (1 / 2) (Set.Ici 0) 0 := by
        have h1 : HasDerivAt (fun z : ℝ => 1 - Real.exp (-z) / 2) (1 / 2) 0 := by
          have := (((hasDerivAt_neg (0 : ℝ)).exp).div_const 2).const_sub 1
          refine this.congr_deriv ?_
          rw [neg_zero, Real.exp_zero]; norm_num
        refine h1.hasDerivWithinAt.congr (fun x hx => ?_) (by simp [stdLaplaceCdf]; norm_num)
        simp only [stdLaplaceCdf]
        rcases eq_or_lt_of_le (show (0 : ℝ) ≤ x from hx) with e | h
        · rw [← e]; simp; norm_num
        · rw [if_neg (not_le.2 h)]
      have := l.union r
      rwa [Set.Iic_union_Ici, hasDerivWithinAt_univ] at this
    have hin : HasDerivAt (fun x : ℝ => (x - m) / s) (1 / s) m :=
      ((hasDerivAt_id m).sub_const m).div_const s
    have hc := HasDerivAt.comp (h₂ := stdLaplaceCdf) m (by simpa using hstd) hin
    exact hc.congr_deriv (by field_simp)

/-! ### Uniform -/

/-- `Uniform.log_prob`: if `1 / (high - low)**2` neither overflows nor underflows, the gradients with respect to `low` and `high` are not `nan`,
and 0 outside the support, where `log_prob` is `-inf`. -/
theorem C72_uniform_partial (low high v : FX F) (hl : low.finite) (hh : high.finite) (h : low < high) (i : ℝ)
    (hi : (inv2 (high - low)).1 = fin i) (i0 : 0 < i) :
    ¬ (uniformLogProbPull low high v (lit 1)).low.isNan ∧ ¬ (uniformLogProbPull low high v (lit 1)).high.isNan ∧
    (v < low ∨ high < v → (uniformLogProbPull low high v (lit 1)).low = lit 0 ∧ (uniformLogProbPull low high v (lit 1)).high = lit 0 ∧
      (FloatUniform.logProb low high v).1 = ninf) := by
  obtain ⟨r0, r1⟩ := range_pos hl hh h
  by_cases c : v < low ∨ high < v
  · have e : (uniformLogProbPull low high v (lit 1)).high = lit 0 := by
      simp only [uniformLogProbPull]
      rw [whr_pos c, zero_mul_fin ⟨i, hi⟩, mul_one', neg_zero']
    have e' : (uniformLogProbPull low high v (lit 1)).low = lit 0 := by
      have : (uniformLogProbPull low high v (lit 1)).low = -(uniformLogProbPull low high v (lit 1)).high := rfl
      rw [this, e, neg_zero']
    refine ⟨by rw [e']; exact lit_num 0, by rw [e]; exact lit_num 0, fun _ => ⟨e', e, ?_⟩⟩
    unfold FloatUniform.logProb FloatUniform.prob
    rw [whr_pos c, log, fn_val lit_zero]
    simp [XR.log]; rfl
  · have hp : lit 0 ≤ FloatUniform.prob low high v := by
      unfold FloatUniform.prob
      rw [whr_neg c]
      rcases fin_or r0.numR with ⟨r, hr⟩ | k | k
      · have rp : 0 < r := by
          rw [le_def, hr, lit_zero, leB_fin] at r0
          exact lt_of_le_of_ne r0 fun q => r1 (by rw [hr, ← q])
        have := div_pos_mono hr rp (lit_le (F := F) zero_le_one)
        rwa [zero_div' hr rp] at this
      · have : lit 1 / (high - low) = lit 0 := ext (by rw [div_val, lit_one, k]; rfl)
        rw [this]; exact rfl' (lit_num 0)
      · exact absurd k (ne_ninf_of_le r0 zero_fits)
    have hgp : ((logR (FloatUniform.prob low high v)).2 (lit 1)).Num := by
      simp only [logR]
      generalize FloatUniform.prob low high v = p at hp ⊢
      rcases fin_or hp.numR with ⟨q, hq⟩ | k | k
      · rw [le_def, hq, lit_zero, leB_fin] at hp
        rcases eq_or_lt_of_le hp with e | q0
        · show ¬ (lit 1 / p).1 = nan
          rw [div_zero_val lit_one (e ▸ hq) one_pos]; simp
        · exact div_num_pos (lit_num 1) hq q0
      · show ¬ (lit 1 / p).1 = nan
        rw [div_val, lit_one, k]
        show ¬ F.rd 0 = nan
        exact F.rd_ne_nan 0
      · exact absurd k (ne_ninf_of_le hp zero_fits)
    have e : (uniformLogProbPull low high v (lit 1)).high.Num := by
      simp only [uniformLogProbPull]
      rw [whr_neg c, mul_one', FX.mul_comm']
      exact neg_num.2 (mul_num hi i0.ne' hgp)
    have e' : (uniformLogProbPull low high v (lit 1)).low = -(uniformLogProbPull low high v (lit 1)).high := rfl
    exact ⟨by rw [e']; exact neg_num.2 e, e, fun k => absurd k c⟩

/-! ### Concrete cases -/

theorem inv2_one : (inv2 (lit 1 : FX F)).1 = fin 1 := by
  unfold inv2
  rw [one_mul', div_fin_val lit_one lit_one one_ne_zero, div_one]; exact F.rd_one

/-- The standard members of the families, at 3. -/
example : (normalLogProbPull (⟨lit 0, lit 1⟩ : LS F) (lit 3) (lit 1)).Num ∧ (laplaceLogProbPull (⟨lit 0, lit 1⟩ : LS F) (lit 3) (lit 1)).Num ∧
    (logisticLogProbPull (⟨lit 0, lit 1⟩ : LS F) (lit 3) (lit 1)).Num ∧ (gumbelLogProbPull (⟨lit 0, lit 1⟩ : LS F) (lit 3) (lit 1)).Num :=
  C72_log_prob_partial _ ⟨⟨0, lit_zero⟩, 1, lit_one, one_pos⟩ _
    (fin_sub_of lit_three lit_zero (by have := F.top_ge; rw [sub_zero, abs_of_pos (by norm_num)]; linarith)) 1 inv2_one one_pos

/-- Uniform(0, 1) at 3: outside the support. -/
example : (uniformLogProbPull (lit 0 : FX F) (lit 1) (lit 3) (lit 1)).low = lit 0 :=
  ((C72_uniform_partial (lit 0 : FX F) (lit 1) (lit 3) ⟨0, lit_zero⟩ ⟨1, lit_one⟩
    (by rw [lt_def, lit_zero, lit_one]; exact zero_lt_one (α := ℝ)) 1
    (by rw [show (lit 1 - lit 0 : FX F) = lit 1 by rw [sub_eq, neg_zero', add_zero']]; exact inv2_one) one_pos).2.2
    (Or.inr (by rw [lt_def, lit_one, lit_three]; show (1 : ℝ) < 3; norm_num))).1

/-- Sigmoid at 0: nothing overflows. -/
example : ∃ y, ((moreStableSigmoidR (lit 0 : FX F)).2 (lit 1)).1 = fin y ∧ y ∈ Set.uIcc 0 1 :=
  (C72_sigmoid_forward_partial (lit 0) (lit 1) (lit_num 0) 1 lit_one).2.2 (by rw [exp_zero]; simp)

/-- A `float32` of size 90 exists, so the `nan` is reached. -/
example (rd : ℝ → XR) (h : IEEE 24 (-149) 104 rd) : ∃ F : Fmt, F.rd = rd ∧ ∃ x : FX F, x.finite ∧ (moreStableSigmoidR x).1.finite ∧
    ((moreStableSigmoidR x).2 (lit 1)).isNan := by
  obtain ⟨F, hF, k⟩ := C72_sigmoid_nan.2 rd h
  have r : F.rd ((2 : ℝ) ^ (7 : ℤ)) = _ := hF ▸ ieee_pow h (by norm_num) (by norm_num) (by norm_num)
  refine ⟨F, hF, lit ((2 : ℝ) ^ (7 : ℤ)), ⟨_, r⟩, ?_, (k _ _ r (by norm_num)).1⟩
  have := (C72_sigmoid_forward_partial (lit ((2 : ℝ) ^ (7 : ℤ)) : FX F) (lit 1) (lit_num _) 1 lit_one).1
  exact finite_of_le this.2.1 this.2.2 zero_fits one_fits

end Distrax
