import Verif.Lemmas.FloatGrad
import Verif.Props.LocScale

/-!
C72: `jax.grad` in floating point.  For every floating-point format and all the inputs on which the forward pass is a number
(C61), is the gradient a number?  Sigmoid: no, above `log(top)` the discarded branch of `jnp.where` turns it into `nan`.
-/

namespace Distrax

open FX Spec FloatGrad
open XR (fin pinf ninf nan leB ltB leB_fin leB_pinf ninf_leB pinf_leB leB_ninf fin_sub fin_mul fin_add infOf)

variable {F : Fmt}

/-! ### Sigmoid -/

/-- `Sigmoid.forward`: for every input that is not `nan`, infinities included, the value lies in [0, 1]; the gradient is `nan` exactly when
`exp(x)` overflows, and otherwise a number between 0 and the cotangent `g`. -/
theorem C72_sigmoid_forward_partial (x g : FX F) (hx : ¬ x.isNan) (v : ℝ) (hg : g.1 = fin v) :
    ((moreStableSigmoidR x).1 = FloatBij.moreStableSigmoid x ∧ lit 0 ≤ (moreStableSigmoidR x).1 ∧ (moreStableSigmoidR x).1 ≤ lit 1) ∧
    (((moreStableSigmoidR x).2 g).isNan ↔ (exp x).1 = pinf) ∧
    ((exp x).1 ≠ pinf → ∃ y, ((moreStableSigmoidR x).2 g).1 = fin y ∧ y ∈ Set.uIcc 0 v) := by
  have key : (exp x).1 ≠ pinf → Btw v ((moreStableSigmoidR x).2 g) := by
    intro h
    obtain ⟨e, he, e0⟩ := exp_fin hx h
    simp only [moreStableSigmoidR]
    by_cases c : x < lit (-9)
    · rw [whr_pos c, whr_pos c, sigmoid_pull_zero hx, add_zero']
      obtain ⟨w, hw, w0, w1⟩ := unit_val (exp_small c).1 (exp_small c).2
      exact (btw_self hg).mul (rep hg) hw w0 w1
    · rw [whr_neg c, whr_neg c, show (expR x).2 (lit 0) = lit 0 from zero_mul_fin ⟨e, he⟩, zero_add']
      exact sigmoid_pull hx hg
  refine ⟨⟨rfl, (C61_sigmoid x hx).1⟩, ⟨fun h => ?_, fun h => ?_⟩, key⟩
  · by_contra k
    exact (key k).finite.num h
  · simp only [moreStableSigmoidR]
    rw [whr_neg (not_small_of_overflow h)]
    exact nan_add (Or.inl (zero_mul_inf lit_zero (Or.inl h)))

/-- `Sigmoid.forward_log_det_jacobian` of finite inputs: the gradient is `nan` exactly when `exp(x)` or `exp(-x)` overflows, although the
value is finite; otherwise it is a number at most as large as the cotangent. -/
theorem C72_sigmoid_log_det_partial (x g : FX F) (hx : x.finite) (v : ℝ) (hg : g.1 = fin v) :
    ((sigmoidFldjR x).1 = FloatBij.sigmoidFldj x ∧ (sigmoidFldjR x).1.finite) ∧
    (((sigmoidFldjR x).2 g).isNan ↔ (exp x).1 = pinf ∨ (exp (-x)).1 = pinf) ∧
    ((exp x).1 ≠ pinf → (exp (-x)).1 ≠ pinf → ∃ y, ((sigmoidFldjR x).2 g).1 = fin y ∧ |y| ≤ |v|) := by
  have hn : (-g).1 = fin (-v) := by rw [neg_val, hg]; rfl
  obtain ⟨a1, a2⟩ := stable_pull (x := -x) (neg_num.2 hx.num) hn
  obtain ⟨b1, b2⟩ := stable_pull hx.num hn
  have key : (exp x).1 ≠ pinf → (exp (-x)).1 ≠ pinf → ∃ y, ((sigmoidFldjR x).2 g).1 = fin y ∧ |y| ≤ |v| := by
    intro h k
    have := (a2 k).neg
    rw [neg_neg] at this
    exact this.sub_opp (rep hg) (b2 h)
  refine ⟨⟨rfl, (C61_sigmoid x hx.num).2.2 hx⟩, ⟨fun h => ?_, fun h => ?_⟩, key⟩
  · by_contra k
    push Not at k
    obtain ⟨y, hy, -⟩ := key k.1 k.2
    exact finite.num ⟨y, hy⟩ h
  · rcases h with h | h
    · exact nan_add (Or.inr (b1 h))
    · exact nan_add (Or.inl (nan_neg (a1 h)))

theorem one_add_neg {y : FX F} {t : ℝ} (hy : y.1 = fin t) (t1 : t < 1) (t0 : 0 < t) :
    ∃ w, (-y + lit 1).1 = fin w ∧ 0 < w := by
  obtain ⟨w, hw, hm⟩ := rd_btw (x := -t + 1) F.rd_one (mem_uIcc_zero.2 (Or.inl ⟨by linarith, by linarith⟩))
  rw [Set.uIcc_of_le zero_le_one] at hm
  refine ⟨w, by rw [add_val, neg_val, hy, lit_one]; exact hw, lt_of_le_of_ne hm.1 fun e => ?_⟩
  have := F.gradual (rep hy) F.rd_one t1
  rw [show (1 : ℝ) - t = -t + 1 by ring, hw, ← e] at this
  exact this rfl

theorem pos_div_same {a b c : FX F} {v s t : ℝ} (ha : Btw v a) (hb : b.1 = fin s) (s0 : 0 < s) (hc : c.1 = fin t) (t0 : 0 < t) :
    (a / b + a / c).Num := by
  have na := ha.finite.num
  obtain ⟨y, hy, -⟩ := ha
  rcases FX.le_total na (lit_num 0) with h | h
  · have p := div_pos_mono hb s0 h; have q := div_pos_mono hc t0 h
    rw [zero_div' hb s0] at p; rw [zero_div' hc t0] at q
    exact add_num_nonpos p q
  · have p := div_pos_mono hb s0 h; have q := div_pos_mono hc t0 h
    rw [zero_div' hb s0] at p; rw [zero_div' hc t0] at q
    exact add_num_nonneg p q

/-- `Sigmoid.inverse_and_log_det` on the open unit interval: the gradient of the inverse is not `nan`; the gradient of the log-determinant
is `nan` exactly when `exp(x)` or `exp(-x)` overflows for the computed inverse `x`. -/
theorem C72_sigmoid_inverse_partial (y g : FX F) (t v : ℝ) (hy : y.1 = fin t) (t0 : 0 < t) (t1 : t < 1) (hg : g.1 = fin v) :
    ((sigmoidInverseR y).1 = (FloatBij.sigmoidInverse y).1 ∧ (sigmoidInverseR y).1.finite ∧ (sigmoidIldjR y).1 = (FloatBij.sigmoidInverse y).2) ∧
    ¬ ((sigmoidInverseR y).2 g).isNan ∧
    (((sigmoidIldjR y).2 g).isNan ↔ (exp (sigmoidInverseR y).1).1 = pinf ∨ (exp (-(sigmoidInverseR y).1)).1 = pinf) := by
  obtain ⟨w, hw, w0⟩ := one_add_neg hy t1 t0
  have key : ∀ (c : FX F) (z : ℝ), c.1 = fin z → ¬ ((sigmoidInverseR y).2 c).isNan := by
    intro c z hc
    have e : -((log1pR (-y)).2 (-c)) = c / (-y + lit 1) := by
      simp only [log1pR]
      rw [neg_div' hw w0, neg_neg'']
    simp only [sigmoidInverseR]
    rw [e]
    exact pos_div_same (btw_self hc) hy t0 hw w0
  have hx : (sigmoidInverseR y).1.finite := by
    obtain ⟨a, ha, ha'⟩ := log_finite hy t0
    have hl : ∃ b, (log1p (-y)).1 = fin b ∧ |b| ≤ F.lb := by
      have h1 : (log1p (-y)).1 = F.rd (Real.log (1 + -t)) := by
        rw [log1p, fn_val (show (-y).1 = fin (-t) by rw [neg_val, hy]; rfl)]
        simp only [XR.log]
        rw [if_pos (by linarith)]; rfl
      rcases le_or_gt t (1 / 2) with c | c
      · have lo : -1 ≤ Real.log (1 + -t) := by
          have : Real.log (1 / 2) ≤ Real.log (1 + -t) := Real.log_le_log (by norm_num) (by linarith)
          rw [one_div, Real.log_inv] at this
          linarith [log2_bounds.2]
        have hi : Real.log (1 + -t) ≤ 0 := Real.log_nonpos (by linarith) (by linarith)
        have l1 : Real.log 2 ≤ F.lb := (le_abs_self _).trans (F.logs F.rd_two (by norm_num))
        have lo' : -F.lb ≤ Real.log (1 + -t) := by
          have : Real.log (1 / 2) ≤ Real.log (1 + -t) := Real.log_le_log (by norm_num) (by linarith)
          rw [one_div, Real.log_inv] at this
          linarith
        obtain ⟨b, hb, hb'⟩ := rd_bound' (x := Real.log (1 + -t)) F.lb_rep (abs_le.2 ⟨lo', by linarith [log2_bounds.1]⟩)
        exact ⟨b, by rw [h1, hb], hb'⟩
      · have r : F.rd (1 + -t) = fin (1 + -t) := by
          have := F.oneSub (rep hy) c.le t1.le; rwa [sub_eq_add_neg] at this
        have hb0 := F.logs r (by linarith)
        obtain ⟨b, hb, hb'⟩ := rd_bound' F.lb_rep hb0
        exact ⟨b, by rw [h1, hb], hb'⟩
    obtain ⟨b, hb, hb'⟩ := hl
    refine fin_sub_of ha hb ?_
    have := F.lb_le; have l0 : 0 ≤ F.lb := (_root_.abs_nonneg a).trans ha'
    calc |a - b| ≤ |a| + |b| := by rw [sub_eq_add_neg]; exact (abs_add_le a (-b)).trans (by rw [abs_neg])
      _ ≤ _ := by linarith
  refine ⟨⟨rfl, hx, rfl⟩, key g v hg, ?_⟩
  have hn : (-g).1 = fin (-v) := by rw [neg_val, hg]; rfl
  obtain ⟨-, s1, s2⟩ := C72_sigmoid_log_det_partial (sigmoidInverseR y).1 (-g) hx (-v) hn
  constructor
  · intro h
    by_contra k
    push Not at k
    obtain ⟨z, hz, -⟩ := s2 k.1 k.2
    exact key _ z hz h
  · intro h
    have := s1.2 h
    exact nan_add (Or.inl (nan_div this))

/-! ### Tanh -/

theorem Btw.two {v : ℝ} {a : FX F} (ha : Btw v a) (hv : F.rd v = fin v) (ht : 2 * |v| ≤ F.top) :
    ∃ y, (a * lit 2).1 = fin y ∧ y ∈ Set.uIcc 0 (2 * v) := by
  obtain ⟨y, hy, hm⟩ := ha
  have h2 : F.rd (2 * v) = fin (2 * v) := F.double hv (by rw [abs_mul]; simpa using ht)
  obtain ⟨z, hz, hz'⟩ := rd_btw (x := y * 2) h2 (mem_uIcc_zero.2 (by
    rcases mem_uIcc_zero.1 hm with ⟨p, q⟩ | ⟨p, q⟩
    · exact Or.inl ⟨by linarith, by linarith⟩
    · exact Or.inr ⟨by linarith, by linarith⟩))
  exact ⟨z, by rw [mul_val, hy, lit_two, fin_mul]; exact hz, hz'⟩

/-- `Tanh.forward`: the gradient is a number for every input that is not `nan`, infinities included. -/
theorem C72_tanh_forward (x g : FX F) (hx : ¬ x.isNan) (v : ℝ) (hg : g.1 = fin v) (hv : 4 * |v| ≤ F.top) :
    (tanhR x).1 = tanh x ∧ ∃ y, ((tanhR x).2 g).1 = fin y ∧ y ∈ Set.uIcc 0 (4 * v) := by
  refine ⟨rfl, ?_⟩
  have v0 := _root_.abs_nonneg v
  obtain ⟨t0, t1⟩ := tanh_mem hx
  have tf := finite_of_le t0 t1 (by have := F.top_ge; rw [abs_neg, abs_one]; linarith) one_fits
  obtain ⟨t, ht⟩ := tf
  rw [le_def, ht, lit_neg_one, leB_fin] at t0
  rw [le_def, ht, lit_one, leB_fin] at t1
  have h2 : F.rd (2 * v) = fin (2 * v) := F.double (rep hg) (by rw [abs_mul, abs_of_pos (by norm_num : (0 : ℝ) < 2)]; linarith)
  have h4 : F.rd (4 * v) = fin (4 * v) := by
    have := F.double h2 (by rw [show 2 * (2 * v) = 4 * v by ring, abs_mul, abs_of_pos (by norm_num : (0 : ℝ) < 4)]; linarith)
    rwa [show 2 * (2 * v) = 4 * v by ring] at this
  have m1 : ∃ y, (lit 1 - tanh x).1 = fin y ∧ 0 ≤ y ∧ y ≤ 2 := by
    obtain ⟨y, hy, hm⟩ := rd_btw (x := 1 - t) F.rd_two (mem_uIcc_zero.2 (Or.inl ⟨by linarith, by linarith⟩))
    rw [Set.uIcc_of_le (by norm_num)] at hm
    exact ⟨y, by rw [sub_val, lit_one, ht, fin_sub]; exact hy, hm.1, hm.2⟩
  obtain ⟨q, hq, q0, q2⟩ := m1
  have mh : ∃ y, (g * (lit 1 - tanh x)).1 = fin y ∧ y ∈ Set.uIcc 0 (2 * v) := by
    obtain ⟨y, hy, hm⟩ := rd_btw (x := v * q) h2 (mem_uIcc_zero.2 (by
      rcases _root_.le_total 0 v with h | h
      · exact Or.inl ⟨by positivity, by nlinarith⟩
      · exact Or.inr ⟨by nlinarith, by nlinarith⟩))
    exact ⟨y, by rw [mul_val, hg, hq, fin_mul]; exact hy, hm⟩
  obtain ⟨y, hy, hm⟩ := mh
  simp only [tanhR]
  generalize g * (lit 1 - tanh x) = h at hy ⊢
  obtain ⟨z, hz, hz'⟩ := rd_bound' (x := y * t) (rd_abs (rep hy)) (by
    rw [abs_mul]; exact mul_le_of_le_one_right (_root_.abs_nonneg y) (abs_le.2 ⟨t0, t1⟩))
  rw [abs_le] at hz'
  obtain ⟨w, hw, hw'⟩ := rd_btw (x := y + z) h4 (mem_uIcc_zero.2 (by
    rcases mem_uIcc_zero.1 hm with ⟨p, r⟩ | ⟨p, r⟩
    · rw [abs_of_nonneg p] at hz'; exact Or.inl ⟨by linarith, by linarith⟩
    · rw [abs_of_nonpos r] at hz'; exact Or.inr ⟨by linarith, by linarith⟩))
  exact ⟨w, by rw [add_val, mul_val, hy, ht, fin_mul]; show F.r (fin y + F.rd (y * t)) = _; rw [hz, fin_add]; exact hw, hw'⟩

/-- `Tanh.forward_log_det_jacobian`: for every finite input the gradient is a number and at most twice the cotangent. -/
theorem C72_tanh_log_det (x g : FX F) (hx : x.finite) (v : ℝ) (hg : g.1 = fin v) (hv : 4 * |v| ≤ F.top) :
    (tanhFldjR x).1 = FloatBij.tanhFldj x ∧ ∃ y, ((tanhFldjR x).2 g).1 = fin y ∧ |y| ≤ 2 * |v| := by
  refine ⟨rfl, ?_⟩
  have v0 := _root_.abs_nonneg v
  have h2 : F.rd (2 * v) = fin (2 * v) := F.double (rep hg) (by rw [abs_mul, abs_of_pos (by norm_num : (0 : ℝ) < 2)]; linarith)
  have h4 : F.rd (4 * v) = fin (4 * v) := by
    have := F.double h2 (by rw [show 2 * (2 * v) = 4 * v by ring, abs_mul, abs_of_pos (by norm_num : (0 : ℝ) < 4)]; linarith)
    rwa [show 2 * (2 * v) = 4 * v by ring] at this
  have hh : (g * lit 2).1 = fin (2 * v) := by
    rw [mul_val, hg, lit_two, fin_mul, mul_comm]; exact h2
  have hn : (-(g * lit 2)).1 = fin (-(2 * v)) := by rw [neg_val, hh]; rfl
  have nx : (lit (-2) * x).Num := mul_num lit_neg_two (by norm_num) hx.num
  obtain ⟨k, hk, km⟩ := softplus_pull nx (rep hn) (btw_self hn)
  simp only [tanhFldjR]
  obtain ⟨m, hm, mm⟩ := rd_btw (x := k * (-2)) h4 (mem_uIcc_zero.2 (by
    rcases mem_uIcc_zero.1 km with ⟨p, r⟩ | ⟨p, r⟩
    · exact Or.inr ⟨by linarith, by linarith⟩
    · exact Or.inl ⟨by linarith, by linarith⟩))
  have r2 : F.rd (2 * |v|) = fin (2 * |v|) := by
    have := rd_abs h2; rwa [abs_mul, abs_of_pos (by norm_num : (0 : ℝ) < 2)] at this
  obtain ⟨w, hw, hw'⟩ := rd_bound' (x := -(2 * v) + m) r2 (by
    rw [abs_le]
    rcases mem_uIcc_zero.1 mm with ⟨p, r⟩ | ⟨p, r⟩ <;> constructor <;> cases abs_cases v <;> linarith)
  exact ⟨w, by rw [add_val, hn, mul_val, hk, lit_neg_two, fin_mul]; show F.r (_ + F.rd _) = _; rw [hm, fin_add]; exact hw, hw'⟩

/-! ### GumbelCDF -/

/-- `GumbelCDF.forward` of finite inputs: the gradient is `nan` exactly when `exp(-x)` overflows, although the value is 0 there, and a number
otherwise if the cotangent is at most 1.  The gradient of the log-determinant is not `nan` for nonzero cotangents. -/
theorem C72_gumbel_cdf_partial (x g : FX F) (hx : x.finite) (v : ℝ) (hg : g.1 = fin v) :
    ((gumbelCdfR x).1 = (FloatBij.gumbelCdf x).1 ∧ lit 0 ≤ (gumbelCdfR x).1 ∧ (gumbelCdfR x).1 ≤ lit 1) ∧
    (((gumbelCdfR x).2 g).isNan ↔ (exp (-x)).1 = pinf) ∧
    ((exp (-x)).1 ≠ pinf → |v| ≤ 1 → ((gumbelCdfR x).2 g).finite) ∧
    (gumbelCdfFldjR x).1 = (FloatBij.gumbelCdf x).2 ∧ (v ≠ 0 → ¬ ((gumbelCdfFldjR x).2 g).isNan) := by
  have nx : (-x).Num := neg_num.2 hx.num
  have e0 := exp_nonneg nx
  have en : (-(exp (-x))).Num := neg_num.2 e0.numR
  have m0 := exp_nonneg en
  have m1 := exp_le_one (neg_nonpos e0)
  obtain ⟨w, hw, w0, w1⟩ := unit_val m0 m1
  have hb : Btw v ((expR (-(exp (-x)))).2 g) := (btw_self hg).mul (rep hg) hw w0 w1
  have hn := hb.neg
  obtain ⟨y, hy, hm⟩ := hn
  refine ⟨⟨rfl, m0, m1⟩, ⟨fun h => ?_, fun h => ?_⟩, fun h hv => ?_, rfl, fun hv => ?_⟩
  · by_contra k
    obtain ⟨e, he, -⟩ := exp_fin nx k
    exact neg_num.2 (mul_num_fin ⟨y, hy⟩ ⟨e, he⟩) h
  · refine nan_neg (zero_mul_inf ?_ (Or.inl h))
    have e1 : exp (-(exp (-x))) = lit 0 := ext (by rw [exp, fn_ninf (by rw [neg_val, h]; rfl)]; rfl)
    show (-(g * exp (-(exp (-x))))).1 = _
    rw [e1, neg_val, mul_val, hg, lit_zero, fin_mul, mul_zero]
    show -(F.rd 0) = _
    rw [F.rd_zero, XR.neg_fin, neg_zero]
  · obtain ⟨e, he, e0⟩ := exp_fin nx h
    refine neg_finite.2 (fin_mul_of hy he ?_)
    have h1 : |y| ≤ 1 := (abs_le_of_btw hm).trans (by rwa [abs_neg])
    have := abs_le_top he
    rw [abs_mul]
    nlinarith [_root_.abs_nonneg y, _root_.abs_nonneg e]
  · have hng : (-g).1 = fin (-v) := by rw [neg_val, hg]; rfl
    exact add_num_fin ⟨_, hng⟩ (neg_num.2 (mul_num hng (neg_ne_zero.2 hv) e0.numR))

/-! ### Overflow in the usual formats -/

theorem exp_over {x : FX F} {t : ℝ} (hx : x.1 = fin t) (h : 2 * F.top ≤ Real.exp t) : (exp x).1 = pinf := by
  rw [exp, fn_val hx]; exact F.over h

theorem exp_twelve : (131008 : ℝ) ≤ Real.exp 12 := by
  have h := Real.exp_one_gt_d9
  have : Real.exp 12 = Real.exp 1 ^ 12 := by rw [← Real.exp_nat_mul]; norm_num
  rw [this]
  calc (131008 : ℝ) ≤ (2.7182818283 : ℝ) ^ 12 := by norm_num
    _ ≤ _ := pow_le_pow_left₀ (by norm_num) h.le 12

theorem exp_ninety : (2 : ℝ) ^ 129 ≤ Real.exp 90 := by
  have h := Real.exp_one_gt_d9
  have : Real.exp 90 = Real.exp 1 ^ 90 := by rw [← Real.exp_nat_mul]; norm_num
  rw [this]
  calc (2 : ℝ) ^ 129 ≤ (2.7182818283 : ℝ) ^ 90 := by norm_num
    _ ≤ _ := pow_le_pow_left₀ (by norm_num) h.le 90

/-- In `float16` from 12 on and in `float32` from 90 on: `jax.grad` of `Sigmoid.forward` and of its log-determinant is `nan`. -/
theorem C72_sigmoid_nan :
    (∀ rd, IEEE 11 (-24) 5 rd → ∃ F : Fmt, F.rd = rd ∧ ∀ (x : FX F) (t : ℝ), x.1 = fin t → 12 ≤ t →
      ((moreStableSigmoidR x).2 (lit 1)).isNan ∧ ((sigmoidFldjR x).2 (lit 1)).isNan ∧ ((sigmoidFldjR (-x)).2 (lit 1)).isNan ∧
      ((gumbelCdfR (-x)).2 (lit 1)).isNan) ∧
    (∀ rd, IEEE 24 (-149) 104 rd → ∃ F : Fmt, F.rd = rd ∧ ∀ (x : FX F) (t : ℝ), x.1 = fin t → 90 ≤ t →
      ((moreStableSigmoidR x).2 (lit 1)).isNan ∧ ((sigmoidFldjR x).2 (lit 1)).isNan ∧ ((sigmoidFldjR (-x)).2 (lit 1)).isNan ∧
      ((gumbelCdfR (-x)).2 (lit 1)).isNan) := by
  have key : ∀ {F : Fmt} (x : FX F) (t : ℝ), x.1 = fin t → 2 * F.top ≤ Real.exp t →
      ((moreStableSigmoidR x).2 (lit 1)).isNan ∧ ((sigmoidFldjR x).2 (lit 1)).isNan ∧ ((sigmoidFldjR (-x)).2 (lit 1)).isNan ∧
      ((gumbelCdfR (-x)).2 (lit 1)).isNan := by
    intro F x t hx h
    have hf : x.finite := ⟨t, hx⟩
    have e := exp_over hx h
    refine ⟨(C72_sigmoid_forward_partial x _ hf.num 1 lit_one).2.1.2 e, (C72_sigmoid_log_det_partial x _ hf 1 lit_one).2.1.2 (Or.inl e),
      (C72_sigmoid_log_det_partial (-x) _ (neg_finite.2 hf) 1 lit_one).2.1.2 (Or.inr (by rwa [neg_neg''])),
      (C72_gumbel_cdf_partial (-x) _ (neg_finite.2 hf) 1 lit_one).2.1.2 (by rwa [neg_neg''])⟩
  refine ⟨fun rd h => ?_, fun rd h => ?_⟩
  · obtain ⟨F, hF, ht⟩ := C61_formats.1 rd h
    refine ⟨F, hF, fun x t hx h => key x t hx ?_⟩
    rw [ht]
    have := Real.exp_le_exp.2 h
    linarith [exp_twelve]
  · obtain ⟨F, hF, ht⟩ := C61_formats.2.2.1 rd h
    refine ⟨F, hF, fun x t hx h => key x t hx ?_⟩
    rw [ht]
    have := Real.exp_le_exp.2 h
    have e := exp_ninety
    refine le_trans ?_ (e.trans this)
    norm_num

end Distrax
