import Verif.Lemmas.FloatSpline9
import Mathlib.Tactic

/-!
Lemmas for C79: the log-determinants at the knots.
-/

namespace Distrax.FSpline

open XR FX

variable {F : Fmt} {u η B : ℝ}

theorem fx_mul_zero {a : FX F} {x : ℝ} (h : a.1 = fin x) : a * lit 0 = lit 0 :=
  FX.ext (by rw [mul_val, h, lit_zero, fin_mul, MulZeroClass.mul_zero]; exact F.rd_zero)
theorem fx_add_zero {a : FX F} {x : ℝ} (h : a.1 = fin x) : a + lit 0 = a :=
  FX.ext (by rw [add_val, h, lit_zero, fin_add, _root_.add_zero]; exact rep h)
theorem fx_zero_add {a : FX F} {x : ℝ} (h : a.1 = fin x) : lit 0 + a = a :=
  FX.ext (by rw [add_val, h, lit_zero, fin_add, _root_.zero_add]; exact rep h)
theorem fx_sub_zero {a : FX F} {x : ℝ} (h : a.1 = fin x) : a - lit 0 = a := by
  have n : (-(lit 0 : FX F)).1 = fin 0 := by rw [neg_val, lit_zero]; show fin (-0) = _; rw [_root_.neg_zero]
  exact FX.ext (by rw [sub_val, h, lit_zero]; show F.r (fin (x - 0)) = _; rw [_root_.sub_zero]; exact rep h)
theorem fx_mul_one {a : FX F} {x : ℝ} (h : a.1 = fin x) : a * lit 1 = a :=
  FX.ext (by rw [mul_val, h, lit_one, fin_mul, _root_.mul_one]; exact rep h)

/-- The logarithms added up: twice the logarithm of the slope cancels. -/
theorem logs_acc (A : F.Acc u η) (hu : η ≤ u) {a b : FX F} {x y M : ℝ} (ha : a.1 = fin x) (hb : b.1 = fin y) (x0 : 0 < x) (y0 : 0 < y) (M1 : 1 ≤ M)
    (hx : |Real.log x| ≤ M) (hy : |Real.log y| ≤ M) :
    (lit 2 * FX.log a + FX.log b - lit 2 * FX.log a).Within (Real.log y) (u * (8 * M)) ∧
      (lit (-2) * FX.log a - FX.log b + lit 2 * FX.log a).Within (-Real.log y) (u * (8 * M)) ∧
      (FX.log b).Within (Real.log y) (u * (8 * M)) := by
  have u0 := A.u0
  have ul := A.u_le
  obtain ⟨p, hp, bp⟩ := log_finite ha x0
  obtain ⟨q, hq, bq⟩ := log_finite hb y0
  have lb := F.lb_le
  have l0 : 0 ≤ F.lb := (_root_.abs_nonneg p).trans bp
  have acc : ∀ {v : FX F} {s t : ℝ}, v.1 = fin s → 0 < s → |Real.log s| ≤ M → (FX.log v).1 = fin t → |t - Real.log s| ≤ 2 * (u * M) := by
    intro v s t hv hs hM ht
    have e : F.rd (Real.log s) = fin t := by
      rw [← ht, FX.log, fn_val hv, XR.log_fin_pos hs]; rfl
    have := A.err e
    have k := mul_le_mul_of_nonneg_left hM u0
    have k1 := mul_le_mul_of_nonneg_left M1 u0
    linarith
  have ap := acc ha x0 hx hp
  have aq := acc hb y0 hy hq
  have uM : u * M ≤ 1 / 256 * M := mul_le_mul_of_nonneg_right ul (by linarith)
  have uM0 : 0 ≤ u * M := by positivity
  have dbl : ∀ {v : FX F} {s : ℝ}, v.1 = fin s → |s| ≤ F.lb → (lit 2 * v).1 = fin (2 * s) := fun {v s} hv hs => by
    rw [mul_val, lit_two, hv, fin_mul]
    exact F.double (rep hv) (by rw [abs_mul, abs_of_pos (by norm_num : (0 : ℝ) < 2)]; linarith)
  have h1 := dbl hp bp
  have h1' : (lit (-2) * FX.log a).1 = fin (-(2 * p)) := by
    have e : (lit (-2) * FX.log a).1 = F.rd (-2 * p) := by rw [mul_val, lit_val (F.rd_neg F.rd_two), hp, fin_mul]; rfl
    have e2 : F.rd (2 * p) = fin (2 * p) := rep h1
    rw [e, neg_mul]; exact F.rd_neg e2
  obtain ⟨a1, a2⟩ := abs_le.1 bp
  obtain ⟨a3, a4⟩ := abs_le.1 bq
  obtain ⟨p1, p2⟩ := abs_le.1 ap
  obtain ⟨q1, q2⟩ := abs_le.1 aq
  obtain ⟨x1, x2⟩ := abs_le.1 hx
  obtain ⟨y1, y2⟩ := abs_le.1 hy
  refine ⟨?_, ?_, q, hq, by linarith⟩
  · obtain ⟨s, hs, bs, -⟩ := op_add A h1 hq (by rw [abs_le]; constructor <;> linarith)
    have k : |2 * p + q| ≤ 313 / 100 * M := by rw [abs_le]; constructor <;> linarith
    have k2 : u * |2 * p + q| ≤ u * (313 / 100 * M) := mul_le_mul_of_nonneg_left k u0
    have k3 : |2 * p + q| ≤ 3 * F.lb := by rw [abs_le]; constructor <;> linarith
    have k4 : u * |2 * p + q| ≤ 1 / 256 * (3 * F.lb) := mul_le_mul ul k3 (_root_.abs_nonneg _) (by norm_num)
    obtain ⟨c1, c2⟩ := abs_le.1 bs
    obtain ⟨c3, c4⟩ := abs_le.1 k3
    obtain ⟨z, hz, bz, -⟩ := op_sub A hs h1 (by rw [abs_le]; constructor <;> linarith)
    have k5 : |s - 2 * p| ≤ 11 / 10 * M := by rw [abs_le]; constructor <;> linarith
    have k6 : u * |s - 2 * p| ≤ u * (11 / 10 * M) := mul_le_mul_of_nonneg_left k5 u0
    obtain ⟨d1, d2⟩ := abs_le.1 bz
    exact ⟨z, hz, by rw [abs_le]; constructor <;> linarith⟩
  · obtain ⟨s, hs, bs, -⟩ := op_sub A h1' hq (by rw [abs_le]; constructor <;> linarith)
    have k : |-(2 * p) - q| ≤ 313 / 100 * M := by rw [abs_le]; constructor <;> linarith
    have k2 : u * |-(2 * p) - q| ≤ u * (313 / 100 * M) := mul_le_mul_of_nonneg_left k u0
    have k3 : |-(2 * p) - q| ≤ 3 * F.lb := by rw [abs_le]; constructor <;> linarith
    have k4 : u * |-(2 * p) - q| ≤ 1 / 256 * (3 * F.lb) := mul_le_mul ul k3 (_root_.abs_nonneg _) (by norm_num)
    obtain ⟨c1, c2⟩ := abs_le.1 bs
    obtain ⟨c3, c4⟩ := abs_le.1 k3
    obtain ⟨z, hz, bz, -⟩ := op_add A hs h1 (by rw [abs_le]; constructor <;> linarith)
    have k5 : |s + 2 * p| ≤ 11 / 10 * M := by rw [abs_le]; constructor <;> linarith
    have k6 : u * |s + 2 * p| ≤ u * (11 / 10 * M) := mul_le_mul_of_nonneg_left k5 u0
    obtain ⟨d1, d2⟩ := abs_le.1 bz
    exact ⟨z, hz, by rw [abs_le]; constructor <;> linarith⟩

/-- Logarithms of numbers between `2 / 5 / B^2` and `4 * B^2`. -/
theorem log_size (hB : 1 ≤ B) {s : ℝ} (h0 : 2 / 5 * (1 / B ^ 2) ≤ s) (h1 : s ≤ 4 * B ^ 2) : |Real.log s| ≤ Real.log (4 * B ^ 2) := by
  have B0 : 0 < B := by linarith
  have p : 0 < 2 / 5 * (1 / B ^ 2) := by positivity
  have sp : 0 < s := by linarith
  rw [abs_le]
  constructor
  · rw [_root_.neg_le, ← Real.log_inv]
    refine Real.log_le_log (inv_pos.2 sp) ?_
    rw [inv_le_comm₀ sp (by positivity)]
    refine le_trans ?_ h0
    rw [inv_eq_one_div, div_le_iff₀ (by positivity)]
    have : 2 / 5 * (1 / B ^ 2) * (4 * B ^ 2) = 8 / 5 := by field_simp; norm_num
    rw [this]; norm_num
  · exact Real.log_le_log sp h1

theorem one_le_log_size (hB : 1 ≤ B) : 1 ≤ Real.log (4 * B ^ 2) := by
  have : (1 : ℝ) ≤ B ^ 2 := one_le_pow₀ hB
  rw [Real.le_log_iff_exp_le (by linarith)]
  have := Real.exp_one_lt_d9
  linarith

/-- The log-derivatives of a segment at its left end. -/
theorem seg_left_logs (A : F.Acc u η) (R : Room F η B) {tiny x0 x1 y0 y1 d0 d1 : FX F} {τ X0 X1 Y0 Y1 a0 a1 : ℝ} (ht : tiny.1 = fin τ) (τ0 : 0 < τ) (τ1 : τ ≤ 1)
    (hx0 : x0.1 = fin X0) (hx1 : x1.1 = fin X1) (hy0 : y0.1 = fin Y0) (hy1 : y1.1 = fin Y1) (hd0 : d0.1 = fin a0) (hd1 : d1.1 = fin a1)
    (bx0 : |X0| ≤ B) (bx1 : |X1| ≤ B) (by0 : |Y0| ≤ B) (by1 : |Y1| ≤ B) (gx : 1 / B ≤ X1 - X0) (gy : 1 / B ≤ Y1 - Y0)
    (l0 : 1 / B ≤ a0) (l1 : 1 / B ≤ a1) (r0 : a0 ≤ B) (r1 : a1 ≤ B) :
    (segFwd x0 x1 y0 y1 d0 d1 x0).2.Within (Real.log a0) (u * (8 * Real.log (4 * B ^ 2))) ∧
      (segInv tiny x0 x1 y0 y1 d0 d1 y0).2.Within (-Real.log a0) (u * (8 * Real.log (4 * B ^ 2))) ∧
      (FX.log d0).Within (Real.log a0) (u * (8 * Real.log (4 * B ^ 2))) := by
  have hB := R.one
  have B0 : 0 < B := by linarith
  have iB : 0 < 1 / B := by positivity
  have iB2 : 0 < 1 / B ^ 2 := by positivity
  obtain ⟨e1, e2, k2, k3, k4, k5, k6, i8, i7, i5, i4, i2, i1⟩ := room_facts A R
  have hT := R.top
  have u0 := A.u0
  have e0 := A.η0
  have e1' : η ≤ 1 / 4096 * (1 / B ^ 8) := e1.trans (le_of_eq (by field_simp))
  obtain ⟨W, hW, rW, W0, W1, bW⟩ := seg_width A R hx0 hx1 bx0 bx1 gx
  obtain ⟨H, hH, rH, H0, H1, bH⟩ := seg_width A R hy0 hy1 by0 by1 gy
  obtain ⟨S, hS, S0, S1⟩ := seg_slope A R hH hW H0 H1 W0 W1
  have Wp : 0 < W := by linarith
  have Hp : 0 < H := by linarith
  have Sp : 0 < S := by linarith
  have a0p : 0 < a0 := by linarith
  have a1p : 0 < a1 := by linarith
  have hu : η ≤ u := by
    refine e2.trans (div_le_self u0 ?_)
    have : (1 : ℝ) ≤ B ^ 4 := one_le_pow₀ hB
    linarith
  obtain ⟨t, -, two, hτ, bτ, -⟩ := seg_den A (zm := lit 0) lit_zero le_rfl (by norm_num) hS Sp hd0 hd1 a0p a1p S1 (by linarith) (by linarith) (by linarith) (by linarith)
  have z : ∀ {a w : FX F} {x y : ℝ}, a.1 = fin x → w.1 = fin y → y ≠ 0 → clip01 ((a - a) / w) = lit 0 := fun {a w x y} ha hw h => by
    have e : (a - a) / w = lit 0 := FX.ext (by
      rw [div_val, sub_self' ⟨x, ha⟩, hw, lit_zero]
      show F.r (fin 0 / fin y) = _
      rw [div_fin_eq _ h, zero_div]; exact F.rd_zero)
    rw [e]
    exact clip01_id lit_zero le_rfl (by norm_num)
  have M1 := one_le_log_size hB
  have q1 : B ≤ 4 * B ^ 2 := by linarith
  have q2 : 2 / 5 * (1 / B ^ 2) ≤ 1 / B := by linarith
  obtain ⟨f1, f2, f3⟩ := logs_acc A hu hS hd0 Sp a0p M1 (log_size hB S0 S1) (log_size hB (q2.trans l0) (r0.trans q1))
  have zz : (lit 0 : FX F) * lit 0 = lit 0 := fx_mul_zero lit_zero
  have z1 : (lit 0 : FX F) - lit 0 = lit 0 := fx_sub_zero lit_zero
  have o1 : (lit 1 - lit 0) * (lit 1 - lit 0) = (lit 1 : FX F) := by rw [fx_sub_zero lit_one, fx_mul_one lit_one]
  have den : (y1 - y0) / (x1 - x0) + (d1 + d0 - lit 2 * ((y1 - y0) / (x1 - x0))) * lit 0 = (y1 - y0) / (x1 - x0) := by
    rw [fx_mul_zero hτ, fx_add_zero hS]
  have num : d1 * lit 0 + lit 2 * ((y1 - y0) / (x1 - x0)) * lit 0 + d0 * lit 1 = d0 := by
    rw [fx_mul_zero hd1, fx_mul_zero two, fx_mul_one hd0, fx_add_zero lit_zero, fx_zero_add hd0]
  refine ⟨?_, ?_, f3⟩
  · show (lit 2 * FX.log _ + FX.log _ - lit 2 * FX.log _ : FX F).Within _ _
    rw [z hx0 hW Wp.ne', zz, z1, o1, den, num]
    exact f1
  · have w0 := z hy0 hH Hp.ne'
    obtain ⟨α, β, γ, hγ, hβ, hα, bα, bβ, bγ, hneg, hzero, hw0⟩ := seg_coeffs A R hS S0 S1 hd0 hd1 l0 l1 r0 r1 lit_zero le_rfl (by norm_num) hτ bτ
    obtain ⟨g0, b0⟩ := hw0 rfl
    obtain ⟨-, r0'⟩ := root_num A R ht τ0 τ1 hα hβ hγ bα bβ bγ hneg hzero
    have rz := r0' g0 b0
    show (lit (-2) * FX.log _ - FX.log _ + lit 2 * FX.log _ : FX F).Within _ _
    rw [w0, rz, clip01_id lit_zero le_rfl (by norm_num), zz, z1, o1, den, num]
    exact f2

end Distrax.FSpline
