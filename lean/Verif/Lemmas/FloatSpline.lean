import Verif.Model.FloatSpline
import Verif.Spec.FloatSpline
import Verif.Lemmas.FloatViterbi
import Verif.Props.FloatAcc4
import Mathlib.Tactic

/-!
Lemmas for C79: one segment of the spline in floating point.
-/

namespace Distrax.FSpline

open XR FX

variable {F : Fmt} {u η : ℝ}

theorem rd_le {x x' y : ℝ} (h : F.rd x = fin x') (hy : F.rd y = fin y) (l : x ≤ y) : x' ≤ y := by
  have := F.mono l; rwa [h, hy, leB_fin] at this

theorem le_rd {x x' y : ℝ} (h : F.rd x = fin x') (hy : F.rd y = fin y) (l : y ≤ x) : y ≤ x' := by
  have := F.mono l; rwa [h, hy, leB_fin] at this

variable (A : F.Acc u η)
include A

theorem op_add {a b : FX F} {x y : ℝ} (ha : a.1 = fin x) (hb : b.1 = fin y) (h : |x + y| ≤ F.top) :
    ∃ z, (a + b).1 = fin z ∧ |z - (x + y)| ≤ u * |x + y| ∧ F.rd (x + y) = fin z := by
  obtain ⟨z, hz⟩ := fin_add_of ha hb (h.trans (by linarith))
  have e : F.rd (x + y) = fin z := by rw [add_val, ha, hb, fin_add] at hz; exact hz
  exact ⟨z, hz, A.addErr (rep ha) (rep hb) e, e⟩

theorem op_sub {a b : FX F} {x y : ℝ} (ha : a.1 = fin x) (hb : b.1 = fin y) (h : |x - y| ≤ F.top) :
    ∃ z, (a - b).1 = fin z ∧ |z - (x - y)| ≤ u * |x - y| ∧ F.rd (x - y) = fin z := by
  have hn : (-b).1 = fin (-y) := by rw [neg_val, hb]; rfl
  obtain ⟨z, hz, h1, h2⟩ := op_add A ha hn (by rwa [← sub_eq_add_neg])
  rw [← sub_eq_add_neg] at h1 h2
  exact ⟨z, by rw [sub_eq]; exact hz, h1, h2⟩

theorem op_mul {a b : FX F} {x y : ℝ} (ha : a.1 = fin x) (hb : b.1 = fin y) (h : |x * y| ≤ F.top) :
    ∃ z, (a * b).1 = fin z ∧ |z - x * y| ≤ u * |x * y| + η ∧ F.rd (x * y) = fin z := by
  obtain ⟨z, hz⟩ := fin_mul_of ha hb (h.trans (by linarith))
  have e : F.rd (x * y) = fin z := by rw [mul_val, ha, hb, fin_mul] at hz; exact hz
  exact ⟨z, hz, A.err e, e⟩

theorem op_div {a b : FX F} {x y : ℝ} (ha : a.1 = fin x) (hb : b.1 = fin y) (h0 : y ≠ 0) (h : |x / y| ≤ F.top) :
    ∃ z, (a / b).1 = fin z ∧ |z - x / y| ≤ u * |x / y| + η ∧ F.rd (x / y) = fin z := by
  obtain ⟨z, hz⟩ := fin_div_of ha hb h0 (h.trans (by linarith))
  have e : F.rd (x / y) = fin z := by
    rw [div_val, ha, hb] at hz
    have : (fin x / fin y : XR) = fin (x / y) := by show XR.div _ _ = _; simp [XR.div, h0]
    rw [this] at hz; exact hz
  exact ⟨z, hz, A.err e, e⟩

omit A in
theorem min_val {a b : FX F} (h : a.Num) (h' : b.Num) : FX.min a b = b ∧ b ≤ a ∨ FX.min a b = a ∧ a ≤ b := by
  unfold FX.min
  rcases max_val (neg_num.2 h) (neg_num.2 h') with ⟨e, l⟩ | ⟨e, l⟩
  · exact Or.inl ⟨by rw [e, neg_neg''], by have := neg_le l; rwa [neg_neg'', neg_neg''] at this⟩
  · exact Or.inr ⟨by rw [e, neg_neg''], by have := neg_le l; rwa [neg_neg'', neg_neg''] at this⟩

omit A in
theorem clip01_mem {v : FX F} (h : v.Num) : ∃ ζ, (clip01 v).1 = fin ζ ∧ 0 ≤ ζ ∧ ζ ≤ 1 := by
  have key : lit 0 ≤ clip01 v ∧ clip01 v ≤ lit 1 := by
    have z1 : (lit 0 : FX F) ≤ lit 1 := lit_le (by norm_num)
    unfold clip01
    rcases max_val h (lit_num 0) with ⟨e, l⟩ | ⟨e, l⟩ <;> rw [e]
    · rcases min_val (lit_num (F := F) 0) (lit_num 1) with ⟨e, l⟩ | ⟨e, l⟩ <;> rw [e]
      · exact ⟨z1, rfl' (lit_num _)⟩
      · exact ⟨rfl' (lit_num _), z1⟩
    · rcases min_val h (lit_num 1) with ⟨e, l'⟩ | ⟨e, l'⟩ <;> rw [e]
      · exact ⟨z1, rfl' (lit_num _)⟩
      · exact ⟨l, l'⟩
  obtain ⟨ζ, hζ⟩ := finite_of_le key.1 key.2 zero_fits one_fits
  have h0 := key.1
  have h1 := key.2
  rw [le_def, hζ, lit_zero, leB_fin] at h0
  rw [le_def, hζ, lit_one, leB_fin] at h1
  exact ⟨ζ, hζ, h0, h1⟩

omit A in
theorem clip01_id {v : FX F} {x : ℝ} (h : v.1 = fin x) (h0 : 0 ≤ x) (h1 : x ≤ 1) : clip01 v = v := by
  have n : v.Num := finite.num ⟨x, h⟩
  have l0 : (lit 0 : FX F) ≤ v := by rw [le_def, h, lit_zero, leB_fin]; exact h0
  have l1 : v ≤ lit 1 := by rw [le_def, h, lit_one, leB_fin]; exact h1
  unfold clip01
  have e : FX.max v (lit 0) = v := by
    rcases max_val n (lit_num 0) with ⟨e, l⟩ | ⟨e, l⟩
    · rw [e]; exact l0.asymm' l
    · exact e
  rw [e]
  rcases min_val n (lit_num 1) with ⟨e, l⟩ | ⟨e, l⟩
  · rw [e]; exact l.asymm' l1
  · exact e

/-- `z * z` and `z - z * z` for a position in the unit interval. -/
theorem seg_pos {z : FX F} {ζ : ℝ} (hz : z.1 = fin ζ) (z0 : 0 ≤ ζ) (z1 : ζ ≤ 1) :
    ∃ q m, (z * z).1 = fin q ∧ (z - z * z).1 = fin m ∧ 0 ≤ q ∧ q ≤ ζ ∧ |q - ζ * ζ| ≤ u * (ζ * ζ) + η ∧
      0 ≤ m ∧ m ≤ 13 / 50 ∧ |m - (ζ - q)| ≤ u * (ζ - q) := by
  have u0 := A.u0
  have ul := A.u_le
  have e0 := A.η0
  have el : η ≤ 1 / 65536 := A.η_le.trans (by nlinarith)
  have ht := F.top_ge
  have zz : ζ * ζ ≤ ζ := mul_le_of_le_one_left z0 z1
  have zz0 : 0 ≤ ζ * ζ := mul_nonneg z0 z0
  obtain ⟨q, hq, bq, rq⟩ := op_mul A hz hz (by rw [abs_of_nonneg zz0]; linarith)
  rw [abs_of_nonneg zz0] at bq
  have q0 : 0 ≤ q := le_rd rq F.rd_zero zz0
  have qz : q ≤ ζ := rd_le rq (rep hz) zz
  have c0 : 0 ≤ ζ - q := by linarith
  obtain ⟨m, hm, bm, rm⟩ := op_sub A hz hq (by rw [abs_of_nonneg c0]; linarith)
  rw [abs_of_nonneg c0] at bm
  have m0 : 0 ≤ m := le_rd rm F.rd_zero c0
  refine ⟨q, m, hq, hm, q0, qz, bq, m0, ?_, bm⟩
  have k1 := (abs_le.1 bq).1
  have k2 := (abs_le.1 bm).2
  have k3 : ζ - ζ * ζ ≤ 1 / 4 := by nlinarith [sq_nonneg (ζ - 1 / 2)]
  have k4 : u * (ζ * ζ) ≤ 1 / 256 * 1 := mul_le_mul ul (by linarith) zz0 (by norm_num)
  have k6 : ζ - q ≤ 2541 / 10000 := by linarith
  have k7 : u * (ζ - q) ≤ 1 / 256 * (2541 / 10000) := mul_le_mul ul k6 c0 (by norm_num)
  linarith

/-- The denominator is a positive float, near its exact value. -/
theorem seg_den {zm slope d0 d1 : FX F} {m S a0 a1 M : ℝ} (hm : zm.1 = fin m) (m0 : 0 ≤ m) (m1 : m ≤ 13 / 50) (hS : slope.1 = fin S) (S0 : 0 < S)
    (h0 : d0.1 = fin a0) (h1 : d1.1 = fin a1) (p0 : 0 < a0) (p1 : 0 < a1) (SM : S ≤ M) (M0 : a0 ≤ M) (M1 : a1 ≤ M) (Mt : 64 * M ≤ F.top)
    (ηS : 256 * η ≤ S) :
    ∃ t D, (lit 2 * slope).1 = fin (2 * S) ∧ (d1 + d0 - lit 2 * slope).1 = fin t ∧ |t - (a1 + a0 - 2 * S)| ≤ u * (3 * (a1 + a0) + 2 * S) ∧
      (slope + (d1 + d0 - lit 2 * slope) * zm).1 = fin D ∧ 9 / 20 * (S + (a1 + a0) * m) ≤ D ∧ D ≤ 8 * M ∧
      |D - (S + (a1 + a0 - 2 * S) * m)| ≤ u * (8 * (S + (a1 + a0) * m)) + 2 * η := by
  have u0 := A.u0
  have ul := A.u_le
  have e0 := A.η0
  have hs0 : 0 < a1 + a0 := by linarith
  obtain ⟨g, hg, bg, rg⟩ := op_add A h1 h0 (by rw [abs_of_pos hs0]; linarith)
  rw [abs_of_pos hs0] at bg
  have two : (lit 2 * slope).1 = fin (2 * S) := by
    rw [mul_val, lit_two, hS, fin_mul]
    exact F.double (rep hS) (by rw [abs_of_pos (by linarith)]; linarith)
  have ug : u * (a1 + a0) ≤ 1 / 256 * (a1 + a0) := mul_le_mul_of_nonneg_right ul hs0.le
  obtain ⟨g1, g2⟩ := abs_le.1 bg
  have gs : |g - 2 * S| ≤ 2 * (a1 + a0) + 2 * S := by rw [abs_le]; constructor <;> linarith
  obtain ⟨t, ht', bt, -⟩ := op_sub A hg two (by linarith)
  have bt' : |t - (a1 + a0 - 2 * S)| ≤ u * (3 * (a1 + a0) + 2 * S) := by
    have e : t - (a1 + a0 - 2 * S) = (t - (g - 2 * S)) + (g - (a1 + a0)) := by ring
    rw [e]
    refine (abs_add_le _ _).trans ?_
    have := mul_le_mul_of_nonneg_left gs u0
    linarith
  have tt : |t| ≤ 51 / 50 * (a1 + a0) + 101 / 50 * S := by
    have := abs_sub_abs_le_abs_sub t (a1 + a0 - 2 * S)
    have k : |a1 + a0 - 2 * S| ≤ (a1 + a0) + 2 * S := by rw [abs_le]; constructor <;> linarith
    have k2 : u * (3 * (a1 + a0) + 2 * S) ≤ 1 / 256 * (3 * (a1 + a0) + 2 * S) := mul_le_mul_of_nonneg_right ul (by linarith)
    linarith
  have tm : |t * m| ≤ 51 / 50 * ((a1 + a0) * m) + 101 / 50 * (S * m) := by
    rw [abs_mul, abs_of_nonneg m0]
    have := mul_le_mul_of_nonneg_right tt m0
    linarith
  have Sm : S * m ≤ S * (13 / 50) := mul_le_mul_of_nonneg_left m1 S0.le
  have Sm0 : 0 ≤ S * m := mul_nonneg S0.le m0
  have gm0 : 0 ≤ (a1 + a0) * m := mul_nonneg hs0.le m0
  have gm1 : (a1 + a0) * m ≤ (a1 + a0) * (13 / 50) := mul_le_mul_of_nonneg_left m1 hs0.le
  obtain ⟨P, hP, bP, -⟩ := op_mul A ht' hm (by linarith)
  have bP' : |P - (a1 + a0 - 2 * S) * m| ≤ u * (9 / 2 * ((a1 + a0) * m) + 9 / 2 * (S * m)) + η := by
    have e : P - (a1 + a0 - 2 * S) * m = (P - t * m) + (t - (a1 + a0 - 2 * S)) * m := by ring
    rw [e]
    refine (abs_add_le _ _).trans ?_
    rw [abs_mul _ m, abs_of_nonneg m0]
    have k1 := mul_le_mul_of_nonneg_right bt' m0
    have k2 := mul_le_mul_of_nonneg_left tm u0
    have k3 : 0 ≤ u * ((a1 + a0) * m) := mul_nonneg u0 gm0
    have k4 : 0 ≤ u * (S * m) := mul_nonneg u0 Sm0
    linarith
  have cu : u * (9 / 2 * ((a1 + a0) * m) + 9 / 2 * (S * m)) ≤ 1 / 256 * (9 / 2 * ((a1 + a0) * m) + 9 / 2 * (S * m)) :=
    mul_le_mul_of_nonneg_right ul (by linarith)
  obtain ⟨P1, P2⟩ := abs_le.1 bP'
  have sp0 : 23 / 50 * (S + (a1 + a0) * m) ≤ S + P := by linarith
  have sp1 : S + P ≤ 11 / 10 * (S + (a1 + a0) * m) := by linarith
  have spp : 0 ≤ S + P := by linarith
  obtain ⟨D, hD, bD, -⟩ := op_add A hS hP (by rw [abs_of_nonneg spp]; linarith)
  rw [abs_of_nonneg spp] at bD
  have uD : u * (S + P) ≤ 1 / 256 * (S + P) := mul_le_mul_of_nonneg_right ul spp
  obtain ⟨D1, D2⟩ := abs_le.1 bD
  refine ⟨t, D, two, ht', bt', hD, by linarith, by linarith, ?_⟩
  have e : D - (S + (a1 + a0 - 2 * S) * m) = (D - (S + P)) + (P - (a1 + a0 - 2 * S) * m) := by ring
  rw [e]
  refine (abs_add_le _ _).trans ?_
  have k := mul_le_mul_of_nonneg_left sp1 u0
  have k3 : 0 ≤ u * ((a1 + a0) * m) := mul_nonneg u0 gm0
  have k4 : u * (S * m) ≤ u * (S * (13 / 50)) := mul_le_mul_of_nonneg_left Sm u0
  have k5 : 0 ≤ u * S := mul_nonneg u0 S0.le
  linarith

/-- A square of a float in `[1/2, 1]`, times a positive float, is positive. -/
theorem sq_mul_pos {x d : FX F} {w a : ℝ} (hx : x.1 = fin w) (w0 : 0 ≤ w) (w1 : w ≤ 1) (hd : d.1 = fin a) (a0 : 0 < a) (ηa : 256 * η ≤ a)
    (at' : a ≤ F.top) :
    ∃ r, (d * (x * x)).1 = fin r ∧ 0 ≤ r ∧ r ≤ a ∧ (1 / 2 ≤ w → 0 < r) := by
  have u0 := A.u0
  have ul := A.u_le
  have e0 := A.η0
  have el : η ≤ 1 / 65536 := A.η_le.trans (by nlinarith)
  have ht := F.top_ge
  have ww : w * w ≤ 1 := mul_le_one₀ w1 w0 w1
  have ww0 : 0 ≤ w * w := mul_nonneg w0 w0
  obtain ⟨v, hv, bv, rv⟩ := op_mul A hx hx (by rw [abs_of_nonneg ww0]; linarith)
  have v0 : 0 ≤ v := le_rd rv F.rd_zero ww0
  have v1 : v ≤ 1 := rd_le rv F.rd_one ww
  have k3 : 0 ≤ a * v := mul_nonneg a0.le v0
  have k3' : a * v ≤ a := mul_le_of_le_one_right a0.le v1
  obtain ⟨r, hr, br, rr⟩ := op_mul A hd hv (by rw [abs_of_nonneg k3]; linarith)
  refine ⟨r, hr, le_rd rr F.rd_zero k3, rd_le rr (rep hd) k3', fun hh => ?_⟩
  rw [abs_of_nonneg k3] at br
  rw [abs_of_nonneg ww0] at bv
  have p1 := (abs_le.1 br).1
  have p2 := (abs_le.1 bv).1
  have c : 1 / 2 * (1 / 2) ≤ w * w := mul_le_mul hh hh (by norm_num) w0
  have d : u * (w * w) ≤ 1 / 256 * 1 := mul_le_mul ul ww ww0 (by norm_num)
  have f : 1 / 8 ≤ v := by linarith
  have g' : a * (1 / 8) ≤ a * v := mul_le_mul_of_nonneg_left f a0.le
  have i := mul_le_mul_of_nonneg_right ul k3
  linarith

/-- The argument of the middle logarithm is a positive float. -/
theorem seg_arg {z slope d0 d1 : FX F} {ζ m S a0 a1 M : ℝ} (hz : z.1 = fin ζ) (z0 : 0 ≤ ζ) (z1 : ζ ≤ 1) (hm : (z - z * z).1 = fin m) (m0 : 0 ≤ m)
    (m1 : m ≤ 13 / 50) (two : (lit 2 * slope).1 = fin (2 * S)) (S0 : 0 < S)
    (h0 : d0.1 = fin a0) (h1 : d1.1 = fin a1) (p0 : 0 < a0) (p1 : 0 < a1) (SM : S ≤ M) (M0 : a0 ≤ M) (M1 : a1 ≤ M) (Mt : 64 * M ≤ F.top)
    (η0 : 256 * η ≤ a0) (η1 : 256 * η ≤ a1) :
    ∃ E, (d1 * (z * z) + lit 2 * slope * (z - z * z) + d0 * ((lit 1 - z) * (lit 1 - z))).1 = fin E ∧ 0 < E := by
  have ul := A.u_le
  have ht := F.top_ge
  obtain ⟨r1, hr1, r10, r11, pr1⟩ := sq_mul_pos A hz z0 z1 h1 p1 η1 (by linarith)
  obtain ⟨w, hw, bw, rw'⟩ := op_sub A lit_one hz (by rw [abs_of_nonneg (by linarith)]; linarith)
  have w0 : 0 ≤ w := le_rd rw' F.rd_zero (by linarith)
  have w1 : w ≤ 1 := rd_le rw' F.rd_one (by linarith)
  obtain ⟨r3, hr3, r30, r31, pr3⟩ := sq_mul_pos A hw w0 w1 h0 p0 η0 (by linarith)
  have k2' : 2 * S * m ≤ 2 * S := mul_le_of_le_one_right (by linarith) (by linarith)
  have k2 : 0 ≤ 2 * S * m := mul_nonneg (by linarith) m0
  obtain ⟨r2, hr2, br2, rr2⟩ := op_mul A two hm (by rw [abs_of_nonneg k2]; linarith)
  have r20 : 0 ≤ r2 := le_rd rr2 F.rd_zero k2
  have r21 : r2 ≤ 2 * S := rd_le rr2 (rep two) k2'
  have s12 : 0 ≤ r1 + r2 := by linarith
  obtain ⟨r4, hr4, br4, rr4⟩ := op_add A hr1 hr2 (by rw [abs_of_nonneg s12]; linarith)
  have r41 : r1 ≤ r4 := le_rd rr4 (rep hr1) (by linarith)
  have r4b : r4 ≤ 2 * (r1 + r2) := by
    rw [abs_of_nonneg s12] at br4
    have k := mul_le_mul_of_nonneg_right ul s12
    have k' := (abs_le.1 br4).2
    linarith
  have s34 : 0 ≤ r4 + r3 := by linarith
  obtain ⟨E, hE, bE, rE⟩ := op_add A hr4 hr3 (by rw [abs_of_nonneg s34]; linarith)
  have Er4 : r4 ≤ E := le_rd rE (rep hr4) (by linarith)
  have Er3 : r3 ≤ E := le_rd rE (rep hr3) (by linarith)
  refine ⟨E, hE, ?_⟩
  rcases le_total (1 / 2) ζ with hh | hh
  · have := pr1 hh; linarith
  · have := pr3 (le_rd rw' F.half (by linarith)); linarith

end Distrax.FSpline
