import Verif.Lemmas.FloatSpline

/-!
Lemmas for C79: the forward direction of one segment.
-/

namespace Distrax.FSpline

open XR FX

variable {F : Fmt} {u η B : ℝ}

/-- Consequences of `Room`. -/
theorem room_facts (A : F.Acc u η) (R : Room F η B) :
    η ≤ 1 / (4096 * B ^ 8) ∧ η ≤ u / (64 * B ^ 4) ∧ B ≤ B ^ 2 ∧ B ^ 2 ≤ B ^ 3 ∧ B ^ 3 ≤ B ^ 4 ∧ B ^ 4 ≤ B ^ 5 ∧ B ^ 5 ≤ B ^ 6 ∧
      1 / B ^ 8 ≤ 1 / B ^ 7 ∧ 1 / B ^ 7 ≤ 1 / B ^ 5 ∧ 1 / B ^ 5 ≤ 1 / B ^ 4 ∧ 1 / B ^ 4 ≤ 1 / B ^ 2 ∧ 1 / B ^ 2 ≤ 1 / B ∧ 1 / B ≤ 1 := by
  have h1 := R.one
  have B0 : 0 < B := by linarith
  have p : ∀ i j : ℕ, i ≤ j → B ^ i ≤ B ^ j := fun i j h => pow_le_pow_right₀ h1 h
  have i : ∀ i j : ℕ, i ≤ j → 1 / B ^ j ≤ 1 / B ^ i := fun i j h => one_div_le_one_div_of_le (pow_pos B0 _) (p i j h)
  have e1 : η ≤ 1 / (4096 * B ^ 8) := by rw [le_div_iff₀ (by positivity)]; exact R.low
  refine ⟨e1, ?_, by simpa using p 1 2 (by norm_num), p _ _ (by norm_num), p _ _ (by norm_num), p _ _ (by norm_num), p _ _ (by norm_num),
    i _ _ (by norm_num), i _ _ (by norm_num), i _ _ (by norm_num), i _ _ (by norm_num), by simpa using i 1 2 (by norm_num), by simpa using i 0 1 (by norm_num)⟩
  have k : η * η ≤ (u / (64 * B ^ 4)) * (u / (64 * B ^ 4)) := by
    have : (u / (64 * B ^ 4)) * (u / (64 * B ^ 4)) = (u * u) * (1 / (4096 * B ^ 8)) := by field_simp; norm_num
    rw [this]
    exact mul_le_mul A.η_le e1 A.η0 (mul_nonneg A.u0 A.u0)
  exact abs_le_of_sq_le_sq' (a := η) (b := u / (64 * B ^ 4)) (by rw [pow_two, pow_two]; exact k) (div_nonneg A.u0 (by positivity)) |>.2

/-- The width of a bin. -/
theorem seg_width (A : F.Acc u η) (R : Room F η B) {x0 x1 : FX F} {X0 X1 : ℝ} (h0 : x0.1 = fin X0) (h1 : x1.1 = fin X1) (b0 : |X0| ≤ B) (b1 : |X1| ≤ B)
    (g : 1 / B ≤ X1 - X0) :
    ∃ W, (x1 - x0).1 = fin W ∧ F.rd (X1 - X0) = fin W ∧ 255 / 256 * (1 / B) ≤ W ∧ W ≤ 257 / 128 * B ∧ |W - (X1 - X0)| ≤ u * (X1 - X0) := by
  have hB := R.one
  have B0 : 0 < B := by linarith
  have iB : 0 < 1 / B := by positivity
  obtain ⟨-, -, k2, k3, k4, k5, k6, -⟩ := room_facts A R
  have ht := R.top
  obtain ⟨a1, a2⟩ := abs_le.1 b0
  obtain ⟨a3, a4⟩ := abs_le.1 b1
  have pos : 0 < X1 - X0 := by linarith
  obtain ⟨W, hW, bW, rW⟩ := op_sub A h1 h0 (by rw [abs_of_pos pos]; linarith)
  rw [abs_of_pos pos] at bW
  have k := mul_le_mul_of_nonneg_right A.u_le pos.le
  obtain ⟨c1, c2⟩ := abs_le.1 bW
  exact ⟨W, hW, rW, by linarith, by linarith, bW⟩

/-- The slope of a bin. -/
theorem seg_slope (A : F.Acc u η) (R : Room F η B) {h w : FX F} {H W : ℝ} (hh : h.1 = fin H) (hw : w.1 = fin W)
    (H0 : 255 / 256 * (1 / B) ≤ H) (H1 : H ≤ 257 / 128 * B) (W0 : 255 / 256 * (1 / B) ≤ W) (W1 : W ≤ 257 / 128 * B) :
    ∃ S, (h / w).1 = fin S ∧ 2 / 5 * (1 / B ^ 2) ≤ S ∧ S ≤ 4 * B ^ 2 := by
  have hB := R.one
  have B0 : 0 < B := by linarith
  have iB : 0 < 1 / B := by positivity
  have iB2 : 0 < 1 / B ^ 2 := by positivity
  obtain ⟨e1, -, k2, k3, k4, k5, k6, i8, i7, i5, i4, i2, i1⟩ := room_facts A R
  have ht := R.top
  have Wp : 0 < W := by linarith
  have Hp : 0 < H := by linarith
  have q1 : H / W ≤ 5 / 2 * B ^ 2 := by
    rw [div_le_iff₀ Wp]
    have : 5 / 2 * B ^ 2 * (255 / 256 * (1 / B)) ≤ 5 / 2 * B ^ 2 * W := mul_le_mul_of_nonneg_left W0 (by positivity)
    have e : 5 / 2 * B ^ 2 * (255 / 256 * (1 / B)) = 1275 / 512 * B := by field_simp; norm_num
    linarith
  have q0 : 45 / 100 * (1 / B ^ 2) ≤ H / W := by
    rw [le_div_iff₀ Wp]
    have : 45 / 100 * (1 / B ^ 2) * W ≤ 45 / 100 * (1 / B ^ 2) * (257 / 128 * B) := mul_le_mul_of_nonneg_left W1 (by positivity)
    have e : 45 / 100 * (1 / B ^ 2) * (257 / 128 * B) = 11565 / 12800 * (1 / B) := by field_simp; norm_num
    linarith
  have qp : 0 < H / W := by positivity
  obtain ⟨S, hS, bS, -⟩ := op_div A hh hw Wp.ne' (by rw [abs_of_pos qp]; linarith)
  rw [abs_of_pos qp] at bS
  have k := mul_le_mul_of_nonneg_right A.u_le qp.le
  have e3 : 1 / (4096 * B ^ 8) = 1 / 4096 * (1 / B ^ 8) := by field_simp
  rw [e3] at e1
  obtain ⟨c1, c2⟩ := abs_le.1 bS
  have : (1 : ℝ) ≤ B ^ 2 := by linarith
  exact ⟨S, hS, by linarith, by linarith⟩

theorem div_num {a b : FX F} {x y : ℝ} (ha : a.1 = fin x) (hb : b.1 = fin y) (h0 : y ≠ 0) : (a / b).Num := by
  intro c
  change (a / b).1 = nan at c
  rw [div_val, ha, hb] at c
  have : (fin x / fin y : XR) = fin (x / y) := by show XR.div _ _ = _; simp [XR.div, h0]
  rw [this] at c
  exact F.rd_ne_nan _ c

/-- The logarithms of three positive floats, added up as the code does, do not overflow. -/
theorem logs_finite (A : F.Acc u η) {a b c : FX F} {x y z : ℝ} (ha : a.1 = fin x) (hb : b.1 = fin y) (hc : c.1 = fin z) (x0 : 0 < x) (y0 : 0 < y)
    (z0 : 0 < z) : (lit 2 * FX.log a + FX.log b - lit 2 * FX.log c).finite ∧ (lit (-2) * FX.log a - FX.log b + lit 2 * FX.log c).finite := by
  have u0 := A.u0
  have ul := A.u_le
  obtain ⟨p, hp, bp⟩ := log_finite ha x0
  obtain ⟨q, hq, bq⟩ := log_finite hb y0
  obtain ⟨r, hr, br⟩ := log_finite hc z0
  have lb := F.lb_le
  have l0 : 0 ≤ F.lb := (_root_.abs_nonneg p).trans bp
  have dbl : ∀ {v : FX F} {s : ℝ}, v.1 = fin s → |s| ≤ F.lb → (lit 2 * v).1 = fin (2 * s) := fun {v s} hv hs => by
    rw [mul_val, lit_two, hv, fin_mul]
    exact F.double (rep hv) (by rw [abs_mul, abs_of_pos (by norm_num : (0 : ℝ) < 2)]; linarith)
  have h1 := dbl hp bp
  have h3 := dbl hr br
  have h1' : (lit (-2) * FX.log a).1 = fin (-(2 * p)) := by
    have e : (lit (-2) * FX.log a).1 = F.rd (-2 * p) := by rw [mul_val, lit_val (F.rd_neg F.rd_two), hp, fin_mul]; rfl
    have e2 : F.rd (2 * p) = fin (2 * p) := rep h1
    rw [e, neg_mul]; exact F.rd_neg e2
  obtain ⟨a1, a2⟩ := abs_le.1 bp
  obtain ⟨a3, a4⟩ := abs_le.1 bq
  obtain ⟨a5, a6⟩ := abs_le.1 br
  constructor
  · obtain ⟨s, hs, bs, -⟩ := op_add A h1 hq (by rw [abs_le]; constructor <;> linarith)
    have k : |2 * p + q| ≤ 3 * F.lb := by rw [abs_le]; constructor <;> linarith
    have k2 : u * |2 * p + q| ≤ 1 / 256 * (3 * F.lb) := mul_le_mul ul k (_root_.abs_nonneg _) (by norm_num)
    obtain ⟨c1, c2⟩ := abs_le.1 bs
    obtain ⟨c3, c4⟩ := abs_le.1 k
    exact fin_sub_of hs h3 (by rw [abs_le]; constructor <;> linarith)
  · obtain ⟨s, hs, bs, -⟩ := op_sub A h1' hq (by rw [abs_le]; constructor <;> linarith)
    have k : |-(2 * p) - q| ≤ 3 * F.lb := by rw [abs_le]; constructor <;> linarith
    have k2 : u * |-(2 * p) - q| ≤ 1 / 256 * (3 * F.lb) := mul_le_mul ul k (_root_.abs_nonneg _) (by norm_num)
    obtain ⟨c1, c2⟩ := abs_le.1 bs
    obtain ⟨c3, c4⟩ := abs_le.1 k
    exact fin_add_of hs h3 (by rw [abs_le]; constructor <;> linarith)

/-- The numerator does not exceed the denominator by more than rounding. -/
theorem num_le_den {S a0 a1 ζ q m s p n D : ℝ} (u0 : 0 ≤ u) (ul : u ≤ 1 / 256) (e0 : 0 ≤ η) (eS : η ≤ u * S) (eu : η ≤ u) (S0 : 0 < S) (p0 : 0 < a0) (p1 : 0 < a1)
    (z1 : ζ ≤ 1) (q0 : 0 ≤ q) (qz : q ≤ ζ) (bq : |q - ζ * ζ| ≤ u * (ζ * ζ) + η) (m0 : 0 ≤ m) (m1 : m ≤ 13 / 50) (bm : |m - (ζ - q)| ≤ u * (ζ - q))
    (bs : |s - S * q| ≤ u * (S * q) + η) (bp : |p - a0 * m| ≤ u * (a0 * m) + η) (bn : |n - (s + p)| ≤ u * (s + p)) (s0 : 0 ≤ s) (pn : 0 ≤ p)
    (bD : |D - (S + (a1 + a0 - 2 * S) * m)| ≤ u * (8 * (S + (a1 + a0) * m)) + 2 * η) (D0 : 9 / 20 * (S + (a1 + a0) * m) ≤ D) :
    n ≤ D + 48 * (u * D) := by
  obtain ⟨q1, q2⟩ := abs_le.1 bq
  obtain ⟨m2, m3⟩ := abs_le.1 bm
  obtain ⟨s1, s2⟩ := abs_le.1 bs
  obtain ⟨P1, P2⟩ := abs_le.1 bp
  obtain ⟨n1, n2⟩ := abs_le.1 bn
  obtain ⟨d1, d2⟩ := abs_le.1 bD
  have z0 : 0 ≤ ζ := q0.trans qz
  have zz : ζ * ζ ≤ 1 := mul_le_one₀ z1 z0 z1
  have f1 : u * (ζ * ζ) ≤ u * 1 := mul_le_mul_of_nonneg_left zz u0
  have f2 : u * (ζ - q) ≤ u * 1 := mul_le_mul_of_nonneg_left (by linarith) u0
  have f3 : -(4 * u) ≤ 1 - q - 2 * m := by nlinarith [sq_nonneg (1 - ζ)]
  have f4 : S * (-(4 * u)) ≤ S * (1 - q - 2 * m) := mul_le_mul_of_nonneg_left f3 S0.le
  have q1' : q ≤ 1 := by linarith
  have Sq : S * q ≤ S := mul_le_of_le_one_right S0.le q1'
  have Sq0 : 0 ≤ S * q := mul_nonneg S0.le q0
  have am0 : 0 ≤ a0 * m := mul_nonneg p0.le m0
  have bm0 : 0 ≤ a1 * m := mul_nonneg p1.le m0
  have V : (a1 + a0) * m = a1 * m + a0 * m := by ring
  have V' : (a1 + a0 - 2 * S) * m = a1 * m + a0 * m - 2 * (S * m) := by ring
  rw [V, V'] at bD d1 d2
  rw [V] at D0
  -- everything below is linear in the products
  generalize hα : a0 * m = α at *
  generalize hβ : a1 * m = β at *
  generalize hσ : S * q = σ at *
  have g1 : u * σ ≤ u * S := mul_le_mul_of_nonneg_left Sq u0
  have g2 : 0 ≤ u * α := mul_nonneg u0 am0
  have g3 : 0 ≤ u * β := mul_nonneg u0 bm0
  have g4 : 0 ≤ u * S := mul_nonneg u0 S0.le
  have g5 : u * (s + p) ≤ u * (2 * (S + α)) := by
    refine mul_le_mul_of_nonneg_left ?_ u0
    have k1 := mul_le_mul_of_nonneg_right ul Sq0
    have k2 := mul_le_mul_of_nonneg_right ul am0
    have k3 := mul_le_mul_of_nonneg_right ul S0.le
    linarith
  have g6 : u * (9 / 20 * (S + (β + α))) ≤ u * D := mul_le_mul_of_nonneg_left D0 u0
  have h1 : S * (1 - q - 2 * m) = S - σ - 2 * (S * m) := by rw [← hσ]; ring
  rw [h1] at f4
  linarith

set_option maxHeartbeats 1000000 in
/-- One segment: no overflow, no `nan`, values in the bin up to rounding, knots exact. -/
theorem segFwd_spec (A : F.Acc u η) (R : Room F η B) {x0 x1 y0 y1 d0 d1 x : FX F} {X0 X1 Y0 Y1 a0 a1 t : ℝ}
    (hx0 : x0.1 = fin X0) (hx1 : x1.1 = fin X1) (hy0 : y0.1 = fin Y0) (hy1 : y1.1 = fin Y1) (hd0 : d0.1 = fin a0) (hd1 : d1.1 = fin a1) (hx : x.1 = fin t)
    (bx0 : |X0| ≤ B) (bx1 : |X1| ≤ B) (by0 : |Y0| ≤ B) (by1 : |Y1| ≤ B) (gx : 1 / B ≤ X1 - X0) (gy : 1 / B ≤ Y1 - Y0)
    (l0 : 1 / B ≤ a0) (l1 : 1 / B ≤ a1) (r0 : a0 ≤ B) (r1 : a1 ≤ B) (t0 : X0 ≤ t) (t1 : t ≤ X1) :
    (segFwd x0 x1 y0 y1 d0 d1 x).2.finite ∧
    ∃ Y, (segFwd x0 x1 y0 y1 d0 d1 x).1.1 = fin Y ∧ Y0 ≤ Y ∧ Y ≤ Y1 + u * (64 * (Y1 - Y0) + |Y1|) ∧ (t = X0 → Y = Y0) := by
  have hB := R.one
  have B0 : 0 < B := by linarith
  have iB : 0 < 1 / B := by positivity
  have iB2 : 0 < 1 / B ^ 2 := by positivity
  obtain ⟨e1, e2, k2, k3, k4, k5, k6, i8, i7, i5, i4, i2, i1⟩ := room_facts A R
  have hT := R.top
  have u0 := A.u0
  have ul := A.u_le
  have e0 := A.η0
  have e1' : η ≤ 1 / 4096 * (1 / B ^ 8) := e1.trans (le_of_eq (by field_simp))
  have e2' : η ≤ 1 / 64 * (u * (1 / B ^ 4)) := e2.trans (le_of_eq (by field_simp))
  obtain ⟨W, hW, rW, W0, W1, bW⟩ := seg_width A R hx0 hx1 bx0 bx1 gx
  obtain ⟨H, hH, rH, H0, H1, bH⟩ := seg_width A R hy0 hy1 by0 by1 gy
  obtain ⟨S, hS, S0, S1⟩ := seg_slope A R hH hW H0 H1 W0 W1
  have Wp : 0 < W := by linarith
  have Hp : 0 < H := by linarith
  have Sp : 0 < S := by linarith
  -- the position
  obtain ⟨o, ho, bo, ro⟩ := op_sub A hx hx0 (by
    rw [abs_of_nonneg (by linarith)]
    have := (abs_le.1 bx0).1
    have := (abs_le.1 bx1).2
    linarith)
  obtain ⟨ζ, hζ, z0, z1⟩ := clip01_mem (div_num ho hW Wp.ne')
  have hz0 : t = X0 → ζ = 0 := fun ht => by
    have : o = 0 := by rw [ht, _root_.sub_self, F.rd_zero] at ro; exact (fin.inj ro).symm
    have e : ((x - x0) / (x1 - x0)).1 = fin 0 := by
      rw [div_val, ho, hW, this]
      have : (fin 0 / fin W : XR) = fin (0 / W) := by show XR.div _ _ = _; simp [XR.div, Wp.ne']
      rw [this, zero_div]; exact F.rd_zero
    rw [clip01_id e le_rfl (by norm_num), e] at hζ
    exact (fin.inj hζ).symm
  have e3 : 256 * η ≤ S := by linarith
  have e4 : 256 * η ≤ a0 := by linarith
  have e5 : 256 * η ≤ a1 := by linarith
  have a0p : 0 < a0 := by linarith
  have a1p : 0 < a1 := by linarith
  obtain ⟨q, m, hq, hm, q0, qz, bq, m0, m1, bm⟩ := seg_pos A hζ z0 z1
  obtain ⟨τ, D, two, hτ, bτ, hD, D0, D1, bD⟩ := seg_den A hm m0 m1 hS Sp hd0 hd1 a0p a1p S1 (by linarith) (by linarith) (by linarith) e3
  obtain ⟨E, hE, E0⟩ := seg_arg A hζ z0 z1 hm m0 m1 two Sp hd0 hd1 a0p a1p S1 (by linarith) (by linarith) (by linarith) e4 e5
  have am0 : 0 ≤ a0 * m := mul_nonneg a0p.le m0
  have am1 : a0 * m ≤ a0 := mul_le_of_le_one_right a0p.le (by linarith)
  have aam : 0 ≤ (a1 + a0) * m := mul_nonneg (by linarith) m0
  have Dp : 0 < D := by linarith
  refine ⟨(logs_finite A hS hE hD Sp E0 Dp).1, ?_⟩
  -- the numerator
  have Sq0 : 0 ≤ S * q := mul_nonneg Sp.le q0
  have Sq1 : S * q ≤ S := mul_le_of_le_one_right Sp.le (by linarith)
  obtain ⟨s, hs, bs, rs⟩ := op_mul A hS hq (by rw [abs_of_nonneg Sq0]; linarith)
  rw [abs_of_nonneg Sq0] at bs
  have s0 : 0 ≤ s := le_rd rs F.rd_zero Sq0
  have s1 : s ≤ S := rd_le rs (rep hS) Sq1
  obtain ⟨p, hp, bp, rp⟩ := op_mul A hd0 hm (by rw [abs_of_nonneg am0]; linarith)
  rw [abs_of_nonneg am0] at bp
  have pp0 : 0 ≤ p := le_rd rp F.rd_zero am0
  have pp1 : p ≤ a0 := rd_le rp (rep hd0) am1
  have sp : 0 ≤ s + p := by linarith
  obtain ⟨n, hn, bn, rn⟩ := op_add A hs hp (by rw [abs_of_nonneg sp]; linarith)
  rw [abs_of_nonneg sp] at bn
  have n0 : 0 ≤ n := le_rd rn F.rd_zero sp
  have eS : η ≤ u * S := by
    have h1 : u * (2 / 5 * (1 / B ^ 2)) ≤ u * S := mul_le_mul_of_nonneg_left S0 u0
    have h2 : u * (1 / B ^ 4) ≤ u * (1 / B ^ 2) := mul_le_mul_of_nonneg_left i4 u0
    have h3 : 0 ≤ u * (1 / B ^ 2) := mul_nonneg u0 iB2.le
    linarith
  have eu : η ≤ u := A.η_le.trans (mul_le_of_le_one_left u0 (by linarith))
  have nD : n ≤ D + 48 * (u * D) := num_le_den u0 ul e0 eS eu Sp a0p a1p z1 q0 qz bq m0 m1 bm bs bp bn s0 pp0 bD D0
  have n1 : n ≤ 2 * D := by have := mul_le_mul_of_nonneg_right ul Dp.le; linarith
  have nB : n ≤ 6 * B ^ 2 := by
    have := mul_le_mul_of_nonneg_right ul sp
    have := (abs_le.1 bn).2
    linarith
  have Hn0 : 0 ≤ H * n := mul_nonneg Hp.le n0
  have Hn1 : H * n ≤ 257 / 128 * B * (6 * B ^ 2) := mul_le_mul H1 nB n0 (by linarith)
  have eB3 : 257 / 128 * B * (6 * B ^ 2) = 1542 / 128 * B ^ 3 := by ring
  obtain ⟨N, hN, bN, rN⟩ := op_mul A hH hn (by rw [abs_of_nonneg Hn0]; linarith)
  rw [abs_of_nonneg Hn0] at bN
  have N0 : 0 ≤ N := le_rd rN F.rd_zero Hn0
  -- the quotient
  have NH : N ≤ H * D + u * (50 * (H * D)) := by
    have h1 : H * n ≤ H * (D + 48 * (u * D)) := mul_le_mul_of_nonneg_left nD Hp.le
    have h2 : H * (D + 48 * (u * D)) = H * D + 48 * (u * (H * D)) := by ring
    have h3 : u * (H * n) ≤ u * (H * D + 48 * (u * (H * D))) := mul_le_mul_of_nonneg_left (by linarith) u0
    have HD : 0 ≤ H * D := mul_nonneg Hp.le Dp.le
    have h4 : u * (u * (H * D)) ≤ 1 / 256 * (u * (H * D)) := mul_le_mul_of_nonneg_right ul (mul_nonneg u0 HD)
    have h5 : η ≤ 1 / 4 * (u * (H * D)) := by
      have g1 : 255 / 256 * (1 / B) * (9 / 20 * (2 / 5 * (1 / B ^ 2))) ≤ H * D := mul_le_mul H0 (by linarith) (by positivity) Hp.le
      have g2 : 255 / 256 * (1 / B) * (9 / 20 * (2 / 5 * (1 / B ^ 2))) = 4590 / 25600 * (1 / B ^ 3) := by field_simp; norm_num
      have g3 : 1 / B ^ 4 ≤ 1 / B ^ 3 := one_div_le_one_div_of_le (by positivity) k4
      have g4 : u * (4590 / 25600 * (1 / B ^ 4)) ≤ u * (H * D) := mul_le_mul_of_nonneg_left (by linarith) u0
      have g5 : 0 ≤ u * (1 / B ^ 4) := mul_nonneg u0 (by positivity)
      linarith
    have h6 := (abs_le.1 bN).2
    have h7 : 0 ≤ u * (H * D) := mul_nonneg u0 HD
    linarith
  have Q0 : 0 ≤ N / D := div_nonneg N0 Dp.le
  have Q1 : N / D ≤ H + u * (50 * H) := by
    rw [div_le_iff₀ Dp]; linarith
  have uH : u * H ≤ 1 / 256 * H := mul_le_mul_of_nonneg_right ul Hp.le
  obtain ⟨Q, hQ, bQ, rQ⟩ := op_div A hN hD Dp.ne' (by rw [abs_of_nonneg Q0]; linarith)
  rw [abs_of_nonneg Q0] at bQ
  have QQ0 : 0 ≤ Q := le_rd rQ F.rd_zero Q0
  have eH : η ≤ u * H := by
    have h1 : u * (255 / 256 * (1 / B)) ≤ u * H := mul_le_mul_of_nonneg_left H0 u0
    have h2 : u * (1 / B ^ 4) ≤ u * (1 / B) := mul_le_mul_of_nonneg_left (by linarith) u0
    have h3 : 0 ≤ u * (1 / B) := mul_nonneg u0 iB.le
    linarith
  have QQ1 : Q ≤ H + u * (53 * H) := by
    have h1 := (abs_le.1 bQ).2
    have h2 : u * (N / D) ≤ u * (H + u * (50 * H)) := mul_le_mul_of_nonneg_left Q1 u0
    have h3 : u * (u * H) ≤ 1 / 256 * (u * H) := mul_le_mul_of_nonneg_right ul (mul_nonneg u0 Hp.le)
    have h4 : 0 ≤ u * H := mul_nonneg u0 Hp.le
    linarith
  obtain ⟨b1, b2⟩ := abs_le.1 by0
  obtain ⟨b3, b4⟩ := abs_le.1 by1
  obtain ⟨Y, hY, bY, rY⟩ := op_add A hy0 hQ (by rw [abs_le]; constructor <;> linarith)
  refine ⟨Y, hY, le_rd rY (rep hy0) (by linarith), ?_, fun ht => ?_⟩
  · have gyp : 0 < Y1 - Y0 := by linarith
    have h1 : H ≤ (Y1 - Y0) + u * (Y1 - Y0) := by have := (abs_le.1 bH).2; linarith
    have h2 : u * (Y1 - Y0) ≤ 1 / 256 * (Y1 - Y0) := mul_le_mul_of_nonneg_right ul gyp.le
    have h3 : u * H ≤ u * ((Y1 - Y0) + u * (Y1 - Y0)) := mul_le_mul_of_nonneg_left h1 u0
    have h4 : u * (u * (Y1 - Y0)) ≤ 1 / 256 * (u * (Y1 - Y0)) := mul_le_mul_of_nonneg_right ul (mul_nonneg u0 gyp.le)
    have h5 : 0 ≤ u * (Y1 - Y0) := mul_nonneg u0 gyp.le
    have h6 : Y0 + Q ≤ Y1 + u * (55 * (Y1 - Y0)) := by linarith
    have h7 : |Y0 + Q| ≤ |Y1| + 2 * (Y1 - Y0) := by
      rw [abs_le]
      have := neg_abs_le Y1
      have := le_abs_self Y1
      constructor <;> linarith
    have h8 := mul_le_mul_of_nonneg_left h7 u0
    have h9 := (abs_le.1 bY).2
    linarith
  · have z := hz0 ht
    have zq : q = 0 := le_antisymm (by rw [z] at qz; exact qz) q0
    have zm : m = 0 := by rw [z, zq] at bm; simpa using bm
    have zs : s = 0 := by rw [zq, mul_zero, F.rd_zero] at rs; exact (fin.inj rs).symm
    have zp : p = 0 := by rw [zm, mul_zero, F.rd_zero] at rp; exact (fin.inj rp).symm
    have zn : n = 0 := by rw [zs, zp, _root_.add_zero, F.rd_zero] at rn; exact (fin.inj rn).symm
    have zN : N = 0 := by rw [zn, mul_zero, F.rd_zero] at rN; exact (fin.inj rN).symm
    have zQ : Q = 0 := by rw [zN, zero_div, F.rd_zero] at rQ; exact (fin.inj rQ).symm
    have : F.rd Y0 = fin Y := by rw [zQ, _root_.add_zero] at rY; exact rY
    rw [rep hy0] at this
    exact (fin.inj this).symm

end Distrax.FSpline
