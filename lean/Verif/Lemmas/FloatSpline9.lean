import Verif.Lemmas.FloatSpline5
import Mathlib.Tactic

/-!
Lemmas for C79: accuracy of one segment of the forward map.
-/

namespace Distrax.FSpline

open XR FX

variable {F : Fmt} {u η B : ℝ}

theorem clip01_val {v : FX F} {x : ℝ} (h : v.1 = fin x) (h0 : 0 ≤ x) : (clip01 v).1 = fin (min x 1) := by
  rcases le_or_gt x 1 with h1 | h1
  · rw [clip01_id h h0 h1, h, min_eq_left h1]
  · have m : FX.max v (lit 0) = v := by
      rcases max_val (finite.num ⟨x, h⟩) (lit_num (F := F) 0) with ⟨e, l⟩ | ⟨e, -⟩
      · rw [le_def, h, lit_zero, leB_fin] at l; linarith
      · exact e
    unfold clip01
    rw [m]
    rcases min_val (finite.num ⟨x, h⟩) (lit_num (F := F) 1) with ⟨e, -⟩ | ⟨e, l⟩
    · rw [e, lit_one, min_eq_right h1.le]
    · rw [le_def, h, lit_one, leB_fin] at l; linarith

/-- A quotient of two numbers with relative errors `u`. -/
theorem quot_acc {a b x y z : ℝ} (u0 : 0 ≤ u) (ul : u ≤ 1 / 256) (hx : 0 ≤ x) (hy : 0 < y) (ha : |a - x| ≤ u * x) (hb : |b - y| ≤ u * y)
    (hz : |z - a / b| ≤ u * |a / b| + η) : |z - x / y| ≤ 7 / 2 * u * (x / y) + η := by
  obtain ⟨a1, a2⟩ := abs_le.1 ha
  obtain ⟨b1, b2⟩ := abs_le.1 hb
  have ux := mul_le_mul_of_nonneg_right ul hx
  have uy := mul_le_mul_of_nonneg_right ul hy.le
  have bp : 0 < b := by linarith
  have ap : 0 ≤ a := by linarith
  have ab : 0 ≤ a / b := div_nonneg ap bp.le
  rw [abs_of_nonneg ab] at hz
  have q0 : 0 ≤ x / y := div_nonneg hx hy.le
  have hxq : x = x / y * y := by field_simp
  have k : |a / b - x / y| ≤ 21 / 10 * u * (x / y) := by
    have e : a / b - x / y = ((a - x) - x / y * (b - y)) / b := by field_simp; ring
    rw [e, abs_div, abs_of_pos bp, div_le_iff₀ bp]
    have n1 : |(a - x) - x / y * (b - y)| ≤ u * x + x / y * (u * y) := by
      refine (abs_sub _ _).trans (_root_.add_le_add ha ?_)
      rw [abs_mul, abs_of_nonneg q0]
      exact mul_le_mul_of_nonneg_left hb q0
    have n2 : u * x + x / y * (u * y) = 2 * (u * (x / y)) * y := by
      have : u * x = u * (x / y * y) := by rw [← hxq]
      rw [this]; ring
    have n3 : 255 / 256 * y ≤ b := by linarith
    have n4 := mul_le_mul_of_nonneg_left n3 (show 0 ≤ 21 / 10 * u * (x / y) by positivity)
    have n5 : 0 ≤ u * (x / y) * y := by positivity
    linarith
  obtain ⟨k1, k2⟩ := abs_le.1 k
  obtain ⟨z1, z2⟩ := abs_le.1 hz
  have uq : 0 ≤ u * (x / y) := mul_nonneg u0 q0
  have u2 : u * (a / b) ≤ 102 / 100 * (u * (x / y)) := by
    have : a / b ≤ 102 / 100 * (x / y) := by
      have := mul_le_mul_of_nonneg_right ul q0
      linarith
    have := mul_le_mul_of_nonneg_left this u0
    linarith
  rw [abs_le]; constructor <;> linarith

/-- A product of two numbers with absolute errors. -/
theorem prod_err {a b x y ε δ : ℝ} (ha : |a - x| ≤ ε) (hb : |b - y| ≤ δ) (y0 : 0 ≤ x) (b0 : 0 ≤ b) : |a * b - x * y| ≤ ε * b + x * δ := by
  have e : a * b - x * y = (a - x) * b + x * (b - y) := by ring
  rw [e]
  refine (abs_add_le _ _).trans (_root_.add_le_add ?_ ?_)
  · rw [abs_mul, abs_of_nonneg b0]; exact mul_le_mul_of_nonneg_right ha b0
  · rw [abs_mul, abs_of_nonneg y0]; exact mul_le_mul_of_nonneg_left hb y0

/-- The exact position of the numerator and the denominator. -/
theorem exact_ratio {σ a0 a1 z : ℝ} (S0 : 0 < σ) (p0 : 0 ≤ a0) (p1 : 0 ≤ a1) (z0 : 0 ≤ z) (z1 : z ≤ 1) :
    0 ≤ σ * z ^ 2 + a0 * (z - z ^ 2) ∧ σ / 2 ≤ σ + (a0 + a1 - 2 * σ) * (z - z ^ 2) ∧
      σ * z ^ 2 + a0 * (z - z ^ 2) ≤ σ + (a0 + a1 - 2 * σ) * (z - z ^ 2) := by
  have m0 : 0 ≤ z - z ^ 2 := by nlinarith
  have m1 : z - z ^ 2 ≤ 1 / 4 := by nlinarith [sq_nonneg (z - 1 / 2)]
  have h0 := mul_nonneg p0 m0
  have h1 := mul_nonneg p1 m0
  have h2 := mul_le_mul_of_nonneg_left m1 S0.le
  have h3 := mul_nonneg S0.le (sq_nonneg (1 - z))
  refine ⟨by positivity, by nlinarith, by nlinarith⟩

/-- Numerator and denominator of one segment, with their errors in units of the roundoff. -/
theorem ratio_acc {σ n n' D D' κ : ℝ} (S0 : 0 < σ) (hD0 : 2 / 5 * σ ≤ D') (hnD : n ≤ D) (hDp : 0 < D) (hn : 0 ≤ n)
    (en : |n' - n| ≤ κ) (eD : |D' - D| ≤ 3 * κ) : |n' / D' - n / D| ≤ 10 * κ / σ := by
  have Dp : 0 < D' := by linarith
  have r0 : 0 ≤ n / D := div_nonneg hn hDp.le
  have r1 : n / D ≤ 1 := by rw [div_le_one hDp]; exact hnD
  have e : n' / D' - n / D = ((n' - n) - n / D * (D' - D)) / D' := by field_simp; ring
  have k0 : 0 ≤ κ := (_root_.abs_nonneg _).trans en
  rw [e, abs_div, abs_of_pos Dp, div_le_div_iff₀ Dp S0]
  have h1 : |(n' - n) - n / D * (D' - D)| ≤ κ + 1 * (3 * κ) := by
    refine (abs_sub _ _).trans (_root_.add_le_add en ?_)
    rw [abs_mul, abs_of_nonneg r0]
    exact mul_le_mul r1 eD (_root_.abs_nonneg _) (by norm_num)
  have h2 := mul_le_mul_of_nonneg_right h1 S0.le
  have h3 := mul_le_mul_of_nonneg_left hD0 k0
  have h4 := mul_nonneg k0 S0.le
  linarith

/-- The last steps of one segment: from the ratio to the value. -/
theorem seg_finish (A : F.Acc u η) (R : Room F η B) {y0 H n D : FX F} {Y0 Hv nv Dv h r L y : ℝ} (hy0 : y0.1 = fin Y0) (hH : H.1 = fin Hv) (hn : n.1 = fin nv)
    (hD : D.1 = fin Dv) (by0 : |Y0| ≤ B) (hp : 0 < h) (Hp : 0 < Hv) (H1 : Hv ≤ 257 / 128 * B) (bH : |Hv - h| ≤ u * h) (n0 : 0 ≤ nv) (nB : nv ≤ 6 * B ^ 2)
    (Dp : 0 < Dv) (hDlow : η ≤ u * (h * Dv) / 4) (ehh : η ≤ u * h / 64) (L1 : 1 ≤ L) (hL4 : h * L ≤ 8 * B ^ 2) (rs0 : 0 ≤ r) (rs1 : r ≤ 1)
    (rerr' : |nv / Dv - r| ≤ 200 * (u * L)) (ey : y = Y0 + h * r) :
    (y0 + H * n / D).Within y (u * (|y| + 256 * (h * L))) := by
  have hB := R.one
  have B0 : 0 < B := by linarith
  obtain ⟨-, -, k2, k3, k4, k5, k6, -⟩ := room_facts A R
  have hT := R.top
  have u0 := A.u0
  have ul := A.u_le
  have e0 := A.η0
  have nn0 : 0 ≤ nv / Dv := div_nonneg n0 Dp.le
  have uL : 0 ≤ u * L := by positivity
  obtain ⟨c1, c2⟩ := abs_le.1 rerr'
  have Hn0 : 0 ≤ Hv * nv := mul_nonneg Hp.le n0
  have Hn1 : Hv * nv ≤ 257 / 128 * B * (6 * B ^ 2) := mul_le_mul H1 nB n0 (by linarith)
  have eB3 : 257 / 128 * B * (6 * B ^ 2) = 1542 / 128 * B ^ 3 := by ring
  obtain ⟨N, hN, bN, rN⟩ := op_mul A hH hn (by rw [abs_of_nonneg Hn0]; linarith)
  rw [abs_of_nonneg Hn0] at bN
  have NN0 : 0 ≤ N := le_rd rN F.rd_zero Hn0
  -- the quotient
  have hn0 : 0 ≤ h * nv := mul_nonneg hp.le n0
  have N1 : |N - h * nv| ≤ 21 / 10 * (u * (h * nv)) + u * (h * Dv) / 4 := by
    have g1 : |Hv * nv - h * nv| ≤ u * h * nv + h * 0 := prod_err bH (by simp) hp.le n0
    have g2 : u * h * nv ≤ 1 / 256 * (h * nv) := by
      have := mul_le_mul_of_nonneg_right ul hn0
      linarith
    obtain ⟨f1, f2⟩ := abs_le.1 g1
    obtain ⟨f3, f4⟩ := abs_le.1 bN
    have g3 : u * (Hv * nv) ≤ u * (257 / 256 * (h * nv)) := mul_le_mul_of_nonneg_left (by linarith) u0
    have g4 : 0 ≤ u * (h * nv) := mul_nonneg u0 hn0
    rw [abs_le]; constructor <;> linarith
  have N2 : |N / Dv - h * (nv / Dv)| ≤ 21 / 10 * (u * (h * (nv / Dv))) + u * h / 4 := by
    have e : N / Dv - h * (nv / Dv) = (N - h * nv) / Dv := by field_simp
    rw [e, abs_div, abs_of_pos Dp, div_le_iff₀ Dp]
    refine N1.trans (le_of_eq ?_)
    field_simp
  have uu : 200 * (u * L) ≤ 200 / 256 * L := by
    have := mul_le_mul_of_nonneg_right ul (show 0 ≤ L by linarith)
    linarith
  have nDL : nv / Dv ≤ 46 / 25 * L := by linarith
  have hr : |h * (nv / Dv) - h * r| ≤ 0 * (nv / Dv) + h * (200 * (u * L)) := prod_err (by simp) rerr' hp.le nn0
  have uhL : 0 ≤ u * (h * L) := by positivity
  have uh : u * h ≤ u * (h * L) := by
    have := mul_le_mul_of_nonneg_left L1 (show 0 ≤ u * h by positivity)
    linarith
  have hnD : u * (h * (nv / Dv)) ≤ 46 / 25 * (u * (h * L)) := by
    have := mul_le_mul_of_nonneg_left nDL (show 0 ≤ u * h by positivity)
    linarith
  have N3 : |N / Dv - h * r| ≤ 205 * (u * (h * L)) := by
    obtain ⟨f1, f2⟩ := abs_le.1 N2
    obtain ⟨f3, f4⟩ := abs_le.1 hr
    rw [abs_le]; constructor <;> linarith
  have Q0 : 0 ≤ N / Dv := div_nonneg NN0 Dp.le
  have hrle : h * r ≤ h * L := mul_le_mul_of_nonneg_left (by linarith) hp.le
  have hr0 : 0 ≤ h * r := mul_nonneg hp.le rs0
  have uhL' : u * (h * L) ≤ 1 / 256 * (h * L) := mul_le_mul_of_nonneg_right ul (by positivity)
  have Q1 : N / Dv ≤ 2 * (h * L) := by have := (abs_le.1 N3).2; linarith
  obtain ⟨Q, hQ, bQ, rQ⟩ := op_div A hN hD Dp.ne' (by rw [abs_of_nonneg Q0]; linarith)
  rw [abs_of_nonneg Q0] at bQ
  have Q2 : |Q - h * r| ≤ 208 * (u * (h * L)) := by
    have g := mul_le_mul_of_nonneg_left Q1 u0
    obtain ⟨f1, f2⟩ := abs_le.1 N3
    obtain ⟨f3, f4⟩ := abs_le.1 bQ
    rw [abs_le]; constructor <;> linarith
  obtain ⟨f1, f2⟩ := abs_le.1 Q2
  obtain ⟨b1, b2⟩ := abs_le.1 by0
  obtain ⟨Y, hY, bY, rY⟩ := op_add A hy0 hQ (by rw [abs_le]; constructor <;> linarith)
  refine ⟨Y, hY, ?_⟩
  have y7 : |Y0 + Q| ≤ |y| + 208 * (u * (h * L)) := by
    rw [ey]
    have := abs_add_le (Y0 + h * r) (Q - h * r)
    rw [show Y0 + h * r + (Q - h * r) = Y0 + Q by ring] at this
    linarith
  have g1 := mul_le_mul_of_nonneg_left y7 u0
  have g2 : u * (u * (h * L)) ≤ 1 / 256 * (u * (h * L)) := mul_le_mul_of_nonneg_right ul uhL
  obtain ⟨f3, f4⟩ := abs_le.1 bY
  rw [abs_le]; constructor <;> linarith

set_option maxHeartbeats 2000000 in
/-- **Accuracy of one segment.** -/
theorem segFwd_acc (A : F.Acc u η) (R : Room F η B) {x0 x1 y0 y1 d0 d1 x : FX F} {X0 X1 Y0 Y1 a0 a1 t : ℝ}
    (hx0 : x0.1 = fin X0) (hx1 : x1.1 = fin X1) (hy0 : y0.1 = fin Y0) (hy1 : y1.1 = fin Y1) (hd0 : d0.1 = fin a0) (hd1 : d1.1 = fin a1) (hx : x.1 = fin t)
    (bx0 : |X0| ≤ B) (bx1 : |X1| ≤ B) (by0 : |Y0| ≤ B) (by1 : |Y1| ≤ B) (gx : 1 / B ≤ X1 - X0) (gy : 1 / B ≤ Y1 - Y0)
    (l0 : 1 / B ≤ a0) (l1 : 1 / B ≤ a1) (r0 : a0 ≤ B) (r1 : a1 ≤ B) (t0 : X0 ≤ t) (t1 : t ≤ X1) {w h σ z y : ℝ} (ew : w = X1 - X0) (eh : h = Y1 - Y0)
    (eσ : σ = h / w) (ez : z = (t - X0) / w)
    (ey : y = Y0 + h * ((σ * z ^ 2 + a0 * (z - z ^ 2)) / (σ + (a0 + a1 - 2 * σ) * (z - z ^ 2)))) :
    (segFwd x0 x1 y0 y1 d0 d1 x).1.Within y (u * (|y| + 256 * (h + w * (a0 + a1)))) := by
  have hB := R.one
  have B0 : 0 < B := by linarith
  have iB : 0 < 1 / B := by positivity
  have iB2 : 0 < 1 / B ^ 2 := by positivity
  have iB4 : 0 < 1 / B ^ 4 := by positivity
  obtain ⟨e1, e2, k2, k3, k4, k5, k6, i8, i7, i5, i4, i2, i1⟩ := room_facts A R
  have hT := R.top
  have u0 := A.u0
  have ul := A.u_le
  have e0 := A.η0
  have e1' : η ≤ 1 / 4096 * (1 / B ^ 8) := e1.trans (le_of_eq (by field_simp))
  have e2' : η ≤ 1 / 64 * (u * (1 / B ^ 4)) := e2.trans (le_of_eq (by field_simp))
  obtain ⟨W, hW, rW, W0, W1, bW⟩ := seg_width A R hx0 hx1 bx0 bx1 gx
  obtain ⟨H, hH, rH, H0, H1, bH⟩ := seg_width A R hy0 hy1 by0 by1 gy
  obtain ⟨S, hS, S0, S1⟩ := seg_slope A R hH hW H0 H1 W0 W1
  rw [← ew] at bW gx
  rw [← eh] at bH gy
  have Wp : 0 < W := by linarith
  have Hp : 0 < H := by linarith
  have Sp : 0 < S := by linarith
  have wp : 0 < w := by linarith
  have hp : 0 < h := by linarith
  have σp : 0 < σ := by rw [eσ]; positivity
  have w2 : w ≤ 2 * B := by rw [ew]; have := (abs_le.1 bx0).1; have := (abs_le.1 bx1).2; linarith
  have h2 : h ≤ 2 * B := by rw [eh]; have := (abs_le.1 by0).1; have := (abs_le.1 by1).2; linarith
  -- η is negligible
  have eu : η ≤ u * 1 / 64 := by
    have : u * (1 / B ^ 4) ≤ u * 1 := mul_le_mul_of_nonneg_left (by linarith) u0
    linarith
  have σlow : 1 / 2 * (1 / B ^ 2) ≤ σ := by
    rw [eσ, le_div_iff₀ wp]
    have : 1 / 2 * (1 / B ^ 2) * w ≤ 1 / 2 * (1 / B ^ 2) * (2 * B) := mul_le_mul_of_nonneg_left w2 (by positivity)
    have e : 1 / 2 * (1 / B ^ 2) * (2 * B) = 1 / B := by field_simp
    linarith
  have eσ' : η ≤ u * σ / 32 := by
    have g1 := mul_le_mul_of_nonneg_left σlow u0
    have g2 : u * (1 / B ^ 4) ≤ u * (1 / B ^ 2) := mul_le_mul_of_nonneg_left i4 u0
    linarith
  have ea0 : η ≤ u * a0 / 64 := by
    have g1 := mul_le_mul_of_nonneg_left l0 u0
    have g2 : u * (1 / B ^ 4) ≤ u * (1 / B) := mul_le_mul_of_nonneg_left (by linarith) u0
    linarith
  have ehh : η ≤ u * h / 64 := by
    have g1 := mul_le_mul_of_nonneg_left gy u0
    have g2 : u * (1 / B ^ 4) ≤ u * (1 / B) := mul_le_mul_of_nonneg_left (by linarith) u0
    linarith
  -- the slope
  have sl : |S - σ| ≤ 4 * (u * σ) := by
    obtain ⟨S', hS', bS', -⟩ := op_div A hH hW Wp.ne' (by
      rw [abs_of_pos (by positivity), div_le_iff₀ Wp]
      have g3 : 4096 * B ^ 6 * (255 / 256 * (1 / B)) ≤ F.top * W := mul_le_mul hT W0 (by positivity) (by have := F.top_ge; linarith)
      have e : 4096 * B ^ 6 * (255 / 256 * (1 / B)) = 4080 * B ^ 5 := by field_simp; norm_num
      linarith)
    obtain rfl : S' = S := fin.inj (hS'.symm.trans hS)
    have := quot_acc u0 ul hp.le wp bH bW bS'
    rw [← eσ] at this
    linarith
  -- the position
  have tx : 0 ≤ t - X0 := by linarith
  have zs0 : 0 ≤ z := by rw [ez]; positivity
  have zs1 : z ≤ 1 := by rw [ez, div_le_one wp]; linarith
  obtain ⟨o, ho, bo, ro⟩ := op_sub A hx hx0 (by
    rw [abs_of_nonneg tx]
    have := (abs_le.1 bx0).1
    have := (abs_le.1 bx1).2
    linarith)
  rw [abs_of_nonneg tx] at bo
  have o0 : 0 ≤ o := le_rd ro F.rd_zero tx
  have o2 : o ≤ W := by
    have := F.mono (show t - X0 ≤ X1 - X0 by linarith)
    rwa [ro, rW, leB_fin] at this
  have oW : o / W ≤ 1 := by rw [div_le_one Wp]; exact o2
  have oW0 : 0 ≤ o / W := div_nonneg o0 Wp.le
  obtain ⟨v, hv, bv, rv⟩ := op_div A ho hW Wp.ne' (by rw [abs_of_nonneg oW0]; have := F.top_ge; linarith)
  have v0 : 0 ≤ v := le_rd rv F.rd_zero oW0
  have hζ := clip01_val hv v0
  have zv : |v - z| ≤ 4 * u := by
    have := quot_acc u0 ul tx wp bo bW bv
    rw [← ez] at this
    have g := mul_le_mul_of_nonneg_left zs1 u0
    linarith
  obtain ⟨zv1, zv2⟩ := abs_le.1 zv
  have z0 : 0 ≤ min v 1 := le_min v0 (by norm_num)
  have z1 : min v 1 ≤ 1 := min_le_right _ _
  have zerr : |min v 1 - z| ≤ 4 * u := by
    rw [abs_le]
    constructor
    · have : z - 4 * u ≤ min v 1 := le_min (by linarith) (by linarith)
      linarith
    · have := min_le_left v 1; linarith
  generalize min v 1 = ζ at hζ z0 z1 zerr
  have a0p : 0 < a0 := by linarith
  have a1p : 0 < a1 := by linarith
  obtain ⟨q, m, hq, hm, q0, qz, bq, m0, m1, bm⟩ := seg_pos A hζ z0 z1
  obtain ⟨τ, D, two, hτ, bτ, hD, D0, D1, bD⟩ := seg_den A hm m0 m1 hS Sp hd0 hd1 a0p a1p S1 (by linarith) (by linarith) (by linarith) (by linarith)
  have am0 : 0 ≤ a0 * m := mul_nonneg a0p.le m0
  have am1 : a0 * m ≤ a0 := mul_le_of_le_one_right a0p.le (by linarith)
  have Dp : 0 < D := by have : 0 ≤ (a1 + a0) * m := mul_nonneg (by linarith) m0; linarith
  have qerr : |q - z ^ 2| ≤ 10 * u := by
    have g1 : |ζ * ζ - z * z| ≤ 4 * u * ζ + z * (4 * u) := prod_err zerr zerr zs0 z0
    have g2 := mul_le_mul_of_nonneg_left z1 u0
    have g3 := mul_le_mul_of_nonneg_left zs1 u0
    have zz : ζ * ζ ≤ 1 := by nlinarith
    have g4 := mul_le_mul_of_nonneg_left zz u0
    obtain ⟨f1, f2⟩ := abs_le.1 g1
    obtain ⟨f3, f4⟩ := abs_le.1 bq
    rw [pow_two, abs_le]; constructor <;> linarith
  obtain ⟨qe1, qe2⟩ := abs_le.1 qerr
  obtain ⟨ze1, ze2⟩ := abs_le.1 zerr
  have merr : |m - (z - z ^ 2)| ≤ 15 * u := by
    have g := mul_le_mul_of_nonneg_left (show ζ - q ≤ 1 by linarith) u0
    obtain ⟨f1, f2⟩ := abs_le.1 bm
    rw [abs_le]; constructor <;> linarith
  -- the numerator
  have Sq0 : 0 ≤ S * q := mul_nonneg Sp.le q0
  have Sq1 : S * q ≤ S := mul_le_of_le_one_right Sp.le (by linarith)
  have uσ : u * σ ≤ σ / 256 := by have := mul_le_mul_of_nonneg_right ul σp.le; linarith
  have S2 : S ≤ 102 / 100 * σ := by have := (abs_le.1 sl).2; linarith
  have S3 : 98 / 100 * σ ≤ S := by have := (abs_le.1 sl).1; linarith
  obtain ⟨s, hs, bs, rs⟩ := op_mul A hS hq (by rw [abs_of_nonneg Sq0]; linarith)
  rw [abs_of_nonneg Sq0] at bs
  have s0 : 0 ≤ s := le_rd rs F.rd_zero Sq0
  have s1 : s ≤ S := rd_le rs (rep hS) Sq1
  have serr : |s - σ * z ^ 2| ≤ 17 * (u * σ) := by
    have g1 : |S * q - σ * z ^ 2| ≤ 4 * (u * σ) * q + σ * (10 * u) := prod_err sl qerr σp.le q0
    have g2 : 4 * (u * σ) * q ≤ 4 * (u * σ) := mul_le_of_le_one_right (by positivity) (by linarith)
    have g3 : u * (S * q) ≤ u * (102 / 100 * σ) := mul_le_mul_of_nonneg_left (by linarith) u0
    obtain ⟨f1, f2⟩ := abs_le.1 g1
    obtain ⟨f3, f4⟩ := abs_le.1 bs
    rw [abs_le]; constructor <;> linarith
  obtain ⟨p, hp', bp, rp⟩ := op_mul A hd0 hm (by rw [abs_of_nonneg am0]; linarith)
  rw [abs_of_nonneg am0] at bp
  have pp0 : 0 ≤ p := le_rd rp F.rd_zero am0
  have pp1 : p ≤ a0 := rd_le rp (rep hd0) am1
  have perr : |p - a0 * (z - z ^ 2)| ≤ 17 * (u * a0) := by
    have g1 : |a0 * m - a0 * (z - z ^ 2)| ≤ 0 * m + a0 * (15 * u) := prod_err (by simp) merr a0p.le m0
    have g3 : u * (a0 * m) ≤ u * a0 := mul_le_mul_of_nonneg_left am1 u0
    obtain ⟨f1, f2⟩ := abs_le.1 g1
    obtain ⟨f3, f4⟩ := abs_le.1 bp
    rw [abs_le]; constructor <;> linarith
  have sp : 0 ≤ s + p := by linarith
  obtain ⟨n, hn, bn, rn⟩ := op_add A hs hp' (by rw [abs_of_nonneg sp]; linarith)
  rw [abs_of_nonneg sp] at bn
  have n0 : 0 ≤ n := le_rd rn F.rd_zero sp
  obtain ⟨ex0, exD, exr⟩ := exact_ratio σp a0p.le a1p.le zs0 zs1
  have nerr : |n - (σ * z ^ 2 + a0 * (z - z ^ 2))| ≤ 20 * u * (σ + a0 + a1) := by
    have g1 : u * (s + p) ≤ u * (102 / 100 * σ + a0) := mul_le_mul_of_nonneg_left (by linarith) u0
    obtain ⟨f1, f2⟩ := abs_le.1 serr
    obtain ⟨f3, f4⟩ := abs_le.1 perr
    obtain ⟨f5, f6⟩ := abs_le.1 bn
    have c0 : 0 ≤ u * σ := by positivity
    have c1 : 0 ≤ u * a0 := by positivity
    have c2 : 0 ≤ u * a1 := by positivity
    rw [abs_le]; constructor <;> linarith
  have derr : |D - (σ + (a0 + a1 - 2 * σ) * (z - z ^ 2))| ≤ 3 * (20 * u * (σ + a0 + a1)) := by
    have g1 : |S * m - σ * (z - z ^ 2)| ≤ 4 * (u * σ) * m + σ * (15 * u) := prod_err sl merr σp.le m0
    have g2 : |(a0 + a1) * m - (a0 + a1) * (z - z ^ 2)| ≤ 0 * m + (a0 + a1) * (15 * u) := prod_err (by simp) merr (by linarith) m0
    have g3 : 4 * (u * σ) * m ≤ 4 * (u * σ) := mul_le_of_le_one_right (by positivity) (by linarith)
    have g4 : u * (8 * (S + (a1 + a0) * m)) ≤ u * (8 * (102 / 100 * σ + (a1 + a0) * (13 / 50))) :=
      mul_le_mul_of_nonneg_left (by have := mul_le_mul_of_nonneg_left m1 (show 0 ≤ a1 + a0 by linarith); linarith) u0
    obtain ⟨f1, f2⟩ := abs_le.1 g1
    obtain ⟨f3, f4⟩ := abs_le.1 g2
    obtain ⟨f5, f6⟩ := abs_le.1 bD
    obtain ⟨f7, f8⟩ := abs_le.1 sl
    have c0 : 0 ≤ u * σ := by positivity
    have c1 : 0 ≤ u * a0 := by positivity
    have c2 : 0 ≤ u * a1 := by positivity
    rw [abs_le]; constructor <;> linarith
  have D45 : 44 / 100 * σ ≤ D := by have : 0 ≤ (a1 + a0) * m := mul_nonneg (by linarith) m0; linarith
  have rerr := ratio_acc σp (by linarith) exr (by linarith) ex0 nerr derr
  set N0 := σ * z ^ 2 + a0 * (z - z ^ 2) with hN0
  set DD := σ + (a0 + a1 - 2 * σ) * (z - z ^ 2) with hDD
  have DDp : 0 < DD := by linarith
  have rs0 : 0 ≤ N0 / DD := div_nonneg ex0 DDp.le
  have rs1 : N0 / DD ≤ 1 := by rw [div_le_one DDp]; exact exr
  set L := (σ + a0 + a1) / σ with hL
  have L1 : 1 ≤ L := by rw [hL, le_div_iff₀ σp]; linarith
  have hLe : h * L = h + w * (a0 + a1) := by rw [hL, eσ]; field_simp; ring
  have rerr' : |n / D - N0 / DD| ≤ 200 * (u * L) := by
    refine rerr.trans (le_of_eq ?_)
    rw [hL]; ring
  have hDlow : η ≤ u * (h * D) / 4 := by
    have g0 : 1 / B * (44 / 100 * (1 / 2 * (1 / B ^ 2))) ≤ h * D := mul_le_mul gy (by linarith) (by positivity) hp.le
    have g1 : 1 / B * (44 / 100 * (1 / 2 * (1 / B ^ 2))) = 22 / 100 * (1 / B ^ 3) := by field_simp; norm_num
    have g3 : 1 / B ^ 4 ≤ 1 / B ^ 3 := one_div_le_one_div_of_le (by positivity) k4
    have g4 : u * (22 / 100 * (1 / B ^ 4)) ≤ u * (h * D) := mul_le_mul_of_nonneg_left (by linarith) u0
    have g5 : 0 ≤ u * (1 / B ^ 4) := mul_nonneg u0 (by positivity)
    linarith
  have nB : n ≤ 6 * B ^ 2 := by
    have := mul_le_mul_of_nonneg_right ul sp
    have := (abs_le.1 bn).2
    linarith
  have hL4 : h * L ≤ 8 * B ^ 2 := by
    rw [hLe]
    have := mul_le_mul w2 (show a0 + a1 ≤ 2 * B by linarith) (by linarith) (by linarith)
    linarith
  have fin := seg_finish A R (r := N0 / DD) hy0 hH hn hD by0 hp Hp H1 bH n0 nB Dp hDlow ehh L1 hL4 rs0 rs1 rerr' ey
  rw [hLe] at fin
  exact fin

end Distrax.FSpline
