import Verif.Lemmas.FloatSpline10
import Mathlib.Tactic

/-!
Lemmas for C79: accuracy of the log-determinant of one segment.
-/

namespace Distrax.FSpline

open XR FX

variable {F : Fmt} {u η B : ℝ}

set_option maxHeartbeats 1000000 in
/-- The intermediate results of one segment, with their errors. -/
theorem seg_inner (A : F.Acc u η) (R : Room F η B) {x0 x1 y0 y1 d0 d1 x : FX F} {X0 X1 Y0 Y1 a0 a1 t : ℝ}
    (hx0 : x0.1 = fin X0) (hx1 : x1.1 = fin X1) (hy0 : y0.1 = fin Y0) (hy1 : y1.1 = fin Y1) (hd0 : d0.1 = fin a0) (hd1 : d1.1 = fin a1) (hx : x.1 = fin t)
    (bx0 : |X0| ≤ B) (bx1 : |X1| ≤ B) (by0 : |Y0| ≤ B) (by1 : |Y1| ≤ B) (gx : 1 / B ≤ X1 - X0) (gy : 1 / B ≤ Y1 - Y0)
    (l0 : 1 / B ≤ a0) (l1 : 1 / B ≤ a1) (r0 : a0 ≤ B) (r1 : a1 ≤ B) (t0 : X0 ≤ t) (t1 : t ≤ X1) {w h σ z : ℝ} (ew : w = X1 - X0) (eh : h = Y1 - Y0)
    (eσ : σ = h / w) (ez : z = (t - X0) / w) :
    (0 < σ ∧ 0 ≤ z ∧ z ≤ 1 ∧ η ≤ u * 1 / 64 ∧ η ≤ u * σ / 32 ∧ η ≤ u * a0 / 64 ∧ η ≤ u * a1 / 64) ∧
    ∃ S ζ q m D, ((y1 - y0) / (x1 - x0)).1 = fin S ∧ (clip01 ((x - x0) / (x1 - x0))).1 = fin ζ ∧
      (clip01 ((x - x0) / (x1 - x0)) * clip01 ((x - x0) / (x1 - x0))).1 = fin q ∧
      (clip01 ((x - x0) / (x1 - x0)) - clip01 ((x - x0) / (x1 - x0)) * clip01 ((x - x0) / (x1 - x0))).1 = fin m ∧
      (lit 2 * ((y1 - y0) / (x1 - x0))).1 = fin (2 * S) ∧
      ((y1 - y0) / (x1 - x0) + (d1 + d0 - lit 2 * ((y1 - y0) / (x1 - x0))) *
        (clip01 ((x - x0) / (x1 - x0)) - clip01 ((x - x0) / (x1 - x0)) * clip01 ((x - x0) / (x1 - x0)))).1 = fin D ∧
      (0 < S ∧ 2 / 5 * (1 / B ^ 2) ≤ S ∧ S ≤ 4 * B ^ 2 ∧ |S - σ| ≤ 4 * (u * σ)) ∧ (0 ≤ ζ ∧ ζ ≤ 1 ∧ |ζ - z| ≤ 4 * u) ∧ (0 ≤ q ∧ q ≤ 1 ∧ |q - z ^ 2| ≤ 10 * u) ∧
      (0 ≤ m ∧ m ≤ 13 / 50 ∧ |m - (z - z ^ 2)| ≤ 15 * u) ∧ 0 < D ∧ D ≤ 32 * B ^ 2 ∧ 44 / 100 * (98 / 100 * σ) ≤ D ∧
      |D - (σ + (a0 + a1 - 2 * σ) * (z - z ^ 2))| ≤ 60 * (u * (σ + a0 + a1)) := by
  have hB := R.one
  have B0 : 0 < B := by linarith
  have iB : 0 < 1 / B := by positivity
  have iB2 : 0 < 1 / B ^ 2 := by positivity
  have iB4 : 0 < 1 / B ^ 4 := by positivity
  obtain ⟨e1, e2, k2, k3, k4, k5, k6, i8, i7, i5, i4, i2, i1⟩ := room_facts A R
  have hT := R.top
  have u0 := A.u0
  have ul := A.u_le
  have e0 := A.η0
  have e1' : η ≤ 1 / 4096 * (1 / B ^ 8) := e1.trans (le_of_eq (by field_simp))
  have e2' : η ≤ 1 / 64 * (u * (1 / B ^ 4)) := e2.trans (le_of_eq (by field_simp))
  obtain ⟨W, hW, rW, W0, W1, bW⟩ := seg_width A R hx0 hx1 bx0 bx1 gx
  obtain ⟨H, hH, rH, H0, H1, bH⟩ := seg_width A R hy0 hy1 by0 by1 gy
  obtain ⟨S, hS, S0, S1⟩ := seg_slope A R hH hW H0 H1 W0 W1
  rw [← ew] at bW gx
  rw [← eh] at bH gy
  have Wp : 0 < W := by linarith
  have Hp : 0 < H := by linarith
  have Sp : 0 < S := by linarith
  have wp : 0 < w := by linarith
  have hp : 0 < h := by linarith
  have σp : 0 < σ := by rw [eσ]; positivity
  have w2 : w ≤ 2 * B := by rw [ew]; have := (abs_le.1 bx0).1; have := (abs_le.1 bx1).2; linarith
  have h2 : h ≤ 2 * B := by rw [eh]; have := (abs_le.1 by0).1; have := (abs_le.1 by1).2; linarith
  -- η is negligible
  have eu : η ≤ u * 1 / 64 := by
    have : u * (1 / B ^ 4) ≤ u * 1 := mul_le_mul_of_nonneg_left (by linarith) u0
    linarith
  have σlow : 1 / 2 * (1 / B ^ 2) ≤ σ := by
    rw [eσ, le_div_iff₀ wp]
    have : 1 / 2 * (1 / B ^ 2) * w ≤ 1 / 2 * (1 / B ^ 2) * (2 * B) := mul_le_mul_of_nonneg_left w2 (by positivity)
    have e : 1 / 2 * (1 / B ^ 2) * (2 * B) = 1 / B := by field_simp
    linarith
  have eσ' : η ≤ u * σ / 32 := by
    have g1 := mul_le_mul_of_nonneg_left σlow u0
    have g2 : u * (1 / B ^ 4) ≤ u * (1 / B ^ 2) := mul_le_mul_of_nonneg_left i4 u0
    linarith
  have ea0 : η ≤ u * a0 / 64 := by
    have g1 := mul_le_mul_of_nonneg_left l0 u0
    have g2 : u * (1 / B ^ 4) ≤ u * (1 / B) := mul_le_mul_of_nonneg_left (by linarith) u0
    linarith
  have ehh : η ≤ u * h / 64 := by
    have g1 := mul_le_mul_of_nonneg_left gy u0
    have g2 : u * (1 / B ^ 4) ≤ u * (1 / B) := mul_le_mul_of_nonneg_left (by linarith) u0
    linarith
  -- the slope
  have sl : |S - σ| ≤ 4 * (u * σ) := by
    obtain ⟨S', hS', bS', -⟩ := op_div A hH hW Wp.ne' (by
      rw [abs_of_pos (by positivity), div_le_iff₀ Wp]
      have g3 : 4096 * B ^ 6 * (255 / 256 * (1 / B)) ≤ F.top * W := mul_le_mul hT W0 (by positivity) (by have := F.top_ge; linarith)
      have e : 4096 * B ^ 6 * (255 / 256 * (1 / B)) = 4080 * B ^ 5 := by field_simp; norm_num
      linarith)
    obtain rfl : S' = S := fin.inj (hS'.symm.trans hS)
    have := quot_acc u0 ul hp.le wp bH bW bS'
    rw [← eσ] at this
    linarith
  -- the position
  have tx : 0 ≤ t - X0 := by linarith
  have zs0 : 0 ≤ z := by rw [ez]; positivity
  have zs1 : z ≤ 1 := by rw [ez, div_le_one wp]; linarith
  obtain ⟨o, ho, bo, ro⟩ := op_sub A hx hx0 (by
    rw [abs_of_nonneg tx]
    have := (abs_le.1 bx0).1
    have := (abs_le.1 bx1).2
    linarith)
  rw [abs_of_nonneg tx] at bo
  have o0 : 0 ≤ o := le_rd ro F.rd_zero tx
  have o2 : o ≤ W := by
    have := F.mono (show t - X0 ≤ X1 - X0 by linarith)
    rwa [ro, rW, leB_fin] at this
  have oW : o / W ≤ 1 := by rw [div_le_one Wp]; exact o2
  have oW0 : 0 ≤ o / W := div_nonneg o0 Wp.le
  obtain ⟨v, hv, bv, rv⟩ := op_div A ho hW Wp.ne' (by rw [abs_of_nonneg oW0]; have := F.top_ge; linarith)
  have v0 : 0 ≤ v := le_rd rv F.rd_zero oW0
  have hζ := clip01_val hv v0
  have zv : |v - z| ≤ 4 * u := by
    have := quot_acc u0 ul tx wp bo bW bv
    rw [← ez] at this
    have g := mul_le_mul_of_nonneg_left zs1 u0
    linarith
  obtain ⟨zv1, zv2⟩ := abs_le.1 zv
  have z0 : 0 ≤ min v 1 := le_min v0 (by norm_num)
  have z1 : min v 1 ≤ 1 := min_le_right _ _
  have zerr : |min v 1 - z| ≤ 4 * u := by
    rw [abs_le]
    constructor
    · have : z - 4 * u ≤ min v 1 := le_min (by linarith) (by linarith)
      linarith
    · have := min_le_left v 1; linarith
  generalize min v 1 = ζ at hζ z0 z1 zerr
  have a0p : 0 < a0 := by linarith
  have a1p : 0 < a1 := by linarith
  obtain ⟨q, m, hq, hm, q0, qz, bq, m0, m1, bm⟩ := seg_pos A hζ z0 z1
  obtain ⟨τ, D, two, hτ, bτ, hD, D0, D1, bD⟩ := seg_den A hm m0 m1 hS Sp hd0 hd1 a0p a1p S1 (by linarith) (by linarith) (by linarith) (by linarith)
  have am0 : 0 ≤ a0 * m := mul_nonneg a0p.le m0
  have am1 : a0 * m ≤ a0 := mul_le_of_le_one_right a0p.le (by linarith)
  have Dp : 0 < D := by have : 0 ≤ (a1 + a0) * m := mul_nonneg (by linarith) m0; linarith
  have qerr : |q - z ^ 2| ≤ 10 * u := by
    have g1 : |ζ * ζ - z * z| ≤ 4 * u * ζ + z * (4 * u) := prod_err zerr zerr zs0 z0
    have g2 := mul_le_mul_of_nonneg_left z1 u0
    have g3 := mul_le_mul_of_nonneg_left zs1 u0
    have zz : ζ * ζ ≤ 1 := by nlinarith
    have g4 := mul_le_mul_of_nonneg_left zz u0
    obtain ⟨f1, f2⟩ := abs_le.1 g1
    obtain ⟨f3, f4⟩ := abs_le.1 bq
    rw [pow_two, abs_le]; constructor <;> linarith
  obtain ⟨qe1, qe2⟩ := abs_le.1 qerr
  obtain ⟨ze1, ze2⟩ := abs_le.1 zerr
  have merr : |m - (z - z ^ 2)| ≤ 15 * u := by
    have g := mul_le_mul_of_nonneg_left (show ζ - q ≤ 1 by linarith) u0
    obtain ⟨f1, f2⟩ := abs_le.1 bm
    rw [abs_le]; constructor <;> linarith
  have ea1 : η ≤ u * a1 / 64 := by
    have g1 := mul_le_mul_of_nonneg_left l1 u0
    have g2 : u * (1 / B ^ 4) ≤ u * (1 / B) := mul_le_mul_of_nonneg_left (by linarith) u0
    linarith
  have uσ : u * σ ≤ σ / 256 := by have := mul_le_mul_of_nonneg_right ul σp.le; linarith
  have S2 : S ≤ 102 / 100 * σ := by have := (abs_le.1 sl).2; linarith
  have S3 : 98 / 100 * σ ≤ S := by have := (abs_le.1 sl).1; linarith
  have derr : |D - (σ + (a0 + a1 - 2 * σ) * (z - z ^ 2))| ≤ 60 * (u * (σ + a0 + a1)) := by
    have g1 : |S * m - σ * (z - z ^ 2)| ≤ 4 * (u * σ) * m + σ * (15 * u) := prod_err sl merr σp.le m0
    have g2 : |(a0 + a1) * m - (a0 + a1) * (z - z ^ 2)| ≤ 0 * m + (a0 + a1) * (15 * u) := prod_err (by simp) merr (by linarith) m0
    have g3 : 4 * (u * σ) * m ≤ 4 * (u * σ) := mul_le_of_le_one_right (by positivity) (by linarith)
    have g4 : u * (8 * (S + (a1 + a0) * m)) ≤ u * (8 * (102 / 100 * σ + (a1 + a0) * (13 / 50))) :=
      mul_le_mul_of_nonneg_left (by have := mul_le_mul_of_nonneg_left m1 (show 0 ≤ a1 + a0 by linarith); linarith) u0
    obtain ⟨f1, f2⟩ := abs_le.1 g1
    obtain ⟨f3, f4⟩ := abs_le.1 g2
    obtain ⟨f5, f6⟩ := abs_le.1 bD
    obtain ⟨f7, f8⟩ := abs_le.1 sl
    have c0 : 0 ≤ u * σ := by positivity
    have c1 : 0 ≤ u * a0 := by positivity
    have c2 : 0 ≤ u * a1 := by positivity
    rw [abs_le]; constructor <;> linarith
  have D45 : 44 / 100 * σ ≤ D := by have : 0 ≤ (a1 + a0) * m := mul_nonneg (by linarith) m0; linarith
  have am2 : 0 ≤ (a1 + a0) * m := mul_nonneg (by linarith) m0
  refine ⟨⟨σp, zs0, zs1, eu, eσ', ea0, ea1⟩, S, ζ, q, m, D, hS, hζ, hq, hm, two, hD, ⟨Sp, S0, S1, sl⟩, ⟨z0, z1, zerr⟩, ⟨q0, by linarith, qerr⟩,
    ⟨m0, m1, merr⟩, Dp, by linarith, by linarith, derr⟩

/-- The argument of the logarithm of the numerator. -/
theorem seg_arg_acc (A : F.Acc u η) (hT : 64 ≤ F.top) {z slope d0 d1 : FX F} {ζ q m S a0 a1 σ Z M : ℝ} (hz : z.1 = fin ζ) (z0 : 0 ≤ ζ) (z1 : ζ ≤ 1)
    (hq : (z * z).1 = fin q) (q0 : 0 ≤ q) (q1 : q ≤ 1) (hm : (z - z * z).1 = fin m) (m0 : 0 ≤ m) (m1 : m ≤ 13 / 50) (two : (lit 2 * slope).1 = fin (2 * S)) (S0 : 0 < S)
    (h0 : d0.1 = fin a0) (h1 : d1.1 = fin a1) (p0 : 0 < a0) (p1 : 0 < a1) (SM : S ≤ M) (M0 : a0 ≤ M) (M1 : a1 ≤ M) (Mt : 64 * M ≤ F.top)
    (Z0 : 0 ≤ Z) (Z1 : Z ≤ 1) (σp : 0 < σ) (sl : |S - σ| ≤ 4 * (u * σ)) (zerr : |ζ - Z| ≤ 4 * u) (qerr : |q - Z ^ 2| ≤ 10 * u) (merr : |m - (Z - Z ^ 2)| ≤ 15 * u)
    (eu : η ≤ u * 1 / 64) (eσ : η ≤ u * σ / 32) (ea0 : η ≤ u * a0 / 64) (ea1 : η ≤ u * a1 / 64) :
    ∃ E, (d1 * (z * z) + lit 2 * slope * (z - z * z) + d0 * ((lit 1 - z) * (lit 1 - z))).1 = fin E ∧
      |E - (a1 * Z ^ 2 + 2 * σ * (Z - Z ^ 2) + a0 * (1 - Z) ^ 2)| ≤ 36 * (u * (σ + a0 + a1)) := by
  have u0 := A.u0
  have ul := A.u_le
  have uσ : u * σ ≤ σ / 256 := by have := mul_le_mul_of_nonneg_right ul σp.le; linarith
  have uσ0 : 0 ≤ u * σ := by positivity
  have ua0 : 0 ≤ u * a0 := by positivity
  have ua1 : 0 ≤ u * a1 := by positivity
  obtain ⟨w, hw, bw, rw'⟩ := op_sub A lit_one hz (by rw [abs_of_nonneg (by linarith)]; linarith)
  have w0 : 0 ≤ w := le_rd rw' F.rd_zero (by linarith)
  have w1 : w ≤ 1 := rd_le rw' F.rd_one (by linarith)
  rw [abs_of_nonneg (show (0 : ℝ) ≤ 1 - ζ by linarith)] at bw
  have werr : |w - (1 - Z)| ≤ 5 * u := by
    have g : u * (1 - ζ) ≤ u * 1 := mul_le_mul_of_nonneg_left (by linarith) u0
    obtain ⟨f1, f2⟩ := abs_le.1 bw
    obtain ⟨f3, f4⟩ := abs_le.1 zerr
    rw [abs_le]; constructor <;> linarith
  have ww0 : 0 ≤ w * w := mul_nonneg w0 w0
  have ww1 : w * w ≤ 1 := mul_le_one₀ w1 w0 w1
  obtain ⟨v, hv, bv, rv⟩ := op_mul A hw hw (by rw [abs_of_nonneg ww0]; linarith)
  have v0 : 0 ≤ v := le_rd rv F.rd_zero ww0
  have v1 : v ≤ 1 := rd_le rv F.rd_one ww1
  rw [abs_of_nonneg ww0] at bv
  have verr : |v - (1 - Z) ^ 2| ≤ 12 * u := by
    have g1 : |w * w - (1 - Z) * (1 - Z)| ≤ 5 * u * w + (1 - Z) * (5 * u) := prod_err werr werr (by linarith) w0
    have g2 := mul_le_mul_of_nonneg_left w1 u0
    have g3 := mul_le_mul_of_nonneg_left (show 1 - Z ≤ 1 by linarith) u0
    have g4 := mul_le_mul_of_nonneg_left ww1 u0
    obtain ⟨f1, f2⟩ := abs_le.1 g1
    obtain ⟨f3, f4⟩ := abs_le.1 bv
    rw [pow_two, abs_le]; constructor <;> linarith
  have S2 : S ≤ 102 / 100 * σ := by have := (abs_le.1 sl).2; linarith
  have k1 : 0 ≤ a1 * q := mul_nonneg p1.le q0
  have k1' : a1 * q ≤ a1 := mul_le_of_le_one_right p1.le q1
  obtain ⟨r1, hr1, b1, rr1⟩ := op_mul A h1 hq (by rw [abs_of_nonneg k1]; linarith)
  have r10 : 0 ≤ r1 := le_rd rr1 F.rd_zero k1
  have r11 : r1 ≤ a1 := rd_le rr1 (rep h1) k1'
  rw [abs_of_nonneg k1] at b1
  have e1 : |r1 - a1 * Z ^ 2| ≤ 12 * (u * a1) := by
    have g1 : |a1 * q - a1 * Z ^ 2| ≤ 0 * q + a1 * (10 * u) := prod_err (by simp) qerr p1.le q0
    have g2 := mul_le_mul_of_nonneg_left k1' u0
    obtain ⟨f1, f2⟩ := abs_le.1 g1
    obtain ⟨f3, f4⟩ := abs_le.1 b1
    rw [abs_le]; constructor <;> linarith
  have k3 : 0 ≤ a0 * v := mul_nonneg p0.le v0
  have k3' : a0 * v ≤ a0 := mul_le_of_le_one_right p0.le v1
  obtain ⟨r3, hr3, b3, rr3⟩ := op_mul A h0 hv (by rw [abs_of_nonneg k3]; linarith)
  have r30 : 0 ≤ r3 := le_rd rr3 F.rd_zero k3
  have r31 : r3 ≤ a0 := rd_le rr3 (rep h0) k3'
  rw [abs_of_nonneg k3] at b3
  have e3 : |r3 - a0 * (1 - Z) ^ 2| ≤ 14 * (u * a0) := by
    have g1 : |a0 * v - a0 * (1 - Z) ^ 2| ≤ 0 * v + a0 * (12 * u) := prod_err (by simp) verr p0.le v0
    have g2 := mul_le_mul_of_nonneg_left k3' u0
    obtain ⟨f1, f2⟩ := abs_le.1 g1
    obtain ⟨f3, f4⟩ := abs_le.1 b3
    rw [abs_le]; constructor <;> linarith
  have k2' : 2 * S * m ≤ 2 * S * (13 / 50) := mul_le_mul_of_nonneg_left m1 (by linarith)
  have k2 : 0 ≤ 2 * S * m := mul_nonneg (by linarith) m0
  obtain ⟨r2, hr2, b2, rr2⟩ := op_mul A two hm (by rw [abs_of_nonneg k2]; linarith)
  have r20 : 0 ≤ r2 := le_rd rr2 F.rd_zero k2
  have r21 : r2 ≤ 2 * S := rd_le rr2 (rep two) (by linarith)
  rw [abs_of_nonneg k2] at b2
  have e2 : |r2 - 2 * σ * (Z - Z ^ 2)| ≤ 34 * (u * σ) := by
    have g1 : |S * m - σ * (Z - Z ^ 2)| ≤ 4 * (u * σ) * m + σ * (15 * u) := prod_err sl merr σp.le m0
    have g3 : 4 * (u * σ) * m ≤ 4 * (u * σ) * (13 / 50) := mul_le_mul_of_nonneg_left m1 (by positivity)
    have g2 : u * (2 * S * m) ≤ u * (2 * (102 / 100 * σ) * (13 / 50)) := mul_le_mul_of_nonneg_left (by linarith) u0
    obtain ⟨f1, f2⟩ := abs_le.1 g1
    obtain ⟨f3, f4⟩ := abs_le.1 b2
    rw [abs_le]; constructor <;> linarith
  have s12 : 0 ≤ r1 + r2 := by linarith
  obtain ⟨r4, hr4, b4, rr4⟩ := op_add A hr1 hr2 (by rw [abs_of_nonneg s12]; linarith)
  rw [abs_of_nonneg s12] at b4
  have r2' : r2 ≤ 6 / 10 * σ := by
    have := (abs_le.1 b2).2
    have g2 : u * (2 * S * m) ≤ u * (2 * (102 / 100 * σ) * (13 / 50)) := mul_le_mul_of_nonneg_left (by linarith) u0
    linarith
  have g4 : u * (r1 + r2) ≤ u * (a1 + 6 / 10 * σ) := mul_le_mul_of_nonneg_left (by linarith) u0
  have uu := mul_le_mul_of_nonneg_right ul s12
  have s34 : 0 ≤ r4 + r3 := by have := (abs_le.1 b4).1; linarith
  have r4' : r4 ≤ 257 / 256 * (a1 + 6 / 10 * σ) := by have := (abs_le.1 b4).2; linarith
  have S3 : 98 / 100 * σ ≤ S := by have := (abs_le.1 sl).1; linarith
  obtain ⟨E, hE, b5, rE⟩ := op_add A hr4 hr3 (by rw [abs_of_nonneg s34]; linarith)
  rw [abs_of_nonneg s34] at b5
  refine ⟨E, hE, ?_⟩
  have g5 : u * (r4 + r3) ≤ u * (257 / 256 * (a1 + 6 / 10 * σ) + a0) := mul_le_mul_of_nonneg_left (by linarith) u0
  obtain ⟨f1, f2⟩ := abs_le.1 e1
  obtain ⟨f3, f4⟩ := abs_le.1 e2
  obtain ⟨f5, f6⟩ := abs_le.1 e3
  obtain ⟨f7, f8⟩ := abs_le.1 b4
  obtain ⟨f9, f10⟩ := abs_le.1 b5
  rw [abs_le]; constructor <;> linarith

/-- Logarithms of nearby numbers. -/
theorem log_near {x x' δ : ℝ} (x0 : 0 < x) (h : |x' - x| ≤ δ * x) (hδ : δ ≤ 1 / 2) : |Real.log x' - Real.log x| ≤ 2 * δ := by
  obtain ⟨h1, h2⟩ := abs_le.1 h
  have d0 : 0 ≤ δ := by
    by_contra c
    have := mul_neg_of_neg_of_pos (not_le.1 c) x0
    have := (_root_.abs_nonneg _).trans h
    linarith
  have hx := mul_le_mul_of_nonneg_right hδ x0.le
  have xp : 0 < x' := by linarith
  rw [abs_le]
  constructor
  · have e := Real.log_le_sub_one_of_pos (div_pos x0 xp)
    rw [Real.log_div x0.ne' xp.ne'] at e
    have : x / x' - 1 ≤ 2 * δ := by
      rw [sub_le_iff_le_add, div_le_iff₀ xp]
      have := mul_nonneg d0 (show 0 ≤ 2 * x' - x by linarith)
      linarith
    linarith
  · have e := Real.log_le_sub_one_of_pos (div_pos xp x0)
    rw [Real.log_div xp.ne' x0.ne'] at e
    have : x' / x - 1 ≤ δ := by
      rw [sub_le_iff_le_add, div_le_iff₀ x0]
      linarith
    linarith

/-- The three logarithms added up as the code does. -/
theorem logs_acc3 (A : F.Acc u η) (hu : η ≤ u) {a b c : FX F} {x y z M : ℝ} (ha : a.1 = fin x) (hb : b.1 = fin y) (hc : c.1 = fin z) (x0 : 0 < x) (y0 : 0 < y)
    (z0 : 0 < z) (M1 : 1 ≤ M) (hx : |Real.log x| ≤ M) (hy : |Real.log y| ≤ M) (hz : |Real.log z| ≤ M) :
    (lit 2 * FX.log a + FX.log b - lit 2 * FX.log c).Within (2 * Real.log x + Real.log y - 2 * Real.log z) (u * (24 * M)) := by
  have u0 := A.u0
  have ul := A.u_le
  obtain ⟨p, hp, bp⟩ := log_finite ha x0
  obtain ⟨q, hq, bq⟩ := log_finite hb y0
  obtain ⟨r, hr, br⟩ := log_finite hc z0
  have lb := F.lb_le
  have l0 : 0 ≤ F.lb := (_root_.abs_nonneg p).trans bp
  have acc : ∀ {v : FX F} {s t : ℝ}, v.1 = fin s → 0 < s → |Real.log s| ≤ M → (FX.log v).1 = fin t → |t - Real.log s| ≤ 2 * (u * M) := by
    intro v s t hv hs hM ht
    have e : F.rd (Real.log s) = fin t := by
      rw [← ht, FX.log, fn_val hv, XR.log_fin_pos hs]; rfl
    have := A.err e
    have k := mul_le_mul_of_nonneg_left hM u0
    have k1 := mul_le_mul_of_nonneg_left M1 u0
    linarith
  have ap := acc ha x0 hx hp
  have aq := acc hb y0 hy hq
  have ar := acc hc z0 hz hr
  have uM : u * M ≤ 1 / 256 * M := mul_le_mul_of_nonneg_right ul (by linarith)
  have uM0 : 0 ≤ u * M := by positivity
  have dbl : ∀ {v : FX F} {s : ℝ}, v.1 = fin s → |s| ≤ F.lb → (lit 2 * v).1 = fin (2 * s) := fun {v s} hv hs => by
    rw [mul_val, lit_two, hv, fin_mul]
    exact F.double (rep hv) (by rw [abs_mul, abs_of_pos (by norm_num : (0 : ℝ) < 2)]; linarith)
  have h1 := dbl hp bp
  have h3 := dbl hr br
  obtain ⟨a1, a2⟩ := abs_le.1 bp
  obtain ⟨a3, a4⟩ := abs_le.1 bq
  obtain ⟨a5, a6⟩ := abs_le.1 br
  obtain ⟨p1, p2⟩ := abs_le.1 ap
  obtain ⟨q1, q2⟩ := abs_le.1 aq
  obtain ⟨r1, r2⟩ := abs_le.1 ar
  obtain ⟨x1, x2⟩ := abs_le.1 hx
  obtain ⟨y1, y2⟩ := abs_le.1 hy
  obtain ⟨z1, z2⟩ := abs_le.1 hz
  obtain ⟨s, hs, bs, -⟩ := op_add A h1 hq (by rw [abs_le]; constructor <;> linarith)
  have k : |2 * p + q| ≤ 313 / 100 * M := by rw [abs_le]; constructor <;> linarith
  have k2 : u * |2 * p + q| ≤ u * (313 / 100 * M) := mul_le_mul_of_nonneg_left k u0
  have k3 : |2 * p + q| ≤ 3 * F.lb := by rw [abs_le]; constructor <;> linarith
  have k4 : u * |2 * p + q| ≤ 1 / 256 * (3 * F.lb) := mul_le_mul ul k3 (_root_.abs_nonneg _) (by norm_num)
  obtain ⟨c1, c2⟩ := abs_le.1 bs
  obtain ⟨c3, c4⟩ := abs_le.1 k3
  obtain ⟨c5, c6⟩ := abs_le.1 k
  obtain ⟨e, he, be, -⟩ := op_sub A hs h3 (by rw [abs_le]; constructor <;> linarith)
  have k5 : |s - 2 * r| ≤ 53 / 10 * M := by rw [abs_le]; constructor <;> linarith
  have k6 : u * |s - 2 * r| ≤ u * (53 / 10 * M) := mul_le_mul_of_nonneg_left k5 u0
  obtain ⟨d1, d2⟩ := abs_le.1 be
  exact ⟨e, he, by rw [abs_le]; constructor <;> linarith⟩

/-- Logarithms of numbers between `1 / (64 * B^2)` and `64 * B^2`. -/
theorem log_size' (hB : 1 ≤ B) {s : ℝ} (h0 : 1 / 64 * (1 / B ^ 2) ≤ s) (h1 : s ≤ 64 * B ^ 2) : |Real.log s| ≤ Real.log (64 * B ^ 2) := by
  have B0 : 0 < B := by linarith
  have p : 0 < 1 / 64 * (1 / B ^ 2) := by positivity
  have sp : 0 < s := by linarith
  rw [abs_le]
  constructor
  · rw [_root_.neg_le, ← Real.log_inv]
    refine Real.log_le_log (inv_pos.2 sp) ?_
    rw [inv_le_comm₀ sp (by positivity)]
    refine le_trans (le_of_eq ?_) h0
    field_simp
  · exact Real.log_le_log sp h1

/-- The derivative of the exact segment. -/
theorem rqSegment_deriv {x0 x1 y0 y1 d0 d1 t w h σ z : ℝ} (ew : w = x1 - x0) (eh : h = y1 - y0) (eσ : σ = h / w) (ez : z = (t - x0) / w) (wp : 0 < w) (hp : 0 < h)
    (hD : σ + (d0 + d1 - 2 * σ) * (z - z ^ 2) ≠ 0) :
    HasDerivAt (rqSegment x0 x1 y0 y1 d0 d1)
      (σ ^ 2 * (d1 * z ^ 2 + 2 * σ * (z - z ^ 2) + d0 * (1 - z) ^ 2) / (σ + (d0 + d1 - 2 * σ) * (z - z ^ 2)) ^ 2) t := by
  have hz : HasDerivAt (fun t => (t - x0) / w) (1 / w) t := ((hasDerivAt_id t).sub_const x0).div_const w
  have hN : HasDerivAt (fun z : ℝ => σ * z ^ 2 + d0 * z * (1 - z)) (σ * (2 * z) + d0 * (1 - 2 * z)) z := by
    have h1 := (hasDerivAt_pow 2 z).const_mul σ
    have h2 := ((hasDerivAt_id z).const_mul d0).mul ((hasDerivAt_id z).const_sub 1)
    refine (h1.add h2).congr_deriv ?_
    simp; ring
  have hQ : HasDerivAt (fun z : ℝ => σ + (d1 + d0 - 2 * σ) * z * (1 - z)) ((d1 + d0 - 2 * σ) * (1 - 2 * z)) z := by
    have h2 := (((hasDerivAt_id z).const_mul (d1 + d0 - 2 * σ)).mul ((hasDerivAt_id z).const_sub 1)).const_add σ
    refine h2.congr_deriv ?_
    simp; ring
  have hD' : σ + (d1 + d0 - 2 * σ) * z * (1 - z) ≠ 0 := by
    intro c; apply hD; rw [← c]; ring
  have hg := hN.div hQ hD'
  rw [ez] at hg
  have hc := ((hg.comp t hz).const_mul h).const_add y0
  have e : rqSegment x0 x1 y0 y1 d0 d1 = fun t => y0 + h * (((fun z : ℝ => σ * z ^ 2 + d0 * z * (1 - z)) / fun z : ℝ => σ + (d1 + d0 - 2 * σ) * z * (1 - z)) ∘ fun t => (t - x0) / w) t := by
    funext t
    simp only [rqSegment, Function.comp, Pi.div_apply, eσ, eh, ew]
  rw [e]
  refine hc.congr_deriv ?_
  rw [← ez]
  have hw : h = σ * w := by rw [eσ]; field_simp
  have e2 : σ + (d0 + d1 - 2 * σ) * (z - z ^ 2) = σ + (d1 + d0 - 2 * σ) * z * (1 - z) := by ring
  rw [e2, hw]
  field_simp
  ring

end Distrax.FSpline
