import Verif.Lemmas.FloatSpline3

/-!
Lemmas for C79: the inverse direction of one segment.
-/

namespace Distrax.FSpline

open XR FX

variable {F : Fmt} {u η B : ℝ}

/-- The coefficients of the quadratic equation satisfy the conditions of `root_num`. -/
theorem seg_coeffs (A : F.Acc u η) (R : Room F η B) {slope d0 d1 w : FX F} {S a0 a1 ω : ℝ} (hS : slope.1 = fin S) (S0 : 2 / 5 * (1 / B ^ 2) ≤ S)
    (S1 : S ≤ 4 * B ^ 2) (hd0 : d0.1 = fin a0) (hd1 : d1.1 = fin a1) (l0 : 1 / B ≤ a0) (l1 : 1 / B ≤ a1) (r0 : a0 ≤ B) (r1 : a1 ≤ B)
    (hw : w.1 = fin ω) (w0 : 0 ≤ ω) (w1 : ω ≤ 1) {t : ℝ} (ht : (d1 + d0 - lit 2 * slope).1 = fin t)
    (bt : |t - (a1 + a0 - 2 * S)| ≤ u * (3 * (a1 + a0) + 2 * S)) :
    ∃ α β γ, (-slope * w).1 = fin γ ∧ (d0 - (d1 + d0 - lit 2 * slope) * w).1 = fin β ∧
      (slope - (d0 - (d1 + d0 - lit 2 * slope) * w)).1 = fin α ∧ |α| ≤ 32 * B ^ 2 ∧ |β| ≤ 16 * B ^ 2 ∧ |γ| ≤ 4 * B ^ 2 ∧
      (β < 0 → 0 < α) ∧ (β = 0 → 8 * η ≤ -(α * γ) ∧ 0 < -(α * γ)) ∧ (ω = 0 → γ = 0 ∧ 0 < β) := by
  have hB := R.one
  have B0 : 0 < B := by linarith
  have iB : 0 < 1 / B := by positivity
  have iB2 : 0 < 1 / B ^ 2 := by positivity
  obtain ⟨e1, e2, k2, k3, k4, k5, k6, i8, i7, i5, i4, i2, i1⟩ := room_facts A R
  have hT := R.top
  have u0 := A.u0
  have ul := A.u_le
  have e0 := A.η0
  have e1' : η ≤ 1 / 4096 * (1 / B ^ 8) := e1.trans (le_of_eq (by field_simp))
  have el : η ≤ 1 / 4096 := by linarith
  have B1 : 1 ≤ B ^ 2 := by linarith
  have Sp : 0 < S := by linarith
  have a0p : 0 < a0 := by linarith
  have a1p : 0 < a1 := by linarith
  -- c
  have nS : (-slope).1 = fin (-S) := by rw [neg_val, hS]; rfl
  have Sw0 : 0 ≤ S * ω := mul_nonneg Sp.le w0
  have Sw1 : S * ω ≤ S := mul_le_of_le_one_right Sp.le w1
  obtain ⟨γ, hγ, bγ, rγ⟩ := op_mul A nS hw (by rw [neg_mul, abs_neg, abs_of_nonneg Sw0]; linarith)
  rw [neg_mul, abs_neg, abs_of_nonneg Sw0] at bγ
  have γ0 : γ ≤ 0 := rd_le rγ F.rd_zero (by rw [neg_mul]; linarith)
  have γ1 : -S ≤ γ := le_rd rγ (F.rd_neg (rep hS)) (by rw [neg_mul]; linarith)
  -- b
  have tt : |t| ≤ 12 * B ^ 2 := by
    have := abs_sub_abs_le_abs_sub t (a1 + a0 - 2 * S)
    have k : |a1 + a0 - 2 * S| ≤ (a1 + a0) + 2 * S := by rw [abs_le]; constructor <;> linarith
    have kk : u * (3 * (a1 + a0) + 2 * S) ≤ 1 / 256 * (3 * (a1 + a0) + 2 * S) := mul_le_mul_of_nonneg_right ul (by linarith)
    linarith
  have tw : |t * ω| ≤ 12 * B ^ 2 := by
    rw [abs_mul, abs_of_nonneg w0]
    exact (mul_le_of_le_one_right (_root_.abs_nonneg _) w1).trans tt
  obtain ⟨P, hP, bP, rP⟩ := op_mul A ht hw (by linarith)
  have uP : u * |t * ω| ≤ 1 / 256 * (12 * B ^ 2) := mul_le_mul ul tw (_root_.abs_nonneg _) (by norm_num)
  have Pb : |P| ≤ 13 * B ^ 2 := by have := abs_sub_abs_le_abs_sub P (t * ω); linarith
  obtain ⟨P1, P2⟩ := abs_le.1 Pb
  have aP : |a0 - P| ≤ 14 * B ^ 2 := by rw [abs_le]; constructor <;> linarith
  obtain ⟨β, hβ, bβ, rβ⟩ := op_sub A hd0 hP (by linarith)
  have uβ : u * |a0 - P| ≤ 1 / 256 * (14 * B ^ 2) := mul_le_mul ul aP (_root_.abs_nonneg _) (by norm_num)
  have βb : |β| ≤ 16 * B ^ 2 := by have := abs_sub_abs_le_abs_sub β (a0 - P); linarith
  -- a
  obtain ⟨β1, β2⟩ := abs_le.1 βb
  have Sβ : |S - β| ≤ 20 * B ^ 2 := by rw [abs_le]; constructor <;> linarith
  obtain ⟨α, hα, bα, rα⟩ := op_sub A hS hβ (by linarith)
  have uα : u * |S - β| ≤ 1 / 256 * (20 * B ^ 2) := mul_le_mul ul Sβ (_root_.abs_nonneg _) (by norm_num)
  have αb : |α| ≤ 32 * B ^ 2 := by have := abs_sub_abs_le_abs_sub α (S - β); linarith
  refine ⟨α, β, γ, hγ, hβ, hα, αb, βb, by rw [abs_le]; constructor <;> linarith, fun h => ?_, fun h => ?_, fun h => ?_⟩
  · exact Sp.trans_le (le_rd rα (rep hS) (by linarith))
  · -- `b = 0` forces the slopes term times `w` to be the left slope
    have Pa : P = a0 := by
      by_contra hne
      rcases lt_or_gt_of_ne hne with hl | hl
      · exact F.gradual (rep hP) (rep hd0) hl (by rw [rβ, h])
      · refine F.gradual (rep hd0) (rep hP) hl ?_
        have := F.rd_neg rβ
        rw [h, neg_zero, neg_sub] at this
        exact this
    have αS : α = S := by
      rw [h, _root_.sub_zero, rep hS] at rα
      exact (fin.inj rα).symm
    have tw2 : t * ω ≤ 12 * B ^ 2 * ω := by
      have := mul_le_mul_of_nonneg_right ((le_abs_self t).trans tt) w0
      linarith
    have tw3 : |t * ω| ≤ 12 * B ^ 2 * ω := by rw [abs_mul, abs_of_nonneg w0]; exact mul_le_mul_of_nonneg_right tt w0
    have ωb : 1 / B ≤ 14 * (B ^ 2 * ω) := by
      have k1 := (abs_le.1 bP).2
      have k2' : u * |t * ω| ≤ 1 / 256 * (12 * B ^ 2 * ω) := mul_le_mul ul tw3 (_root_.abs_nonneg _) (by norm_num)
      linarith
    have ω2 : 1 / 14 * (1 / B ^ 3) ≤ ω := by
      have k := mul_le_mul_of_nonneg_left ωb iB2.le
      have e1 : 1 / B ^ 2 * (1 / B) = 1 / B ^ 3 := by field_simp
      have e2 : 1 / B ^ 2 * (14 * (B ^ 2 * ω)) = 14 * ω := by field_simp
      rw [e1, e2] at k
      linarith
    have Sω : 1 / 35 * (1 / B ^ 5) ≤ S * ω := by
      have k := mul_le_mul S0 ω2 (by positivity) Sp.le
      have e : 2 / 5 * (1 / B ^ 2) * (1 / 14 * (1 / B ^ 3)) = 1 / 35 * (1 / B ^ 5) := by field_simp; norm_num
      rw [e] at k; exact k
    have γn : 1 / 40 * (1 / B ^ 5) ≤ -γ := by
      have k1 := (abs_le.1 bγ).2
      have k2' : u * (S * ω) ≤ 1 / 256 * (S * ω) := mul_le_mul_of_nonneg_right ul Sw0
      have : 0 < 1 / B ^ 5 := by positivity
      linarith
    have αγ : 1 / 100 * (1 / B ^ 7) ≤ -(α * γ) := by
      rw [αS]
      have k := mul_le_mul S0 γn (by positivity) Sp.le
      have e : 2 / 5 * (1 / B ^ 2) * (1 / 40 * (1 / B ^ 5)) = 1 / 100 * (1 / B ^ 7) := by field_simp; norm_num
      rw [e] at k
      linarith
    have : 0 < 1 / B ^ 7 := by positivity
    constructor <;> linarith
  · constructor
    · rw [h, mul_zero, F.rd_zero] at rγ; exact (fin.inj rγ).symm
    · rw [h, mul_zero, F.rd_zero] at rP
      have : P = 0 := (fin.inj rP).symm
      rw [this, _root_.sub_zero, rep hd0] at rβ
      rw [← fin.inj rβ]; exact a0p

set_option maxHeartbeats 1000000 in
/-- One segment, inverse: no overflow, no `nan`, values in the bin up to rounding, knots exact. -/
theorem segInv_spec (A : F.Acc u η) (R : Room F η B) {tiny x0 x1 y0 y1 d0 d1 y : FX F} {τ X0 X1 Y0 Y1 a0 a1 t : ℝ} (hτ : tiny.1 = fin τ) (τ0 : 0 < τ) (τ1 : τ ≤ 1)
    (hx0 : x0.1 = fin X0) (hx1 : x1.1 = fin X1) (hy0 : y0.1 = fin Y0) (hy1 : y1.1 = fin Y1) (hd0 : d0.1 = fin a0) (hd1 : d1.1 = fin a1) (hy : y.1 = fin t)
    (bx0 : |X0| ≤ B) (bx1 : |X1| ≤ B) (by0 : |Y0| ≤ B) (by1 : |Y1| ≤ B) (gx : 1 / B ≤ X1 - X0) (gy : 1 / B ≤ Y1 - Y0)
    (l0 : 1 / B ≤ a0) (l1 : 1 / B ≤ a1) (r0 : a0 ≤ B) (r1 : a1 ≤ B) (t0 : Y0 ≤ t) (t1 : t ≤ Y1) :
    (segInv tiny x0 x1 y0 y1 d0 d1 y).2.finite ∧
    ∃ X, (segInv tiny x0 x1 y0 y1 d0 d1 y).1.1 = fin X ∧ X0 ≤ X ∧ X ≤ X1 + u * (3 * (X1 - X0) + |X1|) ∧ (t = Y0 → X = X0) := by
  have hB := R.one
  have B0 : 0 < B := by linarith
  have iB : 0 < 1 / B := by positivity
  have iB2 : 0 < 1 / B ^ 2 := by positivity
  obtain ⟨e1, e2, k2, k3, k4, k5, k6, i8, i7, i5, i4, i2, i1⟩ := room_facts A R
  have hT := R.top
  have u0 := A.u0
  have ul := A.u_le
  have e0 := A.η0
  have e1' : η ≤ 1 / 4096 * (1 / B ^ 8) := e1.trans (le_of_eq (by field_simp))
  obtain ⟨W, hW, rW, W0, W1, bW⟩ := seg_width A R hx0 hx1 bx0 bx1 gx
  obtain ⟨H, hH, rH, H0, H1, bH⟩ := seg_width A R hy0 hy1 by0 by1 gy
  obtain ⟨S, hS, S0, S1⟩ := seg_slope A R hH hW H0 H1 W0 W1
  have Wp : 0 < W := by linarith
  have Hp : 0 < H := by linarith
  have Sp : 0 < S := by linarith
  have a0p : 0 < a0 := by linarith
  have a1p : 0 < a1 := by linarith
  obtain ⟨o, ho, bo, ro⟩ := op_sub A hy hy0 (by
    rw [abs_of_nonneg (by linarith)]
    have := (abs_le.1 by0).1
    have := (abs_le.1 by1).2
    linarith)
  obtain ⟨ω, hω, w0, w1⟩ := clip01_mem (div_num ho hH Hp.ne')
  have hω0 : t = Y0 → ω = 0 := fun ht => by
    have : o = 0 := by rw [ht, _root_.sub_self, F.rd_zero] at ro; exact (fin.inj ro).symm
    have e : ((y - y0) / (y1 - y0)).1 = fin 0 := by
      rw [div_val, ho, hH, this, div_fin_eq _ Hp.ne', zero_div]; exact F.rd_zero
    rw [clip01_id e le_rfl (by norm_num), e] at hω
    exact (fin.inj hω).symm
  have e3 : 256 * η ≤ S := by linarith
  have e4 : 256 * η ≤ a0 := by linarith
  have e5 : 256 * η ≤ a1 := by linarith
  obtain ⟨τs, -, two', hτs, bτs, -⟩ := seg_den A (zm := lit 0) lit_zero le_rfl (by norm_num) hS Sp hd0 hd1 a0p a1p S1 (by linarith) (by linarith) (by linarith) e3
  obtain ⟨α, β, γ, hγ, hβ, hα, bα, bβ, bγ, hneg, hzero, hw0⟩ := seg_coeffs A R hS S0 S1 hd0 hd1 l0 l1 r0 r1 hω w0 w1 hτs bτs
  obtain ⟨rn, r0'⟩ := root_num A R hτ τ0 τ1 hα hβ hγ bα bβ bγ hneg hzero
  obtain ⟨ζ, hζ, z0, z1⟩ := clip01_mem rn
  have hz0 : t = Y0 → ζ = 0 := fun ht => by
    obtain ⟨g0, b0⟩ := hw0 (hω0 ht)
    have e := r0' g0 b0
    rw [e, clip01_id lit_zero le_rfl (by norm_num), lit_zero] at hζ
    exact (fin.inj hζ).symm
  obtain ⟨q, m, hq, hm, q0, qz, bq, m0, m1, bm⟩ := seg_pos A hζ z0 z1
  obtain ⟨-, D, two, -, -, hD, D0, D1, bD⟩ := seg_den A hm m0 m1 hS Sp hd0 hd1 a0p a1p S1 (by linarith) (by linarith) (by linarith) e3
  obtain ⟨E, hE, E0⟩ := seg_arg A hζ z0 z1 hm m0 m1 two Sp hd0 hd1 a0p a1p S1 (by linarith) (by linarith) (by linarith) e4 e5
  have aam : 0 ≤ (a1 + a0) * m := mul_nonneg (by linarith) m0
  have Dp : 0 < D := by linarith
  refine ⟨(logs_finite A hS hE hD Sp E0 Dp).2, ?_⟩
  have Wz0 : 0 ≤ W * ζ := mul_nonneg Wp.le z0
  have Wz1 : W * ζ ≤ W := mul_le_of_le_one_right Wp.le z1
  obtain ⟨Q, hQ, bQ, rQ⟩ := op_mul A hW hζ (by rw [abs_of_nonneg Wz0]; linarith)
  have QQ0 : 0 ≤ Q := le_rd rQ F.rd_zero Wz0
  have QQ1 : Q ≤ W := rd_le rQ (rep hW) Wz1
  obtain ⟨b1, b2⟩ := abs_le.1 bx0
  obtain ⟨b3, b4⟩ := abs_le.1 bx1
  obtain ⟨X, hX, bX, rX⟩ := op_add A hQ hx0 (by rw [abs_le]; constructor <;> linarith)
  refine ⟨X, hX, le_rd rX (rep hx0) (by linarith), ?_, fun ht => ?_⟩
  · have gxp : 0 < X1 - X0 := by linarith
    have h1 : W ≤ (X1 - X0) + u * (X1 - X0) := by have := (abs_le.1 bW).2; linarith
    have h2 : u * (X1 - X0) ≤ 1 / 256 * (X1 - X0) := mul_le_mul_of_nonneg_right ul gxp.le
    have h7 : |Q + X0| ≤ |X1| + 2 * (X1 - X0) := by
      rw [abs_le]
      have := neg_abs_le X1
      have := le_abs_self X1
      constructor <;> linarith
    have h8 := mul_le_mul_of_nonneg_left h7 u0
    have h9 := (abs_le.1 bX).2
    linarith
  · have zQ : Q = 0 := by rw [hz0 ht, mul_zero, F.rd_zero] at rQ; exact (fin.inj rQ).symm
    rw [zQ, _root_.zero_add, rep hx0] at rX
    exact (fin.inj rX).symm

end Distrax.FSpline
