import Verif.Lemmas.FloatSpline14
import Mathlib.Tactic

/-!
Lemmas for C79: accuracy of one segment of the inverse map, concluded.
-/

namespace Distrax.FSpline

open XR FX

variable {F : Fmt} {u η B : ℝ}

theorem clip01_near {v : FX F} {x z ε : ℝ} (h : v.1 = fin x) (z0 : 0 ≤ z) (z1 : z ≤ 1) (hx : |x - z| ≤ ε) :
    ∃ y, (clip01 v).1 = fin y ∧ 0 ≤ y ∧ y ≤ 1 ∧ |y - z| ≤ ε := by
  obtain ⟨h1, h2⟩ := abs_le.1 hx
  rcases le_or_gt 0 x with h0 | h0
  · refine ⟨_, clip01_val h h0, le_min h0 (by norm_num), min_le_right _ _, ?_⟩
    rw [abs_le]
    constructor
    · have : z - ε ≤ min x 1 := le_min (by linarith) (by linarith)
      linarith
    · have := min_le_left x 1; linarith
  · have m : clip01 v = lit 0 := by
      have e : FX.max v (lit 0) = lit 0 := by
        rcases max_val (finite.num ⟨x, h⟩) (lit_num (F := F) 0) with ⟨e, l⟩ | ⟨e, l⟩
        · exact e
        · have := (le_iff_fin lit_zero h).1 l; linarith
      have e' : FX.max (lit 0) (lit 0 : FX F) = lit 0 := by
        rcases max_val (lit_num (F := F) 0) (lit_num (F := F) 0) with ⟨e, l⟩ | ⟨e, l⟩ <;> exact e
      have := clip01_id (F := F) lit_zero le_rfl (by norm_num)
      unfold clip01 at this ⊢
      rw [e]; rw [e'] at this; exact this
    refine ⟨0, by rw [m, lit_zero], le_rfl, by norm_num, ?_⟩
    rw [abs_le]; constructor <;> linarith

/-- The exact quadratic: its root is the position, and its derivative there is the product of the mean slope and the argument of the logarithm
divided by the denominator. -/
theorem exact_root {σ a0 a1 z W N DD E : ℝ} (hN : N = σ * z ^ 2 + a0 * (z - z ^ 2)) (hDD : DD = σ + (a0 + a1 - 2 * σ) * (z - z ^ 2))
    (hE : E = a1 * z ^ 2 + 2 * σ * (z - z ^ 2) + a0 * (1 - z) ^ 2) (hW : W * DD = N) (D0 : 0 < DD) :
    (σ - (a0 - (a0 + a1 - 2 * σ) * W)) * z ^ 2 + (a0 - (a0 + a1 - 2 * σ) * W) * z + -(σ * W) = 0 ∧
      (2 * (σ - (a0 - (a0 + a1 - 2 * σ) * W)) * z + (a0 - (a0 + a1 - 2 * σ) * W)) * DD = σ * E := by
  constructor
  · have : (σ - (a0 - (a0 + a1 - 2 * σ) * W)) * z ^ 2 + (a0 - (a0 + a1 - 2 * σ) * W) * z + -(σ * W) = N - W * DD := by rw [hN, hDD]; ring
    rw [this, hW, _root_.sub_self]
  · have : (2 * (σ - (a0 - (a0 + a1 - 2 * σ) * W)) * z + (a0 - (a0 + a1 - 2 * σ) * W)) * DD =
        (2 * σ * z + a0 * (1 - 2 * z)) * DD - (a0 + a1 - 2 * σ) * (1 - 2 * z) * (W * DD) := by ring
    rw [this, hW, hN, hDD, hE]; ring

/-- The condition number against the quantities of one segment. -/
theorem kappa_facts {ρ σ E r DD T s κ τ : ℝ} (u0 : 0 ≤ u) (ρp : 0 < ρ) (σp : 0 < σ) (ρσ : ρ ≤ σ) (Tp : 0 < T) (Dp : 0 < DD) (sρ : T = s * ρ) (s3 : 3 ≤ s) (sp : 0 < s)
    (Elo : ρ ≤ E) (rD : r * DD = σ * E) (DT : DD ≤ T) (hκ : κ = u * s ^ 4) (hτ : τ * (2 * s ^ 2) ≤ ρ ^ 2) :
    0 < r ∧ u ≤ κ / 81 ∧ u * T ^ 2 ≤ κ * r ^ 2 ∧ u * T ≤ κ * r / 9 ∧ u * T ≤ κ * σ / 27 ∧ τ ≤ r ^ 2 / 2 := by
  have rs : ρ ≤ r * s := by
    have h1 : σ * ρ ≤ r * DD := by rw [rD]; exact mul_le_mul_of_nonneg_left Elo σp.le
    have rp : 0 < r := by
      by_contra c
      have := mul_nonpos_of_nonpos_of_nonneg (not_lt.1 c) Dp.le
      have := mul_pos σp ρp
      linarith
    have h2 : r * DD ≤ r * T := mul_le_mul_of_nonneg_left DT rp.le
    have h3 : ρ * ρ ≤ σ * ρ := mul_le_mul_of_nonneg_right ρσ ρp.le
    have h4 : ρ * ρ ≤ r * s * ρ := by rw [sρ] at h2; linarith
    exact le_of_mul_le_mul_right h4 ρp
  have rp : 0 < r := by
    by_contra c
    have := mul_nonpos_of_nonpos_of_nonneg (not_lt.1 c) sp.le
    linarith
  have σs : T ≤ σ * s := by rw [sρ, mul_comm]; exact mul_le_mul_of_nonneg_right ρσ sp.le
  have s2 : 9 ≤ s ^ 2 := by nlinarith
  have κu : u ≤ κ / 81 := by
    have : 81 ≤ s ^ 4 := by nlinarith
    have := mul_le_mul_of_nonneg_left this u0
    rw [hκ]; linarith
  have κ0 : 0 ≤ κ := by linarith
  have rs2 : ρ ^ 2 ≤ r ^ 2 * s ^ 2 := by
    have := mul_le_mul rs rs ρp.le (by positivity)
    calc ρ ^ 2 = ρ * ρ := by ring
      _ ≤ r * s * (r * s) := this
      _ = _ := by ring
  have κa : u * T ^ 2 ≤ κ * r ^ 2 := by
    have := mul_le_mul_of_nonneg_left rs2 (show 0 ≤ u * s ^ 2 by positivity)
    rw [hκ, sρ]
    calc u * (s * ρ) ^ 2 = u * s ^ 2 * ρ ^ 2 := by ring
      _ ≤ _ := this
      _ = _ := by ring
  have Trs : T ≤ r * s ^ 2 := by
    rw [sρ]
    calc s * ρ ≤ s * (r * s) := mul_le_mul_of_nonneg_left rs sp.le
      _ = _ := by ring
  have κb : u * T ≤ κ * r / 9 := by
    have h1 : 9 * T ≤ s ^ 2 * (r * s ^ 2) := mul_le_mul s2 Trs Tp.le (by positivity)
    have h2 := mul_le_mul_of_nonneg_left h1 u0
    have h3 : κ * r = u * (s ^ 2 * (r * s ^ 2)) := by rw [hκ]; ring
    rw [h3]; linarith
  have κc : u * T ≤ κ * σ / 27 := by
    have h0 : 27 ≤ s ^ 3 := by nlinarith
    have h1 : 27 * T ≤ s ^ 3 * (σ * s) := mul_le_mul h0 σs Tp.le (by positivity)
    have h2 := mul_le_mul_of_nonneg_left h1 u0
    have h3 : κ * σ = u * (s ^ 3 * (σ * s)) := by rw [hκ]; ring
    rw [h3]; linarith
  have τr : τ ≤ r ^ 2 / 2 := by
    have h1 : τ * (2 * s ^ 2) ≤ r ^ 2 * s ^ 2 := hτ.trans rs2
    have h2 : τ * 2 ≤ r ^ 2 := le_of_mul_le_mul_right (by linarith : τ * 2 * s ^ 2 ≤ r ^ 2 * s ^ 2) (by positivity)
    linarith
  exact ⟨rp, κu, κa, κb, κc, τr⟩

/-- The size of the sum of the slopes. -/
theorem size_facts {S σ a0 a1 T : ℝ} (hB : 1 ≤ B) (u0 : 0 ≤ u) (ul : u ≤ 1 / 256) (σp : 0 < σ) (l0 : 1 / B ≤ a0) (p1 : 0 < a1) (r0 : a0 ≤ B) (r1 : a1 ≤ B) (S1 : S ≤ 4 * B ^ 2)
    (sl : |S - σ| ≤ 4 * (u * σ)) (hT : T = σ + a0 + a1) (e2' : η ≤ 1 / 64 * (u * (1 / B ^ 4))) : T ≤ 8 * B ^ 2 ∧ T ^ 2 ≤ 64 * B ^ 4 ∧ η ≤ u * T ^ 2 := by
  have B0 : 0 < B := by linarith
  have iB : 0 < 1 / B := by positivity
  have k2 : B ≤ B ^ 2 := le_self_pow₀ hB (by norm_num)
  have i4 : 1 / B ^ 4 ≤ 1 / B ^ 2 := one_div_le_one_div_of_le (by positivity) (pow_le_pow_right₀ hB (by norm_num))
  have Tp : 0 < T := by linarith
  have T8 : T ≤ 8 * B ^ 2 := by
    have g := mul_le_mul_of_nonneg_right ul σp.le
    have := (abs_le.1 sl).1
    rw [hT]; linarith
  have T2 : T ^ 2 ≤ 64 * B ^ 4 := by
    calc T ^ 2 ≤ (8 * B ^ 2) ^ 2 := pow_le_pow_left₀ Tp.le T8 2
      _ = _ := by ring
  have Tl : 1 / B ^ 2 ≤ T ^ 2 := by
    calc 1 / B ^ 2 = (1 / B) ^ 2 := by rw [div_pow, one_pow]
      _ ≤ _ := pow_le_pow_left₀ iB.le (by linarith) 2
  have ηT : η ≤ u * T ^ 2 := by
    have g1 := mul_le_mul_of_nonneg_left (show 1 / B ^ 4 ≤ T ^ 2 by linarith) u0
    have g2 : 0 ≤ u * (1 / B ^ 4) := by positivity
    linarith
  exact ⟨T8, T2, ηT⟩

/-- The last steps of one segment of the inverse: from the position to the value. -/
theorem inv_finish (A : F.Acc u η) (R : Room F η B) {x0 x1 zf : FX F} {X0 X1 w z ξ ζ κ EE : ℝ} (hx0 : x0.1 = fin X0) (hx1 : x1.1 = fin X1) (bx0 : |X0| ≤ B) (bx1 : |X1| ≤ B)
    (gx : 1 / B ≤ X1 - X0) (ew : w = X1 - X0) (wp : 0 < w) (wz : w * z = ξ - X0) (z0 : 0 ≤ z) (z1 : z ≤ 1) (hζ : zf.1 = fin ζ) (ζ0 : 0 ≤ ζ) (ζ1 : ζ ≤ 1)
    (eζ : |ζ - z| ≤ 900 * κ) (κ0 : 0 ≤ κ) (small : κ ≤ 1 / 8192) (κu : u ≤ κ / 81) (ηw : η ≤ u * w / 64) (e : u * EE = u * |ξ| + 1000 * (κ * w)) :
    ((x1 - x0) * zf + x0).Within ξ (u * EE) := by
  have u0 := A.u0
  have ul := A.u_le
  have hB := R.one
  have B0 : 0 < B := by linarith
  obtain ⟨-, -, k2, k3, k4, k5, k6, -⟩ := room_facts A R
  have tp := R.top
  obtain ⟨V, hV, rV, V0, V1, bV⟩ := seg_width A R hx0 hx1 bx0 bx1 gx
  rw [← ew] at bV
  have κw0 : 0 ≤ κ * w := by positivity
  have uw : u * w ≤ κ * w / 81 := by have := mul_le_mul_of_nonneg_right κu wp.le; linarith
  have uw0 : 0 ≤ u * w := by positivity
  have κw : κ * w ≤ 1 / 8192 * w := mul_le_mul_of_nonneg_right small wp.le
  have Vζ : |V * ζ - w * z| ≤ u * w * ζ + w * (900 * κ) := prod_err bV eζ wp.le ζ0
  have uwζ : u * w * ζ ≤ u * w := mul_le_of_le_one_right uw0 ζ1
  have wz1 : w * z ≤ w := mul_le_of_le_one_right wp.le z1
  have wz0 : 0 ≤ w * z := mul_nonneg wp.le z0
  obtain ⟨c1, c2⟩ := abs_le.1 Vζ
  have Vm : |V * ζ| ≤ 12 / 10 * w := by rw [abs_le]; constructor <;> linarith
  obtain ⟨b1, b2⟩ := abs_le.1 bx0
  obtain ⟨b3, b4⟩ := abs_le.1 bx1
  obtain ⟨Q, hQ, bQ, -⟩ := op_mul A hV hζ (by linarith)
  have uV := mul_le_mul_of_nonneg_left Vm u0
  obtain ⟨q1, q2⟩ := abs_le.1 bQ
  have eQ : |Q - (ξ - X0)| ≤ 901 * (κ * w) := by rw [← wz, abs_le]; constructor <;> linarith
  obtain ⟨d1', d2'⟩ := abs_le.1 eQ
  obtain ⟨X, hX, bX, -⟩ := op_add A hQ hx0 (by rw [abs_le]; constructor <;> linarith)
  refine ⟨X, hX, ?_⟩
  have eX : |Q + X0| ≤ |ξ| + 901 * (κ * w) := by
    have := abs_add_le ξ (Q - (ξ - X0))
    rw [show ξ + (Q - (ξ - X0)) = Q + X0 by ring] at this
    linarith
  have g1 := mul_le_mul_of_nonneg_left eX u0
  have g2 : u * (κ * w) ≤ 1 / 256 * (κ * w) := mul_le_mul_of_nonneg_right ul κw0
  rw [e]
  obtain ⟨f1, f2⟩ := abs_le.1 bX
  rw [abs_le]; constructor <;> linarith

set_option maxHeartbeats 2000000 in
/-- **Accuracy of one segment of the inverse.** -/
theorem segInv_acc (A : F.Acc u η) (R : Room F η B) {tiny x0 x1 y0 y1 d0 d1 y : FX F} {τ X0 X1 Y0 Y1 a0 a1 t ξ : ℝ} (ht : tiny.1 = fin τ)
    (hx0 : x0.1 = fin X0) (hx1 : x1.1 = fin X1) (hy0 : y0.1 = fin Y0) (hy1 : y1.1 = fin Y1) (hd0 : d0.1 = fin a0) (hd1 : d1.1 = fin a1) (hy : y.1 = fin t)
    (bx0 : |X0| ≤ B) (bx1 : |X1| ≤ B) (by0 : |Y0| ≤ B) (by1 : |Y1| ≤ B) (gx : 1 / B ≤ X1 - X0) (gy : 1 / B ≤ Y1 - Y0)
    (l0 : 1 / B ≤ a0) (l1 : 1 / B ≤ a1) (r0 : a0 ≤ B) (r1 : a1 ≤ B) (t0 : X0 ≤ ξ) (t1 : ξ ≤ X1) {w h σ z ρ T s : ℝ} (ew : w = X1 - X0) (eh : h = Y1 - Y0)
    (eσ : σ = h / w) (ez : z = (ξ - X0) / w) (ey : t = Y0 + h * ((σ * z ^ 2 + a0 * (z - z ^ 2)) / (σ + (a0 + a1 - 2 * σ) * (z - z ^ 2))))
    (ρp : 0 < ρ) (ρσ : ρ ≤ σ) (ρ0 : ρ ≤ a0) (ρ1 : ρ ≤ a1) (hT : T = σ + a0 + a1) (hs : s = T / ρ) (small : u * s ^ 4 ≤ 1 / 8192) (hτ : τ * (2 * s ^ 2) ≤ ρ ^ 2) :
    (segInv tiny x0 x1 y0 y1 d0 d1 y).1.Within ξ (u * (|ξ| + 1000 * (w * s ^ 4))) := by
  have hB := R.one
  have B0 : 0 < B := by linarith
  have u0 := A.u0
  have ul := A.u_le
  have iB : 0 < 1 / B := by positivity
  obtain ⟨-, e2, k2, k3, k4, k5, k6, -, -, -, i4, i2, i1⟩ := room_facts A R
  have e2' : η ≤ 1 / 64 * (u * (1 / B ^ 4)) := e2.trans (le_of_eq (by field_simp))
  have tp := R.top
  have wp : 0 < w := by linarith
  have hp : 0 < h := by linarith
  have a0p : 0 < a0 := by linarith
  have a1p : 0 < a1 := by linarith
  obtain ⟨⟨σp, -, -, eu, eS, -, -⟩, S, -, -, -, -, hS, -, -, -, -, -, ⟨Sp, S0, S1, sl⟩, -⟩ :=
    seg_inner A R hx0 hx1 hy0 hy1 hd0 hd1 hx0 bx0 bx1 by0 by1 gx gy l0 l1 r0 r1 le_rfl (by linarith) ew eh eσ rfl
  have z0 : 0 ≤ z := by rw [ez]; exact div_nonneg (by linarith) wp.le
  have z1 : z ≤ 1 := by rw [ez, div_le_one wp]; linarith
  obtain ⟨N0, DD2, ND⟩ := exact_ratio σp a0p.le a1p.le z0 z1
  obtain ⟨Elo, -⟩ := arg_between (a0 := a0) (a1 := a1) (lo := ρ) (hi := σ + a0 + a1) z0 z1 ρσ ρ0 ρ1 (by linarith) (by linarith) (by linarith)
  have m0 : 0 ≤ z - z ^ 2 := by nlinarith
  have m1 : z - z ^ 2 ≤ 1 := by nlinarith
  have DT : σ + (a0 + a1 - 2 * σ) * (z - z ^ 2) ≤ T := by
    have h1 : (a0 + a1) * (z - z ^ 2) ≤ a0 + a1 := mul_le_of_le_one_right (by linarith) m1
    have h2 := mul_nonneg σp.le m0
    rw [hT]; linarith
  generalize hN : σ * z ^ 2 + a0 * (z - z ^ 2) = N at *
  generalize hD : σ + (a0 + a1 - 2 * σ) * (z - z ^ 2) = DD at *
  generalize hE : a1 * z ^ 2 + 2 * σ * (z - z ^ 2) + a0 * (1 - z) ^ 2 = E at *
  have Dp : 0 < DD := by linarith
  obtain ⟨W, hW⟩ : ∃ W, W = N / DD := ⟨_, rfl⟩
  have W0 : 0 ≤ W := by rw [hW]; exact div_nonneg N0 Dp.le
  have W1 : W ≤ 1 := by rw [hW, div_le_one Dp]; exact ND
  have WD : W * DD = N := by rw [hW]; field_simp
  rw [← hW] at ey
  have tW : W = (t - Y0) / h := by rw [ey]; field_simp; ring
  have hW1 : h * W ≤ h := mul_le_of_le_one_right hp.le W1
  have hW0 : 0 ≤ h * W := mul_nonneg hp.le W0
  -- the position on the y axis
  obtain ⟨-, -, ω, -, -, -, -, hω, -, -, -, -, -, ⟨w0, w1, we⟩, -⟩ :=
    seg_inner A R hy0 hy1 hx0 hx1 hd0 hd1 hy by0 by1 bx0 bx1 gy gx l0 l1 r0 r1 (by linarith) (by linarith) eh ew rfl tW
  obtain ⟨τs, -, -, hτs, bτs, -⟩ := seg_den A (zm := lit 0) lit_zero le_rfl (by norm_num) hS Sp hd0 hd1 a0p a1p S1 (by linarith) (by linarith) (by linarith) (by
    have g := mul_le_mul_of_nonneg_right ul σp.le
    have := (abs_le.1 sl).1
    linarith)
  obtain ⟨rt, rD⟩ := exact_root hN.symm hD.symm hE.symm WD Dp
  generalize hb' : a0 - (a0 + a1 - 2 * σ) * W = b' at *
  generalize hr : 2 * (σ - b') * z + b' = r at *
  have Tp : 0 < T := by linarith
  have sρ : T = s * ρ := by rw [hs]; field_simp
  have s3 : 3 ≤ s := by rw [hs, le_div_iff₀ ρp]; linarith
  have sp : 0 < s := by linarith
  obtain ⟨κ, hκ⟩ : ∃ κ, κ = u * s ^ 4 := ⟨_, rfl⟩
  obtain ⟨rp, κu, κa, κb, κc, τr⟩ := kappa_facts u0 ρp σp ρσ Tp Dp sρ s3 sp Elo rD DT hκ hτ
  rw [← hκ] at small
  have κ0 : 0 ≤ κ := by linarith
  obtain ⟨T8, T2, ηT⟩ := size_facts hB u0 ul σp l0 a1p r0 r1 S1 sl hT e2'
  have ηw : η ≤ u * w / 64 := by
    have g1 := mul_le_mul_of_nonneg_left (show 1 / B ^ 4 ≤ w by linarith) u0
    linarith
  have bt : |(a0 + a1 - 2 * σ) * W| ≤ 2 * T := by
    rw [abs_mul, abs_of_nonneg W0]
    exact (mul_le_of_le_one_right (_root_.abs_nonneg _) W1).trans (by rw [abs_le]; constructor <;> linarith)
  obtain ⟨bt1, bt2⟩ := abs_le.1 bt
  obtain ⟨α, β, γ, hγ, hβ, hα, eγ, eβ, eα⟩ := coeffs_acc A hS hd0 hω hτs bτs σp a0p a1p sl hT W0 W1 w0 w1 we (by linarith) eS
  rw [hb'] at eβ eα
  have σW : σ * W ≤ σ := mul_le_of_le_one_right σp.le W1
  have σW0 : 0 ≤ σ * W := mul_nonneg σp.le W0
  obtain ⟨v, hv, bv⟩ := root_acc A ht hα hβ hγ σp (by linarith) eα eβ eγ (by rw [abs_le]; constructor <;> linarith) (by rw [abs_le]; constructor <;> linarith)
    (by rw [abs_neg, abs_of_nonneg σW0]; exact σW) rfl hr.symm rp rt z0 z1 τr small κa κb κc κu ηT eS (by linarith) (by linarith) (by linarith)
  obtain ⟨ζ, hζ, ζ0, ζ1, eζ⟩ := clip01_near hv z0 z1 bv
  have wz : w * z = ξ - X0 := by rw [ez]; field_simp
  exact inv_finish A R hx0 hx1 bx0 bx1 gx ew wp wz z0 z1 hζ ζ0 ζ1 eζ κ0 small κu ηw (by rw [hκ]; ring)

end Distrax.FSpline
