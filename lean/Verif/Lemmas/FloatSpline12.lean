import Verif.Lemmas.FloatSpline11
import Mathlib.Tactic

/-!
Lemmas for C79: accuracy of the log-determinant of one segment, concluded.
-/

namespace Distrax.FSpline

open XR FX

variable {F : Fmt} {u η B : ℝ}

/-- The exact argument of the logarithm lies between the slopes. -/
theorem arg_between {σ a0 a1 z lo hi : ℝ} (z0 : 0 ≤ z) (z1 : z ≤ 1) (l : lo ≤ σ) (l0 : lo ≤ a0) (l1 : lo ≤ a1) (r : σ ≤ hi) (r0 : a0 ≤ hi) (r1 : a1 ≤ hi) :
    lo ≤ a1 * z ^ 2 + 2 * σ * (z - z ^ 2) + a0 * (1 - z) ^ 2 ∧ a1 * z ^ 2 + 2 * σ * (z - z ^ 2) + a0 * (1 - z) ^ 2 ≤ hi := by
  have q0 : 0 ≤ z ^ 2 := sq_nonneg z
  have q1 : 0 ≤ (1 - z) ^ 2 := sq_nonneg _
  have m0 : 0 ≤ z - z ^ 2 := by nlinarith
  have e : ∀ c : ℝ, c = c * z ^ 2 + 2 * c * (z - z ^ 2) + c * (1 - z) ^ 2 := fun c => by ring
  constructor
  · rw [e lo]
    have h1 := mul_le_mul_of_nonneg_right l1 q0
    have h2 := mul_le_mul_of_nonneg_right l m0
    have h3 := mul_le_mul_of_nonneg_right l0 q1
    linarith
  · rw [e hi]
    have h1 := mul_le_mul_of_nonneg_right r1 q0
    have h2 := mul_le_mul_of_nonneg_right r m0
    have h3 := mul_le_mul_of_nonneg_right r0 q1
    linarith

set_option maxHeartbeats 1000000 in
/-- **Accuracy of the log-derivative of one segment.** -/
theorem segFwd_log_acc (A : F.Acc u η) (R : Room F η B) {x0 x1 y0 y1 d0 d1 x : FX F} {X0 X1 Y0 Y1 a0 a1 t : ℝ}
    (hx0 : x0.1 = fin X0) (hx1 : x1.1 = fin X1) (hy0 : y0.1 = fin Y0) (hy1 : y1.1 = fin Y1) (hd0 : d0.1 = fin a0) (hd1 : d1.1 = fin a1) (hx : x.1 = fin t)
    (bx0 : |X0| ≤ B) (bx1 : |X1| ≤ B) (by0 : |Y0| ≤ B) (by1 : |Y1| ≤ B) (gx : 1 / B ≤ X1 - X0) (gy : 1 / B ≤ Y1 - Y0)
    (l0 : 1 / B ≤ a0) (l1 : 1 / B ≤ a1) (r0 : a0 ≤ B) (r1 : a1 ≤ B) (t0 : X0 ≤ t) (t1 : t ≤ X1) {w h σ z ρ : ℝ} (ew : w = X1 - X0) (eh : h = Y1 - Y0)
    (eσ : σ = h / w) (ez : z = (t - X0) / w) (ρp : 0 < ρ) (ρσ : ρ ≤ σ) (ρ0 : ρ ≤ a0) (ρ1 : ρ ≤ a1) (small : u * (256 * (σ + a0 + a1)) ≤ ρ) :
    (segFwd x0 x1 y0 y1 d0 d1 x).2.Within
      (Real.log (σ ^ 2 * (a1 * z ^ 2 + 2 * σ * (z - z ^ 2) + a0 * (1 - z) ^ 2) / (σ + (a0 + a1 - 2 * σ) * (z - z ^ 2)) ^ 2))
      (u * (24 * Real.log (64 * B ^ 2) + 600 * ((σ + a0 + a1) / ρ))) ∧ σ + (a0 + a1 - 2 * σ) * (z - z ^ 2) ≠ 0 := by
  have hB := R.one
  have B0 : 0 < B := by linarith
  have u0 := A.u0
  have ul := A.u_le
  obtain ⟨⟨σp, z0, z1, eu, eS, ea0, ea1⟩, S, ζ, q, m, D, hS, hζ, hq, hm, two, hD, ⟨Sp, S0, S1, sl⟩, ⟨ζ0, ζ1, zerr⟩, ⟨q0, q1, qerr⟩, ⟨m0, m1, merr⟩, Dp, D1, D0, derr⟩ :=
    seg_inner A R hx0 hx1 hy0 hy1 hd0 hd1 hx bx0 bx1 by0 by1 gx gy l0 l1 r0 r1 t0 t1 ew eh eσ ez
  obtain ⟨-, -, k2, k3, k4, k5, k6, -, -, -, -, i2, -⟩ := room_facts A R
  have iB2 : 0 < 1 / B ^ 2 := by positivity
  have iB : 0 < 1 / B := by positivity
  have B21 : (1 : ℝ) ≤ B ^ 2 := by linarith
  have hT := R.top
  have a0p : 0 < a0 := by linarith
  have a1p : 0 < a1 := by linarith
  obtain ⟨E, hE, eerr⟩ := seg_arg_acc A (M := 4 * B ^ 2) (by linarith) hζ ζ0 ζ1 hq q0 q1 hm m0 m1 two Sp hd0 hd1 a0p a1p S1 (by linarith) (by linarith) (by linarith) z0 z1 σp sl
    zerr qerr merr eu eS ea0 ea1
  have uσ : u * σ ≤ σ / 256 := by have := mul_le_mul_of_nonneg_right ul σp.le; linarith
  obtain ⟨sl1, sl2⟩ := abs_le.1 sl
  have σl : 3 / 10 * (1 / B ^ 2) ≤ σ := by linarith
  have σh : σ ≤ 5 * B ^ 2 := by linarith
  obtain ⟨elo, -⟩ := arg_between (a0 := a0) (a1 := a1) (lo := ρ) (hi := σ + a0 + a1) z0 z1 ρσ ρ0 ρ1 (by linarith) (by linarith) (by linarith)
  obtain ⟨el, eh'⟩ := arg_between (a0 := a0) (a1 := a1) (lo := 3 / 10 * (1 / B ^ 2)) (hi := 5 * B ^ 2) z0 z1 σl (by linarith) (by linarith) σh (by linarith) (by linarith)
  have DD : σ / 2 ≤ σ + (a0 + a1 - 2 * σ) * (z - z ^ 2) := (exact_ratio σp a0p.le a1p.le z0 z1).2.1
  generalize hE0 : a1 * z ^ 2 + 2 * σ * (z - z ^ 2) + a0 * (1 - z) ^ 2 = E0 at *
  generalize hD0 : σ + (a0 + a1 - 2 * σ) * (z - z ^ 2) = D0 at *
  clear zerr qerr merr hE0 hD0
  have D0p : 0 < D0 := by linarith
  have E0p : 0 < E0 := by linarith
  refine ⟨?_, D0p.ne'⟩
  obtain ⟨er1, er2⟩ := abs_le.1 eerr
  have Ep : 0 < E := by linarith
  have hu : η ≤ u := by linarith
  have M1 : 1 ≤ Real.log (64 * B ^ 2) := (one_le_log_size hB).trans (Real.log_le_log (by positivity) (by linarith))
  have lS := log_size' hB (s := S) (by linarith) (by linarith)
  have lE := log_size' hB (s := E) (by linarith) (by linarith)
  have lD := log_size' hB (s := D) (by linarith) (by linarith)
  obtain ⟨v, hv, bv⟩ := logs_acc3 A hu hS hE hD Sp Ep Dp M1 lS lE lD
  refine ⟨v, hv, ?_⟩
  set T := σ + a0 + a1 with hTd
  set κ := u * (T / ρ) with hκ
  have κe : κ * ρ = u * T := by rw [hκ]; field_simp
  have κs : κ ≤ 1 / 256 := by
    have : κ * ρ ≤ 1 / 256 * ρ := by rw [κe]; linarith
    exact le_of_mul_le_mul_right this ρp
  have κ0 : 0 ≤ κ := by rw [hκ]; have : 0 < T := by linarith
                        positivity
  have κu : 3 * u ≤ κ := by
    have : 3 ≤ T / ρ := by rw [le_div_iff₀ ρp]; linarith
    have := mul_le_mul_of_nonneg_left this u0
    linarith
  have g1 := mul_le_mul_of_nonneg_left elo κ0
  have g2 : κ * ρ ≤ κ * (2 * D0) := mul_le_mul_of_nonneg_left (by linarith) κ0
  have nS := log_near σp (δ := 4 * u) (sl.trans (le_of_eq (by ring))) (by linarith)
  have nE := log_near E0p (δ := 36 * κ) (eerr.trans (by linarith)) (by linarith)
  have nD := log_near D0p (δ := 120 * κ) (derr.trans (by linarith)) (by linarith)
  have ee : Real.log (σ ^ 2 * E0 / D0 ^ 2) = 2 * Real.log σ + Real.log E0 - 2 * Real.log D0 := by
    rw [Real.log_div (by positivity) (by positivity), Real.log_mul (by positivity) (by positivity), Real.log_pow, Real.log_pow]
    norm_num
  rw [ee, show u * (24 * Real.log (64 * B ^ 2) + 600 * (T / ρ)) = u * (24 * Real.log (64 * B ^ 2)) + 600 * κ by rw [hκ]; ring]
  obtain ⟨f1, f2⟩ := abs_le.1 nS
  obtain ⟨f3, f4⟩ := abs_le.1 nE
  obtain ⟨f5, f6⟩ := abs_le.1 nD
  obtain ⟨f7, f8⟩ := abs_le.1 bv
  rw [abs_le]; constructor <;> linarith

end Distrax.FSpline
