import Verif.Lemmas.FloatSpline15
import Verif.Props.FloatSpline7
import Mathlib.Tactic

/-!
C79, continued: accuracy of the inverse map inside the range.
-/

namespace Distrax

open XR FX FSpline Spec

variable {F : Fmt} {u η B : ℝ} {sum cumsum : List (FX F) → FX F} {K : ℕ} {xp yp sl : ℕ → FX F}

/-- C79: inside the range the computed inverse is accurate: if the exact rational-quadratic segment maps `ξ` to the float `y`, the computed inverse of
`y` is within `u * (|ξ| + 1000 * w * s^4)` of `ξ`, where `w` is the width of the bin and `s = T / ρ` the ratio between the sum and a lower bound of the
three slopes of the bin, as long as `8192 * u * s^4 ≤ 1` and the smallest normal number `tiny` is negligible. -/
theorem C79_inverse_accurate (A : F.Acc u η) (R : Room F η B) (hs : AddsUp sum) (G : GoodKnots B K xp yp sl) {tiny : FX F} {τ : ℝ} (hτ : tiny.1 = fin τ)
    {y : FX F} {t ξ : ℝ} (hy : y.1 = fin t) {i : ℕ} (hi : i < K) (h0 : (yp i).val < t) (h1 : t < (yp (i + 1)).val) (k0 : (xp i).val ≤ ξ) (k1 : ξ ≤ (xp (i + 1)).val)
    (ht : t = rqSegment (xp i).val (xp (i + 1)).val (yp i).val (yp (i + 1)).val (sl i).val (sl (i + 1)).val ξ) {T ρ mean : ℝ}
    (hmean : mean = ((yp (i + 1)).val - (yp i).val) / ((xp (i + 1)).val - (xp i).val)) (hT : T = mean + (sl i).val + (sl (i + 1)).val)
    (ρp : 0 < ρ) (ρm : ρ ≤ mean) (ρ0 : ρ ≤ (sl i).val) (ρ1 : ρ ≤ (sl (i + 1)).val) (small : u * (T / ρ) ^ 4 ≤ 1 / 8192) (hτ' : τ * (2 * (T / ρ) ^ 2) ≤ ρ ^ 2) :
    (FSpline.inv sum tiny K xp yp sl y).1.Within ξ (u * (|ξ| + 1000 * (((xp (i + 1)).val - (xp i).val) * (T / ρ) ^ 4))) := by
  have hB : 0 < B := by have := R.one; linarith
  obtain ⟨fx0, bx0⟩ := G.x_fin i hi.le
  obtain ⟨fx1, bx1⟩ := G.x_fin (i + 1) hi
  obtain ⟨fy0, by0⟩ := G.y_fin i hi.le
  obtain ⟨fy1, by1⟩ := G.y_fin (i + 1) hi
  obtain ⟨fs0, s0, s0'⟩ := G.s_fin i hi.le
  obtain ⟨fs1, s1, s1'⟩ := G.s_fin (i + 1) hi
  have mono := fun {a b : ℕ} (h : a ≤ b) (hb : b ≤ K) => knots_mono (g := fun i => (yp i).val) (G.ylt hB) h hb
  obtain ⟨j, hj, a, b, e⟩ := inv_inside (tiny := tiny) hs hB G hy (lt_of_le_of_lt (mono (Nat.zero_le i) hi.le) h0) (h1.trans_le (mono hi le_rfl))
  obtain rfl : j = i := bin_unique (g := fun i => (yp i).val) (G.ylt hB) hj hi a b h0.le h1
  rw [e]
  refine segInv_acc A R hτ (fin_val fx0) (fin_val fx1) (fin_val fy0) (fin_val fy1) (fin_val fs0) (fin_val fs1) hy bx0 bx1 by0 by1
    (G.x_gap j hi) (G.y_gap j hi) s0 s1 s0' s1' k0 k1 rfl rfl hmean rfl ?_ ρp ρm ρ0 ρ1 hT rfl small hτ'
  rw [ht, rqSegment, hmean]
  congr 3 <;> ring

/-- Non-vacuity, in `float32`: one bin from 0 to 1 with slopes 1, at `1/2`, with `tiny = 2^-126`: `T = 3`, `ρ = 1`. -/
example (rd : ℝ → XR) (h : IEEE 24 (-149) 104 rd) : ∃ F : Fmt, F.rd = rd ∧ ∃ sum : List (FX F) → FX F, AddsUp sum ∧
    GoodKnots 1 1 (fun i => if i = 0 then (lit 0 : FX F) else lit 1) (fun i => if i = 0 then lit 0 else lit 1) (fun _ => lit 1) ∧
    Room F ((2 : ℝ) ^ (-150 : ℤ)) 1 ∧
    (FSpline.inv sum (lit ((2 : ℝ) ^ (-126 : ℤ))) 1 (fun i => if i = 0 then (lit 0 : FX F) else lit 1) (fun i => if i = 0 then lit 0 else lit 1) (fun _ => lit 1)
      (lit (1 / 2))).1.Within (1 / 2) ((2 : ℝ) ^ (-24 : ℤ) * (1 / 2 + 1000 * 81)) := by
  obtain ⟨F, hF, A⟩ := C63_formats.2.2.1 rd h
  obtain ⟨sum, hs⟩ := FSpline.adds_up_exists F
  have tp : (4096 : ℝ) ≤ F.top := by
    have m0 : (2 : ℝ) ^ (100 : ℤ) ∈ binary 24 (-149) 104 := ⟨1, 100, by norm_num, by norm_num, by norm_num, by norm_num⟩
    have r := RoundsToNearest.rep h m0 (by rw [abs_of_pos (by positivity)]; norm_num)
    rw [← hF] at r
    have := F.range r
    rw [abs_of_pos (by positivity)] at this
    exact le_trans (by norm_num) this
  have R : Room F ((2 : ℝ) ^ (-150 : ℤ)) 1 := ⟨le_rfl, by linarith, by norm_num⟩
  have v0 : (lit 0 : FX F).val = 0 := val_of lit_zero
  have v1 : (lit 1 : FX F).val = 1 := val_of lit_one
  have f0 : (lit 0 : FX F).finite := ⟨0, lit_zero⟩
  have f1 : (lit 1 : FX F).finite := ⟨1, lit_one⟩
  have G : GoodKnots 1 1 (fun i => if i = 0 then (lit 0 : FX F) else lit 1) (fun i => if i = 0 then lit 0 else lit 1) (fun _ => lit 1) := by
    refine ⟨le_rfl, fun i _ => ?_, fun i _ => ?_, fun i _ => ⟨f1, by simp [v1], by simp [v1]⟩, fun i hi => ?_, fun i hi => ?_⟩
    · show (if i = 0 then (lit 0 : FX F) else lit 1).finite ∧ _
      by_cases c : i = 0 <;> simp [c, v0, v1, f0, f1]
    · show (if i = 0 then (lit 0 : FX F) else lit 1).finite ∧ _
      by_cases c : i = 0 <;> simp [c, v0, v1, f0, f1]
    · obtain rfl : i = 0 := by omega
      simp [v0, v1]
    · obtain rfl : i = 0 := by omega
      simp [v0, v1]
  refine ⟨F, hF, sum, hs, G, R, ?_⟩
  have ht : (lit ((2 : ℝ) ^ (-126 : ℤ)) : FX F).1 = fin ((2 : ℝ) ^ (-126 : ℤ)) := by
    have m0 : (2 : ℝ) ^ (-126 : ℤ) ∈ binary 24 (-149) 104 := ⟨1, -126, by norm_num, by norm_num, by norm_num, by norm_num⟩
    have r := RoundsToNearest.rep h m0 (by rw [abs_of_pos (by positivity)]; norm_num)
    rw [← hF] at r
    exact lit_val r
  have := C79_inverse_accurate A R hs G ht (lit_val F.half : (lit (1 / 2) : FX F).1 = fin (1 / 2)) (i := 0) (ξ := 1 / 2) (T := 3) (ρ := 1) (mean := 1) (by norm_num)
    (by simp [v0]) (by simp [v1]; norm_num) (by simp [v0]) (by simp [v1]; norm_num) (by simp [v0, v1, rqSegment]; norm_num) (by simp [v0, v1]) (by simp [v1]; norm_num)
    (by norm_num) le_rfl (by simp [v1]) (by simp [v1]) (by norm_num) (by norm_num)
  obtain ⟨Y, hY, b⟩ := this
  refine ⟨Y, hY, b.trans (le_of_eq ?_)⟩
  simp only [v0, v1, if_true, Nat.zero_add, one_ne_zero, if_false]
  norm_num [abs_of_pos]

end Distrax
