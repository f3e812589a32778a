import Verif.Lemmas.FloatSpline12
import Verif.Props.FloatSpline6
import Mathlib.Tactic

/-!
C79, continued: accuracy of the log-determinant of the forward map inside the range.
-/

namespace Distrax

open XR FX FSpline Spec

variable {F : Fmt} {u η B : ℝ} {sum cumsum : List (FX F) → FX F} {K : ℕ} {xp yp sl : ℕ → FX F}

/-- C79: inside a bin the computed log-determinant is the logarithm of the derivative of the exact rational-quadratic segment, up to
`u * (24 * log (64 * B^2) + 600 * T / ρ)`, where `T` is the sum and `ρ` a lower bound of the three slopes of the bin (those of its two ends and its
mean slope), as long as `256 * u * T ≤ ρ`. -/
theorem C79_forward_logdet (A : F.Acc u η) (R : Room F η B) (hs : AddsUp sum) (G : GoodKnots B K xp yp sl) {x : FX F} {t : ℝ} (hx : x.1 = fin t)
    {i : ℕ} (hi : i < K) (h0 : (xp i).val < t) (h1 : t < (xp (i + 1)).val) {T ρ mean : ℝ}
    (hmean : mean = ((yp (i + 1)).val - (yp i).val) / ((xp (i + 1)).val - (xp i).val)) (hT : T = mean + (sl i).val + (sl (i + 1)).val)
    (ρp : 0 < ρ) (ρm : ρ ≤ mean) (ρ0 : ρ ≤ (sl i).val) (ρ1 : ρ ≤ (sl (i + 1)).val) (small : u * (256 * T) ≤ ρ) :
    ∃ d, HasDerivAt (rqSegment (xp i).val (xp (i + 1)).val (yp i).val (yp (i + 1)).val (sl i).val (sl (i + 1)).val) d t ∧
      (FSpline.fwd sum K xp yp sl x).2.Within (Real.log d) (u * (24 * Real.log (64 * B ^ 2) + 600 * (T / ρ))) := by
  have hB : 0 < B := by have := R.one; linarith
  obtain ⟨fx0, bx0⟩ := G.x_fin i hi.le
  obtain ⟨fx1, bx1⟩ := G.x_fin (i + 1) hi
  obtain ⟨fy0, by0⟩ := G.y_fin i hi.le
  obtain ⟨fy1, by1⟩ := G.y_fin (i + 1) hi
  obtain ⟨fs0, s0, s0'⟩ := G.s_fin i hi.le
  obtain ⟨fs1, s1, s1'⟩ := G.s_fin (i + 1) hi
  have mono := fun {a b : ℕ} (h : a ≤ b) (hb : b ≤ K) => knots_mono (g := fun i => (xp i).val) (G.xlt hB) h hb
  obtain ⟨j, hj, a, b, e⟩ := fwd_inside hs hB G hx (lt_of_le_of_lt (mono (Nat.zero_le i) hi.le) h0) (h1.trans_le (mono hi le_rfl))
  obtain rfl : j = i := bin_unique (g := fun i => (xp i).val) (G.xlt hB) hj hi a b h0.le h1
  have yl := G.ylt hB j hi
  have xl := G.xlt hB j hi
  obtain ⟨w, nz⟩ := segFwd_log_acc A R (fin_val fx0) (fin_val fx1) (fin_val fy0) (fin_val fy1) (fin_val fs0) (fin_val fs1) hx bx0 bx1 by0 by1
    (G.x_gap j hi) (G.y_gap j hi) s0 s1 s0' s1' a b.le rfl rfl hmean rfl ρp ρm ρ0 ρ1 (by rw [← hT]; exact small)
  rw [e]
  exact ⟨_, rqSegment_deriv rfl rfl hmean rfl (by linarith) (by linarith) nz, by rw [hT]; exact w⟩

/-- Non-vacuity, in `float32`: one bin from 0 to 1 with slopes 1, at `1/2`: `T = 3`, `ρ = 1`. -/
example (rd : ℝ → XR) (h : IEEE 24 (-149) 104 rd) : ∃ F : Fmt, F.rd = rd ∧ ∃ sum : List (FX F) → FX F, AddsUp sum ∧
    GoodKnots 1 1 (fun i => if i = 0 then (lit 0 : FX F) else lit 1) (fun i => if i = 0 then lit 0 else lit 1) (fun _ => lit 1) ∧
    Room F ((2 : ℝ) ^ (-150 : ℤ)) 1 ∧
    ∃ d, HasDerivAt (rqSegment 0 1 0 1 1 1) d (1 / 2) ∧
      (FSpline.fwd sum 1 (fun i => if i = 0 then (lit 0 : FX F) else lit 1) (fun i => if i = 0 then lit 0 else lit 1) (fun _ => lit 1) (lit (1 / 2))).2.Within
        (Real.log d) ((2 : ℝ) ^ (-24 : ℤ) * (24 * Real.log (64 * 1 ^ 2) + 600 * (3 / 1))) := by
  obtain ⟨F, hF, A⟩ := C63_formats.2.2.1 rd h
  obtain ⟨sum, hs⟩ := FSpline.adds_up_exists F
  have tp : (4096 : ℝ) ≤ F.top := by
    have m0 : (2 : ℝ) ^ (100 : ℤ) ∈ binary 24 (-149) 104 := ⟨1, 100, by norm_num, by norm_num, by norm_num, by norm_num⟩
    have r := RoundsToNearest.rep h m0 (by rw [abs_of_pos (by positivity)]; norm_num)
    rw [← hF] at r
    have := F.range r
    rw [abs_of_pos (by positivity)] at this
    exact le_trans (by norm_num) this
  have R : Room F ((2 : ℝ) ^ (-150 : ℤ)) 1 := ⟨le_rfl, by linarith, by norm_num⟩
  have v0 : (lit 0 : FX F).val = 0 := val_of lit_zero
  have v1 : (lit 1 : FX F).val = 1 := val_of lit_one
  have f0 : (lit 0 : FX F).finite := ⟨0, lit_zero⟩
  have f1 : (lit 1 : FX F).finite := ⟨1, lit_one⟩
  have G : GoodKnots 1 1 (fun i => if i = 0 then (lit 0 : FX F) else lit 1) (fun i => if i = 0 then lit 0 else lit 1) (fun _ => lit 1) := by
    refine ⟨le_rfl, fun i _ => ?_, fun i _ => ?_, fun i _ => ⟨f1, by simp [v1], by simp [v1]⟩, fun i hi => ?_, fun i hi => ?_⟩
    · show (if i = 0 then (lit 0 : FX F) else lit 1).finite ∧ _
      by_cases c : i = 0 <;> simp [c, v0, v1, f0, f1]
    · show (if i = 0 then (lit 0 : FX F) else lit 1).finite ∧ _
      by_cases c : i = 0 <;> simp [c, v0, v1, f0, f1]
    · obtain rfl : i = 0 := by omega
      simp [v0, v1]
    · obtain rfl : i = 0 := by omega
      simp [v0, v1]
  refine ⟨F, hF, sum, hs, G, R, ?_⟩
  have := C79_forward_logdet A R hs G (lit_val F.half : (lit (1 / 2) : FX F).1 = fin (1 / 2)) (i := 0) (T := 3) (ρ := 1) (mean := 1) (by norm_num)
    (by simp [v0]) (by simp [v1]; norm_num) (by simp [v0, v1]) (by simp [v1]; norm_num) (by norm_num) le_rfl (by simp [v1]) (by simp [v1]) (by norm_num)
  simpa [v0, v1] using this

end Distrax
