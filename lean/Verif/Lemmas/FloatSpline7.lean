import Verif.Lemmas.FloatSpline6
import Mathlib.Tactic

/-!
Lemmas for C79: the constructed knots in floating point.
-/

namespace Distrax.FSpline

open XR FX

variable {F : Fmt} {u η : ℝ} (A : F.Acc u η)
include A

/-- A prefix sum of the bins. -/
theorem prefix_spec {cumsum : List (FX F) → FX F} (hc : AddsUp cumsum) {K : ℕ} (hu : 64 * (K * u) ≤ 1) {sz : ℕ → FX F} {s : ℕ → ℝ} {b total : ℝ}
    (hs : ∀ i < K, (sz i).1 = fin (s i) ∧ b ≤ s i) (b0 : 0 ≤ b) (hS : ∑ i ∈ Finset.range K, s i ≤ total) (hT : 2 * total ≤ F.top) {i : ℕ}
    (i0 : i ≠ 0) (hi : i < K) :
    ∃ c, (cumsum ((List.range i).map sz)).1 = fin c ∧ |c - ∑ j ∈ Finset.range i, s j| ≤ 2 * (K * u) * total ∧
      0 ≤ ∑ j ∈ Finset.range i, s j ∧ ∑ j ∈ Finset.range i, s j ≤ total := by
  have u0 := A.u0
  have s0 : ∀ j < K, 0 ≤ s j := fun j hj => b0.trans (hs j hj).2
  set P := ∑ j ∈ Finset.range i, s j with hP
  have P0 : 0 ≤ P := Finset.sum_nonneg fun j hj => s0 j (by have := Finset.mem_range.1 hj; omega)
  have P1 : P ≤ total := le_trans (Finset.sum_le_sum_of_subset_of_nonneg (Finset.range_mono hi.le)
    (fun j hj _ => s0 j (Finset.mem_range.1 hj))) hS
  have s1 : (((List.range i).map sz).map FX.val).sum = P := by
    rw [List.map_map, hP, ← range_sum]
    congr 1
    exact List.map_congr_left fun j hj => val_of (hs j (by have := List.mem_range.1 hj; omega)).1
  have s2 : (((List.range i).map sz).map fun x => |x.val|).sum = P := by
    rw [List.map_map, hP, ← range_sum]
    congr 1
    refine List.map_congr_left fun j hj => ?_
    have hj : j < K := by have := List.mem_range.1 hj; omega
    show |(sz j).val| = s j
    rw [val_of (hs j hj).1, abs_of_nonneg (s0 j hj)]
  have hsum := hc ((List.range i).map sz) (by simp; omega)
  have pw := pow_le u0 (K := K) (n := ((List.range i).map sz).length - 1) (by simp; omega) hu
  have pw1 : 1 ≤ (1 + u) ^ (((List.range i).map sz).length - 1) := one_le_pow₀ (by linarith)
  have hfin : (cumsum ((List.range i).map sz)).finite := C63_sum_finite A hsum (by
      intro x hx; obtain ⟨j, hj, rfl⟩ := List.mem_map.1 hx; exact ⟨_, (hs j (by have := List.mem_range.1 hj; omega)).1⟩) (by
      rw [s2]
      calc _ ≤ (1 + 2 * (K * u)) * P := mul_le_mul_of_nonneg_right pw P0
        _ ≤ 2 * P := mul_le_mul_of_nonneg_right (by linarith) P0
        _ ≤ F.top := by linarith)
  obtain ⟨c, h1, bc⟩ := C63_sum A hsum hfin
  rw [s1, s2] at bc
  have k0 : 0 ≤ (K : ℝ) * u := by positivity
  refine ⟨c, h1, bc.trans ?_, P0, P1⟩
  calc _ ≤ 2 * (K * u) * P := mul_le_mul_of_nonneg_right (by linarith) P0
    _ ≤ _ := mul_le_mul_of_nonneg_left P1 (by linarith)

set_option maxHeartbeats 1000000 in
/-- The knots: finite, at most `4 * M`, the ends as given, and every bin at least half of `min_bin_size`. -/
theorem positions_spec {sum cumsum : List (FX F) → FX F} (hs : AddsUp sum) (hcs : AddsUp cumsum) {K : ℕ} (hK : 1 ≤ K) {M rmin rmax mb : ℝ}
    (hM : 1 ≤ M) (h0 : |rmin| ≤ M) (h1 : |rmax| ≤ M) (hr : rmin < rmax) (hm : 128 * (K * u) * M ≤ mb) (hm' : 0 < mb)
    (htop : 16 * (K * M) ≤ F.top) {w : ℕ → FX F} (hw : ∀ i < K, (w i).finite) {sz : ℕ → FX F}
    (h : normalizeBinSizes sum K w (rmax - rmin) mb = .ok sz) :
    ∃ x : ℕ → ℝ, (∀ i ≤ K, (positions cumsum K sz rmin rmax i).1 = fin (x i) ∧ |x i| ≤ 4 * M) ∧ (∀ i < K, mb / 2 ≤ x (i + 1) - x i) := by
  have u0 := A.u0
  have ul := A.u_le
  have η0 := A.η0
  have η1 := A.η_le
  have K1 : (1 : ℝ) ≤ K := by exact_mod_cast hK
  have k0 : 0 ≤ (K : ℝ) * u := by positivity
  have uk : u ≤ K * u := by nlinarith
  have a0 := abs_le.1 h0
  have a1 := abs_le.1 h1
  have hc' : K * mb ≤ rmax - rmin := by
    unfold normalizeBinSizes at h
    split_ifs at h with hc
    exact not_lt.1 hc
  have mb1 : mb ≤ 2 * M := by nlinarith
  have hu : 64 * (K * u) ≤ 1 := by
    have : 128 * (K * u) * M ≤ 2 * M := by linarith
    have := le_of_mul_le_mul_right this (by linarith)
    linarith
  have KM : M ≤ K * M := by nlinarith
  have KM' : (K : ℝ) ≤ K * M := by nlinarith
  have kM : K * u ≤ K * u * M := by nlinarith
  have uM : u * M ≤ K * u * M := mul_le_mul_of_nonneg_right uk (by linarith)
  have tg := F.top_ge
  obtain ⟨b, hb, eb, s, hs', sS⟩ := sizes_spec A hs hK hu (by linarith) hw (by linarith) hm' (by linarith) h
  have b1 := (abs_le.1 eb).1
  have um : u * mb ≤ mb / 256 := by nlinarith
  have b0 : 0 ≤ b := by linarith
  have kη : η ≤ K * u * M / 256 := by nlinarith
  set κ := (K : ℝ) * u with hκ
  have κM64 : 64 * (κ * M) ≤ M := by nlinarith
  have R2 : (rmax - rmin) * κ ≤ 2 * (κ * M) := by nlinarith
  have tot : (rmax - rmin) * (1 + 16 * κ) ≤ (rmax - rmin) + 32 * (κ * M) := by nlinarith
  have tot' : (rmax - rmin) + 32 * (κ * M) ≤ 5 / 2 * M := by linarith
  obtain ⟨r0, hr0⟩ := F.fits (x := rmin) (by linarith)
  obtain ⟨r1, hr1⟩ := F.fits (x := rmax) (by linarith)
  have e0 := A.err hr0
  have e1 := A.err hr1
  have e0' : |r0 - rmin| ≤ 2 * (κ * M) := e0.trans (by
    have := mul_le_mul_of_nonneg_left h0 u0; linarith)
  have e1' : |r1 - rmax| ≤ 2 * (κ * M) := e1.trans (by
    have := mul_le_mul_of_nonneg_left h1 u0; linarith)
  have f0 := abs_le.1 e0'
  have f1 := abs_le.1 e1'
  -- each knot is within `11 κ M` of its ideal place
  have place : ∀ i ≤ K, ∃ x, (positions cumsum K sz rmin rmax i).1 = fin x ∧
      |x - (if i < K then rmin + ∑ j ∈ Finset.range i, s j else rmax)| ≤ 11 * (κ * M) ∧ |x| ≤ 4 * M := by
    intro i hi
    have kM0 : 0 ≤ κ * M := by positivity
    rcases eq_or_ne i 0 with rfl | i0
    · refine ⟨r0, lit_val hr0, ?_, ?_⟩
      · rw [if_pos (by omega)]; simp only [Finset.range_zero, Finset.sum_empty, _root_.add_zero]; linarith
      · rw [abs_le]; constructor <;> linarith
    rcases Nat.lt_or_ge i K with hiK | hiK
    · obtain ⟨c, hc, bc, P0, P1⟩ := prefix_spec A hcs hu hs' b0 (sS.trans (tot.trans tot')) (by linarith) i0 hiK
      rw [if_pos hiK]
      set P := ∑ j ∈ Finset.range i, s j with hP
      have bc' : |c - P| ≤ 5 * (κ * M) := bc.trans (by rw [← hκ]; linarith)
      have g := abs_le.1 bc'
      have sz1 : |r0 + c| ≤ 15 / 4 * M := by rw [abs_le]; constructor <;> linarith
      obtain ⟨x, hx, bx, -⟩ := op_add A (lit_val hr0) hc (by linarith)
      have ux : u * |r0 + c| ≤ 15 / 4 * (κ * M) := by
        have := mul_le_mul_of_nonneg_left sz1 u0; linarith
      have gx := abs_le.1 (bx.trans ux)
      have gs := abs_le.1 sz1
      refine ⟨x, ?_, ?_, ?_⟩
      · unfold positions; rw [if_neg i0, if_pos hiK]; exact hx
      · rw [abs_le]; constructor <;> linarith
      · rw [abs_le]; constructor <;> linarith
    · rw [if_neg (by omega)]
      refine ⟨r1, ?_, by linarith, ?_⟩
      · unfold positions; rw [if_neg i0, if_neg (by omega)]; exact lit_val hr1
      · rw [abs_le]; constructor <;> linarith
  choose! x hx using place
  refine ⟨x, fun i hi => ⟨(hx i hi).1, (hx i hi).2.2⟩, fun i hi => ?_⟩
  obtain ⟨-, p1, -⟩ := hx i hi.le
  obtain ⟨-, p2, -⟩ := hx (i + 1) hi
  rw [if_pos hi] at p1
  have g1 := abs_le.1 p1
  have g2 := abs_le.1 p2
  have si := (hs' i hi).2
  have gap : b - 32 * (κ * M) ≤ (if i + 1 < K then rmin + ∑ j ∈ Finset.range (i + 1), s j else rmax) - (rmin + ∑ j ∈ Finset.range i, s j) := by
    have kM0 : 0 ≤ κ * M := by positivity
    split_ifs with hlt
    · rw [Finset.sum_range_succ]; linarith
    · obtain rfl : K = i + 1 := by omega
      rw [Finset.sum_range_succ] at sS
      linarith
  linarith

end Distrax.FSpline
