import Verif.Lemmas.VonMises
import Mathlib.Analysis.Calculus.Deriv.MeanValue
import Mathlib.Analysis.SpecialFunctions.Trigonometric.Deriv
import Mathlib.Analysis.SpecialFunctions.ExpDeriv
import Mathlib.Tactic.Linarith

/-! The continued-fraction series for the von Mises CDF: its coefficients satisfy the Bessel recurrence, so the sum
solves the differential equation of the density up to one explicit residual term, which bounds its error. -/

namespace Distrax

open MeasureTheory Real Set Finset

/-- The coefficients of the sine series computed by the loop, without the value. -/
structure SerCoef (k : ℝ) (n : ℕ) (r : ℝ) (p : ℕ → ℝ) : Prop where
  zero : p 0 = 1
  pos : ∀ m ≤ n, 0 < p m
  last : p (n + 1) = p n * r
  rec_ : ∀ m < n, p m = 2 * ((m : ℝ) + 1) / k * p (m + 1) + p (m + 2)

theorem serCoef_exists {k : ℝ} (hk : 0 < k) : ∀ (n : ℕ) (r : ℝ), 0 ≤ r → ∃ p : ℕ → ℝ, SerCoef k n r p ∧
    ∀ (x : ℝ) (acc : VonMises.SeriesAcc), acc.rn = r → (VonMises.seriesLoop x k n acc).vn
      = (∑ m ∈ range n, p (m + 1) * Real.sin (((m : ℝ) + 1) * x) / ((m : ℝ) + 1)) + p n * acc.vn
  | 0, r, hr => by
    refine ⟨fun m => if m = 0 then 1 else r, ⟨rfl, fun m hm => ?_, by simp, fun m hm => absurd hm (by omega)⟩, ?_⟩
    · obtain rfl : m = 0 := by omega
      simp
    · intro x acc _
      simp [VonMises.seriesLoop]
  | n + 1, r, hr => by
    have hn : (0 : ℝ) < (n : ℝ) + 1 := by positivity
    have hD : 0 < 2 * ((n : ℝ) + 1) / k + r := by positivity
    obtain ⟨p, hp, hv⟩ := serCoef_exists hk n (1 / (2 * ((n : ℝ) + 1) / k + r)) (by positivity)
    have hpn : 0 < p n := hp.pos n le_rfl
    have hp1 : p (n + 1) = p n / (2 * ((n : ℝ) + 1) / k + r) := by rw [hp.last]; ring
    have hp1pos : 0 < p (n + 1) := by rw [hp1]; positivity
    refine ⟨Function.update p (n + 2) (p (n + 1) * r), ⟨?_, ?_, ?_, ?_⟩, ?_⟩
    · rw [Function.update_of_ne (by omega)]; exact hp.zero
    · intro m hm
      rw [Function.update_of_ne (by omega)]
      rcases Nat.lt_or_ge n m with h | h
      · obtain rfl : m = n + 1 := by omega
        exact hp1pos
      · exact hp.pos m h
    · rw [Function.update_self, Function.update_of_ne (by omega)]
    · intro m hm
      rw [Function.update_of_ne (show m ≠ n + 2 by omega), Function.update_of_ne (show m + 1 ≠ n + 2 by omega)]
      rcases Nat.lt_or_ge m n with h | h
      · rw [Function.update_of_ne (by omega)]; exact hp.rec_ m h
      · obtain rfl : m = n := by omega
        rw [Function.update_self, hp1]
        field_simp
    · intro x acc hacc
      have hs : (VonMises.seriesStep x k (n + 1) acc).rn = 1 / (2 * ((n : ℝ) + 1) / k + r) := by
        simp only [VonMises.seriesStep, hacc]; push_cast; rfl
      have := hv x (VonMises.seriesStep x k (n + 1) acc) hs
      rw [VonMises.seriesLoop, this, sum_range_succ, Function.update_of_ne (show n + 1 ≠ n + 2 by omega)]
      have e : ∑ m ∈ range n, Function.update p (n + 2) (p (n + 1) * r) (m + 1) * Real.sin (((m : ℝ) + 1) * x) / ((m : ℝ) + 1)
          = ∑ m ∈ range n, p (m + 1) * Real.sin (((m : ℝ) + 1) * x) / ((m : ℝ) + 1) := by
        refine sum_congr rfl fun m hm => ?_
        rw [Function.update_of_ne (by have := mem_range.mp hm; omega)]
      rw [e]
      have : (VonMises.seriesStep x k (n + 1) acc).vn
          = 1 / (2 * ((n : ℝ) + 1) / k + r) * (Real.sin (((n : ℝ) + 1) * x) / ((n : ℝ) + 1) + acc.vn) := by
        simp only [VonMises.seriesStep, hacc]; push_cast; rfl
      rw [this, hp1]
      ring

/-! ### The differential equation -/

/-- `d/dx` of the series. -/
noncomputable def serDens (p : ℕ → ℝ) (N : ℕ) (x : ℝ) : ℝ :=
  1 / (2 * π) * (1 + 2 * ∑ m ∈ range N, p (m + 1) * Real.cos (((m : ℝ) + 1) * x))

noncomputable def serDens' (p : ℕ → ℝ) (N : ℕ) (x : ℝ) : ℝ :=
  -(1 / π * ∑ m ∈ range N, ((m : ℝ) + 1) * p (m + 1) * Real.sin (((m : ℝ) + 1) * x))

noncomputable def serCdf (p : ℕ → ℝ) (N : ℕ) (x : ℝ) : ℝ :=
  0.5 + x / (2 * π) + (∑ m ∈ range N, p (m + 1) * Real.sin (((m : ℝ) + 1) * x) / ((m : ℝ) + 1)) / π

theorem serCdf_deriv (p : ℕ → ℝ) (N : ℕ) (x : ℝ) : HasDerivAt (serCdf p N) (serDens p N x) x := by
  have h1 : HasDerivAt (fun x => ∑ m ∈ range N, p (m + 1) * Real.sin (((m : ℝ) + 1) * x) / ((m : ℝ) + 1))
      (∑ m ∈ range N, p (m + 1) * Real.cos (((m : ℝ) + 1) * x)) x := by
    refine HasDerivAt.fun_sum fun m _ => ?_
    have hm : ((m : ℝ) + 1) ≠ 0 := by positivity
    have := ((((hasDerivAt_id x).const_mul ((m : ℝ) + 1)).sin).const_mul (p (m + 1))).div_const ((m : ℝ) + 1)
    refine this.congr_deriv ?_
    simp only [id]
    field_simp
  have h2 := (((hasDerivAt_id x).div_const (2 * π)).const_add 0.5).add (h1.div_const π)
  refine h2.congr_deriv ?_
  unfold serDens
  have := Real.pi_ne_zero
  generalize (∑ m ∈ range N, p (m + 1) * Real.cos (((m : ℝ) + 1) * x)) = S
  field_simp

theorem serDens_deriv (p : ℕ → ℝ) (N : ℕ) (x : ℝ) : HasDerivAt (serDens p N) (serDens' p N x) x := by
  have h1 : HasDerivAt (fun x => ∑ m ∈ range N, p (m + 1) * Real.cos (((m : ℝ) + 1) * x))
      (∑ m ∈ range N, -(((m : ℝ) + 1) * p (m + 1) * Real.sin (((m : ℝ) + 1) * x))) x := by
    refine HasDerivAt.fun_sum fun m _ => ?_
    have := (((hasDerivAt_id x).const_mul ((m : ℝ) + 1)).cos).const_mul (p (m + 1))
    refine this.congr_deriv ?_
    simp only [id]
    ring
  have h2 := ((h1.const_mul 2).const_add 1).const_mul (1 / (2 * π))
  refine h2.congr_deriv ?_
  unfold serDens'
  rw [sum_neg_distrib]
  have := Real.pi_ne_zero
  generalize (∑ m ∈ range N, ((m : ℝ) + 1) * p (m + 1) * Real.sin (((m : ℝ) + 1) * x)) = S
  field_simp

theorem ser_telescope {k : ℝ} (hk : 0 < k) (p : ℕ → ℝ) (h0 : p 0 = 1) (x : ℝ) : ∀ N : ℕ,
    (∀ m < N, p m = 2 * ((m : ℝ) + 1) / k * p (m + 1) + p (m + 2)) →
    k * Real.sin x * (1 + 2 * ∑ m ∈ range N, p (m + 1) * Real.cos (((m : ℝ) + 1) * x))
      - 2 * ∑ m ∈ range N, ((m : ℝ) + 1) * p (m + 1) * Real.sin (((m : ℝ) + 1) * x)
      = k * (p N * Real.sin (((N : ℝ) + 1) * x) + p (N + 1) * Real.sin (N * x))
  | 0, _ => by simp [h0]
  | N + 1, h => by
    have ih := ser_telescope hk p h0 x N fun m hm => h m (by omega)
    have hr := h N (by omega)
    have hr' : k * p N = 2 * ((N : ℝ) + 1) * p (N + 1) + k * p (N + 2) := by rw [hr]; field_simp
    have t : 2 * (Real.sin x * Real.cos (((N : ℝ) + 1) * x)) = Real.sin (((N : ℝ) + 2) * x) - Real.sin (N * x) := by
      have e1 : Real.sin (((N : ℝ) + 2) * x) = Real.sin (((N : ℝ) + 1) * x + x) := by ring_nf
      have e2 : Real.sin ((N : ℝ) * x) = Real.sin (((N : ℝ) + 1) * x - x) := by ring_nf
      rw [e1, e2, Real.sin_add, Real.sin_sub]; ring
    rw [sum_range_succ, sum_range_succ]
    push_cast
    have e : ((N : ℝ) + 1 + 1) = (N : ℝ) + 2 := by ring
    rw [e]
    have : Real.sin (((N : ℝ) + 2) * x) = 2 * (Real.sin x * Real.cos (((N : ℝ) + 1) * x)) + Real.sin (N * x) := by rw [t]; ring
    rw [this]
    linear_combination ih + Real.sin (((N : ℝ) + 1) * x) * hr'

theorem ser_ode {k : ℝ} (hk : 0 < k) {N : ℕ} {p : ℕ → ℝ} (hp : SerCoef k N 0 p) (x : ℝ) :
    serDens' p N x + k * Real.sin x * serDens p N x
      = k * p N / (2 * π) * Real.sin (((N : ℝ) + 1) * x) := by
  have h := ser_telescope hk p hp.zero x N hp.rec_
  have hl : p (N + 1) = 0 := by rw [hp.last, mul_zero]
  rw [hl, zero_mul, add_zero] at h
  unfold serDens' serDens
  have := Real.pi_ne_zero
  have e : -(1 / π * ∑ m ∈ range N, ((m : ℝ) + 1) * p (m + 1) * Real.sin (((m : ℝ) + 1) * x))
      + k * Real.sin x * (1 / (2 * π) * (1 + 2 * ∑ m ∈ range N, p (m + 1) * Real.cos (((m : ℝ) + 1) * x)))
      = 1 / (2 * π) * (k * Real.sin x * (1 + 2 * ∑ m ∈ range N, p (m + 1) * Real.cos (((m : ℝ) + 1) * x))
      - 2 * ∑ m ∈ range N, ((m : ℝ) + 1) * p (m + 1) * Real.sin (((m : ℝ) + 1) * x)) := by
    generalize (∑ m ∈ range N, ((m : ℝ) + 1) * p (m + 1) * Real.sin (((m : ℝ) + 1) * x)) = S
    generalize (∑ m ∈ range N, p (m + 1) * Real.cos (((m : ℝ) + 1) * x)) = T
    field_simp
    ring
  rw [e, h]
  ring

/-- If `|f'| ≤ g'` on `[0, b]` then `|f x - f 0| ≤ g x - g 0` there. -/
theorem abs_sub_le_of_deriv {f g f' g' : ℝ → ℝ} {b : ℝ} (hf : ∀ x, HasDerivAt f (f' x) x)
    (hg : ∀ x, HasDerivAt g (g' x) x) (h : ∀ x, 0 ≤ x → x ≤ b → |f' x| ≤ g' x) {x : ℝ} (h0 : 0 ≤ x) (hb : x ≤ b) :
    |f x - f 0| ≤ g x - g 0 := by
  have hb0 : (0 : ℝ) ≤ b := h0.trans hb
  have m1 : MonotoneOn (fun x => g x - f x) (Icc 0 b) := by
    refine monotoneOn_of_deriv_nonneg (convex_Icc 0 b)
      (fun y _ => ((hg y).sub (hf y)).continuousAt.continuousWithinAt) (fun y _ => ((hg y).sub (hf y)).differentiableAt.differentiableWithinAt) ?_
    intro y hy
    rw [interior_Icc] at hy
    have hd : HasDerivAt (fun x => g x - f x) (g' y - f' y) y := (hg y).sub (hf y)
    rw [hd.deriv]
    have := abs_le.mp (h y hy.1.le hy.2.le)
    linarith [this.2]
  have m2 : MonotoneOn (fun x => g x + f x) (Icc 0 b) := by
    refine monotoneOn_of_deriv_nonneg (convex_Icc 0 b)
      (fun y _ => ((hg y).add (hf y)).continuousAt.continuousWithinAt) (fun y _ => ((hg y).add (hf y)).differentiableAt.differentiableWithinAt) ?_
    intro y hy
    rw [interior_Icc] at hy
    have hd : HasDerivAt (fun x => g x + f x) (g' y + f' y) y := (hg y).add (hf y)
    rw [hd.deriv]
    have := abs_le.mp (h y hy.1.le hy.2.le)
    linarith [this.1]
  have a1 := m1 ⟨le_rfl, hb0⟩ ⟨h0, hb⟩ h0
  have a2 := m2 ⟨le_rfl, hb0⟩ ⟨h0, hb⟩ h0
  simp only at a1 a2
  rw [abs_le]
  constructor <;> linarith

/-- The series' density is a multiple of `exp (k cos x)` up to a small uniform error. -/
theorem serDens_close {k : ℝ} (hk : 0 < k) {N : ℕ} {p : ℕ → ℝ} (hp : SerCoef k N 0 p) :
    ∃ C : ℝ, ∀ x, 0 ≤ x → x ≤ π →
      |serDens p N x - C * Real.exp (k * Real.cos x)| ≤ k * p N / (π * ((N : ℝ) + 1)) := by
  have hpi := Real.pi_pos
  have hpN := hp.pos N le_rfl
  set M : ℝ := (N : ℝ) + 1 with hM
  have hMpos : 0 < M := by positivity
  set A : ℝ := k * p N / (2 * π) with hA
  have hApos : 0 < A := by positivity
  let w : ℝ → ℝ := fun x => Real.exp (-(k * Real.cos x))
  have hw : ∀ x, HasDerivAt w (k * Real.sin x * w x) x := by
    intro x
    have := ((Real.hasDerivAt_cos x).const_mul k).neg.exp
    refine this.congr_deriv ?_
    show Real.exp (-(k * Real.cos x)) * -(k * -Real.sin x) = k * Real.sin x * Real.exp (-(k * Real.cos x))
    ring
  have hwpos : ∀ x, 0 < w x := fun x => Real.exp_pos _
  let h : ℝ → ℝ := fun x => serDens p N x * w x + A / M * (w x * Real.cos (M * x))
  have hh : ∀ x, HasDerivAt h (A / M * (k * Real.sin x * w x * Real.cos (M * x))) x := by
    intro x
    have h1 := (serDens_deriv p N x).mul (hw x)
    have h2 := ((hw x).mul (((hasDerivAt_id x).const_mul M).cos)).const_mul (A / M)
    refine (h1.add h2).congr_deriv ?_
    have ho := ser_ode hk hp x
    have ho' : serDens' p N x = A * Real.sin (M * x) - k * Real.sin x * serDens p N x := by linarith
    simp only [id]
    rw [ho']
    field_simp
    ring
  have hB : ∀ x, HasDerivAt (fun x => A / M * w x) (A / M * (k * Real.sin x * w x)) x := fun x => (hw x).const_mul _
  have hle := fun x h0 hb => abs_sub_le_of_deriv (b := π) (x := x) hh hB (fun y hy0 hyb => by
    have hs := Real.sin_nonneg_of_nonneg_of_le_pi hy0 hyb
    have hc := Real.abs_cos_le_one (M * y)
    have hnn : 0 ≤ A / M * (k * Real.sin y * w y) := by have := hwpos y; positivity
    rw [show A / M * (k * Real.sin y * w y * Real.cos (M * y)) = A / M * (k * Real.sin y * w y) * Real.cos (M * y) by ring,
      abs_mul, abs_of_nonneg hnn]
    exact mul_le_of_le_one_right hnn hc) h0 hb
  refine ⟨h 0, fun x h0 hb => ?_⟩
  have h1 := hle x h0 hb
  have hAM : 0 < A / M := by positivity
  have hc := abs_le.mp (Real.abs_cos_le_one (M * x))
  have h2 : |serDens p N x * w x - h 0| ≤ 2 * (A / M) * w x := by
    have e : serDens p N x * w x - h 0 = (h x - h 0) - A / M * (w x * Real.cos (M * x)) := by simp only [h]; ring
    rw [e]
    refine (abs_sub _ _).trans ?_
    have h3 : |A / M * (w x * Real.cos (M * x))| ≤ A / M * w x := by
      rw [abs_mul, abs_mul, abs_of_pos hAM, abs_of_pos (hwpos x)]
      exact mul_le_mul_of_nonneg_left (mul_le_of_le_one_right (hwpos x).le (Real.abs_cos_le_one _)) hAM.le
    have h4 : 0 < A / M * w 0 := mul_pos hAM (hwpos 0)
    linarith
  have hE : w x * Real.exp (k * Real.cos x) = 1 := by
    show Real.exp (-(k * Real.cos x)) * _ = 1
    rw [← Real.exp_add, neg_add_cancel, Real.exp_zero]
  have e2 : serDens p N x - h 0 * Real.exp (k * Real.cos x) = (serDens p N x * w x - h 0) * Real.exp (k * Real.cos x) := by
    rw [sub_mul, mul_assoc, hE, mul_one]
  rw [e2, abs_mul, abs_of_pos (Real.exp_pos _)]
  calc |serDens p N x * w x - h 0| * Real.exp (k * Real.cos x)
      ≤ 2 * (A / M) * w x * Real.exp (k * Real.cos x) := mul_le_mul_of_nonneg_right h2 (Real.exp_pos _).le
    _ = k * p N / (π * M) := by rw [mul_assoc, hE, hA]; field_simp

end Distrax
