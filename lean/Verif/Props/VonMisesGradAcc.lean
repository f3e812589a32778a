import Verif.Props.VonMisesGrad

/-! # C56: accuracy of the concentration derivative returned by the series recipe -/

namespace Distrax

open MeasureTheory Real Set Filter Topology

/-- The coefficients of the derivative series. -/
structure SerCoefD (k : ℝ) (n : ℕ) (r dr : ℝ) (p q : ℕ → ℝ) : Prop where
  zero : q 0 = 0
  last : q (n + 1) = q n * r + p n * dr
  rec_ : ∀ m < n, q m = 2 * ((m : ℝ) + 1) / k * q (m + 1) - 2 * ((m : ℝ) + 1) / k ^ 2 * p (m + 1) + q (m + 2)
  bound : |k * q n| ≤ n * p n

theorem serCoefD_exists {k : ℝ} (hk : 0 < k) : ∀ (n : ℕ) (r dr : ℝ), 0 ≤ r → |k * dr| ≤ r →
    ∃ p q : ℕ → ℝ, SerCoef k n r p ∧ SerCoefD k n r dr p q ∧
    ∀ (x : ℝ) (acc : VonMises.SeriesAcc), acc.rn = r → acc.drn = dr →
      (VonMises.seriesLoop x k n acc).vn
        = (∑ m ∈ Finset.range n, p (m + 1) * Real.sin (((m : ℝ) + 1) * x) / ((m : ℝ) + 1)) + p n * acc.vn ∧
      (VonMises.seriesLoop x k n acc).dvn
        = (∑ m ∈ Finset.range n, q (m + 1) * Real.sin (((m : ℝ) + 1) * x) / ((m : ℝ) + 1)) + q n * acc.vn + p n * acc.dvn
  | 0, r, dr, hr, hdr => by
    refine ⟨fun m => if m = 0 then 1 else r, fun m => if m = 0 then 0 else dr,
      ⟨rfl, fun m hm => ?_, by simp, fun m hm => absurd hm (by omega)⟩,
      ⟨rfl, by simp, fun m hm => absurd hm (by omega), by simp⟩, ?_⟩
    · obtain rfl : m = 0 := by omega
      simp
    · intro x acc _ _
      simp [VonMises.seriesLoop]
  | n + 1, r, dr, hr, hdr => by
    have hn : (0 : ℝ) < (n : ℝ) + 1 := by positivity
    set D := 2 * ((n : ℝ) + 1) / k + r with hDdef
    have hD : 0 < D := by positivity
    set dD := -2 * ((n : ℝ) + 1) / k ^ 2 + dr with hdD
    have hdr1 : |k * (-dD / D ^ 2)| ≤ 1 / D := by
      have e : k * (-dD / D ^ 2) = (2 * ((n : ℝ) + 1) / k - k * dr) / D ^ 2 := by
        rw [hdD]; field_simp; ring
      rw [e, abs_div, abs_of_pos (pow_pos hD 2), div_le_div_iff₀ (pow_pos hD 2) hD, one_mul, sq]
      refine mul_le_mul_of_nonneg_right ?_ hD.le
      refine (abs_sub _ _).trans ?_
      rw [abs_of_pos (by positivity : 0 < 2 * ((n : ℝ) + 1) / k), hDdef]
      linarith
    obtain ⟨p, q, hp, hq, hv⟩ := serCoefD_exists hk n (1 / D) (-dD / D ^ 2) (by positivity) hdr1
    have hpn : 0 < p n := hp.pos n le_rfl
    have hp1 : p (n + 1) = p n / D := by rw [hp.last]; ring
    have hp1pos : 0 < p (n + 1) := by rw [hp1]; positivity
    have hq1 : q (n + 1) = q n / D - p n * dD / D ^ 2 := by rw [hq.last]; ring
    refine ⟨Function.update p (n + 2) (p (n + 1) * r), Function.update q (n + 2) (q (n + 1) * r + p (n + 1) * dr),
      ⟨?_, ?_, ?_, ?_⟩, ⟨?_, ?_, ?_, ?_⟩, ?_⟩
    · rw [Function.update_of_ne (by omega)]; exact hp.zero
    · intro m hm
      rw [Function.update_of_ne (by omega)]
      rcases Nat.lt_or_ge n m with h | h
      · obtain rfl : m = n + 1 := by omega
        exact hp1pos
      · exact hp.pos m h
    · rw [Function.update_self, Function.update_of_ne (by omega)]
    · intro m hm
      rw [Function.update_of_ne (show m ≠ n + 2 by omega), Function.update_of_ne (show m + 1 ≠ n + 2 by omega)]
      rcases Nat.lt_or_ge m n with h | h
      · rw [Function.update_of_ne (by omega)]; exact hp.rec_ m h
      · obtain rfl : m = n := by omega
        rw [Function.update_self, hp1]
        have : 2 * ((m : ℝ) + 1) / k * (p m / D) + p m / D * r = p m / D * D := by rw [hDdef]; ring
        rw [this, div_mul_cancel₀ _ hD.ne']
    · rw [Function.update_of_ne (by omega)]; exact hq.zero
    · rw [Function.update_self, Function.update_of_ne (by omega), Function.update_of_ne (by omega)]
    · intro m hm
      rw [Function.update_of_ne (show m ≠ n + 2 by omega), Function.update_of_ne (show m + 1 ≠ n + 2 by omega),
        Function.update_of_ne (show m + 1 ≠ n + 2 by omega)]
      rcases Nat.lt_or_ge m n with h | h
      · rw [Function.update_of_ne (by omega)]; exact hq.rec_ m h
      · obtain rfl : m = n := by omega
        rw [Function.update_self]
        have e1 : 2 * ((m : ℝ) + 1) / k * q (m + 1) - 2 * ((m : ℝ) + 1) / k ^ 2 * p (m + 1) + (q (m + 1) * r + p (m + 1) * dr)
            = D * q (m + 1) + p (m + 1) * dD := by rw [hDdef, hdD]; ring
        rw [e1, hq1, hp1]
        field_simp
        ring
    · rw [Function.update_of_ne (show n + 1 ≠ n + 2 by omega), Function.update_of_ne (show n + 1 ≠ n + 2 by omega)]
      have e : k * q (n + 1) = k * q n * (1 / D) + p n * (k * (-dD / D ^ 2)) := by rw [hq.last]; ring
      rw [e]
      refine (abs_add_le _ _).trans ?_
      rw [abs_mul (k * q n), abs_mul (p n), abs_of_pos (by positivity : 0 < 1 / D), abs_of_pos hpn]
      have h1 := mul_le_mul_of_nonneg_right hq.bound (by positivity : 0 ≤ 1 / D)
      have h2 := mul_le_mul_of_nonneg_left hdr1 hpn.le
      have : ((n + 1 : ℕ) : ℝ) * p (n + 1) = n * p n * (1 / D) + p n * (1 / D) := by rw [hp1]; push_cast; ring
      linarith
    · intro x acc hacc hacc'
      have hs : (VonMises.seriesStep x k (n + 1) acc).rn = 1 / D := by
        simp only [VonMises.seriesStep, hacc]; push_cast; rfl
      have hs' : (VonMises.seriesStep x k (n + 1) acc).drn = -dD / D ^ 2 := by
        simp only [VonMises.seriesStep, hacc, hacc']; push_cast; rfl
      have hvn : (VonMises.seriesStep x k (n + 1) acc).vn
          = 1 / D * (Real.sin (((n : ℝ) + 1) * x) / ((n : ℝ) + 1) + acc.vn) := by
        simp only [VonMises.seriesStep, hacc]; push_cast; rfl
      have hdvn : (VonMises.seriesStep x k (n + 1) acc).dvn
          = -dD / D ^ 2 * (Real.sin (((n : ℝ) + 1) * x) / ((n : ℝ) + 1) + acc.vn) + 1 / D * acc.dvn := by
        simp only [VonMises.seriesStep, hacc, hacc']; push_cast; rfl
      have := hv x (VonMises.seriesStep x k (n + 1) acc) hs hs'
      have e : ∀ (f : ℕ → ℝ) (c : ℝ), ∑ m ∈ Finset.range n, Function.update f (n + 2) c (m + 1) * Real.sin (((m : ℝ) + 1) * x) / ((m : ℝ) + 1)
          = ∑ m ∈ Finset.range n, f (m + 1) * Real.sin (((m : ℝ) + 1) * x) / ((m : ℝ) + 1) := by
        intro f c
        refine Finset.sum_congr rfl fun m hm => ?_
        rw [Function.update_of_ne (by have := Finset.mem_range.mp hm; omega)]
      rw [VonMises.seriesLoop, this.1, this.2, Finset.sum_range_succ, Finset.sum_range_succ, e, e,
        Function.update_of_ne (show n + 1 ≠ n + 2 by omega), Function.update_of_ne (show n + 1 ≠ n + 2 by omega), hvn, hdvn, hp1, hq1]
      constructor <;> ring

/-! ### The differential equation of the derivative series -/

theorem ser_telescopeD {k : ℝ} (hk : 0 < k) (p q : ℕ → ℝ) (h0 : q 0 = 0) (x : ℝ) : ∀ N : ℕ,
    (∀ m < N, q m = 2 * ((m : ℝ) + 1) / k * q (m + 1) - 2 * ((m : ℝ) + 1) / k ^ 2 * p (m + 1) + q (m + 2)) →
    k * Real.sin x * (2 * ∑ m ∈ Finset.range N, q (m + 1) * Real.cos (((m : ℝ) + 1) * x))
      - 2 * ∑ m ∈ Finset.range N, ((m : ℝ) + 1) * q (m + 1) * Real.sin (((m : ℝ) + 1) * x)
      = k * (q N * Real.sin (((N : ℝ) + 1) * x) + q (N + 1) * Real.sin (N * x))
        - 2 / k * ∑ m ∈ Finset.range N, ((m : ℝ) + 1) * p (m + 1) * Real.sin (((m : ℝ) + 1) * x)
  | 0, _ => by simp [h0]
  | N + 1, h => by
    have ih := ser_telescopeD hk p q h0 x N fun m hm => h m (by omega)
    have hr := h N (by omega)
    have hr' : k * q N = 2 * ((N : ℝ) + 1) * q (N + 1) - 2 / k * (((N : ℝ) + 1) * p (N + 1)) + k * q (N + 2) := by
      rw [hr]; field_simp
    have t : 2 * (Real.sin x * Real.cos (((N : ℝ) + 1) * x)) = Real.sin (((N : ℝ) + 2) * x) - Real.sin (N * x) := by
      have e1 : Real.sin (((N : ℝ) + 2) * x) = Real.sin (((N : ℝ) + 1) * x + x) := by ring_nf
      have e2 : Real.sin ((N : ℝ) * x) = Real.sin (((N : ℝ) + 1) * x - x) := by ring_nf
      rw [e1, e2, Real.sin_add, Real.sin_sub]; ring
    rw [Finset.sum_range_succ, Finset.sum_range_succ, Finset.sum_range_succ]
    push_cast
    have e : ((N : ℝ) + 1 + 1) = (N : ℝ) + 2 := by ring
    rw [e]
    have : Real.sin (((N : ℝ) + 2) * x) = 2 * (Real.sin x * Real.cos (((N : ℝ) + 1) * x)) + Real.sin (N * x) := by rw [t]; ring
    rw [this]
    linear_combination ih + Real.sin (((N : ℝ) + 1) * x) * hr'

/-- `d/dx` of the derivative series. -/
noncomputable def serDensD (q : ℕ → ℝ) (N : ℕ) (x : ℝ) : ℝ :=
  1 / π * ∑ m ∈ Finset.range N, q (m + 1) * Real.cos (((m : ℝ) + 1) * x)

noncomputable def serDensD' (q : ℕ → ℝ) (N : ℕ) (x : ℝ) : ℝ :=
  -(1 / π * ∑ m ∈ Finset.range N, ((m : ℝ) + 1) * q (m + 1) * Real.sin (((m : ℝ) + 1) * x))

noncomputable def serCdfD (q : ℕ → ℝ) (N : ℕ) (x : ℝ) : ℝ :=
  (∑ m ∈ Finset.range N, q (m + 1) * Real.sin (((m : ℝ) + 1) * x) / ((m : ℝ) + 1)) / π

theorem serCdfD_deriv (q : ℕ → ℝ) (N : ℕ) (x : ℝ) : HasDerivAt (serCdfD q N) (serDensD q N x) x := by
  have h := (serCdf_deriv q N x).sub ((((hasDerivAt_id x).div_const (2 * π)).const_add 0.5))
  have e : serCdfD q N = serCdf q N - fun x => 0.5 + id x / (2 * π) := by
    funext y; simp only [serCdfD, serCdf, Pi.sub_apply, id]; ring
  rw [e]
  refine h.congr_deriv ?_
  unfold serDens serDensD; ring

theorem serDensD_deriv (q : ℕ → ℝ) (N : ℕ) (x : ℝ) : HasDerivAt (serDensD q N) (serDensD' q N x) x := by
  have h := (serDens_deriv q N x).sub (hasDerivAt_const x (1 / (2 * π)))
  have e : serDensD q N = serDens q N - fun _ => 1 / (2 * π) := by
    funext y; simp only [serDensD, serDens, Pi.sub_apply]; ring
  rw [e]
  refine h.congr_deriv ?_
  unfold serDens' serDensD'; ring

theorem ser_odeD {k : ℝ} (hk : 0 < k) {N : ℕ} {p q : ℕ → ℝ} (hp : SerCoef k N 0 p) (hq : SerCoefD k N 0 0 p q) (x : ℝ) :
    serDensD' q N x + k * Real.sin x * serDensD q N x
      = (k * q N + p N) / (2 * π) * Real.sin (((N : ℝ) + 1) * x) - Real.sin x * serDens p N x := by
  have h := ser_telescopeD hk p q hq.zero x N hq.rec_
  have h2 := ser_telescope hk p hp.zero x N hp.rec_
  have hl : q (N + 1) = 0 := by rw [hq.last]; ring
  have hl2 : p (N + 1) = 0 := by rw [hp.last, mul_zero]
  rw [hl, zero_mul, add_zero] at h
  rw [hl2, zero_mul, add_zero] at h2
  have h3 := Real.pi_ne_zero
  unfold serDensD' serDensD serDens
  generalize (∑ m ∈ Finset.range N, ((m : ℝ) + 1) * q (m + 1) * Real.sin (((m : ℝ) + 1) * x)) = S1 at *
  generalize (∑ m ∈ Finset.range N, q (m + 1) * Real.cos (((m : ℝ) + 1) * x)) = T1 at *
  generalize (∑ m ∈ Finset.range N, ((m : ℝ) + 1) * p (m + 1) * Real.sin (((m : ℝ) + 1) * x)) = S2 at *
  generalize (∑ m ∈ Finset.range N, p (m + 1) * Real.cos (((m : ℝ) + 1) * x)) = T2 at *
  have h2' : 2 / k * S2 = Real.sin x * (1 + 2 * T2) - p N * Real.sin (((N : ℝ) + 1) * x) := by
    field_simp
    linarith
  rw [h2'] at h
  field_simp
  linarith

/-- The derivative series' density, up to a small uniform error, is the combination of the two solutions of the
differential equation. -/
theorem serDensD_close {k : ℝ} (hk : 0 < k) {N : ℕ} {p q : ℕ → ℝ} (hp : SerCoef k N 0 p) (hq : SerCoefD k N 0 0 p q)
    {C : ℝ} (hC : ∀ x, 0 ≤ x → x ≤ π → |serDens p N x - C * Real.exp (k * Real.cos x)| ≤ k * p N / (π * ((N : ℝ) + 1))) :
    ∃ C' : ℝ, ∀ x, 0 ≤ x → x ≤ π →
      |serDensD q N x - C * Real.cos x * Real.exp (k * Real.cos x) - C' * Real.exp (k * Real.cos x)|
        ≤ p N / π * (1 + 1 / ((N : ℝ) + 1)) := by
  have hpi := Real.pi_pos
  have hpN := hp.pos N le_rfl
  set M : ℝ := (N : ℝ) + 1 with hM
  have hMpos : 0 < M := by positivity
  set B : ℝ := (k * q N + p N) / (2 * π) with hB
  have hBle : |B| / M ≤ p N / (2 * π) := by
    rw [hB, abs_div, abs_of_pos (by positivity : 0 < 2 * π), div_div, div_le_div_iff₀ (by positivity) (by positivity)]
    have h1 : |k * q N + p N| ≤ M * p N := by
      refine (abs_add_le _ _).trans ?_
      rw [abs_of_pos hpN, hM, add_mul, one_mul]
      linarith [hq.bound]
    nlinarith
  let w : ℝ → ℝ := fun x => Real.exp (-(k * Real.cos x))
  have hw : ∀ x, HasDerivAt w (k * Real.sin x * w x) x := by
    intro x
    have := ((Real.hasDerivAt_cos x).const_mul k).neg.exp
    refine this.congr_deriv ?_
    show Real.exp (-(k * Real.cos x)) * -(k * -Real.sin x) = k * Real.sin x * Real.exp (-(k * Real.cos x))
    ring
  have hwpos : ∀ x, 0 < w x := fun x => Real.exp_pos _
  have hE : ∀ x, w x * Real.exp (k * Real.cos x) = 1 := fun x => by
    show Real.exp (-(k * Real.cos x)) * _ = 1
    rw [← Real.exp_add, neg_add_cancel, Real.exp_zero]
  let h : ℝ → ℝ := fun x => serDensD q N x * w x - C * Real.cos x + B / M * (w x * Real.cos (M * x))
  have hh : ∀ x, HasDerivAt h (-(Real.sin x * w x * (serDens p N x - C * Real.exp (k * Real.cos x)))
      + B / M * (k * Real.sin x * w x * Real.cos (M * x))) x := by
    intro x
    have h1 := (serDensD_deriv q N x).mul (hw x)
    have h2 := ((hw x).mul (((hasDerivAt_id x).const_mul M).cos)).const_mul (B / M)
    refine ((h1.sub ((Real.hasDerivAt_cos x).const_mul C)).add h2).congr_deriv ?_
    have ho := ser_odeD hk hp hq x
    have ho' : serDensD' q N x = B * Real.sin (M * x) - Real.sin x * serDens p N x - k * Real.sin x * serDensD q N x := by
      linarith
    simp only [id]
    rw [ho']
    have hEx := hE x
    have e : Real.sin x * w x * (serDens p N x - C * Real.exp (k * Real.cos x))
        = Real.sin x * w x * serDens p N x - C * Real.sin x := by
      rw [mul_sub]
      have : Real.sin x * w x * (C * Real.exp (k * Real.cos x)) = C * Real.sin x * (w x * Real.exp (k * Real.cos x)) := by ring
      rw [this, hEx, mul_one]
    rw [e]
    field_simp
    ring
  set b : ℝ := p N / (π * M) + |B| / M with hb
  have hbnn : 0 ≤ b := by positivity
  have hB' : ∀ x, HasDerivAt (fun x => b * w x) (b * (k * Real.sin x * w x)) x := fun x => (hw x).const_mul _
  have hle := fun x h0 hb' => abs_sub_le_of_deriv (b := π) (x := x) hh hB' (fun y hy0 hyb => by
    have hs := Real.sin_nonneg_of_nonneg_of_le_pi hy0 hyb
    have hc := Real.abs_cos_le_one (M * y)
    have hwy := hwpos y
    refine (abs_add_le _ _).trans ?_
    have t1 : |-(Real.sin y * w y * (serDens p N y - C * Real.exp (k * Real.cos y)))| ≤ p N / (π * M) * (k * Real.sin y * w y) := by
      rw [abs_neg, abs_mul, abs_of_nonneg (by positivity : 0 ≤ Real.sin y * w y)]
      calc Real.sin y * w y * |serDens p N y - C * Real.exp (k * Real.cos y)|
          ≤ Real.sin y * w y * (k * p N / (π * M)) := mul_le_mul_of_nonneg_left (hC y hy0 hyb) (by positivity)
        _ = _ := by ring
    have t2 : |B / M * (k * Real.sin y * w y * Real.cos (M * y))| ≤ |B| / M * (k * Real.sin y * w y) := by
      rw [abs_mul, abs_div, abs_of_pos hMpos, abs_mul, abs_of_nonneg (by positivity : 0 ≤ k * Real.sin y * w y)]
      exact mul_le_mul_of_nonneg_left (mul_le_of_le_one_right (by positivity) hc) (by positivity)
    calc _ ≤ _ + _ := add_le_add t1 t2
      _ = b * (k * Real.sin y * w y) := by rw [hb]; ring) h0 hb'
  refine ⟨h 0, fun x h0 hx => ?_⟩
  have h1 := hle x h0 hx
  have hwx := hwpos x
  have h2 : |serDensD q N x * w x - C * Real.cos x - h 0| ≤ (b + |B| / M) * w x := by
    have e : serDensD q N x * w x - C * Real.cos x - h 0 = (h x - h 0) - B / M * (w x * Real.cos (M * x)) := by
      simp only [h]; ring
    rw [e]
    refine (abs_sub _ _).trans ?_
    have h3 : |B / M * (w x * Real.cos (M * x))| ≤ |B| / M * w x := by
      rw [abs_mul, abs_mul, abs_div, abs_of_pos hMpos, abs_of_pos hwx]
      exact mul_le_mul_of_nonneg_left (mul_le_of_le_one_right hwx.le (Real.abs_cos_le_one _)) (by positivity)
    have h4 : 0 ≤ b * w 0 := mul_nonneg hbnn (hwpos 0).le
    have h1' : |h x - h 0| ≤ b * w x - b * w 0 := h1
    calc _ ≤ (b * w x - b * w 0) + |B| / M * w x := add_le_add h1' h3
      _ ≤ b * w x + |B| / M * w x := by linarith only [h4]
      _ = (b + |B| / M) * w x := by ring
  have e2 : serDensD q N x - C * Real.cos x * Real.exp (k * Real.cos x) - h 0 * Real.exp (k * Real.cos x)
      = (serDensD q N x * w x - C * Real.cos x - h 0) * Real.exp (k * Real.cos x) := by
    rw [sub_mul, sub_mul, mul_assoc (serDensD q N x), hE, mul_one]
  rw [e2, abs_mul, abs_of_pos (Real.exp_pos _)]
  calc |serDensD q N x * w x - C * Real.cos x - h 0| * Real.exp (k * Real.cos x)
      ≤ (b + |B| / M) * w x * Real.exp (k * Real.cos x) := mul_le_mul_of_nonneg_right h2 (Real.exp_pos _).le
    _ = b + |B| / M := by rw [mul_assoc, hE, mul_one]
    _ ≤ p N / (π * M) + p N / (2 * π) + p N / (2 * π) := by rw [hb]; linarith
    _ = p N / π * (1 + 1 / M) := by field_simp; ring

/-! ### From densities to CDFs -/

theorem serCdf_scale {k : ℝ} {N : ℕ} {p : ℕ → ℝ} {C ε : ℝ} 
    (hC : ∀ x, 0 ≤ x → x ≤ π → |serDens p N x - C * Real.exp (k * Real.cos x)| ≤ ε) :
    |C * vmG π k - 1| ≤ 2 * (ε * π) := by
  have hpi := Real.pi_pos
  have hb0 := vmG_pos k
  set c := C * vmG π k with hc
  let φ : ℝ → ℝ := fun x => serCdf p N x - c * vmF k x
  have hφ : ∀ x, HasDerivAt φ (serDens p N x - C * Real.exp (k * Real.cos x)) x := by
    intro x
    refine ((serCdf_deriv p N x).sub ((vmF_deriv k x).const_mul c)).congr_deriv ?_
    simp only [vmPdf, sub_zero, hc]
    rw [← circle_bessel0]
    change serDens p N x - C * vmG π k * (Real.exp (k * Real.cos x) / vmG π k) = _
    field_simp
  have hl : ∀ x, HasDerivAt (fun x => ε * x) ε x := fun x => by simpa using (hasDerivAt_id x).const_mul ε
  have hp1 := abs_sub_le_of_deriv (b := π) (x := π) hφ hl hC hpi.le le_rfl
  have s0 : serCdf p N 0 = 1 / 2 := by unfold serCdf; norm_num
  have sπ : serCdf p N π = 1 := by
    have : ∑ m ∈ Finset.range N, p (m + 1) * Real.sin (((m : ℝ) + 1) * π) / ((m : ℝ) + 1) = 0 := by
      refine Finset.sum_eq_zero fun m _ => ?_
      have := Real.sin_nat_mul_pi (m + 1)
      push_cast at this
      rw [this]; simp
    unfold serCdf
    rw [this]
    field_simp
    norm_num
  simp only [φ, s0, sπ, vmF_zero, vmF_top, mul_zero, sub_zero] at hp1
  have : (1 - c * 1 - (1 / 2 - c * (1 / 2))) = -((c - 1) / 2) := by ring
  rw [this, abs_neg, abs_div, abs_two] at hp1
  linarith

theorem vmPdf_eq_G (k x : ℝ) : vmPdf ⟨0, k⟩ x = Real.exp (k * Real.cos x) / vmG π k := by
  unfold vmPdf vmG; simp only [sub_zero]; rw [circle_bessel0]

theorem vmG'_deriv_x (x k : ℝ) : HasDerivAt (fun y => vmG' y k) (Real.exp (k * Real.cos x) * Real.cos x) x := by
  have hc : Continuous fun t => Real.exp (k * Real.cos t) * Real.cos t := by fun_prop
  exact intervalIntegral.integral_hasDerivAt_right (hc.intervalIntegrable _ _)
    hc.stronglyMeasurable.stronglyMeasurableAtFilter hc.continuousAt

theorem vmF'_deriv_x (k x : ℝ) : HasDerivAt (fun y => vmF' k y) ((Real.cos x - vmG' π k / vmG π k) * vmPdf ⟨0, k⟩ x) x := by
  have hG := vmG_pos k
  have h := (((vmG'_deriv_x x k).mul_const (vmG π k)).sub ((vmG_deriv_x x k).mul_const (vmG' π k))).div_const (vmG π k ^ 2)
  refine h.congr_deriv ?_
  rw [vmPdf_eq_G]
  field_simp

theorem vmF'_neg (k x : ℝ) : vmF' k (-x) = -vmF' k x := by
  have h1 := vmF_deriv_k k (-x)
  have h2 : HasDerivAt (fun κ => vmF κ (-x)) (-vmF' k x) k := by
    have := (vmF_deriv_k k x).const_sub 1
    exact this.congr_of_eventuallyEq (Eventually.of_forall fun κ => vmF_neg κ x)
  exact h1.unique h2

theorem vmF'_zero (k : ℝ) : vmF' k 0 = 0 := by
  have := vmF'_neg k 0
  rw [neg_zero] at this
  linarith

theorem vmF'_top (k : ℝ) : vmF' k π = 0 := by
  refine (vmF_deriv_k k π).unique ?_
  exact (hasDerivAt_const k (1 : ℝ)).congr_of_eventuallyEq (Eventually.of_forall fun κ => vmF_top κ)

theorem vmG'_abs_le {k x : ℝ} (hx : -π ≤ x) : |vmG' x k| ≤ vmG x k := by
  unfold vmG' vmG
  refine (intervalIntegral.abs_integral_le_integral_abs hx).trans ?_
  have hc : Continuous fun t => |Real.exp (k * Real.cos t) * Real.cos t| := by fun_prop
  refine intervalIntegral.integral_mono hx (hc.intervalIntegrable _ _) ((vm_cont k).intervalIntegrable _ _) fun t => ?_
  rw [abs_mul, abs_of_pos (Real.exp_pos _)]
  exact mul_le_of_le_one_right (Real.exp_pos _).le (Real.abs_cos_le_one t)

theorem vmF'_abs_le {k x : ℝ} (hx : -π ≤ x) : |vmF' k x| ≤ 2 * vmF k x := by
  have hG := vmG_pos k
  have h1 := vmG'_abs_le (k := k) hx
  have h2 := vmG'_abs_le (k := k) (x := π) (by linarith [Real.pi_pos])
  have hg : 0 ≤ vmG x k := (abs_nonneg _).trans h1
  have e : 2 * vmF k x = (vmG x k * vmG π k + vmG x k * vmG π k) / vmG π k ^ 2 := by rw [vmF_eq]; field_simp; ring
  rw [e]
  unfold vmF'
  rw [abs_div, abs_of_pos (pow_pos hG 2)]
  refine div_le_div_of_nonneg_right ((abs_sub _ _).trans (add_le_add ?_ ?_)) (pow_pos hG 2).le
  · rw [abs_mul, abs_of_pos hG]; exact mul_le_mul_of_nonneg_right h1 hG.le
  · rw [abs_mul, abs_of_nonneg hg]; exact mul_le_mul_of_nonneg_left h2 hg

theorem vmF'_abs_le' {k x : ℝ} (hx : x ≤ π) : |vmF' k x| ≤ 2 * (1 - vmF k x) := by
  have := vmF'_abs_le (k := k) (x := -x) (by linarith)
  rwa [vmF'_neg, abs_neg, vmF_neg] at this

theorem serCdfD_neg (q : ℕ → ℝ) (N : ℕ) (x : ℝ) : serCdfD q N (-x) = -serCdfD q N x := by
  unfold serCdfD
  rw [← neg_div, ← Finset.sum_neg_distrib]
  congr 1
  refine Finset.sum_congr rfl fun m _ => ?_
  rw [mul_neg, Real.sin_neg]; ring

theorem serCdfD_close {k : ℝ} (hk : 0 < k) {N : ℕ} {p q : ℕ → ℝ} (hp : SerCoef k N 0 p) (hq : SerCoefD k N 0 0 p q)
    {x : ℝ} (h1 : -π ≤ x) (h2 : x ≤ π) :
    |serCdfD q N x - vmF' k x| ≤ 2 * k * p N / ((N : ℝ) + 1) + 2 * p N * (1 + 1 / ((N : ℝ) + 1)) := by
  have hpi := Real.pi_pos
  wlog h0 : 0 ≤ x generalizing x
  · have := this (x := -x) (by linarith) (by linarith) (by linarith)
    rw [serCdfD_neg, vmF'_neg] at this
    rwa [show -serCdfD q N x - -vmF' k x = -(serCdfD q N x - vmF' k x) by ring, abs_neg] at this
  obtain ⟨C, hC⟩ := serDens_close hk hp
  obtain ⟨C', hC'⟩ := serDensD_close hk hp hq hC
  have hc1 := serCdf_scale hC
  have hG := vmG_pos k
  set ε := p N / π * (1 + 1 / ((N : ℝ) + 1)) with hε
  set c := C * vmG π k with hc
  set R := vmG' π k / vmG π k with hR
  set d := c * R + C' * vmG π k with hd
  let φ : ℝ → ℝ := fun x => serCdfD q N x - c * vmF' k x - d * vmF k x
  have hφ : ∀ x, HasDerivAt φ (serDensD q N x - C * Real.cos x * Real.exp (k * Real.cos x) - C' * Real.exp (k * Real.cos x)) x := by
    intro x
    refine (((serCdfD_deriv q N x).sub ((vmF'_deriv_x k x).const_mul c)).sub ((vmF_deriv k x).const_mul d)).congr_deriv ?_
    rw [vmPdf_eq_G, hd, hc, ← hR]
    have : C * vmG π k * ((Real.cos x - R) * (Real.exp (k * Real.cos x) / vmG π k))
        = C * Real.cos x * Real.exp (k * Real.cos x) - C * R * Real.exp (k * Real.cos x) := by field_simp
    rw [this]
    have : (C * vmG π k * R + C' * vmG π k) * (Real.exp (k * Real.cos x) / vmG π k)
        = C * R * Real.exp (k * Real.cos x) + C' * Real.exp (k * Real.cos x) := by field_simp
    rw [this]
    ring
  have hl : ∀ x, HasDerivAt (fun x => ε * x) ε x := fun x => by simpa using (hasDerivAt_id x).const_mul ε
  have key := fun y hy0 hyb => abs_sub_le_of_deriv (b := π) (x := y) hφ hl hC' hy0 hyb
  have hp1 := key π hpi.le le_rfl
  have hx1 := key x h0 h2
  have s0 : serCdfD q N 0 = 0 := by unfold serCdfD; simp
  have sπ : serCdfD q N π = 0 := by
    have : ∑ m ∈ Finset.range N, q (m + 1) * Real.sin (((m : ℝ) + 1) * π) / ((m : ℝ) + 1) = 0 := by
      refine Finset.sum_eq_zero fun m _ => ?_
      have := Real.sin_nat_mul_pi (m + 1)
      push_cast at this
      rw [this]; simp
    unfold serCdfD
    rw [this]; simp
  simp only [φ, s0, sπ, vmF_zero, vmF_top, vmF'_zero, vmF'_top, mul_zero, sub_zero, zero_sub] at hp1 hx1
  have hεnn : 0 ≤ ε := (abs_nonneg _).trans (hC' 0 le_rfl hpi.le)
  have hd1 : |d| ≤ 2 * (ε * π) := by
    have : -(d * 1) - -(d * (1 / 2)) = -(d / 2) := by ring
    rw [this, abs_neg, abs_div, abs_two] at hp1
    linarith
  have hm := vmF_mem (k := k) h1 h2
  have hm0 : |vmF k x - 1 / 2| ≤ 1 / 2 := by rw [abs_le]; constructor <;> linarith [hm.1, hm.2]
  have hF' : |vmF' k x| ≤ 1 := by
    have a := vmF'_abs_le (k := k) h1
    have b := vmF'_abs_le' (k := k) h2
    linarith
  have hxε : ε * x ≤ ε * π := mul_le_mul_of_nonneg_left h2 hεnn
  have e : serCdfD q N x - vmF' k x = (serCdfD q N x - c * vmF' k x - d * vmF k x - -(d * (1 / 2)))
      + d * (vmF k x - 1 / 2) + (c - 1) * vmF' k x := by ring
  have h3 : |d * (vmF k x - 1 / 2)| ≤ ε * π := by
    rw [abs_mul]
    calc |d| * |vmF k x - 1 / 2| ≤ 2 * (ε * π) * (1 / 2) := mul_le_mul hd1 hm0 (abs_nonneg _) (by positivity)
      _ = ε * π := by ring
  have h4 : |(c - 1) * vmF' k x| ≤ |c - 1| := by
    rw [abs_mul]; exact mul_le_of_le_one_right (abs_nonneg _) hF'
  have e5 : 2 * (ε * π) = 2 * p N * (1 + 1 / ((N : ℝ) + 1)) := by rw [hε]; field_simp
  have e6 : 2 * (k * p N / (π * ((N : ℝ) + 1)) * π) = 2 * k * p N / ((N : ℝ) + 1) := by field_simp
  rw [e, ← e5, ← e6]
  refine (abs_add_le _ _).trans ?_
  have := abs_add_le (serCdfD q N x - c * vmF' k x - d * vmF k x - -(d * (1 / 2))) (d * (vmF k x - 1 / 2))
  linarith

theorem seriesRawD_close {k : ℝ} (hk : 0 < k) (hk2 : k ≤ 10.5) {x : ℝ} (h1 : -π ≤ x) (h2 : x ≤ π) :
    |(VonMises.seriesLoop x k 20 VonMises.seriesInit).dvn / π - vmF' k x| ≤ 3 / 10 ^ 7 := by
  obtain ⟨p, q, hp, hq, hv⟩ := serCoefD_exists hk 20 0 0 le_rfl (by simp)
  have e := (hv x VonMises.seriesInit rfl rfl).2
  have e' : (VonMises.seriesLoop x k 20 VonMises.seriesInit).dvn / π = serCdfD q 20 x := by
    unfold serCdfD
    rw [e]
    simp [VonMises.seriesInit]
  rw [e']
  refine (serCdfD_close hk hp hq h1 h2).trans ?_
  have hb := serCoef_bound20' hk hk2 hp
  have hpos := hp.pos 20 le_rfl
  push_cast
  have : 2 * k * p 20 ≤ 21 * p 20 := by nlinarith
  have h5 : 2 * k * p 20 / (20 + 1) ≤ p 20 := by rw [div_le_iff₀ (by norm_num)]; linarith
  norm_num at h5 ⊢
  linarith

/-- The concentration derivative returned by the series recipe is within `3e-7` of the derivative of the exact CDF of the
standard law, for every concentration in `(0, 10.5)` and every angle of the turn, clipped or not. -/
theorem C56_gradient_accuracy (k : ℝ) (hk : 0 < k) (hk2 : k < 10.5) (x : ℝ) (h1 : -π ≤ x) (h2 : x ≤ π) (D : ℝ)
    (hD : HasDerivAt (fun κ => stdCdf κ x) D k) : |VonMises.dcdfSeries x k - D| ≤ 3 / 10 ^ 7 := by
  have hD' : D = vmF' k x := by
    refine hD.unique ?_
    exact (vmF_deriv_k k x).congr_of_eventuallyEq (Eventually.of_forall fun κ => stdCdf_eq κ x)
  subst hD'
  have hraw := abs_le.mp (seriesRaw_close hk.le hk2.le h1 h2)
  have h3 := seriesRawD_close hk hk2.le h1 h2
  unfold VonMises.dcdfSeries
  simp only
  by_cases h : 0 ≤ VonMises.cdfSeriesRaw 20 x k ∧ VonMises.cdfSeriesRaw 20 x k ≤ 1
  · rw [if_pos h, mul_one]; exact h3
  · rw [if_neg h, mul_zero, zero_sub, abs_neg]
    rcases not_and_or.mp h with h | h
    · have := vmF'_abs_le (k := k) h1
      push Not at h
      norm_num at hraw ⊢
      linarith [hraw.1]
    · have := vmF'_abs_le' (k := k) h2
      push Not at h
      norm_num at hraw ⊢
      linarith [hraw.2]

/-- The `custom_jvp` rule of the CDF as shipped, with its own series derivative: along every differentiable curve whose
concentration is in `(0, 10.5)` it is within `3e-7` times the concentration's rate of the derivative of the exact CDF. -/
theorem C56_cdf_jvp_accuracy (X K : ℝ → ℝ) (t dx dk D : ℝ) (hX : HasDerivAt X dx t) (hK : HasDerivAt K dk t)
    (hk : 0 < K t) (hk2 : K t < 10.5) (hD : HasDerivAt (fun s => stdCdf (K s) (X s)) D t) :
    |VonMises.cdfTangent VonMises.dcdfCore (X t) (K t) dx dk - D| ≤ 3 / 10 ^ 7 * |dk| := by
  let dc : ℝ → ℝ → ℝ := fun y k => vmF' k y
  have hdc : ∀ y, -π ≤ y → y ≤ π → HasDerivAt (fun κ => stdCdf κ y) (dc y (K t)) (K t) := fun y _ _ =>
    (vmF_deriv_k (K t) y).congr_of_eventuallyEq (Eventually.of_forall fun κ => stdCdf_eq κ y)
  rw [hD.unique (C56_cdf_jvp dc X K t dx dk hX hK hk.le hdc)]
  have hp := C40_angle_partial (X t)
  have hacc := C56_gradient_accuracy (K t) hk hk2 _ hp.2.1 hp.2.2.1 _ (hdc _ hp.2.1 hp.2.2.1)
  unfold VonMises.cdfTangent
  simp only
  rw [add_sub_add_right_eq_sub, ← mul_sub, abs_mul, mul_comm]
  refine mul_le_mul_of_nonneg_right ?_ (abs_nonneg _)
  have e : VonMises.dcdfCore (convertAngle (X t)) (K t) = VonMises.dcdfSeries (convertAngle (X t)) (K t) := by
    unfold VonMises.dcdfCore; rw [if_pos hk2]
  exact (e ▸ hacc : |VonMises.dcdfCore (convertAngle (X t)) (K t) - dc (convertAngle (X t)) (K t)| ≤ _)

/-- The sampler's reparameterisation rule as shipped: for concentrations in `[1e-7, 10.5)` the returned tangent differs
from the derivative of any curve of samples that keeps the exact CDF constant by at most `3e-7` over the density at the
sample, times the concentration's rate. -/
theorem C56_sample_jvp_accuracy (s k dk : ℝ) (hk : 1e-7 ≤ k) (hk2 : k < 10.5) (S : ℝ → ℝ) (ds : ℝ) (hS : S k = s)
    (hc : ∀ᶠ κ in 𝓝 k, stdCdf κ (S κ) = stdCdf k s) (hd : HasDerivAt S ds k) :
    |VonMises.sampleTangent VonMises.dcdfCore s k dk - dk * ds| ≤ 3 / 10 ^ 7 / (VonMises.mk 0 k).prob s * |dk| := by
  have hk0 : 0 < k := lt_of_lt_of_le (by norm_num) hk
  let dc : ℝ → ℝ → ℝ := fun y k => vmF' k y
  have hdc : ∀ y, -π ≤ y → y ≤ π → HasDerivAt (fun κ => stdCdf κ y) (dc y k) k := fun y _ _ =>
    (vmF_deriv_k k y).congr_of_eventuallyEq (Eventually.of_forall fun κ => stdCdf_eq κ y)
  rw [← (C56_sample_jvp dc s k hk hdc).2 S ds hS hc hd dk]
  have hp := C40_angle_partial s
  have hacc := C56_gradient_accuracy k hk0 hk2 _ hp.2.1 hp.2.2.1 _ (hdc _ hp.2.1 hp.2.2.1)
  have e : VonMises.dcdfCore (convertAngle s) k = VonMises.dcdfSeries (convertAngle s) k := by
    unfold VonMises.dcdfCore; rw [if_pos hk2]
  rw [← e] at hacc
  have hpdf := vmPdf_pos ⟨0, k⟩ s
  rw [vm_prob_eq ⟨0, k⟩ hk0.le]
  have e2 : Real.exp (-k * (Real.cos s - 1)) * (2 * π * i0e k) = 1 / vmPdf ⟨0, k⟩ s := by
    have := tangent_prob hk0.le s 0
    rw [Int.cast_zero, mul_zero, sub_zero] at this
    rw [← this, neg_mul, Real.exp_neg]
    have := i0e_pos k
    field_simp
  have e3 : VonMises.sampleTangent VonMises.dcdfCore s k dk - VonMises.sampleTangent dc s k dk
      = -(dk * (1 / vmPdf ⟨0, k⟩ s) * (VonMises.dcdfCore (convertAngle s) k - dc (convertAngle s) k)) := by
    unfold VonMises.sampleTangent
    simp only
    rw [max_eq_left hk, e2]
    unfold VonMises.cdfTangent
    simp only
    have : s - 2 * π * (rint (s / (2 * π)) : ℝ) = convertAngle s := rfl
    rw [this]
    ring
  rw [e3, abs_neg, abs_mul, abs_mul, abs_of_pos (by positivity : 0 < 1 / vmPdf ⟨0, k⟩ s)]
  calc |dk| * (1 / vmPdf ⟨0, k⟩ s) * |VonMises.dcdfCore (convertAngle s) k - dc (convertAngle s) k|
      ≤ |dk| * (1 / vmPdf ⟨0, k⟩ s) * (3 / 10 ^ 7) := mul_le_mul_of_nonneg_left hacc (by positivity)
    _ = _ := by ring

/-- Curves meeting the hypotheses exist: a moving angle with a moving concentration. -/
example : ∃ (X K : ℝ → ℝ) (t dx dk D : ℝ), HasDerivAt X dx t ∧ HasDerivAt K dk t ∧ 0 < K t ∧ K t < 10.5 ∧
    HasDerivAt (fun s => stdCdf (K s) (X s)) D t := by
  have h := C56_cdf_jvp (fun y k => vmF' k y) id (fun s => 3 + 1 * s) 0 1 (1 * 1) (hasDerivAt_id _)
    (((hasDerivAt_id (0 : ℝ)).const_mul 1).const_add 3) (by norm_num) fun y _ _ =>
      (vmF_deriv_k _ y).congr_of_eventuallyEq (Eventually.of_forall fun κ => stdCdf_eq κ y)
  exact ⟨_, _, _, _, _, _, hasDerivAt_id _, ((hasDerivAt_id (0 : ℝ)).const_mul 1).const_add 3, by norm_num, by norm_num, h⟩

end Distrax
