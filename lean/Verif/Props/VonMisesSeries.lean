import Verif.Lemmas.VonMisesSeries
import Verif.Props.VonMises
import Mathlib.Topology.Algebra.Order.Field
import Mathlib.Analysis.SpecificLimits.Basic

/-! # C56: accuracy of the CDF's series recipe -/

namespace Distrax

open MeasureTheory Real Set Filter Topology

/-! ### The exact CDF on a turn -/

/-- The exact CDF of the standard law on `[-π, π]`. -/
noncomputable def vmF (k x : ℝ) : ℝ := ∫ t in (-π)..x, vmPdf ⟨0, k⟩ t

theorem vmF_deriv (k x : ℝ) : HasDerivAt (vmF k) (vmPdf ⟨0, k⟩ x) x :=
  intervalIntegral.integral_hasDerivAt_right ((vmPdf_cont _).intervalIntegrable _ _)
    (vmPdf_cont _).stronglyMeasurable.stronglyMeasurableAtFilter (vmPdf_cont _).continuousAt

theorem vmF_top (k : ℝ) : vmF k π = 1 := by
  have := vm_turn_integral ⟨0, k⟩ (-π)
  rwa [show -π + 2 * π = π by ring] at this

theorem vmPdf_even (k x : ℝ) : vmPdf ⟨0, k⟩ (-x) = vmPdf ⟨0, k⟩ x := by
  unfold vmPdf; simp

theorem vmF_neg (k x : ℝ) : vmF k (-x) = 1 - vmF k x := by
  have hi : ∀ a b, IntervalIntegrable (vmPdf ⟨0, k⟩) volume a b := fun a b => (vmPdf_cont _).intervalIntegrable a b
  have h1 : vmF k (-x) = ∫ t in x..π, vmPdf ⟨0, k⟩ t := by
    have := intervalIntegral.integral_comp_neg (a := x) (b := π) (vmPdf ⟨0, k⟩)
    rw [vmF, ← this]
    simp only [vmPdf_even]
  have h2 := intervalIntegral.integral_add_adjacent_intervals (hi (-π) x) (hi x π)
  have h3 := vmF_top k
  unfold vmF at *
  linarith

theorem vmF_zero (k : ℝ) : vmF k 0 = 1 / 2 := by
  have := vmF_neg k 0
  rw [neg_zero] at this
  linarith

theorem vmF_mem {k x : ℝ} (h1 : -π ≤ x) (h2 : x ≤ π) : 0 ≤ vmF k x ∧ vmF k x ≤ 1 := by
  have a : ∀ y, -π ≤ y → 0 ≤ vmF k y := fun y hy => vm_interval_nonneg ⟨0, k⟩ hy
  refine ⟨a x h1, ?_⟩
  have := a (-x) (by linarith)
  rw [vmF_neg] at this
  linarith

/-! ### Error of the truncated series -/

theorem serCdf_neg (p : ℕ → ℝ) (N : ℕ) (x : ℝ) : serCdf p N (-x) = 1 - serCdf p N x := by
  unfold serCdf
  have : ∑ m ∈ Finset.range N, p (m + 1) * Real.sin (((m : ℝ) + 1) * -x) / ((m : ℝ) + 1)
      = -∑ m ∈ Finset.range N, p (m + 1) * Real.sin (((m : ℝ) + 1) * x) / ((m : ℝ) + 1) := by
    rw [← Finset.sum_neg_distrib]
    refine Finset.sum_congr rfl fun m _ => ?_
    rw [mul_neg, Real.sin_neg]; ring
  rw [this]; ring

theorem serCdf_close {k : ℝ} (hk : 0 < k) {N : ℕ} {p : ℕ → ℝ} (hp : SerCoef k N 0 p) {x : ℝ} (h1 : -π ≤ x) (h2 : x ≤ π) :
    |serCdf p N x - vmF k x| ≤ 2 * k * p N / ((N : ℝ) + 1) := by
  have hpi := Real.pi_pos
  -- reduce to nonnegative x
  wlog h0 : 0 ≤ x generalizing x
  · have := this (x := -x) (by linarith) (by linarith) (by linarith)
    rw [serCdf_neg, vmF_neg] at this
    rwa [show 1 - serCdf p N x - (1 - vmF k x) = -(serCdf p N x - vmF k x) by ring, abs_neg] at this
  obtain ⟨C, hC⟩ := serDens_close hk hp
  set ε := k * p N / (π * ((N : ℝ) + 1)) with hε
  have hb0 := bessel0_pos k
  set c := C * (2 * π * bessel0 k) with hc
  let φ : ℝ → ℝ := fun x => serCdf p N x - c * vmF k x
  have hφ : ∀ x, HasDerivAt φ (serDens p N x - C * Real.exp (k * Real.cos x)) x := by
    intro x
    refine ((serCdf_deriv p N x).sub ((vmF_deriv k x).const_mul c)).congr_deriv ?_
    simp only [vmPdf, sub_zero, hc]
    field_simp
  have hl : ∀ x, HasDerivAt (fun x => ε * x) ε x := fun x => by simpa using (hasDerivAt_id x).const_mul ε
  have key := fun y hy0 hyb => abs_sub_le_of_deriv (b := π) (x := y) hφ hl hC hy0 hyb
  have s0 : serCdf p N 0 = 1 / 2 := by unfold serCdf; norm_num
  have sπ : serCdf p N π = 1 := by
    have : ∑ m ∈ Finset.range N, p (m + 1) * Real.sin (((m : ℝ) + 1) * π) / ((m : ℝ) + 1) = 0 := by
      refine Finset.sum_eq_zero fun m _ => ?_
      have := Real.sin_nat_mul_pi (m + 1)
      push_cast at this
      rw [this]; simp
    unfold serCdf
    rw [this]
    field_simp
    norm_num
  have hp1 := key π hpi.le le_rfl
  have hx1 := key x h0 h2
  simp only [φ, s0, sπ, vmF_zero, vmF_top, mul_zero, sub_zero] at hp1 hx1
  have hεnn : 0 ≤ ε := by
    have := (abs_nonneg _).trans (hC 0 le_rfl hpi.le); exact this
  have hm := vmF_mem (k := k) h1 h2
  have hm0 : 1 / 2 ≤ vmF k x := by
    have hmono := vm_interval_nonneg ⟨0, k⟩ h0
    have hi : ∀ a b, IntervalIntegrable (vmPdf ⟨0, k⟩) volume a b := fun a b => (vmPdf_cont _).intervalIntegrable a b
    have := intervalIntegral.integral_add_adjacent_intervals (hi (-π) 0) (hi 0 x)
    have hz := vmF_zero k
    unfold vmF at *
    linarith
  have hεπ : ε * π = k * p N / ((N : ℝ) + 1) := by rw [hε]; field_simp
  have hxε : ε * x ≤ ε * π := mul_le_mul_of_nonneg_left h2 hεnn
  have e : serCdf p N x - vmF k x = (serCdf p N x - c * vmF k x - (1 / 2 - c * (1 / 2))) + (c - 1) * (vmF k x - 1 / 2) := by ring
  have hc1 : |c - 1| ≤ 2 * (ε * π) := by
    have : (1 - c * 1 - (1 / 2 - c * (1 / 2))) = -((c - 1) / 2) := by ring
    rw [this, abs_neg, abs_div, abs_two] at hp1
    linarith
  have h3 : |(c - 1) * (vmF k x - 1 / 2)| ≤ ε * π := by
    rw [abs_mul, abs_of_nonneg (by linarith : (0 : ℝ) ≤ vmF k x - 1 / 2)]
    calc |c - 1| * (vmF k x - 1 / 2) ≤ 2 * (ε * π) * (1 / 2) :=
          mul_le_mul hc1 (by linarith [hm.2]) (by linarith) (by positivity)
      _ = ε * π := by ring
  rw [e]
  refine (abs_add_le _ _).trans ?_
  have : 2 * k * p N / ((N : ℝ) + 1) = ε * π + ε * π := by rw [hεπ]; ring
  linarith

theorem serCoef_bound20' {k : ℝ} (hk : 0 < k) (hk2 : k ≤ 10.5) {p : ℕ → ℝ} (hp : SerCoef k 20 0 p) :
    p 20 ≤ 1 / 11480551 := by
  have hl : p 21 = 0 := by have := hp.last; simpa using this
  have step : ∀ m : ℕ, m < 20 → 2 * ((m : ℝ) + 1) / 10.5 * p (m + 1) + p (m + 2) ≤ p m := by
    intro m hm
    have h1 := hp.rec_ m hm
    have h2 : 0 < p (m + 1) := hp.pos (m + 1) (by omega)
    have h3 : 2 * ((m : ℝ) + 1) / 10.5 ≤ 2 * ((m : ℝ) + 1) / k := div_le_div_of_nonneg_left (by positivity) hk hk2
    rw [h1]
    have := mul_le_mul_of_nonneg_right h3 h2.le
    linarith
  have hpos : 0 < p 20 := hp.pos 20 le_rfl
  have s19 := step 19 (by norm_num)
  norm_num at s19
  have c19 : 3809 / 1000 * p 20 ≤ p 19 := by linarith
  have s18 := step 18 (by norm_num)
  norm_num at s18
  have c18 : 1848 / 125 * p 20 ≤ p 18 := by linarith
  have s17 := step 17 (by norm_num)
  norm_num at s17
  have c17 : 54497 / 1000 * p 20 ≤ p 17 := by linarith
  have s16 := step 16 (by norm_num)
  norm_num at s16
  have c16 : 765 / 4 * p 20 ≤ p 16 := by linarith
  have s15 := step 15 (by norm_num)
  norm_num at s15
  have c15 : 318677 / 500 * p 20 ≤ p 15 := by linarith
  have s14 := step 14 (by norm_num)
  norm_num at s14
  have c14 : 2012261 / 1000 * p 20 ≤ p 14 := by linarith
  have s13 := step 13 (by norm_num)
  norm_num at s13
  have c13 : 6003383 / 1000 * p 20 ≤ p 13 := by linarith
  have s12 := step 12 (by norm_num)
  norm_num at s12
  have c12 : 843889 / 50 * p 20 ≤ p 12 := by linarith
  have s11 := step 11 (by norm_num)
  norm_num at s11
  have c11 : 44581 * p 20 ≤ p 11 := by linarith
  have s10 := step 10 (by norm_num)
  norm_num at s10
  have c10 : 110285 * p 20 ≤ p 10 := by linarith
  have s9 := step 9 (by norm_num)
  norm_num at s9
  have c9 : 254647 * p 20 ≤ p 9 := by linarith
  have s8 := step 8 (by norm_num)
  norm_num at s8
  have c8 : 546822 * p 20 ≤ p 8 := by linarith
  have s7 := step 7 (by norm_num)
  norm_num at s7
  have c7 : 1087899 * p 20 ≤ p 7 := by linarith
  have s6 := step 6 (by norm_num)
  norm_num at s6
  have c6 : 1997354 * p 20 ≤ p 6 := by linarith
  have s5 := step 5 (by norm_num)
  norm_num at s5
  have c5 : 3370589 * p 20 ≤ p 5 := by linarith
  have s4 := step 4 (by norm_num)
  norm_num at s4
  have c4 : 5207438 * p 20 ≤ p 4 := by linarith
  have s3 := step 3 (by norm_num)
  norm_num at s3
  have c3 : 7338160 * p 20 ≤ p 3 := by linarith
  have s2 := step 2 (by norm_num)
  norm_num at s2
  have c2 : 9400672 * p 20 ≤ p 2 := by linarith
  have s1 := step 1 (by norm_num)
  norm_num at s1
  have c1 : 10919368 * p 20 ≤ p 1 := by linarith
  have s0 := step 0 (by norm_num)
  norm_num at s0
  have c0 : 11480551 * p 20 ≤ p 0 := by linarith
  have h0 := hp.zero
  rw [le_div_iff₀ (by norm_num)]
  linarith

theorem serCoef_bound20 {k : ℝ} (hk : 0 < k) (hk2 : k ≤ 10.5) {p : ℕ → ℝ} (hp : SerCoef k 20 0 p) :
    p 20 ≤ 1 / 10 ^ 7 :=
  (serCoef_bound20' hk hk2 hp).trans (by norm_num)

theorem seriesRaw_eq {k : ℝ} (hk : 0 < k) (N : ℕ) : ∃ p, SerCoef k N 0 p ∧
    ∀ x, VonMises.cdfSeriesRaw N x k = serCdf p N x := by
  obtain ⟨p, hp, hv⟩ := serCoef_exists hk N 0 le_rfl
  refine ⟨p, hp, fun x => ?_⟩
  have := hv x VonMises.seriesInit rfl
  unfold VonMises.cdfSeriesRaw serCdf
  rw [this]
  simp [VonMises.seriesInit]

theorem serCoef_le {k : ℝ} (hk : 0 < k) {N : ℕ} {p : ℕ → ℝ} (hp : SerCoef k N 0 p) : ∀ m ≤ N, p m ≤ max 1 (k / 2) := by
  have hnn : ∀ m ≤ N + 1, 0 ≤ p m := by
    intro m hm
    rcases Nat.lt_or_ge N m with h | h
    · obtain rfl : m = N + 1 := by omega
      rw [hp.last, mul_zero]
    · exact (hp.pos m h).le
  intro m
  induction m using Nat.strong_induction_on with
  | _ m ih =>
    intro hm
    rcases m with _ | _ | m
    · rw [hp.zero]; exact le_max_left _ _
    · have h := hp.rec_ 0 (by omega)
      rw [hp.zero] at h
      have h2 := hnn 2 (by omega)
      have h3 : 2 * (((0 : ℕ) : ℝ) + 1) / k * p (0 + 1) ≤ 1 := by linarith
      refine le_trans ?_ (le_max_right _ _)
      rw [Nat.cast_zero, zero_add, mul_one, div_mul_eq_mul_div, div_le_one hk] at h3
      simp only [zero_add] at h3 ⊢
      linarith
    · have h := hp.rec_ m (by omega)
      have h1 := hnn (m + 1) (by omega)
      have : 0 ≤ 2 * ((m : ℝ) + 1) / k * p (m + 1) := by positivity
      have := ih m (by omega) (by omega)
      linarith

/-- With more and more terms the series recipe converges to the exact CDF, for every concentration and every angle of
the turn. -/
theorem C56_series_converges (k : ℝ) (hk : 0 < k) (x : ℝ) (h1 : -π ≤ x) (h2 : x ≤ π) :
    Tendsto (fun N => VonMises.cdfSeriesRaw N x k) atTop (𝓝 (∫ t in (-π)..x, (VonMises.mk 0 k).prob t)) := by
  have e : ∫ t in (-π)..x, (VonMises.mk 0 k).prob t = vmF k x := by
    unfold vmF
    rw [show (VonMises.mk 0 k).prob = vmPdf ⟨0, k⟩ from funext (vm_prob_eq _ hk.le)]
  rw [e, tendsto_iff_dist_tendsto_zero]
  refine squeeze_zero (fun _ => dist_nonneg) (g := fun N : ℕ => 2 * k * max 1 (k / 2) / ((N : ℝ) + 1)) (fun N => ?_) ?_
  · obtain ⟨p, hp, hs⟩ := seriesRaw_eq hk N
    rw [hs, Real.dist_eq]
    refine (serCdf_close hk hp h1 h2).trans ?_
    have := serCoef_le hk hp N le_rfl
    gcongr
  · have := (tendsto_one_div_add_atTop_nhds_zero_nat (𝕜 := ℝ)).const_mul (2 * k * max 1 (k / 2))
    rw [mul_zero] at this
    exact this.congr fun N => by ring

theorem seriesRaw_close {k : ℝ} (hk : 0 ≤ k) (hk2 : k ≤ 10.5) {x : ℝ} (h1 : -π ≤ x) (h2 : x ≤ π) :
    |VonMises.cdfSeriesRaw 20 x k - vmF k x| ≤ 1 / 10 ^ 7 := by
  rcases hk.eq_or_lt with rfl | hk
  · have hv : ∀ (n : ℕ) (acc : VonMises.SeriesAcc), acc.rn = 0 → acc.vn = 0 → (VonMises.seriesLoop x 0 n acc).vn = 0 := by
      intro n
      induction n with
      | zero => exact fun acc _ h => h
      | succ n ih =>
        intro acc h1 h2
        rw [VonMises.seriesLoop]
        refine ih _ ?_ ?_ <;> simp [VonMises.seriesStep, h1]
    have e1 : VonMises.cdfSeriesRaw 20 x 0 = 0.5 + x / (2 * π) := by
      unfold VonMises.cdfSeriesRaw; rw [hv 20 _ rfl rfl]; simp
    have e2 : vmF 0 x = 0.5 + x / (2 * π) := by
      unfold vmF vmPdf
      simp only [zero_mul, Real.exp_zero, bessel0_zero, mul_one, intervalIntegral.integral_const, smul_eq_mul]
      have := Real.pi_ne_zero
      field_simp
      ring
    rw [e1, e2, sub_self, abs_zero]; positivity
  · obtain ⟨p, hp, hs⟩ := seriesRaw_eq hk 20
    rw [hs]
    refine (serCdf_close hk hp h1 h2).trans ?_
    have hb := serCoef_bound20 hk hk2 hp
    have hpos := hp.pos 20 le_rfl
    push_cast
    rw [div_le_iff₀ (by norm_num)]
    nlinarith

theorem clip01_lipschitz (a b : ℝ) : |VonMises.clip01 a - VonMises.clip01 b| ≤ |a - b| := by
  unfold VonMises.clip01
  refine (abs_min_sub_min_le_max _ _ _ _).trans ?_
  rw [sub_self, abs_zero]
  refine max_le ?_ (abs_nonneg _)
  refine (abs_max_sub_max_le_max _ _ _ _).trans ?_
  rw [sub_self, abs_zero]
  exact max_le le_rfl (abs_nonneg _)

theorem clip01_id {a : ℝ} (h0 : 0 ≤ a) (h1 : a ≤ 1) : VonMises.clip01 a = a := by
  unfold VonMises.clip01; rw [max_eq_left h0, min_eq_left h1]

/-- The code's series recipe (20 terms, used below the cutoff 10.5) is within `1e-7` of the exact CDF of the standard
law, for every concentration in its range and every angle of the turn. -/
theorem C56_series_accuracy (k : ℝ) (hk : 0 ≤ k) (hk2 : k < 10.5) (x : ℝ) (h1 : -π ≤ x) (h2 : x ≤ π) :
    |VonMises.cdfSeries x k - ∫ t in (-π)..x, (VonMises.mk 0 k).prob t| ≤ 1 / 10 ^ 7 := by
  have e : ∫ t in (-π)..x, (VonMises.mk 0 k).prob t = vmF k x := by
    unfold vmF
    rw [show (VonMises.mk 0 k).prob = vmPdf ⟨0, k⟩ from funext (vm_prob_eq _ hk)]
  have hm := vmF_mem (k := k) h1 h2
  rw [e, ← clip01_id hm.1 hm.2]
  exact (clip01_lipschitz _ _).trans (seriesRaw_close hk hk2.le h1 h2)

theorem cdfWith_close {core core' : ℝ → ℝ → ℝ} {k ε : ℝ} (h : ∀ x, -π ≤ x → x ≤ π → |core x k - core' x k| ≤ ε) (x : ℝ) :
    |VonMises.cdfWith core x k - VonMises.cdfWith core' x k| ≤ ε := by
  have hp := C40_angle_partial x
  unfold VonMises.cdfWith
  simp only
  rw [add_sub_add_right_eq_sub]
  exact h _ hp.2.1 hp.2.2.1

/-- `cdf` and `survival_function`, as the code computes them, are within `2e-7` of the CDF and the survival function of
the law on one turn, for every location, every value, and every concentration below the cutoff 10.5. -/
theorem C56_cdf_accuracy (d : VonMises) (hk : 0 ≤ d.concentration) (hk2 : d.concentration < 10.5) (v : ℝ) :
    |d.cdf VonMises.cdfCore v - ∫ x in Spec.turn ∩ Iic v, d.prob x| ≤ 2 / 10 ^ 7 ∧
      |d.survival VonMises.cdfCore v - ∫ x in Spec.turn ∩ Ioi v, d.prob x| ≤ 2 / 10 ^ 7 := by
  let core' : ℝ → ℝ → ℝ := fun x k => vmF k x
  have hex : ExactCore core' d.concentration := fun _ _ _ => rfl
  have he := C40_cdf_exact d hk core' hex
  have hcore : ∀ x, -π ≤ x → x ≤ π → |VonMises.cdfCore x d.concentration - core' x d.concentration| ≤ 1 / 10 ^ 7 := by
    intro x h1 h2
    have := C56_series_accuracy d.concentration hk hk2 x h1 h2
    rw [show (VonMises.mk 0 d.concentration).prob = vmPdf ⟨0, d.concentration⟩ from funext (vm_prob_eq _ hk)] at this
    unfold VonMises.cdfCore
    rw [if_pos hk2]
    exact this
  have hw := cdfWith_close hcore
  rw [← he.1 v, ← he.2 v]
  constructor
  · refine (clip01_lipschitz _ _).trans ?_
    have a := abs_le.mp (hw (v - convertAngle d.loc))
    have b := abs_le.mp (hw (-π - convertAngle d.loc))
    rw [abs_le]
    constructor <;> linarith [a.1, a.2, b.1, b.2]
  · refine (clip01_lipschitz _ _).trans ?_
    have a := abs_le.mp (hw (v - convertAngle d.loc))
    have b := abs_le.mp (hw (π - convertAngle d.loc))
    rw [abs_le]
    constructor <;> linarith [a.1, a.2, b.1, b.2]

example : (0 : ℝ) ≤ (VonMises.mk 7 3).concentration ∧ (VonMises.mk 7 3).concentration < 10.5 := by norm_num

end Distrax
