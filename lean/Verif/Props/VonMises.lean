import Verif.Lemmas.VonMises
import Verif.Spec.VonMises

/-! # C40: VonMises -/

namespace Distrax

open MeasureTheory Real Set Spec

/-! ### Density -/

/-- Both `prob` and `log_prob` are unchanged by whole turns, for any parameters. -/
theorem C40_periodic (d : VonMises) (a b : ℝ) (h : SameAngle a b) : d.prob a = d.prob b ∧ d.logProb a = d.logProb b := by
  obtain ⟨k, rfl⟩ := h
  have : Real.cos (b + 2 * π * k - d.loc) = Real.cos (b - d.loc) := by
    rw [show b + 2 * π * k - d.loc = b - d.loc + k * (2 * π) by ring, Real.cos_add_int_mul_two_pi]
  simp only [VonMises.prob, VonMises.logProb, this, and_self]

/-- Shifting the location by whole turns changes nothing either. -/
theorem C40_location_periodic (loc k : ℝ) (m : ℤ) (x : ℝ) :
    (VonMises.mk (loc + 2 * π * m) k).prob x = (VonMises.mk loc k).prob x ∧
      (VonMises.mk (loc + 2 * π * m) k).logProb x = (VonMises.mk loc k).logProb x := by
  have : Real.cos (x - (loc + 2 * π * m)) = Real.cos (x - loc) := by
    rw [show x - (loc + 2 * π * m) = x - loc + (-m : ℤ) * (2 * π) by push_cast; ring, Real.cos_add_int_mul_two_pi]
  simp only [VonMises.prob, VonMises.logProb, this, and_self]

theorem vm_prob_eq (d : VonMises) (hk : 0 ≤ d.concentration) (x : ℝ) : d.prob x = vmPdf d x := by
  unfold VonMises.prob vmPdf i0e
  simp only
  rw [abs_of_nonneg hk, mul_sub, mul_one, sub_eq_add_neg, Real.exp_add]
  have h1 := Real.exp_pos (-d.concentration)
  have h2 := bessel0_pos d.concentration
  field_simp

theorem C40_prob_exp (d : VonMises) (hk : 0 ≤ d.concentration) (x : ℝ) : d.prob x = Real.exp (d.logProb x) := by
  rw [vm_prob_eq d hk, ← Real.exp_log (vmPdf_pos d x), log_vmPdf]
  rfl

/-- `exp log_prob` and (for non-negative concentration) `prob` are the von Mises density. -/
theorem C40_density (d : VonMises) :
    IsVonMises d.loc d.concentration (fun x => Real.exp (d.logProb x)) ∧
      (0 ≤ d.concentration → IsVonMises d.loc d.concentration d.prob) := by
  have key : IsVonMises d.loc d.concentration (vmPdf d) := by
    refine ⟨⟨1 / (2 * π * bessel0 d.concentration), ?_, ?_⟩, vmPdf_density d⟩
    · exact one_div_pos.mpr (mul_pos (by positivity) (bessel0_pos _))
    · intro x; unfold vmPdf; ring
  have e1 : (fun x => Real.exp (d.logProb x)) = vmPdf d := by
    funext x
    rw [← Real.exp_log (vmPdf_pos d x), log_vmPdf]; rfl
  refine ⟨by rw [e1]; exact key, fun hk => ?_⟩
  rwa [show d.prob = vmPdf d from funext (vm_prob_eq d hk)]

/-- `concentration = 0` is the uniform law on the circle. -/
theorem C40_uniform (loc x : ℝ) : (VonMises.mk loc 0).prob x = 1 / (2 * π) := by
  rw [vm_prob_eq _ le_rfl]; unfold vmPdf; simp [bessel0_zero]

/-- A negative concentration is accepted by the constructor; `log_prob` then is a density (mode opposite to `loc`)
but `prob` is not its exponential. -/
theorem C40_negative_concentration (d : VonMises) (hk : d.concentration < 0) (x : ℝ) :
    d.prob x ≠ Real.exp (d.logProb x) := by
  have e1 : Real.exp (d.logProb x) = vmPdf d x := by
    rw [← Real.exp_log (vmPdf_pos d x), log_vmPdf]; rfl
  rw [e1]
  unfold VonMises.prob vmPdf i0e
  simp only
  rw [abs_of_neg hk, neg_neg, mul_sub, mul_one, sub_eq_add_neg, Real.exp_add]
  have h2 := bessel0_pos d.concentration
  have h3 := Real.exp_pos (d.concentration * Real.cos (x - d.loc))
  intro h
  rw [div_eq_div_iff (by positivity) (by positivity)] at h
  have h4 : Real.exp (-d.concentration) = Real.exp d.concentration := by
    have hpos : 0 < Real.exp (d.concentration * Real.cos (x - d.loc)) * (2 * π * bessel0 d.concentration) := by positivity
    have : Real.exp (d.concentration * Real.cos (x - d.loc)) * (2 * π * bessel0 d.concentration) * Real.exp (-d.concentration)
        = Real.exp (d.concentration * Real.cos (x - d.loc)) * (2 * π * bessel0 d.concentration) * Real.exp d.concentration := by
      linarith
    exact mul_left_cancel₀ hpos.ne' this
  have := Real.exp_injective h4
  linarith

example : (0 : ℝ) ≤ (VonMises.mk 1 3).concentration := by norm_num

/-! ### Moments, mode, entropy, KL -/

/-- `mean` is the circular mean direction, `variance` is one minus the resultant length and lies in `[0, 1]`. -/
theorem C40_mean_variance (d : VonMises) (hk : 0 ≤ d.concentration) :
    CircularMean d.prob d.mean (1 - d.variance) ∧ 0 ≤ d.variance ∧ d.variance ≤ 1 := by
  have hr : 1 - d.variance = bessel1 d.concentration / bessel0 d.concentration := by
    unfold VonMises.variance; rw [i_ratio]; ring
  have h0 := bessel0_pos d.concentration
  have hnn : 0 ≤ bessel1 d.concentration / bessel0 d.concentration := div_nonneg (bessel1_nonneg hk) h0.le
  have hle : bessel1 d.concentration / bessel0 d.concentration ≤ 1 := (div_le_one h0).mpr (bessel1_le _)
  rw [show d.prob = vmPdf d from funext (vm_prob_eq d hk)]
  refine ⟨⟨hr ▸ hnn, ?_, ?_⟩, by linarith, by linarith⟩
  · refine (((vm_cos d).const_mul (Real.cos d.loc)).add ((vm_sin d).const_mul (-Real.sin d.loc))).congr ?_ ?_
    · intro x
      have := Real.cos_add (x - d.loc) d.loc
      rw [sub_add_cancel] at this; rw [this]; ring
    · rw [hr]; unfold VonMises.mean; ring
  · refine (((vm_cos d).const_mul (Real.sin d.loc)).add ((vm_sin d).const_mul (Real.cos d.loc))).congr ?_ ?_
    · intro x
      have := Real.sin_add (x - d.loc) d.loc
      rw [sub_add_cancel] at this; rw [this]; ring
    · rw [hr]; unfold VonMises.mean; ring

/-- `mode` maximises the density over all angles. -/
theorem C40_mode (d : VonMises) (hk : 0 ≤ d.concentration) :
    IsModeOn univ d.prob d.mode ∧ ∀ x, d.logProb x ≤ d.logProb d.mode := by
  have hc : ∀ x, d.concentration * Real.cos (x - d.loc) ≤ d.concentration * Real.cos (d.mode - d.loc) := by
    intro x
    simp only [VonMises.mode, VonMises.mean, sub_self, Real.cos_zero]
    exact mul_le_mul_of_nonneg_left (Real.cos_le_one _) hk
  have hl : ∀ x, d.logProb x ≤ d.logProb d.mode := by
    intro x; have := hc x; simp only [VonMises.logProb]; linarith
  refine ⟨⟨mem_univ _, fun x _ => ?_⟩, hl⟩
  rw [C40_prob_exp d hk, C40_prob_exp d hk]
  exact Real.exp_le_exp.mpr (hl x)

theorem C40_entropy (d : VonMises) (hk : 0 ≤ d.concentration) : EntropyOn volume turn d.prob d.entropy := by
  rw [show d.prob = vmPdf d from funext (vm_prob_eq d hk)]
  refine (((vm_cos d).const_mul (-d.concentration)).add
    ((vmPdf_density d).expConst (Real.log (2 * π) + Real.log (bessel0 d.concentration)))).congr ?_ ?_
  · intro x; rw [log_vmPdf]; ring
  · unfold VonMises.entropy; simp only; rw [i_ratio, log_i0e hk]; ring

theorem vm_kl (d1 d2 : VonMises) (h1 : 0 ≤ d1.concentration) (h2 : 0 ≤ d2.concentration) :
    KLOn volume turn (vmPdf d1) (vmPdf d2) (d1.kl d2) := by
  refine (((vm_cos d1).const_mul (d1.concentration - d2.concentration * Real.cos (d1.loc - d2.loc))).add
    (((vm_sin d1).const_mul (d2.concentration * Real.sin (d1.loc - d2.loc))).add
    ((vmPdf_density d1).expConst (Real.log (bessel0 d2.concentration) - Real.log (bessel0 d1.concentration))))).congr ?_ ?_
  · intro x; rw [log_vmPdf, log_vmPdf]
    have : Real.cos (x - d2.loc) = Real.cos (x - d1.loc) * Real.cos (d1.loc - d2.loc)
        - Real.sin (x - d1.loc) * Real.sin (d1.loc - d2.loc) := by
      rw [← Real.cos_add]; congr 1; ring
    rw [this]; ring
  · unfold VonMises.kl
    rw [i_ratio, Real.log_div (i0e_pos _).ne' (i0e_pos _).ne', log_i0e h1, log_i0e h2]
    ring

/-- `kl_divergence` is the true divergence, non-negative, and zero exactly when the two densities coincide. -/
theorem C40_kl (d1 d2 : VonMises) (h1 : 0 ≤ d1.concentration) (h2 : 0 ≤ d2.concentration) :
    KLOn volume turn d1.prob d2.prob (d1.kl d2) ∧ 0 ≤ d1.kl d2 ∧ (d1.kl d2 = 0 ↔ ∀ x, d1.prob x = d2.prob x) := by
  have hkl := vm_kl d1 d2 h1 h2
  rw [show d1.prob = vmPdf d1 from funext (vm_prob_eq d1 h1), show d2.prob = vmPdf d2 from funext (vm_prob_eq d2 h2)]
  have hg := Spec.KLOn.gibbs measurableSet_Ioc (vmPdf_density d1) (vmPdf_density d2) (fun x _ => vmPdf_pos d1 x)
    (fun x _ => vmPdf_pos d2 x) hkl
  refine ⟨hkl, hg.1, fun h0 x => ?_, fun h => ?_⟩
  · have hae := hg.2 h0
    have hon := Measure.eqOn_Ioc_of_ae_eq (f := vmPdf d1) (g := vmPdf d2) volume hae (vmPdf_cont d1).continuousOn
      (vmPdf_cont d2).continuousOn
    obtain ⟨y, hy, hxy⟩ := ((vmPdf_periodic d1).sub (vmPdf_periodic d2)).exists_mem_Ioc Real.two_pi_pos x (-π)
    rw [show -π + 2 * π = π by ring] at hy
    have := hon hy
    simp only [Pi.sub_apply, this, sub_self] at hxy
    linarith
  · have h2 := hkl.2
    simp only [h, sub_self, mul_zero, integral_zero] at h2
    exact h2.symm

theorem C40_kl_self (d : VonMises) (hk : 0 ≤ d.concentration) : d.kl d = 0 :=
  ((C40_kl d d hk hk).2.2).2 fun _ => rfl

example : (0 : ℝ) ≤ (VonMises.mk 1 3).concentration ∧ (0 : ℝ) ≤ (VonMises.mk 0 (1 / 2)).concentration := by norm_num

/-! ### Angle conversion -/

/-- The representative is the same angle and lies in `[-π, π]`; angles strictly inside are left alone.  The documented
half-open range holds except at `C40_angle_exceptions`. -/
theorem C40_angle_partial (a : ℝ) :
    SameAngle (convertAngle a) a ∧ -π ≤ convertAngle a ∧ convertAngle a ≤ π ∧
      (-π < a → a < π → convertAngle a = a) := by
  have hpi := Real.pi_pos
  have h := rint_spec (a / (2 * π))
  have hx : convertAngle a = 2 * π * (a / (2 * π) - rint (a / (2 * π))) := by
    unfold convertAngle; simp only; field_simp
  rw [abs_le] at h
  refine ⟨⟨-rint (a / (2 * π)), by unfold convertAngle; push_cast; ring⟩, ?_, ?_, fun h1 h2 => ?_⟩
  · rw [hx]; nlinarith [h.1]
  · rw [hx]; nlinarith [h.2]
  · have : rint (a / (2 * π)) = 0 := by
      apply rint_unique
      push_cast
      rw [sub_zero, abs_lt]
      constructor
      · rw [lt_div_iff₀ (by positivity)]; linarith
      · rw [div_lt_iff₀ (by positivity)]; linarith
    unfold convertAngle; simp [this]

/-- The conversion misses the documented range `[-π, π)` exactly at the angles `π + 4π m` (e.g. `π` itself), which it
sends to `π`. -/
theorem C40_angle_exceptions (a : ℝ) :
    convertAngle a ∉ Ico (-π) π ↔ ∃ m : ℤ, a = π + 4 * π * m := by
  have hpi := Real.pi_pos
  have hpart := C40_angle_partial a
  have hx : convertAngle a = 2 * π * (a / (2 * π) - rint (a / (2 * π))) := by
    unfold convertAngle; simp only; field_simp
  constructor
  · intro h
    have hge : π ≤ convertAngle a := by
      by_contra hlt
      exact h ⟨hpart.2.1, not_le.mp hlt⟩
    have heq : convertAngle a = π := le_antisymm hpart.2.2.1 hge
    rcases rint_cases (a / (2 * π)) with hl | ⟨n, hn⟩
    · exfalso
      rw [abs_lt] at hl
      rw [hx] at heq
      nlinarith [hl.2]
    · have ha : a = 2 * π * n + π := by
        field_simp at hn; linarith
      by_cases he : Even n
      · obtain ⟨m, rfl⟩ := he
        exact ⟨m, by rw [ha]; push_cast; ring⟩
      · exfalso
        have ht := rint_tie n
        rw [if_neg he, ← hn] at ht
        rw [hx, ht, hn] at heq
        push_cast at heq
        nlinarith
  · rintro ⟨m, rfl⟩ h
    have e : (π + 4 * π * m) / (2 * π) = ((2 * m : ℤ) : ℝ) + 1 / 2 := by
      push_cast; field_simp; ring
    have ht := rint_tie (2 * m)
    rw [if_pos (even_two_mul m), ← e] at ht
    rw [hx, ht, e] at h
    push_cast at h
    have := h.2
    nlinarith

/-- The counterexample to the documented range: `π` is left at `π`. -/
theorem C40_angle_pi : convertAngle π = π := by
  by_contra hne
  have h := (C40_angle_exceptions π).2 ⟨0, by simp⟩
  have hp := C40_angle_partial π
  exact h ⟨hp.2.1, lt_of_le_of_ne hp.2.2.1 hne⟩

/-- Every sample, for any draws whatsoever, is a representative in `[-π, π]`. -/
theorem C40_sample_range {m : ℕ} (d : Fin m → VonMises) (cutoff : ℝ) (draws : List (Fin m → ℝ × ℝ)) (i : Fin m) :
    -π ≤ VonMises.sampleN cutoff d draws i ∧ VonMises.sampleN cutoff d draws i ≤ π :=
  ⟨(C40_angle_partial _).2.1, (C40_angle_partial _).2.2.1⟩

/-! ### CDF -/

theorem clip01_range (x : ℝ) : 0 ≤ VonMises.clip01 x ∧ VonMises.clip01 x ≤ 1 := by
  unfold VonMises.clip01
  exact ⟨le_min (le_max_right _ _) zero_le_one, min_le_right _ _⟩

/-- Whatever the numerical recipe, `cdf` and `survival_function` are probabilities. -/
theorem C40_cdf_range (d : VonMises) (core : ℝ → ℝ → ℝ) (v : ℝ) :
    (0 ≤ d.cdf core v ∧ d.cdf core v ≤ 1) ∧ 0 ≤ d.survival core v ∧ d.survival core v ≤ 1 :=
  ⟨clip01_range _, clip01_range _⟩

/-- The contract of the numerical recipe: the exact CDF of the standard law on `[-π, π]`. -/
def ExactCore (core : ℝ → ℝ → ℝ) (k : ℝ) : Prop :=
  ∀ x, -π ≤ x → x ≤ π → core x k = ∫ t in (-π)..x, vmPdf ⟨0, k⟩ t

theorem vm_turn_integral (d : VonMises) (a : ℝ) : ∫ t in a..(a + 2 * π), vmPdf d t = 1 := by
  have h1 := (vmPdf_periodic d).intervalIntegral_add_eq a (-π)
  rw [h1, show -π + 2 * π = π by ring, intervalIntegral.integral_of_le (by have := Real.pi_pos; linarith)]
  exact (vmPdf_density d).one

theorem vm_turns_integral (d : VonMises) (x : ℝ) (n : ℤ) :
    ∫ t in x..(x + n * (2 * π)), vmPdf d t = n := by
  have h := (vmPdf_periodic d).intervalIntegral_add_zsmul_eq n x ((vmPdf_cont d).intervalIntegrable · ·)
  rw [vm_turn_integral d x] at h
  simpa [zsmul_eq_mul] using h

theorem cdfWith_exact {core : ℝ → ℝ → ℝ} {k : ℝ} (h : ExactCore core k) (x : ℝ) :
    VonMises.cdfWith core x k = ∫ t in (-π)..x, vmPdf ⟨0, k⟩ t := by
  have hp := C40_angle_partial x
  have hi : ∀ a b, IntervalIntegrable (vmPdf ⟨0, k⟩) volume a b := fun a b => (vmPdf_cont _).intervalIntegrable a b
  have hr : x - 2 * π * (rint (x / (2 * π)) : ℝ) = convertAngle x := rfl
  unfold VonMises.cdfWith
  simp only
  rw [hr, h _ hp.2.1 hp.2.2.1]
  have h2 := vm_turns_integral ⟨0, k⟩ (convertAngle x) (rint (x / (2 * π)))
  have h3 : convertAngle x + (rint (x / (2 * π)) : ℝ) * (2 * π) = x := by rw [← hr]; ring
  rw [h3] at h2
  rw [← h2]
  exact intervalIntegral.integral_add_adjacent_intervals (hi _ _) (hi _ _)

theorem vm_shift (loc k a b : ℝ) : ∫ t in (a - convertAngle loc)..(b - convertAngle loc), vmPdf ⟨0, k⟩ t
    = ∫ t in a..b, vmPdf ⟨loc, k⟩ t := by
  rw [← intervalIntegral.integral_comp_sub_right (fun t => vmPdf ⟨0, k⟩ t)]
  congr 1; ext t
  obtain ⟨m, hm⟩ := (C40_angle_partial loc).1
  unfold vmPdf
  simp only [sub_zero]
  rw [hm, show t - (loc + 2 * π * m) = t - loc + (-m : ℤ) * (2 * π) by push_cast; ring, Real.cos_add_int_mul_two_pi]

theorem vm_interval_nonneg (d : VonMises) {a b : ℝ} (h : a ≤ b) : 0 ≤ ∫ t in a..b, vmPdf d t :=
  intervalIntegral.integral_nonneg h fun t _ => (vmPdf_pos d t).le

/-- If the recipe is exact on `[-π, π]`, then `cdf` and `survival_function` are exactly the CDF and survival function
of the law on one turn, for every location (inside the interval or not) and every value. -/
theorem C40_cdf_exact (d : VonMises) (hk : 0 ≤ d.concentration) (core : ℝ → ℝ → ℝ) (h : ExactCore core d.concentration) :
    IsTurnCdf d.prob (d.cdf core) ∧ IsTurnSurvival d.prob (d.survival core) := by
  have hpi := Real.pi_pos
  have hi : ∀ a b, IntervalIntegrable (vmPdf d) volume a b := fun a b => (vmPdf_cont _).intervalIntegrable a b
  have hi0 : ∀ a b, IntervalIntegrable (vmPdf ⟨0, d.concentration⟩) volume a b :=
    fun a b => (vmPdf_cont _).intervalIntegrable a b
  have htot : ∫ t in (-π)..π, vmPdf d t = 1 := by
    have := vm_turn_integral d (-π); rwa [show -π + 2 * π = π by ring] at this
  rw [show d.prob = vmPdf d from funext (vm_prob_eq d hk)]
  have hdiff : ∀ a b, VonMises.cdfWith core (b - convertAngle d.loc) d.concentration
      - VonMises.cdfWith core (a - convertAngle d.loc) d.concentration = ∫ t in a..b, vmPdf d t := by
    intro a b
    rw [cdfWith_exact h, cdfWith_exact h, intervalIntegral.integral_interval_sub_left (hi0 _ _) (hi0 _ _)]
    exact vm_shift d.loc d.concentration a b
  constructor
  · intro v
    have e : d.cdf core v = VonMises.clip01 (∫ t in (-π)..v, vmPdf d t) := by
      unfold VonMises.cdf; simp only; rw [hdiff]
    rw [e]
    rcases le_total v (-π) with h1 | h1
    · have : turn ∩ Iic v = ∅ := by
        ext x; simp only [turn, mem_inter_iff, mem_Ioc, mem_Iic, mem_empty_iff_false, iff_false]
        rintro ⟨⟨a, _⟩, b⟩; linarith
      rw [this, setIntegral_empty, intervalIntegral.integral_symm]
      have := vm_interval_nonneg d h1
      unfold VonMises.clip01
      rw [max_eq_right (by linarith)]; simp
    · rcases le_total v π with h2 | h2
      · have : turn ∩ Iic v = Ioc (-π) v := by
          ext x; simp only [turn, mem_inter_iff, mem_Ioc, mem_Iic]
          constructor
          · rintro ⟨⟨a, _⟩, b⟩; exact ⟨a, b⟩
          · rintro ⟨a, b⟩; exact ⟨⟨a, b.trans h2⟩, b⟩
        rw [this, ← intervalIntegral.integral_of_le h1]
        have hn := vm_interval_nonneg d h1
        have hn2 := vm_interval_nonneg d h2
        have := intervalIntegral.integral_add_adjacent_intervals (hi (-π) v) (hi v π)
        unfold VonMises.clip01
        rw [max_eq_left hn, min_eq_left (by linarith)]
      · have : turn ∩ Iic v = Ioc (-π) π := by
          ext x; simp only [turn, mem_inter_iff, mem_Ioc, mem_Iic]
          constructor
          · rintro ⟨a, b⟩; exact a
          · rintro ⟨a, b⟩; exact ⟨⟨a, b⟩, b.trans h2⟩
        rw [this, ← intervalIntegral.integral_of_le (by linarith), htot]
        have hn2 := vm_interval_nonneg d h2
        have := intervalIntegral.integral_add_adjacent_intervals (hi (-π) π) (hi π v)
        unfold VonMises.clip01
        rw [max_eq_left (by linarith), min_eq_right (by linarith)]
  · intro v
    have e : d.survival core v = VonMises.clip01 (∫ t in v..π, vmPdf d t) := by
      unfold VonMises.survival; simp only; rw [hdiff]
    rw [e]
    rcases le_total v π with h1 | h1
    · rcases le_total v (-π) with h2 | h2
      · have : turn ∩ Ioi v = Ioc (-π) π := by
          ext x; simp only [turn, mem_inter_iff, mem_Ioc, mem_Ioi]
          constructor
          · rintro ⟨a, b⟩; exact a
          · rintro ⟨a, b⟩; exact ⟨⟨a, b⟩, by linarith⟩
        rw [this, ← intervalIntegral.integral_of_le (by linarith), htot]
        have hn2 := vm_interval_nonneg d h2
        have := intervalIntegral.integral_add_adjacent_intervals (hi v (-π)) (hi (-π) π)
        unfold VonMises.clip01
        rw [max_eq_left (by linarith), min_eq_right (by linarith)]
      · have : turn ∩ Ioi v = Ioc v π := by
          ext x; simp only [turn, mem_inter_iff, mem_Ioc, mem_Ioi]
          constructor
          · rintro ⟨⟨a, b⟩, c⟩; exact ⟨c, b⟩
          · rintro ⟨a, b⟩; exact ⟨⟨by linarith, b⟩, a⟩
        rw [this, ← intervalIntegral.integral_of_le h1]
        have hn := vm_interval_nonneg d h1
        have hn2 := vm_interval_nonneg d h2
        have := intervalIntegral.integral_add_adjacent_intervals (hi (-π) v) (hi v π)
        unfold VonMises.clip01
        rw [max_eq_left hn, min_eq_left (by linarith)]
    · have : turn ∩ Ioi v = ∅ := by
        ext x; simp only [turn, mem_inter_iff, mem_Ioc, mem_Ioi, mem_empty_iff_false, iff_false]
        rintro ⟨⟨_, a⟩, b⟩; linarith
      rw [this, setIntegral_empty, intervalIntegral.integral_symm]
      have := vm_interval_nonneg d h1
      unfold VonMises.clip01
      rw [max_eq_right (by linarith)]; simp

/-- The contract can be met. -/
example : ExactCore (fun x k => ∫ t in (-π)..x, vmPdf ⟨0, k⟩ t) 2 := fun _ _ _ => rfl

theorem seriesLoop_zero {value : ℝ} (k : ℝ) (hs : ∀ n : ℕ, Real.sin (n * value) = 0) :
    ∀ (n : ℕ) (acc : VonMises.SeriesAcc), acc.vn = 0 → (VonMises.seriesLoop value k n acc).vn = 0
  | 0, acc, h => h
  | n + 1, acc, h => by
    unfold VonMises.seriesLoop
    apply seriesLoop_zero k hs n
    unfold VonMises.seriesStep
    simp only
    rw [hs (n + 1), h]; simp

theorem seriesLoop_neg (value k : ℝ) : ∀ (n : ℕ) (acc acc' : VonMises.SeriesAcc), acc'.rn = acc.rn → acc'.vn = -acc.vn →
    (VonMises.seriesLoop (-value) k n acc').vn = -(VonMises.seriesLoop value k n acc).vn
  | 0, acc, acc', _, h => h
  | n + 1, acc, acc', h1, h2 => by
    unfold VonMises.seriesLoop
    apply seriesLoop_neg value k n
    · unfold VonMises.seriesStep; simp only; rw [h1]
    · unfold VonMises.seriesStep; simp only; rw [h1, h2, mul_neg, Real.sin_neg]; ring

theorem clip01_compl (y : ℝ) : VonMises.clip01 y + VonMises.clip01 (1 - y) = 1 := by
  unfold VonMises.clip01
  rcases le_total y 0 with h | h
  · rw [max_eq_right h, max_eq_left (by linarith), min_eq_right (by linarith : (1 : ℝ) ≤ 1 - y)]; simp
  · rcases le_total y 1 with h2 | h2
    · rw [max_eq_left h, max_eq_left (by linarith), min_eq_left h2, min_eq_left (by linarith)]; ring
    · rw [max_eq_left h, max_eq_right (by linarith : 1 - y ≤ 0), min_eq_right h2]; simp

/-- The series recipe at its end points, at the centre, and its symmetry. -/
theorem C40_series (k : ℝ) : VonMises.cdfSeries (-π) k = 0 ∧ VonMises.cdfSeries 0 k = 1 / 2 ∧ VonMises.cdfSeries π k = 1 ∧
    (∀ x, VonMises.cdfSeries x k + VonMises.cdfSeries (-x) k = 1) := by
  have hpi := Real.pi_pos
  have a1 : ∀ n : ℕ, Real.sin (n * π) = 0 := fun n => Real.sin_nat_mul_pi n
  have a2 : ∀ n : ℕ, Real.sin (n * -π) = 0 := fun n => by rw [mul_neg, Real.sin_neg, a1, neg_zero]
  have a3 : ∀ n : ℕ, Real.sin (n * (0 : ℝ)) = 0 := fun n => by simp
  refine ⟨?_, ?_, ?_, fun x => ?_⟩
  · unfold VonMises.cdfSeries VonMises.cdfSeriesRaw
    rw [seriesLoop_zero k a2 20 VonMises.seriesInit rfl]
    have : (0.5 : ℝ) + -π / (2 * π) + 0 / π = 0 := by field_simp; norm_num
    rw [this]; unfold VonMises.clip01; simp
  · unfold VonMises.cdfSeries VonMises.cdfSeriesRaw
    rw [seriesLoop_zero k a3 20 VonMises.seriesInit rfl]
    unfold VonMises.clip01; norm_num
  · unfold VonMises.cdfSeries VonMises.cdfSeriesRaw
    rw [seriesLoop_zero k a1 20 VonMises.seriesInit rfl]
    have : (0.5 : ℝ) + π / (2 * π) + 0 / π = 1 := by field_simp; norm_num
    rw [this]; unfold VonMises.clip01; simp
  · unfold VonMises.cdfSeries VonMises.cdfSeriesRaw
    rw [seriesLoop_neg x k 20 VonMises.seriesInit VonMises.seriesInit rfl (by simp [VonMises.seriesInit])]
    generalize (VonMises.seriesLoop x k 20 VonMises.seriesInit).vn = v
    have e : (0.5 : ℝ) + -x / (2 * π) + -v / π = 1 - (0.5 + x / (2 * π) + v / π) := by ring
    rw [e]
    generalize (0.5 : ℝ) + x / (2 * π) + v / π = y
    exact clip01_compl y

/-- A whole turn raises the periodic extension by exactly one, whenever the recipe goes from `0` to `1` over the turn. -/
theorem cdfWith_turn {core : ℝ → ℝ → ℝ} {k : ℝ} (h0 : core (-π) k = 0) (h1 : core π k = 1) (x : ℝ) :
    VonMises.cdfWith core (x + 2 * π) k = VonMises.cdfWith core x k + 1 := by
  have hpi := Real.pi_pos
  have e : (x + 2 * π) / (2 * π) = x / (2 * π) + 1 := by field_simp
  unfold VonMises.cdfWith
  simp only
  rw [e]
  rcases rint_cases (x / (2 * π)) with hl | ⟨n, hn⟩
  · have : rint (x / (2 * π) + 1) = rint (x / (2 * π)) + 1 := by
      apply rint_unique; push_cast; rwa [add_sub_add_right_eq_sub]
    rw [this]; push_cast
    rw [show x + 2 * π - 2 * π * ((rint (x / (2 * π)) : ℝ) + 1) = x - 2 * π * (rint (x / (2 * π)) : ℝ) by ring]
    ring
  · have hx : x = 2 * π * n + π := by field_simp at hn; linarith
    rw [hn, show (n : ℝ) + 1 / 2 + 1 = ((n + 1 : ℤ) : ℝ) + 1 / 2 by push_cast; ring, rint_tie, rint_tie]
    by_cases he : Even n
    · have ho : ¬ Even (n + 1) := by rw [Int.not_even_iff_odd]; exact he.add_one
      rw [if_pos he, if_neg ho, hx]; push_cast
      rw [show 2 * π * (n : ℝ) + π + 2 * π - 2 * π * ((n : ℝ) + 1 + 1) = -π by ring,
        show 2 * π * (n : ℝ) + π - 2 * π * (n : ℝ) = π by ring, h0, h1]; ring
    · have ho : Even (n + 1) := by rw [Int.even_add_one]; exact he
      rw [if_neg he, if_pos ho, hx]; push_cast
      rw [show 2 * π * (n : ℝ) + π + 2 * π - 2 * π * ((n : ℝ) + 1) = π by ring,
        show 2 * π * (n : ℝ) + π - 2 * π * ((n : ℝ) + 1) = -π by ring, h0, h1]; ring

/-- With the code's own recipe and a concentration below the cutoff: `cdf` is `0` at `-π`, `1` at `π`, the survival
function is the reverse, for every location. -/
theorem C40_cdf_ends (d : VonMises) (hk : d.concentration < 10.5) :
    d.cdf VonMises.cdfCore (-π) = 0 ∧ d.cdf VonMises.cdfCore π = 1 ∧
      d.survival VonMises.cdfCore (-π) = 1 ∧ d.survival VonMises.cdfCore π = 0 := by
  have hs := C40_series d.concentration
  have c0 : VonMises.cdfCore (-π) d.concentration = 0 := by unfold VonMises.cdfCore; rw [if_pos hk]; exact hs.1
  have c1 : VonMises.cdfCore π d.concentration = 1 := by unfold VonMises.cdfCore; rw [if_pos hk]; exact hs.2.2.1
  have ht := cdfWith_turn c0 c1 (-π - convertAngle d.loc)
  rw [show -π - convertAngle d.loc + 2 * π = π - convertAngle d.loc by ring] at ht
  unfold VonMises.cdf VonMises.survival
  simp only [sub_self, ht, add_sub_cancel_left]
  unfold VonMises.clip01
  simp

/-- `cdf` and `survival_function` sum to one at every value (inside the turn or not), with the code's own recipe and a
concentration below the cutoff. -/
theorem C40_cdf_survival (d : VonMises) (hk : d.concentration < 10.5) (v : ℝ) :
    d.cdf VonMises.cdfCore v + d.survival VonMises.cdfCore v = 1 := by
  have hs := C40_series d.concentration
  have c0 : VonMises.cdfCore (-π) d.concentration = 0 := by unfold VonMises.cdfCore; rw [if_pos hk]; exact hs.1
  have c1 : VonMises.cdfCore π d.concentration = 1 := by unfold VonMises.cdfCore; rw [if_pos hk]; exact hs.2.2.1
  have ht := cdfWith_turn c0 c1 (-π - convertAngle d.loc)
  rw [show -π - convertAngle d.loc + 2 * π = π - convertAngle d.loc by ring] at ht
  have := clip01_compl (VonMises.cdfWith VonMises.cdfCore (v - convertAngle d.loc) d.concentration
    - VonMises.cdfWith VonMises.cdfCore (-π - convertAngle d.loc) d.concentration)
  unfold VonMises.cdf VonMises.survival
  simp only
  rw [ht]
  rw [show VonMises.cdfWith VonMises.cdfCore (-π - convertAngle d.loc) d.concentration + 1
      - VonMises.cdfWith VonMises.cdfCore (v - convertAngle d.loc) d.concentration
    = 1 - (VonMises.cdfWith VonMises.cdfCore (v - convertAngle d.loc) d.concentration
    - VonMises.cdfWith VonMises.cdfCore (-π - convertAngle d.loc) d.concentration) by ring]
  exact this

example : (VonMises.mk 7 3).concentration < 10.5 := by norm_num

end Distrax
