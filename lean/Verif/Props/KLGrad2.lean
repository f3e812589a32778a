import Verif.Props.KLGrad
import Verif.Props.VonMises

/-! C75, continued: von Mises, where the uniform case (concentration 0) is an exception. -/

namespace Distrax

open MeasureTheory Filter Topology Spec Tracks

variable {t eps : ℝ}

/-- `A(k) = I_1(k) / I_0(k)` and its derivative. -/
noncomputable def besselRatio (k : ℝ) : ℝ := bessel1 k / bessel0 k
noncomputable def besselRatio' (k : ℝ) : ℝ := bessel1' k / bessel0 k - bessel1 k * bessel1 k / bessel0 k ^ 2

theorem besselRatio_deriv (k : ℝ) : HasDerivAt besselRatio (besselRatio' k) k := by
  have h0 := (bessel0_pos k).ne'
  refine ((bessel1_deriv k).div (bessel0_deriv k) h0).congr_deriv ?_
  unfold besselRatio'
  field_simp

theorem logBessel_deriv (k : ℝ) : HasDerivAt (fun k => Real.log (bessel0 k)) (besselRatio k) k :=
  (bessel0_deriv k).log (bessel0_pos k).ne'

/-- jax's tangent of `log(i0e(k))` for `k ≥ 0`. -/
theorem logI0e_tan {c : Dual} (hc : 0 ≤ c.val) : (Dual.log (Dual.i0e c)).tan = c.tan * (besselRatio c.val - if c.val = 0 then 0 else 1) := by
  have h0 := (i0e_pos c.val).ne'
  have e : besselRatio c.val = i1e c.val / i0e c.val := (i_ratio _).symm
  simp only [Dual.log, Dual.i0e, e]
  by_cases h : c.val = 0
  · rw [if_pos h, h, sign_zero] at *; simp; ring
  · rw [if_neg h, sign_pos (lt_of_le_of_ne hc (Ne.symm h))]
    field_simp
    simp

/-- jax's tangent of `i1e(k) / i0e(k)` for `k = 0` and for `k > eps`. -/
theorem ratio_tan {c : Dual} (heps : 0 ≤ eps) (hc : c.val = 0 ∨ eps < c.val) :
    (Dual.i1e eps c / Dual.i0e c).tan = c.tan * besselRatio' c.val := by
  rw [Dual.tan_div]
  unfold besselRatio'
  rcases hc with h | h
  · have hb : i1e 0 = 0 := by rw [i1e, bessel1_zero, mul_zero]
    have hb0 : i0e 0 = 1 := by rw [i0e, bessel0_zero]; simp
    simp only [Dual.i1e, Dual.i0e, h, hb, hb0, abs_zero, if_neg (not_lt.2 heps), bessel1_zero, bessel0_zero, bessel1'_zero]
    ring
  · have hpos : 0 < c.val := lt_of_le_of_lt heps h
    have hk := bessel1'_eq c.val
    have hB : bessel1' c.val = bessel0 c.val - bessel1 c.val / c.val := by field_simp; linarith
    simp only [Dual.i1e, Dual.i0e, abs_of_pos hpos, if_pos h, sign_pos hpos, hB, i0e, i1e]
    have h1 := (Real.exp_pos (-c.val)).ne'
    have h2 := (bessel0_pos c.val).ne'
    have h3 := hpos.ne'
    simp only [SignType.coe_one]
    field_simp
    ring

/-- `entropy` of a von Mises distribution with concentration 0 (the uniform one) or above the machine epsilon: the reported
derivative is right, except at 0 where it is too large by the derivative of the concentration. -/
theorem C75_von_mises_entropy_partial {loc conc : Param} (hc : HasDerivAt conc.val (conc.der t) t) (heps : 0 ≤ eps)
    (h0 : conc.val t = 0 ∨ eps < conc.val t) :
    TrueWithGradientOn {s | 0 ≤ conc.val s} (fun s => EntropyOn volume turn (VonMises.mk (loc.val s) (conc.val s)).prob)
      ⟨(Dual.vonMisesEntropy eps (conc.at t)).val,
        (Dual.vonMisesEntropy eps (conc.at t)).tan - if conc.val t = 0 then conc.der t else 0⟩ t := by
  have hpos : 0 ≤ conc.val t := h0.elim (fun h => h.ge) fun h => heps.trans h.le
  have heq : ∀ k : ℝ, 0 ≤ k → k * (1 - i1e k / i0e k) + Real.log (2 * Real.pi) + Real.log (i0e k) =
      Real.log (2 * Real.pi) + Real.log (bessel0 k) - k * besselRatio k := fun k hk => by
    rw [log_i0e hk, i_ratio, besselRatio]; ring
  have htrue : ∀ s, 0 ≤ conc.val s → EntropyOn volume turn (VonMises.mk (loc.val s) (conc.val s)).prob
      (Real.log (2 * Real.pi) + Real.log (bessel0 (conc.val s)) - conc.val s * besselRatio (conc.val s)) := fun s hs => by
    rw [← heq _ hs]; exact C40_entropy ⟨loc.val s, conc.val s⟩ hs
  have hA := (besselRatio_deriv (conc.val t)).comp t hc
  have hL := (logBessel_deriv (conc.val t)).comp t hc
  have hder : HasDerivAt (fun s => Real.log (2 * Real.pi) + Real.log (bessel0 (conc.val s)) - conc.val s * besselRatio (conc.val s))
      (besselRatio (conc.val t) * conc.der t - (conc.der t * besselRatio (conc.val t) +
        conc.val t * (besselRatio' (conc.val t) * conc.der t))) t := (hL.const_add _).sub (hc.mul hA)
  refine ⟨_, htrue t hpos, ?_, ?_, (hder.congr_deriv ?_).hasDerivWithinAt⟩
  · filter_upwards [self_mem_nhdsWithin] with s hs using htrue s hs
  · exact heq _ hpos
  · have r := ratio_tan (c := conc.at t) heps h0
    have l := logI0e_tan (c := conc.at t) hpos
    simp only [Dual.vonMisesEntropy, Dual.tan_add, Dual.tan_mul, Dual.tan_sub, Dual.tan_const, r, l, Dual.val_sub, Dual.val_const,
      Dual.val_div]
    simp only [Param.at, Dual.i1e, Dual.i0e]
    rw [show i1e (conc.val t) / i0e (conc.val t) = besselRatio (conc.val t) from i_ratio _]
    by_cases hz : conc.val t = 0
    · simp only [hz, if_true]; ring
    · simp only [hz, if_false]; ring

/-- Away from the uniform case the reported derivative is the derivative of the entropy. -/
theorem C75_von_mises_entropy {loc conc : Param} (hc : HasDerivAt conc.val (conc.der t) t) (heps : 0 ≤ eps) (h0 : eps < conc.val t) :
    TrueWithGradient (fun s => EntropyOn volume turn (VonMises.mk (loc.val s) (conc.val s)).prob) (Dual.vonMisesEntropy eps (conc.at t)) t := by
  have hpos : 0 < conc.val t := heps.trans_lt h0
  have hn : {s | 0 ≤ conc.val s} ∈ 𝓝 t := by
    filter_upwards [hc.continuousAt.eventually_const_lt hpos] with s hs using hs.le
  obtain ⟨k, -, h2, h3, h4⟩ := C75_von_mises_entropy_partial (loc := loc) hc heps (Or.inr h0)
  rw [nhdsWithin_eq_nhds.2 hn] at h2
  refine ⟨k, h2, h3, (h4.hasDerivAt hn).congr_deriv ?_⟩
  simp only [if_neg hpos.ne', sub_zero]

/-- Two claims about the same quantity within the same set of parameters report the same derivative. -/
theorem trueOn_tan_unique {S : Set ℝ} {Is : ℝ → ℝ → Prop} {d e : Dual} (hS : UniqueDiffWithinAt ℝ S t)
    (h : TrueWithGradientOn S Is d t) (k : TrueWithGradientOn S Is e t) (huniq : ∀ s a b, Is s a → Is s b → a = b) : d.tan = e.tan := by
  obtain ⟨f, f1, f2, -, f4⟩ := h
  obtain ⟨g, g1, g2, -, g4⟩ := k
  have : f =ᶠ[𝓝[S] t] g := by filter_upwards [f2, g2] with s a b using huniq s _ _ a b
  exact hS.eq_deriv S f4 (g4.congr_of_eventuallyEq this (huniq t _ _ f1 g1))

theorem entropyOn_unique {E : Type} [MeasurableSpace E] {μ : Measure E} {S : Set E} {p : E → ℝ} {a b : ℝ} (h : EntropyOn μ S p a)
    (k : EntropyOn μ S p b) : a = b := h.2.symm.trans k.2

theorem klOn_unique {E : Type} [MeasurableSpace E] {μ : Measure E} {S : Set E} {p q : E → ℝ} {a b : ℝ} (h : KLOn μ S p q a)
    (k : KLOn μ S p q b) : a = b := h.2.symm.trans k.2

/-- The full claim is false at concentration 0: `jax.grad` of `entropy` reports 1, the (one-sided) derivative is 0. -/
theorem C75_von_mises_entropy_zero (heps : 0 ≤ eps) (loc : ℝ) :
    (Dual.vonMisesEntropy eps ⟨0, 1⟩).tan = 1 ∧
    TrueWithGradientOn (Set.Ici 0) (fun s => EntropyOn volume turn (VonMises.mk loc s).prob) ⟨(Dual.vonMisesEntropy eps ⟨0, 1⟩).val, 0⟩ 0 ∧
    ¬ TrueWithGradientOn (Set.Ici 0) (fun s => EntropyOn volume turn (VonMises.mk loc s).prob) (Dual.vonMisesEntropy eps ⟨0, 1⟩) 0 := by
  have key := C75_von_mises_entropy_partial (t := 0) (loc := ⟨fun _ => loc, fun _ => 0⟩) (conc := ⟨fun s => s, fun _ => 1⟩)
    (hasDerivAt_id (0 : ℝ)) heps (Or.inl rfl)
  have htan : (Dual.vonMisesEntropy eps ⟨0, 1⟩).tan = 1 := by
    have r := ratio_tan (c := ⟨0, 1⟩) heps (Or.inl rfl)
    have l := logI0e_tan (c := ⟨0, 1⟩) le_rfl
    simp only [Dual.vonMisesEntropy, Dual.tan_add, Dual.tan_mul, Dual.tan_sub, Dual.tan_const, r, l, Dual.val_sub, Dual.val_const,
      Dual.val_div]
    simp only [Dual.i1e, Dual.i0e, i1e, i0e, bessel1_zero, besselRatio]
    simp
  have e2 : TrueWithGradientOn (Set.Ici 0) (fun s => EntropyOn volume turn (VonMises.mk loc s).prob)
      ⟨(Dual.vonMisesEntropy eps ⟨0, 1⟩).val, 0⟩ 0 := by
    simp only [Param.at, if_true, htan, sub_self] at key
    exact key
  refine ⟨htan, e2, fun h => ?_⟩
  have := trueOn_tan_unique (uniqueDiffWithinAt_Ici 0) h e2 fun s a b h1 h2 => entropyOn_unique h1 h2
  rw [htan] at this
  exact one_ne_zero this

/-- `kl_divergence` of two von Mises distributions, each with concentration 0 or above the machine epsilon: the reported derivative
is right, except that a concentration that is 0 contributes its derivative once too much (second distribution) or too little (first). -/
theorem C75_von_mises_kl_partial {loc1 conc1 loc2 conc2 : Param} (hl1 : HasDerivAt loc1.val (loc1.der t) t)
    (hc1 : HasDerivAt conc1.val (conc1.der t) t) (hl2 : HasDerivAt loc2.val (loc2.der t) t)
    (hc2 : HasDerivAt conc2.val (conc2.der t) t) (heps : 0 ≤ eps) (h1 : conc1.val t = 0 ∨ eps < conc1.val t) (h2 : 0 ≤ conc2.val t) :
    TrueWithGradientOn {s | 0 ≤ conc1.val s ∧ 0 ≤ conc2.val s}
      (fun s => KLOn volume turn (VonMises.mk (loc1.val s) (conc1.val s)).prob (VonMises.mk (loc2.val s) (conc2.val s)).prob)
      ⟨(Dual.vonMisesKL eps (loc1.at t) (conc1.at t) (loc2.at t) (conc2.at t)).val,
        (Dual.vonMisesKL eps (loc1.at t) (conc1.at t) (loc2.at t) (conc2.at t)).tan + (if conc1.val t = 0 then conc1.der t else 0)
          - if conc2.val t = 0 then conc2.der t else 0⟩ t := by
  have p1 : 0 ≤ conc1.val t := h1.elim (fun h => h.ge) fun h => heps.trans h.le
  have heq : ∀ a b x y : ℝ, 0 ≤ a → 0 ≤ b → (b - a) + Real.log (i0e b / i0e a) + i1e a / i0e a * (a - b * Real.cos (x - y)) =
      Real.log (bessel0 b) - Real.log (bessel0 a) + besselRatio a * (a - b * Real.cos (x - y)) := fun a b x y ha hb => by
    rw [Real.log_div (i0e_pos b).ne' (i0e_pos a).ne', log_i0e ha, log_i0e hb, i_ratio, besselRatio]; ring
  have htrue : ∀ s, 0 ≤ conc1.val s → 0 ≤ conc2.val s →
      KLOn volume turn (VonMises.mk (loc1.val s) (conc1.val s)).prob (VonMises.mk (loc2.val s) (conc2.val s)).prob
      (Real.log (bessel0 (conc2.val s)) - Real.log (bessel0 (conc1.val s)) +
        besselRatio (conc1.val s) * (conc1.val s - conc2.val s * Real.cos (loc1.val s - loc2.val s))) := fun s hs hs' => by
    rw [← heq _ _ _ _ hs hs']; exact (C40_kl ⟨loc1.val s, conc1.val s⟩ ⟨loc2.val s, conc2.val s⟩ hs hs').1
  have hA := (besselRatio_deriv (conc1.val t)).comp t hc1
  have hL1 := (logBessel_deriv (conc1.val t)).comp t hc1
  have hL2 := (logBessel_deriv (conc2.val t)).comp t hc2
  have hcos := (hl1.sub hl2).cos
  have hder := (hL2.sub hL1).add (hA.mul (hc1.sub (hc2.mul hcos)))
  refine ⟨_, htrue t p1 h2, ?_, ?_, (hder.congr_deriv ?_).hasDerivWithinAt⟩
  · filter_upwards [self_mem_nhdsWithin] with s hs using htrue s hs.1 hs.2
  · exact heq _ _ _ _ p1 h2
  · have r := ratio_tan (c := conc1.at t) heps h1
    have l1 := logI0e_tan (c := conc1.at t) p1
    have l2 := logI0e_tan (c := conc2.at t) h2
    have hq : (Dual.log (Dual.i0e (conc2.at t) / Dual.i0e (conc1.at t))).tan =
        (Dual.log (Dual.i0e (conc2.at t))).tan - (Dual.log (Dual.i0e (conc1.at t))).tan := by
      have a1 : (Dual.i0e (conc1.at t)).val ≠ 0 := (i0e_pos _).ne'
      have a2 : (Dual.i0e (conc2.at t)).val ≠ 0 := (i0e_pos _).ne'
      simp only [Dual.log, Dual.tan_div, Dual.val_div]
      field_simp
    simp only [Dual.vonMisesKL, Dual.tan_add, Dual.tan_mul, Dual.tan_sub, hq, r, l1, l2, Dual.val_sub, Dual.val_mul, Dual.val_div]
    simp only [Param.at, Dual.i1e, Dual.i0e, Dual.cos, Dual.val_sub, Dual.tan_sub]
    rw [show i1e (conc1.val t) / i0e (conc1.val t) = besselRatio (conc1.val t) from i_ratio _]
    simp only [Function.comp_apply, Pi.sub_apply, Pi.mul_apply]
    by_cases hz : conc1.val t = 0 <;> by_cases hz' : conc2.val t = 0
    · simp only [hz, hz', if_true]; ring
    · simp only [hz, hz', if_true, if_false]; ring
    · simp only [hz, hz', if_true, if_false]; ring
    · simp only [hz, hz', if_false]; ring

/-- Away from the uniform case the reported derivative is the derivative of the divergence. -/
theorem C75_von_mises_kl {loc1 conc1 loc2 conc2 : Param} (hl1 : HasDerivAt loc1.val (loc1.der t) t)
    (hc1 : HasDerivAt conc1.val (conc1.der t) t) (hl2 : HasDerivAt loc2.val (loc2.der t) t)
    (hc2 : HasDerivAt conc2.val (conc2.der t) t) (heps : 0 ≤ eps) (h1 : eps < conc1.val t) (h2 : 0 < conc2.val t) :
    TrueWithGradient
      (fun s => KLOn volume turn (VonMises.mk (loc1.val s) (conc1.val s)).prob (VonMises.mk (loc2.val s) (conc2.val s)).prob)
      (Dual.vonMisesKL eps (loc1.at t) (conc1.at t) (loc2.at t) (conc2.at t)) t := by
  have p1 : 0 < conc1.val t := heps.trans_lt h1
  have hn : {s | 0 ≤ conc1.val s ∧ 0 ≤ conc2.val s} ∈ 𝓝 t := by
    filter_upwards [hc1.continuousAt.eventually_const_lt p1, hc2.continuousAt.eventually_const_lt h2] with s a b using ⟨a.le, b.le⟩
  obtain ⟨k, -, e2, e3, e4⟩ := C75_von_mises_kl_partial hl1 hc1 hl2 hc2 heps (Or.inr h1) h2.le
  rw [nhdsWithin_eq_nhds.2 hn] at e2
  refine ⟨k, e2, e3, (e4.hasDerivAt hn).congr_deriv ?_⟩
  simp only [if_neg p1.ne', if_neg h2.ne', sub_zero, add_zero]

/-- The full claim is false when a concentration is 0: for equal uniform distributions `jax.grad` reports that the divergence
decreases (at rate 1) when the first concentration grows, although it is 0 and cannot be negative. -/
theorem C75_von_mises_kl_zero (heps : 0 ≤ eps) (loc : ℝ) :
    (Dual.vonMisesKL eps (Dual.const loc) ⟨0, 1⟩ (Dual.const loc) (Dual.const 0)).tan = -1 ∧
    ¬ TrueWithGradientOn (Set.Ici 0) (fun s => KLOn volume turn (VonMises.mk loc s).prob (VonMises.mk loc 0).prob)
      (Dual.vonMisesKL eps (Dual.const loc) ⟨0, 1⟩ (Dual.const loc) (Dual.const 0)) 0 := by
  have key := C75_von_mises_kl_partial (t := 0) (loc1 := ⟨fun _ => loc, fun _ => 0⟩) (conc1 := ⟨fun s => s, fun _ => 1⟩)
    (loc2 := ⟨fun _ => loc, fun _ => 0⟩) (conc2 := ⟨fun _ => 0, fun _ => 0⟩)
    (hasDerivAt_const _ _) (hasDerivAt_id (0 : ℝ)) (hasDerivAt_const _ _) (hasDerivAt_const _ _) heps (Or.inl rfl) le_rfl
  have htan : (Dual.vonMisesKL eps (Dual.const loc) ⟨0, 1⟩ (Dual.const loc) (Dual.const 0)).tan = -1 := by
    have r := ratio_tan (c := ⟨0, 1⟩) heps (Or.inl rfl)
    simp only [Dual.vonMisesKL, Dual.tan_add, Dual.tan_mul, Dual.tan_sub, Dual.tan_const, r, Dual.val_sub, Dual.val_const,
      Dual.val_div, Dual.val_mul, Dual.log, Dual.tan_div]
    simp only [Dual.i1e, Dual.i0e, i1e, i0e, bessel1_zero, bessel0_zero, Dual.const, Dual.cos]
    simp
  have hS : {s : ℝ | 0 ≤ s ∧ (0 : ℝ) ≤ 0} = Set.Ici 0 := by ext s; simp
  simp only [Param.at] at key
  rw [hS] at key
  refine ⟨htan, fun h => ?_⟩
  have := trueOn_tan_unique (uniqueDiffWithinAt_Ici 0) h key fun s a b h1 h2 => klOn_unique h1 h2
  simp only [Dual.const] at this
  simp at this

end Distrax
