import Verif.Spec.Quantized
import Verif.Lemmas.XR
import Verif.Props.MathUtils
import Mathlib.MeasureTheory.Measure.Dirac
import Mathlib.MeasureTheory.Function.Floor

/-! C32: `Quantized` is the law of the rounded-up, clipped base variable. -/

namespace Distrax

open MeasureTheory Set Spec XR

namespace Quantized

theorem quantize_le_iff (low high : Option ℝ) (x v : ℝ) : ((quantize low high x : ℤ) : ℝ) ≤ v ↔
    (match high with
     | none => False
     | some h => ⌊h⌋ ≤ ⌊v⌋) ∨ (x ≤ (⌊v⌋ : ℤ) ∧ match low with
     | none => True
     | some l => ⌈l⌉ ≤ ⌊v⌋) := by
  rw [← Int.le_floor]
  unfold quantize
  cases low <;> cases high <;> simp [Int.ceil_le] <;> tauto

theorem ifNotBelow_some {α : Type} {n m : ℤ} (a r : α) :
    ifNotBelow (some (m : ℝ)) (n : ℝ) a r = if m ≤ n then a else r := by
  show (if (n : ℝ) < (m : ℝ) then r else a) = _
  by_cases h : m ≤ n
  · rw [if_pos h, if_neg]; rw [not_lt]; exact_mod_cast h
  · rw [if_neg h, if_pos]; exact_mod_cast not_le.1 h

theorem ifBelow_some {α : Type} {n m : ℤ} (a r : α) :
    ifBelow (some (m : ℝ)) (n : ℝ) a r = if m ≤ n then r else a := by
  show (if (n : ℝ) < (m : ℝ) then a else r) = _
  by_cases h : m ≤ n
  · rw [if_pos h, if_neg]; rw [not_lt]; exact_mod_cast h
  · rw [if_neg h, if_pos]; exact_mod_cast not_le.1 h

/-- The three regimes of `cdf`-like methods. -/
theorem regimes (low high : Option ℝ) (v : ℝ) {α : Type} (one zero r : α) :
    let y : ℝ := (⌊v⌋ : ℤ)
    let res := ifNotBelow (high.map fun h => ((⌊h⌋ : ℤ) : ℝ)) y one (ifBelow (low.map fun l => ((⌈l⌉ : ℤ) : ℝ)) y zero r)
    ((∀ x, ((quantize low high x : ℤ) : ℝ) ≤ v) ∧ res = one) ∨
    ((∀ x, ¬ ((quantize low high x : ℤ) : ℝ) ≤ v) ∧ res = zero) ∨
    ((∀ x, ((quantize low high x : ℤ) : ℝ) ≤ v ↔ x ≤ (⌊v⌋ : ℤ)) ∧ res = r) := by
  simp only [quantize_le_iff]
  cases low with
  | none =>
    cases high with
    | none => right; right; simp [ifNotBelow, ifBelow]
    | some h =>
      simp only [Option.map_some, Option.map_none, ifNotBelow_some]
      by_cases hh : ⌊h⌋ ≤ ⌊v⌋ <;> simp [hh, ifBelow]
  | some l =>
    cases high with
    | none =>
      simp only [Option.map_some, Option.map_none, ifBelow_some]
      by_cases hl : ⌈l⌉ ≤ ⌊v⌋ <;> simp [hl, ifNotBelow]
    | some h =>
      simp only [Option.map_some, ifNotBelow_some, ifBelow_some]
      by_cases hh : ⌊h⌋ ≤ ⌊v⌋ <;> by_cases hl : ⌈l⌉ ≤ ⌊v⌋ <;> simp [hh, hl]

end Quantized

open Quantized

variable {μ : Measure ℝ} [IsProbabilityMeasure μ]

/-- `sample` is the documented quantisation of the base sample; it is an integer, within the cutoffs. -/
theorem C32_sample (b : Base) (low high eps : Option ℝ) (x : ℝ) :
    (Quantized.init b low high eps).sample x = (quantize low high x : ℤ) := by
  unfold Quantized.sample Quantized.init quantize
  cases low with
  | none =>
    cases high with
    | none => simp
    | some h =>
      simp only [Option.map_none, Option.map_some, gt_iff_lt, Int.cast_lt]
      by_cases hh : ⌊h⌋ < ⌈x⌉
      · rw [if_pos hh, min_eq_right hh.le]
      · rw [if_neg hh, min_eq_left (not_lt.1 hh)]
  | some l =>
    have hm : (if (⌈x⌉ : ℝ) < (⌈l⌉ : ℤ) then ((⌈l⌉ : ℤ) : ℝ) else ((⌈x⌉ : ℤ) : ℝ)) = ((max ⌈x⌉ ⌈l⌉ : ℤ) : ℝ) := by
      simp only [Int.cast_lt]
      by_cases hl : ⌈x⌉ < ⌈l⌉
      · rw [if_pos hl, max_eq_right hl.le]
      · rw [if_neg hl, max_eq_left (not_lt.1 hl)]
    simp only [Option.map_some]
    rw [hm]
    cases high with
    | none => simp
    | some h =>
      simp only [Option.map_some, gt_iff_lt, Int.cast_lt]
      by_cases hh : ⌊h⌋ < max ⌈x⌉ ⌈l⌉
      · rw [if_pos hh, min_eq_right hh.le]
      · rw [if_neg hh, min_eq_left (not_lt.1 hh)]

/-- `cdf` and `survival_function` are those of the quantised variable, for every base law, every pair of cutoffs
(given or not, integer or not) and every value; `log_cdf` and `log_survival_function` are their logarithms. -/
theorem C32_cdf (b : Base) (hb : BaseLaw b μ) (low high eps : Option ℝ) (v : ℝ) :
    let d := Quantized.init b low high eps
    d.cdf v = μ.real {x | ((quantize low high x : ℤ) : ℝ) ≤ v} ∧
    d.survival v = μ.real {x | v < ((quantize low high x : ℤ) : ℝ)} ∧
    d.logCdf v = XR.log (.fin (d.cdf v)) ∧ d.logSurvival v = XR.log (.fin (d.survival v)) := by
  intro d
  have e0 : {x | v < ((quantize low high x : ℤ) : ℝ)} = {x | ((quantize low high x : ℤ) : ℝ) ≤ v}ᶜ := by
    ext x; simp
  have l1 : XR.log (.fin 1) = .fin 0 := by rw [log_fin_pos one_pos, Real.log_one]
  have l0 : XR.log (.fin 0) = .ninf := log_fin_zero
  refine ⟨?_, ?_, ?_, ?_⟩
  · rcases regimes low high v (1 : ℝ) 0 (b.cdf (⌊v⌋ : ℤ)) with ⟨h, r⟩ | ⟨h, r⟩ | ⟨h, r⟩
    · rw [show d.cdf v = 1 from r, show {x | ((quantize low high x : ℤ) : ℝ) ≤ v} = univ by ext x; simpa using h x]; simp
    · rw [show d.cdf v = 0 from r, show {x | ((quantize low high x : ℤ) : ℝ) ≤ v} = ∅ by ext x; simpa using h x]; simp
    · rw [show d.cdf v = _ from r, hb.cdf, show {x | ((quantize low high x : ℤ) : ℝ) ≤ v} = Iic _ by ext x; exact h x]
  · rw [e0]
    rcases regimes low high v (0 : ℝ) 1 (b.survival (⌊v⌋ : ℤ)) with ⟨h, r⟩ | ⟨h, r⟩ | ⟨h, r⟩
    · rw [show d.survival v = 0 from r, show {x | ((quantize low high x : ℤ) : ℝ) ≤ v} = univ by ext x; simpa using h x]; simp
    · rw [show d.survival v = 1 from r, show {x | ((quantize low high x : ℤ) : ℝ) ≤ v} = ∅ by ext x; simpa using h x]; simp
    · rw [show d.survival v = _ from r, hb.survival,
        show {x | ((quantize low high x : ℤ) : ℝ) ≤ v} = Iic _ by ext x; exact h x, compl_Iic]
  · have hl : ∀ c : Prop, ∀ [Decidable c], ∀ a e : ℝ, XR.log (.fin (if c then a else e)) = if c then XR.log (.fin a) else XR.log (.fin e) := by
      intro c _ a e; split <;> rfl
    show ifNotBelow _ _ _ (ifBelow _ _ _ _) = XR.log (.fin (ifNotBelow _ _ _ (ifBelow _ _ _ _)))
    unfold ifNotBelow ifBelow
    cases d.high <;> cases d.low <;> simp only [hl, l1, l0, d, Quantized.init, hb.logCdf]
  · have hl : ∀ c : Prop, ∀ [Decidable c], ∀ a e : ℝ, XR.log (.fin (if c then a else e)) = if c then XR.log (.fin a) else XR.log (.fin e) := by
      intro c _ a e; split <;> rfl
    show ifNotBelow _ _ _ (ifBelow _ _ _ _) = XR.log (.fin (ifNotBelow _ _ _ (ifBelow _ _ _ _)))
    unfold ifNotBelow ifBelow
    cases d.high <;> cases d.low <;> simp only [hl, l1, l0, d, Quantized.init, hb.logSurvival]

theorem isInf_log {p : ℝ} (hp : 0 ≤ p) : isInf (XR.log (.fin p)) ↔ p = 0 := by
  rcases hp.lt_or_eq with h | rfl
  · rw [log_fin_pos h]; simp [isInf, h.ne']
  · simp [isInf]

theorem ltB_log {p q : ℝ} (hp : 0 ≤ p) (hq : 0 < q) : XR.ltB (XR.log (.fin p)) (XR.log (.fin q)) ↔ p < q := by
  rw [log_fin_pos hq]
  rcases hp.lt_or_eq with h | rfl
  · rw [log_fin_pos h]; exact Real.log_lt_log_iff h hq
  · rw [log_fin_zero]; simp [XR.ltB, hq]

theorem lemes_log {p q : ℝ} (hp : 0 ≤ p) (hq : 0 < q) (h : p ≤ q) :
    logExpbigMinusExpsmall (XR.log (.fin q)) (XR.log (.fin p)) = XR.log (.fin (q - p)) := by
  rw [log_fin_pos hq]
  rcases hp.lt_or_eq with h0 | rfl
  · rw [log_fin_pos h0, C17_log_exp_minus_exp (Real.log_le_log h0 h), Real.exp_log h0, Real.exp_log hq]
  · rw [log_fin_zero, C17_log_exp_minus_zero, sub_zero, log_fin_pos hq]

/-- The two-sided difference used by `log_prob` and `sample_and_log_prob`. -/
theorem twoSided {f1 f0 : ℝ} (h0 : 0 ≤ f0) (h01 : f0 ≤ f1) (h1 : f1 ≤ 1) (hp : 0 < f1) (hq : f0 < 1) :
    logExpbigMinusExpsmall
      (XR.sel (XR.ltB (XR.log (.fin (1 - f1))) (XR.log (.fin f1))) (XR.log (.fin (1 - f0))) (XR.log (.fin f1)))
      (XR.sel (XR.ltB (XR.log (.fin (1 - f1))) (XR.log (.fin f1))) (XR.log (.fin (1 - f1))) (XR.log (.fin f0))) =
    XR.log (.fin (f1 - f0)) := by
  unfold XR.sel
  simp only [ltB_log (sub_nonneg.2 h1) hp]
  split
  · rw [lemes_log (by linarith) (by linarith) (by linarith)]; congr 2; ring
  · rw [lemes_log h0 hp h01]

variable (b : Base) (hb : BaseLaw b μ) (low high eps : Option ℝ)

theorem measurable_quantize : Measurable (quantize low high) := by
  unfold quantize
  have hc : Measurable (fun x : ℝ => ⌈x⌉) := Int.measurable_ceil
  cases low with
  | none =>
    cases high with
    | none => exact hc
    | some h => exact hc.min measurable_const
  | some l =>
    cases high with
    | none => exact hc.max measurable_const
    | some h => exact (hc.max measurable_const).min measurable_const

omit [IsProbabilityMeasure μ] in
theorem cdfset_diff (v : ℝ) (hv : ¬ v > (⌊v⌋ : ℤ)) :
    {x | ((quantize low high x : ℤ) : ℝ) = v} =
      {x | ((quantize low high x : ℤ) : ℝ) ≤ v} \ {x | ((quantize low high x : ℤ) : ℝ) ≤ v - 1} := by
  have hv' : v = (⌊v⌋ : ℤ) := le_antisymm (not_lt.1 hv) (Int.floor_le v)
  ext x
  generalize quantize low high x = q
  rw [hv']
  generalize ⌊v⌋ = n
  simp only [Set.mem_ofPred_eq, Set.mem_sdiff]
  have : ((n : ℝ) - 1) = ((n - 1 : ℤ) : ℝ) := by push_cast; ring
  rw [this]
  norm_cast
  omega

theorem measSet_le (v : ℝ) : MeasurableSet {x | ((quantize low high x : ℤ) : ℝ) ≤ v} :=
  measurableSet_le ((measurable_of_countable (fun n : ℤ => (n : ℝ))).comp (measurable_quantize low high)) measurable_const

theorem cdf_facts (v : ℝ) :
    let F := fun v => μ.real {x | ((quantize low high x : ℤ) : ℝ) ≤ v}
    0 ≤ F (v - 1) ∧ F (v - 1) ≤ F v ∧ F v ≤ 1 ∧
    (∀ w, μ.real {x | w < ((quantize low high x : ℤ) : ℝ)} = 1 - F w) ∧
    (¬ v > (⌊v⌋ : ℤ) → μ.real {x | ((quantize low high x : ℤ) : ℝ) = v} = F v - F (v - 1)) := by
  intro F
  have hsub : {x | ((quantize low high x : ℤ) : ℝ) ≤ v - 1} ⊆ {x | ((quantize low high x : ℤ) : ℝ) ≤ v} := by
    intro x hx; exact le_trans (show _ ≤ v - 1 from hx) (by linarith)
  refine ⟨measureReal_nonneg, measureReal_mono hsub, measureReal_le_one, ?_, ?_⟩
  · intro w
    have e0 : {x | w < ((quantize low high x : ℤ) : ℝ)} = {x | ((quantize low high x : ℤ) : ℝ) ≤ w}ᶜ := by
      ext x; simp
    rw [e0, probReal_compl_eq_one_sub (measSet_le low high w)]
  · intro hv
    rw [cdfset_diff low high v hv, measureReal_sdiff hsub (measSet_le low high _)]

theorem not_int {v : ℝ} (hv : v > (⌊v⌋ : ℤ)) : {x | ((quantize low high x : ℤ) : ℝ) = v} = ∅ := by
  ext x
  simp only [Set.mem_ofPred_eq, Set.mem_empty_iff_false, iff_false]
  rintro rfl
  simp at hv

include hb

/-- `prob(v)` is the probability that the quantised variable equals `v`: every base law, every cutoffs, every real `v`
(so 0 off the integers and outside the cutoffs). -/
theorem C32_prob (v : ℝ) :
    (Quantized.init b low high eps).prob v = μ.real {x | ((quantize low high x : ℤ) : ℝ) = v} := by
  obtain ⟨c1, s1, -, -⟩ := C32_cdf b hb low high eps v
  obtain ⟨c0, s0, -, -⟩ := C32_cdf b hb low high eps (v - 1)
  obtain ⟨-, -, -, hs, hd⟩ := cdf_facts (μ := μ) low high v
  unfold Quantized.prob
  simp only [c1, s1, c0, s0, hs]
  by_cases hv : v > (⌊v⌋ : ℤ)
  · rw [if_pos hv, not_int low high hv]; simp
  · rw [if_neg hv, hd hv]
    split <;> ring

/-- Without `eps`, `log_prob` is `log prob` at every real value, with `-inf` (never nan) where `prob` is 0. -/
theorem C32_log_prob (v : ℝ) :
    (Quantized.init b low high none).logProb v =
      XR.log (.fin (μ.real {x | ((quantize low high x : ℤ) : ℝ) = v})) := by
  obtain ⟨c1, s1, lc1, ls1⟩ := C32_cdf b hb low high none v
  obtain ⟨c0, s0, lc0, ls0⟩ := C32_cdf b hb low high none (v - 1)
  obtain ⟨h0, h01, h1, hs, hd⟩ := cdf_facts (μ := μ) low high v
  have hL : isInf ((Quantized.init b low high none).logCdf v) ↔
      μ.real {x | ((quantize low high x : ℤ) : ℝ) ≤ v} = 0 := by
    rw [lc1, c1]; exact isInf_log (h0.trans h01)
  have hS : isInf ((Quantized.init b low high none).logSurvival (v - 1)) ↔
      1 - μ.real {x | ((quantize low high x : ℤ) : ℝ) ≤ v - 1} = 0 := by
    rw [ls0, s0, hs]; exact isInf_log (by dsimp only at h01 h1 ⊢; linarith)
  dsimp only at h0 h01 h1 hd
  unfold Quantized.logProb
  dsimp only
  by_cases hout : isInf ((Quantized.init b low high none).logCdf v) ∨ isInf ((Quantized.init b low high none).logSurvival (v - 1))
  · rw [if_pos hout]
    by_cases hv : v > (⌊v⌋ : ℤ)
    · rw [not_int low high hv]; simp
    · rw [hd hv]
      have : μ.real {x | ((quantize low high x : ℤ) : ℝ) ≤ v} - μ.real {x | ((quantize low high x : ℤ) : ℝ) ≤ v - 1} = 0 := by
        rcases hout with h | h
        · have := hL.1 h; linarith
        · have := hS.1 h; linarith
      rw [this, log_fin_zero]
  · rw [if_neg hout]
    by_cases hv : v > (⌊v⌋ : ℤ)
    · rw [if_pos hv, not_int low high hv]; simp
    · rw [if_neg hv, hd hv]
      rw [not_or, hL, hS] at hout
      rw [lc1, ls1, lc0, ls0, c1, s1, c0, s0, hs, hs]
      exact twoSided h0 h01 h1 (lt_of_le_of_ne (h0.trans h01) (Ne.symm hout.1))
        (lt_of_le_of_ne (h01.trans h1) fun h => hout.2 (by linarith))

/-- The probabilities of the integers sum to one. -/
theorem C32_total : HasSum (fun n : ℤ => (Quantized.init b low high eps).prob n) 1 := by
  simp only [C32_prob b hb low high eps]
  have hU : (⋃ n : ℤ, {x | ((quantize low high x : ℤ) : ℝ) = n}) = univ := by
    ext x; simp
  have hsum := measure_iUnion (μ := μ) (f := fun n : ℤ => {x | ((quantize low high x : ℤ) : ℝ) = n})
    (by
      intro i j hij
      refine Set.disjoint_left.2 fun x hx hx' => hij ?_
      have := (show ((quantize low high x : ℤ) : ℝ) = i from hx).symm.trans hx'
      exact_mod_cast this)
    (fun n => by
      have : {x | ((quantize low high x : ℤ) : ℝ) = (n : ℝ)} = quantize low high ⁻¹' {n} := by ext x; simp
      rw [this]; exact measurable_quantize low high (measurableSet_singleton n))
  rw [hU, measure_univ] at hsum
  have h := ENNReal.hasSum_toReal (f := fun n : ℤ => μ {x | ((quantize low high x : ℤ) : ℝ) = n}) (by rw [← hsum]; simp)
  rw [← ENNReal.tsum_toReal_eq (fun n => measure_ne_top _ _), ← hsum] at h
  simpa [Measure.real] using h

/-- `sample_and_log_prob` returns the sample of `sample` together with the log of its probability, for every base draw
whose quantised value has positive probability -/
theorem C32_sample_and_log_prob (x : ℝ)
    (hpos : 0 < (Quantized.init b low high eps).prob ((Quantized.init b low high eps).sample x)) :
    let d := Quantized.init b low high eps
    d.sampleAndLogProb x = (d.sample x, XR.log (.fin (d.prob (d.sample x)))) := by
  intro d
  have hs : d.sample x = (quantize low high x : ℤ) := C32_sample b low high eps x
  rw [C32_prob b hb low high eps] at hpos
  show (d.sample x, _) = _
  congr 1
  rw [C32_prob b hb low high eps]
  change 0 < μ.real {y | ((quantize low high y : ℤ) : ℝ) = d.sample x} at hpos
  rw [hs] at hpos ⊢
  have hint : ∀ n : ℤ, ¬ ((n : ℝ) > (⌊(n : ℝ)⌋ : ℤ)) := fun n => by simp
  have hm1 : ∀ n : ℤ, (n : ℝ) - 1 = ((n - 1 : ℤ) : ℝ) := fun n => by push_cast; ring
  -- the four quantities are the methods' values at the sample
  have hge : ∀ l, low = some l → ∀ h, high = some h → ⌈l⌉ ≤ quantize low high x ∨ ⌊h⌋ ≤ quantize low high x := by
    rintro l rfl h rfl; simp only [quantize]; omega
  have hge' : ∀ l, low = some l → high = none → ⌈l⌉ ≤ quantize low high x := by
    rintro l rfl rfl; simp only [quantize]; omega
  have hle : ∀ h, high = some h → quantize low high x ≤ ⌊h⌋ := by
    rintro h rfl; cases low <;> simp only [quantize] <;> omega
  have up : ∀ {α : Type} (a r c : α), ifNotBelow d.high ((quantize low high x : ℤ) : ℝ) a r =
      ifNotBelow d.high ((⌊((quantize low high x : ℤ) : ℝ)⌋ : ℤ) : ℝ) a
        (ifBelow d.low ((⌊((quantize low high x : ℤ) : ℝ)⌋ : ℤ) : ℝ) c r) := by
    intro α a r c
    rw [Int.floor_intCast]
    cases low with
    | none => rfl
    | some l =>
      cases high with
      | none =>
        have := hge' l rfl rfl
        show r = ifBelow (some ((⌈l⌉ : ℤ) : ℝ)) _ _ _
        rw [ifBelow_some, if_pos this]
      | some h =>
        show ifNotBelow (some ((⌊h⌋ : ℤ) : ℝ)) _ _ _ = ifNotBelow (some ((⌊h⌋ : ℤ) : ℝ)) _ _ (ifBelow (some ((⌈l⌉ : ℤ) : ℝ)) _ _ _)
        rw [ifBelow_some, ifNotBelow_some, ifNotBelow_some]
        have := hge l rfl h rfl
        split_ifs <;> first | rfl | omega
  have dn : ∀ {α : Type} (a r c : α), ifBelow d.low (((quantize low high x : ℤ) : ℝ) - 1) c r =
      ifNotBelow d.high ((⌊((quantize low high x : ℤ) : ℝ) - 1⌋ : ℤ) : ℝ) a
        (ifBelow d.low ((⌊((quantize low high x : ℤ) : ℝ) - 1⌋ : ℤ) : ℝ) c r) := by
    intro α a r c
    rw [hm1, Int.floor_intCast]
    cases high with
    | none => rfl
    | some h =>
      have := hle h rfl
      show _ = ifNotBelow (some ((⌊h⌋ : ℤ) : ℝ)) _ _ _
      rw [ifNotBelow_some, if_neg (by omega)]
  have e1 := up (.fin 0) (b.logCdf ((quantize low high x : ℤ) : ℝ)) .ninf
  have e2 := up .ninf (b.logSurvival ((quantize low high x : ℤ) : ℝ)) (.fin 0)
  have e3 := dn (.fin 0) (b.logCdf (((quantize low high x : ℤ) : ℝ) - 1)) .ninf
  have e4 := dn .ninf (b.logSurvival (((quantize low high x : ℤ) : ℝ) - 1)) (.fin 0)
  have f1 : ((⌊((quantize low high x : ℤ) : ℝ)⌋ : ℤ) : ℝ) = ((quantize low high x : ℤ) : ℝ) := by rw [Int.floor_intCast]
  have f0 : ((⌊((quantize low high x : ℤ) : ℝ) - 1⌋ : ℤ) : ℝ) = ((quantize low high x : ℤ) : ℝ) - 1 := by
    rw [hm1, Int.floor_intCast]
  have g1 : ifNotBelow d.high ((quantize low high x : ℤ) : ℝ) (.fin 0) (d.base.logCdf ((quantize low high x : ℤ) : ℝ)) =
      d.logCdf ((quantize low high x : ℤ) : ℝ) := by
    unfold Quantized.logCdf; simp only [f1] at e1 ⊢; exact e1
  have g2 : ifNotBelow d.high ((quantize low high x : ℤ) : ℝ) .ninf (d.base.logSurvival ((quantize low high x : ℤ) : ℝ)) =
      d.logSurvival ((quantize low high x : ℤ) : ℝ) := by
    unfold Quantized.logSurvival; simp only [f1] at e2 ⊢; exact e2
  have g3 : ifBelow d.low (((quantize low high x : ℤ) : ℝ) - 1) .ninf (d.base.logCdf (((quantize low high x : ℤ) : ℝ) - 1)) =
      d.logCdf (((quantize low high x : ℤ) : ℝ) - 1) := by
    unfold Quantized.logCdf; simp only [f0] at e3 ⊢; exact e3
  have g4 : ifBelow d.low (((quantize low high x : ℤ) : ℝ) - 1) (.fin 0) (d.base.logSurvival (((quantize low high x : ℤ) : ℝ) - 1)) =
      d.logSurvival (((quantize low high x : ℤ) : ℝ) - 1) := by
    unfold Quantized.logSurvival; simp only [f0] at e4 ⊢; exact e4
  rw [g1, g2, g3, g4]
  generalize quantize low high x = q at hpos ⊢
  obtain ⟨c1, s1, lc1, ls1⟩ := C32_cdf b hb low high eps q
  obtain ⟨c0, s0, lc0, ls0⟩ := C32_cdf b hb low high eps ((q : ℝ) - 1)
  obtain ⟨h0, h01, h1, hss, hd⟩ := cdf_facts (μ := μ) low high (q : ℝ)
  dsimp only at h0 h01 h1 hd
  rw [hd (hint q)] at hpos ⊢
  rw [lc1, ls1, lc0, ls0, c1, s1, c0, s0, hss, hss]
  exact twoSided h0 h01 h1 (by linarith) (by linarith)

/-- ... and almost every base draw is of that kind; so without `eps` the pair is `(s, log_prob(s))` almost surely. -/
theorem C32_sample_and_log_prob_ae :
    ∀ᵐ x ∂μ, let d := Quantized.init b low high none
      d.sampleAndLogProb x = (d.sample x, d.logProb (d.sample x)) := by
  have hnull : ∀ᵐ x ∂μ, ∀ n : ℤ, quantize low high x = n → 0 < (Quantized.init b low high none).prob n := by
    rw [ae_all_iff]
    intro n
    by_cases hn : 0 < (Quantized.init b low high none).prob n
    · exact Filter.Eventually.of_forall fun x _ => hn
    · have h0 : μ.real {x | ((quantize low high x : ℤ) : ℝ) = n} = 0 := by
        rw [C32_prob b hb low high none] at hn
        exact le_antisymm (not_lt.1 hn) measureReal_nonneg
      rw [measureReal_eq_zero_iff] at h0
      filter_upwards [measure_eq_zero_iff_ae_notMem.1 h0] with x hx hq
      exact absurd (by rw [hq]) hx
  filter_upwards [hnull] with x hx
  have hpos := hx _ rfl
  rw [← C32_sample b low high none x] at hpos
  have := C32_sample_and_log_prob b hb low high none x hpos
  intro d
  rw [this, C32_log_prob b hb low high, ← C32_prob b hb low high none]

/-- With a positive `eps`, `log_prob` is finite at every integer that is not outside the support (where `prob` may even
vanish), and is exactly `log prob` when the two log terms it subtracts differ by more than `eps`. -/
theorem C32_eps {e : ℝ} (he : 0 < e) (n : ℤ) (hin : 0 < (Quantized.init b low high (some e)).cdf n)
    (hin' : 0 < (Quantized.init b low high (some e)).survival ((n : ℝ) - 1)) :
    let d := Quantized.init b low high (some e)
    ∃ r, d.logProb n = .fin r ∧
      Real.exp r = if d.survival n < d.cdf n
        then max (d.survival (n - 1)) (d.survival n * Real.exp e) - d.survival n
        else max (d.cdf n) (d.cdf (n - 1) * Real.exp e) - d.cdf (n - 1) := by
  intro d
  obtain ⟨c1, s1, lc1, ls1⟩ := C32_cdf b hb low high (some e) n
  obtain ⟨c0, s0, lc0, ls0⟩ := C32_cdf b hb low high (some e) ((n : ℝ) - 1)
  have hee : 1 < Real.exp e := Real.one_lt_exp_iff.2 he
  have key : ∀ p q : ℝ, 0 ≤ p → 0 < q → ∃ r,
      logExpbigMinusExpsmall (XR.sel (XR.ltB (.fin e) (XR.log (.fin q) - XR.log (.fin p))) (XR.log (.fin q))
        (XR.log (.fin p) + .fin e)) (XR.log (.fin p)) = .fin r ∧ Real.exp r = max q (p * Real.exp e) - p := by
    intro p q hp hq
    rcases hp.lt_or_eq with hp | rfl
    · rw [log_fin_pos hp, log_fin_pos hq]
      have hmax : XR.sel (XR.ltB (.fin e) (.fin (Real.log q) - .fin (Real.log p))) (.fin (Real.log q)) (.fin (Real.log p) + .fin e) =
          .fin (Real.log (max q (p * Real.exp e))) := by
        have hlt : XR.ltB (.fin e) (.fin (Real.log q) - .fin (Real.log p)) ↔ p * Real.exp e < q := by
          show e < Real.log q + -Real.log p ↔ _
          rw [← Real.exp_lt_exp (x := e), Real.exp_add, Real.exp_neg, Real.exp_log hq, Real.exp_log hp, ← div_eq_mul_inv,
            lt_div_iff₀ hp, mul_comm]
        unfold XR.sel
        by_cases h : p * Real.exp e < q
        · rw [if_pos (hlt.2 h), max_eq_left h.le]
        · rw [if_neg (fun h' => h (hlt.1 h')), max_eq_right (not_lt.1 h), Real.log_mul hp.ne' (Real.exp_pos e).ne', Real.log_exp]; rfl
      have hpm : p < max q (p * Real.exp e) := lt_of_lt_of_le (by nlinarith) (le_max_right _ _)
      have hm : 0 < max q (p * Real.exp e) := hp.trans hpm
      rw [hmax, C17_log_exp_minus_exp (Real.log_le_log hp hpm.le), Real.exp_log hp, Real.exp_log hm, log_fin_pos (sub_pos.2 hpm)]
      exact ⟨_, rfl, Real.exp_log (sub_pos.2 hpm)⟩
    · rw [log_fin_zero, log_fin_pos hq]
      have : XR.sel (XR.ltB (.fin e) (.fin (Real.log q) - .ninf)) (.fin (Real.log q)) (.ninf + .fin e) = .fin (Real.log q) := by
        unfold XR.sel; exact if_pos (by simp [XR.ltB])
      rw [this, C17_log_exp_minus_zero]
      exact ⟨_, rfl, by rw [Real.exp_log hq]; simp [hq.le]⟩
  have hn : ¬ ((n : ℝ) > (⌊(n : ℝ)⌋ : ℤ)) := by simp
  have hL : ¬ (isInf (d.logCdf n) ∨ isInf (d.logSurvival ((n : ℝ) - 1))) := by
    show ¬ (isInf ((Quantized.init b low high (some e)).logCdf n) ∨ isInf ((Quantized.init b low high (some e)).logSurvival ((n : ℝ) - 1)))
    rw [lc1, ls0, isInf_log hin.le, isInf_log hin'.le]
    rintro (h | h) <;> linarith
  unfold Quantized.logProb
  dsimp only
  rw [if_neg hL, if_neg hn]
  change ∃ r, logExpbigMinusExpsmall (XR.sel (XR.ltB (.fin e) _) _ _) _ = _ ∧ _
  have hlt : XR.ltB (d.logSurvival n) (d.logCdf n) ↔ d.survival n < d.cdf n := by
    show XR.ltB ((Quantized.init b low high (some e)).logSurvival n) ((Quantized.init b low high (some e)).logCdf n) ↔ _
    rw [lc1, ls1]; exact ltB_log (by rw [s1]; exact measureReal_nonneg) hin
  by_cases h : d.survival n < d.cdf n
  · have hs : ∀ a c : XR, XR.sel (XR.ltB (d.logSurvival n) (d.logCdf n)) a c = a := fun a c => if_pos (hlt.2 h)
    rw [hs, hs, if_pos h]
    show ∃ r, logExpbigMinusExpsmall (XR.sel (XR.ltB (.fin e) ((Quantized.init b low high (some e)).logSurvival ((n : ℝ) - 1) -
      (Quantized.init b low high (some e)).logSurvival n)) ((Quantized.init b low high (some e)).logSurvival ((n : ℝ) - 1))
      ((Quantized.init b low high (some e)).logSurvival n + .fin e)) ((Quantized.init b low high (some e)).logSurvival n) = _ ∧ _
    rw [ls0, ls1]
    exact key _ _ (by rw [s1]; exact measureReal_nonneg) hin'
  · have hs : ∀ a c : XR, XR.sel (XR.ltB (d.logSurvival n) (d.logCdf n)) a c = c := fun a c => if_neg (fun h' => h (hlt.1 h'))
    rw [hs, hs, if_neg h]
    show ∃ r, logExpbigMinusExpsmall (XR.sel (XR.ltB (.fin e) ((Quantized.init b low high (some e)).logCdf n -
      (Quantized.init b low high (some e)).logCdf ((n : ℝ) - 1))) ((Quantized.init b low high (some e)).logCdf n)
      ((Quantized.init b low high (some e)).logCdf ((n : ℝ) - 1) + .fin e)) ((Quantized.init b low high (some e)).logCdf ((n : ℝ) - 1)) = _ ∧ _
    rw [lc0, lc1]
    exact key _ _ (by rw [c0]; exact measureReal_nonneg) hin

/-- Finding: `sample_and_log_prob` and slicing ignore `eps`. For every base law, every integer with positive
probability and mass on both sides, there is an `eps` for which the log-probability returned with a sample, and that of
the sliced distribution, differ from `log_prob`. -/
theorem C32_eps_forgotten (n : ℤ) (hp : 0 < (Quantized.init b low high none).prob n)
    (hF : 0 < (Quantized.init b low high none).cdf ((n : ℝ) - 1)) (hS : 0 < (Quantized.init b low high none).survival n) :
    ∃ e, 0 < e ∧ let d := Quantized.init b low high (some e)
      (∀ x, d.sample x = n → (d.sampleAndLogProb x).2 ≠ d.logProb (d.sample x)) ∧
      d.getItem.eps = none ∧
      (Quantized.init b low high none).logProb n ≠ d.logProb n := by
  set F1 := (Quantized.init b low high none).cdf n with hF1
  set F0 := (Quantized.init b low high none).cdf ((n : ℝ) - 1) with hF0
  set S1 := (Quantized.init b low high none).survival n with hS1
  set S0 := (Quantized.init b low high none).survival ((n : ℝ) - 1) with hS0
  obtain ⟨c1, s1, lc1, ls1⟩ := C32_cdf b hb low high none n
  obtain ⟨c0, s0, lc0, ls0⟩ := C32_cdf b hb low high none ((n : ℝ) - 1)
  obtain ⟨h0, h01, h1, hss, hd⟩ := cdf_facts (μ := μ) low high (n : ℝ)
  have hn : ¬ ((n : ℝ) > (⌊(n : ℝ)⌋ : ℤ)) := by simp
  rw [hss] at s1 s0
  dsimp only at h0 h01 h1 hd s1 s0
  have hpe : (Quantized.init b low high none).prob n = F1 - F0 := by
    rw [C32_prob b hb low high none, hd hn, hF1, hF0, c1, c0]
  have hx1 : F1 + S1 = 1 := by rw [hF1, hS1, c1, s1]; ring
  have hx0 : F0 + S0 = 1 := by rw [hF0, hS0, c0, s0]; ring
  set m := min S1 F0 with hm
  have hm0 : 0 < m := lt_min hS hF
  have hm1 : m ≤ S1 := min_le_left _ _
  have hm2 : m ≤ F0 := min_le_right _ _
  have he1 : 1 < 1 + 2 / m := by have : 0 < 2 / m := by positivity
                                 linarith
  refine ⟨Real.log (1 + 2 / m), Real.log_pos he1, ?_⟩
  have hexp : Real.exp (Real.log (1 + 2 / m)) = 1 + 2 / m := Real.exp_log (by linarith)
  intro d
  have hF1p : 0 < F1 := by linarith
  have hS0p : 0 < S0 := by linarith
  obtain ⟨r, hr, her⟩ := C32_eps b hb low high (Real.log_pos he1) n hF1p hS0p
  have hgt : 1 < Real.exp r := by
    rw [her, hexp]
    have k : ∀ q, m ≤ q → 2 ≤ q * (1 + 2 / m) - q := by
      intro q hq
      have : q * (1 + 2 / m) - q = 2 * (q / m) := by field_simp; ring
      rw [this]
      have : 1 ≤ q / m := (one_le_div hm0).2 hq
      linarith
    split
    · have := k S1 hm1
      have := le_max_right S0 (S1 * (1 + 2 / m))
      change 1 < max S0 (S1 * (1 + 2 / m)) - S1
      linarith
    · have := k F0 hm2
      have := le_max_right F1 (F0 * (1 + 2 / m))
      change 1 < max F1 (F0 * (1 + 2 / m)) - F0
      linarith
  have hple : (Quantized.init b low high none).prob n ≤ 1 := by
    rw [C32_prob b hb low high none]; exact measureReal_le_one
  have hne : XR.log (.fin ((Quantized.init b low high none).prob n)) ≠ d.logProb n := by
    rw [show d.logProb n = .fin r from hr, log_fin_pos hp]
    intro h
    injection h with h
    rw [← h, Real.exp_log hp] at hgt
    linarith
  refine ⟨fun x hx => ?_, rfl, ?_⟩
  · have hp' : 0 < d.prob (d.sample x) := by rw [hx]; exact hp
    have := C32_sample_and_log_prob b hb low high (some (Real.log (1 + 2 / m))) x hp'
    rw [show d.sampleAndLogProb x = _ from this]
    show XR.log (.fin (d.prob (d.sample x))) ≠ _
    rw [hx]
    exact hne
  · rw [C32_log_prob b hb low high, ← C32_prob b hb low high none]
    exact hne

omit hb in
/-- The constructor rejects a non-scalar event and cutoffs of higher rank than the batch, and nothing else; slicing
without `eps` keeps the distribution (the cutoffs are already integral). -/
theorem C32_ctor (event batch : List ℕ) (lo hi : Option (List ℕ)) :
    (Quantized.checkShapes event batch lo hi = .ok () ↔
      event = [] ∧ (∀ l, lo = some l → l.length ≤ batch.length) ∧ ∀ h, hi = some h → h.length ≤ batch.length) ∧
    (Quantized.init b low high none).getItem = Quantized.init b low high none := by
  constructor
  · unfold Quantized.checkShapes
    cases lo <;> cases hi <;> by_cases he : event = [] <;> simp [he] <;> (split_ifs <;> simp_all)
  · unfold Quantized.getItem Quantized.init
    cases low <;> cases high <;> simp

/-- The object holding the distribution functions of a law. -/
noncomputable def Base.ofLaw (μ : Measure ℝ) : Base where
  logProb := fun _ => .fin 0
  cdf x := μ.real (Iic x)
  survival x := μ.real (Ioi x)
  logCdf x := XR.log (.fin (μ.real (Iic x)))
  logSurvival x := XR.log (.fin (μ.real (Ioi x)))

omit hb [IsProbabilityMeasure μ] in
theorem Base.ofLaw_law : BaseLaw (Base.ofLaw μ) μ := ⟨fun _ => rfl, fun _ => rfl, fun _ => rfl, fun _ => rfl⟩

/-- Non-vacuity: every law is a base law; a fair three-point law meets the hypotheses of all theorems above. -/
noncomputable def threePoint : Measure ℝ :=
  (1 / 3 : ENNReal) • (Measure.dirac (1 / 2 : ℝ) + Measure.dirac (3 / 2) + Measure.dirac (5 / 2))

instance : IsProbabilityMeasure threePoint := by
  refine ⟨?_⟩
  simp only [threePoint, Measure.smul_apply, Measure.add_apply, measure_univ, smul_eq_mul]
  rw [show (1 + 1 + 1 : ENNReal) = 3 by norm_num, ENNReal.div_mul_cancel] <;> simp

omit hb [IsProbabilityMeasure μ] in
theorem threePoint_real (s : Set ℝ) (hs : MeasurableSet s) : threePoint.real s =
    1 / 3 * (s.indicator 1 (1 / 2) + s.indicator 1 (3 / 2) + s.indicator 1 (5 / 2)) := by
  simp only [threePoint, measureReal_ennreal_smul_apply]
  rw [measureReal_add_apply, measureReal_add_apply]
  simp only [Measure.real, Measure.dirac_apply' _ hs]
  simp only [Set.indicator]
  split_ifs <;> simp

example : let d := Quantized.init (Base.ofLaw threePoint) none none none
    0 < d.prob (2 : ℤ) ∧ 0 < d.cdf (((2 : ℤ) : ℝ) - 1) ∧ 0 < d.survival ((2 : ℤ) : ℝ) ∧ d.sample (5 / 4) = 2 := by
  intro d
  have c2 : d.cdf ((2 : ℤ) : ℝ) = 2 / 3 := by
    show threePoint.real (Iic ((⌊((2 : ℤ) : ℝ)⌋ : ℤ) : ℝ)) = _
    rw [threePoint_real _ measurableSet_Iic, Int.floor_intCast]
    norm_num [Set.indicator]
  have c1 : d.cdf (((2 : ℤ) : ℝ) - 1) = 1 / 3 := by
    show threePoint.real (Iic ((⌊((2 : ℤ) : ℝ) - 1⌋ : ℤ) : ℝ)) = _
    rw [threePoint_real _ measurableSet_Iic, show ((2 : ℤ) : ℝ) - 1 = ((1 : ℤ) : ℝ) by norm_num, Int.floor_intCast]
    norm_num [Set.indicator]
  have s2 : d.survival ((2 : ℤ) : ℝ) = 1 / 3 := by
    show threePoint.real (Ioi ((⌊((2 : ℤ) : ℝ)⌋ : ℤ) : ℝ)) = _
    rw [threePoint_real _ measurableSet_Ioi, Int.floor_intCast]
    norm_num [Set.indicator]
  have s1 : d.survival (((2 : ℤ) : ℝ) - 1) = 2 / 3 := by
    show threePoint.real (Ioi ((⌊((2 : ℤ) : ℝ) - 1⌋ : ℤ) : ℝ)) = _
    rw [threePoint_real _ measurableSet_Ioi, show ((2 : ℤ) : ℝ) - 1 = ((1 : ℤ) : ℝ) by norm_num, Int.floor_intCast]
    norm_num [Set.indicator]
  refine ⟨?_, by rw [c1]; norm_num, by rw [s2]; norm_num, ?_⟩
  · unfold Quantized.prob
    simp only [c2, c1, s2, s1]
    norm_num
  · show ((⌈(5 / 4 : ℝ)⌉ : ℤ) : ℝ) = 2
    rw [show ⌈(5 / 4 : ℝ)⌉ = 2 by rw [Int.ceil_eq_iff]; norm_num]; norm_num

end Distrax
