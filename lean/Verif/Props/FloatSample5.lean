import Verif.Props.FloatSample4

/-!
C78: sampling in floating point (fifth part: what the samples and joint log-probabilities are, for `Logistic`, `Categorical`, `Transformed`).
-/

namespace Distrax

open XR FX Spec

variable {F : Fmt} {u η : ℝ}

/-- C78: a `Logistic` sample is `loc + scale * logit(draw)` up to rounding. -/
theorem C78_logistic (A : F.Acc u η) (u0 : 0 < u) (d : LS F) {w : FX F} {m s x K : ℝ} (hm : d.loc.1 = fin m) (hs : d.scale.1 = fin s) (s0 : 0 < s)
    (hw : w.1 = fin x) (hd : OpenUnitDraw u w) (hf : (FSample.logistic d w).finite) (hK : K = 4 * |Real.log x| + 4 * |Real.log (1 - x)| + 1) :
    (FSample.logistic d w).Within (m + s * Real.log (x / (1 - x))) (u * (7 * (s * K) + |m|) + 2 * η) := by
  obtain ⟨n, hn, bn⟩ := C78_logistic_noise A u0 hw hd
  obtain ⟨S, hS, bS⟩ := loc_scale_sample A hm hs s0 hn hf
  obtain ⟨x', hx', x0, x1⟩ := hd
  obtain rfl : x' = x := by rw [hw] at hx'; exact (fin.inj hx').symm
  rw [← hK] at bn
  refine ⟨S, hS, ?_⟩
  set L := Real.log (x' / (1 - x')) with hL
  have a1 := _root_.abs_nonneg (Real.log x')
  have a2 := _root_.abs_nonneg (Real.log (1 - x'))
  have LK : |L| ≤ K := by
    rw [hL, Real.log_div x0.ne' (by linarith), hK]
    have := abs_sub (Real.log x') (Real.log (1 - x'))
    linarith
  have K0 : 0 ≤ K := (_root_.abs_nonneg L).trans LK
  have nK : |n| ≤ 2 * K := by
    have h1 := abs_sub_abs_le_abs_sub n L
    have h2 : u * K ≤ 1 * K := mul_le_mul_of_nonneg_right (by have := A.u_le; linarith) K0
    linarith
  have e : S - (m + s * L) = (S - (m + s * n)) + s * (n - L) := by ring
  rw [e]
  refine (abs_add_le _ _).trans ?_
  rw [abs_mul, abs_of_pos s0]
  have h3 := mul_le_mul_of_nonneg_left bn s0.le
  have h4 := mul_le_mul_of_nonneg_left (mul_le_mul_of_nonneg_left nK s0.le) u0.le
  linarith

/-- C78: the category drawn has the largest perturbed logit (the Gumbel-max rule), and is the first such. -/
theorem C78_gumbel_max {n : ℕ} (l g : Fin (n + 1) → FX F) (hl : FloatLogits l) (hg : ∀ i, (g i).finite) :
    (∀ j, g j + l j ≤ g (FSample.categorical l g) + l (FSample.categorical l g)) ∧
    ∀ j < FSample.categorical l g, ¬ g (FSample.categorical l g) + l (FSample.categorical l g) ≤ g j + l j := by
  classical
  have num : ∀ i, (g i + l i).Num := fun i => add_num_fin (hg i) (by
    rcases hl.1 i with h | h
    · exact h.num
    · intro c; change (l i).1 = nan at c; rw [h] at c; cases c)
  have hmax := FVit.le_argmax (fun i => g i + l i) num
  refine ⟨hmax, fun j hj hle => ?_⟩
  have pj : ∀ k, g k + l k ≤ g j + l j := fun k => (hmax k).tr hle
  obtain ⟨a, ha⟩ : ∃ a, (List.finRange (n + 1)).find? (fun i => decide ((g i + l i).isNan ∨ ∀ j, g j + l j ≤ g i + l i)) = some a := by
    refine Option.isSome_iff_exists.1 (List.find?_isSome.2 ⟨j, List.mem_finRange j, ?_⟩)
    exact decide_eq_true (Or.inr pj)
  have e : FSample.categorical l g = a := by
    have := congrArg (fun o : Option (Fin (n + 1)) => o.getD 0) ha
    unfold FSample.categorical FVit.argmax
    convert this
    rfl
  rw [e] at hj
  rw [List.find?_eq_some_iff_getElem] at ha
  obtain ⟨-, i, hi, ei, hbefore⟩ := ha
  have iv : (a : ℕ) = i := by rw [← ei]; simp
  have := hbefore j (by rw [← iv]; exact hj)
  simp [pj] at this

/-- C78: the log-probability `sample_and_log_prob` returns for a `Sigmoid`-transformed distribution is that of the base minus the log-derivative
of the logistic function, up to rounding. -/
theorem C78_sigmoid_joint (A : F.Acc u η) {x lp : FX F} {t a K : ℝ} (hx : x.1 = fin t) (ha : lp.Within a (u * K)) (K0 : 0 ≤ K)
    (hf : (FSample.transformedJoint FSample.sigmoidBij (x, lp)).2.finite) :
    (FSample.transformedJoint FSample.sigmoidBij (x, lp)).2.Within (a - Real.log (rsigmoid t * (1 - rsigmoid t)))
      (u * (2 * K + |a| + 5 * |Real.log (rsigmoid t * (1 - rsigmoid t))| + 6)) := by
  refine wu_mono A (wu_sub A hf ha (C63_sigmoid_log_det A x t hx)) ?_
  have := abs_sub a (Real.log (rsigmoid t * (1 - rsigmoid t)))
  have := _root_.abs_nonneg (Real.log (rsigmoid t * (1 - rsigmoid t)))
  linarith

/-- C78: the same for `Tanh`. -/
theorem C78_tanh_joint (A : F.Acc u η) {x lp : FX F} {t a K : ℝ} (hx : x.1 = fin t) (ha : lp.Within a (u * K)) (K0 : 0 ≤ K) (ht : |t| ≤ F.top / 16)
    (hf : (FSample.transformedJoint FSample.tanhBij (x, lp)).2.finite) :
    (FSample.transformedJoint FSample.tanhBij (x, lp)).2.Within (a - Real.log (1 / Real.cosh t ^ 2))
      (u * (2 * K + |a| + |Real.log (1 / Real.cosh t ^ 2)| + 25 * |t| + 17)) := by
  have f4 : (lit (-2) * x).finite := fin_mul_of (lit_val (F.rd_neg F.rd_two)) hx (by
    rw [abs_mul, abs_neg, abs_of_pos (by norm_num : (0 : ℝ) < 2)]; have := F.top_ge; linarith)
  refine wu_mono A (wu_sub A hf ha (C63_tanh_log_det A x t hx f4 ((C61_tanh x ⟨t, hx⟩).2.2 t hx ht))) ?_
  have := abs_sub a (Real.log (1 / Real.cosh t ^ 2))
  have := _root_.abs_nonneg t
  linarith

/-- C78: the sample `sample_and_log_prob` returns is the transformed base sample. -/
theorem C78_transformed_sample (x lp : FX F) :
    (FSample.transformedJoint FSample.sigmoidBij (x, lp)).1 = FloatBij.moreStableSigmoid x ∧
    (FSample.transformedJoint FSample.tanhBij (x, lp)).1 = FX.tanh x := ⟨rfl, rfl⟩

/-! ### Concrete cases -/

/-- The draw 1/2 of `Logistic(2, 3)` gives a sample within rounding of 2, in `float32`. -/
example (rd : ℝ → XR) (h : IEEE 24 (-149) 104 rd) : ∃ F : Fmt, F.rd = rd ∧ OpenUnitDraw ((2 : ℝ) ^ (-24 : ℤ)) (lit (1 / 2) : FX F) ∧
    ∃ ε < 1e-4, (FSample.logistic (⟨lit 2, lit 3⟩ : LS F) (lit (1 / 2))).Within 2 ε := by
  obtain ⟨F, hF, A⟩ := C63_formats.2.2.1 rd h
  have ht := F.top_ge
  have h2 : (lit (1 / 2) : FX F).1 = fin (1 / 2) := lit_val F.half
  have hd : OpenUnitDraw ((2 : ℝ) ^ (-24 : ℤ)) (lit (1 / 2) : FX F) := ⟨1 / 2, h2, by norm_num, by norm_num⟩
  have l2 := Real.log_two_lt_d9
  have l2' := Real.log_two_gt_d9
  have e2 : Real.log (1 / 2) = -Real.log 2 := by rw [one_div, Real.log_inv]
  refine ⟨F, hF, hd, ?_⟩
  obtain ⟨n, hn, bn⟩ := C78_logistic_noise A (by positivity) h2 hd
  have nb : |n| ≤ 1 := by
    have e0 : Real.log ((1 / 2 : ℝ) / (1 - 1 / 2)) = 0 := by norm_num
    have e1 : (1 : ℝ) - 1 / 2 = 1 / 2 := by norm_num
    rw [e0, sub_zero] at bn
    rw [e1, e2, abs_neg, abs_of_pos (by linarith : 0 < Real.log 2)] at bn
    refine bn.trans ?_
    norm_num
    linarith
  have hf : (FSample.logistic (⟨lit 2, lit 3⟩ : LS F) (lit (1 / 2))).finite := by
    have f1 : (lit 3 * FSample.logisticNoise (lit (1 / 2)) : FX F).finite := fin_mul_of lit_three hn (by rw [abs_mul]; norm_num; linarith)
    obtain ⟨q, hq⟩ := f1
    have hq' : F.rd (3 * n) = fin q := by rw [mul_val, lit_three, hn, fin_mul] at hq; exact hq
    have qb : |q| ≤ 4 := by
      have a := F.mono (x := 3 * n) (y := 4) (by have := (abs_le.1 nb).2; linarith)
      have b := F.mono (x := -4) (y := 3 * n) (by have := (abs_le.1 nb).1; linarith)
      rw [hq', F.rd_four, leB_fin] at a
      rw [hq', F.rd_neg F.rd_four, leB_fin] at b
      exact abs_le.2 ⟨b, a⟩
    exact fin_add_of hq lit_two (by
      have := abs_add_le q 2
      have e : |(2 : ℝ)| = 2 := by norm_num
      linarith)
  refine ⟨_, ?_, (C78_logistic A (by positivity) (⟨lit 2, lit 3⟩ : LS F) lit_two lit_three (by norm_num) h2 hd hf rfl).of_eq (by norm_num)⟩
  have e1 : (1 : ℝ) - 1 / 2 = 1 / 2 := by norm_num
  rw [e1, e2, abs_neg, abs_of_pos (by linarith : 0 < Real.log 2)]
  norm_num
  linarith

end Distrax
