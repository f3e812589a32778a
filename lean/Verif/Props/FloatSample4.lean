import Verif.Props.FloatSample3

/-!
C78: sampling in floating point (fourth part: inside the unit interval, `float32`, concrete cases).
-/

namespace Distrax

open XR FX Spec

variable {F : Fmt} {u η : ℝ}

/-- The logit of a float strictly between 0 and 1 is finite. -/
theorem logit_finite {y : FX F} {x : ℝ} (hy : y.1 = fin x) (x0 : 0 < x) (x1 : x < 1) : (FX.log y - FX.log1p (-y)).finite := by
  obtain ⟨a, ha, ba⟩ := log_finite hy x0
  obtain ⟨b, hb⟩ := log1p_neg_finite hy x0.le x1
  have hb' : F.rd (Real.log (1 - x)) = fin b := by
    rw [FX.log1p, fn_val (x := -x) (by rw [neg_val, hy]; rfl), ← sub_eq_add_neg, XR.log_fin_pos (by linarith)] at hb
    exact hb
  have L2 : |Real.log (1 - x)| ≤ F.lb := by
    by_cases c : 1 / 2 ≤ x
    · exact F.logs (F.oneSub (rep hy) c x1.le) (by linarith)
    · push Not at c
      have h2 := F.logs F.rd_two (by norm_num)
      rw [abs_of_pos (Real.log_pos (by norm_num))] at h2
      refine le_trans ?_ h2
      rw [abs_of_nonpos (Real.log_nonpos (by linarith) (by linarith)), ← Real.log_inv]
      refine Real.log_le_log (by rw [inv_pos]; linarith) ?_
      rw [inv_le_comm₀ (by linarith) (by norm_num)]
      linarith
  have bb : |b| ≤ F.lb := by
    have l := abs_le.1 L2
    have h1 := F.mono l.2
    have h2 := F.mono l.1
    rw [hb', F.lb_rep, leB_fin] at h1
    rw [hb', F.rd_neg F.lb_rep, leB_fin] at h2
    exact abs_le.2 ⟨h2, h1⟩
  refine fin_sub_of ha hb ?_
  have := abs_sub a b
  have := F.lb_le
  have := F.top_ge
  linarith

/-- C78: 0 and 1 are the only samples with this defect: `log_prob` of a `Sigmoid`-transformed `Normal` is not `nan` strictly between. -/
theorem C78_interior_partial {d : LS F} (hd : d.Legal) {y : FX F} {x : ℝ} (hy : y.1 = fin x) (x0 : 0 < x) (x1 : x < 1) :
    ¬ (FSample.transformedLogProb FSample.sigmoidBij (FloatNormal.logProb d) y).isNan := by
  have hf := logit_finite hy x0 x1
  have h1 := (C61_normal d hd).1 _ hf
  have h2 := (C61_sigmoid _ hf.num).2.2 hf
  exact add_num_fin' h1 (neg_finite.2 h2)

/-- C78 in `float32`: every draw `k / 2^23` of the generator is an admissible draw; samples of `Uniform` stay within the bounds and both
ways of computing their log-probability agree up to rounding; and from 17.4 on, `log_prob` of a sample of a `Sigmoid`-transformed `Normal`
is `nan` while `sample_and_log_prob` is not. -/
theorem C78_float32 (rd : ℝ → XR) (hrd : IEEE 24 (-149) 104 rd) : ∃ F : Fmt, F.rd = rd ∧
    (∀ k : Fin (2 ^ 23), (lit (gridDraw 23 k) : FX F).1 = fin (gridDraw 23 k) ∧ UnitDraw ((2 : ℝ) ^ (-24 : ℤ)) (lit (gridDraw 23 k) : FX F)) ∧
    (∀ (low high w : FX F) (l h : ℝ), low.1 = fin l → high.1 = fin h → 1e-30 ≤ h - l → h - l ≤ 1e37 → UnitDraw ((2 : ℝ) ^ (-24 : ℤ)) w →
      low ≤ FSample.uniform low high w ∧ FSample.uniform low high w ≤ high ∧
      (FSample.uniformJoint low high w).2.Within (-Real.log (h - l)) ((2 : ℝ) ^ (-24 : ℤ) * (|Real.log (h - l)| + 4)) ∧
      (FloatUniform.logProb low high (FSample.uniform low high w)).Within (-Real.log (h - l)) ((2 : ℝ) ^ (-24 : ℤ) * (|Real.log (h - l)| + 4))) ∧
    (∀ (d : LS F) (rnd : FX F) (r : ℝ), d.Legal → rnd.finite → (FSample.normal d rnd).1 = fin r → 17.4 ≤ r →
      (FSample.transformedJoint FSample.sigmoidBij (FSample.normalJoint d rnd)).1 = lit 1 ∧
      (FSample.transformedLogProb FSample.sigmoidBij (FloatNormal.logProb d)
        (FSample.transformedJoint FSample.sigmoidBij (FSample.normalJoint d rnd)).1).isNan ∧
      ¬ (FSample.transformedJoint FSample.sigmoidBij (FSample.normalJoint d rnd)).2.isNan) := by
  obtain ⟨F, hF, htop⟩ := C61_formats.2.2.1 rd hrd
  have A : F.Acc ((2 : ℝ) ^ (-24 : ℤ)) ((2 : ℝ) ^ (-150 : ℤ)) := by
    have := ieee_acc rd hrd hF (by norm_num) (by norm_num) (by norm_num); norm_num at this ⊢; exact this
  have hI : IEEE 24 (-149) 104 F.rd := by rw [hF]; exact hrd
  have htop' : 1e38 ≤ F.top := by rw [htop]; norm_num
  refine ⟨F, hF, fun k => ?_, fun low high w l h hl hh h1 h2 hw => ?_, fun d rnd r hd hr hx h => ?_⟩
  · have mem : gridDraw 23 k ∈ binary 24 (-149) 104 := by
      refine ⟨((k : ℕ) : ℤ), -23, ?_, by norm_num, by norm_num, ?_⟩
      · rw [abs_of_nonneg (by positivity)]
        have : ((k : ℕ) : ℤ) < 2 ^ 23 := by exact_mod_cast k.2
        omega
      · unfold gridDraw
        rw [Int.cast_natCast]
        norm_num
        ring
    have k0 : 0 ≤ gridDraw 23 k := by unfold gridDraw; positivity
    have kr : ((k : ℕ) : ℝ) ≤ 2 ^ 23 - 1 := by
      have : (k : ℕ) + 1 ≤ 2 ^ 23 := k.2
      have : (((k : ℕ) + 1 : ℕ) : ℝ) ≤ ((2 ^ 23 : ℕ) : ℝ) := by exact_mod_cast this
      push_cast at this
      linarith
    have k1 : gridDraw 23 k ≤ 1 - 2 * (2 : ℝ) ^ (-24 : ℤ) := by
      unfold gridDraw
      rw [div_le_iff₀ (by positivity)]
      norm_num at kr ⊢
      linarith
    have e : (lit (gridDraw 23 k) : FX F).1 = fin (gridDraw 23 k) := by
      refine lit_val ?_
      rw [hF]
      refine RoundsToNearest.rep hrd mem ?_
      rw [abs_of_nonneg k0]
      refine lt_of_le_of_lt (b := 1) (k1.trans (by norm_num)) (by norm_num)
    exact ⟨e, _, e, k0, k1⟩
  · have hlh : l < h := by
      have : (0 : ℝ) < 1e-30 := by norm_num
      linarith
    obtain ⟨x, hx, x0, x1⟩ := hw
    have hr : (high - low).finite := fin_sub_of hh hl (by
      rw [abs_of_pos (a := h - l) (by linarith)]
      have : (1e37 : ℝ) ≤ 1e38 := by norm_num
      linarith)
    have hs : (high - low).1 = fin (h - l) ∨ (2 : ℝ) ^ (-150 : ℤ) ≤ 3 * (2 : ℝ) ^ (-24 : ℤ) * (2 : ℝ) ^ (-24 : ℤ) * (h - l) := by
      right
      refine le_trans ?_ (mul_le_mul_of_nonneg_left h1 (by positivity))
      norm_num
    obtain ⟨a, b, -, -⟩ := C78_uniform_partial A hl hh hlh hx ⟨x, hx, x0, x1⟩ hr hs
    obtain ⟨-, c, e⟩ := C78_uniform_joint_partial A hl hh hlh hx ⟨x, hx, x0, x1⟩ hr hs
      (by
        have := mul_le_mul_of_nonneg_left h2 (show (0 : ℝ) ≤ 2 * (2 : ℝ) ^ (-150 : ℤ) by positivity)
        have g : 2 * (2 : ℝ) ^ (-150 : ℤ) * 1e37 ≤ (2 : ℝ) ^ (-24 : ℤ) := by norm_num
        calc 2 * (h - l) * (2 : ℝ) ^ (-150 : ℤ) = 2 * (2 : ℝ) ^ (-150 : ℤ) * (h - l) := by ring
          _ ≤ _ := this
          _ ≤ _ := g)
      (by
        have := mul_le_mul htop' h1 (by norm_num) (by linarith)
        have g : (2 : ℝ) ≤ 1e38 * 1e-30 := by norm_num
        linarith)
    exact ⟨a, b, c.mono (mul_le_mul_of_nonneg_left (by linarith) (by positivity)), e⟩
  · have hS : (FSample.normal d rnd).finite := ⟨r, hx⟩
    have e : (FSample.transformedJoint FSample.sigmoidBij (FSample.normalJoint d rnd)).1 = lit 1 := by
      refine (C78_saturates hI hx).1 ?_
      have := Real.log_two_lt_d9
      norm_num
      linarith
    refine ⟨e, ?_, (C78_joint_no_nan hd hr hS).1⟩
    rw [e]
    exact (C78_saturated_nan hd).1

/-! ### Concrete cases -/

/-- `Bernoulli(p = 2^-40)` in `float32` returns 1 once in `2^23` draws. -/
example : frequency 23 (· < (1 / 2 : ℝ) ^ 40) = 1 / 2 ^ 23 := C78_bernoulli_rare 23 (by positivity) (by norm_num)

/-- `Bernoulli(p = 3/4)` with 3 random bits: exactly three quarters. -/
example : frequency 3 (· < (3 / 4 : ℝ)) = 3 / 4 := by
  rw [(C78_bernoulli_law 3 (by norm_num) (by norm_num)).1]
  have : ⌈(3 / 4 : ℝ) * 2 ^ 3⌉₊ = 6 := by
    have : (3 / 4 : ℝ) * 2 ^ 3 = ((6 : ℕ) : ℝ) := by norm_num
    rw [this, Nat.ceil_natCast]
  rw [this]; norm_num

/-- `Normal(loc = 2, scale = 3)` and the draw 1 in `float32`: the sample is within `2^-24 * 11 + 2^-149` of 5. -/
example (rd : ℝ → XR) (h : IEEE 24 (-149) 104 rd) : ∃ F : Fmt, F.rd = rd ∧
    (FSample.normal (⟨lit 2, lit 3⟩ : LS F) (lit 1)).Within 5 ((2 : ℝ) ^ (-24 : ℤ) * 11 + 2 * (2 : ℝ) ^ (-150 : ℤ)) := by
  obtain ⟨F, hF, A⟩ := C63_formats.2.2.1 rd h
  have ht := F.top_ge
  refine ⟨F, hF, ?_⟩
  have hf : (FSample.normal (⟨lit 2, lit 3⟩ : LS F) (lit 1)).finite := by
    show (lit 3 * lit 1 + lit 2 : FX F).finite
    rw [mul_one']
    exact fin_add_of lit_three lit_two (by norm_num; linarith)
  have := (C78_location_scale A (⟨lit 2, lit 3⟩ : LS F) (lit 1) lit_two lit_three (by norm_num) lit_one).1 hf
  refine (this.of_eq (by norm_num)).mono ?_
  norm_num

/-- The hypotheses of the theorem about own samples are met by a large location: `Normal(16, 1)` and the draw 1, in any format. -/
example {p : ℕ} {emin emax : ℤ} (hI : IEEE p emin emax F.rd) (A : F.Acc u η) :
    ∃ z, ((⟨lit 16, lit 1⟩ : LS F).standardize (FSample.normal ⟨lit 16, lit 1⟩ (lit 1))).1 = fin z ∧ |z| ≤ 3 * |1| + 4 * (η / 1 + η) := by
  have ht := F.top_ge
  have h16 : (lit 16 : FX F).1 = fin 16 := lit_val F.rd_sixteen
  have η1 : η ≤ 1 := A.η_le.trans (by have := A.u0; have := A.u_le; nlinarith)
  refine C78_own_bounded hI A ⟨lit 16, lit 1⟩ (lit 1) h16 lit_one one_pos lit_one ?_ (by norm_num; linarith) (by norm_num; linarith)
  show (lit 1 * lit 1 + lit 16 : FX F).finite
  rw [mul_one']
  exact fin_add_of lit_one h16 (by norm_num; linarith)

/-- A quantised sample in `float32`: the draw 1/2 of the base, with bounds 3 and 8, gives 3. -/
example (rd : ℝ → XR) (h : IEEE 24 (-149) 104 rd) : ∃ F : Fmt, F.rd = rd ∧ (FSample.quantized (some (lit 3)) (some (lit 8)) (lit (1 / 2) : FX F)).1 = fin 3 := by
  obtain ⟨F, hF, -⟩ := C63_formats.2.2.1 rd h
  have h8 : (lit 8 : FX F).1 = fin 8 := lit_val (by simpa using F.small 8 (by norm_num))
  have h2 : (lit (1 / 2) : FX F).1 = fin (1 / 2) := lit_val F.half
  refine ⟨F, hF, ?_⟩
  obtain ⟨k, hk, -, -, -, h5, -⟩ := C78_quantized (F := F) (by rw [hF]; exact h) (by norm_num) (by norm_num) (by norm_num) (some (lit 3)) (some (lit 8)) 3 8
    (by intro l hl; obtain rfl := Option.some.inj hl; rw [lit_three]; norm_num)
    (by intro l hl; obtain rfl := Option.some.inj hl; rw [h8]; norm_num) (by norm_num) (lit (1 / 2)) h2
  have := h5 ⟨rfl, by norm_num [Int.ceil_le]⟩
  rw [hk, this]; norm_num

end Distrax
