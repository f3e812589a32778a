import Verif.Props.Float4

/-!
C62: order properties survive rounding.  CDFs stay in [0, 1] and nondecreasing, survival functions nonincreasing, KL divergences
nonnegative, modes maximal and increasing bijectors nondecreasing, in every floating-point format.
-/

namespace Distrax

open FX Spec
open XR (fin pinf ninf nan leB ltB leB_fin leB_pinf ninf_leB pinf_leB leB_ninf fin_sub fin_mul fin_add infOf)

variable {F : Fmt}

theorem fmt_sub_mono {a b c d : FX F} (h : a ≤ b) (h' : d ≤ c) (n : (a - c).Num) (n' : (b - d).Num) : a - c ≤ b - d := by
  rw [sub_eq] at n n' ⊢
  rw [sub_eq]
  exact add_le_add h (neg_le h') n n'

/-! ### CDFs and survival functions -/

/-- `Logistic.cdf` and `Logistic.survival_function`. -/
theorem C62_logistic (d : LS F) (hd : d.Legal) :
    FloatCdf (FloatLogistic.cdf d) ∧ FloatSf (FloatLogistic.sf d) ∧
    ∀ v, v.finite → FloatLogistic.logCdf d v ≤ lit 0 ∧ FloatLogistic.logSf d v ≤ lit 0 := by
  refine ⟨⟨fun v hv => sigmoid_mem (std_num hd hv), fun v w hv hw h => sigmoid_mono (std_mono hd hv hw h)⟩,
    ⟨fun v hv => sigmoid_mem (neg_num.2 (std_num hd hv)), fun v w hv hw h => sigmoid_mono (neg_le (std_mono hd hv hw h))⟩,
    fun v hv => ⟨neg_nonpos (softplus_nonneg (neg_num.2 (std_num hd hv))), neg_nonpos (softplus_nonneg (std_num hd hv))⟩⟩

/-- `Gumbel.log_cdf` and `Gumbel.cdf`. -/
theorem C62_gumbel (d : LS F) (hd : d.Legal) : FloatLogCdf (FloatGumbel.logCdf d) ∧ FloatCdf (FloatGumbel.cdf d) := by
  have A : FloatLogCdf (FloatGumbel.logCdf d) :=
    ⟨fun v hv => neg_nonpos (exp_nonneg (neg_num.2 (std_num hd hv))),
      fun v w hv hw h => neg_le (exp_mono (neg_le (std_mono hd hv hw h)))⟩
  exact ⟨A, fun v hv => ⟨exp_nonneg (A.1 v hv).numL, exp_le_one (A.1 v hv)⟩, fun v w hv hw h => exp_mono (A.2 v w hv hw h)⟩

theorem expm1_zero : expm1 (lit 0 : FX F) = lit 0 :=
  ext (by rw [expm1, fn_val lit_zero, Real.exp_zero, sub_self, lit_zero]; exact F.rd_zero)

theorem expm1_mem {a : FX F} (h : a ≤ lit 0) : lit (-1) ≤ expm1 a ∧ expm1 a ≤ lit 0 := by
  constructor
  · have := expm1_mono (negInf_le h.numL)
    rwa [show expm1 (negInf : FX F) = lit (-1) from ext (fn_ninf rfl)] at this
  · have := expm1_mono h
    rwa [expm1_zero] at this

/-- The two halves of the Laplace CDF. -/
theorem laplace_cdf_std {z : FX F} (h : z.Num) :
    (lit 0 ≤ z → lit (1 / 2) - lit (1 / 2) * sign z * expm1 (-(abs z)) = lit (1 / 2) - lit (1 / 2) * expm1 (-z)) ∧
    (z ≤ lit 0 → lit (1 / 2) - lit (1 / 2) * sign z * expm1 (-(abs z)) = lit (1 / 2) + lit (1 / 2) * expm1 z) := by
  have hz : z.1 = fin 0 → sign z = lit 0 := fun e => ext (by rw [sign, fn_val e]; simp; exact F.rd_zero)
  have hp : lit 0 ≤ z → z.1 ≠ fin 0 → sign z = lit 1 := fun h0 h1 => ext (by
    rcases fin_or h with ⟨x, hx⟩ | hx | hx
    · rw [le_def, hx, lit_zero, leB_fin] at h0
      have : 0 < x := lt_of_le_of_ne h0 fun e => h1 (by rw [hx, ← e])
      rw [sign, fn_val hx, if_pos this]; rfl
    · rw [sign, fn_pinf hx]; rfl
    · exact absurd hx (ne_ninf_of_le h0 zero_fits))
  have hm : z ≤ lit 0 → z.1 ≠ fin 0 → sign z = lit (-1) := fun h0 h1 => ext (by
    rcases fin_or h with ⟨x, hx⟩ | hx | hx
    · rw [le_def, hx, lit_zero, leB_fin] at h0
      have : x < 0 := lt_of_le_of_ne h0 fun e => h1 (by rw [hx, e])
      rw [sign, fn_val hx, if_neg (by linarith), if_pos this]; rfl
    · exact absurd hx (ne_pinf_of_le h0 zero_fits)
    · rw [sign, fn_ninf hx]; rfl)
  have s0 : ∀ a : FX F, a - lit 0 = a := fun a => by rw [sub_eq, neg_zero', add_zero']
  have zc : z.1 = fin 0 → z = lit 0 := fun e => ext (by rw [e, lit_zero])
  have zero : z.1 = fin 0 → lit (1 / 2) - lit (1 / 2) * sign z * expm1 (-(abs z)) = lit (1 / 2) := fun e => by
    have a0 : abs (lit 0 : FX F) = lit 0 := by
      rcases abs_cases (lit_num (F := F) 0) with ⟨e, -⟩ | ⟨e, -⟩ <;> rw [e]
      exact neg_zero'
    rw [hz e, zc e, a0, neg_zero', expm1_zero, mul_pos_zero lit_half, mul_pos_zero lit_zero, s0]
  constructor
  · intro h0
    by_cases e : z.1 = fin 0
    · rw [zero e, zc e, neg_zero', expm1_zero, mul_pos_zero lit_half, s0]
    · have : abs z = z := by
        rcases abs_cases h with ⟨g, -⟩ | ⟨-, g⟩
        · exact g
        · exact absurd (by rw [← LE.le.asymm' h0 g, lit_zero]) e
      rw [hp h0 e, this, mul_one']
  · intro h0
    by_cases e : z.1 = fin 0
    · rw [zero e, zc e, expm1_zero, mul_pos_zero lit_half, add_zero']
    · have : abs z = -z := by
        rcases abs_cases h with ⟨-, g⟩ | ⟨g, -⟩
        · exact absurd (by rw [LE.le.asymm' h0 g, lit_zero]) e
        · exact g
      rw [hm h0 e, this, neg_neg'', mul_comm' (lit (1 / 2)) (lit (-1)), neg_one_mul']
      have : -(lit (1 / 2)) * expm1 z = -(lit (1 / 2) * expm1 z) := by
        obtain ⟨x, hx⟩ := finite_of_le (expm1_mem h0).1 (expm1_mem h0).2 (by rw [abs_neg]; exact one_fits) zero_fits
        exact ext (by rw [neg_val, mul_val, mul_val, neg_val, lit_half, hx, ← F.r_neg]; simp)
      rw [this, sub_eq, neg_neg'']

/-- `Laplace.cdf`: in [0, 1] and nondecreasing, across the change of sign too. -/
theorem C62_laplace_cdf (d : LS F) (hd : d.Legal) : FloatCdf (FloatLaplace.cdf d) := by
  -- the standard CDF on all numbers
  have hf : ∀ {a : FX F}, lit (-1) ≤ a → a ≤ lit 0 → (lit (1 / 2) * a).finite ∧ lit (-(1 / 2)) ≤ lit (1 / 2) * a ∧ lit (1 / 2) * a ≤ lit 0 := by
    intro a h1 h2
    have A := mul_pos_mono lit_half (by norm_num) h1
    have B := mul_pos_mono lit_half (by norm_num) h2
    rw [mul_pos_zero lit_half] at B
    rw [show (lit (1 / 2) * lit (-1) : FX F) = lit (-(1 / 2)) by rw [mul_comm', neg_one_mul']; exact ext (by rw [neg_val, lit_half, lit_neg_half]; rfl)] at A
    exact ⟨finite_of_le A B (by have := F.top_ge; rw [abs_neg, abs_of_pos (by norm_num)]; linarith) zero_fits, A, B⟩
  have H1 : (lit (1 / 2) - lit (-(1 / 2)) : FX F) = lit 1 := ext (by rw [sub_val, lit_half, lit_neg_half, fin_sub]; norm_num; exact F.rd_one)
  have H0 : (lit (1 / 2) + lit (-(1 / 2)) : FX F) = lit 0 := ext (by rw [add_val, lit_half, lit_neg_half, fin_add]; norm_num; exact F.rd_zero)
  have s0 : ∀ a : FX F, a - lit 0 = a := fun a => by rw [sub_eq, neg_zero', add_zero']
  have h2 : (lit (1 / 2) : FX F).finite := ⟨_, lit_half⟩
  have up : ∀ {z : FX F}, lit 0 ≤ z → lit (1 / 2) ≤ lit (1 / 2) - lit (1 / 2) * expm1 (-z) ∧ lit (1 / 2) - lit (1 / 2) * expm1 (-z) ≤ lit 1 := by
    intro z h
    obtain ⟨m0, m1⟩ := expm1_mem (neg_nonpos h)
    obtain ⟨f, a, b⟩ := hf m0 m1
    constructor
    · have := fmt_sub_mono (rfl' h2.num) b (by rw [s0]; exact h2.num) (sub_num_fin h2 f.num)
      rwa [s0] at this
    · have := fmt_sub_mono (rfl' h2.num) a (sub_num_fin h2 f.num) (by rw [H1]; exact lit_num 1)
      rwa [H1] at this
  have lo : ∀ {z : FX F}, z ≤ lit 0 → lit 0 ≤ lit (1 / 2) + lit (1 / 2) * expm1 z ∧ lit (1 / 2) + lit (1 / 2) * expm1 z ≤ lit (1 / 2) := by
    intro z h
    obtain ⟨m0, m1⟩ := expm1_mem h
    obtain ⟨f, a, b⟩ := hf m0 m1
    constructor
    · have := add_le_add (rfl' h2.num) a (by rw [H0]; exact lit_num 0) (add_num_fin h2 f.num)
      rwa [H0] at this
    · exact add_le h2.num (by rw [lit_half]; simp) b
  refine ⟨fun v hv => ?_, fun v w hv hw h => ?_⟩
  · have n := std_num hd hv
    unfold FloatLaplace.cdf
    simp only
    generalize d.standardize v = z at *
    obtain ⟨c1, c2⟩ := laplace_cdf_std n
    rcases le_total n (lit_num 0) with g | g
    · rw [c2 g]; exact ⟨(lo g).1, LE.le.tr (lo g).2 (lit_le (by norm_num))⟩
    · rw [c1 g]; exact ⟨LE.le.tr (lit_le (by norm_num)) (up g).1, (up g).2⟩
  · have m := std_mono hd hv hw h
    unfold FloatLaplace.cdf
    simp only
    generalize d.standardize v = z at *
    generalize d.standardize w = z' at *
    obtain ⟨c1, c2⟩ := laplace_cdf_std m.numL
    obtain ⟨c1', c2'⟩ := laplace_cdf_std m.numR
    rcases le_total m.numL (lit_num 0) with g | g
    · rw [c2 g]
      rcases le_total m.numR (lit_num 0) with g' | g'
      · rw [c2' g']
        exact add_le_add (rfl' h2.num) (mul_pos_mono lit_half (by norm_num) (expm1_mono m)) (lo g).1.numR (lo g').1.numR
      · rw [c1' g']; exact LE.le.tr (lo g).2 (up g').1
    · have g' := LE.le.tr g m
      rw [c1 g, c1' g']
      exact fmt_sub_mono (rfl' h2.num) (mul_pos_mono lit_half (by norm_num) (expm1_mono (neg_le m))) (up g).2.numL (up g').2.numL

/-- The standard Laplace log-CDF is at most 0 and nondecreasing on all numbers, across the change of branch too. -/
theorem laplace_logCdf_std : (∀ z : FX F, z.Num → FloatLaplace.logCdfStd z ≤ lit 0) ∧
    ∀ z w : FX F, z ≤ w → FloatLaplace.logCdfStd z ≤ FloatLaplace.logCdfStd w := by
  have l2 := lit_log2_mem (F := F)
  have lf := lit_log2_finite (F := F)
  have lower : ∀ {z : FX F}, z ≤ lit 0 → z - lit (Real.log 2) ≤ lit (-Real.log 2) := fun {z} h => by
    have := fmt_sub_mono h (rfl' lf.num) (sub_num_fin' h.numL lf) (sub_num_fin' (lit_num 0) lf)
    rwa [show (lit 0 - lit (Real.log 2) : FX F) = lit (-Real.log 2) by
      rw [sub_eq, zero_add']; exact ext (by rw [neg_val]; exact (F.odd _).symm)] at this
  have half : ∀ {z : FX F}, z.Num → lit (-(1 / 2)) ≤ lit (-(1 / 2)) * exp (-(abs z)) ∧ lit (-(1 / 2)) * exp (-(abs z)) ≤ lit 0 := fun {z} h => by
    obtain ⟨x, hx, x0, x1⟩ := unit_fin (exp_nonneg (neg_num.2 (abs_nonneg h).numR)) (exp_le_one (neg_nonpos (abs_nonneg h)))
    have e : (lit (-(1 / 2)) * exp (-(abs z))).1 = F.rd (-(1 / 2) * x) := by rw [mul_val, lit_neg_half, hx, fin_mul]; rfl
    constructor
    · rw [le_def, e]; exact F.mono (by linarith)
    · rw [le_def, e, lit_zero, ← F.rd_zero]; exact F.mono (by linarith)
  have upper : ∀ {z : FX F}, z.Num → lit (-Real.log 2) ≤ log1p (lit (-(1 / 2)) * exp (-(abs z))) ∧
      log1p (lit (-(1 / 2)) * exp (-(abs z))) ≤ lit 0 := fun {z} h => by
    obtain ⟨h1, h2⟩ := half h
    constructor
    · have := log1p_mono (lit_le (by norm_num)) h1
      refine LE.le.tr ?_ this
      rw [le_def, log1p, fn_val lit_neg_half, XR.log_fin_pos (by norm_num)]
      refine F.mono ?_
      rw [show (1 + -(1 / 2) : ℝ) = 2⁻¹ by norm_num, Real.log_inv]
    · exact log1p_nonpos (LE.le.tr (lit_le (by norm_num)) h1) h2
  have m0 : (lit (-Real.log 2) : FX F) ≤ lit 0 := lit_le (by have := log2_bounds.1; linarith)
  refine ⟨fun z h => ?_, fun z w h => ?_⟩
  · unfold FloatLaplace.logCdfStd whr
    simp only
    split_ifs with g
    · exact LE.le.tr (lower g) m0
    · exact (upper h).2
  · unfold FloatLaplace.logCdfStd whr
    simp only
    split_ifs with g1 g2 g2
    · exact fmt_sub_mono h (rfl' lf.num) (sub_num_fin' h.numL lf) (sub_num_fin' h.numR lf)
    · exact LE.le.tr (lower g1) (upper h.numR).1
    · exact absurd (LE.le.tr h g2) g1
    · have z0 : lit 0 ≤ z := by
        rcases le_total h.numL (lit_num 0) with k | k
        · exact absurd k g1
        · exact k
      have ab : ∀ {t : FX F}, lit 0 ≤ t → abs t = t := fun {t} ht => by
        rcases abs_cases ht.numR with ⟨e, -⟩ | ⟨e, k⟩
        · exact e
        · rw [e, ← LE.le.asymm' ht k, neg_zero']
      have w0 := LE.le.tr z0 h
      refine log1p_mono (LE.le.tr (lit_le (by norm_num)) (half h.numL).1) ?_
      rw [ab z0, ab w0]
      have em : exp (-w) ≤ exp (-z) := exp_mono (neg_le h)
      obtain ⟨x, hx, -, -⟩ := unit_fin (exp_nonneg (neg_num.2 h.numR)) (exp_le_one (neg_nonpos w0))
      obtain ⟨y, hy, -, -⟩ := unit_fin (exp_nonneg (neg_num.2 h.numL)) (exp_le_one (neg_nonpos z0))
      rw [le_def, hx, hy, leB_fin] at em
      rw [le_def, mul_val, mul_val, lit_neg_half, hx, hy, fin_mul, fin_mul]
      exact F.mono (by linarith)

/-- `Laplace.log_cdf` and `Laplace.log_survival_function`. -/
theorem C62_laplace_log (d : LS F) (hd : d.Legal) : FloatLogCdf (FloatLaplace.logCdf d) ∧ FloatLogSf (FloatLaplace.logSf d) := by
  obtain ⟨a, b⟩ := laplace_logCdf_std (F := F)
  exact ⟨⟨fun v hv => a _ (std_num hd hv), fun v w hv hw h => b _ _ (std_mono hd hv hw h)⟩,
    ⟨fun v hv => a _ (neg_num.2 (std_num hd hv)), fun v w hv hw h => b _ _ (neg_le (std_mono hd hv hw h))⟩⟩

/-- `Uniform.cdf`, if `high - low` does not overflow. -/
theorem C62_uniform_cdf (low high : FX F) (hl : low.finite) (hh : high.finite) (h : low < high) (hr : (high - low).finite) :
    FloatCdf (FloatUniform.cdf low high) := by
  obtain ⟨r0, r1⟩ := range_pos hl hh h
  obtain ⟨x, hx⟩ := hr
  have xp : 0 < x := by
    rw [le_def, hx, lit_zero, leB_fin] at r0
    exact lt_of_le_of_ne r0 fun e => r1 (by rw [hx, ← e])
  have n : ∀ {v : FX F}, v.finite → (v - low).Num := fun hv => sub_num_fin hv hl.num
  have sm : ∀ {v w : FX F}, v.finite → w.finite → v ≤ w → (v - low) / (high - low) ≤ (w - low) / (high - low) := fun hv hw hvw =>
    div_pos_mono hx xp (fmt_sub_mono hvw (rfl' hl.num) (n hv) (n hw))
  have atLow : (low - low) / (high - low) = lit 0 := by rw [sub_self' hl, zero_div' hx xp]
  have atHigh : (high - low) / (high - low) = lit 1 := ext (by
    rw [div_val, hx, XR.div_fin xp.ne', div_self xp.ne', lit_one]; exact F.rd_one)
  have mid : ∀ {v : FX F}, v.finite → low ≤ v → v ≤ high → lit 0 ≤ (v - low) / (high - low) ∧ (v - low) / (high - low) ≤ lit 1 := by
    intro v hv h1 h2
    have A := sm hl hv h1
    have B := sm hv hh h2
    rw [atLow] at A
    rw [atHigh] at B
    exact ⟨A, B⟩
  refine ⟨fun v hv => ?_, fun v w hv hw hvw => ?_⟩
  · unfold FloatUniform.cdf whr
    split_ifs with g1 g2
    · exact ⟨lit_le zero_le_one, rfl' (lit_num 1)⟩
    · exact ⟨rfl' (lit_num 0), lit_le zero_le_one⟩
    · rw [lt_iff hh.num hv.num, not_not] at g1
      rw [lt_iff hv.num hl.num, not_not] at g2
      exact mid hv g2 g1
  · unfold FloatUniform.cdf whr
    have iff1 : ∀ {t : FX F}, t.finite → (high < t ↔ ¬ t ≤ high) := fun ht => lt_iff hh.num ht.num
    have iff2 : ∀ {t : FX F}, t.finite → (t < low ↔ ¬ low ≤ t) := fun ht => lt_iff ht.num hl.num
    rw [iff1 hv, iff1 hw, iff2 hv, iff2 hw]
    by_cases a : v ≤ high
    · rw [if_neg (not_not.2 a)]
      by_cases b : low ≤ v
      · rw [if_neg (not_not.2 b)]
        have b' := LE.le.tr b hvw
        by_cases c : w ≤ high
        · rw [if_neg (not_not.2 c), if_neg (not_not.2 b')]; exact sm hv hw hvw
        · rw [if_pos c]; exact (mid hv b a).2
      · rw [if_pos b]
        by_cases c : w ≤ high
        · rw [if_neg (not_not.2 c)]
          by_cases e : low ≤ w
          · rw [if_neg (not_not.2 e)]; exact (mid hw e c).1
          · rw [if_pos e]; exact rfl' (lit_num 0)
        · rw [if_pos c]; exact lit_le zero_le_one
    · rw [if_pos a, if_pos (fun c => a (LE.le.tr hvw c))]; exact rfl' (lit_num 1)

/-- The derived methods of the base class keep the order: from any CDF in [0, 1] that is nondecreasing, `survival_function = 1 - cdf`,
`log_survival_function = log1p(-cdf)` and `log_cdf = log(cdf)`. -/
theorem C62_derived (f : FX F → FX F) (h : FloatCdf f) :
    FloatSf (floatSfDefault f) ∧ FloatLogSf (floatLogSfDefault f) ∧ FloatLogCdf (floatLogOfCdf f) := by
  have f1 : (lit 1 : FX F).finite := ⟨1, lit_one⟩
  refine ⟨⟨fun v hv => one_sub_unit (h.1 v hv).1 (h.1 v hv).2, fun v w hv hw e => ?_⟩,
    ⟨fun v hv => log1p_nonpos (neg_unit (h.1 v hv).2) (neg_nonpos (h.1 v hv).1), fun v w hv hw e => ?_⟩,
    ⟨fun v hv => log_nonpos (h.1 v hv).1 (h.1 v hv).2, fun v w hv hw e => log_mono (h.1 v hv).1 (h.2 v w hv hw e)⟩⟩
  · exact fmt_sub_mono (rfl' f1.num) (h.2 v w hv hw e) (sub_num_fin f1 (h.1 w hw).1.numR) (sub_num_fin f1 (h.1 v hv).1.numR)
  · exact log1p_mono (neg_unit (h.1 w hw).2) (neg_le (h.2 v w hv hw e))

/-- `Quantized` keeps the order of its base distribution for all bounds (also when `low > high`), and its `log_prob` is then a legal
log-probability at every finite value. -/
theorem C62_quantized (b : FBase F) (hc : FloatLogCdf b.logCdf) (hs : FloatLogSf b.logSf) (low high : Option (FX F))
    (hl : OptNum low) (hh : OptNum high) :
    FloatLogCdf (FloatQuantized.logCdf b low high) ∧ FloatLogSf (FloatQuantized.logSf b low high) ∧
    ∀ v, v.finite → FloatQuantized.logProb b low high none v ≤ lit 0 :=
  ⟨quantized_logCdf hc hl hh, quantized_logSf hs hl hh, fun v hv => (C61_quantized b hc hs low high hl hh v hv).1⟩

/-- Quantized Laplace, Gumbel and Uniform distributions are instances. -/
theorem C62_quantized_bases (d : LS F) (hd : d.Legal) (lo hi : FX F) (hl : lo.finite) (hh : hi.finite) (h : lo < hi)
    (hr : (hi - lo).finite) :
    (FloatLogCdf (FloatLaplace.logCdf d) ∧ FloatLogSf (FloatLaplace.logSf d)) ∧
    (FloatLogCdf (FloatGumbel.logCdf d) ∧ FloatLogSf (floatLogSfDefault (FloatGumbel.cdf d))) ∧
    (FloatLogCdf (floatLogOfCdf (FloatUniform.cdf lo hi)) ∧ FloatLogSf (floatLogSfDefault (FloatUniform.cdf lo hi))) := by
  have u := C62_derived _ (C62_uniform_cdf lo hi hl hh h hr)
  exact ⟨C62_laplace_log d hd, ⟨(C62_gumbel d hd).1, (C62_derived _ (C62_gumbel d hd).2).2.1⟩, u.2.2, u.2.1⟩

/-! ### KL divergences -/

/-- The Normal KL divergence is nonnegative in floating point, unless both quotients `loc / scale2` overflow to the same infinity. -/
theorem C62_normal_kl (p q : LS F) (hp : p.Legal) (hq : q.Legal) (h : (p.loc / q.scale).finite ∨ (q.loc / q.scale).finite) :
    lit 0 ≤ FloatNormal.kl p q := by
  obtain ⟨s, hs, hs0⟩ := hq.2
  have n : ∀ {a : FX F}, a.finite → (a / q.scale).Num := fun ha => (div_pos_mono hs hs0 (rfl' ha.num)).numR
  refine (normal_kl hp hq).2 ?_
  rcases h with h | h
  · exact sub_num_fin h (n hq.1)
  · exact sub_num_fin' (n hp.1) h

/-- The Uniform KL divergence is nonnegative in floating point if the range of the first distribution does not overflow. -/
theorem C62_uniform_kl (l1 h1 l2 h2 : FX F) (f1 : l1.finite) (g1 : h1.finite) (f2 : l2.finite) (g2 : h2.finite) (o1 : l1 < h1)
    (hr : (h1 - l1).finite) : lit 0 ≤ FloatUniform.kl l1 h1 l2 h2 := by
  unfold FloatUniform.kl whr
  split_ifs with c
  · obtain ⟨r0, r1⟩ := range_pos f1 g1 o1
    obtain ⟨x, hx⟩ := hr
    have xp : 0 < x := by
      rw [le_def, hx, lit_zero, leB_fin] at r0
      exact lt_of_le_of_ne r0 fun e => r1 (by rw [hx, ← e])
    obtain ⟨y, hy, -⟩ := log_finite hx xp
    have m : h1 - l1 ≤ h2 - l2 := fmt_sub_mono c.2 c.1 (sub_num_fin g1 f1.num) (sub_num_fin g2 f2.num)
    have lm := log_mono r0 m
    exact sub_nonneg lm (sub_num_fin' lm.numR ⟨y, hy⟩)
  · exact leB_pinf (lit_num 0)

/-- FINDING: with an overflowing range the Uniform KL divergence of a distribution with itself is `nan`, in every format. -/
theorem C61_uniform_kl_nan : ∃ low high : FX F, low.finite ∧ high.finite ∧ low < high ∧ (FloatUniform.kl low high low high).isNan := by
  have ht : (lit F.top : FX F).1 = fin F.top := F.top_rep
  have hm : (-(lit F.top) : FX F).1 = fin (-F.top) := by rw [neg_val, ht]; rfl
  have t0 := F.top_ge
  refine ⟨-(lit F.top), lit F.top, ⟨_, hm⟩, ⟨_, ht⟩, ?_, ?_⟩
  · rw [lt_def, ht, hm]; show -F.top < F.top; linarith
  · have o : (lit F.top - -(lit F.top) : FX F).1 = pinf := by
      rw [sub_val, ht, hm, fin_sub]; exact F.over (by linarith)
    unfold FloatUniform.kl whr
    rw [if_pos ⟨rfl' (finite.num ⟨_, hm⟩), rfl' (finite.num ⟨_, ht⟩)⟩]
    show (_ - _ : FX F).1 = nan
    rw [sub_val, log, fn_pinf o]; rfl

/-! ### Modes -/

/-- `Normal.log_prob` and `Laplace.log_prob` are largest at `loc`, the mode, in floating point. -/
theorem C62_mode (d : LS F) (hd : d.Legal) (v : FX F) (hv : v.finite) :
    FloatNormal.logProb d v ≤ FloatNormal.logProb d d.loc ∧ FloatLaplace.logProb d v ≤ FloatLaplace.logProb d d.loc := by
  have n := std_num hd hv
  have cf := normal_const_finite hd
  have sl := scale_log hd
  constructor
  · have a := neg_half_mul (square_nonneg n)
    unfold FloatNormal.logProb
    rw [std_loc hd]
    have e : lit (-(1 / 2)) * square (lit 0 : FX F) = lit 0 := by
      rw [show square (lit 0 : FX F) = lit 0 from mul_pos_zero lit_zero, mul_pos_zero lit_neg_half]
    rw [e]
    exact fmt_sub_mono a (rfl' cf.num) (sub_num_fin' a.numL cf) (sub_num_fin' (lit_num 0) cf)
  · have a := neg_nonpos (abs_nonneg n)
    have l2 := lit_log2_finite (F := F)
    unfold FloatLaplace.logProb
    rw [std_loc hd]
    have e : abs (lit 0 : FX F) = lit 0 := by
      rcases abs_cases (lit_num (F := F) 0) with ⟨e, -⟩ | ⟨e, -⟩ <;> rw [e]
      exact neg_zero'
    rw [e, neg_zero']
    have s1 := sub_num_fin' a.numL l2
    have s2 := sub_num_fin' (lit_num (F := F) 0) l2
    exact fmt_sub_mono (fmt_sub_mono a (rfl' l2.num) s1 s2) (rfl' sl.num) (sub_num_fin' s1 sl) (sub_num_fin' s2 sl)

theorem square_mono {a b : FX F} (h0 : lit 0 ≤ a) (h : a ≤ b) : square a ≤ square b := by
  have hb := LE.le.tr h0 h
  rcases fin_or hb.numR with ⟨y, hy⟩ | hy | hy
  · obtain ⟨x, hx⟩ : a.finite := by
      rcases fin_or h0.numR with g | g | g
      · exact g
      · rw [le_def, g, hy] at h; cases pinf_leB h
      · exact absurd g (ne_ninf_of_le h0 zero_fits)
    rw [le_def, hx, hy, leB_fin] at h
    rw [le_def, hx, lit_zero, leB_fin] at h0
    show leB (F.r (a.1 * a.1)) (F.r (b.1 * b.1))
    rw [hx, hy, fin_mul, fin_mul]
    exact F.mono (mul_self_le_mul_self h0 h)
  · rw [le_def, show (square b).1 = pinf by show F.r (b.1 * b.1) = _; rw [hy]; rfl]
    exact leB_pinf (square_nonneg h0.numR).numR
  · exact absurd hy (ne_ninf_of_le hb zero_fits)

theorem square_abs {a : FX F} (h : a.Num) : square (abs a) = square a := by
  rcases abs_cases h with ⟨e, -⟩ | ⟨e, -⟩ <;> rw [e]
  exact ext (by
    show F.r ((-a).1 * (-a).1) = F.r (a.1 * a.1)
    rw [neg_val]
    congr 1
    generalize a.1 = x
    cases x with
    | fin y => rw [XR.neg_fin, fin_mul, fin_mul]; congr 1; ring
    | _ => rfl)

theorem neg_half_anti {a b : FX F} (h0 : lit 0 ≤ a) (h : a ≤ b) : lit (-(1 / 2)) * b ≤ lit (-(1 / 2)) * a := by
  have e : ∀ {c : FX F}, c.Num → lit (-(1 / 2)) * c = -(lit (1 / 2) * c) := fun {c} _ => ext (by
    rw [neg_val, mul_val, mul_val, lit_half, lit_neg_half, ← F.r_neg]
    congr 1
    generalize c.1 = x
    cases x with
    | fin y => rw [fin_mul, fin_mul, XR.neg_fin]; congr 1; ring
    | pinf => show infOf (-(1 / 2)) = -(infOf (1 / 2)); norm_num [infOf]
    | ninf => show infOf (-(-(1 / 2))) = -(infOf (-(1 / 2))); norm_num [infOf]
    | nan => rfl)
  rw [e h.numR, e h0.numR]
  exact neg_le (mul_pos_mono lit_half (by norm_num) h)

/-- `Normal.log_prob` and `Laplace.log_prob` are unimodal in floating point: nondecreasing to the left of `loc`, nonincreasing to the right. -/
theorem C62_unimodal (d : LS F) (hd : d.Legal) (v w : FX F) (hv : v.finite) (hw : w.finite) (h : v ≤ w) :
    (w ≤ d.loc → FloatNormal.logProb d v ≤ FloatNormal.logProb d w ∧ FloatLaplace.logProb d v ≤ FloatLaplace.logProb d w) ∧
    (d.loc ≤ v → FloatNormal.logProb d w ≤ FloatNormal.logProb d v ∧ FloatLaplace.logProb d w ≤ FloatLaplace.logProb d v) := by
  have sl := scale_log hd
  have cf := normal_const_finite hd
  have l2 := lit_log2_finite (F := F)
  have nv := std_num hd hv
  have nw := std_num hd hw
  have m := std_mono hd hv hw h
  have fin1 : ∀ {x y : FX F}, x.Num → y.Num → abs y ≤ abs x →
      lit (-(1 / 2)) * square x - (FloatNormal.halfLog2pi + log d.scale) ≤ lit (-(1 / 2)) * square y - (FloatNormal.halfLog2pi + log d.scale) ∧
      -(abs x) - lit (Real.log 2) - log d.scale ≤ -(abs y) - lit (Real.log 2) - log d.scale := by
    intro x y hx hy hxy
    have s1 := sub_num_fin' (neg_nonpos (abs_nonneg hx)).numL l2
    have s2 := sub_num_fin' (neg_nonpos (abs_nonneg hy)).numL l2
    refine ⟨?_, fmt_sub_mono (fmt_sub_mono (neg_le hxy) (rfl' l2.num) s1 s2) (rfl' sl.num) (sub_num_fin' s1 sl) (sub_num_fin' s2 sl)⟩
    have q := square_mono (abs_nonneg hy) hxy
    rw [square_abs hx, square_abs hy] at q
    have q' := neg_half_anti (square_nonneg hy) q
    exact fmt_sub_mono q' (rfl' cf.num) (sub_num_fin' q'.numL cf) (sub_num_fin' q'.numR cf)
  have ab : ∀ {t : FX F}, lit 0 ≤ t → abs t = t := fun {t} ht => by
    rcases abs_cases ht.numR with ⟨e, -⟩ | ⟨e, k⟩
    · exact e
    · rw [e, ← LE.le.asymm' ht k, neg_zero']
  have ab' : ∀ {t : FX F}, t ≤ lit 0 → abs t = -t := fun {t} ht => by
    rcases abs_cases ht.numL with ⟨e, k⟩ | ⟨e, -⟩
    · rw [e, LE.le.asymm' ht k, neg_zero']
    · exact e
  constructor
  · intro g
    have zw := std_mono hd hw hd.1 g
    rw [std_loc hd] at zw
    refine fin1 nv nw ?_
    rw [ab' zw, ab' (LE.le.tr m zw)]
    exact neg_le m
  · intro g
    have zv := std_mono hd hd.1 hv g
    rw [std_loc hd] at zv
    refine fin1 nw nv ?_
    rw [ab zv, ab (LE.le.tr zv m)]
    exact m

/-! ### Bijectors -/

/-- The increasing bijectors `ScalarAffine` (positive scale), `Tanh` and `GumbelCDF` map ordered inputs to ordered outputs; equality
of distinct inputs' images is possible (rounding), reversal is not. -/
theorem C62_forward (shift scale x y : FX F) (h1 : shift.finite) (h2 : Pos scale) (h : x ≤ y) :
    FloatBij.affineForward shift scale x ≤ FloatBij.affineForward shift scale y ∧ tanh x ≤ tanh y ∧
    (FloatBij.gumbelCdf x).1 ≤ (FloatBij.gumbelCdf y).1 := by
  obtain ⟨s, hs, hs0⟩ := h2
  have m := mul_pos_mono hs hs0 h
  refine ⟨add_le_add m (rfl' h1.num) (add_num_fin' m.numL h1) (add_num_fin' m.numR h1), tanh_mono h, ?_⟩
  exact exp_mono (neg_le (exp_mono (neg_le h)))

/-! ### Concrete instances -/

/-- Sums of non-empty lists exist. -/
theorem sums_exist : ∀ (a : FX F) (xs : List (FX F)), ∃ s, SumsTo (a :: xs) s
  | a, [] => ⟨a, .one a⟩
  | a, b :: xs => by
    obtain ⟨s, hs⟩ := sums_exist b xs
    exact ⟨a + s, .add (.one a) hs⟩

theorem sums_ofFn {n : ℕ} (f : Fin (n + 1) → FX F) : ∃ s, SumsTo (List.ofFn f) s := by
  rw [List.ofFn_succ]; exact sums_exist _ _

/-- The forward pass of every HMM with at least one state reaches every time. -/
theorem forward_exists {K : ℕ} (init : Fin (K + 1) → FX F) (trans : Fin (K + 1) → Fin (K + 1) → FX F) (obs : ℕ → Fin (K + 1) → FX F) (t : ℕ) :
    ∃ alpha ll, FloatHMM.Forward init trans obs t alpha ll := by
  have norm : ∀ u : Fin (K + 1) → FX F, ∃ w c, FloatHMM.Normalize u w c := fun u => by
    obtain ⟨s, hs⟩ := sums_ofFn fun k => whr ((u k).1 = fin 0) (lit 0) (whr (u k < lit 1e-15) (lit 1e-15) (u k))
    exact ⟨_, _, s, hs, rfl, fun k => rfl⟩
  induction t with
  | zero => obtain ⟨w, c, h⟩ := norm fun k => init k * obs 0 k; exact ⟨w, _, .zero h⟩
  | succ t ih =>
    obtain ⟨alpha, ll, h⟩ := ih
    choose m hm using fun j => sums_ofFn fun i => alpha i * trans i j
    obtain ⟨w, c, hn⟩ := norm fun j => obs (t + 1) j * m j
    exact ⟨w, _, .step h ⟨m, hm, c, hn, rfl⟩⟩

/-- Legal parameters: `loc = -3, scale = 2`; legal logits with an excluded category; a log-softmax, a softmax and an entropy exist. -/
example : (⟨lit (-3), lit 2⟩ : LS F).Legal := ⟨lit_finite (by have := F.top_ge; rw [abs_neg, abs_of_pos (by norm_num)]; linarith), 2, lit_two, by norm_num⟩

example : ∃ l : Fin 3 → FX F, FloatLogits l ∧ (l 1).1 = ninf ∧ (∃ r, FloatCat.LogSoftmax l r) ∧ (∃ p, FloatCat.Softmax l p) ∧
    ∃ e, FloatCat.Entropy l e := by
  refine ⟨![lit 0, negInf, lit 1], ⟨fun i => ?_, 0, 0, lit_zero⟩, rfl, ?_, ?_, ?_⟩
  · fin_cases i
    · exact .inl ⟨0, lit_zero⟩
    · exact .inr rfl
    · exact .inl ⟨1, lit_one⟩
  · obtain ⟨s, hs⟩ := sums_ofFn (F := F) fun i => exp ((![lit 0, negInf, lit 1] : Fin 3 → FX F) i - FloatCat.maxEntry ![lit 0, negInf, lit 1])
    exact ⟨_, s, hs, fun i => rfl⟩
  · obtain ⟨s, hs⟩ := sums_ofFn (F := F) fun i => exp ((![lit 0, negInf, lit 1] : Fin 3 → FX F) i - FloatCat.maxEntry ![lit 0, negInf, lit 1])
    exact ⟨_, s, hs, fun i => rfl⟩
  · obtain ⟨s, hs⟩ := sums_ofFn (F := F) fun i => exp ((![lit 0, negInf, lit 1] : Fin 3 → FX F) i - FloatCat.maxEntry ![lit 0, negInf, lit 1])
    obtain ⟨t, ht⟩ := sums_ofFn (F := F) fun i => mulExp (((![lit 0, negInf, lit 1] : Fin 3 → FX F) i - FloatCat.maxEntry ![lit 0, negInf, lit 1]) - log s)
      (((![lit 0, negInf, lit 1] : Fin 3 → FX F) i - FloatCat.maxEntry ![lit 0, negInf, lit 1]) - log s)
    exact ⟨_, _, t, ⟨s, hs, fun i => rfl⟩, ht, rfl⟩

/-- A quantized Laplace distribution with bounds 0 and 2 in every format. -/
example (v : FX F) (hv : v.finite) :
    FloatQuantized.logProb ⟨FloatLaplace.logCdf ⟨lit 0, lit 1⟩, FloatLaplace.logSf ⟨lit 0, lit 1⟩⟩ (some (lit 0)) (some (lit 2)) none v ≤ lit 0 := by
  have hd : (⟨lit 0, lit 1⟩ : LS F).Legal := ⟨⟨0, lit_zero⟩, 1, lit_one, one_pos⟩
  refine (C62_quantized ⟨_, _⟩ (C62_laplace_log _ hd).1 (C62_laplace_log _ hd).2 _ _ ?_ ?_).2.2 v hv
  · rintro x ⟨rfl⟩; exact lit_num 0
  · rintro x ⟨rfl⟩; exact lit_num 2

/-- A two-state HMM in `float32`-like formats: the hypotheses of `C61_hmm_forward` hold, and the forward pass with impossible
observations exists. -/
example (hf : FloatHMM.Fits F 2 0) (t : ℕ) : ∃ alpha ll,
    FloatHMM.Forward (fun _ : Fin 2 => lit (1 / 2)) (fun _ _ => lit (1 / 2)) (fun _ _ => lit 0) t alpha ll ∧ ¬ ll.isNan ∧
    ∀ k, alpha k ≤ (lit 1 : FX F) := by
  obtain ⟨alpha, ll, h⟩ := forward_exists (F := F) (fun _ : Fin 2 => lit (1 / 2)) (fun _ _ => lit (1 / 2)) (fun _ _ => lit 0) t
  have := C61_hmm_forward hf _ _ _ ⟨fun _ => ⟨lit_le (by norm_num), lit_le (by norm_num)⟩, fun _ _ => ⟨lit_le (by norm_num), lit_le (by norm_num)⟩,
    fun _ _ => ⟨rfl' (lit_num 0), lit_le (by norm_num)⟩⟩ t alpha ll h
  exact ⟨alpha, ll, h, this.2, fun k => (this.1 k).2⟩

end Distrax
