import Verif.Props.FloatSample2
import Verif.Lemmas.FloatViterbi

/-!
C78: sampling in floating point (third part: `Categorical`, `Quantized`, `Transformed`).
-/

namespace Distrax

open XR FX Spec

variable {F : Fmt} {u η : ℝ}

/-! ### Categorical -/

/-- C78: a category of logit `-inf` is never drawn, so the log-probability of an own sample is not `-inf` (unless every perturbed logit
overflows). -/
theorem C78_categorical {n : ℕ} (l g : Fin (n + 1) → FX F) (hl : FloatLogits l) (hg : ∀ i, (g i).finite) (hj : ∃ j, (g j + l j).1 ≠ ninf) :
    (l (FSample.categorical l g)).finite := by
  have num : ∀ i, (g i + l i).Num := fun i => add_num_fin (hg i) (by
    rcases hl.1 i with h | h
    · exact h.num
    · intro c; change (l i).1 = nan at c; rw [h] at c; cases c)
  obtain ⟨j, hj⟩ := hj
  have hle := FVit.le_argmax (fun i => g i + l i) num j
  rcases hl.1 (FSample.categorical l g) with h | h
  · exact h
  · exfalso
    obtain ⟨x, hx⟩ := hg (FSample.categorical l g)
    have : (g (FSample.categorical l g) + l (FSample.categorical l g)).1 = ninf := by rw [add_val, hx, h]; rfl
    rw [le_def] at hle
    change leB _ (g (FSample.categorical l g) + l (FSample.categorical l g)).1 at hle
    rw [this] at hle
    exact hj (leB_ninf hle)

/-- C78: the noise is bounded, so a category whose logit is too far below another one is never drawn. -/
theorem C78_categorical_unreachable {n : ℕ} (l g : Fin (n + 1) → FX F) (hl : FloatLogits l) {lo hi : FX F} (hlo : lo.finite) (hhi : hi.finite)
    (hg : ∀ i, lo ≤ g i ∧ g i ≤ hi) {i j : Fin (n + 1)} (h : hi + l i < lo + l j) : FSample.categorical l g ≠ i := by
  have gf : ∀ i, (g i).finite := fun i => by
    obtain ⟨a, ha⟩ := hlo
    obtain ⟨b, hb⟩ := hhi
    have := hg i
    rw [le_def, le_def, ha, hb] at this
    rcases fin_or (hg i).1.numR with c | c | c
    · exact c
    · rw [c] at this; cases pinf_leB this.2
    · rw [c] at this; cases leB_ninf this.1
  have ln : ∀ i, (l i).Num := fun i => by
    rcases hl.1 i with h | h
    · exact h.num
    · intro c; change (l i).1 = nan at c; rw [h] at c; cases c
  have num : ∀ i, (g i + l i).Num := fun i => add_num_fin (gf i) (ln i)
  intro e
  have hle := FVit.le_argmax (fun i => g i + l i) num j
  change g j + l j ≤ g (FSample.categorical l g) + l (FSample.categorical l g) at hle
  rw [e] at hle
  have n1 := add_num_fin hhi (ln i)
  have n2 := add_num_fin hlo (ln j)
  have h1 : g i + l i ≤ hi + l i := add_le_add (hg i).2 (rfl' (ln i)) (num i) n1
  have h2 : lo + l j ≤ g j + l j := add_le_add (hg j).1 (rfl' (ln j)) n2 (num j)
  rw [lt_iff n1 n2] at h
  exact h ((h2.tr hle).tr h1)

/-- C78 (instance): with Gumbel noise between -5 and 16 (float32: between -4.48 and 15.95), the second category of logits `(0, -22)` is never
drawn although its probability is positive. -/
theorem C78_categorical_never (g : Fin 2 → FX F) (hg : ∀ i, lit (-5) ≤ g i ∧ g i ≤ lit 16) :
    FSample.categorical (n := 1) ![lit 0, lit (-22)] g = 0 ∧ 0 < Real.exp (-22) / (Real.exp 0 + Real.exp (-22)) := by
  have h5 : (lit (-5) : FX F).1 = fin (-5) := lit_val (F.rd_neg (by simpa using F.small 5 (by norm_num)))
  have h16 : (lit 16 : FX F).1 = fin 16 := lit_val F.rd_sixteen
  have h22 : (lit (-22) : FX F).1 = fin (-22) := lit_val (F.rd_neg (by
    have a : F.rd 11 = fin 11 := by simpa using F.small 11 (by norm_num)
    have := F.double a (by have := F.top_ge; norm_num; linarith)
    norm_num at this; exact this))
  refine ⟨?_, by positivity⟩
  have := C78_categorical_unreachable (n := 1) ![lit 0, lit (-22)] g ⟨fun i => by
    fin_cases i
    · exact Or.inl ⟨0, lit_zero⟩
    · exact Or.inl ⟨-22, h22⟩, 0, ⟨0, lit_zero⟩⟩ ⟨_, h5⟩ ⟨_, h16⟩ hg (i := 1) (j := 0) (by
      show (lit 16 + lit (-22) : FX F) < lit (-5) + lit 0
      rw [lt_def, add_zero', h5, add_val, h16, h22, fin_add]
      have : F.rd (16 + -22) = fin (-6) := by
        have := F.rd_neg (F.rd_nat 6 (by norm_num))
        norm_num at this ⊢; exact this
      show ltB (F.rd (16 + -22)) _
      rw [this]; norm_num [ltB])
  generalize FSample.categorical (n := 1) ![lit 0, lit (-22)] g = k at this
  fin_cases k
  · rfl
  · exact absurd rfl this

/-! ### Quantized -/

theorem binary_ceil {p : ℕ} {emin emax : ℤ} (hp : 1 ≤ p) (h0 : emin ≤ 0) (h1 : 0 ≤ emax) {x : ℝ} (h : x ∈ binary p emin emax) :
    ((⌈x⌉ : ℤ) : ℝ) ∈ binary p emin emax := by
  obtain ⟨m, e, hm, he0, he1, rfl⟩ := h
  rcases le_or_gt 0 e with c | c
  · lift e to ℕ using c
    have : (m : ℝ) * (2 : ℝ) ^ (e : ℤ) = ((m * 2 ^ e : ℤ) : ℝ) := by push_cast; rw [zpow_natCast]
    rw [this, Int.ceil_intCast, ← this]
    exact ⟨m, e, hm, he0, he1, rfl⟩
  · have hb : |(m : ℝ) * (2 : ℝ) ^ e| ≤ (2 : ℝ) ^ p / 2 := by
      rw [abs_mul, abs_of_pos (two_zpow_pos e)]
      have a : |(m : ℝ)| ≤ (2 : ℝ) ^ p := by
        have : |m| ≤ 2 ^ p := hm.le
        exact_mod_cast this
      have b : (2 : ℝ) ^ e ≤ (2 : ℝ) ^ (-1 : ℤ) := zpow_le_zpow_right₀ (by norm_num) (by omega)
      have := mul_le_mul a b (two_zpow_pos e).le (by positivity)
      norm_num at this ⊢
      linarith
    have two : (2 : ℝ) ^ p / 2 = ((2 ^ (p - 1) : ℤ) : ℝ) := by
      obtain ⟨q, rfl⟩ : ∃ q, p = q + 1 := ⟨p - 1, by omega⟩
      push_cast; simp [pow_succ]
    rw [two] at hb
    have hb' := abs_le.1 hb
    have c1 : ⌈(m : ℝ) * (2 : ℝ) ^ e⌉ ≤ 2 ^ (p - 1) := Int.ceil_le.2 hb'.2
    have c2 : -(2 ^ (p - 1) : ℤ) ≤ ⌈(m : ℝ) * (2 : ℝ) ^ e⌉ := by
      have := Int.ceil_mono hb'.1
      rwa [← Int.cast_neg, Int.ceil_intCast] at this
    refine ⟨⌈(m : ℝ) * (2 : ℝ) ^ e⌉, 0, ?_, h0, h1, by simp⟩
    have : (2 : ℤ) ^ (p - 1) < 2 ^ p := pow_lt_pow_right₀ (by norm_num) (by omega)
    rw [abs_lt]; constructor <;> omega

/-- C78: a sample of a `Quantized` distribution is an integer within the given bounds, and is the ceiling of the draw of the base when that
lies within the bounds. -/
theorem C78_quantized {p : ℕ} {emin emax : ℤ} (hI : IEEE p emin emax F.rd) (hp : 1 ≤ p) (h0 : emin ≤ 0) (h1 : 0 ≤ emax)
    (low high : Option (FX F)) (kl kh : ℤ) (hlow : ∀ l ∈ low, l.1 = fin kl) (hhigh : ∀ h ∈ high, h.1 = fin kh) (hle : kl ≤ kh) (base : FX F) {x : ℝ}
    (hx : base.1 = fin x) :
    ∃ k : ℤ, (FSample.quantized low high base).1 = fin k ∧ (low.isSome → kl ≤ k) ∧ (high.isSome → k ≤ kh) ∧
      ((low.isSome → kl ≤ ⌈x⌉) → (high.isSome → ⌈x⌉ ≤ kh) → k = ⌈x⌉) ∧ ((low.isSome ∧ ⌈x⌉ ≤ kl) → k = kl) ∧ ((high.isSome ∧ kh ≤ ⌈x⌉) → k = kh) := by
  have hc : (FSample.ceil base).1 = fin (⌈x⌉ : ℤ) := by
    rw [FSample.ceil, fn_val hx]
    show F.rd _ = _
    have mem := binary_ceil hp h0 h1 (RoundsToNearest.mem hI (rep hx)).2
    refine RoundsToNearest.rep hI mem ?_
    have := binary_le_top mem
    refine this.trans_lt ?_
    unfold ieeeTop
    have := two_zpow_pos emax
    nlinarith
  have cmp : ∀ {a b : FX F} {i j : ℤ}, a.1 = fin i → b.1 = fin j → (a < b ↔ i < j) := fun ha hb => by
    rw [lt_def, ha, hb]; simp [ltB]
  unfold FSample.quantized
  rcases low with _ | l <;> rcases high with _ | h
  · exact ⟨⌈x⌉, hc, by simp, by simp, by simp, by simp, by simp⟩
  · have hh := hhigh h rfl
    simp only [whr]
    split_ifs with c
    · rw [cmp hh hc] at c
      exact ⟨kh, hh, by simp, by simp, by intro _ d; have := d rfl; omega, by simp, by simp⟩
    · rw [cmp hh hc] at c
      exact ⟨⌈x⌉, hc, by simp, fun _ => by omega, fun _ _ => rfl, by simp, fun d => by have := d.2; omega⟩
  · have hl := hlow l rfl
    simp only [whr]
    split_ifs with c
    · rw [cmp hc hl] at c
      exact ⟨kl, hl, by simp, by simp, by intro d _; have := d rfl; omega, by simp, by simp⟩
    · rw [cmp hc hl] at c
      exact ⟨⌈x⌉, hc, fun _ => by omega, by simp, fun _ _ => rfl, fun d => by have := d.2; omega, by simp⟩
  · have hl := hlow l rfl
    have hh := hhigh h rfl
    dsimp only
    by_cases c : FSample.ceil base < l
    · have c' : ¬ h < l := by rw [cmp hh hl]; omega
      have w : whr (FSample.ceil base < l) l (FSample.ceil base) = l := if_pos c
      have w' : whr (h < l) h l = l := if_neg c'
      rw [w, w']
      rw [cmp hc hl] at c
      exact ⟨kl, hl, by simp, fun _ => hle, by intro d _; have := d rfl; omega, by simp, fun d => by have := d.2; omega⟩
    · have w : whr (FSample.ceil base < l) l (FSample.ceil base) = FSample.ceil base := if_neg c
      rw [w]
      rw [cmp hc hl] at c
      by_cases c' : h < FSample.ceil base
      · have w' : whr (h < FSample.ceil base) h (FSample.ceil base) = h := if_pos c'
        rw [w']
        rw [cmp hh hc] at c'
        exact ⟨kh, hh, fun _ => hle, by simp, by intro _ d; have := d rfl; omega, fun d => by have := d.2; omega, by simp⟩
      · have w' : whr (h < FSample.ceil base) h (FSample.ceil base) = FSample.ceil base := if_neg c'
        rw [w']
        rw [cmp hh hc] at c'
        exact ⟨⌈x⌉, hc, fun _ => by omega, fun _ => by omega, fun _ _ => rfl, fun d => by have := d.2; omega, fun d => by have := d.2; omega⟩

/-! ### Transformed -/

/-- Numbers within half the spacing below 1 round to 1. -/
theorem rounds_to_one {p : ℕ} {emin emax : ℤ} (hI : IEEE p emin emax F.rd) {x : ℝ} (h1 : 1 - (1 / 2) ^ (p + 1) < x) (h2 : x ≤ 1) : F.rd x = fin 1 := by
  have hh : ((1 : ℝ) / 2) ^ (p + 1) ≤ 1 / 2 := by
    rw [pow_succ]
    have : ((1 : ℝ) / 2) ^ p ≤ 1 := pow_le_one₀ (by norm_num) (by norm_num)
    linarith
  have ht := F.top_ge
  obtain ⟨y, hy⟩ := F.fits (x := x) (by rw [abs_of_nonneg (by linarith)]; linarith)
  obtain ⟨hl, yR⟩ := RoundsToNearest.mem hI hy
  obtain ⟨y', -, hy', near⟩ := hI.near x hl
  obtain rfl : y = y' := by rw [hy] at hy'; exact fin.inj hy'
  have oneR : (1 : ℝ) ∈ binary p emin emax := (RoundsToNearest.mem hI F.rd_one).2
  have n1 := near 1 oneR
  have y1 : y ≤ 1 := by have := F.mono h2; rw [hy, F.rd_one, leB_fin] at this; exact this
  rcases y1.eq_or_lt with e | lt
  · rw [hy, e]
  · exfalso
    rw [abs_sub_comm x 1, abs_of_nonneg (a := 1 - x) (by linarith)] at n1
    have yl : 1 - 2 * (1 / 2) ^ (p + 1) < y := by have := (abs_le.1 n1).2; linarith
    have yhalf : 0 < y := by
      have : 2 * ((1 : ℝ) / 2) ^ (p + 1) ≤ 1 := by linarith
      linarith
    obtain ⟨m, e, hm, -, -, rfl⟩ := yR
    have p2 : 2 * ((1 : ℝ) / 2) ^ (p + 1) = (2 : ℝ) ^ (-(p : ℤ)) := by
      rw [pow_succ, zpow_neg, zpow_natCast, one_div, inv_pow]; ring
    rw [p2] at yl
    have epos := two_zpow_pos e
    have m0 : 0 < m := by
      have : (0 : ℝ) < m := by by_contra c; push Not at c; nlinarith
      exact_mod_cast this
    have he : -(p : ℤ) ≤ e := by
      by_contra c
      push Not at c
      -- then `m 2^e < 2^p 2^e ≤ 1/2`, but also `m 2^e ≤ (2^p - 1) 2^e ≤ 1/2 - 2^e`
      have b : (2 : ℝ) ^ e ≤ (2 : ℝ) ^ (-(p : ℤ) - 1) := zpow_le_zpow_right₀ (by norm_num) (by omega)
      have a : (m : ℝ) ≤ (2 : ℝ) ^ p - 1 := by
        have : m ≤ 2 ^ p - 1 := by have := (abs_lt.1 hm).2; omega
        have := (Int.cast_le (R := ℝ)).2 this
        push_cast at this; exact this
      have q0 := two_zpow_pos (-(p : ℤ))
      have b2 : (2 : ℝ) ^ (-(p : ℤ) - 1) = (2 : ℝ) ^ (-(p : ℤ)) / 2 := by rw [zpow_sub₀ (by norm_num)]; norm_num
      have pp : (2 : ℝ) ^ p * (2 : ℝ) ^ (-(p : ℤ)) = 1 := by rw [← zpow_natCast, ← zpow_add₀ (by norm_num)]; simp
      rw [b2] at b
      have pg : (1 : ℝ) ≤ 2 ^ p := one_le_pow₀ (by norm_num)
      have c1 : (m : ℝ) * (2 : ℝ) ^ e ≤ ((2 : ℝ) ^ p - 1) * ((2 : ℝ) ^ (-(p : ℤ)) / 2) := mul_le_mul a b epos.le (by linarith)
      have c2 : ((2 : ℝ) ^ p - 1) * ((2 : ℝ) ^ (-(p : ℤ)) / 2) = 1 / 2 - (2 : ℝ) ^ (-(p : ℤ)) / 2 := by
        linear_combination (1 / 2) * pp
      have hq : (2 : ℝ) ^ (-(p : ℤ)) ≤ 1 := by nlinarith
      rw [c2] at c1
      linarith
    obtain ⟨k, hk⟩ : ∃ k : ℕ, e = -(p : ℤ) + k := ⟨(e + p).toNat, by omega⟩
    have hval : (m : ℝ) * (2 : ℝ) ^ e = ((m * 2 ^ k : ℤ) : ℝ) * (2 : ℝ) ^ (-(p : ℤ)) := by
      rw [hk, zpow_add₀ (by norm_num), zpow_natCast]; push_cast; ring
    rw [hval] at lt yl
    have q0 := two_zpow_pos (-(p : ℤ))
    have pp : (((2 ^ p : ℤ)) : ℝ) * (2 : ℝ) ^ (-(p : ℤ)) = 1 := by push_cast; rw [← zpow_natCast, ← zpow_add₀ (by norm_num)]; simp
    have i1 : (m * 2 ^ k : ℤ) < 2 ^ p := by
      by_contra c
      push Not at c
      have := mul_le_mul_of_nonneg_right ((Int.cast_le (R := ℝ)).2 c) q0.le
      rw [pp] at this
      linarith
    have i2 : (2 ^ p : ℤ) - 1 < m * 2 ^ k := by
      by_contra c
      push Not at c
      have := mul_le_mul_of_nonneg_right ((Int.cast_le (R := ℝ)).2 c) q0.le
      rw [Int.cast_sub, Int.cast_one, sub_mul, pp] at this
      linarith
    omega

theorem inv_exp_lt {r : ℝ} {p : ℕ} (h : (p + 1) * Real.log 2 ≤ r) : 1 / (1 + Real.exp r) < (1 / 2) ^ (p + 1) := by
  have h2 : (2 : ℝ) ^ (p + 1) ≤ Real.exp r := by
    have : (2 : ℝ) ^ (p + 1) = Real.exp ((p + 1) * Real.log 2) := by
      rw [mul_comm, Real.exp_mul, Real.exp_log (by norm_num)]
      rw [← Real.rpow_natCast]; push_cast; rfl
    rw [this]; exact Real.exp_le_exp.2 h
  have h0 : (0 : ℝ) < 2 ^ (p + 1) := by positivity
  rw [one_div_pow, one_div_lt_one_div (by positivity) h0]
  linarith

/-- C78: `Sigmoid` and `Tanh` saturate: from `(p + 1) log 2` (float32: 17.4) or `(p + 2) log 2 / 2` (float32: 9.02) on, `forward` returns exactly 1. -/
theorem C78_saturates {p : ℕ} {emin emax : ℤ} (hI : IEEE p emin emax F.rd) {x : FX F} {r : ℝ} (hx : x.1 = fin r) :
    ((p + 1) * Real.log 2 ≤ r → FloatBij.moreStableSigmoid x = lit 1) ∧
    ((p + 2) * Real.log 2 ≤ 2 * r → FX.tanh x = lit 1) := by
  have l2 := Real.log_pos (by norm_num : (1 : ℝ) < 2)
  have p0 : (0 : ℝ) ≤ p := by positivity
  refine ⟨fun h => ?_, fun h => ?_⟩
  · have r0 : 0 ≤ r := le_trans (by positivity) h
    have h9 : (lit (-9) : FX F).1 = fin (-9) := lit_val (F.rd_neg F.rd_nine)
    have : ¬ x < lit (-9) := by rw [lt_def, hx, h9]; simp [ltB]; linarith
    rw [FloatBij.moreStableSigmoid, whr, if_neg this]
    refine ext ?_
    rw [FX.sigmoid, fn_val hx, lit_one]
    have e : 1 / (1 + Real.exp (-r)) = 1 - 1 / (1 + Real.exp r) := by
      rw [Real.exp_neg]; have := Real.exp_pos r; field_simp; ring
    have b := inv_exp_lt h
    have b0 : 0 < 1 / (1 + Real.exp r) := by positivity
    show F.rd _ = _
    exact rounds_to_one hI (by rw [e]; linarith) (by rw [e]; linarith)
  · refine ext ?_
    rw [FX.tanh, fn_val hx, lit_one]
    have b := inv_exp_lt (p := p + 1) (r := 2 * r) (by push_cast; linarith)
    have b0 : 0 < 1 / (1 + Real.exp (2 * r)) := by positivity
    have e : 2 / (Real.exp (2 * r) + 1) = 2 * (1 / (1 + Real.exp (2 * r))) := by rw [add_comm]; ring
    have e2 : 2 * ((1 : ℝ) / 2) ^ (p + 1 + 1) = (1 / 2) ^ (p + 1) := by rw [pow_succ _ (p + 1)]; ring
    show F.rd _ = _
    exact rounds_to_one hI (by rw [e]; linarith) (by rw [e]; linarith)

/-- `Normal.log_prob` at the infinities. -/
theorem normal_log_prob_inf {d : LS F} (hd : d.Legal) {v : FX F} (hv : v.1 = pinf ∨ v.1 = ninf) : (FloatNormal.logProb d v).1 = ninf := by
  obtain ⟨⟨m, hm⟩, s, hs, s0⟩ := hd
  obtain ⟨c, hc⟩ := normal_const_finite (d := d) ⟨⟨m, hm⟩, s, hs, s0⟩
  have hz : (square (d.standardize v)).1 = pinf := by
    have : (d.standardize v).1 = pinf ∨ (d.standardize v).1 = ninf := by
      unfold LS.standardize
      rcases hv with h | h
      · left
        have e : (v - d.loc).1 = pinf := by rw [sub_val, h, hm]; rfl
        rw [div_val, e, hs]
        show F.r (if s < 0 then _ else _) = _
        rw [if_neg (not_lt.2 s0.le)]; rfl
      · right
        have e : (v - d.loc).1 = ninf := by rw [sub_val, h, hm]; rfl
        rw [div_val, e, hs]
        show F.r (if s < 0 then _ else _) = _
        rw [if_neg (not_lt.2 s0.le)]; rfl
    unfold square
    rcases this with h | h <;> rw [mul_val, h] <;> rfl
  have e : (lit (-(1 / 2)) * square (d.standardize v)).1 = ninf := by
    rw [mul_val, hz, lit_val (x := -(1 / 2)) (F.rd_neg F.half)]
    show F.r (infOf _) = _
    norm_num [infOf, Fmt.r]
  unfold FloatNormal.logProb
  rw [sub_val, e, hc]
  rfl

theorem sigmoid_fldj_inf {x : FX F} (h : x.1 = pinf ∨ x.1 = ninf) : (FloatBij.sigmoidFldj x).1 = ninf := by
  have h9 : (lit (-9) : FX F).1 = fin (-9) := lit_val (F.rd_neg F.rd_nine)
  have a : ∀ {y : FX F}, y.1 = ninf → FloatBij.moreStableSoftplus y = lit 0 := fun {y} hy => by
    rw [FloatBij.moreStableSoftplus, whr, if_pos (by rw [lt_def, hy, h9]; trivial)]
    have : FX.exp y = lit 0 := ext (by rw [FX.exp, fn_ninf hy]; rfl)
    rw [this, log1p_zero]
  have b : ∀ {y : FX F}, y.1 = pinf → (FloatBij.moreStableSoftplus y).1 = pinf := fun {y} hy => by
    rw [FloatBij.moreStableSoftplus, whr, if_neg (by rw [lt_def, hy, h9]; simp [ltB])]
    exact softplus_pinf hy
  unfold FloatBij.sigmoidFldj
  rcases h with h | h
  · rw [a (y := -x) (by rw [neg_val, h]; rfl), neg_zero', sub_val, lit_zero, b h]; rfl
  · rw [a h, sub_val, neg_val, b (y := -x) (by rw [neg_val, h]; rfl), lit_zero]; rfl

/-- C78: `log_prob` of a saturated sample of a transformed `Normal` is `nan`: for `Sigmoid` at 0 and 1, for `Tanh` at 1 and -1. -/
theorem C78_saturated_nan {d : LS F} (hd : d.Legal) :
    (FSample.transformedLogProb FSample.sigmoidBij (FloatNormal.logProb d) (lit 1)).isNan ∧
    (FSample.transformedLogProb FSample.sigmoidBij (FloatNormal.logProb d) (lit 0)).isNan ∧
    (FSample.transformedLogProb FSample.tanhBij (FloatNormal.logProb d) (lit 1)).isNan ∧
    (FSample.transformedLogProb FSample.tanhBij (FloatNormal.logProb d) (lit (-1))).isNan := by
  have m1 : (lit (-1) : FX F).1 = fin (-1) := lit_val (F.rd_neg F.rd_one)
  have sig : ∀ y : FX F, ((FX.log y - FX.log1p (-y)).1 = pinf ∨ (FX.log y - FX.log1p (-y)).1 = ninf) →
      (FSample.transformedLogProb FSample.sigmoidBij (FloatNormal.logProb d) y).isNan := fun y hy => by
    show (FloatNormal.logProb d (FX.log y - FX.log1p (-y)) + -(FloatBij.sigmoidFldj (FX.log y - FX.log1p (-y)))).1 = nan
    rw [add_val, normal_log_prob_inf hd hy, neg_val, sigmoid_fldj_inf hy]
    rfl
  refine ⟨sig _ (Or.inl ?_), sig _ (Or.inr ?_), ?_, ?_⟩
  · rw [sub_val, log_one, lit_zero]
    have : (FX.log1p (-(lit 1 : FX F))).1 = ninf := by
      rw [FX.log1p, fn_val (x := -1) (by rw [neg_val, lit_one]; rfl)]
      norm_num [XR.log, Fmt.r]
    rw [this]; rfl
  · rw [sub_val, neg_zero', log1p_zero, lit_zero]
    have : (FX.log (lit 0 : FX F)).1 = ninf := by
      rw [FX.log, fn_val lit_zero]
      norm_num [XR.log, Fmt.r]
    rw [this]; rfl
  · have e : (FSample.arctanh (lit 1 : FX F)).1 = pinf := by
      unfold FSample.arctanh
      rw [lit_one]
      show F.r (if _ then _ else _) = _
      rw [if_neg (by norm_num), if_pos rfl]; rfl
    show (FloatNormal.logProb d (FSample.arctanh (lit 1)) + -(FloatBij.tanhFldj (FSample.arctanh (lit 1)))).1 = nan
    rw [add_val, normal_log_prob_inf hd (Or.inl e), neg_val, (C61_tanh_infinite _).2 e]
    rfl
  · have e : (FSample.arctanh (lit (-1) : FX F)).1 = ninf := by
      unfold FSample.arctanh
      rw [m1]
      show F.r (if _ then _ else _) = _
      rw [if_neg (by norm_num), if_neg (by norm_num), if_pos rfl]; rfl
    show (FloatNormal.logProb d (FSample.arctanh (lit (-1))) + -(FloatBij.tanhFldj (FSample.arctanh (lit (-1))))).1 = nan
    have : (FloatBij.tanhFldj (FSample.arctanh (lit (-1) : FX F))).1 = nan := (C61_tanh_infinite _).1 e
    rw [add_val, normal_log_prob_inf hd (Or.inr e), neg_val, this]
    rfl

/-- C78: as documented, `sample_and_log_prob` avoids this: it never returns `nan`, whatever the sample (`Tanh`: up to a sixteenth of the
largest float). -/
theorem C78_joint_no_nan {d : LS F} (hd : d.Legal) {rnd : FX F} (hr : rnd.finite) (hS : (FSample.normal d rnd).finite) :
    ¬ (FSample.transformedJoint FSample.sigmoidBij (FSample.normalJoint d rnd)).2.isNan ∧
    (∀ r, (FSample.normal d rnd).1 = fin r → |r| ≤ F.top / 16 →
      ¬ (FSample.transformedJoint FSample.tanhBij (FSample.normalJoint d rnd)).2.isNan) := by
  have n1 : (FSample.normalJoint d rnd).2.Num := by
    show (lit (-(1 / 2)) * square rnd - FloatNormal.halfLog2pi - FX.log d.scale).Num
    refine sub_num_fin' (sub_num_fin' (neg_half_mul (square_nonneg hr.num)).numL ?_) (scale_log hd)
    exact lit_finite (by
      have := F.top_ge
      have a := half_log2pi_bounds.1
      have b := half_log2pi_bounds.2
      rw [abs_of_nonneg a]; linarith)
  refine ⟨?_, fun r h1 h2 => ?_⟩
  · exact sub_num_fin' n1 ((C61_sigmoid _ hS.num).2.2 hS)
  · exact sub_num_fin' n1 ((C61_tanh _ hS).2.2 r h1 h2)

end Distrax
