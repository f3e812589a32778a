import Verif.Lemmas.MathUtils
import Verif.Lemmas.Arr
import Mathlib.Analysis.SpecialFunctions.Pow.Deriv
import Mathlib.Analysis.SpecialFunctions.ExpDeriv
import Mathlib.Probability.Distributions.Beta

/-! Properties C16 (no-nan helpers) and C17 (normalize and log-space helpers). -/

namespace Distrax

open XR Spec Finset

/-! ### C16 -/

/-- A zero second factor gives 0, whatever the first is (nan and infinities included). -/
theorem C16_multiply_no_nan_zero (x : XR) : multiplyNoNan x (fin 0) = fin 0 :=
  XR.sel_pos (XR.eqB_zero.2 rfl)

/-- Otherwise it is the IEEE product. -/
theorem C16_multiply_no_nan_else (x y : XR) (h : y ≠ fin 0) : multiplyNoNan x y = x * y :=
  XR.sel_neg fun h' => h (XR.eqB_zero.1 h')

example : multiplyNoNan nan (fin 0) = fin 0 ∧ multiplyNoNan pinf (fin 0) = fin 0 ∧
    multiplyNoNan pinf (fin 2) = pinf ∧ multiplyNoNan (fin 3) (fin 2) = fin 6 := by
  refine ⟨C16_multiply_no_nan_zero _, C16_multiply_no_nan_zero _, ?_, ?_⟩
  · rw [C16_multiply_no_nan_else _ _ (by simp)]
    show XR.mul pinf (fin 2) = pinf
    simp [XR.mul, infOf]
  · rw [C16_multiply_no_nan_else _ _ (by simp)]; norm_num

/-- On finite numbers the helper is the product, also at 0. -/
theorem multiplyNoNan_fin (x y : ℝ) : multiplyNoNan (fin x) (fin y) = fin (x * y) := by
  by_cases h : y = 0
  · subst h; rw [C16_multiply_no_nan_zero]; simp
  · rw [C16_multiply_no_nan_else _ _ (by simpa using h)]; rfl

/-- The custom derivative: for finite arguments and any direction, the tangent output is the derivative of
`multiply_no_nan` along the line through `(x, y)` in that direction; the primal output is the function value. -/
theorem C16_multiply_no_nan_jvp (x y xd yd : ℝ) :
    (multiplyNoNanJvp (fin x) (fin y) (some (fin xd)) (some (fin yd))).1 = multiplyNoNan (fin x) (fin y) ∧
    ∃ d, (multiplyNoNanJvp (fin x) (fin y) (some (fin xd)) (some (fin yd))).2 = some (fin d) ∧
      ∃ g : ℝ → ℝ, (∀ t, multiplyNoNan (fin (x + t * xd)) (fin (y + t * yd)) = fin (g t)) ∧
        HasDerivAt g d 0 := by
  refine ⟨rfl, xd * y + yd * x, rfl, fun t => (x + t * xd) * (y + t * yd),
    fun t => multiplyNoNan_fin _ _, ?_⟩
  have h1 : HasDerivAt (fun t : ℝ => x + t * xd) xd 0 := by
    simpa using ((hasDerivAt_id (0 : ℝ)).mul_const xd).const_add x
  have h2 : HasDerivAt (fun t : ℝ => y + t * yd) yd 0 := by
    simpa using ((hasDerivAt_id (0 : ℝ)).mul_const yd).const_add y
  refine (h1.mul h2).congr_deriv ?_
  simp; ring

/-- A symbolically zero tangent of `y` keeps a non-finite `x` out of the derivative. -/
theorem C16_multiply_no_nan_jvp_symbolic (x : XR) (y xd : ℝ) :
    (multiplyNoNanJvp x (fin y) (some (fin xd)) none).2 = some (fin (xd * y)) ∧
    (multiplyNoNanJvp x (fin y) none none).2 = none := ⟨rfl, rfl⟩

/-- A zero exponent gives 1, whatever the base (nan and infinities included). -/
theorem C16_power_no_nan_zero (x : XR) : powerNoNan x (fin 0) = fin 1 :=
  XR.sel_pos (XR.eqB_zero.2 rfl)

/-- Otherwise it is IEEE `pow`. -/
theorem C16_power_no_nan_else (x y : XR) (h : y ≠ fin 0) : powerNoNan x y = XR.pow x y :=
  XR.sel_neg fun h' => h (XR.eqB_zero.1 h')

/-- On positive bases it is the real power. -/
theorem C16_power_no_nan_real {x : ℝ} (hx : 0 < x) (y : ℝ) : powerNoNan (fin x) (fin y) = fin (x ^ y) := by
  by_cases h : y = 0
  · subst h; rw [C16_power_no_nan_zero]; simp
  · rw [C16_power_no_nan_else _ _ (by simpa using h)]; simp [XR.pow, h, hx]

/-- Integer exponents, any finite base (negative and zero included): the ordinary integer power; a zero base with a negative
exponent gives `+inf`. -/
theorem C16_power_no_nan_int (x : ℝ) (k : ℤ) :
    (x ≠ 0 ∨ 0 ≤ k → powerNoNan (fin x) (fin k) = fin (x ^ k)) ∧ (x = 0 → k < 0 → powerNoNan (fin x) (fin k) = pinf) := by
  constructor
  · intro h
    by_cases hk : k = 0
    · subst hk; rw [Int.cast_zero, C16_power_no_nan_zero, zpow_zero]
    · have hk' : (k : ℝ) ≠ 0 := by exact_mod_cast hk
      rw [C16_power_no_nan_else _ _ (by simpa using hk')]
      simp only [XR.pow, if_neg hk']
      by_cases h1 : 0 < x
      · rw [if_pos h1, Real.rpow_intCast]
      · rw [if_neg h1]
        by_cases h2 : x = 0
        · subst h2
          have h3 : 0 < k := lt_of_le_of_ne (h.resolve_left (by simp)) (Ne.symm hk)
          rw [if_pos rfl, if_pos (by exact_mod_cast h3), zero_zpow _ hk]
        · rw [if_neg h2, if_pos ⟨k, rfl⟩, Real.rpow_intCast]
  · intro h0 hk
    subst h0
    have hk' : (k : ℝ) ≠ 0 := by exact_mod_cast hk.ne
    have hk2 : ¬ (0 : ℝ) < k := by push Not; exact_mod_cast hk.le
    rw [C16_power_no_nan_else _ _ (by simpa using hk')]
    simp [XR.pow, hk', hk2]

example : powerNoNan nan (fin 0) = fin 1 ∧ powerNoNan (fin 2) (fin 3) = fin 8 := by
  refine ⟨C16_power_no_nan_zero _, ?_⟩
  rw [C16_power_no_nan_real (by norm_num)]
  norm_num

/-- The custom derivative is the true derivative for every positive base, every exponent and direction. -/
theorem C16_power_no_nan_jvp {x : ℝ} (hx : 0 < x) (y xd yd : ℝ) :
    (powerNoNanJvp (fin x) (fin y) (fin xd) (fin yd)).1 = powerNoNan (fin x) (fin y) ∧
    ∃ d, (powerNoNanJvp (fin x) (fin y) (fin xd) (fin yd)).2 = fin d ∧
      ∃ g : ℝ → ℝ, (∀ᶠ t in nhds 0, powerNoNan (fin (x + t * xd)) (fin (y + t * yd)) = fin (g t)) ∧
        HasDerivAt g d 0 := by
  refine ⟨rfl, y * x ^ (y - 1) * xd + x ^ y * Real.log x * yd, ?_,
    fun t => (x + t * xd) ^ (y + t * yd), ?_, ?_⟩
  · simp only [powerNoNanJvp, one_def, fin_sub, C16_power_no_nan_real hx, log_fin_pos hx, fin_mul, fin_add]
  · have hc : Filter.Tendsto (fun t : ℝ => x + t * xd) (nhds 0) (nhds (x + 0 * xd)) :=
      (continuous_const.add (continuous_id.mul continuous_const)).tendsto 0
    have : ∀ᶠ t in nhds (0 : ℝ), 0 < x + t * xd := by
      have := hc.eventually (lt_mem_nhds (show (0 : ℝ) < x + 0 * xd by simpa using hx))
      exact this
    filter_upwards [this] with t ht
    exact C16_power_no_nan_real ht _
  · have h1 : HasDerivAt (fun t : ℝ => x + t * xd) xd 0 := by
      simpa using ((hasDerivAt_id (0 : ℝ)).mul_const xd).const_add x
    have h2 : HasDerivAt (fun t : ℝ => y + t * yd) yd 0 := by
      simpa using ((hasDerivAt_id (0 : ℝ)).mul_const yd).const_add y
    refine (h1.rpow h2 (by simpa using hx)).congr_deriv ?_
    simp; ring

/-- Finding: at base 0 the derivative is nan even when the exponent is not being differentiated, although
`x ↦ x^2` is smooth there. -/
theorem C16_power_no_nan_jvp_nan_at_zero :
    (powerNoNanJvp (fin 0) (fin 2) (fin 1) (fin 0)).2 = nan := by
  have h : powerNoNan (fin 0) (fin 2) = fin 0 := by
    rw [C16_power_no_nan_else _ _ (by simp)]; simp [XR.pow]
  simp only [powerNoNanJvp, h, log_fin_zero]
  have : (fin 0 * ninf : XR) = nan := by show XR.mul _ _ = _; simp [XR.mul, infOf]
  rw [this]
  have h2 : (nan * fin 0 : XR) = nan := rfl
  rw [h2, add_comm]; simp

/-- `mul_exp` is 0 at `logp = -inf` whatever `x` is. -/
theorem C16_mul_exp_zero (x : XR) : mulExp x ninf = fin 0 := by
  simp [mulExp, XR.zero_def, XR.sel_pos (show eqB (fin 0) (fin 0) from rfl)]

/-- Otherwise it is `x * exp(logp)`. -/
theorem C16_mul_exp_else (x logp : XR) (h : logp ≠ ninf) : mulExp x logp = x * XR.exp logp := by
  have : ¬ eqB (XR.exp logp) 0 := by
    rw [XR.eqB_zero]
    cases logp <;> simp_all [XR.exp]
  simp [mulExp, XR.sel_neg this]

/-- Zero gradient at `logp = -inf`, whatever `x` and its tangent are. -/
theorem C16_mul_exp_zero_gradient (x xDot : XR) (logpDot : ℝ) :
    mulExpJvp x ninf xDot (fin logpDot) = fin 0 := by
  simp [mulExpJvp, XR.zero_def, XR.sel_pos (show eqB (fin 0) (fin 0) from rfl)]

/-- True derivative at finite arguments. -/
theorem C16_mul_exp_jvp (x l xd ld : ℝ) :
    ∃ d, mulExpJvp (fin x) (fin l) (fin xd) (fin ld) = fin d ∧
      ∃ g : ℝ → ℝ, (∀ t, mulExp (fin (x + t * xd)) (fin (l + t * ld)) = fin (g t)) ∧ HasDerivAt g d 0 := by
  have hne : ∀ a : ℝ, ¬ eqB (XR.exp (fin a)) 0 := by
    intro a; rw [XR.eqB_zero]; simp [(Real.exp_pos a).ne']
  refine ⟨xd * Real.exp l + x * (Real.exp l * ld), ?_, fun t => (x + t * xd) * Real.exp (l + t * ld), ?_, ?_⟩
  · simp only [mulExpJvp, XR.sel_neg (hne l)]; simp
  · intro t; rw [C16_mul_exp_else _ _ (by simp)]; simp
  · have h1 : HasDerivAt (fun t : ℝ => x + t * xd) xd 0 := by
      simpa using ((hasDerivAt_id (0 : ℝ)).mul_const xd).const_add x
    have h2 : HasDerivAt (fun t : ℝ => l + t * ld) ld 0 := by
      simpa using ((hasDerivAt_id (0 : ℝ)).mul_const ld).const_add l
    refine (h1.mul h2.exp).congr_deriv ?_
    simp

example : mulExp pinf ninf = fin 0 ∧ mulExp nan ninf = fin 0 ∧ mulExp (fin 3) (fin 0) = fin 3 := by
  refine ⟨C16_mul_exp_zero _, C16_mul_exp_zero _, ?_⟩
  rw [C16_mul_exp_else _ _ (by simp)]; simp

/-! ### C17 -/

/-- `normalize(probs=p)`: for nonnegative `p` with positive sum, the result is `p / sum p`, a probability vector. -/
theorem C17_normalize_probs {n : ℕ} (p : Fin n → ℝ) (h0 : ∀ i, 0 ≤ p i) (hs : 0 < ∑ i, p i) :
    ∃ q : Fin n → ℝ, IsPmf q ∧ (∀ i, q i = p i / ∑ j, p j) ∧
      normalizeProbs (fun i => fin (p i)) = fun i => fin (q i) := by
  refine ⟨fun i => p i / ∑ j, p j, ⟨fun i => div_nonneg (h0 i) hs.le, ?_⟩, fun _ => rfl, ?_⟩
  · rw [← Finset.sum_div, div_self hs.ne']
  · funext i
    simp only [normalizeProbs, sum_fin]
    exact div_fin hs.ne'

/-- Idempotent and invariant under positive scaling. -/
theorem C17_normalize_probs_scale {n : ℕ} (p : Fin n → ℝ) (hs : 0 < ∑ i, p i) {c : ℝ} (hc : 0 < c) :
    normalizeProbs (fun i => fin (c * p i)) = normalizeProbs (fun i => fin (p i)) ∧
    normalizeProbs (normalizeProbs (fun i => fin (p i))) = normalizeProbs (fun i => fin (p i)) := by
  have hs' : ∑ i, c * p i = c * ∑ i, p i := (Finset.mul_sum ..).symm
  have e : normalizeProbs (fun i => fin (p i)) = fun i => fin (p i / ∑ j, p j) := by
    funext i; simp only [normalizeProbs, sum_fin]; exact div_fin hs.ne'
  constructor
  · rw [e]; funext i
    simp only [normalizeProbs, sum_fin, hs']
    rw [div_fin (by positivity), mul_div_mul_left _ _ hc.ne']
  · rw [e]; funext i
    simp only [normalizeProbs, sum_fin]
    rw [← Finset.sum_div, div_self hs.ne', div_fin one_ne_zero, div_one]

/-- A row of zeros has no normalisation: the result is nan. -/
theorem C17_normalize_probs_zero {n : ℕ} (i : Fin n) : normalizeProbs (fun _ : Fin n => fin 0) i = nan := by
  simp only [normalizeProbs, sum_fin, Finset.sum_const_zero]
  show XR.div _ _ = _
  simp [XR.div, infOf]

/-- `normalize(logits=l)` for legal logits (finite or `-inf`, at least one finite) is the entrywise log of the
normalised weights, and these form a probability vector. -/
theorem C17_normalize_logits {n : ℕ} {l : Fin n → XR} (h : LegalLogits l) :
    ∃ q : Fin n → ℝ, IsPmf q ∧ (∀ i, q i = weight (l i) / ∑ j, weight (l j)) ∧
      (∀ i, normalizeLogits l i = xlog (q i)) ∧ (∀ i, XR.exp (normalizeLogits l i) = fin (q i)) :=
  ⟨_, pmf_weights h, fun _ => rfl, fun i => logSoftmax_legal h i, fun i => by
    rw [show normalizeLogits l i = _ from logSoftmax_legal h i, exp_xlog ((pmf_weights h).nonneg i)]⟩

example : LegalLogits (![fin 1, ninf, fin (-3)] : Fin 3 → XR) :=
  ⟨by intro i; fin_cases i <;> simp, ⟨0, 1, rfl⟩⟩

theorem normalizeLogits_legal {n : ℕ} {l : Fin n → XR} (h : LegalLogits l) : LegalLogits (normalizeLogits l) := by
  have := legal_xlog (pmf_weights h)
  rwa [show normalizeLogits l = _ from funext fun i => logSoftmax_legal h i]

/-- Already normalised log-probabilities are returned unchanged. -/
theorem C17_normalize_logits_fixed {n : ℕ} {p : Fin n → ℝ} (h : IsPmf p) :
    normalizeLogits (fun i => xlog (p i)) = fun i => xlog (p i) := by
  funext i
  rw [normalizeLogits, logSoftmax_legal (legal_xlog h)]
  simp only [weight_xlog (h.nonneg _), h.sum_one, div_one]

/-- `normalize(logits=...)` is idempotent. -/
theorem C17_normalize_logits_idem {n : ℕ} {l : Fin n → XR} (h : LegalLogits l) :
    normalizeLogits (normalizeLogits l) = normalizeLogits l := by
  have e : normalizeLogits l = _ := funext fun i => logSoftmax_legal h i
  rw [e]; exact C17_normalize_logits_fixed (pmf_weights h)

/-- Adding a finite constant to all logits changes nothing. -/
theorem C17_normalize_logits_shift {n : ℕ} {l : Fin n → XR} (h : LegalLogits l) (c : ℝ) :
    normalizeLogits (fun i => l i + fin c) = normalizeLogits l := by
  have h' : LegalLogits (fun i => l i + fin c) := by
    refine ⟨fun i => ?_, ?_⟩
    · rcases h.entry i with e | ⟨a, e⟩ <;> simp [e]
    · obtain ⟨i, a, e⟩ := h.some_finite
      exact ⟨i, a + c, by simp [e]⟩
  have hw : ∀ i, weight (l i + fin c) = weight (l i) * Real.exp c := by
    intro i
    rcases h.entry i with e | ⟨a, e⟩ <;> simp [e, weight, Real.exp_add]
  funext i
  rw [normalizeLogits, normalizeLogits, logSoftmax_legal h', logSoftmax_legal h]
  simp only [hw, ← Finset.sum_mul]
  rw [mul_div_mul_right _ _ (Real.exp_pos c).ne']

/-- The two parameterisations agree: normalising the logs of weights gives the logs of the normalised weights. -/
theorem C17_normalize_agree {n : ℕ} (p : Fin n → ℝ) (h0 : ∀ i, 0 ≤ p i) (hs : 0 < ∑ i, p i) (i : Fin n) :
    normalizeLogits (fun i => XR.log (fin (p i))) i = XR.log (normalizeProbs (fun i => fin (p i)) i) := by
  have hl : LegalLogits (fun i => XR.log (fin (p i))) := by
    refine ⟨fun i => ?_, ?_⟩
    · simp only [XR.log_eq_xlog (h0 i)]; unfold xlog; split <;> simp
    · obtain ⟨i, -, hi⟩ := Finset.exists_lt_of_sum_lt (s := Finset.univ) (f := fun _ => (0:ℝ)) (g := p) (by simpa using hs)
      exact ⟨i, Real.log (p i), by simp [XR.log, hi]⟩
  rw [normalizeLogits, logSoftmax_legal hl]
  simp only [normalizeProbs, sum_fin, XR.log_eq_xlog (h0 _), weight_xlog (h0 _)]
  rw [div_fin hs.ne', XR.log_eq_xlog (div_nonneg (h0 i) hs.le)]

/-- `sum_last(x, 0)` is `x`. -/
theorem C17_sum_last_zero (a : Arr) : ∃ b, a.sumLast 0 = .ok b ∧ b ≈ₐ a := by
  refine ⟨_, by simp [Arr.sumLast]; rfl, ?_, ?_⟩
  · simp
  · intro i _; simp [allIdx]

theorem allIdx_append (s t : List ℕ) :
    allIdx (s ++ t) = (allIdx s).flatMap (fun i => (allIdx t).map (fun j => i ++ j)) := by
  induction s with
  | nil => simp [allIdx]
  | cons n s ih =>
    simp only [List.cons_append, allIdx, ih, List.map_flatMap, List.flatMap_assoc, List.map_map,
      List.flatMap_map]
    rfl

theorem sum_flatMap' {α : Type*} (L : List α) (f : α → List ℝ) :
    (L.flatMap f).sum = (L.map fun x => (f x).sum).sum := by
  induction L with
  | nil => simp
  | cons x L ih => simp [ih]

/-- Summing the last `m` axes and then the last `k` of what remains is summing the last `k + m`. -/
theorem C17_sum_last_add (a : Arr) (k m : ℕ) (h : k + m ≤ a.shape.length) :
    ∃ b c, a.sumLast m = .ok b ∧ b.sumLast k = .ok c ∧ a.sumLast (k + m) = .ok c := by
  have hm : m ≤ a.shape.length := by omega
  refine ⟨_, _, if_pos hm, ?_, if_pos h⟩
  have hl : (a.shape.take (a.shape.length - m)).length = a.shape.length - m := by simp
  simp only [Arr.sumLast, hl]
  rw [if_pos (by omega)]
  have e1 : a.shape.length - m - k = a.shape.length - (k + m) := by omega
  rw [e1]
  congr 2
  · rw [List.take_take]; congr 1; omega
  · funext i
    have e2 : a.shape.drop (a.shape.length - (k + m)) =
        (a.shape.take (a.shape.length - m)).drop (a.shape.length - (k + m)) ++ a.shape.drop (a.shape.length - m) := by
      conv_lhs => rw [← List.take_append_drop (a.shape.length - m) a.shape]
      rw [List.drop_append_of_le_length (by simp; omega)]
      simp
    rw [e2, allIdx_append]
    simp [List.map_flatMap, sum_flatMap', List.map_map, Function.comp_def]

/-- Summing one axis is the plain finite sum over that axis; with `C17_sum_last_zero` and `C17_sum_last_add` this determines
`sum_last(x, n)` for every `n`. -/
theorem C17_sum_last_one (a : Arr) (s : List ℕ) (n : ℕ) (h : a.shape = s ++ [n]) :
    ∃ b, a.sumLast 1 = .ok b ∧ b.shape = s ∧ ∀ i, b.data i = ∑ k : Fin n, a.data (i ++ [k.1]) := by
  have hl : a.shape.length - 1 = s.length := by rw [h]; simp
  refine ⟨_, if_pos (by rw [h]; simp), ?_, ?_⟩
  · simp [h]
  · intro i
    have e : allIdx (a.shape.drop (a.shape.length - 1)) = (List.range n).map fun k => [k] := by
      rw [hl, h]; simp [allIdx, ← List.flatMap_pure_eq_map]; rfl
    simp only [e, List.map_map]
    rw [← List.sum_ofFn, List.ofFn_eq_map, ← List.map_coe_finRange_eq_range, List.map_map]
    rfl

/-- Too many axes are rejected. -/
theorem C17_sum_last_rank (a : Arr) (n : ℕ) (h : a.shape.length < n) : a.sumLast n = .error .valueError := by
  simp [Arr.sumLast, h]

/-- `log_expbig_minus_expsmall(a, b) = log(e^a - e^b)` for `b ≤ a`, with `-inf` at `a = b`. -/
theorem C17_log_exp_minus_exp {a b : ℝ} (h : b ≤ a) :
    logExpbigMinusExpsmall (fin a) (fin b) = XR.log (fin (Real.exp a - Real.exp b)) := by
  have e : Real.exp a - Real.exp b = Real.exp a * (1 + -Real.exp (b - a)) := by
    rw [Real.exp_sub]; field_simp; ring
  unfold logExpbigMinusExpsmall
  simp only [fin_sub, exp_fin, neg_fin, log1p, one_def, fin_add]
  rcases h.lt_or_eq with h | rfl
  · have : 0 < 1 + -Real.exp (b - a) := by
      have : Real.exp (b - a) < 1 := by rw [← Real.exp_zero]; exact Real.exp_lt_exp.2 (by linarith)
      linarith
    rw [log_fin_pos this, e, log_fin_pos (by positivity), Real.log_mul (Real.exp_pos _).ne' this.ne', Real.log_exp]
    rfl
  · simp

/-- With `small = -inf` it returns `big`. -/
theorem C17_log_exp_minus_zero (a : ℝ) : logExpbigMinusExpsmall (fin a) ninf = fin a := by
  simp [logExpbigMinusExpsmall, log1p, one_def, show (ninf - fin a : XR) = ninf from rfl, log_fin_pos]

/-- Finding: `big = small = -inf` satisfies the documented precondition `small <= big` but gives nan. -/
theorem C17_log_exp_minus_ninf : logExpbigMinusExpsmall ninf ninf = nan ∧ leB ninf ninf := by
  refine ⟨?_, Or.inr trivial⟩
  simp only [logExpbigMinusExpsmall, ninf_sub_ninf]
  rfl

/-- `log_beta(a, b)` is the log of the Beta integral. -/
theorem C17_log_beta {a b : ℝ} (ha : 0 < a) (hb : 0 < b) :
    Real.exp (logBeta a b) = (Complex.betaIntegral a b).re ∧ logBeta a b = Real.log (ProbabilityTheory.beta a b) := by
  have e : logBeta a b = Real.log (ProbabilityTheory.beta a b) := by
    have h1 := Real.Gamma_pos_of_pos ha
    have h2 := Real.Gamma_pos_of_pos hb
    have h3 := Real.Gamma_pos_of_pos (add_pos ha hb)
    unfold logBeta lgamma ProbabilityTheory.beta
    rw [abs_of_pos h1, abs_of_pos h2, abs_of_pos h3, Real.log_div (by positivity) h3.ne',
      Real.log_mul h1.ne' h2.ne']
  refine ⟨?_, e⟩
  rw [e, Real.exp_log (ProbabilityTheory.beta_pos ha hb), ProbabilityTheory.beta_eq_betaIntegralReal a b ha hb]

example : ∃ a b : ℝ, 0 < a ∧ 0 < b := ⟨1, 2, by norm_num, by norm_num⟩

/-- The multivariate version with two entries is the bivariate one. -/
theorem C17_log_beta_two (a b : ℝ) : logBetaMultivariate ![a, b] = logBeta a b := by
  simp [logBetaMultivariate, logBeta]

/-- The multivariate beta function is symmetric and obeys the product decomposition: merging the first two
coordinates. -/
theorem C17_log_beta_multivariate_cons {n : ℕ} (a b : ℝ) (c : Fin n → ℝ) :
    logBetaMultivariate (Fin.cons a (Fin.cons b c)) =
      logBeta a b + logBetaMultivariate (Fin.cons (a + b) c : Fin (n + 1) → ℝ) := by
  simp only [logBetaMultivariate, logBeta, Fin.sum_univ_succ, Fin.cons_zero, Fin.cons_succ, add_assoc]
  ring

end Distrax
