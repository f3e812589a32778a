import Verif.Model.FloatSample
import Verif.Spec.FloatSample
import Verif.Props.Float3
import Verif.Props.FloatAcc4

/-!
C78: sampling in floating point (first part: `Uniform` and `Bernoulli`).
-/

namespace Distrax

open XR FX Spec

variable {F : Fmt} {u η : ℝ}

theorem std_err (A : F.Acc u η) {x y : ℝ} (hx : 0 ≤ x) (h : F.rd x = fin y) : |y - x| ≤ u * x + η := by
  have := A.err h; rwa [abs_of_nonneg hx] at this

/-- The steps of `Uniform._sample_n`. -/
theorem uniform_steps (A : F.Acc u η) {low high w : FX F} {l h x : ℝ} (hl : low.1 = fin l) (hh : high.1 = fin h) (hlh : l < h)
    (hw : w.1 = fin x) (x0 : 0 ≤ x) (x1 : x ≤ 1 - 2 * u) (hr : (high - low).finite)
    (hs : (high - low).1 = fin (h - l) ∨ η ≤ 3 * u * u * (h - l)) :
    ∃ R P S : ℝ, (high - low).1 = fin R ∧ |R - (h - l)| ≤ u * (h - l) ∧ 0 ≤ R ∧ F.rd (R * x) = fin P ∧ 0 ≤ P ∧ |P - R * x| ≤ u * (R * x) + η ∧
      (FSample.uniform low high w).1 = fin S ∧ |S - (l + P)| ≤ u * |l + P| ∧ l ≤ S ∧ S ≤ h ∧ l + P ≤ h := by
  have u0 := A.u0
  have ul := A.u_le
  have xle : x ≤ 1 := by linarith
  obtain ⟨R, hR⟩ := hr
  have hR' : F.rd (h - l) = fin R := by rw [sub_val, hh, hl, fin_sub] at hR; exact hR
  have hRe : |R - (h - l)| ≤ u * (h - l) := by
    have := A.addErr (x := h) (y := -l) (z := R) (rep hh) (F.rd_neg (rep hl)) (by rw [← sub_eq_add_neg]; exact hR')
    rw [← sub_eq_add_neg, abs_of_pos (a := h - l) (by linarith)] at this
    exact this
  have R0 : 0 ≤ R := by
    have := F.mono (x := 0) (y := h - l) (by linarith)
    rw [hR', F.rd_zero, leB_fin] at this; exact this
  have Rrep := rep hR
  have Rtop := abs_le_top hR
  have Rx : R * x ≤ R := by nlinarith
  have Rx0 : 0 ≤ R * x := mul_nonneg R0 x0
  obtain ⟨P, hP⟩ := F.fits (x := R * x) (by rw [abs_of_nonneg Rx0]; have := le_abs_self R; linarith)
  have P0 : 0 ≤ P := by
    have := F.mono Rx0; rw [hP, F.rd_zero, leB_fin] at this; exact this
  have PR : P ≤ R := by
    have := F.mono Rx; rw [hP, Rrep, leB_fin] at this; exact this
  have Pe := std_err A Rx0 hP
  have top : l + P ≤ h := by
    rcases hs with hs | hs
    · rw [hR] at hs; have := fin.inj hs; linarith
    · have h1 : R ≤ (1 + u) * (h - l) := by have := (abs_le.1 hRe).2; linarith
      have h2 : R * x ≤ (1 + u) * (h - l) * (1 - 2 * u) := mul_le_mul h1 x1 x0 (by nlinarith)
      have h3 := (abs_le.1 Pe).2
      have h4 : (1 + u) * (R * x) ≤ (1 + u) * ((1 + u) * (h - l) * (1 - 2 * u)) := mul_le_mul_of_nonneg_left h2 (by linarith)
      have h5 : 0 ≤ u * u * u * (h - l) := by have := sub_pos.2 hlh; positivity
      nlinarith
  have hm : (((high - low) * w : FX F)).1 = fin P := by rw [mul_val, hR, hw, fin_mul]; exact hP
  obtain ⟨S, hS⟩ := F.fits (x := l + P) (by
    have a := abs_le.1 (abs_le_top hl)
    have b := abs_le.1 (abs_le_top hh)
    rw [abs_le]; constructor <;> linarith [a.1, a.2, b.1, b.2])
  have hS' : (FSample.uniform low high w).1 = fin S := by
    show (low + (high - low) * w).1 = _
    rw [add_val, hl, hm, fin_add]; exact hS
  refine ⟨R, P, S, hR, hRe, R0, hP, P0, Pe, hS', A.addErr (rep hl) (rep hm) hS, ?_, ?_, top⟩
  · have := F.mono (x := l) (y := l + P) (by linarith)
    rw [hS, rep hl, leB_fin] at this; exact this
  · have := F.mono top; rw [hS, rep hh, leB_fin] at this; exact this

/-- C78: a sample of `Uniform(low, high)` lies in `[low, high]`, so its own probability is the reciprocal of the computed range, never 0,
and it is the requested quantile of the interval up to rounding. -/
theorem C78_uniform_partial (A : F.Acc u η) {low high w : FX F} {l h x : ℝ} (hl : low.1 = fin l) (hh : high.1 = fin h) (hlh : l < h)
    (hw : w.1 = fin x) (hd : UnitDraw u w) (hr : (high - low).finite)
    (hs : (high - low).1 = fin (h - l) ∨ η ≤ 3 * u * u * (h - l)) :
    low ≤ FSample.uniform low high w ∧ FSample.uniform low high w ≤ high ∧
    FloatUniform.prob low high (FSample.uniform low high w) = lit 1 / (high - low) ∧
    (FSample.uniform low high w).Within (l + (h - l) * x) (u * (3 * (h - l) + |l| + |h|) + η) := by
  obtain ⟨x', hx', x0, x1⟩ := hd
  obtain rfl : x' = x := by rw [hw] at hx'; exact (fin.inj hx').symm
  obtain ⟨R, P, S, hR, hRe, R0, hP, P0, Pe, hS, Se, lS, Sh, lP⟩ := uniform_steps A hl hh hlh hw x0 x1 hr hs
  have u0 := A.u0
  have ul := A.u_le
  have e1 : low ≤ FSample.uniform low high w := by rw [le_def, hl, hS, leB_fin]; exact lS
  have e2 : FSample.uniform low high w ≤ high := by rw [le_def, hh, hS, leB_fin]; exact Sh
  refine ⟨e1, e2, ?_, S, hS, ?_⟩
  · rw [FloatUniform.prob, whr, if_neg]
    rw [not_or, lt_iff e1.numR e1.numL, lt_iff e2.numR e2.numL, not_not, not_not]
    exact ⟨e1, e2⟩
  · have hxle : x' ≤ 1 := by linarith
    have a1 : |R * x' - (h - l) * x'| ≤ u * (h - l) := by
      rw [← sub_mul, abs_mul, abs_of_nonneg x0]
      calc _ ≤ |R - (h - l)| * 1 := mul_le_mul_of_nonneg_left hxle (_root_.abs_nonneg _)
        _ ≤ _ := by linarith
    have a2 : u * (R * x') ≤ u * (2 * (h - l)) := by
      refine mul_le_mul_of_nonneg_left ?_ u0
      have : R ≤ 2 * (h - l) := by have := (abs_le.1 hRe).2; nlinarith
      nlinarith
    have a3 : |l + P| ≤ |l| + |h| := by
      rw [abs_le]
      constructor
      · linarith [neg_abs_le l, _root_.abs_nonneg h]
      · linarith [le_abs_self h, _root_.abs_nonneg l]
    have a4 := mul_le_mul_of_nonneg_left a3 u0
    have : S - (l + (h - l) * x') = (S - (l + P)) + (P - R * x') + (R * x' - (h - l) * x') := by ring
    rw [this]
    refine (abs_add_three _ _ _).trans ?_
    linarith

/-- C78: what goes wrong when the range overflows: samples of a `Uniform` with finite bounds are `nan` (draw 0) or lie above `high`. -/
theorem C78_uniform_overflow : ∃ low high : FX F, low.finite ∧ high.finite ∧ low < high ∧
    (FSample.uniform low high (lit 0)).isNan ∧ high < FSample.uniform low high (lit (1 / 2)) := by
  have ht := F.top_ge
  have t1 : (lit F.top : FX F).1 = fin F.top := lit_val F.top_rep
  have t2 : (lit (-F.top) : FX F).1 = fin (-F.top) := lit_val (F.rd_neg F.top_rep)
  have r : ((lit F.top : FX F) - lit (-F.top)).1 = pinf := by
    rw [sub_val, t1, t2, fin_sub]
    exact F.over (by linarith)
  refine ⟨lit (-F.top), lit F.top, ⟨_, t2⟩, ⟨_, t1⟩, ?_, ?_, ?_⟩
  · rw [lt_def, t1, t2]; simp [ltB]; linarith
  · show (lit (-F.top) + (lit F.top - lit (-F.top)) * lit 0 : FX F).1 = nan
    have : (pinf * fin 0 : XR) = nan := by show infOf _ = _; simp [infOf]
    rw [add_val, mul_val, r, lit_zero, t2, this]
    rfl
  · have h2 : (lit (1 / 2) : FX F).1 = fin (1 / 2) := lit_val F.half
    rw [lt_def, t1]
    show ltB _ (lit (-F.top) + (lit F.top - lit (-F.top)) * lit (1 / 2) : FX F).1
    rw [add_val, mul_val, r, h2, t2]
    have : (pinf * fin (1 / 2) : XR) = pinf := by show infOf _ = _; unfold infOf; rw [if_pos (by norm_num)]
    rw [this]
    simp [Fmt.r, ltB]

theorem log_ratio {a b ε : ℝ} (ha : 0 < a) (h : |b - a| ≤ ε * a) (he : ε ≤ 1 / 64) : 0 < b ∧ |Real.log b - Real.log a| ≤ 1.02 * ε := by
  have e0 : 0 ≤ ε := by
    have := (_root_.abs_nonneg _).trans h
    exact nonneg_of_mul_nonneg_left this ha
  have h' := abs_le.1 h
  have hb : 63 / 64 * a ≤ b := by nlinarith [h'.1]
  have b0 : 0 < b := by linarith
  refine ⟨b0, ?_⟩
  rw [← Real.log_div b0.ne' ha.ne']
  have r0 : 0 < b / a := div_pos b0 ha
  have r1 : |b / a - 1| ≤ ε := by
    rw [div_sub_one ha.ne', abs_div, abs_of_pos ha]; exact (div_le_iff₀ ha).2 h
  have r2 := abs_le.1 r1
  have r3 := Real.log_le_sub_one_of_pos r0
  have r4 := Real.one_sub_inv_le_log_of_pos r0
  rw [abs_le]
  constructor
  · have : (b / a)⁻¹ ≤ 1 + 1.02 * ε := by
      rw [inv_le_iff_one_le_mul₀ r0]
      nlinarith [r2.1]
    linarith
  · linarith [r2.2]

/-- C78: `sample_and_log_prob` and `log_prob(sample)` of a `Uniform` both report `-log(high - low)` up to rounding. -/
theorem C78_uniform_joint_partial (A : F.Acc u η) {low high w : FX F} {l h x : ℝ} (hl : low.1 = fin l) (hh : high.1 = fin h) (hlh : l < h)
    (hw : w.1 = fin x) (hd : UnitDraw u w) (hr : (high - low).finite)
    (hs : (high - low).1 = fin (h - l) ∨ η ≤ 3 * u * u * (h - l)) (h2 : 2 * (h - l) * η ≤ u) (h3 : 2 ≤ F.top * (h - l)) :
    (FSample.uniformJoint low high w).1 = FSample.uniform low high w ∧
    (FSample.uniformJoint low high w).2.Within (-Real.log (h - l)) (u * (|Real.log (h - l)| + 2)) ∧
    (FloatUniform.logProb low high (FSample.uniform low high w)).Within (-Real.log (h - l)) (u * (|Real.log (h - l)| + 4)) := by
  have hd' := hd
  obtain ⟨x', hx', x0, x1⟩ := hd
  obtain rfl : x' = x := by rw [hw] at hx'; exact (fin.inj hx').symm
  obtain ⟨R, P, S, hR, hRe, -⟩ := uniform_steps A hl hh hlh hw x0 x1 hr hs
  have hp := (C78_uniform_partial A hl hh hlh hw hd' hr hs).2.2.1
  have u0 := A.u0
  have ul := A.u_le
  have hpos : 0 < h - l := by linarith
  obtain ⟨R0, Rl⟩ := log_ratio hpos hRe (by linarith)
  refine ⟨rfl, ?_, ?_⟩
  · show (-(log (high - low))).Within _ _
    refine wu_neg ?_
    obtain ⟨y, hy, hb⟩ := wu_log A hR R0
    refine ⟨y, hy, ?_⟩
    have e1 : |y - Real.log (h - l)| ≤ |y - Real.log R| + |Real.log R - Real.log (h - l)| := abs_sub_le _ _ _
    have e2 : |Real.log R| ≤ |Real.log (h - l)| + 1.02 * u := by
      have := abs_sub_abs_le_abs_sub (Real.log R) (Real.log (h - l)); linarith
    have e3 := mul_le_mul_of_nonneg_left e2 u0
    have e4 : u * u ≤ u * (1 / 256) := mul_le_mul_of_nonneg_left ul u0
    nlinarith
  · unfold FloatUniform.logProb
    rw [hp]
    have Rlo : 255 / 256 * (h - l) ≤ R := by have := (abs_le.1 hRe).1; nlinarith
    have Rhi : R ≤ 257 / 256 * (h - l) := by have := (abs_le.1 hRe).2; nlinarith
    have i0 : 0 < 1 / R := by positivity
    have fq : (lit 1 / (high - low) : FX F).finite := by
      refine fin_div_of lit_one hR R0.ne' ?_
      rw [abs_of_pos i0, div_le_iff₀ R0]
      have := F.top_ge
      nlinarith
    obtain ⟨q, hq⟩ := fq
    have hq' : F.rd (1 / R) = fin q := by
      rw [div_val, lit_one, hR] at hq
      change F.r (if R = 0 then _ else _) = _ at hq
      rw [if_neg R0.ne'] at hq; exact hq
    have qe : |q - 1 / R| ≤ 2 * u * (1 / R) := by
      have := std_err A i0.le hq'
      have : η ≤ u * (1 / R) := by
        rw [mul_one_div, le_div_iff₀ R0]
        have := mul_le_mul_of_nonneg_left Rhi A.η0
        nlinarith [A.η0]
      linarith
    obtain ⟨q0, ql⟩ := log_ratio i0 qe (by linarith)
    rw [one_div, Real.log_inv] at ql
    obtain ⟨y, hy, hb⟩ := wu_log A hq q0
    refine ⟨y, hy, ?_⟩
    have e0 : |(-Real.log R) - (-Real.log (h - l))| ≤ 1.02 * u := by rw [← abs_neg]; convert Rl using 2; ring
    have e1 : |y - (-Real.log (h - l))| ≤ |y - Real.log q| + |Real.log q - (-Real.log R)| + |(-Real.log R) - (-Real.log (h - l))| := by
      have : y - (-Real.log (h - l)) = (y - Real.log q) + (Real.log q - (-Real.log R)) + ((-Real.log R) - (-Real.log (h - l))) := by ring
      rw [this]; exact abs_add_three _ _ _
    have e2 : |Real.log q| ≤ |Real.log (h - l)| + 3.06 * u := by
      have a := abs_sub_abs_le_abs_sub (Real.log q) (-Real.log R)
      have b := abs_sub_abs_le_abs_sub (-Real.log R) (-Real.log (h - l))
      rw [abs_neg (Real.log (h - l))] at b
      linarith
    have e3 := mul_le_mul_of_nonneg_left e2 u0
    have e4 : u * u ≤ u * (1 / 256) := mul_le_mul_of_nonneg_left ul u0
    nlinarith

/-! ### Bernoulli -/

/-- C78: a sample of a `Bernoulli` is 0 or 1; 1 is drawn only if its probability is positive, 0 only if the probability of 1 is below 1. -/
theorem C78_bernoulli_support (u0 : 0 < u) {p w : FX F} (h0 : lit 0 ≤ p) (hd : UnitDraw u w) :
    FSample.bernoulli p w = lit 1 ∧ w < p ∧ lit 0 < p ∨ FSample.bernoulli p w = lit 0 ∧ p ≤ w ∧ p < lit 1 := by
  obtain ⟨x, hx, x0, x1⟩ := hd
  have wn : w.Num := finite.num ⟨x, hx⟩
  have w0 : lit 0 ≤ w := by rw [le_def, lit_zero, hx, leB_fin]; exact x0
  have w1 : w < lit 1 := by rw [lt_def, lit_one, hx]; simp [ltB]; linarith
  by_cases h : w < p
  · refine Or.inl ⟨if_pos h, h, ?_⟩
    rw [lt_iff (lit_num 0) h0.numR]
    intro g
    rw [lt_iff wn h0.numR] at h
    exact h (g.tr w0)
  · have h' : p ≤ w := by rw [lt_iff wn h0.numR, not_not] at h; exact h
    refine Or.inr ⟨if_neg h, h', ?_⟩
    rw [lt_iff h0.numR (lit_num 1)]
    intro g
    rw [lt_iff wn (lit_num 1)] at w1
    exact w1 (g.tr h')

/-- C78: the log-probability of its own sample is finite for every `Bernoulli(probs=p)`, `p` in [0, 1], the ends included. -/
theorem C78_bernoulli_probs (u0 : 0 < u) {p w : FX F} (h0 : lit 0 ≤ p) (h1 : p ≤ lit 1) (hd : UnitDraw u w) :
    (FloatBern.logProb (FloatBern.logProbsP p) (FSample.bernoulli p w)).finite := by
  obtain ⟨e0, e1, -⟩ := bern_ok (bern_probs h0 h1)
  obtain ⟨x, hx, x0, x1⟩ := unit_fin h0 h1
  rcases C78_bernoulli_support u0 h0 hd with ⟨e, -, g⟩ | ⟨e, -, g⟩
  · rw [e, e1]
    rw [lt_def, lit_zero, hx] at g
    obtain ⟨y, hy, -⟩ := log_finite hx (by simpa [ltB] using g)
    exact ⟨y, hy⟩
  · rw [e, e0]
    rw [lt_def, lit_one, hx] at g
    show (log1p (lit (-1) * p)).finite
    rw [neg_one_mul']
    exact log1p_neg_finite hx x0 (by simpa [ltB] using g)

/-- C78: the same for `Bernoulli(logits=l)`, infinite logits included. -/
theorem C78_bernoulli_logits (u0 : 0 < u) {l w : FX F} (h : ¬ l.isNan) (hd : UnitDraw u w) :
    (FloatBern.logProb (FloatBern.logProbs l) (FSample.bernoulli (FloatBern.probs l).2 w)).finite := by
  have b := bern_logits h
  obtain ⟨e0, e1, -⟩ := bern_ok b
  have c := C61_bernoulli_logits l h
  rcases fin_or h with hf | hp | hn
  · rcases C78_bernoulli_support u0 b.p1.1 hd with ⟨e, -⟩ | ⟨e, -⟩
    · rw [e]; exact (c.2.2.2.2.1 hf).2
    · rw [e]; exact (c.2.2.2.2.1 hf).1
  · rcases C78_bernoulli_support u0 b.p1.1 hd with ⟨e, -⟩ | ⟨e, -, g⟩
    · rw [e, e1]
      show (-(FX.softplus (lit (-1) * l))).finite
      rw [neg_one_mul', softplus_ninf (by rw [neg_val, hp]; rfl), neg_zero']
      exact ⟨0, lit_zero⟩
    · exfalso
      have : (sigmoid l).1 = fin 1 := by rw [sigmoid, fn_pinf hp]; exact F.rd_one
      rw [lt_def, lit_one] at g
      change ltB (sigmoid l).1 _ at g
      rw [this] at g
      simp [ltB] at g
  · rcases C78_bernoulli_support u0 b.p1.1 hd with ⟨e, -, g⟩ | ⟨e, -⟩
    · exfalso
      have : (sigmoid l).1 = fin 0 := by rw [sigmoid, fn_ninf hn]; exact F.rd_zero
      rw [lt_def, lit_zero] at g
      change ltB _ (sigmoid l).1 at g
      rw [this] at g
      simp [ltB] at g
    · rw [e, e0]
      show (-(FX.softplus l)).finite
      rw [softplus_ninf hn, neg_zero']
      exact ⟨0, lit_zero⟩

/-- C78: how often 1 is drawn: among the `2^m` equally likely draws, `⌈p * 2^m⌉` are below `p`. -/
theorem C78_bernoulli_law (m : ℕ) {p : ℝ} (p0 : 0 ≤ p) (p1 : p ≤ 1) :
    frequency m (· < p) = ⌈p * 2 ^ m⌉₊ / 2 ^ m ∧ p ≤ frequency m (· < p) ∧ frequency m (· < p) < p + 1 / 2 ^ m := by
  have N0 : (0 : ℝ) < 2 ^ m := by positivity
  have key : frequency m (· < p) = ⌈p * 2 ^ m⌉₊ / 2 ^ m := by
    unfold frequency
    congr 2
    have hle : ⌈p * 2 ^ m⌉₊ ≤ 2 ^ m := by
      refine Nat.ceil_le.2 ?_
      push_cast
      nlinarith
    have e : ∀ k : Fin (2 ^ m), gridDraw m k < p ↔ (k : ℕ) < ⌈p * 2 ^ m⌉₊ := fun k => by
      unfold gridDraw
      rw [div_lt_iff₀ N0, Nat.lt_ceil]
    have c := Fin.card_filter_val_lt (n := 2 ^ m) (m := ⌈p * 2 ^ m⌉₊)
    rw [min_eq_right hle] at c
    rw [← c]
    congr 1
    ext k
    rw [Finset.mem_filter, Finset.mem_filter]
    exact and_congr_right fun _ => e k
  refine ⟨key, ?_, ?_⟩
  · rw [key, le_div_iff₀ N0]; exact Nat.le_ceil _
  · rw [key, div_lt_iff₀ N0, add_mul, one_div, inv_mul_cancel₀ N0.ne']
    exact Nat.ceil_lt_add_one (by positivity)

/-- C78: hence a 1 of positive but tiny probability is drawn far too often: never less than once in `2^m` draws. -/
theorem C78_bernoulli_rare (m : ℕ) {p : ℝ} (p0 : 0 < p) (p1 : p ≤ 1 / 2 ^ m) : frequency m (· < p) = 1 / 2 ^ m := by
  have N0 : (0 : ℝ) < 2 ^ m := by positivity
  have h1 : p ≤ 1 := p1.trans (by rw [div_le_one N0]; exact one_le_pow₀ (by norm_num))
  rw [(C78_bernoulli_law m p0.le h1).1]
  have : ⌈p * 2 ^ m⌉₊ = 1 := by
    rw [Nat.ceil_eq_iff (by norm_num)]
    refine ⟨by simpa using mul_pos p0 N0, ?_⟩
    rw [le_div_iff₀ N0] at p1
    simpa using p1
  rw [this]; simp

end Distrax
