import Verif.Props.Float

/-! C61 continued: distributions. -/

namespace Distrax

open FX Spec
open XR (fin pinf ninf nan leB ltB leB_fin leB_pinf ninf_leB pinf_leB leB_ninf fin_sub fin_mul fin_add infOf)

variable {F : Fmt}

/-- Parameters a user may give: finite location, positive finite scale. -/
def LS.Legal (d : LS F) : Prop := d.loc.finite ∧ Pos d.scale

theorem std_num {d : LS F} (hd : d.Legal) {v : FX F} (hv : v.finite) : (d.standardize v).Num := by
  obtain ⟨s, hs, hp⟩ := hd.2
  exact (div_pos_mono hs hp (rfl' (sub_num_fin hv hd.1.num))).numR

theorem std_mono {d : LS F} (hd : d.Legal) {v w : FX F} (hv : v.finite) (hw : w.finite) (h : v ≤ w) :
    d.standardize v ≤ d.standardize w := by
  obtain ⟨s, hs, hp⟩ := hd.2
  refine div_pos_mono hs hp ?_
  rw [sub_eq, sub_eq]
  exact add_le_add h (rfl' (neg_num.2 hd.1.num)) (by rw [← sub_eq]; exact sub_num_fin hv hd.1.num)
    (by rw [← sub_eq]; exact sub_num_fin hw hd.1.num)

theorem std_loc {d : LS F} (hd : d.Legal) : d.standardize d.loc = lit 0 := by
  obtain ⟨s, hs, hp⟩ := hd.2
  unfold LS.standardize
  rw [sub_self' hd.1, zero_div' hs hp]

theorem scale_log {d : LS F} (hd : d.Legal) : (log d.scale).finite := by
  obtain ⟨s, hs, hp⟩ := hd.2
  obtain ⟨y, hy, -⟩ := log_finite hs hp
  exact ⟨y, hy⟩

theorem half_log2pi_bounds : 0 ≤ Real.log (2 * Real.pi) / 2 ∧ Real.log (2 * Real.pi) / 2 ≤ 1 := by
  have h3 := Real.pi_gt_three
  have h4 := Real.pi_lt_d2
  have hl : Real.log (2 * Real.pi) ≤ 2 := by
    rw [Real.log_le_iff_le_exp (by linarith)]
    have : (2.7 : ℝ) < Real.exp 1 := by have := Real.exp_one_gt_d9; linarith
    have e : Real.exp 2 = Real.exp 1 * Real.exp 1 := by rw [← Real.exp_add]; norm_num
    nlinarith
  have h0 : 0 ≤ Real.log (2 * Real.pi) := Real.log_nonneg (by linarith)
  constructor <;> linarith

theorem normal_const_finite {d : LS F} (hd : d.Legal) : (FloatNormal.halfLog2pi + log d.scale).finite := by
  rw [add_comm']
  exact add_small_finite (scale_log hd) (lit_le half_log2pi_bounds.1) (lit_le half_log2pi_bounds.2)

/-- `Normal.log_prob` is never `nan` on finite parameters and values, and `entropy` is finite. -/
theorem C61_normal (d : LS F) (hd : d.Legal) :
    (∀ v, v.finite → ¬ (FloatNormal.logProb d v).isNan) ∧ (FloatNormal.entropy d).finite := by
  refine ⟨fun v hv => ?_, ?_⟩
  · exact sub_num_fin' (neg_half_mul (square_nonneg (std_num hd hv))).numL (normal_const_finite hd)
  · unfold FloatNormal.entropy
    rw [add_comm']
    exact add_small_finite (normal_const_finite hd) (lit_le (by norm_num)) (lit_le (by norm_num))

theorem log_diff {p q : LS F} (hp : p.Legal) (hq : q.Legal) :
    ∃ x, (log p.scale - log q.scale).1 = fin x ∧ |x| ≤ 2 * F.lb := by
  obtain ⟨s, hs, hs0⟩ := hp.2
  obtain ⟨t, ht, ht0⟩ := hq.2
  obtain ⟨y, hy, hy1⟩ := log_finite hs hs0
  obtain ⟨z, hz, hz1⟩ := log_finite ht ht0
  have b := F.lb_le
  have b0 := F.top_ge
  have l0 : 0 ≤ F.lb := (_root_.abs_nonneg y).trans hy1
  have y1 := abs_le.1 hy1
  have z1 := abs_le.1 hz1
  obtain ⟨x, hx, hb⟩ := rd_bound' (F := F) (x := y - z) (rd_double l0 F.lb_rep (by linarith)) (by rw [abs_le]; constructor <;> linarith)
  exact ⟨x, by rw [sub_val, hy, hz, fin_sub]; exact hx, hb⟩

theorem half_mul_nonneg {a : FX F} (h : lit 0 ≤ a) : lit 0 ≤ lit (1 / 2) * a := by
  have := mul_pos_mono lit_half (by norm_num) h
  rwa [mul_pos_zero lit_half] at this

/-- The exact condition under which `Normal` KL is `nan` on finite parameters: both `loc / scale2` quotients overflow to the same
infinity.  Otherwise the computed KL is nonnegative. -/
theorem normal_kl {p q : LS F} (hp : p.Legal) (hq : q.Legal) :
    ((p.loc / q.scale - q.loc / q.scale).isNan → (FloatNormal.kl p q).isNan) ∧
    (¬ (p.loc / q.scale - q.loc / q.scale).isNan → lit 0 ≤ FloatNormal.kl p q) := by
  obtain ⟨x, hx, hxb⟩ := log_diff hp hq
  have b := F.lb_le
  have b0 := F.top_ge
  refine ⟨fun h => ?_, fun h => ?_⟩
  · have h' : (p.loc / q.scale - q.loc / q.scale).1 = nan := h
    show (FloatNormal.kl p q).1 = nan
    unfold FloatNormal.kl square
    simp only [sub_val _ (log p.scale - log q.scale), add_val, mul_val, h']
    rw [lit_half]
    show F.r (F.r (F.r nan + _) - _) = nan
    simp [Fmt.r, XR.sub_def]
  · have e2 : (lit 2 * (log p.scale - log q.scale)).1 = fin (2 * x) := double_val hx hxb (by linarith)
    have A : lit 0 ≤ lit (1 / 2) * square (p.loc / q.scale - q.loc / q.scale) := half_mul_nonneg (square_nonneg h)
    -- the second term is at least the log-ratio of the scales
    have B : log p.scale - log q.scale ≤ lit (1 / 2) * expm1 (lit 2 * (log p.scale - log q.scale)) := by
      have h1 : lit 2 * (log p.scale - log q.scale) ≤ expm1 (lit 2 * (log p.scale - log q.scale)) := by
        rw [le_def, expm1, fn_val e2, e2]
        show leB (fin (2 * x)) (F.rd (Real.exp (2 * x) - 1))
        rw [← rep e2]
        exact F.mono (by have := Real.add_one_le_exp (2 * x); linarith)
      have h2 := mul_pos_mono lit_half (by norm_num) h1
      refine LE.le.tr ?_ h2
      rw [le_def, mul_val, e2, lit_half, fin_mul, hx]
      show leB (fin x) (F.rd _)
      rw [show 1 / 2 * (2 * x) = x by ring, rep hx]
      exact leB_fin.2 le_rfl
    have Bn : (lit (1 / 2) * expm1 (lit 2 * (log p.scale - log q.scale))).1 ≠ ninf := by
      intro g
      rw [le_def, g, hx] at B
      have := leB_ninf B
      cases this
    have C : log p.scale - log q.scale ≤
        lit (1 / 2) * square (p.loc / q.scale - q.loc / q.scale) + lit (1 / 2) * expm1 (lit 2 * (log p.scale - log q.scale)) := by
      rw [add_comm']
      exact LE.le.tr B (le_add B.numR Bn A)
    exact sub_nonneg C (sub_num_fin' C.numR ⟨x, hx⟩)

/-- FINDING.  `KL(p || p)` of a Normal with finite parameters is `nan` when `loc / scale` overflows (normal.py divides the two
locations by the scale before subtracting them); otherwise it is exactly 0. -/
theorem C61_normal_kl_self (p : LS F) (hp : p.Legal) :
    ((p.loc / p.scale).finite → FloatNormal.kl p p = lit 0) ∧ (¬ (p.loc / p.scale).finite → (FloatNormal.kl p p).isNan) := by
  refine ⟨fun h => ?_, fun h => (normal_kl hp hp).1 ?_⟩
  · have e0 : log p.scale - log p.scale = lit 0 := sub_self' (scale_log hp)
    have e1 : p.loc / p.scale - p.loc / p.scale = lit 0 := sub_self' h
    have e2 : expm1 (lit 2 * lit 0 : FX F) = lit 0 := by
      rw [mul_pos_zero lit_two]
      exact ext (by rw [expm1, fn_val lit_zero, Real.exp_zero, sub_self, lit_zero]; exact F.rd_zero)
    have e3 : square (lit 0 : FX F) = lit 0 := mul_pos_zero lit_zero
    unfold FloatNormal.kl
    simp only [e0, e1, e2, e3, mul_pos_zero lit_half, add_zero']
    exact sub_self' ⟨0, lit_zero⟩
  · obtain ⟨s, hs, hs0⟩ := hp.2
    have n : (p.loc / p.scale).Num := (div_pos_mono hs hs0 (rfl' hp.1.num)).numR
    show (p.loc / p.scale - p.loc / p.scale).1 = nan
    rw [sub_val]
    rcases fin_or n with g | g | g
    · exact absurd g h
    · rw [g]; rfl
    · rw [g]; rfl

/-- Overflowing quotients of finite floats exist in every format: the largest number divided by one half. -/
theorem overflow_div {t : FX F} (ht : t.1 = fin F.top) :
    (t / lit (1 / 2)).1 = pinf ∧ (-t / lit (1 / 2)).1 = ninf := by
  have h1 : (t / lit (1 / 2)).1 = pinf := by
    rw [div_val, ht, lit_half, XR.div_fin (by norm_num)]
    exact F.over (by rw [div_div_eq_mul_div]; linarith)
  exact ⟨h1, by rw [neg_div' lit_half (by norm_num), neg_val, h1]; rfl⟩

/-- FINDING, with a witness in every format: `KL(p || p) = nan` for `p = Normal(loc = max, scale = 0.5)`. -/
theorem C61_normal_kl_nan : ∃ p : LS F, p.Legal ∧ (FloatNormal.kl p p).isNan := by
  have ht : (lit F.top : FX F).1 = fin F.top := F.top_rep
  have hl : (⟨lit F.top, lit (1 / 2)⟩ : LS F).Legal := ⟨⟨_, ht⟩, 1 / 2, lit_half, by norm_num⟩
  refine ⟨⟨lit F.top, lit (1 / 2)⟩, hl, (C61_normal_kl_self _ hl).2 fun ⟨x, hx⟩ => ?_⟩
  have := (overflow_div ht).1
  simp only at hx
  rw [this] at hx; cases hx

/-! ### Laplace -/

theorem sub_num_nonpos {a b : FX F} (ha : a ≤ lit 0) (hb : lit 0 ≤ b) : (a - b).Num := by
  rw [sub_eq]; exact add_num_nonpos ha (neg_nonpos hb)

/-- `Laplace.log_prob` and the KL divergence are never `nan` on finite parameters and values; `KL(p || p)` is exactly 0. -/
theorem C61_laplace (d : LS F) (hd : d.Legal) :
    (∀ v, v.finite → ¬ (FloatLaplace.logProb d v).isNan) ∧
    (∀ q : LS F, q.Legal → ¬ (FloatLaplace.kl d q).isNan) ∧ FloatLaplace.kl d d = lit 0 := by
  refine ⟨fun v hv => ?_, fun q hq => ?_, ?_⟩
  · exact sub_num_fin' (sub_num_nonpos (neg_nonpos (abs_nonneg (std_num hd hv))) lit_log2_mem.1) (scale_log hd)
  · obtain ⟨x, hx, hxb⟩ := log_diff hd hq
    obtain ⟨s, hs, hs0⟩ := hd.2
    obtain ⟨t, ht, ht0⟩ := hq.2
    have D : lit 0 ≤ abs (d.loc - q.loc) := abs_nonneg (sub_num_fin hd.1 hq.1.num)
    have D1 : lit 0 ≤ abs (d.loc - q.loc) / q.scale := by
      have := div_pos_mono ht ht0 D; rwa [zero_div' ht ht0] at this
    have D2 : (-(abs (d.loc - q.loc)) / d.scale).Num := (div_pos_mono hs hs0 (rfl' (neg_num.2 D.numR))).numR
    have f : (-(log d.scale - log q.scale)).finite := neg_finite.2 ⟨x, hx⟩
    have fn' : (-(log d.scale - log q.scale)).1 ≠ ninf := by obtain ⟨y, hy⟩ := f; rw [hy]; simp
    have E : -(log d.scale - log q.scale) ≤ -(log d.scale - log q.scale) + abs (d.loc - q.loc) / q.scale := le_add f.num fn' D1
    -- subtracting one from a number that is not `-inf` does not reach `-inf`
    have G : (-(log d.scale - log q.scale) + abs (d.loc - q.loc) / q.scale - lit 1).Num ∧
        (-(log d.scale - log q.scale) + abs (d.loc - q.loc) / q.scale - lit 1).1 ≠ ninf := by
      have n := sub_num_fin' E.numR (⟨1, lit_one⟩ : (lit 1 : FX F).finite)
      refine ⟨n, fun g => ?_⟩
      rcases fin_or E.numR with ⟨y, hy⟩ | hy | hy
      · have hb := abs_le.1 (abs_le_top hy)
        obtain ⟨z, hz⟩ := F.fits (x := y - 1) (by rw [abs_le]; constructor <;> linarith)
        rw [sub_val, hy, lit_one, fin_sub] at g
        change F.rd (y - 1) = ninf at g
        rw [hz] at g; cases g
      · rw [sub_val, hy, lit_one] at g; cases g
      · rw [le_def, hy] at E; exact fn' (leB_ninf E)
    have X : lit 0 ≤ exp (-(abs (d.loc - q.loc)) / d.scale + (log d.scale - log q.scale)) :=
      exp_nonneg (add_num_fin' D2 ⟨x, hx⟩)
    exact add_num_iff.2 ⟨G.1, X.numR, fun g => ne_ninf_of_le X zero_fits g.2, fun g => G.2 g.1⟩
  · obtain ⟨s, hs, hs0⟩ := hd.2
    have e0 : log d.scale - log d.scale = lit 0 := sub_self' (scale_log hd)
    have e1 : d.loc - d.loc = lit 0 := sub_self' hd.1
    have e2 : abs (lit 0 : FX F) = lit 0 := by
      rcases abs_cases (lit_num (F := F) 0) with ⟨e, -⟩ | ⟨e, -⟩ <;> rw [e]
      exact neg_zero'
    unfold FloatLaplace.kl
    simp only [e0, e1, e2, neg_zero', zero_div' hs hs0, add_zero', exp_zero]
    rw [sub_eq, zero_add']
    exact ext (by rw [add_val, neg_val]; simp; exact F.rd_zero)

/-! ### Logistic -/

theorem two_mul_num {a : FX F} (h : a.Num) : (lit 2 * a).Num := mul_num lit_two (by norm_num) h

/-- `Logistic.log_prob` of finite parameters and value is `nan` exactly when the standardised value overflows to `-inf`. -/
theorem C61_logistic (d : LS F) (hd : d.Legal) (v : FX F) (hv : v.finite) :
    (FloatLogistic.logProb d v).isNan ↔ (d.standardize v).1 = ninf := by
  have n := std_num hd hv
  set z := d.standardize v with hz
  constructor
  · intro h
    by_contra g
    refine absurd h (sub_num_fin' ?_ (scale_log hd))
    have sn := softplus_nonneg (neg_num.2 n)
    rcases fin_or n with hf | hf | hf
    · exact sub_num_fin (neg_finite.2 hf) (two_mul_num sn.numR)
    · have e : (-z).1 = ninf := by rw [neg_val, hf]; rfl
      rw [softplus_ninf e, mul_pos_zero lit_two]
      exact sub_num_fin' (neg_num.2 n) ⟨0, lit_zero⟩
    · exact absurd hf g
  · intro h
    have e : (-z).1 = pinf := by rw [neg_val, h]; rfl
    show (-z - lit 2 * softplus (-z) - log d.scale).1 = nan
    obtain ⟨y, hy⟩ := scale_log hd
    have e2 : (lit 2 * softplus (-z)).1 = pinf := by
      rw [mul_val, softplus_pinf e, lit_two]; show F.r (infOf 2) = _; norm_num [infOf, Fmt.r]
    rw [sub_val, sub_val, e, e2, hy]
    rfl

/-- FINDING: `Logistic.log_prob` and `Gumbel.log_prob` return `nan` on finite inputs when the standardised value overflows on the left,
in every format: `loc = 0, scale = 0.5, value = -max`.  On the right the results are `-inf`, as they should be. -/
theorem C61_left_tail_nan : ∃ (d : LS F) (v w : FX F), d.Legal ∧ v.finite ∧ w.finite ∧
    (FloatLogistic.logProb d v).isNan ∧ (FloatGumbel.logProb d v).isNan ∧
    (FloatLogistic.logProb d w).1 = ninf ∧ (FloatGumbel.logProb d w).1 = ninf := by
  have ht : (lit F.top : FX F).1 = fin F.top := F.top_rep
  have hl : (⟨lit 0, lit (1 / 2)⟩ : LS F).Legal := ⟨⟨0, lit_zero⟩, 1 / 2, lit_half, by norm_num⟩
  have s0 : ∀ a : FX F, a - lit 0 = a := fun a => by rw [sub_eq, neg_zero', add_zero']
  obtain ⟨o1, o2⟩ := overflow_div ht
  have z1 : ((⟨lit 0, lit (1 / 2)⟩ : LS F).standardize (-(lit F.top))).1 = ninf := by
    unfold LS.standardize; rw [s0, o2]
  have z2 : ((⟨lit 0, lit (1 / 2)⟩ : LS F).standardize (lit F.top)).1 = pinf := by
    unfold LS.standardize; rw [s0, o1]
  obtain ⟨y, hy⟩ := scale_log hl
  simp only at hy
  refine ⟨⟨lit 0, lit (1 / 2)⟩, -(lit F.top), lit F.top, hl, neg_finite.2 ⟨_, ht⟩, ⟨_, ht⟩,
    (C61_logistic _ hl _ (neg_finite.2 ⟨_, ht⟩)).2 z1, ?_, ?_, ?_⟩
  · show (FloatGumbel.logProb _ _).1 = nan
    unfold FloatGumbel.logProb
    generalize LS.standardize _ _ = z at z1 ⊢
    have e : (exp (-z)).1 = pinf := by rw [exp, fn_pinf (by rw [neg_val, z1]; rfl)]; rfl
    simp only
    rw [sub_val, neg_val, add_val, z1, e, hy]; rfl
  · unfold FloatLogistic.logProb
    generalize LS.standardize _ _ = z at z2 ⊢
    have e : (-z).1 = ninf := by rw [neg_val, z2]; rfl
    simp only
    rw [softplus_ninf e, mul_pos_zero lit_two, s0, sub_val, e, hy]; rfl
  · unfold FloatGumbel.logProb
    generalize LS.standardize _ _ = z at z2 ⊢
    have e : exp (-z) = lit 0 := ext (by rw [exp, fn_ninf (by rw [neg_val, z2]; rfl)]; rfl)
    simp only
    rw [e, add_zero', sub_val, neg_val, z2, hy]; rfl

/-- `Gumbel.log_prob` of finite parameters and value is `nan` exactly when the standardised value overflows to `-inf`. -/
theorem C61_gumbel (d : LS F) (hd : d.Legal) (v : FX F) (hv : v.finite) :
    (FloatGumbel.logProb d v).isNan ↔ (d.standardize v).1 = ninf := by
  have n := std_num hd hv
  set z := d.standardize v with hz
  constructor
  · intro h
    by_contra g
    refine absurd h (sub_num_fin' (neg_num.2 ?_) (scale_log hd))
    have sn := exp_nonneg (neg_num.2 n)
    exact add_num_iff.2 ⟨n, sn.numR, fun g => ne_ninf_of_le sn zero_fits g.2, fun k => g k.1⟩
  · intro h
    have e : (exp (-z)).1 = pinf := by rw [exp, fn_pinf (by rw [neg_val, h]; rfl)]; rfl
    obtain ⟨y, hy⟩ := scale_log hd
    show (-(z + exp (-z)) - log d.scale).1 = nan
    rw [sub_val, neg_val, add_val, h, e, hy]; rfl

/-! ### Uniform -/

theorem range_pos {low high : FX F} (hl : low.finite) (hh : high.finite) (h : low < high) :
    lit 0 ≤ high - low ∧ (high - low).1 ≠ fin 0 := by
  obtain ⟨x, hx⟩ := hl
  obtain ⟨y, hy⟩ := hh
  have hlt : x < y := by rw [lt_def, hx, hy] at h; exact h
  refine ⟨sub_nonneg h.toLe (sub_num_fin ⟨y, hy⟩ (finite.num ⟨x, hx⟩)), ?_⟩
  rw [sub_val, hx, hy, fin_sub]
  exact F.gradual (rep hx) (rep hy) hlt

/-- `Uniform(low, high)` with finite `low < high`: `prob` and `log_prob` are never `nan`; `cdf` is not `nan` unless `high - low`
overflows. -/
theorem C61_uniform (low high : FX F) (hl : low.finite) (hh : high.finite) (h : low < high) (v : FX F) (hv : v.finite) :
    lit 0 ≤ FloatUniform.prob low high v ∧ ¬ (FloatUniform.logProb low high v).isNan ∧
    ((high - low).finite → ¬ (FloatUniform.cdf low high v).isNan) := by
  obtain ⟨r0, r1⟩ := range_pos hl hh h
  have P : lit 0 ≤ FloatUniform.prob low high v := by
    unfold FloatUniform.prob whr
    split_ifs
    · exact rfl' (lit_num 0)
    · rw [le_def, div_val, lit_one, lit_zero, ← F.rd_zero]
      refine F.r_mono (a := fin 0) ?_
      rcases fin_or r0.numR with ⟨x, hx⟩ | hx | hx
      · rw [hx] at r1 ⊢
        rw [le_def, hx, lit_zero, leB_fin] at r0
        have : x ≠ 0 := fun e => r1 (by rw [e])
        rw [XR.div_fin this]
        exact leB_fin.2 (by positivity)
      · rw [hx]; exact leB_fin.2 le_rfl
      · exact absurd hx (ne_ninf_of_le r0 zero_fits)
  refine ⟨P, (log_mono P (rfl' P.numR)).numR, fun hf => ?_⟩
  unfold FloatUniform.cdf whr
  split_ifs
  · exact lit_num 1
  · exact lit_num 0
  · obtain ⟨x, hx⟩ := hf
    rw [hx] at r1
    rw [le_def, hx, lit_zero, leB_fin] at r0
    have hp : 0 < x := lt_of_le_of_ne r0 fun e => r1 (by rw [e])
    exact (div_pos_mono hx hp (rfl' (sub_num_fin hv hl.num))).numR

/-- FINDING: when `high - low` overflows, `Uniform.cdf` is `nan` at `high` (`inf / inf`), in every format: `low = -max, high = max`. -/
theorem C61_uniform_cdf_nan : ∃ low high : FX F, low.finite ∧ high.finite ∧ low < high ∧ (FloatUniform.cdf low high high).isNan := by
  have ht : (lit F.top : FX F).1 = fin F.top := F.top_rep
  have hm : (-(lit F.top) : FX F).1 = fin (-F.top) := by rw [neg_val, ht]; rfl
  have t0 := F.top_ge
  refine ⟨-(lit F.top), lit F.top, ⟨_, hm⟩, ⟨_, ht⟩, ?_, ?_⟩
  · rw [lt_def, ht, hm]; show -F.top < F.top; linarith
  · have o : (lit F.top - -(lit F.top) : FX F).1 = pinf := by
      rw [sub_val, ht, hm, fin_sub]; exact F.over (by linarith)
    unfold FloatUniform.cdf whr
    rw [if_neg (by rw [lt_def, ht]; show ¬ F.top < F.top; linarith), if_neg (by rw [lt_def, ht, hm]; show ¬ F.top < -F.top; linarith)]
    show (_ / _ : FX F).1 = nan
    rw [div_val, o]; rfl

end Distrax
