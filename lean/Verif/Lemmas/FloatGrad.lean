import Verif.Model.FloatGrad
import Verif.Props.FloatAcc4
import Mathlib.Order.Interval.Set.UnorderedInterval

/-! Lemmas for C72: products and quotients by numbers of size at most one, infinities and `nan` in the backward pass. -/

namespace Distrax

open FX Spec
open XR (fin pinf ninf nan leB ltB leB_fin leB_pinf ninf_leB pinf_leB leB_ninf fin_sub fin_mul fin_add infOf)

variable {F : Fmt}

/-- `a` is a number between 0 and `v`. -/
def Btw (v : ℝ) (a : FX F) : Prop := ∃ y, a.1 = fin y ∧ y ∈ Set.uIcc 0 v

theorem Btw.finite {v : ℝ} {a : FX F} (h : Btw v a) : a.finite := ⟨_, h.choose_spec.1⟩

theorem mem_uIcc_zero {v y : ℝ} : y ∈ Set.uIcc 0 v ↔ 0 ≤ y ∧ y ≤ v ∨ v ≤ y ∧ y ≤ 0 := Set.mem_uIcc

theorem abs_le_of_btw {v y : ℝ} (h : y ∈ Set.uIcc 0 v) : |y| ≤ |v| := by
  rcases mem_uIcc_zero.1 h with ⟨a, b⟩ | ⟨a, b⟩
  · rwa [abs_of_nonneg a, abs_of_nonneg (a.trans b)]
  · rw [abs_of_nonpos b, abs_of_nonpos (a.trans b)]; linarith

theorem rd_btw {v x : ℝ} (hv : F.rd v = fin v) (hx : x ∈ Set.uIcc 0 v) : ∃ y, F.rd x = fin y ∧ y ∈ Set.uIcc 0 v := by
  have ht : |x| ≤ F.top + 8 := (abs_le_of_btw hx).trans ((F.range hv).trans (by linarith))
  obtain ⟨y, hy⟩ := F.fits ht
  refine ⟨y, hy, mem_uIcc_zero.2 ?_⟩
  rcases mem_uIcc_zero.1 hx with ⟨a, b⟩ | ⟨a, b⟩
  · have h1 := F.mono a; have h2 := F.mono b
    rw [hy, F.rd_zero, leB_fin] at h1; rw [hy, hv, leB_fin] at h2
    exact Or.inl ⟨h1, h2⟩
  · have h1 := F.mono a; have h2 := F.mono b
    rw [hy, hv, leB_fin] at h1; rw [hy, F.rd_zero, leB_fin] at h2
    exact Or.inr ⟨h1, h2⟩

theorem rd_abs {v : ℝ} (hv : F.rd v = fin v) : F.rd |v| = fin |v| := by
  rcases abs_cases v with ⟨e, -⟩ | ⟨e, -⟩ <;> rw [e]
  · exact hv
  · exact F.rd_neg hv

theorem Btw.mul {v w : ℝ} {a b : FX F} (hv : F.rd v = fin v) (ha : Btw v a) (hb : b.1 = fin w) (h0 : 0 ≤ w) (h1 : w ≤ 1) :
    Btw v (a * b) := by
  obtain ⟨y, hy, hm⟩ := ha
  obtain ⟨z, hz, hz'⟩ := rd_btw (x := y * w) hv (mem_uIcc_zero.2 (by
    rcases mem_uIcc_zero.1 hm with ⟨p, q⟩ | ⟨p, q⟩
    · exact Or.inl ⟨mul_nonneg p h0, by nlinarith⟩
    · exact Or.inr ⟨by nlinarith, by nlinarith⟩))
  exact ⟨z, by rw [mul_val, hy, hb, fin_mul]; exact hz, hz'⟩

theorem Btw.div {v w : ℝ} {a b : FX F} (hv : F.rd v = fin v) (ha : Btw v a) (hb : b.1 = fin w) (h1 : 1 ≤ w) : Btw v (a / b) := by
  obtain ⟨y, hy, hm⟩ := ha
  have hw : 0 < w := by linarith
  obtain ⟨z, hz, hz'⟩ := rd_btw (x := y / w) hv (mem_uIcc_zero.2 (by
    rcases mem_uIcc_zero.1 hm with ⟨p, q⟩ | ⟨p, q⟩
    · exact Or.inl ⟨by positivity, (div_le_self p h1).trans q⟩
    · refine Or.inr ⟨p.trans ?_, div_nonpos_of_nonpos_of_nonneg q hw.le⟩
      rw [le_div_iff₀ hw]; nlinarith))
  refine ⟨z, ?_, hz'⟩
  rw [div_val, hy, hb]
  show F.r (if w = 0 then _ else _) = _
  rw [if_neg hw.ne']; exact hz

theorem btw_self {v : ℝ} {a : FX F} (h : a.1 = fin v) : Btw v a := ⟨v, h, Set.right_mem_uIcc⟩

theorem btw_zero {v : ℝ} : Btw v (lit 0 : FX F) := ⟨0, lit_zero, Set.left_mem_uIcc⟩

theorem Btw.neg {v : ℝ} {a : FX F} (h : Btw v a) : Btw (-v) (-a) := by
  obtain ⟨y, hy, hm⟩ := h
  refine ⟨-y, by rw [neg_val, hy]; rfl, mem_uIcc_zero.2 ?_⟩
  rcases mem_uIcc_zero.1 hm with ⟨p, q⟩ | ⟨p, q⟩
  · exact Or.inr ⟨by linarith, by linarith⟩
  · exact Or.inl ⟨by linarith, by linarith⟩

/-- Numbers on different sides of 0 add up without growing. -/
theorem Btw.sub_opp {v : ℝ} {a b : FX F} (hv : F.rd v = fin v) (ha : Btw v a) (hb : Btw (-v) b) :
    ∃ y, (a + b).1 = fin y ∧ |y| ≤ |v| := by
  obtain ⟨y, hy, hm⟩ := ha
  obtain ⟨z, hz, hn⟩ := hb
  have : |y + z| ≤ |v| := by
    rcases mem_uIcc_zero.1 hm with ⟨p, q⟩ | ⟨p, q⟩ <;> rcases mem_uIcc_zero.1 hn with ⟨r, s⟩ | ⟨r, s⟩ <;>
      rw [abs_le] <;> constructor <;> cases abs_cases v <;> linarith
  obtain ⟨w, hw, hw'⟩ := rd_bound' (rd_abs hv) this
  exact ⟨w, by rw [add_val, hy, hz, fin_add]; exact hw, hw'⟩

theorem unit_val {b : FX F} (h0 : lit 0 ≤ b) (h1 : b ≤ lit 1) : ∃ w, b.1 = fin w ∧ 0 ≤ w ∧ w ≤ 1 := by
  obtain ⟨w, hw⟩ := finite_of_le h0 h1 zero_fits one_fits
  rw [le_def, hw, lit_zero, leB_fin] at h0
  rw [le_def, hw, lit_one, leB_fin] at h1
  exact ⟨w, hw, h0, h1⟩

theorem zero_mul_fin {b : FX F} (hb : b.finite) : lit 0 * b = lit 0 := ext (by
  obtain ⟨w, hw⟩ := hb
  rw [mul_val, lit_zero, hw, fin_mul, zero_mul]; exact F.rd_zero)

theorem zero_mul_inf {a b : FX F} (ha : a.1 = fin 0) (hb : b.isInf) : (a * b).isNan := by
  show (a * b).1 = nan
  rw [mul_val, ha]
  rcases hb with hb | hb <;> rw [hb]
  · show F.r (infOf 0) = nan; simp [infOf]; rfl
  · show F.r (infOf (-0)) = nan; simp [infOf]; rfl

theorem nan_mul {a b : FX F} (h : a.isNan ∨ b.isNan) : (a * b).isNan := by
  show (a * b).1 = nan
  rw [mul_val]
  rcases h with h | h <;> rw [show _ = nan from h]
  · rfl
  · generalize a.1 = x; cases x <;> rfl

theorem nan_add {a b : FX F} (h : a.isNan ∨ b.isNan) : (a + b).isNan := by
  by_contra g
  obtain ⟨p, q, -, -⟩ := add_num_iff.1 g
  exact h.elim p q

theorem nan_neg {a : FX F} (h : a.isNan) : (-a).isNan := by
  by_contra g; exact neg_num.1 g h

theorem nan_div {a b : FX F} (h : a.isNan) : (a / b).isNan := by
  show (a / b).1 = nan
  rw [div_val, show a.1 = nan from h]; rfl

theorem mul_num_fin {a b : FX F} (ha : a.finite) (hb : b.finite) : (a * b).Num := by
  obtain ⟨x, hx⟩ := ha
  obtain ⟨y, hy⟩ := hb
  show ¬ (a * b).1 = nan
  rw [mul_val, hx, hy, fin_mul]; exact F.rd_ne_nan _

theorem div_num_pos {a b : FX F} {s : ℝ} (ha : a.Num) (hb : b.1 = fin s) (hs : 0 < s) : (a / b).Num :=
  (div_pos_mono hb hs (rfl' ha)).numR

theorem whr_pos {c : Prop} (h : c) (a b : FX F) : whr c a b = a := if_pos h
theorem whr_neg {c : Prop} (h : ¬ c) (a b : FX F) : whr c a b = b := if_neg h

/-- Below `-9` the exponential does not overflow. -/
theorem exp_small {x : FX F} (h : x < lit (-9)) : lit 0 ≤ exp x ∧ exp x ≤ lit 1 :=
  ⟨exp_nonneg h.toLe.numL, exp_le_one (LE.le.tr h.toLe (lit_le (by norm_num)))⟩

theorem not_small_of_overflow {x : FX F} (h : (exp x).1 = pinf) : ¬ x < lit (-9) := fun g =>
  ne_pinf_of_le (exp_small g).2 one_fits h

theorem exp_fin {x : FX F} (hx : x.Num) (h : (exp x).1 ≠ pinf) : ∃ e, (exp x).1 = fin e ∧ 0 ≤ e := by
  have h0 := exp_nonneg hx
  rcases fin_or (exp_num hx) with ⟨e, he⟩ | g | g
  · exact ⟨e, he, by rw [le_def, he, lit_zero, leB_fin] at h0; exact h0⟩
  · exact absurd g h
  · exact absurd g (ne_ninf_of_le h0 zero_fits)

namespace FloatGrad

/-- The pullback of `logistic` shrinks the cotangent. -/
theorem sigmoid_pull {x g : FX F} {v : ℝ} (hx : x.Num) (hg : g.1 = fin v) : Btw v ((sigmoidR x).2 g) := by
  obtain ⟨w, hw, w0, w1⟩ := unit_val (sigmoid_mem hx).1 (sigmoid_mem hx).2
  have h1 : ∃ y, (lit 1 - sigmoid x).1 = fin y ∧ 0 ≤ y ∧ y ≤ 1 := by
    obtain ⟨y, hy, hm⟩ := rd_btw (x := 1 - w) F.rd_one (mem_uIcc_zero.2 (Or.inl ⟨by linarith, by linarith⟩))
    rw [Set.uIcc_of_le zero_le_one] at hm
    exact ⟨y, by rw [sub_val, lit_one, hw, fin_sub]; exact hy, hm.1, hm.2⟩
  obtain ⟨y, hy, y0, y1⟩ := h1
  exact ((btw_self hg).mul (rep hg) hy y0 y1).mul (rep hg) hw w0 w1

theorem replaceInf_fin {x : FX F} (h : x.finite) : replaceInf x = x :=
  whr_neg (by obtain ⟨y, hy⟩ := h; rw [hy]; simp) _ _

/-- The factor of the pullback of `softplus` lies in the unit interval, also at the infinities. -/
theorem softplus_factor {x : FX F} (hx : x.Num) :
    ∃ w, (exp (replaceInf x - replaceInf (FX.softplus x))).1 = fin w ∧ 0 ≤ w ∧ w ≤ 1 := by
  rcases fin_or hx with h | h | h
  · obtain ⟨sf, s0, s1⟩ := softplus_finite h
    rw [replaceInf_fin h, replaceInf_fin sf]
    have n : (x - FX.softplus x).Num := sub_num_fin h sf.num
    exact unit_val (exp_nonneg n) (exp_le_one (FX.sub_nonpos s1 n))
  · have e : replaceInf x - replaceInf (FX.softplus x) = lit 0 := by
      unfold replaceInf
      rw [whr_pos h, whr_pos (softplus_pinf h)]; exact sub_self' ⟨0, lit_zero⟩
    rw [e, exp_zero]; exact ⟨1, lit_one, zero_le_one, le_rfl⟩
  · have e : (replaceInf x - replaceInf (FX.softplus x)).1 = ninf := by
      unfold replaceInf
      rw [whr_neg (by rw [h]; simp), softplus_ninf h, whr_neg (by simp), sub_val, h, lit_zero]; rfl
    exact ⟨0, by rw [exp, fn_ninf e]; exact F.rd_zero, le_rfl, zero_le_one⟩

theorem softplus_pull {x g : FX F} {v : ℝ} (hx : x.Num) (hv : F.rd v = fin v) (hg : Btw v g) : Btw v ((softplusR x).2 g) := by
  obtain ⟨w, hw, w0, w1⟩ := softplus_factor hx
  exact hg.mul hv hw w0 w1

theorem softplus_pull_zero {x : FX F} (hx : x.Num) : (softplusR x).2 (lit 0) = lit 0 := by
  obtain ⟨w, hw, -, -⟩ := softplus_factor hx
  exact zero_mul_fin ⟨w, hw⟩

theorem sigmoid_pull_zero {x : FX F} (hx : x.Num) : (sigmoidR x).2 (lit 0) = lit 0 := by
  obtain ⟨y, hy, hm⟩ := sigmoid_pull hx (g := lit 0) (v := 0) lit_zero
  rw [Set.uIcc_self] at hm
  exact ext (by rw [hy, lit_zero, hm])

/-- `_more_stable_softplus` -/
theorem stable_pull {x g : FX F} {v : ℝ} (hx : x.Num) (hg : g.1 = fin v) :
    ((exp x).1 = pinf → ((moreStableSoftplusR x).2 g).isNan) ∧ ((exp x).1 ≠ pinf → Btw v ((moreStableSoftplusR x).2 g)) := by
  constructor
  · intro h
    simp only [moreStableSoftplusR]
    rw [whr_neg (not_small_of_overflow h)]
    refine nan_add (Or.inl ?_)
    have e : (log1pR (exp x)).2 (lit 0) = lit 0 := ext (by
      simp only [log1pR]
      rw [div_val, add_val, lit_zero, h, lit_one]
      exact F.rd_zero)
    rw [e]
    exact zero_mul_inf lit_zero (Or.inl h)
  · intro h
    obtain ⟨e, he, e0⟩ := exp_fin hx h
    have hd : ∃ y, (exp x + lit 1).1 = fin y ∧ 1 ≤ y := by
      have ht := abs_le_top he
      rw [abs_of_nonneg e0] at ht
      obtain ⟨y, hy⟩ := F.fits (x := e + 1) (by rw [abs_of_nonneg (by linarith)]; linarith)
      have := F.mono (show (1 : ℝ) ≤ e + 1 by linarith)
      rw [hy, F.rd_one, leB_fin] at this
      exact ⟨y, by rw [add_val, he, lit_one, fin_add]; exact hy, this⟩
    obtain ⟨y, hy, y1⟩ := hd
    simp only [moreStableSoftplusR]
    by_cases c : x < lit (-9)
    · rw [whr_pos c, whr_pos c, softplus_pull_zero hx, add_zero']
      obtain ⟨w, hw, w0, w1⟩ := unit_val (exp_small c).1 (exp_small c).2
      exact ((btw_self hg).div (rep hg) hy y1).mul (rep hg) hw w0 w1
    · rw [whr_neg c, whr_neg c]
      have e1 : (log1pR (exp x)).2 (lit 0) = lit 0 := zero_div' hy (by linarith)
      have e2 : (expR x).2 (lit 0) = lit 0 := zero_mul_fin ⟨e, he⟩
      rw [e1, e2, zero_add']
      exact softplus_pull hx (rep hg) (btw_self hg)

/-- The pullback of `(value - loc) / scale` never yields `nan` if `1 / scale**2` is a positive number. -/
theorem standardize_pull {d : LS F} (hd : d.Legal) {v gz direct : FX F} {i : ℝ} (hi : (inv2 d.scale).1 = fin i) (i0 : 0 < i)
    (hv : (v - d.loc).finite) (hz : gz.Num) (h0 : (v - d.loc).1 = fin 0 → ∃ z, gz.1 = fin z ∧ |z| ≤ 1) (hdir : direct.finite) :
    (standardizePull d v gz direct).value.Num ∧ (standardizePull d v gz direct).loc.Num ∧
    (standardizePull d v gz direct).scale.Num := by
  obtain ⟨s, hs, s0⟩ := hd.2
  have hq := div_num_pos hz hs s0
  refine ⟨hq, neg_num.2 hq, add_num_fin' (neg_num.2 ?_) hdir⟩
  obtain ⟨δ, hδ⟩ := hv
  by_cases c : δ = 0
  · subst c
    obtain ⟨z, hz, z1⟩ := h0 hδ
    obtain ⟨y, hy, -⟩ := rd_bound' (x := z * i) (rep hi) (by
      rw [abs_mul, abs_of_pos i0]; nlinarith [_root_.abs_nonneg z])
    exact mul_num_fin ⟨y, by rw [mul_val, hz, hi, fin_mul]; exact hy⟩ ⟨0, hδ⟩
  · rw [FX.mul_comm']
    refine mul_num hδ c ?_
    rw [FX.mul_comm']
    exact mul_num hi i0.ne' hz

end FloatGrad
end Distrax
