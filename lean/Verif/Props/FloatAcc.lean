import Verif.Lemmas.FloatAcc
import Verif.Props.Float5
import Verif.Model.Continuous

/-!
C63: rounding errors of the stable formulas are a small multiple of the unit roundoff.
-/

namespace Distrax

open FX Spec
open XR (fin pinf ninf nan leB ltB leB_fin leB_pinf ninf_leB pinf_leB leB_ninf fin_sub fin_mul fin_add infOf)

variable {F : Fmt} {u η : ℝ}

theorem FX.Within.mono {a : FX F} {x ε ε' : ℝ} (h : a.Within x ε) (he : ε ≤ ε') : a.Within x ε' := by
  obtain ⟨y, hy, hb⟩ := h; exact ⟨y, hy, hb.trans he⟩

theorem FX.Within.exact {a : FX F} {x : ℝ} (h : a.1 = fin x) : a.Within x 0 := ⟨x, h, by simp⟩

theorem FX.Within.nonneg {a : FX F} {x ε : ℝ} (h : a.Within x ε) : 0 ≤ ε := by
  obtain ⟨y, _, hb⟩ := h; exact (_root_.abs_nonneg _).trans hb

theorem FX.Within.of_eq {a : FX F} {x x' ε : ℝ} (h : a.Within x ε) (e : x = x') : a.Within x' ε := e ▸ h

/-! ### Finiteness of the operands -/

theorem add_fin {a b : FX F} (h : (a + b).finite) : a.finite ∧ b.finite := by
  obtain ⟨y, hy⟩ := h
  rw [add_val] at hy
  rcases a with ⟨a, ha⟩
  rcases b with ⟨b, hb⟩
  cases a <;> cases b <;> first | exact ⟨⟨_, rfl⟩, ⟨_, rfl⟩⟩ | (exfalso; revert hy; intro h; cases h)

theorem sub_fin {a b : FX F} (h : (a - b).finite) : a.finite ∧ b.finite := by
  rw [sub_eq] at h
  exact ⟨(add_fin h).1, neg_finite.1 (add_fin h).2⟩

theorem mul_fin {a b : FX F} (h : (a * b).finite) : a.finite ∧ b.finite := by
  obtain ⟨y, hy⟩ := h
  rw [mul_val] at hy
  have nf : ∀ x : ℝ, F.r (infOf x) ≠ fin y := fun x => by unfold infOf; split_ifs <;> intro g <;> cases g
  rcases a with ⟨a, ha⟩
  rcases b with ⟨b, hb⟩
  cases a <;> cases b <;> first | exact ⟨⟨_, rfl⟩, ⟨_, rfl⟩⟩ | (exfalso; first | exact nf _ hy | (revert hy; intro h; cases h))

theorem div_fin {a b : FX F} {s : ℝ} (hb : b.1 = fin s) (h : (a / b).finite) : a.finite := by
  obtain ⟨y, hy⟩ := h
  rw [div_val, hb] at hy
  rcases a with ⟨a, ha⟩
  cases a with
  | fin x => exact ⟨x, rfl⟩
  | nan => cases hy
  | pinf => exfalso; change F.r (if s < 0 then ninf else pinf) = _ at hy; split_ifs at hy <;> cases hy
  | ninf => exfalso; change F.r (if s < 0 then pinf else ninf) = _ at hy; split_ifs at hy <;> cases hy

theorem abs_fin {a : FX F} (h : (FX.abs a).finite) : a.finite := by
  obtain ⟨y, hy⟩ := h
  rcases a with ⟨a, ha⟩
  cases a with
  | fin x => exact ⟨x, rfl⟩
  | nan => cases hy
  | pinf => cases hy
  | ninf => cases hy

theorem abs_val' {a : FX F} {x : ℝ} (ha : a.1 = fin x) : (FX.abs a).1 = fin |x| := by
  have e : (FX.abs a).1 = F.rd |x| := fn_val ha
  rw [e]
  rcases abs_choice x with c | c <;> rw [c]
  · exact rep ha
  · exact F.rd_neg (rep ha)

/-! ### Errors in units of the unit roundoff -/

section
variable (A : F.Acc u η)
include A

theorem wu_rd {a : FX F} {w x κ : ℝ} (e : a.1 = F.rd w) (hf : a.finite) (hw : |w - x| ≤ u * κ) :
    a.Within x (u * (κ + |x| + κ / 256 + 1 / 256)) := by
  obtain ⟨y, hy⟩ := hf
  have h := A.err (e.symm.trans hy)
  have u0 := A.u0
  have ul := A.u_le
  have nl := A.η_le
  refine ⟨y, hy, ?_⟩
  have h2 : |w| ≤ |x| + u * κ := by have := abs_sub_abs_le_abs_sub w x; linarith
  have h4 : |y - x| ≤ |y - w| + |w - x| := by
    rw [show y - x = (y - w) + (w - x) by ring]; exact abs_add_le _ _
  have h5 := mul_le_mul_of_nonneg_left h2 u0
  have h6 : u * u ≤ u * (1 / 256) := mul_le_mul_of_nonneg_left ul u0
  have h7 : u * (u * κ) ≤ u * (κ / 256) := by
    have k0 := (_root_.abs_nonneg _).trans hw
    have := mul_le_mul_of_nonneg_right ul k0
    rcases u0.eq_or_lt with h | h
    · rw [← h]; simp
    · have : 0 ≤ κ := by by_contra c; push Not at c; nlinarith
      nlinarith
  nlinarith

theorem wu_rd0 {a : FX F} {x : ℝ} (e : a.1 = F.rd x) (hf : a.finite) : a.Within x (u * (|x| + 1 / 256)) :=
  (wu_rd A e hf (κ := 0) (by simp)).mono (by simp)

theorem wu_mono {a : FX F} {x K K' : ℝ} (h : a.Within x (u * K)) (hK : K ≤ K') : a.Within x (u * K') :=
  h.mono (mul_le_mul_of_nonneg_left hK A.u0)

omit A in
theorem wu_exact {a : FX F} {x : ℝ} (h : a.1 = fin x) : a.Within x (u * 0) := ⟨x, h, by simp⟩

omit A in
theorem wu_neg {a : FX F} {x ε : ℝ} (h : a.Within x ε) : (-a).Within (-x) ε := by
  obtain ⟨y, hy, hb⟩ := h
  exact ⟨-y, by rw [neg_val, hy]; rfl, by rw [← abs_neg]; convert hb using 2; ring⟩

theorem wu_add {a b : FX F} {x y K L : ℝ} (hf : (a + b).finite) (ha : a.Within x (u * K)) (hb : b.Within y (u * L)) :
    (a + b).Within (x + y) (u * (K + L + |x + y| + (K + L) / 256)) := by
  obtain ⟨v, hv, bv⟩ := ha
  obtain ⟨w, hw, bw⟩ := hb
  obtain ⟨z, hz⟩ := hf
  have u0 := A.u0
  have ul := A.u_le
  have h1 : |(v + w) - (x + y)| ≤ u * (K + L) := by
    rw [show v + w - (x + y) = (v - x) + (w - y) by ring, mul_add]; exact (abs_add_le _ _).trans (_root_.add_le_add bv bw)
  have h2 : |v + w| ≤ |x + y| + u * (K + L) := by
    have := abs_sub_abs_le_abs_sub (v + w) (x + y); linarith
  have h3 := A.addErr (rep hv) (rep hw) (z := z) (by rw [← hz, add_val, hv, hw, fin_add]; rfl)
  refine ⟨z, hz, ?_⟩
  have h4 : |z - (x + y)| ≤ |z - (v + w)| + |(v + w) - (x + y)| := by
    rw [show z - (x + y) = (z - (v + w)) + ((v + w) - (x + y)) by ring]; exact abs_add_le _ _
  have h5 := mul_le_mul_of_nonneg_left h2 u0
  have h7 : u * (u * (K + L)) ≤ u * ((K + L) / 256) := by
    have := mul_le_mul_of_nonneg_right ul ((_root_.abs_nonneg _).trans h1)
    rcases u0.eq_or_lt with h | h
    · rw [← h]; simp
    · have : 0 ≤ K + L := by
        have := (_root_.abs_nonneg _).trans h1
        exact nonneg_of_mul_nonneg_right this h
      nlinarith
  nlinarith

theorem wu_sub {a b : FX F} {x y K L : ℝ} (hf : (a - b).finite) (ha : a.Within x (u * K)) (hb : b.Within y (u * L)) :
    (a - b).Within (x - y) (u * (K + L + |x - y| + (K + L) / 256)) := by
  rw [sub_eq] at hf ⊢
  rw [sub_eq_add_neg]
  exact wu_add A hf ha (wu_neg hb)

theorem wu_mul {a b : FX F} {x y K L : ℝ} (hf : (a * b).finite) (ha : a.Within x (u * K)) (hb : b.Within y (u * L)) (K0 : 0 ≤ K) (L0 : 0 ≤ L) :
    (a * b).Within (x * y) (u * ((|x| * L + |y| * K + K * L / 256) + |x * y| + (|x| * L + |y| * K + K * L / 256) / 256 + 1 / 256)) := by
  obtain ⟨v, hv, bv⟩ := ha
  obtain ⟨w, hw, bw⟩ := hb
  have u0 := A.u0
  have ul := A.u_le
  refine wu_rd A (w := v * w) (by rw [mul_val, hv, hw, fin_mul]; rfl) hf ?_
  have : v * w - x * y = x * (w - y) + y * (v - x) + (v - x) * (w - y) := by ring
  rw [this]
  have h : u * (|x| * L + |y| * K + K * L / 256) = |x| * (u * L) + |y| * (u * K) + u * (1 / 256) * (K * L) := by ring
  rw [h]
  refine (abs_add_le _ _).trans (_root_.add_le_add ((abs_add_le _ _).trans (_root_.add_le_add ?_ ?_)) ?_)
  · rw [abs_mul]; exact mul_le_mul_of_nonneg_left bw (_root_.abs_nonneg _)
  · rw [abs_mul]; exact mul_le_mul_of_nonneg_left bv (_root_.abs_nonneg _)
  · rw [abs_mul]
    refine (mul_le_mul bv bw (_root_.abs_nonneg _) (mul_nonneg u0 K0)).trans ?_
    have := mul_le_mul_of_nonneg_left ul u0
    have := mul_le_mul_of_nonneg_right this (mul_nonneg K0 L0)
    linarith

theorem wu_log {a : FX F} {x : ℝ} (h : a.1 = fin x) (hx : 0 < x) : (log a).Within (Real.log x) (u * (|Real.log x| + 1 / 256)) := by
  obtain ⟨y, hy, -⟩ := log_finite h hx
  exact wu_rd0 A (by rw [log, fn_val h, XR.log_fin_pos hx]; rfl) ⟨y, hy⟩

theorem wu_lit {c : ℝ} (h : |c| ≤ 4) : (lit c : FX F).Within c (u * (|c| + 1 / 256)) :=
  wu_rd0 A rfl (lit_finite (by have := F.top_ge; linarith))

/-! ### softplus -/

omit A in
theorem rsoftplus_max (x : ℝ) : rsoftplus x = max x 0 + Real.log (1 + Real.exp (-|x|)) := by
  unfold rsoftplus
  rcases le_total 0 x with h | h
  · rw [max_eq_left h, abs_of_nonneg h]
    have : 1 + Real.exp x = Real.exp x * (1 + Real.exp (-x)) := by rw [mul_add, ← Real.exp_add]; simp; ring
    rw [this, Real.log_mul (Real.exp_pos _).ne' (by have := Real.exp_pos (-x); linarith), Real.log_exp]
  · rw [max_eq_right h, abs_of_nonpos h]; simp

omit A in
theorem log1p_lip {a b : ℝ} (ha : 0 ≤ a) (hb : 0 ≤ b) : |Real.log (1 + a) - Real.log (1 + b)| ≤ |a - b| := by
  have key : ∀ {a b : ℝ}, 0 ≤ a → a ≤ b → Real.log (1 + b) - Real.log (1 + a) ≤ b - a := by
    intro a b ha hab
    rw [← Real.log_div (by linarith) (by linarith)]
    refine (Real.log_le_sub_one_of_pos (div_pos (by linarith) (by linarith))).trans ?_
    rw [div_sub_one (by linarith), div_le_iff₀ (by linarith)]
    nlinarith
  rcases le_total a b with h | h
  · have h1 := key ha h
    have h2 := Real.log_le_log (by linarith) (show 1 + a ≤ 1 + b by linarith)
    rw [abs_of_nonpos (by linarith), abs_of_nonpos (by linarith)]; linarith
  · have h1 := key hb h
    have h2 := Real.log_le_log (by linarith) (show 1 + b ≤ 1 + a by linarith)
    rw [abs_of_nonneg (by linarith), abs_of_nonneg (by linarith)]; linarith

/-- `log1p(exp(b))` for a finite `b ≤ 0`. -/
theorem within_log1p_exp {b : FX F} {y : ℝ} (hb : b.1 = fin y) (hy : y ≤ 0) :
    (log1p (exp b)).Within (Real.log (1 + Real.exp y)) (u * 1.75) := by
  have u0 := A.u0
  have ul := A.u_le
  have nl := A.η_le
  have n0 := A.η0
  have E1 : Real.exp y ≤ 1 := Real.exp_le_one_iff.2 hy
  have E0 := Real.exp_pos y
  have ht := F.top_ge
  have b0 : b ≤ lit 0 := by rw [le_def, hb, lit_zero]; exact leB_fin.2 hy
  obtain ⟨e, he, e0, e1⟩ := unit_fin (exp_nonneg b0.numL) (exp_le_one b0)
  have eb := A.err (x := Real.exp y) (y := e) (by rw [← he, exp, fn_val hb]; rfl)
  have lip := log1p_lip e0 E0.le
  have L0 : 0 ≤ Real.log (1 + e) := Real.log_nonneg (by linarith)
  have L1 : Real.log (1 + e) ≤ 0.7 := by
    have := Real.log_le_log (by linarith) (show 1 + e ≤ 2 by linarith)
    have := Real.log_two_lt_d9
    linarith
  have el : (log1p (exp b)).1 = F.rd (Real.log (1 + e)) := by rw [log1p, fn_val he, XR.log_fin_pos (by linarith)]; rfl
  obtain ⟨l, hl⟩ := F.fits (x := Real.log (1 + e)) (by rw [abs_of_nonneg L0]; linarith)
  have lb := A.err hl
  rw [← el] at hl
  refine ⟨l, hl, ?_⟩
  rw [abs_of_nonneg L0] at lb
  rw [abs_of_pos E0] at eb
  have h4 : |l - Real.log (1 + Real.exp y)| ≤ |l - Real.log (1 + e)| + |Real.log (1 + e) - Real.log (1 + Real.exp y)| := by
    rw [show l - Real.log (1 + Real.exp y) = (l - Real.log (1 + e)) + (Real.log (1 + e) - Real.log (1 + Real.exp y)) by ring]
    exact abs_add_le _ _
  have h5 : u * Real.log (1 + e) ≤ u * 0.7 := mul_le_mul_of_nonneg_left L1 u0
  have h6 : u * Real.exp y ≤ u * 1 := mul_le_mul_of_nonneg_left E1 u0
  have h7 : u * u ≤ u * (1 / 256) := mul_le_mul_of_nonneg_left ul u0
  linarith

/-- `softplus` of a finite float. -/
theorem within_softplus {a : FX F} {x : ℝ} (ha : a.1 = fin x) : (softplus a).Within (rsoftplus x) (u * (rsoftplus x + 2)) := by
  have u0 := A.u0
  have ul := A.u_le
  have ht := F.top_ge
  have n : a.Num := finite.num ⟨x, ha⟩
  have d : a - lit 0 = a := by rw [sub_eq, neg_zero', add_zero']
  have hb : (-(FX.abs a)).1 = fin (-|x|) := by rw [neg_val, abs_val' ha]; rfl
  obtain ⟨l, hl, lb⟩ := within_log1p_exp A hb (by simp)
  have hm : (FX.max a (lit 0)).1 = fin (max x 0) := by
    rcases max_val n (lit_num 0) with ⟨e, g⟩ | ⟨e, g⟩ <;> rw [e]
    · rw [le_def, ha, lit_zero, leB_fin] at g; rw [max_eq_right g, lit_zero]
    · rw [le_def, ha, lit_zero, leB_fin] at g; rw [max_eq_left g, ha]
  have e : softplus a = FX.max a (lit 0) + log1p (exp (-(abs a))) := by
    unfold softplus logaddexp
    simp only [whr]
    rw [d, if_neg n]
  have S0 : 0 ≤ rsoftplus x := Real.log_nonneg (by have := Real.exp_pos x; linarith)
  have hf := (softplus_finite ⟨x, ha⟩).1
  rw [e] at hf ⊢
  have := wu_add A hf (wu_exact hm) ⟨l, hl, lb⟩
  rw [← rsoftplus_max, abs_of_nonneg S0] at this
  exact wu_mono A this (by linarith)

/-- `jax.nn.softplus`: the error is at most the unit roundoff times (the result + 2), for every finite input, however large. -/
theorem C63_softplus (a : FX F) (x : ℝ) (ha : a.1 = fin x) :
    (softplus a).Within (Real.log (1 + Real.exp x)) (u * (Real.log (1 + Real.exp x) + 2)) := within_softplus A ha

theorem within_stable_softplus {a : FX F} {x : ℝ} (ha : a.1 = fin x) :
    (FloatBij.moreStableSoftplus a).Within (rsoftplus x) (u * (rsoftplus x + 2)) := by
  unfold FloatBij.moreStableSoftplus whr
  split_ifs with g
  · have g' := g.toLe
    rw [le_def, ha, lit_val (F.rd_neg F.rd_nine), leB_fin] at g'
    refine (within_log1p_exp A ha (by linarith)).mono ?_
    have : 0 ≤ rsoftplus x := Real.log_nonneg (by have := Real.exp_pos x; linarith)
    have := A.u0
    nlinarith
  · exact within_softplus A ha

/-- `Sigmoid.forward_log_det_jacobian`: the error is at most the unit roundoff times (3 |result| + 5), for every finite input. -/
theorem C63_sigmoid_log_det (a : FX F) (x : ℝ) (ha : a.1 = fin x) :
    (FloatBij.sigmoidFldj a).Within (Real.log (rsigmoid x * (1 - rsigmoid x)))
      (u * (3 * |Real.log (rsigmoid x * (1 - rsigmoid x))| + 5)) := by
  have u0 := A.u0
  have ul := A.u_le
  have ht := F.top_ge
  have E := Real.exp_pos x
  have E' := Real.exp_pos (-x)
  have S0 : ∀ y, 0 ≤ rsoftplus y := fun y => Real.log_nonneg (by have := Real.exp_pos y; linarith)
  have ex : Real.log (rsigmoid x * (1 - rsigmoid x)) = -(rsoftplus (-x)) - rsoftplus x := by
    have h1 : 1 - rsigmoid x = 1 / (1 + Real.exp x) := by
      unfold rsigmoid
      rw [Real.exp_neg]
      field_simp
      ring
    rw [h1, rsigmoid, Real.log_mul (by positivity) (by positivity), one_div, one_div, Real.log_inv, Real.log_inv]
    rfl
  rw [ex]
  have hn : (-a).1 = fin (-x) := by rw [neg_val, ha]; rfl
  obtain ⟨y, hy, yb⟩ := within_stable_softplus A hn
  obtain ⟨z, hz, zb⟩ := within_stable_softplus A ha
  have e : |-(rsoftplus (-x)) - rsoftplus x| = rsoftplus (-x) + rsoftplus x := by
    rw [abs_of_nonpos (by have := S0 x; have := S0 (-x); linarith)]; ring
  have hf := (C61_sigmoid a (finite.num ⟨x, ha⟩)).2.2 ⟨x, ha⟩
  have := wu_sub A (by exact hf) (wu_neg ⟨y, hy, yb⟩) ⟨z, hz, zb⟩
  rw [e] at this ⊢
  have := S0 x
  have := S0 (-x)
  exact wu_mono A ‹_› (by linarith)

end

end Distrax
