import Verif.Props.FloatAcc2
import Verif.Lemmas.Scalar

/-!
C63 continued: sums in any order, Independent, log_softmax, Bernoulli, Tanh, Uniform, ScalarAffine.
-/

namespace Distrax

open FX Spec
open XR (fin pinf ninf nan leB ltB leB_fin leB_pinf ninf_leB pinf_leB leB_ninf fin_sub fin_mul fin_add infOf)

variable {F : Fmt} {u η : ℝ}

theorem val_of {a : FX F} {x : ℝ} (h : a.1 = fin x) : a.val = x := by unfold FX.val; rw [h]

theorem fin_val {a : FX F} (h : a.finite) : a.1 = fin a.val := by obtain ⟨x, hx⟩ := h; rw [val_of hx, hx]

theorem within_val {a : FX F} {x ε : ℝ} : a.Within x ε ↔ a.finite ∧ |a.val - x| ≤ ε := by
  constructor
  · rintro ⟨y, hy, hb⟩; exact ⟨⟨y, hy⟩, by rwa [val_of hy]⟩
  · rintro ⟨h, hb⟩; exact ⟨a.val, fin_val h, hb⟩

theorem sums_finite {xs : List (FX F)} {s : FX F} (h : SumsTo xs s) (hf : s.finite) : ∀ x ∈ xs, x.finite := by
  induction h with
  | one a => intro x hx; rw [List.mem_singleton.1 hx]; exact hf
  | add _ _ iha ihb =>
    intro x hx
    rcases List.mem_append.1 hx with g | g
    · exact iha (add_fin hf).1 x g
    · exact ihb (add_fin hf).2 x g
  | perm p _ ih => intro x hx; exact ih hf x (p.mem_iff.2 hx)

theorem sums_length {xs : List (FX F)} {s : FX F} (h : SumsTo xs s) : 1 ≤ xs.length := by
  induction h with
  | one a => simp
  | add _ _ iha ihb => rw [List.length_append]; omega
  | perm p _ ih => rwa [← p.length_eq]

section
variable (A : F.Acc u η)
include A

/-- `jnp.sum` in whatever order the compiler adds: if the computed sum is finite then so are the entries, and the error is at most
`(1+u)^(n-1) - 1` times the sum of the magnitudes. -/
theorem C63_sum {xs : List (FX F)} {s : FX F} (h : SumsTo xs s) (hf : s.finite) :
    s.Within (xs.map FX.val).sum (((1 + u) ^ (xs.length - 1) - 1) * (xs.map fun x => |x.val|).sum) := by
  have u0 := A.u0
  rw [within_val]
  refine ⟨hf, ?_⟩
  induction h with
  | one a => simp
  | @add xs ys a b ha hb iha ihb =>
    have fa := (add_fin hf).1
    have fb := (add_fin hf).2
    have ia := iha fa
    have ib := ihb fb
    have la := sums_length ha
    have lb := sums_length hb
    have key : |(a + b).val - (a.val + b.val)| ≤ u * |a.val + b.val| :=
      A.addErr (rep (fin_val fa)) (rep (fin_val fb)) (by
        rw [← fin_val hf, add_val, fin_val fa, fin_val fb, fin_add]; rfl)
    rw [List.map_append, List.map_append, List.sum_append, List.sum_append, List.length_append]
    set X := (xs.map FX.val).sum
    set Y := (ys.map FX.val).sum
    set P := (xs.map fun x => |x.val|).sum with hP
    set Q := (ys.map fun x => |x.val|).sum with hQ
    have nn : ∀ l : List (FX F), 0 ≤ (l.map fun x => |x.val|).sum := fun l =>
      List.sum_nonneg fun y hy => by obtain ⟨x, _, rfl⟩ := List.mem_map.1 hy; exact _root_.abs_nonneg _
    have ab : ∀ l : List (FX F), |(l.map FX.val).sum| ≤ (l.map fun x => |x.val|).sum := fun l => by
      induction l with
      | nil => simp
      | cons x l ih => simp only [List.map_cons, List.sum_cons]; exact (abs_add_le _ _).trans (by linarith)
    have P0 : 0 ≤ P := nn xs
    have Q0 : 0 ≤ Q := nn ys
    set k := xs.length + ys.length - 1 - 1 with hk
    have hk1 : xs.length + ys.length - 1 = k + 1 := by omega
    have m1 : (1 + u) ^ (xs.length - 1) ≤ (1 + u) ^ k := pow_le_pow_right₀ (by linarith) (by omega)
    have m2 : (1 + u) ^ (ys.length - 1) ≤ (1 + u) ^ k := pow_le_pow_right₀ (by linarith) (by omega)
    rw [hk1, pow_succ]
    set p := (1 + u) ^ k
    have e1 : |a.val - X| ≤ (p - 1) * P := ia.trans (mul_le_mul_of_nonneg_right (by linarith) P0)
    have e2 : |b.val - Y| ≤ (p - 1) * Q := ib.trans (mul_le_mul_of_nonneg_right (by linarith) Q0)
    have e3 : |a.val + b.val| ≤ (P + Q) + (p - 1) * (P + Q) := by
      have h1 : |a.val| ≤ |X| + |a.val - X| := by have := abs_sub_abs_le_abs_sub a.val X; linarith
      have h2 : |b.val| ≤ |Y| + |b.val - Y| := by have := abs_sub_abs_le_abs_sub b.val Y; linarith
      have := abs_add_le a.val b.val
      have := ab xs
      have := ab ys
      linarith
    have e4 : |(a + b).val - (X + Y)| ≤ |(a + b).val - (a.val + b.val)| + (|a.val - X| + |b.val - Y|) := by
      rw [show (a + b).val - (X + Y) = ((a + b).val - (a.val + b.val)) + ((a.val - X) + (b.val - Y)) by ring]
      exact (abs_add_le _ _).trans (by have := abs_add_le (a.val - X) (b.val - Y); linarith)
    have e5 := mul_le_mul_of_nonneg_left e3 u0
    nlinarith
  | perm p _ ih =>
    have := ih hf
    rwa [(p.map FX.val).sum_eq, (p.map fun x : FX F => |x.val|).sum_eq, p.length_eq] at this

/-- `Independent.log_prob` and every other sum over event dimensions: with each entry within `ε i` of its exact value, the computed total
is within the sum of the `ε i` plus `(1+u)^n - 1` times the sum of the magnitudes. -/
theorem C63_independent {n : ℕ} (l : Fin (n + 1) → FX F) (x ε : Fin (n + 1) → ℝ) (h : ∀ i, (l i).Within (x i) (ε i)) (s : FX F)
    (hs : SumsTo (List.ofFn l) s) (hf : s.finite) :
    s.Within (∑ i, x i) (∑ i, ε i + ((1 + u) ^ n - 1) * ∑ i, (|x i| + ε i)) := by
  have u0 := A.u0
  have h1 := within_val.1 (C63_sum A hs hf)
  have f : ∀ i, |(l i).val - x i| ≤ ε i := fun i => (within_val.1 (h i)).2
  rw [within_val]
  refine ⟨hf, ?_⟩
  have e1 : ((List.ofFn l).map FX.val).sum = ∑ i, (l i).val := by rw [List.map_ofFn, List.sum_ofFn]; rfl
  have e2 : ((List.ofFn l).map fun x => |x.val|).sum = ∑ i, |(l i).val| := by rw [List.map_ofFn, List.sum_ofFn]; rfl
  rw [e1, e2, List.length_ofFn, Nat.add_sub_cancel] at h1
  have d : |∑ i, (l i).val - ∑ i, x i| ≤ ∑ i, ε i := by
    rw [← Finset.sum_sub_distrib]
    exact (Finset.abs_sum_le_sum_abs _ _).trans (Finset.sum_le_sum fun i _ => f i)
  have m : ∑ i, |(l i).val| ≤ ∑ i, (|x i| + ε i) := Finset.sum_le_sum fun i _ => by
    have := abs_sub_abs_le_abs_sub (l i).val (x i); have := f i; linarith
  have p : 0 ≤ (1 + u) ^ n - 1 := by have := one_le_pow₀ (show 1 ≤ 1 + u by linarith) (n := n); linarith
  have := mul_le_mul_of_nonneg_left m p
  have t : |s.val - ∑ i, x i| ≤ |s.val - ∑ i, (l i).val| + |∑ i, (l i).val - ∑ i, x i| := by
    rw [show s.val - ∑ i, x i = (s.val - ∑ i, (l i).val) + (∑ i, (l i).val - ∑ i, x i) by ring]; exact abs_add_le _ _
  linarith [h1.2]

/-! ### Bernoulli, Uniform, ScalarAffine -/

omit A in
theorem log_sigmoid (x : ℝ) : Real.log (rsigmoid x) = -(rsoftplus (-x)) := by
  unfold rsigmoid rsoftplus
  rw [one_div, Real.log_inv]

omit A in
theorem log_one_sub_sigmoid (x : ℝ) : Real.log (1 - rsigmoid x) = -(rsoftplus x) := by
  have E := Real.exp_pos x
  have h1 : 1 - rsigmoid x = 1 / (1 + Real.exp x) := by
    unfold rsigmoid
    rw [Real.exp_neg]
    field_simp
    ring
  rw [h1, one_div, Real.log_inv]
  rfl

/-- `Bernoulli(logits).log_prob`: both log-probabilities have an error of at most the unit roundoff times (their magnitude + 2), for every
finite logit. -/
theorem C63_bernoulli_log_prob (l : FX F) (x : ℝ) (hl : l.1 = fin x) :
    (FloatBern.logProb (FloatBern.logProbs l) (lit 0)).Within (Real.log (1 - rsigmoid x)) (u * (|Real.log (1 - rsigmoid x)| + 2)) ∧
    (FloatBern.logProb (FloatBern.logProbs l) (lit 1)).Within (Real.log (rsigmoid x)) (u * (|Real.log (rsigmoid x)| + 2)) := by
  obtain ⟨e0, e1, -, -⟩ := bern_ok (bern_logits (l := l) (finite.num ⟨x, hl⟩))
  rw [e0, e1, log_sigmoid, log_one_sub_sigmoid, abs_neg, abs_neg, abs_of_nonneg (rsp_nonneg _), abs_of_nonneg (rsp_nonneg _)]
  have hn : (-l).1 = fin (-x) := by rw [neg_val, hl]; rfl
  refine ⟨wu_neg (within_softplus A hl), ?_⟩
  show (-(FX.softplus (lit (-1) * l))).Within _ _
  rw [neg_one_mul']
  exact wu_neg (within_softplus A hn)

/-- `Uniform.cdf`: within four units of roundoff of the exact distribution function, unless `high - low` overflows. -/
theorem C63_uniform_cdf (low high v : FX F) (l h x : ℝ) (hl : low.1 = fin l) (hh : high.1 = fin h) (hlh : l < h) (hv : v.1 = fin x)
    (hf : (high - low).finite) : (FloatUniform.cdf low high v).Within ((⟨l, h⟩ : Uniform).cdf x) (u * 4) := by
  have u0 := A.u0
  have ul := A.u_le
  unfold FloatUniform.cdf Uniform.cdf whr Uniform.range
  have c1 : high < v ↔ h < x := by rw [lt_def, hh, hv]; exact Iff.rfl
  have c2 : v < low ↔ x < l := by rw [lt_def, hl, hv]; exact Iff.rfl
  simp only [c1, c2, gt_iff_lt]
  split_ifs with g1 g2
  · exact ⟨1, lit_one, by simp; linarith⟩
  · exact ⟨0, lit_zero, by simp; linarith⟩
  · push Not at g1 g2
    obtain ⟨R, hR, bR⟩ := wu_sub A hf (wu_exact hh) (wu_exact hl)
    have R0 : 0 < h - l := by linarith
    have hn : (v - low).finite := by
      have e : (v - low).1 = F.rd (x - l) := by rw [sub_val, hv, hl, fin_sub]; rfl
      have eR : F.rd (h - l) = fin R := by rw [← hR, sub_val, hh, hl, fin_sub]; rfl
      have m1 := F.mono (show x - l ≤ h - l by linarith)
      have m0 := F.mono (show 0 ≤ x - l by linarith)
      rw [F.rd_zero] at m0
      rw [eR] at m1
      unfold FX.finite
      rw [e]
      generalize F.rd (x - l) = t at m0 m1
      cases t with
      | fin y => exact ⟨y, rfl⟩
      | nan => exact absurd m0 (by simp [leB, ltB, XR.eqB])
      | pinf => exact absurd m1 (by simp [leB, ltB, XR.eqB])
      | ninf => exact absurd m0 (by simp [leB, ltB, XR.eqB])
    obtain ⟨w, hw, bw⟩ := wu_sub A hn (wu_exact hv) (wu_exact hl)
    have W0 : 0 ≤ x - l := by linarith
    rw [abs_of_pos R0] at bR
    rw [abs_of_nonneg W0] at bw
    have bR' : |R - (h - l)| ≤ u * (h - l) := by simpa using bR
    have bw' : |w - (x - l)| ≤ u * (x - l) := by simpa using bw
    have Rl : 255 / 256 * (h - l) ≤ R := by
      have := (abs_le.1 bR').1
      have := mul_le_mul_of_nonneg_right ul R0.le
      linarith
    have Rp : 0 < R := by linarith
    set q := (x - l) / (h - l) with hq
    have q0 : 0 ≤ q := div_nonneg W0 R0.le
    have q1 : q ≤ 1 := (div_le_one R0).2 (by linarith)
    have xq : x - l = q * (h - l) := by rw [hq]; field_simp
    have hb : |w / R - q| ≤ u * 2.01 := by
      rw [div_sub' Rp.ne', abs_div, abs_of_pos Rp, div_le_iff₀ Rp]
      have h1 : w - R * q = (w - (x - l)) - q * (R - (h - l)) := by rw [xq]; ring
      rw [h1]
      refine (abs_sub _ _).trans ?_
      rw [abs_mul, abs_of_nonneg q0]
      have h2 := mul_le_mul_of_nonneg_left bR' q0
      have h3 : u * (x - l) ≤ u * (h - l) := mul_le_mul_of_nonneg_left (by linarith) u0
      have h4 : q * (u * (h - l)) ≤ 1 * (u * (h - l)) := mul_le_mul_of_nonneg_right q1 (mul_nonneg u0 R0.le)
      have h5 := mul_le_mul_of_nonneg_left Rl u0
      nlinarith
    have e : ((v - low) / (high - low)).1 = F.rd (w / R) := by
      rw [div_val, hw, hR]
      show F.r (if R = 0 then _ else _) = _
      rw [if_neg Rp.ne']; rfl
    have ff : ((v - low) / (high - low)).finite := by
      obtain ⟨y, hy⟩ := F.fits (x := w / R) (by
        have h1 := abs_sub_abs_le_abs_sub (w / R) q
        rw [abs_of_nonneg q0] at h1
        have := F.top_ge
        nlinarith)
      exact ⟨y, by rw [e, hy]⟩
    have := wu_rd A e ff hb
    rw [abs_of_nonneg q0] at this
    exact wu_mono A this (by linarith)

/-- `ScalarAffine`: `inverse (forward x)` is within the unit roundoff times `6 |x| + 2 |shift / scale| + 0.1` of `x`, when nothing overflows
and the scale is far from the subnormal range and from its reciprocal. -/
theorem C63_affine_roundtrip (shift scale x : FX F) (b s t : ℝ) (hb : shift.1 = fin b) (hs : scale.1 = fin s) (hx : x.1 = fin t) (s0 : s ≠ 0)
    (h1 : η ≤ u / 256 * |s|) (h2 : η * |s| ≤ u / 256)
    (hf : (FloatBij.affineInverse shift scale (FloatBij.affineForward shift scale x)).finite) :
    (FloatBij.affineInverse shift scale (FloatBij.affineForward shift scale x)).Within t (u * (6 * |t| + 2 * |b / s| + 0.1)) := by
  have u0 := A.u0
  have ul := A.u_le
  have S0 : 0 < |s| := abs_pos.2 s0
  obtain ⟨f1, f2⟩ := mul_fin hf
  obtain ⟨f3, -⟩ := sub_fin f2
  obtain ⟨f4, -⟩ := add_fin f3
  -- the product
  have p1 : (scale * x).Within (s * t) (u * (|s| * |t| + |s| / 256)) := by
    obtain ⟨y, hy⟩ := f4
    have := A.err (x := s * t) (y := y) (by rw [← hy, mul_val, hs, hx, fin_mul]; rfl)
    rw [abs_mul] at this
    exact ⟨y, hy, this.trans (by linarith)⟩
  have p2 := wu_add A f3 p1 (wu_exact hb)
  have p3 := wu_sub A f2 p2 (wu_exact hb)
  have p4 : (lit 1 / scale).Within (1 / s) (u * (1.004 / |s|)) := by
    obtain ⟨y, hy⟩ := f1
    have e : (lit 1 / scale).1 = F.rd (1 / s) := by
      rw [div_val, lit_one, hs]
      show F.r (if s = 0 then _ else _) = _
      rw [if_neg s0]; rfl
    have := A.err (x := 1 / s) (y := y) (by rw [← e, hy])
    refine ⟨y, hy, this.trans ?_⟩
    rw [abs_div, abs_one]
    have : η ≤ u / 256 * (1 / |s|) := by rw [mul_one_div, le_div_iff₀ S0]; exact h2
    have e2 : u * (1.004 / |s|) = u * (1 / |s|) + 0.004 * u * (1 / |s|) := by ring
    rw [e2]
    have : 0 ≤ u * (1 / |s|) := by positivity
    nlinarith
  rw [show s * t + b - b = s * t by ring] at p3
  have K0 : (0:ℝ) ≤ |s| * |t| + |s| / 256 + 0 + |s * t + b| + (|s| * |t| + |s| / 256 + 0) / 256 + 0 + |s * t| +
      (|s| * |t| + |s| / 256 + 0 + |s * t + b| + (|s| * |t| + |s| / 256 + 0) / 256 + 0) / 256 := by positivity
  have p5 := wu_mul A hf p4 p3 (by positivity) K0
  rw [show 1 / s * (s * t) = t by field_simp] at p5
  refine wu_mono A p5 ?_
  have tri : |s * t + b| ≤ |s| * (|t| + |b / s|) := by
    refine (abs_add_le _ _).trans ?_
    rw [abs_mul, abs_div]
    have : |s| * (|t| + |b| / |s|) = |s| * |t| + |b| := by field_simp
    rw [this]
  have i1 : |1 / s| = 1 / |s| := by rw [abs_div, abs_one]
  rw [abs_mul s t, i1]
  set X := |t|
  set B := |b / s|
  set C := |s * t + b|
  set σ := |s|
  have X0 : 0 ≤ X := _root_.abs_nonneg _
  have B0 : 0 ≤ B := _root_.abs_nonneg _
  set L := σ * X + σ / 256 + 0 + C + (σ * X + σ / 256 + 0) / 256 + 0 + σ * X +
      (σ * X + σ / 256 + 0 + C + (σ * X + σ / 256 + 0) / 256 + 0) / 256 with hL
  have L1 : L ≤ σ * (3.02 * X + 1.01 * B + 0.005) := by rw [hL]; nlinarith
  have L2 : L / σ ≤ 3.02 * X + 1.01 * B + 0.005 := by rw [div_le_iff₀ S0]; linarith
  have e1 : 1 / σ * L = L / σ := by ring
  have e2 : σ * X * (1.004 / σ) = 1.004 * X := by field_simp
  have e3 : 1.004 / σ * L = 1.004 * (L / σ) := by ring
  rw [e1, e2, e3]
  linarith

/-- `Tanh.forward_log_det_jacobian`: error at most the unit roundoff times `24 |x| + 16`, unless `2 x` or the result
overflows. -/
theorem C63_tanh_log_det (a : FX F) (x : ℝ) (ha : a.1 = fin x) (f4 : (lit (-2) * a).finite) (hf : (FloatBij.tanhFldj a).finite) :
    (FloatBij.tanhFldj a).Within (Real.log (1 / Real.cosh x ^ 2)) (u * (24 * |x| + 16)) := by
  obtain ⟨-, f1⟩ := mul_fin hf
  obtain ⟨f2, f3⟩ := sub_fin f1
  have l2 := log_two_abs
  have two : (lit 2 : FX F).1 = fin 2 := lit_val (by exact_mod_cast F.small 2 (by norm_num))
  have mtwo : (lit (-2) : FX F).1 = fin (-2) := lit_val (F.rd_neg (by exact_mod_cast F.small 2 (by norm_num)))
  have t0 := _root_.abs_nonneg x
  have h1 := wu_mul A f4 (wu_exact (u := u) mtwo) (wu_exact ha) le_rfl le_rfl
  have h2 := wu_softplus A h1
  have h3 := wu_sub A f2 (wu_lit A (c := Real.log 2) (by linarith)) (wu_exact ha)
  have h4 := wu_sub A f1 h3 h2
  have S0 := rsp_nonneg (-2 * x)
  have h5 := wu_mul A hf (wu_exact (u := u) two) h4 le_rfl (by positivity)
  have e : 2 * (Real.log 2 - x - rsoftplus (-2 * x)) = Real.log (1 / Real.cosh x ^ 2) := by
    rw [← tanhFldj_eq]; rfl
  rw [e] at h5
  refine wu_mono A h5 ?_
  rw [← e]
  have S1 := rsoftplus_le (-2 * x)
  have m2 : |-2 * x| = 2 * |x| := by rw [abs_mul, abs_neg, abs_of_pos (by norm_num : (0:ℝ) < 2)]
  have b2 : |(2 : ℝ)| = 2 := abs_of_pos (by norm_num)
  have b1 := abs_sub (Real.log 2) x
  have b3 := abs_sub (Real.log 2 - x) (rsoftplus (-2 * x))
  rw [abs_of_nonneg S0] at b3
  rw [abs_mul 2, b2, m2]
  rw [m2] at S1
  simp only [mul_zero, zero_mul, zero_add, zero_div, add_zero]
  linarith

/-! ### log_softmax -/

omit A in
theorem exp_sub_le {t d e : ℝ} (ht : 0 ≤ t) (hd : |d + t| ≤ e * t) (e0 : 0 ≤ e) (e1 : e ≤ 1 / 256) :
    |Real.exp d - Real.exp (-t)| ≤ e * 1.005 := by
  have key : ∀ a b : ℝ, a ≤ b → b ≤ -t + e * t → b - a ≤ e * t → Real.exp b - Real.exp a ≤ e * 1.005 := by
    intro a b hab hb hba
    have h1 : Real.exp b - Real.exp a ≤ (b - a) * Real.exp b := by
      have h2 := Real.add_one_le_exp (a - b)
      have h3 : Real.exp a = Real.exp b * Real.exp (a - b) := by rw [← Real.exp_add]; ring_nf
      have := Real.exp_pos b
      rw [h3]; nlinarith
    have h4 : Real.exp b * (1 + 255 / 256 * t) ≤ 1 := by
      have h5 : 1 + 255 / 256 * t ≤ Real.exp (-b) := by
        have := Real.add_one_le_exp (-b)
        nlinarith
      have := mul_le_mul_of_nonneg_left h5 (Real.exp_pos b).le
      rwa [← Real.exp_add, add_neg_cancel, Real.exp_zero] at this
    have E := Real.exp_pos b
    have h6 : t * Real.exp b ≤ 1.005 := by nlinarith
    have h7 : (b - a) * Real.exp b ≤ e * t * Real.exp b := mul_le_mul_of_nonneg_right hba E.le
    have h8 := mul_le_mul_of_nonneg_left h6 e0
    nlinarith
  have h := abs_le.1 hd
  rcases _root_.le_total d (-t) with g | g
  · have := key d (-t) g (by nlinarith) (by linarith)
    have := Real.exp_le_exp.2 g
    rw [abs_of_nonpos (by linarith)]; linarith
  · have := key (-t) d g (by linarith) (by linarith)
    have := Real.exp_le_exp.2 g
    rw [abs_of_nonneg (by linarith)]; linarith

/-- The exponential of a shifted logit. -/
theorem wu_exp_shift {a b : FX F} {x m : ℝ} (ha : a.1 = fin x) (hb : b.1 = fin m) (h : x ≤ m) (hf : (a - b).finite) :
    (exp (a - b)).Within (Real.exp (x - m)) (u * 2.1) := by
  obtain ⟨d, hd, bd⟩ := wu_sub A hf (wu_exact ha) (wu_exact hb)
  have bd' : |d - (x - m)| ≤ u * |x - m| := by simpa using bd
  rw [abs_of_nonpos (show x - m ≤ 0 by linarith)] at bd'
  have ee : (exp (a - b)).1 = F.rd (Real.exp d) := by rw [exp, fn_val hd]; rfl
  have hk := exp_sub_le (t := m - x) (d := d) (e := u) (by linarith) (by
    rw [show d + (m - x) = d - (x - m) by ring]; exact bd'.trans (le_of_eq (by ring))) A.u0 A.u_le
  rw [neg_sub] at hk
  have d0 : a - b ≤ lit 0 := by
    rw [le_def, sub_val, ha, hb, fin_sub, lit_zero, ← F.rd_zero]
    exact F.mono (by linarith)
  obtain ⟨y, hy, -, -⟩ := unit_fin (exp_nonneg d0.numL) (exp_le_one d0)
  have := wu_rd A ee ⟨y, hy⟩ hk
  have E1 : Real.exp (x - m) ≤ 1 := Real.exp_le_one_iff.2 (by linarith)
  rw [abs_of_pos (Real.exp_pos _)] at this
  exact wu_mono A this (by linarith)

omit A in
theorem log_rel {s S e : ℝ} (hS : 0 < S) (h : |s - S| ≤ e * S) (he : e ≤ 0.28) : 0 < s ∧ |Real.log s - Real.log S| ≤ 1.4 * e := by
  have hb := abs_le.1 h
  have e0 : 0 ≤ e := by
    have := (_root_.abs_nonneg _).trans h
    exact nonneg_of_mul_nonneg_left this hS
  have s0 : 0.72 * S ≤ s := by nlinarith
  have sp : 0 < s := by linarith
  refine ⟨sp, abs_le.2 ⟨?_, ?_⟩⟩
  · have h1 := Real.log_le_sub_one_of_pos (div_pos hS sp)
    rw [Real.log_div hS.ne' sp.ne'] at h1
    have h2 : S / s - 1 ≤ 1.4 * e := by
      rw [div_sub_one sp.ne', div_le_iff₀ sp]
      nlinarith
    linarith
  · have h1 := Real.log_le_sub_one_of_pos (div_pos sp hS)
    rw [Real.log_div sp.ne' hS.ne'] at h1
    have h2 : s / S - 1 ≤ e := by
      rw [div_sub_one hS.ne', div_le_iff₀ hS]
      linarith
    linarith

/-- `jax.nn.log_softmax`, the normalisation behind every Categorical: for at most `1 / (16 u)` finite logits whose spread does not overflow,
every finite entry of the result is within the unit roundoff times `3 (max - x_i) + 10 n` of the exact normalised log-probability, in whatever
order the exponentials are added. -/
theorem C63_log_softmax {n : ℕ} (l r : Fin (n + 1) → FX F) (x : Fin (n + 1) → ℝ) (hl : ∀ i, (l i).1 = fin (x i)) (m : ℝ)
    (hm : IsGreatest (Set.range x) m) (hr : FloatCat.LogSoftmax l r) (hsp : ∀ i, (l i - FloatCat.maxEntry l).finite)
    (hN : u * (n + 1) ≤ 1 / 16) (i : Fin (n + 1)) (hf : (r i).finite) :
    (r i).Within (x i - Real.log (∑ j, Real.exp (x j))) (u * (3 * (m - x i) + 10 * (n + 1))) := by
  have u0 := A.u0
  have ul := A.u_le
  have nn : (0:ℝ) ≤ n := Nat.cast_nonneg n
  obtain ⟨s, hs, hri⟩ := hr
  obtain ⟨mx, j0, hj0⟩ := maxEntry_spec (l := l) fun i => finite.num ⟨x i, hl i⟩
  have hM : (FloatCat.maxEntry l).1 = fin m := by
    rw [hj0, hl j0]
    have h1 : ∀ i, x i ≤ x j0 := fun i => by
      have := mx i; rw [hj0, le_def, hl, hl, leB_fin] at this; exact this
    obtain ⟨j, hj⟩ := hm.1
    have := hm.2 ⟨j0, rfl⟩
    have := h1 j
    congr 1; linarith
  have le : ∀ j, x j ≤ m := fun j => hm.2 ⟨j, rfl⟩
  rw [hri i] at hf ⊢
  obtain ⟨f1, f2⟩ := sub_fin hf
  have fs : s.finite := by
    obtain ⟨y, hy⟩ := f2
    obtain ⟨k1, -⟩ := sums_nonneg hs fun a ha => by
      obtain ⟨j, rfl⟩ := (List.mem_ofFn' _ _).1 ha
      exact exp_nonneg (hsp j).num
    rcases fin_or k1.numR with g | g | g
    · exact g
    · rw [log, fn_pinf g] at hy; cases hy
    · rw [log, fn_ninf g] at hy; cases hy
  have hsum := C63_independent A _ (fun j => Real.exp (x j - m)) (fun _ => u * 2.1) (fun j => wu_exp_shift A (hl j) hM (le j) (hsp j)) s hs fs
  set S := ∑ j, Real.exp (x j - m) with hSd
  have S1 : 1 ≤ S := by
    obtain ⟨j, hj⟩ := hm.1
    have := Finset.single_le_sum (f := fun j => Real.exp (x j - m)) (fun j _ => (Real.exp_pos _).le) (Finset.mem_univ j)
    simpa [hj] using this
  have SN : S ≤ n + 1 := by
    have := Finset.sum_le_sum (s := Finset.univ) (f := fun j => Real.exp (x j - m)) (g := fun _ => (1:ℝ)) fun j _ =>
      Real.exp_le_one_iff.2 (by have := le j; linarith)
    simpa using this
  have pw : (1 + u) ^ n - 1 ≤ 2 * (n * u) := by
    have h1 : (1 + u) ^ n ≤ Real.exp (n * u) := by
      rw [Real.exp_nat_mul]
      exact pow_le_pow_left₀ (by linarith) (by have := Real.add_one_le_exp u; linarith) n
    have h2 := Real.abs_exp_sub_one_le (x := n * u) (by rw [abs_of_nonneg (by positivity)]; nlinarith)
    rw [abs_of_nonneg (by positivity : (0:ℝ) ≤ n * u)] at h2
    have := (abs_le.1 h2).2
    linarith
  have c1 : ∑ _j : Fin (n + 1), u * 2.1 = (n + 1) * (u * 2.1) := by simp
  have c2 : ∑ j, (|Real.exp (x j - m)| + u * 2.1) = S + (n + 1) * (u * 2.1) := by
    rw [Finset.sum_add_distrib, c1, hSd]
    congr 1
    exact Finset.sum_congr rfl fun j _ => abs_of_pos (Real.exp_pos _)
  rw [c1, c2] at hsum
  obtain ⟨σ, hσ, bσ⟩ := hsum
  have rel : |σ - S| ≤ 4.4 * (u * (n + 1)) * S := by
    refine bσ.trans ?_
    have w0 : 0 ≤ u * (n + 1) := by positivity
    set w := u * ((n:ℝ) + 1) with hw
    have e1 : ((n:ℝ) + 1) * (u * 2.1) = 2.1 * w := by rw [hw]; ring
    rw [e1]
    have h1 : ((1 + u) ^ n - 1) * (S + 2.1 * w) ≤ 2 * w * (S + 2.1 * w) := by
      refine mul_le_mul_of_nonneg_right (pw.trans ?_) (by linarith)
      rw [hw]; nlinarith
    have h2 : w * w ≤ w * (1 / 16) := mul_le_mul_of_nonneg_left hN w0
    have h3 : w * 1 ≤ w * S := mul_le_mul_of_nonneg_left S1 w0
    nlinarith
  obtain ⟨σ0, lg⟩ := log_rel (by linarith) rel (by linarith)
  have L0 : 0 ≤ Real.log S := Real.log_nonneg S1
  have L1 : Real.log S ≤ n := by
    have := Real.log_le_sub_one_of_pos (show 0 < S by linarith)
    linarith
  have hlog := wu_rd A (a := log s) (by rw [log, fn_val hσ, XR.log_fin_pos σ0]; rfl) f2 (x := Real.log S) (κ := 6.2 * (n + 1))
    (lg.trans (by nlinarith))
  have hd := wu_sub A f1 (wu_exact (hl i)) (wu_exact hM)
  have ht := wu_sub A hf hd hlog
  have e : x i - m - Real.log S = x i - Real.log (∑ j, Real.exp (x j)) := by
    have h1 : ∑ j, Real.exp (x j) = Real.exp m * S := by
      rw [hSd, Finset.mul_sum]
      exact Finset.sum_congr rfl fun j _ => by rw [← Real.exp_add]; ring_nf
    rw [h1, Real.log_mul (Real.exp_pos _).ne' (by linarith), Real.log_exp]
    ring
  rw [e] at ht
  refine wu_mono A ht ?_
  rw [← e]
  have t0 := le i
  have a1 : |x i - m| = m - x i := by rw [abs_of_nonpos (by linarith)]; ring
  have a2 := abs_sub (x i - m) (Real.log S)
  rw [abs_of_nonneg L0, a1] at a2
  rw [abs_of_nonneg L0, a1]
  linarith

end

end Distrax
