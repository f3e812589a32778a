import Verif.Props.FloatAcc3

/-!
C63 continued: the results are finite in a wide range, the number formats, and concrete cases.
-/

namespace Distrax

open FX Spec
open XR (fin pinf ninf nan leB ltB leB_fin leB_pinf ninf_leB pinf_leB leB_ninf fin_sub fin_mul fin_add infOf)

variable {F : Fmt} {u η : ℝ}

theorem fin_add_of {a b : FX F} {v w : ℝ} (ha : a.1 = fin v) (hb : b.1 = fin w) (h : |v + w| ≤ F.top + 8) : (a + b).finite := by
  obtain ⟨y, hy⟩ := F.fits h
  exact ⟨y, by rw [add_val, ha, hb, fin_add]; exact hy⟩

theorem fin_sub_of {a b : FX F} {v w : ℝ} (ha : a.1 = fin v) (hb : b.1 = fin w) (h : |v - w| ≤ F.top + 8) : (a - b).finite := by
  obtain ⟨y, hy⟩ := F.fits h
  exact ⟨y, by rw [sub_val, ha, hb, fin_sub]; exact hy⟩

theorem fin_mul_of {a b : FX F} {v w : ℝ} (ha : a.1 = fin v) (hb : b.1 = fin w) (h : |v * w| ≤ F.top + 8) : (a * b).finite := by
  obtain ⟨y, hy⟩ := F.fits h
  exact ⟨y, by rw [mul_val, ha, hb, fin_mul]; exact hy⟩

theorem fin_div_of {a b : FX F} {v w : ℝ} (ha : a.1 = fin v) (hb : b.1 = fin w) (hw : w ≠ 0) (h : |v / w| ≤ F.top + 8) : (a / b).finite := by
  obtain ⟨y, hy⟩ := F.fits h
  refine ⟨y, ?_⟩
  rw [div_val, ha, hb]
  show F.r (if w = 0 then _ else _) = _
  rw [if_neg hw]; exact hy

theorem within_abs {a : FX F} {x ε : ℝ} (h : a.Within x ε) : ∃ y, a.1 = fin y ∧ |y| ≤ |x| + ε := by
  obtain ⟨y, hy, hb⟩ := h
  exact ⟨y, hy, by have := abs_sub_abs_le_abs_sub y x; linarith⟩

section
variable (A : F.Acc u η)
include A

/-- The standardised value does not overflow if neither the difference nor the quotient is near the largest float. -/
theorem std_finite {d : LS F} {v : FX F} {m s x : ℝ} (hm : d.loc.1 = fin m) (hs : d.scale.1 = fin s) (s0 : 0 < s) (hv : v.1 = fin x)
    (h1 : |x - m| ≤ F.top) (h2 : |(x - m) / s| ≤ F.top / 2) : (d.standardize v).finite := by
  have u0 := A.u0
  have ul := A.u_le
  have ht := F.top_ge
  have f1 := fin_sub_of hv hm (by linarith)
  obtain ⟨w, hw, bw⟩ := wu_sub A f1 (wu_exact hv) (wu_exact hm)
  refine fin_div_of hw hs s0.ne' ?_
  have b : |w - (x - m)| ≤ u * |x - m| := by simpa using bw
  have h3 : |w| ≤ 2 * |x - m| := by
    have := abs_sub_abs_le_abs_sub w (x - m)
    have := mul_le_mul_of_nonneg_right ul (_root_.abs_nonneg (x - m))
    have := _root_.abs_nonneg (x - m)
    linarith
  rw [abs_div, abs_of_pos s0] at h2 ⊢
  have : |w| / s ≤ 2 * |x - m| / s := div_le_div_of_nonneg_right h3 s0.le
  have e : 2 * |x - m| / s = 2 * (|x - m| / s) := by ring
  linarith

/-- `Normal.log_prob` is finite, so the bound of `C63_normal_log_prob` applies, whenever `z²` is at most a quarter of the largest float. -/
theorem C63_normal_log_prob_finite (d : LS F) (v : FX F) (m s x : ℝ) (hm : d.loc.1 = fin m) (hs : d.scale.1 = fin s) (s0 : 0 < s)
    (hv : v.1 = fin x) (h1 : |x - m| ≤ F.top) (h2 : ((x - m) / s) ^ 2 ≤ F.top / 4) : (FloatNormal.logProb d v).finite := by
  have u0 := A.u0
  have ul := A.u_le
  have ht := F.top_ge
  have hd : d.Legal := ⟨⟨m, hm⟩, s, hs, s0⟩
  have t0 := _root_.abs_nonneg ((x - m) / s)
  have sq : |(x - m) / s| ^ 2 = ((x - m) / s) ^ 2 := sq_abs _
  have f1 := std_finite A hm hs s0 hv h1 (by nlinarith [sq_nonneg (|(x - m) / s| - 1)])
  obtain ⟨y, hy, by'⟩ := within_abs (wu_standardize A hm hs s0 hv f1)
  set t := |(x - m) / s| with htd
  have yb : |y| ≤ 1.01 * t + 0.001 := by
    have : u * (2.01 * t + 0.004) ≤ 1 / 256 * (2.01 * t + 0.004) := mul_le_mul_of_nonneg_right ul (by linarith)
    linarith
  have y2 : |y * y| ≤ F.top / 3 := by
    rw [abs_mul]
    have := mul_le_mul yb yb (_root_.abs_nonneg y) (by linarith)
    nlinarith
  have f2 := fin_mul_of hy hy (by linarith)
  obtain ⟨q, hq, bq⟩ := within_abs (wu_rd0 A (x := y * y) (by rw [mul_val, hy, fin_mul]; rfl) f2)
  have qb : |q| ≤ F.top / 2 := by
    have : u * (|y * y| + 1 / 256) ≤ 1 / 256 * (|y * y| + 1 / 256) := mul_le_mul_of_nonneg_right ul (by positivity)
    linarith
  have hh : (lit (-(1 / 2)) : FX F).1 = fin (-(1 / 2)) := lit_val (F.rd_neg F.half)
  have q2 : |-(1 / 2) * q| = |q| / 2 := by rw [abs_mul, abs_neg, abs_of_pos (by norm_num)]; ring
  have f3 : (lit (-(1 / 2)) * square (d.standardize v)).finite := fin_mul_of hh hq (by rw [q2]; linarith)
  obtain ⟨r, hr, br⟩ := within_abs (wu_rd0 A (a := lit (-(1 / 2)) * square (d.standardize v)) (x := -(1 / 2) * q)
    (by rw [mul_val, hh, show (square (d.standardize v)).1 = fin q from hq, fin_mul]; rfl) f3)
  have f4 := normal_const_finite hd
  obtain ⟨c, hc, bc⟩ := within_abs (wu_normal_const A hs s0 f4)
  have lg : |Real.log s| ≤ F.top / 16 := by have := F.logs (rep hs) s0; have := F.lb_le; linarith
  have cb : |halfLog2pi + Real.log s| ≤ 1 + F.top / 16 := by
    have c0 := log_two_pi_nonneg
    have c1 := log_two_pi_le
    have hc : halfLog2pi = Real.log (2 * Real.pi) / 2 := by unfold halfLog2pi; ring
    have := abs_add_le halfLog2pi (Real.log s)
    have : |halfLog2pi| ≤ 1 := by rw [hc, abs_of_nonneg (by linarith)]; linarith
    linarith
  refine fin_sub_of hr hc ?_
  have k1 : u * (|-(1 / 2) * q| + 1 / 256) ≤ 1 / 256 * (|-(1 / 2) * q| + 1 / 256) := mul_le_mul_of_nonneg_right ul (by positivity)
  have k2 : u * (2.1 + 2.1 * |Real.log s|) ≤ 1 / 256 * (2.1 + 2.1 * |Real.log s|) := mul_le_mul_of_nonneg_right ul (by positivity)
  have := abs_sub r c
  rw [q2] at br k1
  linarith

/-- A sum of finite entries does not overflow, in any order, if `(1+u)^(n-1)` times the sum of the magnitudes is at most the largest float. -/
theorem C63_sum_finite {xs : List (FX F)} {s : FX F} (h : SumsTo xs s) (hx : ∀ x ∈ xs, x.finite)
    (hb : (1 + u) ^ (xs.length - 1) * (xs.map fun x => |x.val|).sum ≤ F.top) : s.finite := by
  have u0 := A.u0
  have nn : ∀ l : List (FX F), 0 ≤ (l.map fun x => |x.val|).sum := fun l =>
    List.sum_nonneg fun y hy => by obtain ⟨x, _, rfl⟩ := List.mem_map.1 hy; exact _root_.abs_nonneg _
  have ab : ∀ l : List (FX F), |(l.map FX.val).sum| ≤ (l.map fun x => |x.val|).sum := fun l => by
    induction l with
    | nil => simp
    | cons x l ih => simp only [List.map_cons, List.sum_cons]; exact (abs_add_le _ _).trans (by linarith)
  induction h with
  | one a => exact hx a (by simp)
  | @add xs ys a b ha hb' iha ihb =>
    rw [List.map_append, List.sum_append, List.length_append] at hb
    have P0 := nn xs
    have Q0 := nn ys
    have la := sums_length ha
    have lb := sums_length hb'
    set p := (1 + u) ^ (xs.length + ys.length - 1)
    have p1 : 1 ≤ p := one_le_pow₀ (by linarith)
    have m1 : (1 + u) ^ (xs.length - 1) ≤ p := pow_le_pow_right₀ (by linarith) (by omega)
    have m2 : (1 + u) ^ (ys.length - 1) ≤ p := pow_le_pow_right₀ (by linarith) (by omega)
    have o1 : (1 + u) ^ (xs.length - 1) * (xs.map fun x => |x.val|).sum ≤ p * (xs.map fun x => |x.val|).sum :=
      mul_le_mul_of_nonneg_right m1 P0
    have o2 : (1 + u) ^ (ys.length - 1) * (ys.map fun x => |x.val|).sum ≤ p * (ys.map fun x => |x.val|).sum :=
      mul_le_mul_of_nonneg_right m2 Q0
    have fa := iha (fun x h => hx x (by simp [h])) (by nlinarith)
    have fb := ihb (fun x h => hx x (by simp [h])) (by nlinarith)
    have ea := (within_val.1 (C63_sum A ha fa)).2
    have eb := (within_val.1 (C63_sum A hb' fb)).2
    refine fin_add_of (fin_val fa) (fin_val fb) ?_
    have h1 := abs_sub_abs_le_abs_sub a.val (xs.map FX.val).sum
    have h2 := abs_sub_abs_le_abs_sub b.val (ys.map FX.val).sum
    have h3 := ab xs
    have h4 := ab ys
    have h5 := abs_add_le a.val b.val
    have := F.top_ge
    nlinarith
  | @perm xs ys s p _ ih =>
    refine ih (fun x h => hx x (p.mem_iff.1 h)) ?_
    rwa [(p.map fun x : FX F => |x.val|).sum_eq, p.length_eq]

/-- `log_softmax` of logits whose spread is at most half the largest float has finite entries, so `C63_log_softmax` applies. -/
theorem C63_log_softmax_finite {n : ℕ} (l r : Fin (n + 1) → FX F) (x : Fin (n + 1) → ℝ) (hl : ∀ i, (l i).1 = fin (x i))
    (hx : ∀ i j, x i - x j ≤ F.top / 2) (hr : FloatCat.LogSoftmax l r) (hN : u * (n + 1) ≤ 1 / 16) (hn : 2 * ((n:ℝ) + 1) ≤ F.top) :
    (∀ i, (l i - FloatCat.maxEntry l).finite) ∧ ∀ i, (r i).finite := by
  have u0 := A.u0
  have ul := A.u_le
  have ht := F.top_ge
  have nn : (0:ℝ) ≤ n := Nat.cast_nonneg n
  obtain ⟨s, hs, hri⟩ := hr
  obtain ⟨mx, j0, hj0⟩ := maxEntry_spec (l := l) fun i => finite.num ⟨x i, hl i⟩
  have hM : (FloatCat.maxEntry l).1 = fin (x j0) := by rw [hj0, hl j0]
  have le : ∀ i, x i ≤ x j0 := fun i => by
    have := mx i; rw [hj0, le_def, hl, hl, leB_fin] at this; exact this
  have ab : ∀ i, |x i - x j0| ≤ F.top / 2 := fun i => by
    rw [abs_of_nonpos (by have := le i; linarith)]; have := hx j0 i; linarith
  have f1 : ∀ i, (l i - FloatCat.maxEntry l).finite := fun i => fin_sub_of (hl i) hM (by have := ab i; linarith)
  refine ⟨f1, fun i => ?_⟩
  have un : ∀ i, ∃ e, (exp (l i - FloatCat.maxEntry l)).1 = fin e ∧ 0 ≤ e ∧ e ≤ 1 := fun i => by
    have d0 : l i - FloatCat.maxEntry l ≤ lit 0 := by
      rw [le_def, sub_val, hl i, hM, fin_sub, lit_zero, ← F.rd_zero]
      exact F.mono (by have := le i; linarith)
    exact unit_fin (exp_nonneg d0.numL) (exp_le_one d0)
  have fs : s.finite := by
    refine C63_sum_finite A hs (fun a ha => ?_) ?_
    · obtain ⟨j, rfl⟩ := (List.mem_ofFn' _ _).1 ha
      obtain ⟨e, he, -⟩ := un j
      exact ⟨e, he⟩
    · rw [List.map_ofFn, List.sum_ofFn, List.length_ofFn, Nat.add_sub_cancel]
      have h1 : ∑ i, ((fun x : FX F => |x.val|) ∘ fun i => exp (l i - FloatCat.maxEntry l)) i ≤ n + 1 := by
        have := Finset.sum_le_sum (s := Finset.univ) (f := (fun x : FX F => |x.val|) ∘ fun i => exp (l i - FloatCat.maxEntry l))
          (g := fun _ => (1:ℝ)) fun j _ => by
            obtain ⟨e, he, e0, e1⟩ := un j
            show |(exp (l j - FloatCat.maxEntry l)).val| ≤ 1
            rw [val_of he, abs_of_nonneg e0]; exact e1
        simpa using this
      have pw : (1 + u) ^ n ≤ 2 := by
        have h1 : (1 + u) ^ n ≤ Real.exp (n * u) := by
          rw [Real.exp_nat_mul]
          exact pow_le_pow_left₀ (by linarith) (by have := Real.add_one_le_exp u; linarith) n
        have h2 := Real.abs_exp_sub_one_le (x := n * u) (by rw [abs_of_nonneg (by positivity)]; nlinarith)
        rw [abs_of_nonneg (by positivity : (0:ℝ) ≤ n * u)] at h2
        have := (abs_le.1 h2).2
        nlinarith
      have p0 : 0 ≤ (1 + u) ^ n := by positivity
      have := mul_le_mul_of_nonneg_left h1 p0
      nlinarith
  have s1 : lit 1 ≤ s := ((shifted_spec (l := l) ⟨fun i => .inl ⟨x i, hl i⟩, 0, x 0, hl 0⟩).2 s hs).1
  obtain ⟨σ, hσ⟩ := fs
  rw [le_def, lit_one, hσ, leB_fin] at s1
  obtain ⟨y, hy, yb⟩ := log_finite hσ (by linarith)
  obtain ⟨w, hw, bw⟩ := within_abs (wu_sub A (f1 i) (wu_exact (hl i)) (wu_exact hM))
  rw [hri i]
  refine fin_sub_of hw hy ?_
  have := ab i
  have := F.lb_le
  have := abs_sub w y
  have h0 : u * (0 + 0 + |x i - x j0| + (0 + 0) / 256) ≤ 1 / 256 * |x i - x j0| := by
    simpa using mul_le_mul_of_nonneg_right ul (_root_.abs_nonneg (x i - x j0))
  linarith

end

/-- Rounding to nearest in `float16`, `bfloat16`, `float32` and `float64` has unit roundoff `2^-11`, `2^-8`, `2^-24` and `2^-53`. -/
theorem C63_formats :
    (∀ rd, IEEE 11 (-24) 5 rd → ∃ F : Fmt, F.rd = rd ∧ ∃ η, F.Acc ((2 : ℝ) ^ (-11 : ℤ)) η) ∧
    (∀ rd, IEEE 8 (-133) 120 rd → ∃ F : Fmt, F.rd = rd ∧ ∃ η, F.Acc ((2 : ℝ) ^ (-8 : ℤ)) η) ∧
    (∀ rd, IEEE 24 (-149) 104 rd → ∃ F : Fmt, F.rd = rd ∧ F.Acc ((2 : ℝ) ^ (-24 : ℤ)) ((2 : ℝ) ^ (-150 : ℤ))) ∧
    (∀ rd, IEEE 53 (-1074) 971 rd → ∃ F : Fmt, F.rd = rd ∧ F.Acc ((2 : ℝ) ^ (-53 : ℤ)) ((2 : ℝ) ^ (-1075 : ℤ))) := by
  refine ⟨fun rd h => ?_, fun rd h => ?_, fun rd h => ?_, fun rd h => ?_⟩
  · obtain ⟨F, hF, -⟩ := C61_formats.1 rd h
    exact ⟨F, hF, _, by simpa using ieee_acc rd h hF (by norm_num) (by norm_num) (by norm_num)⟩
  · obtain ⟨F, hF⟩ := C61_formats.2.1 rd h
    exact ⟨F, hF, _, by simpa using ieee_acc rd h hF (by norm_num) (by norm_num) (by norm_num)⟩
  · obtain ⟨F, hF, -⟩ := C61_formats.2.2.1 rd h
    exact ⟨F, hF, by have := ieee_acc rd h hF (by norm_num) (by norm_num) (by norm_num); norm_num at this ⊢; exact this⟩
  · obtain ⟨F, hF⟩ := C61_formats.2.2.2.1 rd h
    exact ⟨F, hF, by have := ieee_acc rd h hF (by norm_num) (by norm_num) (by norm_num); norm_num at this ⊢; exact this⟩

/-! ### Concrete cases -/

theorem lit_three : (lit 3 : FX F).1 = fin 3 := lit_val (by exact_mod_cast F.small 3 (by norm_num))

/-- The standard normal density at 3, in `float32`. -/
example (rd : ℝ → XR) (h : IEEE 24 (-149) 104 rd) : ∃ F : Fmt, F.rd = rd ∧
    (FloatNormal.logProb (⟨lit 0, lit 1⟩ : LS F) (lit 3)).Within ((⟨0, 1⟩ : Normal).logProb 3) ((2 : ℝ) ^ (-24 : ℤ) * 40) := by
  obtain ⟨F, hF, A⟩ := C63_formats.2.2.1 rd h
  have ht := F.top_ge
  refine ⟨F, hF, ?_⟩
  have := C63_normal_log_prob A ⟨lit 0, lit 1⟩ (lit 3) 0 1 3 lit_zero lit_one one_pos lit_three
    (C63_normal_log_prob_finite A _ _ 0 1 3 lit_zero lit_one one_pos lit_three (by norm_num; linarith) (by norm_num; linarith))
  refine this.mono ?_
  norm_num

/-- Three logits in `float32`, summed in any order. -/
example (rd : ℝ → XR) (h : IEEE 24 (-149) 104 rd) : ∃ F : Fmt, F.rd = rd ∧ ∀ r : Fin 3 → FX F, FloatCat.LogSoftmax ![lit 0, lit 3, lit 1] r →
    (r 2).Within (1 - Real.log (Real.exp 0 + Real.exp 3 + Real.exp 1)) ((2 : ℝ) ^ (-24 : ℤ) * 36) := by
  obtain ⟨F, hF, A⟩ := C63_formats.2.2.1 rd h
  have ht := F.top_ge
  refine ⟨F, hF, fun r hr => ?_⟩
  have hl : ∀ i, ((![lit 0, lit 3, lit 1] : Fin 3 → FX F) i).1 = fin ((![0, 3, 1] : Fin 3 → ℝ) i) := by
    intro i; fin_cases i
    · exact lit_zero
    · exact lit_three
    · exact lit_one
  obtain ⟨f1, f2⟩ := C63_log_softmax_finite A _ r ![0, 3, 1] hl (by
    intro i j; fin_cases i <;> fin_cases j <;> simp <;> linarith) hr (by norm_num) (by norm_num; linarith)
  have := C63_log_softmax A _ r ![0, 3, 1] hl 3 ⟨⟨1, rfl⟩, by rintro _ ⟨i, rfl⟩; fin_cases i <;> simp⟩ hr f1 (by norm_num) 2 (f2 2)
  rw [Fin.sum_univ_three] at this
  refine FX.Within.mono this ?_
  rw [show (![0, 3, 1] : Fin 3 → ℝ) 2 = 1 from rfl]
  norm_num

/-- The hypotheses of the round-trip theorem hold in `float32` for scale 3. -/
example : (2 : ℝ) ^ (-150 : ℤ) ≤ (2 : ℝ) ^ (-24 : ℤ) / 256 * |3| ∧ (2 : ℝ) ^ (-150 : ℤ) * |3| ≤ (2 : ℝ) ^ (-24 : ℤ) / 256 := by norm_num

end Distrax
