import Verif.Props.FloatSpline3
import Mathlib.Tactic

/-!
C79, concluded: in `float32` a bin of the documented `min_bin_size` can have width zero, and examples.
-/

namespace Distrax

open XR FX FSpline Spec

namespace FSpline

/-- Below half a unit in the last place, nothing is added to 2048. -/
theorem absorb {rd : ℝ → XR} (h : IEEE 24 (-149) 104 rd) {x : ℝ} (h0 : 0 ≤ x) (h1 : x ≤ 11 / 100000) : rd (2048 + x) = fin 2048 := by
  have m0 : (2048 : ℝ) ∈ binary 24 (-149) 104 := by have := binary_nat' (p := 24) (emin := -149) (emax := 104) (by norm_num) (by norm_num) 2048 (by norm_num); exact_mod_cast this
  have lim : (3000 : ℝ) < ((2 : ℝ) ^ 24 - 1 / 2) * (2 : ℝ) ^ (104 : ℤ) := by norm_num
  obtain ⟨y, hy, e, hn⟩ := h.near (2048 + x) (by rw [abs_of_nonneg (by linarith)]; linarith)
  have d := hn 2048 m0
  rw [show 2048 + x - 2048 = x by ring, abs_of_nonneg h0] at d
  have d' := abs_le.1 d
  have lo : 2048 ≤ y := by
    have r : rd 2048 = fin 2048 := RoundsToNearest.rep h m0 (by rw [abs_of_pos (by norm_num)]; linarith)
    have := RoundsToNearest.mono (by linarith) h (show (2048 : ℝ) ≤ 2048 + x by linarith)
    rwa [r, e, leB_fin] at this
  have hi : y ≤ 2048 + 22 / 100000 := by linarith
  obtain ⟨m, k, hm, -, -, hyk⟩ := hy
  have p0 : (0 : ℝ) < (2 : ℝ) ^ k := by positivity
  have hmR : |(m : ℝ)| < 2 ^ 24 := by rw [← Int.cast_abs]; exact_mod_cast hm
  have k12 : -12 ≤ k := by
    by_contra hk
    have : (2 : ℝ) ^ k ≤ 2 ^ (-13 : ℤ) := zpow_le_zpow_right₀ (by norm_num) (by omega)
    have h1 : (m : ℝ) * 2 ^ k < 2 ^ 24 * 2 ^ (-13 : ℤ) := by
      have hm1 : (m : ℝ) < 2 ^ 24 := (le_abs_self _).trans_lt hmR
      calc (m : ℝ) * 2 ^ k < 2 ^ 24 * 2 ^ k := mul_lt_mul_of_pos_right hm1 p0
        _ ≤ _ := mul_le_mul_of_nonneg_left this (by positivity)
    rw [hyk] at lo
    norm_num at h1
    linarith
  obtain ⟨n, hn⟩ := Int.eq_ofNat_of_zero_le (show 0 ≤ k + 12 by omega)
  have hy2 : y * 4096 = ((m * 2 ^ n : ℤ) : ℝ) := by
    rw [hyk, show k = n + (-12 : ℤ) by omega, zpow_add₀ (by norm_num)]
    push_cast
    rw [zpow_natCast]
    norm_num
    ring
  have b1 : (8388608 : ℤ) ≤ m * 2 ^ n := by have : (8388608 : ℝ) ≤ ((m * 2 ^ n : ℤ) : ℝ) := by rw [← hy2]; linarith
                                            exact_mod_cast this
  have b2 : m * 2 ^ n < (8388609 : ℤ) := by have : ((m * 2 ^ n : ℤ) : ℝ) < 8388609 := by rw [← hy2]; linarith
                                            exact_mod_cast this
  have b3 : m * 2 ^ n = (8388608 : ℤ) := by omega
  rw [b3] at hy2
  have : y = 2048 := by push_cast at hy2; linarith
  rw [e, this]

end FSpline

theorem FSpline.adds_up_exists (F : Fmt) : ∃ sum : List (FX F) → FX F, AddsUp sum := by
  have : ∀ xs : List (FX F), xs ≠ [] → ∃ s, FX.SumsTo xs s := by
    intro xs
    induction xs with
    | nil => intro h; exact absurd rfl h
    | cons a l ih =>
      intro _
      by_cases h : l = []
      · exact ⟨a, by rw [h]; exact .one a⟩
      · obtain ⟨s, hs⟩ := ih h
        exact ⟨a + s, .add (.one a) hs⟩
  choose f hf using this
  classical
  exact ⟨fun xs => if h : xs = [] then lit 0 else f xs h, fun xs h => by simp only [dif_neg h]; exact hf xs h⟩

namespace FSpline
variable {F : Fmt} {u η : ℝ}

/-- The softmax of two entries, the second of which is 0 and the first `lit c` with `c ≤ 0`. -/
theorem softmax_two (A : F.Acc u η) {sum : List (FX F) → FX F} (hs : AddsUp sum) {w : ℕ → FX F} {v : ℝ} (h0 : (w 0).1 = fin v) (hv : v ≤ 0) (h1 : w 1 = lit 0) :
    ∃ e S z, (FX.exp (w 0 - lit 0)).1 = fin e ∧ 0 ≤ e ∧ |S - (e + 1)| ≤ u * (e + 1) ∧ 1 ≤ S ∧ (softmax sum 2 w 0).1 = fin z ∧ 0 ≤ z ∧
      |z - e / S| ≤ u * (e / S) + η ∧ |e - Real.exp v| ≤ u * Real.exp v + η := by
  have tg := F.top_ge
  have m : maxOf 2 w = lit 0 := by
    show FX.max (w 0) (w (0 + 1)) = lit 0
    rw [show w (0 + 1) = lit 0 from h1]
    rcases max_val (finite.num ⟨v, h0⟩) (lit_num (F := F) 0) with ⟨e, -⟩ | ⟨e, l⟩
    · exact e
    · rw [e]; refine FX.ext ?_
      rw [le_def, lit_zero, h0, leB_fin] at l
      rw [h0, lit_zero, le_antisymm hv l]
  have d0 : (w 0 - lit 0).1 = fin v := by rw [sub_val, h0, lit_zero, fin_sub, _root_.sub_zero]; exact rep h0
  have ex : (FX.exp (w 0 - lit 0)).1 = F.rd (Real.exp v) := by rw [FX.exp, fn_val d0]; rfl
  have ev1 : Real.exp v ≤ 1 := Real.exp_le_one_iff.2 hv
  obtain ⟨e, he⟩ := F.fits (x := Real.exp v) (by rw [abs_of_pos (Real.exp_pos v)]; linarith)
  have e0 : 0 ≤ e := le_rd he F.rd_zero (Real.exp_pos v).le
  have e1 : e ≤ 1 := rd_le he F.rd_one ev1
  have ee := A.err he
  rw [abs_of_pos (Real.exp_pos v)] at ee
  have x1 : FX.exp (w 1 - lit 0) = lit 1 := by rw [h1, sub_self' ⟨0, lit_zero⟩, FX.exp_zero]
  have lst : ((List.range 2).map fun j => FX.exp (w j - maxOf 2 w)) = [FX.exp (w 0 - lit 0), lit 1] := by
    rw [m]; show [_, FX.exp (w 1 - lit 0)] = _; rw [x1]
  have hsum := hs _ (show [FX.exp (w 0 - lit 0), (lit 1 : FX F)] ≠ [] by simp)
  have ul := A.u_le
  have fs := C63_sum_finite A hsum (by
    intro x hx; simp only [List.mem_cons, List.not_mem_nil, or_false] at hx
    rcases hx with rfl | rfl
    · exact ⟨e, ex.trans he⟩
    · exact ⟨1, lit_one⟩) (by
    have : (FX.exp (w 0 - lit 0)).val = e := val_of (ex.trans he)
    simp only [List.map_cons, List.map_nil, List.sum_cons, List.sum_nil, this, val_of lit_one, abs_of_nonneg e0, List.length_cons, List.length_nil]
    norm_num
    nlinarith [A.u0])
  obtain ⟨S, hS, bS⟩ := C63_sum A hsum fs
  have vv : (FX.exp (w 0 - lit 0)).val = e := val_of (ex.trans he)
  simp only [List.map_cons, List.map_nil, List.sum_cons, List.sum_nil, vv, val_of lit_one, abs_of_nonneg e0, List.length_cons, List.length_nil] at bS
  norm_num at bS
  have S1 : 1 ≤ S := by
    have := (sums_nonneg hsum (by
      intro x hx; simp only [List.mem_cons, List.not_mem_nil, or_false] at hx
      rcases hx with rfl | rfl
      · rw [le_def, lit_zero, ex, he, leB_fin]; exact e0
      · rw [le_def, lit_zero, lit_one, leB_fin]; norm_num)).2 (lit 1) (by simp)
    rw [le_def, lit_one, hS, leB_fin] at this; exact this
  have q0 : 0 ≤ e / S := div_nonneg e0 (by linarith)
  have q1 : e / S ≤ 1 := by rw [div_le_one (by linarith)]; linarith
  obtain ⟨z, hz, bz, rz⟩ := op_div A (ex.trans he) hS (by linarith) (by rw [abs_of_nonneg q0]; linarith)
  rw [abs_of_nonneg q0] at bz
  refine ⟨e, S, z, ex.trans he, e0, bS, S1, ?_, le_rd rz F.rd_zero q0, bz, ee⟩
  unfold softmax
  rw [lst, m]
  exact hz

theorem near_of {a x u η : ℝ} (h : |a - x| ≤ u * x + η) (u1 : u ≤ 1 / 10000000) (η1 : η ≤ 1 / 10000000000) (x0 : 0 ≤ x)
    (x1 : x ≤ 5000) : x - 1 / 1000 ≤ a ∧ a ≤ x + 1 / 1000 := by
  have : u * x ≤ 1 / 10000000 * 5000 := mul_le_mul u1 x1 x0 (by norm_num)
  have := abs_le.1 h
  constructor <;> linarith

theorem le_of_near {a x u η : ℝ} (h : |a - x| ≤ u * x + η) (u1 : u ≤ 1 / 10000000) (x0 : 0 ≤ x) : a ≤ x * (1 + 1 / 10000000) + η := by
  have := mul_le_mul_of_nonneg_right u1 x0
  have := abs_le.1 h
  linarith

end FSpline

set_option maxHeartbeats 1000000 in
/-- **`min_bin_size` is not kept in floating point.** `float32`, range [2048, 4096], two bins, `min_bin_size = 1e-4`, boundary slopes one, any
order of summation: the constructor accepts, but the first bin on the x axis has width zero, and the inverse of 2049, inside the range, is
`nan`.  (The parameters are -40 and zeros.) -/
theorem C79_min_bin_size_lost (rd : ℝ → XR) (h : IEEE 24 (-149) 104 rd) :
    ∃ F : Fmt, F.rd = rd ∧ ∀ (sum cumsum : List (FX F) → FX F), AddsUp sum → AddsUp cumsum → ∀ tiny : FX F,
    ∃ o, FSpline.mk? sum cumsum 7 (fun i => if i = 0 then lit (-40) else lit 0) 2048 4096 "identity" (1 / 10000) (1 / 10000) = .ok o ∧
      o.xp 0 = o.xp 1 ∧ o.yp 0 < lit 2049 ∧ lit 2049 < o.yp 1 ∧ (o.inverse sum tiny (lit 2049)).1.1 = nan := by
  obtain ⟨F, hF, A⟩ := C63_formats.2.2.1 rd h
  refine ⟨F, hF, fun sum cumsum hs hc tiny => ?_⟩
  have u0 := A.u0
  have tg : (8192 : ℝ) ≤ F.top := by
    by_contra g
    push Not at g
    have m0 : (8192 : ℝ) ∈ binary 24 (-149) 104 := by have := binary_nat' (p := 24) (emin := -149) (emax := 104) (by norm_num) (by norm_num) 8192 (by norm_num); exact_mod_cast this
    have r := RoundsToNearest.rep h m0 (by rw [abs_of_pos (by norm_num)]; norm_num)
    rw [← hF] at r
    have := F.range r
    rw [abs_of_pos (by norm_num)] at this
    linarith
  have nat_rep : ∀ n : ℕ, n < 2 ^ 24 → F.rd n = fin n := fun n hn => by
    have m0 := binary_nat' (p := 24) (emin := -149) (emax := 104) (by norm_num) (by norm_num) n hn
    rw [hF]
    refine RoundsToNearest.rep h m0 ?_
    rw [abs_of_nonneg (by positivity)]
    have : (n : ℝ) < 2 ^ 24 := by exact_mod_cast hn
    refine this.trans ?_
    norm_num
  have r2048 : F.rd 2048 = fin 2048 := by exact_mod_cast nat_rep 2048 (by norm_num)
  have r2049 : F.rd 2049 = fin 2049 := by exact_mod_cast nat_rep 2049 (by norm_num)
  have r4096 : F.rd 4096 = fin 4096 := by exact_mod_cast nat_rep 4096 (by norm_num)
  have ub : (2 : ℝ) ^ (-24 : ℤ) ≤ 1 / 10000000 := by norm_num
  have ηb : (2 : ℝ) ^ (-150 : ℤ) ≤ 1 / 10000000000 := by norm_num
  have η0 := A.η0
  generalize (2 : ℝ) ^ (-24 : ℤ) = u at *
  generalize (2 : ℝ) ^ (-150 : ℤ) = η at *
  -- the parameters
  obtain ⟨v, hv⟩ := F.fits (x := -40) (by norm_num; linarith)
  have ev := A.err hv
  norm_num at ev
  have v39 : v ≤ -39 := by have := (abs_le.1 ev).2; linarith
  -- construct
  let o : FSpline.Obj F := ⟨2, positions cumsum 2 (fun i => softmax sum 2 (fun i => if i = 0 then lit (-40) else lit 0) i * lit (2048 - 2 * (1 / 10000)) + lit (1 / 10000)) 2048 4096,
    positions cumsum 2 (fun i => softmax sum 2 (fun i => if 2 + i = 0 then lit (-40) else lit 0) i * lit (2048 - 2 * (1 / 10000)) + lit (1 / 10000)) 2048 4096,
    fun i => if i = 0 then lit 1 else if i < 2 then FX.softplus ((if 2 * 2 + i = 0 then lit (-40) else lit 0) + FX.log (FX.exp (lit 1 - lit (1 / 10000)) - lit 1)) + lit (1 / 10000) else lit 1⟩
  have ho : FSpline.mk? sum cumsum 7 (fun i => if i = 0 then lit (-40) else lit 0) 2048 4096 "identity" (1 / 10000) (1 / 10000) = .ok o := by
    unfold FSpline.mk?
    rw [if_neg (by norm_num), if_neg (by norm_num), if_neg (by norm_num), if_neg (by norm_num)]
    have e1 : ∀ w : ℕ → FX F, normalizeBinSizes sum ((7 - 1) / 3) w (4096 - 2048) (1 / 10000) =
        .ok (fun i => softmax sum 2 w i * lit (2048 - 2 * (1 / 10000)) + lit (1 / 10000)) := fun w => by
      unfold normalizeBinSizes
      rw [if_neg (by norm_num)]
      norm_num
    have e2 : ∀ w : ℕ → FX F, normalizeKnotSlopes w (1 / 10000) =
        .ok (fun i => FX.softplus (w i + FX.log (FX.exp (lit 1 - lit (1 / 10000)) - lit 1)) + lit (1 / 10000)) := fun w => by
      unfold normalizeKnotSlopes
      rw [if_neg (by norm_num)]
    simp only [e1, e2, boundary, bind, Except.bind]
    rfl
  obtain ⟨sls, si, su, -⟩ := C79_slopes A ho (V := 0) (fun i _ => by
    refine ⟨0, ?_, le_rfl⟩
    show (if 2 * o.K + i = 0 then lit (-40) else lit 0 : FX F).1 = fin 0
    rw [if_neg (by show ¬ 2 * 2 + i = 0; omega)]; exact lit_zero) le_rfl (by linarith)
  -- the pieces shared by both axes
  obtain ⟨b, hb⟩ := F.fits (x := 1 / 10000) (by norm_num; linarith)
  have eb := A.err hb
  rw [abs_of_pos (show (0 : ℝ) < 1 / 10000 by norm_num)] at eb
  obtain ⟨b1, b2⟩ := abs_le.1 eb
  have b3 : 0 ≤ b := le_rd hb F.rd_zero (by norm_num)
  obtain ⟨t, ht⟩ := F.fits (x := 2048 - 2 * (1 / 10000)) (by norm_num; linarith)
  have et := A.err ht
  rw [abs_of_pos (show (0 : ℝ) < 2048 - 2 * (1 / 10000) by norm_num)] at et
  obtain ⟨t1, t2⟩ := abs_le.1 et
  have t3 : 2047 ≤ t := by linarith
  have t4 : t ≤ 2049 := by linarith
  -- widths
  obtain ⟨e, S, z, -, e0, -, S1, hz, z0, bz, be⟩ := softmax_two A hs (w := fun i => if i = 0 then lit (-40) else lit 0) (v := v) (by simpa using lit_val hv) (by linarith) (by simp)
  have ex39 : Real.exp v ≤ 1 / 500000000000 := by
    have h1 : Real.exp v ≤ Real.exp (-39) := Real.exp_le_exp.2 v39
    have h2 : (2 : ℝ) ^ 39 ≤ Real.exp 39 := by
      rw [show (39 : ℝ) = (39 : ℕ) * 1 by norm_num, Real.exp_nat_mul]
      exact pow_le_pow_left₀ (by norm_num) (by have := Real.add_one_le_exp 1; linarith) 39
    rw [Real.exp_neg] at h1
    have h3 : (Real.exp 39)⁻¹ ≤ ((2 : ℝ) ^ 39)⁻¹ := inv_anti₀ (by positivity) h2
    refine h1.trans (h3.trans (by norm_num))
  have e4 : e ≤ 2 / 10000000000 := by have := le_of_near be ub (Real.exp_pos v).le; linarith
  have q4 : e / S ≤ 2 / 10000000000 := by
    rw [div_le_iff₀ (by linarith)]; linarith
  have z4 : z ≤ 4 / 10000000000 := by have := le_of_near bz ub (div_nonneg e0 (by linarith)); linarith
  have zt0 : 0 ≤ z * t := mul_nonneg z0 (by linarith)
  have zt : z * t ≤ 4 / 10000000000 * 2049 := mul_le_mul z4 t4 (by linarith) (by norm_num)
  obtain ⟨p, hp, bp, rp⟩ := op_mul A hz (lit_val ht) (by rw [abs_of_nonneg zt0]; linarith)
  rw [abs_of_nonneg zt0] at bp
  have p0 : 0 ≤ p := le_rd rp F.rd_zero zt0
  have p1 : p ≤ 2 / 1000000 := by have := le_of_near bp ub zt0; linarith
  obtain ⟨s, hs', bs, rs⟩ := op_add A hp (lit_val hb) (by rw [abs_of_nonneg (by linarith)]; linarith)
  rw [abs_of_nonneg (show 0 ≤ p + b by linarith)] at bs
  have s0 : 0 ≤ s := le_rd rs F.rd_zero (by linarith)
  have s1 : s ≤ 11 / 100000 := by have := le_of_near (η := 0) (by rw [_root_.add_zero]; exact bs) ub (by linarith); linarith
  have one_sum : ∀ a : FX F, cumsum [a] = a := fun a => FVit.sums_single (hc [a] (by simp)) (l := []) (List.Perm.refl _) (by simp)
  have x0 : o.xp 0 = lit 2048 := rfl
  have x1 : (o.xp 1).1 = fin 2048 := by
    show (lit 2048 + cumsum [_]).1 = _
    rw [one_sum, add_val, lit_val r2048, hs', fin_add]
    show F.rd _ = _
    rw [hF]; exact absorb h s0 s1
  -- heights
  obtain ⟨e', S', z', -, e0', bS', S1', hz', z0', bz', be'⟩ := softmax_two A hs (w := fun i => if 2 + i = 0 then lit (-40) else lit 0) (v := 0) (by simp) le_rfl (by simp)
  rw [Real.exp_zero] at be'
  obtain ⟨e5, e6⟩ := near_of be' ub ηb (by norm_num) (by norm_num)
  obtain ⟨S5, S6⟩ := near_of (η := 0) (by rw [_root_.add_zero]; exact bS') ub (by norm_num) (by linarith) (by linarith)
  have q5 : 49 / 100 ≤ e' / S' := by rw [le_div_iff₀ (by linarith)]; linarith
  have q6 : e' / S' ≤ 51 / 100 := by rw [div_le_iff₀ (by linarith)]; linarith
  obtain ⟨z5, z6⟩ := near_of bz' ub ηb (by linarith) (by linarith)
  have zt5 : 48 / 100 * 2047 ≤ z' * t := mul_le_mul (by linarith) t3 (by norm_num) (by linarith)
  have zt6 : z' * t ≤ 52 / 100 * 2049 := mul_le_mul (by linarith) t4 (by linarith) (by norm_num)
  obtain ⟨p', hp', bp', -⟩ := op_mul A hz' (lit_val ht) (by rw [abs_of_nonneg (by linarith)]; linarith)
  rw [abs_of_nonneg (show 0 ≤ z' * t by linarith)] at bp'
  obtain ⟨p5, p6⟩ := near_of bp' ub ηb (by linarith) (by linarith)
  obtain ⟨s', hs5, bs', -⟩ := op_add A hp' (lit_val hb) (by rw [abs_of_nonneg (by linarith)]; linarith)
  rw [abs_of_nonneg (show 0 ≤ p' + b by linarith)] at bs'
  obtain ⟨s5, s6⟩ := near_of (η := 0) (by rw [_root_.add_zero]; exact bs') ub (by norm_num) (by linarith) (by linarith)
  obtain ⟨y1, hy1, by1, -⟩ := op_add A (lit_val r2048) hs5 (by rw [abs_of_nonneg (by linarith)]; linarith)
  rw [abs_of_nonneg (show 0 ≤ 2048 + s' by linarith)] at by1
  obtain ⟨y5', y6'⟩ := near_of (η := 0) (by rw [_root_.add_zero]; exact by1) ub (by norm_num) (by linarith) (by linarith)
  have y5 : 2900 ≤ y1 := by linarith
  have y6 : y1 ≤ 3200 := by linarith
  have Y0 : (o.yp 0).1 = fin 2048 := lit_val r2048
  have Y1 : (o.yp 1).1 = fin y1 := by
    show (lit 2048 + cumsum [_]).1 = _
    rw [one_sum]; exact hy1
  have Y2 : (o.yp 2).1 = fin 4096 := lit_val r4096
  have X2 : (o.xp 2).1 = fin 4096 := lit_val r4096
  have hx01 : o.xp 0 = o.xp 1 := FX.ext (by rw [x1, x0]; exact lit_val r2048)
  have t9 : (lit 2049 : FX F).1 = fin 2049 := lit_val r2049
  have three : ∀ {P : ℕ → Prop}, P 0 → P 1 → P 2 → ∀ i ≤ 2, P i := fun a b c i hi => by interval_cases i <;> assumption
  have sfin : ∀ i ≤ 2, (o.sl i).finite ∧ 0 ≤ (o.sl i).val ∧ (o.sl i).val ≤ 3 := fun i hi => by
    rcases sls i hi with e | ⟨l, f, bb⟩
    · rw [e]; exact ⟨⟨1, lit_one⟩, by rw [val_of lit_one]; norm_num, by rw [val_of lit_one]; norm_num⟩
    · refine ⟨f, ?_, by linarith⟩
      have := (le_iff_fin (lit_val hb) (fin_val f)).1 l
      linarith
  refine ⟨o, ho, hx01, (lt_iff_fin Y0 t9).2 (by norm_num), (lt_iff_fin t9 Y1).2 (by linarith), ?_⟩
  refine C79_zero_width_nan (K := 2) hs tiny (three (P := fun i => (o.xp i).finite) ⟨_, by rw [x0]; exact lit_val r2048⟩ ⟨_, x1⟩ ⟨_, X2⟩)
    (three (P := fun i => (o.yp i).finite) ⟨_, Y0⟩ ⟨_, Y1⟩ ⟨_, Y2⟩) (fun i hi => (sfin i hi).1) ?_ (i := 0) (by norm_num) hx01 ?_ t9 ?_ ?_
  · intro i hi
    interval_cases i
    · rw [val_of Y0, val_of Y1]; linarith
    · rw [val_of Y1, val_of Y2]; linarith
  · refine fin_add_of (fin_val (sfin 1 (by norm_num)).1) (fin_val (sfin 0 (by norm_num)).1) ?_
    have a1 := sfin 1 (by norm_num)
    have a0 := sfin 0 (by norm_num)
    rw [abs_of_nonneg (by linarith [a1.2.1, a0.2.1])]
    linarith [a1.2.2, a0.2.2]
  · rw [val_of Y0]; norm_num
  · show 2049 < (o.yp 1).val
    rw [val_of Y1]; linarith

/-- **No `inf`, no `nan`, end to end.** A constructed spline, under the size conditions of `C79_constructed`, maps every finite input that is not
astronomically large to finite numbers, in both directions. -/
theorem C79_constructed_finite {F : Fmt} {u η B : ℝ} {sum cumsum : List (FX F) → FX F} (A : F.Acc u η) (hs : AddsUp sum) (hc : AddsUp cumsum) {len : ℕ}
    {params : ℕ → FX F} {rmin rmax mb ms M V : ℝ} {opt : String} {o : FSpline.Obj F}
    (h : FSpline.mk? sum cumsum len params rmin rmax opt mb ms = .ok o) (hp : ∀ i < len, (params i).finite ∧ (params i).val ≤ V) (V0 : 0 ≤ V)
    (hM : 1 ≤ M) (h0 : |rmin| ≤ M) (h1 : |rmax| ≤ M) (hm : 128 * (o.K * u) * M ≤ mb)
    (R : Room F η B) (BM : 4 * M ≤ B) (Bm : 2 ≤ B * mb) (Bs : 2 ≤ B * ms) (BV : 2 * V + 3 ≤ B) {tiny : FX F} {τ : ℝ} (hτ : tiny.1 = fin τ)
    (τ0 : 0 < τ) (τ1 : τ ≤ 1) {v : FX F} {t : ℝ} (hv : v.1 = fin t) (ht : |t| * (4 * B) ≤ F.top) :
    (o.forward sum v).1.finite ∧ (o.forward sum v).2.finite ∧ (o.inverse sum tiny v).1.finite ∧ (o.inverse sum tiny v).2.finite := by
  have G := C79_constructed A hs hc h hp V0 hM h0 h1 hm R BM Bm Bs BV
  obtain ⟨a, b⟩ := C79_forward_finite A R hs G hv ht
  obtain ⟨c, d⟩ := C79_inverse_finite A R hs G hτ τ0 τ1 hv ht
  exact ⟨a, b, c, d⟩

/-! ### Concrete cases -/

/-- `float32`, range [0, 1], two bins, the default minima, all parameters zero: the conditions hold, and both directions are finite at 1/2. -/
example (rd : ℝ → XR) (h : IEEE 24 (-149) 104 rd) : ∃ F : Fmt, F.rd = rd ∧ ∃ (sum cumsum : List (FX F) → FX F) (o : FSpline.Obj F),
    AddsUp sum ∧ AddsUp cumsum ∧ FSpline.mk? sum cumsum 7 (fun _ => lit 0) 0 1 "identity" (1 / 10000) (1 / 10000) = .ok o ∧
    GoodKnots 20000 o.K o.xp o.yp o.sl ∧ Room F ((2 : ℝ) ^ (-150 : ℤ)) 20000 ∧
    (o.forward sum (lit (1 / 2))).1.finite ∧ (o.inverse sum (lit (1 / 2)) (lit (1 / 2))).1.finite := by
  obtain ⟨F, hF, A⟩ := C63_formats.2.2.1 rd h
  obtain ⟨sum, hs⟩ := FSpline.adds_up_exists F
  have tp : (2 : ℝ) ^ 100 ≤ F.top := by
    have m0 : (2 : ℝ) ^ (100 : ℤ) ∈ binary 24 (-149) 104 := ⟨1, 100, by norm_num, by norm_num, by norm_num, by norm_num⟩
    have r := RoundsToNearest.rep h m0 (by rw [abs_of_pos (by positivity)]; norm_num)
    rw [← hF] at r
    have := F.range r
    rw [abs_of_pos (by positivity)] at this
    exact_mod_cast this
  have R : Room F ((2 : ℝ) ^ (-150 : ℤ)) 20000 := ⟨by norm_num, by refine le_trans ?_ tp; norm_num, by norm_num⟩
  obtain ⟨o, ho⟩ := C79_accepts (F := F) (sum := sum) (cumsum := sum) (len := 7) (fun _ => lit 0) (rmin := 0) (rmax := 1) (mb := 1 / 10000) (ms := 1 / 10000)
    (opt := "identity") (by norm_num) (by norm_num) (by norm_num) (by norm_num) (by norm_num) (by norm_num) (by norm_num) (by simp)
  have hk : o.K = 2 := by have := (FSpline.mk?_ok ho).2.1; omega
  have fz : ∀ i < 7, ((fun _ => lit 0 : ℕ → FX F) i).finite ∧ ((fun _ => lit 0 : ℕ → FX F) i).val ≤ 0 := fun i _ =>
    ⟨⟨0, lit_zero⟩, le_of_eq (val_of lit_zero)⟩
  have hm : 128 * ((o.K : ℝ) * (2 : ℝ) ^ (-24 : ℤ)) * 1 ≤ 1 / 10000 := by rw [hk]; norm_num
  have h2 : (lit (1 / 2) : FX F).1 = fin (1 / 2) := lit_val F.half
  have G := C79_constructed (M := 1) (V := 0) A hs hs ho fz le_rfl le_rfl (by norm_num) (by norm_num) hm R (by norm_num) (by norm_num) (by norm_num) (by norm_num)
  obtain ⟨a, -, c, -⟩ := C79_constructed_finite (M := 1) (V := 0) A hs hs ho fz le_rfl le_rfl (by norm_num) (by norm_num) hm R (by norm_num) (by norm_num)
    (by norm_num) (by norm_num) h2 (by norm_num) (by norm_num) h2 (by rw [abs_of_pos (by norm_num)]; refine le_trans ?_ tp; norm_num)
  exact ⟨F, hF, sum, sum, o, hs, hs, ho, G, R, a, c⟩

end Distrax
