import Verif.Props.Float3

/-! C61 continued: quantized distributions and hidden Markov models. -/

namespace Distrax

open FX Spec
open XR (fin pinf ninf nan leB ltB leB_fin leB_pinf ninf_leB pinf_leB leB_ninf fin_sub fin_mul fin_add infOf)

variable {F : Fmt}

/-! ### Quantized -/

theorem floor_finite {v : FX F} (h : v.finite) : (floor v).finite := by
  obtain ⟨x, hx⟩ := h
  have b := abs_le.1 (abs_le_top hx)
  have l := Int.floor_le x
  have u := Int.lt_floor_add_one x
  obtain ⟨y, hy⟩ := F.fits (x := ((⌊x⌋ : ℤ) : ℝ)) (by rw [abs_le]; constructor <;> linarith)
  exact ⟨y, by rw [floor, fn_val hx]; exact hy⟩

theorem sub_one_finite {v : FX F} (h : v.finite) : (v - lit 1).finite ∧ v - lit 1 ≤ v := by
  obtain ⟨x, hx⟩ := h
  have b := abs_le.1 (abs_le_top hx)
  obtain ⟨y, hy⟩ := F.fits (x := x - 1) (by rw [abs_le]; constructor <;> linarith)
  have e : (v - lit 1).1 = F.rd (x - 1) := by rw [sub_val, hx, lit_one, fin_sub]; rfl
  exact ⟨⟨y, e.trans hy⟩, by rw [le_def, e, hx, ← rep hx]; exact F.mono (by linarith)⟩

/-- Bounds of a quantized distribution: absent or a number. -/
def OptNum (o : Option (FX F)) : Prop := ∀ x ∈ o, ¬ x.isNan

theorem negInf_le {a : FX F} (h : a.Num) : negInf ≤ a := ninf_leB h

/-- The two masks of `Quantized.log_cdf` and `Quantized.log_survival_function`. -/
noncomputable def maskLow (low : Option (FX F)) (c y r : FX F) : FX F := match low with | some l => whr (y < l) c r | none => r
noncomputable def maskHigh (high : Option (FX F)) (c y r : FX F) : FX F := match high with | some h => whr (y < h) r c | none => r

theorem logCdf_masks (b : FBase F) (low high : Option (FX F)) (v : FX F) :
    FloatQuantized.logCdf b low high v = maskHigh high (lit 0) (floor v) (maskLow low negInf (floor v) (b.logCdf (floor v))) := by
  cases low <;> cases high <;> rfl

theorem logSf_masks (b : FBase F) (low high : Option (FX F)) (v : FX F) :
    FloatQuantized.logSf b low high v = maskHigh high negInf (floor v) (maskLow low (lit 0) (floor v) (b.logSf (floor v))) := by
  cases low <;> cases high <;> rfl

/-- Masking below with a lower bound of the values keeps the values nondecreasing. -/
theorem maskLow_inc {low : Option (FX F)} (hl : OptNum low) {c y y' r r' : FX F} (hy : y ≤ y') (hr : r ≤ r') (hc : c ≤ r') :
    maskLow low c y r ≤ maskLow low c y' r' := by
  cases low with
  | none => exact hr
  | some l =>
    have ln : l.Num := hl l rfl
    simp only [maskLow, whr]
    split_ifs with g1 g2 g2
    · exact rfl' hc.numL
    · exact hc
    · exact absurd g2 (by
        rw [lt_iff hy.numL ln, not_not] at g1
        rw [lt_iff hy.numR ln, not_not]
        exact LE.le.tr g1 hy)
    · exact hr

theorem maskHigh_inc {high : Option (FX F)} (hh : OptNum high) {c y y' r r' : FX F} (hy : y ≤ y') (hr : r ≤ r') (hc : r ≤ c) :
    maskHigh high c y r ≤ maskHigh high c y' r' := by
  cases high with
  | none => exact hr
  | some l =>
    have ln : l.Num := hh l rfl
    simp only [maskHigh, whr]
    split_ifs with g1 g2 g2
    · exact hr
    · exact hc
    · exact absurd g2 (by
        rw [lt_iff hy.numL ln, not_not] at g1
        rw [lt_iff hy.numR ln, not_not]
        exact LE.le.tr g1 hy)
    · exact rfl' hc.numR

theorem maskLow_dec {low : Option (FX F)} (hl : OptNum low) {c y y' r r' : FX F} (hy : y ≤ y') (hr : r' ≤ r) (hc : r' ≤ c) :
    maskLow low c y' r' ≤ maskLow low c y r := by
  cases low with
  | none => exact hr
  | some l =>
    have ln : l.Num := hl l rfl
    simp only [maskLow, whr]
    split_ifs with g1 g2 g2
    · exact rfl' hc.numR
    · exact absurd g1 (by
        rw [lt_iff hy.numL ln, not_not] at g2
        rw [lt_iff hy.numR ln, not_not]
        exact LE.le.tr g2 hy)
    · exact hc
    · exact hr

theorem maskHigh_dec {high : Option (FX F)} (hh : OptNum high) {c y y' r r' : FX F} (hy : y ≤ y') (hr : r' ≤ r) (hc : c ≤ r) :
    maskHigh high c y' r' ≤ maskHigh high c y r := by
  cases high with
  | none => exact hr
  | some l =>
    have ln : l.Num := hh l rfl
    simp only [maskHigh, whr]
    split_ifs with g1 g2 g2
    · exact hr
    · exact absurd g1 (by
        rw [lt_iff hy.numL ln, not_not] at g2
        rw [lt_iff hy.numR ln, not_not]
        exact LE.le.tr g2 hy)
    · exact hc
    · exact rfl' hc.numL

theorem mask_le {o : Option (FX F)} {c y r t : FX F} (h1 : c ≤ t) (h2 : r ≤ t) : maskLow o c y r ≤ t ∧ maskHigh o c y r ≤ t := by
  cases o with
  | none => exact ⟨h2, h2⟩
  | some l =>
    simp only [maskLow, maskHigh, whr]
    constructor <;> split_ifs <;> assumption

/-- `Quantized.log_cdf` is at most 0 and nondecreasing if the base distribution's is, for all bounds. -/
theorem quantized_logCdf {b : FBase F} (hb : FloatLogCdf b.logCdf) {low high : Option (FX F)} (hl : OptNum low) (hh : OptNum high) :
    FloatLogCdf (FloatQuantized.logCdf b low high) := by
  have nn : (negInf : FX F) ≤ lit 0 := negInf_le (lit_num 0)
  refine ⟨fun v hv => ?_, fun v w hv hw h => ?_⟩
  · rw [logCdf_masks]
    exact (mask_le (rfl' (lit_num 0)) (mask_le nn (hb.1 _ (floor_finite hv))).1).2
  · rw [logCdf_masks, logCdf_masks]
    have fv := floor_finite hv
    have fw := floor_finite hw
    have b1 := hb.1 _ fv
    refine maskHigh_inc hh (floor_mono h) (maskLow_inc hl (floor_mono h) (hb.2 _ _ fv fw (floor_mono h)) (negInf_le (hb.1 _ fw).numL)) ?_
    exact (mask_le nn b1).1

/-- `Quantized.log_survival_function` is at most 0 and nonincreasing if the base distribution's is, for all bounds. -/
theorem quantized_logSf {b : FBase F} (hb : FloatLogSf b.logSf) {low high : Option (FX F)} (hl : OptNum low) (hh : OptNum high) :
    FloatLogSf (FloatQuantized.logSf b low high) := by
  have nn : (negInf : FX F) ≤ lit 0 := negInf_le (lit_num 0)
  have z := rfl' (lit_num (F := F) 0)
  refine ⟨fun v hv => ?_, fun v w hv hw h => ?_⟩
  · rw [logSf_masks]
    exact (mask_le nn (mask_le z (hb.1 _ (floor_finite hv))).1).2
  · rw [logSf_masks, logSf_masks]
    have fv := floor_finite hv
    have fw := floor_finite hw
    refine maskHigh_dec hh (floor_mono h) (maskLow_dec hl (floor_mono h) (hb.2 _ _ fv fw (floor_mono h)) (hb.1 _ fw)) ?_
    exact negInf_le (mask_le z (hb.1 _ fv)).1.numL

theorem finite_of_nonpos {a : FX F} (h : a ≤ lit 0) (h' : a.1 ≠ ninf) : a.finite := by
  rcases fin_or h.numL with g | g | g
  · exact g
  · exact absurd g (ne_pinf_of_le h zero_fits)
  · exact absurd g h'

/-- `log(exp(big) - exp(small))` for finite `big` and `small ≤ big` (`small = -inf` and `small = big` allowed): never `nan`, at most
`big`. -/
theorem big_minus_small {big small : FX F} (hb : big.finite) (h : small ≤ big) :
    FloatQuantized.logExpBigMinusExpSmall big small ≤ big := by
  have d : small - big ≤ lit 0 := sub_nonpos h (sub_num_fin' h.numL hb)
  have e0 := exp_nonneg d.numL
  have e1 := exp_le_one d
  have l := log1p_nonpos (neg_unit e1) (neg_nonpos e0)
  exact add_le hb.num (by obtain ⟨x, hx⟩ := hb; rw [hx]; simp) l

/-- `Quantized.log_prob` is never `nan`, for any bounds, on every finite value, whatever the base distribution, as long as its `log_cdf`
and `log_survival_function` are at most 0 and monotone.  Without `eps` it is at most 0, with `eps` at most `eps`. -/
theorem C61_quantized (b : FBase F) (hc : FloatLogCdf b.logCdf) (hs : FloatLogSf b.logSf) (low high : Option (FX F))
    (hl : OptNum low) (hh : OptNum high) (v : FX F) (hv : v.finite) :
    FloatQuantized.logProb b low high none v ≤ lit 0 ∧
    ∀ e : FX F, e.finite → lit 0 ≤ e → FloatQuantized.logProb b low high (some e) v ≤ e := by
  obtain ⟨c0, c1⟩ := quantized_logCdf hc hl hh
  obtain ⟨s0, s1⟩ := quantized_logSf hs hl hh
  obtain ⟨f1, f2⟩ := sub_one_finite hv
  have nn : (negInf : FX F) ≤ lit 0 := negInf_le (lit_num 0)
  unfold FloatQuantized.logProb
  simp only
  have A := c1 _ _ f1 hv f2
  have B := s1 _ _ f1 hv f2
  have A0 := c0 _ hv
  have B0 := s0 _ f1
  generalize FloatQuantized.logCdf b low high v = lc at *
  generalize FloatQuantized.logCdf b low high (v - lit 1) = lcm at *
  generalize FloatQuantized.logSf b low high v = ls at *
  generalize FloatQuantized.logSf b low high (v - lit 1) = lsm at *
  have key : ¬ (isInf lc ∨ isInf lsm) →
      (whr (ls < lc) lsm lc).finite ∧ whr (ls < lc) ls lcm ≤ whr (ls < lc) lsm lc ∧ whr (ls < lc) lsm lc ≤ lit 0 := by
    intro h
    unfold isInf at h
    push Not at h
    unfold whr
    split_ifs
    · exact ⟨finite_of_nonpos B0 h.2.2, B, B0⟩
    · exact ⟨finite_of_nonpos A0 h.1.2, A, A0⟩
  generalize whr (ls < lc) lsm lc = big at *
  generalize whr (ls < lc) ls lcm = small at *
  refine ⟨?_, fun e he e0 => ?_⟩
  · by_cases g : isInf lc ∨ isInf lsm
    · rw [whr, if_pos g]; exact nn
    · obtain ⟨k1, k2, k3⟩ := key g
      rw [whr, if_neg g, whr]
      split_ifs
      · exact nn
      · exact LE.le.tr (big_minus_small k1 k2) k3
  · have ne : negInf ≤ e := negInf_le he.num
    by_cases g : isInf lc ∨ isInf lsm
    · rw [whr, if_pos g]; exact ne
    · obtain ⟨k1, k2, k3⟩ := key g
      rw [whr, if_neg g, whr]
      split_ifs
      · exact ne
      · rw [whr]
        split_ifs with c
        · exact LE.le.tr (LE.le.tr (big_minus_small k1 k2) k3) e0
        · -- the gap is at most `eps`: `small` is finite
          have sn : small.1 ≠ ninf := by
            intro h
            apply c
            obtain ⟨x, hx⟩ := k1
            obtain ⟨y, hy⟩ := he
            rw [lt_def, sub_val, h, hx, hy]
            trivial
          have s0' := LE.le.tr k2 k3
          have u := add_le he.num (by obtain ⟨y, hy⟩ := he; rw [hy]; simp) s0'
          rw [add_comm'] at u
          have l := le_add s0'.numL sn e0
          have sf : (small + e).finite := by
            rcases fin_or u.numL with h | h | h
            · exact h
            · rw [le_def, h] at u
              obtain ⟨y, hy⟩ := he
              rw [pinf_leB u] at hy; cases hy
            · rw [le_def, h] at l
              exact absurd (leB_ninf l) sn
          exact LE.le.tr (big_minus_small sf l) u

/-! ### Hidden Markov models -/

/-- The numbers an HMM with `K` states and observation densities at most `2^a` needs: the integers up to `K²` are represented exactly
(`K² ≤ 2^24` in `float32`), and `K² 2^a` does not overflow. -/
structure FloatHMM.Fits (F : Fmt) (K a : ℕ) : Prop where
  nat : ∀ n : ℕ, n ≤ K * K → F.rd n = fin n
  top : (K * K : ℝ) * 2 ^ a ≤ F.top

theorem FloatHMM.Fits.rep {K a : ℕ} (h : FloatHMM.Fits F K a) {n : ℕ} (hn : n ≤ K * K) : F.rd (n * 2 ^ a) = fin (n * 2 ^ a) := by
  have t : (n : ℝ) * 2 ^ a ≤ F.top := by
    refine le_trans (mul_le_mul_of_nonneg_right ?_ (by positivity)) h.top
    exact_mod_cast hn
  have hn' := h.nat n hn
  clear h
  induction a with
  | zero => simpa using hn'
  | succ a ih =>
    have e : (n : ℝ) * 2 ^ (a + 1) = 2 * (n * 2 ^ a) := by ring
    have p : (0 : ℝ) ≤ n * 2 ^ a := by positivity
    rw [e] at t ⊢
    exact F.double (ih (by linarith)) (by rw [abs_of_nonneg (by linarith)]; exact t)

/-- Any order of summation of `n` numbers between 0 and `B` stays below `n B`, if the multiples of `B` are representable. -/
theorem sums_le {xs : List (FX F)} {s : FX F} {B : ℝ} (h : SumsTo xs s) {N : ℕ} (hB : ∀ n ≤ N, F.rd (n * B) = fin (n * B))
    (hN : xs.length ≤ N) (h1 : ∀ x ∈ xs, x ≤ lit B) (h0 : ∀ x ∈ xs, lit 0 ≤ x) : s ≤ lit (xs.length * B) := by
  induction h with
  | one a => simpa using h1 a (by simp)
  | @add xs ys a b ha hb iha ihb =>
    rw [List.length_append] at hN ⊢
    have i1 := iha (by omega) (fun x hx => h1 x (by simp [hx])) fun x hx => h0 x (by simp [hx])
    have i2 := ihb (by omega) (fun x hx => h1 x (by simp [hx])) fun x hx => h0 x (by simp [hx])
    have l1 := (sums_nonneg ha fun x hx => h0 x (by simp [hx])).1
    have l2 := (sums_nonneg hb fun x hx => h0 x (by simp [hx])).1
    have e : (lit (xs.length * B) + lit (ys.length * B) : FX F) = lit ((xs.length + ys.length : ℕ) * B) := ext (by
      rw [add_val, lit_val (hB xs.length (by omega)), lit_val (hB ys.length (by omega)), fin_add]
      push_cast
      rw [← add_mul]; rfl)
    rw [← e]
    exact add_le_add i1 i2 (add_num_nonneg l1 l2) (by rw [e]; exact lit_num _)
  | @perm xs ys a hp _ ih =>
    rw [← hp.length_eq] at hN ⊢
    exact ih hN (fun x hx => h1 x (hp.mem_iff.1 hx)) fun x hx => h0 x (hp.mem_iff.1 hx)

/-- Multiplication of nonnegative numbers is monotone. -/
theorem mul_bounds {a b : FX F} {A B : ℝ} (hA : F.rd A = fin A) (hB : F.rd B = fin B) (a0 : lit 0 ≤ a) (a1 : a ≤ lit A)
    (b0 : lit 0 ≤ b) (b1 : b ≤ lit B) : lit 0 ≤ a * b ∧ a * b ≤ lit (A * B) := by
  have fA := (le_abs_self A).trans (F.range hA)
  have get : ∀ {c : FX F} {C : ℝ}, F.rd C = fin C → lit 0 ≤ c → c ≤ lit C → ∃ x, c.1 = fin x ∧ 0 ≤ x ∧ x ≤ C := by
    intro c C hC h0 h1
    obtain ⟨x, hx⟩ := finite_of_le h0 h1 zero_fits (by have := F.range hC; linarith)
    rw [le_def, hx, lit_zero, leB_fin] at h0
    rw [le_def, hx, lit_val hC, leB_fin] at h1
    exact ⟨x, hx, h0, h1⟩
  obtain ⟨x, hx, x0, x1⟩ := get hA a0 a1
  obtain ⟨y, hy, y0, y1⟩ := get hB b0 b1
  have e : (a * b).1 = F.rd (x * y) := by rw [mul_val, hx, hy, fin_mul]; rfl
  constructor
  · rw [le_def, e, lit_zero, ← F.rd_zero]; exact F.mono (by positivity)
  · rw [le_def, e]; exact F.mono (mul_le_mul x1 y1 y0 (by linarith))

/-- The parameters of an HMM: probabilities, and observation densities at most `2^a`. -/
structure FloatHMM.Legal {K : ℕ} (a : ℕ) (init : Fin K → FX F) (trans : Fin K → Fin K → FX F) (obs : ℕ → Fin K → FX F) : Prop where
  init : ∀ k, lit 0 ≤ init k ∧ init k ≤ lit 1
  trans : ∀ i j, lit 0 ≤ trans i j ∧ trans i j ≤ lit 1
  obs : ∀ t k, lit 0 ≤ obs t k ∧ obs t k ≤ lit (2 ^ a)

/-- The clamp of `_normalize`. -/
theorem clamp_bounds {u : FX F} {B : ℝ} (hB : 1 ≤ B) (h0 : lit 0 ≤ u) (h1 : u ≤ lit B) :
    lit 0 ≤ whr (u.1 = fin 0) (lit 0) (whr (u < lit 1e-15) (lit 1e-15) u) ∧
    whr (u.1 = fin 0) (lit 0) (whr (u < lit 1e-15) (lit 1e-15) u) ≤ lit B := by
  unfold whr
  split_ifs
  · exact ⟨rfl' (lit_num 0), lit_le (by linarith)⟩
  · exact ⟨lit_le (by norm_num), lit_le (by norm_num; linarith)⟩
  · exact ⟨h0, h1⟩

theorem normalize_spec {K a : ℕ} (hf : FloatHMM.Fits F K a) {u w : Fin K → FX F} {c : FX F} (hu : ∀ k, lit 0 ≤ u k ∧ u k ≤ lit (K * 2 ^ a))
    (h : FloatHMM.Normalize u w c) : (∀ k, lit 0 ≤ w k ∧ w k ≤ lit 1) ∧ (log c).finite := by
  obtain ⟨s, hs, hc, hw⟩ := h
  have hK : 1 ≤ K := by
    rcases K with _ | K
    · exfalso
      have : ∀ {xs : List (FX F)} {s}, SumsTo xs s → xs ≠ [] := by
        intro xs s h
        induction h with
        | one => simp
        | add _ _ i _ => simp [i]
        | perm hp _ i => intro e; subst e; exact i hp.eq_nil
      exact this hs (by simp)
    · omega
  have B1 : (1 : ℝ) ≤ K * 2 ^ a := by
    have k1 : (1 : ℝ) ≤ K := by exact_mod_cast hK
    have k2 : (1 : ℝ) ≤ 2 ^ a := one_le_pow₀ (by norm_num)
    nlinarith
  set cl : Fin K → FX F := fun k => whr ((u k).1 = fin 0) (lit 0) (whr (u k < lit 1e-15) (lit 1e-15) (u k)) with hcl
  have hcb : ∀ k, lit 0 ≤ cl k ∧ cl k ≤ lit (K * 2 ^ a) := fun k => clamp_bounds B1 (hu k).1 (hu k).2
  have mem : ∀ x ∈ List.ofFn cl, ∃ k, cl k = x := fun x hx => (List.mem_ofFn' _ _).1 hx
  obtain ⟨s0, s1⟩ := sums_nonneg hs fun x hx => by obtain ⟨k, rfl⟩ := mem x hx; exact (hcb k).1
  have s2 : s ≤ lit (K * (K * 2 ^ a)) := by
    have := sums_le (B := K * 2 ^ a) (N := K) hs (fun n hn => by
      have := hf.rep (n := n * K) (Nat.mul_le_mul_right K hn)
      push_cast at this
      rwa [mul_assoc] at this) (by simp) (fun x hx => by obtain ⟨k, rfl⟩ := mem x hx; exact (hcb k).2)
      (fun x hx => by obtain ⟨k, rfl⟩ := mem x hx; exact (hcb k).1)
    simpa using this
  have hle : ∀ k, cl k ≤ s := fun k => s1 _ ((List.mem_ofFn' _ _).2 ⟨k, rfl⟩)
  obtain ⟨y, hy⟩ : s.finite := finite_of_le s0 s2 zero_fits (by
    rw [abs_of_nonneg (by positivity), ← mul_assoc]; have := hf.top; linarith)
  have y0 : 0 ≤ y := by rw [le_def, hy, lit_zero, leB_fin] at s0; exact s0
  by_cases z : s.1 = fin 0
  · have hc' : c = lit 1 := by rw [hc, whr, if_pos z]
    refine ⟨fun k => ?_, ?_⟩
    · have : cl k = lit 0 := (LE.le.asymm' (hcb k).1 (by
        have := hle k; rwa [show s = lit 0 from ext (by rw [z, lit_zero])] at this)).symm
      rw [hw k, show whr ((u k).1 = fin 0) (lit 0) (whr (u k < lit 1e-15) (lit 1e-15) (u k)) = cl k from rfl, this, hc',
        zero_div' lit_one one_pos]
      exact ⟨rfl' (lit_num 0), lit_le zero_le_one⟩
    · rw [hc', log_one]; exact ⟨0, lit_zero⟩
  · have hc' : c = s := by rw [hc, whr, if_neg z]
    have yp : 0 < y := lt_of_le_of_ne y0 fun e => z (by rw [hy, ← e])
    refine ⟨fun k => ?_, ?_⟩
    · rw [hw k, show whr ((u k).1 = fin 0) (lit 0) (whr (u k < lit 1e-15) (lit 1e-15) (u k)) = cl k from rfl, hc']
      have A := div_pos_mono hy yp (hcb k).1
      have B := div_pos_mono hy yp (hle k)
      rw [zero_div' hy yp] at A
      refine ⟨A, LE.le.tr B ?_⟩
      rw [le_def, div_val, hy, XR.div_fin yp.ne', div_self yp.ne', lit_one]
      show leB (F.rd 1) _
      rw [F.rd_one]; exact leB_fin.2 le_rfl
    · rw [hc']
      obtain ⟨z, hz, -⟩ := log_finite hy yp
      exact ⟨z, hz⟩

/-- `HMM.forward` in floating point: at every time the filtered probabilities lie in [0, 1] and are never `nan`, and the log-likelihood is
never `nan`, for sequences of any length, any order of summation, and observations of any probability including 0 (impossible
observations), as long as the densities are at most `2^a` with `K² 2^a` representable. -/
theorem C61_hmm_forward {K a : ℕ} (hf : FloatHMM.Fits F K a) (init : Fin K → FX F) (trans : Fin K → Fin K → FX F)
    (obs : ℕ → Fin K → FX F) (h : FloatHMM.Legal a init trans obs) (t : ℕ) (alpha : Fin K → FX F) (ll : FX F)
    (hr : FloatHMM.Forward init trans obs t alpha ll) :
    (∀ k, lit 0 ≤ alpha k ∧ alpha k ≤ lit 1) ∧ ¬ ll.isNan := by
  have r1 : F.rd (1 : ℝ) = fin 1 := F.rd_one
  induction hr with
  | @zero alpha c hn =>
    have hK : ∀ k : Fin K, 1 ≤ K := fun k => by have := k.2; omega
    obtain ⟨w, l⟩ := normalize_spec hf (fun k => by
      have ra : F.rd (2 ^ a) = fin (2 ^ a) := by
        have := hf.rep (n := 1) (Nat.mul_pos (hK k) (hK k)); simpa using this
      obtain ⟨b0, b1⟩ := mul_bounds r1 ra (h.init k).1 (h.init k).2 (h.obs 0 k).1 (h.obs 0 k).2
      refine ⟨b0, LE.le.tr b1 (lit_le ?_)⟩
      have k1 : (1 : ℝ) ≤ K := by exact_mod_cast hK k
      exact mul_le_mul_of_nonneg_right k1 (by positivity)) hn
    exact ⟨w, l.num⟩
  | @step t alpha ll alpha' ll' _ hs ih =>
    obtain ⟨m, hm, c, hn, rfl⟩ := hs
    have hK : ∀ k : Fin K, 1 ≤ K := fun k => by have := k.2; omega
    obtain ⟨w, l⟩ := normalize_spec hf (fun k => by
      have kk : K ≤ K * K := Nat.le_mul_of_pos_right K (hK k)
      have ra : F.rd (2 ^ a) = fin (2 ^ a) := by
        have := hf.rep (n := 1) (Nat.mul_pos (hK k) (hK k)); simpa using this
      have prods : ∀ x ∈ List.ofFn fun i => alpha i * trans i k, lit 0 ≤ x ∧ x ≤ lit 1 := fun x hx => by
        obtain ⟨i, rfl⟩ := (List.mem_ofFn' _ _).1 hx
        have := mul_bounds r1 r1 (ih.1 i).1 (ih.1 i).2 (h.trans i k).1 (h.trans i k).2
        rwa [mul_one] at this
      have m0 := (sums_nonneg (hm k) fun x hx => (prods x hx).1).1
      have m1 := sums_le (B := 1) (N := K) (hm k) (fun n hn => by rw [mul_one]; exact hf.nat n (hn.trans kk)) (by simp)
        (fun x hx => (prods x hx).2) fun x hx => (prods x hx).1
      rw [List.length_ofFn, mul_one] at m1
      obtain ⟨b0, b1⟩ := mul_bounds ra (hf.nat K kk) (h.obs (t + 1) k).1 (h.obs (t + 1) k).2 m0 m1
      exact ⟨b0, by rwa [mul_comm] at b1⟩) hn
    exact ⟨w, add_num_fin l ih.2⟩

/-- The size condition in `float32`: up to 4095 states with densities up to `2^80`. -/
theorem C61_hmm_float32 (rd : ℝ → XR) (h : IEEE 24 (-149) 104 rd) :
    ∃ F : Fmt, F.rd = rd ∧ ∀ K : ℕ, K < 4096 → FloatHMM.Fits F K 80 := by
  refine ⟨Fmt.ofIEEE rd h (by norm_num) (by norm_num) (by norm_num) (by norm_num), rfl, fun K hK => ⟨fun n hn => ?_, ?_⟩⟩
  · have lt : n < 2 ^ 24 := by
      have : K * K ≤ 4095 * 4095 := Nat.mul_le_mul (by omega) (by omega)
      omega
    refine RoundsToNearest.rep h (binary_nat' (by norm_num) (by norm_num) n lt) ?_
    rw [abs_of_nonneg (by positivity)]
    have : (n : ℝ) < 2 ^ 24 := by exact_mod_cast lt
    refine this.trans ?_
    norm_num
  · show _ ≤ ieeeTop 24 104
    have k : (K : ℝ) ≤ 4096 := by exact_mod_cast hK.le
    have k0 : (0 : ℝ) ≤ K := by positivity
    have : (K : ℝ) * K ≤ 4096 * 4096 := mul_le_mul k k k0 (by norm_num)
    refine (mul_le_mul_of_nonneg_right this (by positivity)).trans ?_
    norm_num [ieeeTop]

end Distrax
