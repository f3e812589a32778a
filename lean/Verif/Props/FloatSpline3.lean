import Verif.Props.FloatSpline2
import Mathlib.Tactic

/-!
C79, continued: where the documented `min_bin_size` is lost to rounding, and examples.
-/

namespace Distrax

open XR FX FSpline

variable {F : Fmt} {u η B : ℝ} {sum cumsum : List (FX F) → FX F}

namespace FSpline

theorem nan_sub {a b : FX F} (h : a.1 = nan) : (a - b).1 = nan := by rw [sub_val, h]; rfl
theorem sub_nan {a b : FX F} (h : b.1 = nan) : (a - b).1 = nan := by
  rw [sub_val, F.r_nan_iff]; show XR.add _ _ = _; rw [h]; cases a.1 <;> rfl
theorem nan_add {a b : FX F} (h : a.1 = nan) : (a + b).1 = nan := by rw [add_val, F.r_nan_iff, nan_add_iff]; exact Or.inl h
theorem add_nan {a b : FX F} (h : b.1 = nan) : (a + b).1 = nan := by rw [add_val, F.r_nan_iff, nan_add_iff]; exact Or.inr (Or.inl h)
theorem nan_mul {a b : FX F} (h : a.1 = nan) : (a * b).1 = nan := by rw [mul_val, h]; rfl
theorem mul_nan {a b : FX F} (h : b.1 = nan) : (a * b).1 = nan := by rw [mul_val, F.r_nan_iff]; show XR.mul _ _ = _; rw [h]; cases a.1 <;> rfl
theorem nan_div {a b : FX F} (h : a.1 = nan) : (a / b).1 = nan := by rw [div_val, h]; rfl
theorem div_nan {a b : FX F} (h : b.1 = nan) : (a / b).1 = nan := by rw [div_val, F.r_nan_iff]; show XR.div _ _ = _; rw [h]; cases a.1 <;> rfl
theorem neg_nan {a : FX F} (h : a.1 = nan) : (-a).1 = nan := by rw [neg_val, h]; rfl
theorem max_nan {a b : FX F} (h : a.1 = nan) : (FX.max a b).1 = nan := by
  show F.r (XR.max a.1 b.1) = _
  rw [h]; rfl
theorem min_nan {a b : FX F} (h : a.1 = nan) : (FX.min a b).1 = nan := neg_nan (max_nan (neg_nan h))
theorem clip_nan {a : FX F} (h : a.1 = nan) : (clip01 a).1 = nan := min_nan (max_nan h)

/-- The quadratic formula with `a = nan` and `b` not a finite number, or everything `nan`. -/
theorem root_nan {tiny a b c : FX F} (ha : a.1 = nan) (hb : b.1 = pinf ∨ b.1 = nan) (hc : c.1 = ninf ∨ c.1 = nan) :
    (safeQuadraticRoot tiny a b c).1 = nan := by
  have hd : (b * b - lit 4 * a * c).1 = nan := sub_nan (nan_mul (mul_nan ha))
  have n0 : ¬ (lit 0 : FX F) < b * b - lit 4 * a * c := by rw [lt_def, hd]; cases (lit 0 : FX F).1 <;> simp [ltB]
  unfold safeQuadraticRoot
  simp only [whr_neg n0]
  rcases hb with hb | hb
  · have g : (lit 0 : FX F) ≤ b := by rw [le_def, hb]; exact leB_pinf (lit_num 0)
    simp only [whr_pos g]
    have hn : (-b - lit 0 : FX F).1 = ninf := by rw [sub_val, neg_val, hb, lit_zero]; rfl
    rcases hc with hc | hc
    · have h2 : (lit 2 * c : FX F).1 = ninf := by
        rw [mul_val, hc, lit_two]; show F.r (infOf (-2)) = ninf; unfold infOf; norm_num; rfl
      rw [div_val, h2, hn]; rfl
    · exact nan_div (mul_nan hc)
  · have g : ¬ (lit 0 : FX F) ≤ b := by rw [le_def, hb]; cases (lit 0 : FX F).1 <;> simp [leB, ltB, eqB]
    simp only [whr_neg g]
    exact nan_div (nan_add (neg_nan hb))

end FSpline

/-- A bin of width zero: the inverse is `nan` all over the bin. -/
theorem C79_zero_width_nan (hs : AddsUp sum) (tiny : FX F) {K : ℕ} {xp yp sl : ℕ → FX F} (hx : ∀ i ≤ K, (xp i).finite) (hy : ∀ i ≤ K, (yp i).finite)
    (hsl : ∀ i ≤ K, (sl i).finite) (hg : ∀ i < K, (yp i).val < (yp (i + 1)).val) {i : ℕ} (hi : i < K) (hw : xp i = xp (i + 1))
    (h2 : (sl (i + 1) + sl i).finite) {y : FX F} {t : ℝ} (ht : y.1 = fin t) (h0 : (yp i).val < t) (h1 : t < (yp (i + 1)).val) :
    (FSpline.inv sum tiny K xp yp sl y).1.1 = nan := by
  have y0 : (yp 0).val < t := lt_of_le_of_lt (by
    rcases Nat.eq_zero_or_pos i with rfl | hp
    · exact le_rfl
    · exact (knots_mono (g := fun i => (yp i).val) hg (Nat.zero_le i) hi.le)) h0
  have yK : t < (yp K).val := lt_of_lt_of_le h1 (knots_mono (g := fun i => (yp i).val) hg hi le_rfl)
  obtain ⟨j, hj, a, b, e⟩ := bin_pick hs hy hg ht y0.le yK
  obtain rfl : j = i := bin_unique (g := fun i => (yp i).val) hg hj hi a b h0.le h1
  have n0 : ¬ y ≤ yp 0 := by rw [le_iff_fin ht (fin_val (hy 0 (by omega)))]; linarith
  have nK : ¬ yp K ≤ y := by rw [le_iff_fin (fin_val (hy K le_rfl)) ht]; linarith
  unfold FSpline.inv
  simp only [whr_neg n0, whr_neg nK, (e xp hx).1, (e xp hx).2, (e yp hy).1, (e yp hy).2, (e sl hsl).1, (e sl hsl).2]
  rw [← hw]
  unfold segInv
  have width : (xp j - xp j).1 = fin 0 := by rw [sub_self' (hx j hi.le)]; exact lit_zero
  -- the height is positive, perhaps infinite
  have slope : ((yp (j + 1) - yp j) / (xp j - xp j)).1 = pinf := by
    have hy0 := fin_val (hy j hi.le)
    have hy1 := fin_val (hy (j + 1) hi)
    have hh := hg j hi
    have hsub : (yp (j + 1) - yp j).1 = F.rd ((yp (j + 1)).val - (yp j).val) := by rw [sub_val, hy0, hy1, fin_sub]; rfl
    have pos : leB (fin 0) (yp (j + 1) - yp j).1 := by rw [hsub, ← F.rd_zero]; exact F.mono (by linarith)
    have nz : (yp (j + 1) - yp j).1 ≠ fin 0 := by rw [hsub]; exact F.gradual (rep hy0) (rep hy1) hh
    rw [div_val, width]
    cases eh : (yp (j + 1) - yp j).1 with
    | fin H =>
      rw [eh] at pos nz
      have H0 : 0 < H := lt_of_le_of_ne (leB_fin.1 pos) fun g => nz (by rw [← g])
      show F.r (if (0 : ℝ) = 0 then infOf H else _) = _
      rw [if_pos rfl, infOf, if_pos H0]; rfl
    | pinf => show F.r (if (0 : ℝ) < 0 then ninf else pinf) = _; rw [if_neg (lt_irrefl _)]; rfl
    | ninf => rw [eh] at pos; simp [leB, ltB, eqB] at pos
    | nan => rw [eh] at pos; simp [leB, ltB, eqB] at pos
  obtain ⟨sp, hsp⟩ : ∃ sp, sp = (yp (j + 1) - yp j) / (xp j - xp j) := ⟨_, rfl⟩
  rw [← hsp] at slope
  have two : (lit 2 * sp).1 = pinf := by rw [mul_val, lit_two, slope]; show F.r (infOf 2) = _; unfold infOf; norm_num; rfl
  have st : (sl (j + 1) + sl j - lit 2 * sp).1 = ninf := by
    obtain ⟨v, hv⟩ := h2
    rw [sub_val, hv, two]; rfl
  obtain ⟨d0, hd0⟩ := hsl j hi.le
  obtain ⟨w, hw'⟩ : ∃ w, clip01 ((y - yp j) / (yp (j + 1) - yp j)) = w := ⟨_, rfl⟩
  have wc : w.1 = nan ∨ ∃ ω, w.1 = fin ω ∧ 0 ≤ ω := by
    by_cases n : ((y - yp j) / (yp (j + 1) - yp j)).Num
    · obtain ⟨ω, h1, h2, -⟩ := clip01_mem n
      exact Or.inr ⟨ω, by rw [← hw']; exact h1, h2⟩
    · exact Or.inl (by rw [← hw']; exact clip_nan (not_not.1 n))
  have zn : (safeQuadraticRoot tiny (sp - (sl j - (sl (j + 1) + sl j - lit 2 * sp) * w)) (sl j - (sl (j + 1) + sl j - lit 2 * sp) * w) (-sp * w)).1 = nan := by
    rcases wc with wc | ⟨ω, wc, w0⟩
    · have hb : (sl j - (sl (j + 1) + sl j - lit 2 * sp) * w).1 = nan := sub_nan (mul_nan wc)
      exact root_nan (sub_nan hb) (Or.inr hb) (Or.inr (mul_nan wc))
    · rcases w0.eq_or_lt with rfl | w0
      · have hb : (sl j - (sl (j + 1) + sl j - lit 2 * sp) * w).1 = nan := sub_nan (by
          rw [mul_val, st, wc]; show F.r (infOf (-0)) = _; unfold infOf; norm_num; rfl)
        have hc : (-sp * w).1 = nan := by
          rw [mul_val, neg_val, slope, wc]; show F.r (infOf (-0)) = _; unfold infOf; norm_num; rfl
        exact root_nan (sub_nan hb) (Or.inr hb) (Or.inr hc)
      · have hm : ((sl (j + 1) + sl j - lit 2 * sp) * w).1 = ninf := by
          rw [mul_val, st, wc]; show F.r (infOf (-ω)) = _; unfold infOf
          rw [if_neg (by linarith), if_pos (by linarith)]; rfl
        have hb : (sl j - (sl (j + 1) + sl j - lit 2 * sp) * w).1 = pinf := by rw [sub_val, hm, hd0]; rfl
        have hc : (-sp * w).1 = ninf := by
          rw [mul_val, neg_val, slope, wc]; show F.r (infOf (-ω)) = _; unfold infOf
          rw [if_neg (by linarith), if_pos (by linarith)]; rfl
        have ha : (sp - (sl j - (sl (j + 1) + sl j - lit 2 * sp) * w)).1 = nan := by rw [sub_val, slope, hb]; rfl
        exact root_nan ha (Or.inl hb) (Or.inl hc)
  subst hsp hw'
  exact FSpline.nan_add (FSpline.mul_nan (clip_nan zn))

end Distrax
