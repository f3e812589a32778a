import Verif.Lemmas.FloatSpline13
import Mathlib.Tactic

/-!
Lemmas for C79: accuracy of one segment of the inverse map: the root.
-/

namespace Distrax.FSpline

open XR FX

variable {F : Fmt} {u η B : ℝ}

/-- The guarded square root, when the guard is not needed. -/
theorem sqrt_acc (A : F.Acc u η) {diff tiny : FX F} {v r τ κ : ℝ} (hd : diff.1 = fin v) (ht : tiny.1 = fin τ) (rp : 0 < r) (τr : τ ≤ r ^ 2 / 2) (κ0 : 0 ≤ κ)
    (κ1 : κ ≤ 1 / 8192) (hv : |v - r ^ 2| ≤ 700 * (κ * r ^ 2)) (hu : u ≤ κ / 81) (hη : η ≤ κ * r / 81) (top : 2 * r ≤ F.top) :
    ∃ s, (whr (lit 0 < diff) (FX.sqrt (FX.max diff tiny)) (lit 0)).1 = fin s ∧ |s - r| ≤ 701 * (κ * r) := by
  have r2 : 0 < r ^ 2 := by positivity
  have k1 := mul_le_mul_of_nonneg_right κ1 r2.le
  obtain ⟨v1, v2⟩ := abs_le.1 hv
  have vp : 9 / 10 * r ^ 2 ≤ v := by linarith
  have v0 : 0 < v := by linarith
  rw [whr_pos ((lt_iff_fin lit_zero hd).2 v0)]
  have m : FX.max diff tiny = diff := by
    rcases max_val (finite.num ⟨v, hd⟩) (finite.num ⟨τ, ht⟩) with ⟨e, l⟩ | ⟨e, l⟩
    · have := (le_iff_fin hd ht).1 l
      linarith
    · exact e
  rw [m]
  have e : (FX.sqrt diff).1 = F.rd (Real.sqrt v) := by rw [FX.sqrt, fn_val hd, if_neg (by linarith)]; rfl
  have s0 := Real.sqrt_nonneg v
  have ss := Real.mul_self_sqrt v0.le
  have k : |Real.sqrt v - r| ≤ 700 * (κ * r) := by
    have f : Real.sqrt v - r = (v - r ^ 2) / (Real.sqrt v + r) := by
      rw [eq_div_iff (by linarith)]; nlinarith
    rw [f, abs_div, abs_of_pos (show 0 < Real.sqrt v + r by linarith), div_le_iff₀ (by linarith)]
    have : 0 ≤ 700 * (κ * r) * Real.sqrt v := by positivity
    nlinarith
  obtain ⟨k2, k3⟩ := abs_le.1 k
  have kr := mul_le_mul_of_nonneg_right κ1 rp.le
  obtain ⟨s, hs⟩ := F.fits (x := Real.sqrt v) (by rw [abs_of_nonneg s0]; linarith)
  refine ⟨s, by rw [e, hs], ?_⟩
  have b := A.err hs
  rw [abs_of_nonneg s0] at b
  have u1 : u * Real.sqrt v ≤ κ / 81 * (11 / 10 * r) := mul_le_mul hu (by linarith) s0 (by positivity)
  have kr0 : 0 ≤ κ * r := by positivity
  obtain ⟨b1, b2⟩ := abs_le.1 b
  rw [abs_le]; constructor <;> linarith

set_option maxHeartbeats 1000000 in
/-- **Accuracy of the root.** -/
theorem root_acc (A : F.Acc u η) {tiny a b c : FX F} {τ α β γ a' b' c' σ T z r κ : ℝ} (ht : tiny.1 = fin τ) (ha : a.1 = fin α) (hb : b.1 = fin β) (hc : c.1 = fin γ)
    (σp : 0 < σ) (σT : σ ≤ T) (ea : |α - a'| ≤ 40 * (u * T)) (eb : |β - b'| ≤ 30 * (u * T)) (ec : |γ - c'| ≤ 10 * (u * σ)) (ma : |a'| ≤ 4 * T) (mb : |b'| ≤ 3 * T)
    (mc : |c'| ≤ σ) (ab : a' = σ - b') (hr : r = 2 * a' * z + b') (rp : 0 < r) (hz : a' * z ^ 2 + b' * z + c' = 0) (z0 : 0 ≤ z) (z1 : z ≤ 1) (τr : τ ≤ r ^ 2 / 2)
    (κ1 : κ ≤ 1 / 8192) (κa : u * T ^ 2 ≤ κ * r ^ 2) (κb : u * T ≤ κ * r / 9) (κc : u * T ≤ κ * σ / 27) (hu : u ≤ κ / 81) (hη : η ≤ u * T ^ 2) (hη' : η ≤ u * σ / 32)
    (hη1 : η ≤ u) (top : 64 * T ≤ F.top) (top2 : 64 * T ^ 2 ≤ F.top) :
    ∃ v, (safeQuadraticRoot tiny a b c).1 = fin v ∧ |v - z| ≤ 900 * κ := by
  have u0 := A.u0
  have e0 := A.η0
  have κ0 : 0 ≤ κ := by linarith
  have T0 : 0 < T := by linarith
  have uσ : u * σ ≤ u * T := mul_le_mul_of_nonneg_left σT u0
  have uσ0 : 0 ≤ u * σ := by positivity
  have κr := mul_le_mul_of_nonneg_right κ1 rp.le
  have κσ := mul_le_mul_of_nonneg_right κ1 σp.le
  have κr0 : 0 ≤ κ * r := by positivity
  obtain ⟨v, hv, bv⟩ := disc_acc A ha hb hc T0 ea eb (ec.trans (by linarith)) ma mb (mc.trans σT) (by linarith) hη (by linarith) top top2
  have hΔ : b' ^ 2 - 4 * a' * c' = r ^ 2 := by
    have : c' = -(a' * z ^ 2 + b' * z) := by linarith
    rw [this, hr]; ring
  rw [hΔ] at bv
  obtain ⟨a1, a2⟩ := abs_le.1 ma
  obtain ⟨b1, b2⟩ := abs_le.1 mb
  have r11 : r ≤ 11 * T := by
    have h1 : a' * z ≤ 4 * T * z := mul_le_mul_of_nonneg_right a2 z0
    have h2 : 4 * T * z ≤ 4 * T := mul_le_of_le_one_right (by linarith) z1
    linarith
  obtain ⟨s, hs, bs⟩ := sqrt_acc A hv ht rp τr κ0 κ1 (bv.trans (by linarith)) hu (by linarith) (by linarith)
  have nb : (-b).1 = fin (-β) := by rw [neg_val, hb]; rfl
  unfold safeQuadraticRoot
  dsimp only
  generalize whr (lit 0 < b * b - lit 4 * a * c) (FX.sqrt (FX.max (b * b - lit 4 * a * c) tiny)) (lit 0) = sf at *
  obtain ⟨s1, s2⟩ := abs_le.1 bs
  obtain ⟨eb1, eb2⟩ := abs_le.1 eb
  obtain ⟨ea1, ea2⟩ := abs_le.1 ea
  obtain ⟨ec1, ec2⟩ := abs_le.1 ec
  obtain ⟨c1, c2⟩ := abs_le.1 mc
  have tt := F.top_ge
  -- a quotient close to `z`
  have fin_q : ∀ {n d : FX F} {nv dv N D ε : ℝ}, n.1 = fin nv → d.1 = fin dv → 0 < D → N = z * D → |nv - N| ≤ 722 * (κ * D) → |dv - D| ≤ ε * (κ * D) → 0 ≤ ε →
      ε ≤ 722 → |nv - N| + |dv - D| ≤ 730 * (κ * D) → ∃ v, (n / d).1 = fin v ∧ |v - z| ≤ 900 * κ := by
    intro n d nv dv N D ε hn hd Dp hN en ed ε0 ε1 et
    have κD := mul_le_mul_of_nonneg_right κ1 Dp.le
    have κD0 : 0 ≤ κ * D := by positivity
    have εD : ε * (κ * D) ≤ 722 * (κ * D) := mul_le_mul_of_nonneg_right ε1 κD0
    obtain ⟨d1, d2⟩ := abs_le.1 ed
    have dp : 9 / 10 * D ≤ dv := by linarith
    have dv0 : 0 < dv := by linarith
    have q : |nv / dv - z| ≤ 812 * κ := by
      have f : nv / dv - z = ((nv - N) - z * (dv - D)) / dv := by rw [hN]; field_simp; ring
      rw [f, abs_div, abs_of_pos dv0, div_le_iff₀ dv0]
      have h1 : |z * (dv - D)| ≤ |dv - D| := by
        rw [abs_mul, abs_of_nonneg z0]; exact mul_le_of_le_one_left (_root_.abs_nonneg _) z1
      have h2 := abs_sub (nv - N) (z * (dv - D))
      have h3 := mul_le_mul_of_nonneg_left dp (show 0 ≤ 812 * κ by linarith)
      linarith
    obtain ⟨q1, q2⟩ := abs_le.1 q
    have qm : |nv / dv| ≤ 2 := by rw [abs_le]; constructor <;> linarith
    obtain ⟨v, hv, bv, -⟩ := op_div A hn hd dv0.ne' (by linarith)
    refine ⟨v, hv, ?_⟩
    have g := mul_le_mul_of_nonneg_left qm u0
    obtain ⟨f1, f2⟩ := abs_le.1 bv
    rw [abs_le]; constructor <;> linarith
  by_cases hb0 : 0 ≤ β
  · have c0 : lit 0 ≤ b := (le_iff_fin lit_zero hb).2 hb0
    rw [whr_pos c0, whr_pos c0]
    -- work with the negated quotient
    have P : 99 / 100 * r ≤ b' + r := by linarith
    have Pp : 0 < b' + r := by linarith
    have rP := mul_le_mul_of_nonneg_left P κ0
    have γm : |2 * γ| ≤ 203 / 100 * σ := by
      have := mul_le_mul_of_nonneg_right (show u ≤ 1 / 8192 by linarith) σp.le
      rw [abs_le]; constructor <;> linarith
    obtain ⟨n, hn, bn, -⟩ := op_mul A lit_two hc (by linarith)
    have en : |n - 2 * c'| ≤ 3 * (κ * (b' + r)) := by
      have g := mul_le_mul_of_nonneg_left γm u0
      obtain ⟨f1, f2⟩ := abs_le.1 bn
      rw [abs_le]; constructor <;> linarith
    have sm : |-β - s| ≤ 12 / 10 * (b' + r) := by
      have := mul_le_mul_of_nonneg_right κ1 Pp.le
      rw [abs_le]; constructor <;> linarith
    obtain ⟨d, hd, bd, -⟩ := op_sub A nb hs (by linarith)
    have ed : |-d - (b' + r)| ≤ 715 * (κ * (b' + r)) := by
      have g : u * |-β - s| ≤ κ / 81 * (12 / 10 * (b' + r)) := mul_le_mul hu sm (_root_.abs_nonneg _) (by linarith)
      obtain ⟨f1, f2⟩ := abs_le.1 bd
      rw [abs_le]; constructor <;> linarith
    have κP0 : 0 ≤ κ * (b' + r) := by positivity
    have hn' : (-(lit 2 * c)).1 = fin (-n) := by rw [neg_val, hn]; rfl
    have hd' : (-(-b - sf)).1 = fin (-d) := by rw [neg_val, hd]; rfl
    have en' : |-n - -(2 * c')| ≤ 3 * (κ * (b' + r)) := by rw [show -n - -(2 * c') = -(n - 2 * c') by ring, abs_neg]; exact en
    obtain ⟨w, hw, bw⟩ := fin_q (N := -(2 * c')) (D := b' + r) (ε := 715) hn' hd' Pp (by
      have : c' = -(a' * z ^ 2 + b' * z) := by linarith
      rw [this, hr]; ring) (by linarith) ed (by norm_num) (by norm_num) (by linarith)
    have dne : d ≠ 0 := by
      have := mul_le_mul_of_nonneg_right κ1 Pp.le
      have := (abs_le.1 ed).1
      intro h0; rw [h0] at this; linarith
    refine ⟨w, ?_, bw⟩
    rw [div_val, hn', hd', div_fin_eq _ (by simpa using dne), neg_div_neg_eq] at hw
    rw [div_val, hn, hd, div_fin_eq _ dne]
    exact hw
  · have c0 : ¬ lit 0 ≤ b := fun c => hb0 ((le_iff_fin lit_zero hb).1 c)
    rw [whr_neg c0, whr_neg c0]
    have a99 : 99 / 100 * σ ≤ a' := by rw [ab]; linarith
    have ap : 0 < a' := by linarith
    have κa' := mul_le_mul_of_nonneg_left a99 κ0
    have κa0 : 0 ≤ κ * a' := by positivity
    have ra : r ≤ 201 / 100 * a' := by
      have h1 : a' * z ≤ a' := mul_le_of_le_one_right ap.le z1
      linarith
    have κra := mul_le_mul_of_nonneg_left ra κ0
    have κaa := mul_le_mul_of_nonneg_right κ1 ap.le
    have az : a' * z ≤ a' := mul_le_of_le_one_right ap.le z1
    have az0 : 0 ≤ a' * z := mul_nonneg ap.le z0
    have sm : |-β + s| ≤ 3 * a' := by rw [abs_le]; constructor <;> linarith
    obtain ⟨n, hn, bn, -⟩ := op_add A nb hs (by linarith)
    have en : |n - (r - b')| ≤ 1435 * (κ * a') := by
      have g : u * |-β + s| ≤ κ / 81 * (3 * a') := mul_le_mul hu sm (_root_.abs_nonneg _) (by linarith)
      obtain ⟨f1, f2⟩ := abs_le.1 bn
      rw [abs_le]; constructor <;> linarith
    have am : |2 * α| ≤ 3 * a' := by rw [abs_le]; constructor <;> linarith
    obtain ⟨d, hd, bd, -⟩ := op_mul A lit_two ha (by linarith)
    have ed : |d - 2 * a'| ≤ 8 * (κ * a') := by
      have g : u * |2 * α| ≤ κ / 81 * (3 * a') := mul_le_mul hu am (_root_.abs_nonneg _) (by linarith)
      obtain ⟨f1, f2⟩ := abs_le.1 bd
      rw [abs_le]; constructor <;> linarith
    exact fin_q (N := r - b') (D := 2 * a') (ε := 4) hn hd (by linarith) (by rw [hr]; ring) (by linarith) (by linarith) (by norm_num) (by norm_num) (by linarith)

end Distrax.FSpline
