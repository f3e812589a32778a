import Verif.Lemmas.FloatSpline2

/-!
Lemmas for C79: the inverse direction of one segment.
-/

namespace Distrax.FSpline

open XR FX

variable {F : Fmt} {u η B : ℝ}

theorem whr_pos {c : Prop} {a b : FX F} (h : c) : whr c a b = a := if_pos h
theorem whr_neg {c : Prop} {a b : FX F} (h : ¬ c) : whr c a b = b := if_neg h

theorem lt_iff_fin {a b : FX F} {x y : ℝ} (ha : a.1 = fin x) (hb : b.1 = fin y) : a < b ↔ x < y := by
  rw [lt_def, ha, hb]; rfl

theorem le_iff_fin {a b : FX F} {x y : ℝ} (ha : a.1 = fin x) (hb : b.1 = fin y) : a ≤ b ↔ x ≤ y := by
  rw [le_def, ha, hb, leB_fin]

theorem div_fin_eq (x : ℝ) {y : ℝ} (h0 : y ≠ 0) : (fin x / fin y : XR) = fin (x / y) := by show XR.div _ _ = _; simp [XR.div, h0]

/-- The guarded square root of the discriminant. -/
theorem safe_sqrt {diff tiny : FX F} {δ τ T : ℝ} (hd : diff.1 = fin δ) (ht : tiny.1 = fin τ) (τ0 : 0 < τ) (τ1 : τ ≤ 1) (hδ : δ ≤ T) (T1 : 1 ≤ T)
    (TT : T ≤ F.top) :
    ∃ σ, (whr (lit 0 < diff) (FX.sqrt (FX.max diff tiny)) (lit 0)).1 = fin σ ∧ 0 ≤ σ ∧ σ ≤ F.top ∧ (0 < δ → 0 < σ) := by
  by_cases h : 0 < δ
  · rw [whr_pos ((lt_iff_fin lit_zero hd).2 h)]
    obtain ⟨g, hg, g0, g1⟩ : ∃ g, (FX.max diff tiny).1 = fin g ∧ 0 < g ∧ g ≤ T := by
      rcases max_val (finite.num ⟨δ, hd⟩) (finite.num ⟨τ, ht⟩) with ⟨e, l⟩ | ⟨e, l⟩ <;> rw [e]
      · exact ⟨τ, ht, τ0, by linarith⟩
      · exact ⟨δ, hd, h, hδ⟩
    have e : (FX.sqrt (FX.max diff tiny)).1 = F.rd (Real.sqrt g) := by
      rw [FX.sqrt, fn_val hg, if_neg (by linarith)]; rfl
    have sg : Real.sqrt g ≤ T := by
      rw [Real.sqrt_le_left (by linarith)]; nlinarith
    obtain ⟨σ, hσ⟩ := F.fits (x := Real.sqrt g) (by rw [abs_of_nonneg (Real.sqrt_nonneg _)]; linarith)
    have s0 : 0 < σ := by
      rcases le_total g 1 with l | l
      · have : g ≤ Real.sqrt g := by
          rw [Real.le_sqrt' g0]; nlinarith
        exact g0.trans_le (le_rd hσ (rep hg) this)
      · have : 1 ≤ Real.sqrt g := by rw [Real.one_le_sqrt]; exact l
        have := le_rd hσ F.rd_one this
        linarith
    exact ⟨σ, by rw [e, hσ], s0.le, (le_abs_self σ).trans (F.range hσ), fun _ => s0⟩
  · rw [whr_neg (fun c => h ((lt_iff_fin lit_zero hd).1 c))]
    exact ⟨0, lit_zero, le_rfl, by have := F.top_ge; linarith, fun c => absurd c h⟩

/-- `_safe_quadratic_root` on coefficients of moderate size never returns `nan`. -/
theorem root_num (A : F.Acc u η) (R : Room F η B) {tiny a b c : FX F} {τ α β γ : ℝ} (ht : tiny.1 = fin τ) (τ0 : 0 < τ) (τ1 : τ ≤ 1)
    (ha : a.1 = fin α) (hb : b.1 = fin β) (hc : c.1 = fin γ) (bα : |α| ≤ 32 * B ^ 2) (bβ : |β| ≤ 16 * B ^ 2) (bγ : |γ| ≤ 4 * B ^ 2)
    (hneg : β < 0 → 0 < α) (hzero : β = 0 → 8 * η ≤ -(α * γ) ∧ 0 < -(α * γ)) :
    (safeQuadraticRoot tiny a b c).Num ∧ (γ = 0 → 0 < β → safeQuadraticRoot tiny a b c = lit 0) := by
  have hB := R.one
  have B0 : 0 < B := by linarith
  obtain ⟨e1, e2, k2, k3, k4, k5, k6, i8, i7, i5, i4, i2, i1⟩ := room_facts A R
  have hT := R.top
  have u0 := A.u0
  have ul := A.u_le
  have e0 := A.η0
  have el : η ≤ 1 := by have := A.η_le; nlinarith
  have bb0 : 0 ≤ β * β := mul_self_nonneg β
  have bb : β * β ≤ 256 * B ^ 4 := by
    have := mul_le_mul bβ bβ (_root_.abs_nonneg _) (by positivity : (0 : ℝ) ≤ 16 * B ^ 2)
    rw [← abs_mul, abs_of_nonneg bb0] at this
    calc β * β ≤ _ := this
      _ = 256 * B ^ 4 := by ring
  obtain ⟨p, hp, bp, rp⟩ := op_mul A hb hb (by rw [abs_of_nonneg bb0]; linarith)
  rw [abs_of_nonneg bb0] at bp
  have f4 : |4 * α| ≤ 128 * B ^ 2 := by rw [abs_mul, abs_of_pos (by norm_num : (0 : ℝ) < 4)]; linarith
  obtain ⟨v, hv, bv, rv⟩ := op_mul A (lit_val F.rd_four) ha (by linarith)
  have uv : u * |4 * α| ≤ 1 / 256 * (128 * B ^ 2) := mul_le_mul ul f4 (_root_.abs_nonneg _) (by norm_num)
  have vb : |v| ≤ 130 * B ^ 2 := by have := abs_sub_abs_le_abs_sub v (4 * α); linarith
  have vc : |v * γ| ≤ 520 * B ^ 4 := by
    rw [abs_mul]
    calc |v| * |γ| ≤ (130 * B ^ 2) * (4 * B ^ 2) := mul_le_mul vb bγ (_root_.abs_nonneg _) (by positivity)
      _ = 520 * B ^ 4 := by ring
  obtain ⟨w, hw, bw, rw'⟩ := op_mul A hv hc (by linarith)
  have uw : u * |v * γ| ≤ 1 / 256 * (520 * B ^ 4) := mul_le_mul ul vc (_root_.abs_nonneg _) (by norm_num)
  have up : u * (β * β) ≤ 1 / 256 * (256 * B ^ 4) := mul_le_mul ul bb bb0 (by norm_num)
  obtain ⟨p1, p2⟩ := abs_le.1 bp
  obtain ⟨w1, w2⟩ := abs_le.1 bw
  obtain ⟨v1, v2⟩ := abs_le.1 vc
  have pw : |p - w| ≤ 1000 * B ^ 4 := by rw [abs_le]; constructor <;> linarith
  obtain ⟨δ, hδ, bδ, rδ⟩ := op_sub A hp hw (by linarith)
  have uδ : u * |p - w| ≤ 1 / 256 * (1000 * B ^ 4) := mul_le_mul ul pw (_root_.abs_nonneg _) (by norm_num)
  have δb : δ ≤ 1100 * B ^ 4 := by
    have := (abs_le.1 bδ).2
    have := (abs_le.1 pw).2
    linarith
  obtain ⟨σ, hσ, σ0, σ1, σp⟩ := safe_sqrt hδ ht τ0 τ1 δb (by linarith) (by linarith)
  have hσ' : (whr (lit 0 < b * b - lit 4 * a * c) (FX.sqrt (FX.max (b * b - lit 4 * a * c) tiny)) (lit 0)).1 = fin σ := hσ
  have nb : (-b).1 = fin (-β) := by rw [neg_val, hb]; rfl
  -- reduce to the quotient
  unfold safeQuadraticRoot
  dsimp only
  generalize hsf : whr (lit 0 < b * b - lit 4 * a * c) (FX.sqrt (FX.max (b * b - lit 4 * a * c) tiny)) (lit 0) = sf at *
  by_cases hb0 : 0 ≤ β
  · have c0 : lit 0 ≤ b := (le_iff_fin lit_zero hb).2 hb0
    rw [whr_pos c0, whr_pos c0]
    have g2 : |2 * γ| ≤ 8 * B ^ 2 := by rw [abs_mul, abs_of_pos (by norm_num : (0 : ℝ) < 2)]; linarith
    obtain ⟨n, hn, bn, rn⟩ := op_mul A lit_two hc (by linarith)
    have key : ∀ k : ℝ, 0 < k → F.rd k = fin k → k ≤ β ∨ k ≤ σ → (lit 2 * c / (-b - sf)).Num ∧ (γ = 0 → lit 2 * c / (-b - sf) = lit 0) := by
      intro k kp rk hk
      have le : -β - σ ≤ -k := by rcases hk with h | h <;> linarith
      have d1 : (-b - sf).1 = F.rd (-β - σ) := by rw [sub_val, nb, hσ]; rfl
      have mono := F.mono le
      rw [F.rd_neg rk] at mono
      rcases hd : F.rd (-β - σ) with y | _ | _ | _
      · rw [hd, leB_fin] at mono
        have y0 : y ≠ 0 := by linarith
        rw [hd] at d1
        refine ⟨div_num hn d1 y0, fun hγ => ext ?_⟩
        have : n = 0 := by rw [hγ, mul_zero, F.rd_zero] at rn; exact (fin.inj rn).symm
        rw [div_val, hn, d1, this, div_fin_eq _ y0, zero_div, lit_zero]; exact F.rd_zero
      · rw [hd] at mono; exact absurd (pinf_leB mono) (by simp)
      · rw [hd] at d1
        have e : (lit 2 * c / (-b - sf)).1 = fin 0 := by
          rw [div_val, hn, d1]
          show F.rd 0 = fin 0
          exact F.rd_zero
        exact ⟨finite.num ⟨0, e⟩, fun _ => ext (by rw [e, lit_zero])⟩
      · exact absurd hd (F.rd_ne_nan _)
    rcases hb0.lt_or_eq with h | h
    · obtain ⟨k1, k2⟩ := key β h (rep hb) (Or.inl le_rfl)
      exact ⟨k1, fun hγ _ => k2 hγ⟩
    · have hβ : β = 0 := h.symm
      obtain ⟨z1, z2⟩ := hzero hβ
      have hp0 : p = 0 := by rw [hβ, mul_zero, F.rd_zero] at rp; exact (fin.inj rp).symm
      have δp : 0 < δ := by
        have w4 : w < 0 := by
          have h4 : v = 4 * α := by
            have q2 : F.rd (2 * α) = fin (2 * α) := F.double (rep ha) (by rw [abs_mul, abs_of_pos (by norm_num : (0 : ℝ) < 2)]; linarith)
            have q4 : F.rd (2 * (2 * α)) = fin (2 * (2 * α)) := F.double q2 (by
              have : 2 * (2 * α) = 4 * α := by ring
              rw [this]; linarith)
            have : 2 * (2 * α) = 4 * α := by ring
            rw [this] at q4
            rw [q4] at rv
            exact (fin.inj rv).symm
          rw [h4] at bw
          have e5 : 4 * α * γ = -(4 * (-(α * γ))) := by ring
          rw [e5, abs_neg, abs_of_pos (by linarith : 0 < 4 * (-(α * γ)))] at bw
          have g6 := mul_le_mul_of_nonneg_right ul (by linarith : 0 ≤ 4 * (-(α * γ)))
          have := (abs_le.1 bw).2
          linarith
        rw [hp0] at rδ
        have hw' : F.rd (0 - w) = fin (-w) := by rw [zero_sub]; exact F.rd_neg (rep hw)
        rw [hw'] at rδ
        have := fin.inj rδ
        linarith
      obtain ⟨k1, k2⟩ := key σ (σp δp) (rep hσ) (Or.inr le_rfl)
      exact ⟨k1, fun hγ _ => k2 hγ⟩
  · have c0 : ¬ lit 0 ≤ b := fun c => hb0 ((le_iff_fin lit_zero hb).1 c)
    rw [whr_neg c0, whr_neg c0]
    have hβ : β < 0 := by linarith
    have αp := hneg hβ
    have d2 : (lit 2 * a).1 = fin (2 * α) := by
      rw [mul_val, lit_two, ha, fin_mul]
      exact F.double (rep ha) (by rw [abs_mul, abs_of_pos (by norm_num : (0 : ℝ) < 2)]; linarith)
    refine ⟨?_, fun _ h => absurd h (by linarith)⟩
    have nn : (-b + sf).Num := add_num_fin ⟨_, nb⟩ (finite.num ⟨_, hσ⟩)
    rcases hs : (-b + sf).1 with y | _ | _ | _
    · exact div_num hs d2 (by linarith)
    · intro c
      change (_ / _ : FX F).1 = nan at c
      rw [div_val, hs, d2] at c
      have : (pinf / fin (2 * α) : XR) = pinf := by show XR.div _ _ = _; simp [XR.div, not_lt.2 (by linarith : (0 : ℝ) ≤ 2 * α)]
      rw [this] at c
      cases c
    · intro c
      change (_ / _ : FX F).1 = nan at c
      rw [div_val, hs, d2] at c
      have : (ninf / fin (2 * α) : XR) = ninf := by show XR.div _ _ = _; simp [XR.div, not_lt.2 (by linarith : (0 : ℝ) ≤ 2 * α)]
      rw [this] at c
      cases c
    · exact absurd hs nn

end Distrax.FSpline
