import Verif.Lemmas.FloatSpline4

/-!
Lemmas for C79: the bin search and the linear tails.
-/

namespace Distrax.FSpline

open XR FX

variable {F : Fmt} {u η B : ℝ}

theorem zero_mul_fin {p : FX F} (h : p.finite) : lit 0 * p = lit 0 := by
  obtain ⟨x, hx⟩ := h
  rw [mul_comm']; exact mul_pos_zero hx

/-- If exactly bin `i` is selected, the masked sum is the `i`-th parameter. -/
theorem pick {sum : List (FX F) → FX F} (hs : AddsUp sum) {K i : ℕ} (hi : i < K) {mask : ℕ → Prop} {p : ℕ → FX F} (hp : ∀ j < K, (p j).finite)
    (hm : mask i) (hn : ∀ j < K, j ≠ i → ¬ mask j) :
    sum ((List.range K).map fun j => whr (mask j) (lit 1) (lit 0) * p j) = p i := by
  have hne : ((List.range K).map fun j => whr (mask j) (lit 1) (lit 0) * p j) ≠ [] := by
    intro c
    have := congrArg List.length c
    simp at this; omega
  have perm : (List.range K).Perm (i :: (List.range K).erase i) := List.perm_cons_erase (List.mem_range.2 hi)
  have e1 : whr (mask i) (lit 1) (lit 0) * p i = p i := by rw [whr_pos hm, one_mul']
  refine FVit.sums_single (hs _ hne) (l := ((List.range K).erase i).map fun j => whr (mask j) (lit 1) (lit 0) * p j) ?_ ?_
  · have := perm.map fun j => whr (mask j) (lit 1) (lit 0) * p j
    rw [List.map_cons, e1] at this
    exact this
  · intro x hx
    obtain ⟨j, hj, rfl⟩ := List.mem_map.1 hx
    have hj' := (List.Nodup.mem_erase_iff List.nodup_range).1 hj
    rw [whr_neg (hn j (List.mem_range.1 hj'.2) hj'.1), zero_mul_fin (hp j (List.mem_range.1 hj'.2))]

/-- A sorted list of knots has exactly one bin containing a given number of the range. -/
theorem bin_exists {K : ℕ} {g : ℕ → ℝ} {t : ℝ} (h0 : g 0 ≤ t) (h1 : t < g K) : ∃ i < K, g i ≤ t ∧ t < g (i + 1) := by
  induction K with
  | zero => linarith
  | succ n ih =>
    rcases lt_or_ge t (g n) with h | h
    · obtain ⟨i, hi, h⟩ := ih h; exact ⟨i, by omega, h⟩
    · exact ⟨n, by omega, h, h1⟩

theorem knots_mono {K : ℕ} {g : ℕ → ℝ} (hg : ∀ i < K, g i < g (i + 1)) {i j : ℕ} (hij : i ≤ j) (hj : j ≤ K) : g i ≤ g j := by
  induction j with
  | zero => obtain rfl : i = 0 := by omega
            rfl
  | succ n ih =>
    rcases Nat.lt_or_ge n i with h | h
    · obtain rfl : i = n + 1 := by omega
      rfl
    · exact (ih h (by omega)).trans (hg n (by omega)).le

theorem bin_unique {K : ℕ} {g : ℕ → ℝ} (hg : ∀ i < K, g i < g (i + 1)) {t : ℝ} {i j : ℕ} (hi : i < K) (hj : j < K) (h1 : g i ≤ t) (h2 : t < g (i + 1))
    (h3 : g j ≤ t) (h4 : t < g (j + 1)) : i = j := by
  rcases Nat.lt_trichotomy i j with h | h | h
  · have := knots_mono hg (show i + 1 ≤ j by omega) (by omega); linarith
  · exact h
  · have := knots_mono hg (show j + 1 ≤ i by omega) (by omega); linarith

/-- The bin chosen for a number of the range. -/
theorem bin_pick {sum : List (FX F) → FX F} (hs : AddsUp sum) {K : ℕ} {pos : ℕ → FX F} (hf : ∀ i ≤ K, (pos i).finite)
    (hg : ∀ i < K, (pos i).val < (pos (i + 1)).val) {v : FX F} {t : ℝ} (hv : v.1 = fin t) (h0 : (pos 0).val ≤ t) (h1 : t < (pos K).val) :
    ∃ i < K, (pos i).val ≤ t ∧ t < (pos (i + 1)).val ∧ ∀ p : ℕ → FX F, (∀ j ≤ K, (p j).finite) →
      pickLeft sum K pos v p = p i ∧ pickRight sum K pos v p = p (i + 1) := by
  obtain ⟨i, hi, a, b⟩ := bin_exists (g := fun i => (pos i).val) h0 h1
  refine ⟨i, hi, a, b, fun p hp => ?_⟩
  have cond : ∀ j < K, (pos j ≤ v ∧ v < pos (j + 1)) ↔ ((pos j).val ≤ t ∧ t < (pos (j + 1)).val) := fun j hj => by
    rw [le_iff_fin (fin_val (hf j hj.le)) hv, lt_iff_fin hv (fin_val (hf (j + 1) hj))]
  have ex : ∃ j < K, pos j ≤ v ∧ v < pos (j + 1) := ⟨i, hi, (cond i hi).2 ⟨a, b⟩⟩
  have m1 : binMask K pos v i := by unfold binMask; rw [if_pos ex]; exact (cond i hi).2 ⟨a, b⟩
  have m2 : ∀ j < K, j ≠ i → ¬ binMask K pos v j := fun j hj hne c => by
    unfold binMask at c
    rw [if_pos ex] at c
    obtain ⟨c1, c2⟩ := (cond j hj).1 c
    exact hne (bin_unique (g := fun i => (pos i).val) hg hj hi c1 c2 a b)
  exact ⟨pick hs hi (fun j hj => hp j hj.le) m1 m2, pick (p := fun j => p (j + 1)) hs hi (fun j hj => hp (j + 1) hj) m1 m2⟩

/-! ### the linear tails -/

/-- `(x - x0) * s + y0`. -/
theorem lin_spec (A : F.Acc u η) (R : Room F η B) {x x0 y0 s : FX F} {t X0 Y0 a : ℝ} (hx : x.1 = fin t) (hx0 : x0.1 = fin X0) (hy0 : y0.1 = fin Y0)
    (hs : s.1 = fin a) (b0 : |X0| ≤ B) (b1 : |Y0| ≤ B) (a0 : 1 / B ≤ a) (a1 : a ≤ B) (bt : |t| * (4 * B) ≤ F.top) :
    ∃ Y, ((x - x0) * s + y0).1 = fin Y ∧ |Y - ((t - X0) * a + Y0)| ≤ u * (4 * (|t - X0| * a) + |Y0|) + 2 * η ∧ (t = X0 → Y = Y0) := by
  have hB := R.one
  have B0 : 0 < B := by linarith
  have iB : 0 < 1 / B := by positivity
  obtain ⟨-, -, k2, k3, k4, k5, k6, -⟩ := room_facts A R
  have hT := R.top
  have u0 := A.u0
  have ul := A.u_le
  have e0 := A.η0
  have el : η ≤ 1 := by have := A.η_le; nlinarith
  have ap : 0 < a := by linarith
  have t1 : |t| ≤ F.top / 4 := by
    have : |t| * 4 ≤ |t| * (4 * B) := mul_le_mul_of_nonneg_left (by linarith) (_root_.abs_nonneg _)
    linarith
  have d1 : |t - X0| ≤ |t| + B := (abs_sub t X0).trans (by linarith)
  obtain ⟨o, ho, bo, ro⟩ := op_sub A hx hx0 (by linarith)
  set G := |t - X0| with hG
  have G0 : 0 ≤ G := _root_.abs_nonneg _
  have Ga : G * a ≤ F.top / 4 + B ^ 2 := by
    have h1 : G * a ≤ (|t| + B) * B := mul_le_mul d1 a1 ap.le (by positivity)
    have h2 : (|t| + B) * B = 1 / 4 * (|t| * (4 * B)) + B ^ 2 := by ring
    linarith
  have Ga0 : 0 ≤ G * a := mul_nonneg G0 ap.le
  have uGa : u * (G * a) ≤ 1 / 256 * (G * a) := mul_le_mul_of_nonneg_right ul Ga0
  have uGa0 : 0 ≤ u * (G * a) := mul_nonneg u0 Ga0
  have ob : |o| * a ≤ G * a + u * (G * a) := by
    have h1 : |o| ≤ G + u * G := by have := abs_sub_abs_le_abs_sub o (t - X0); linarith
    calc |o| * a ≤ (G + u * G) * a := mul_le_mul_of_nonneg_right h1 ap.le
      _ = G * a + u * (G * a) := by ring
  have oa : |o * a| ≤ G * a + u * (G * a) := by rw [abs_mul, abs_of_pos ap]; exact ob
  obtain ⟨p, hp, bp, rp⟩ := op_mul A ho hs (by linarith)
  have up : u * |o * a| ≤ u * (G * a) + 1 / 256 * (u * (G * a)) := by
    have h1 := mul_le_mul_of_nonneg_left oa u0
    have h2 : u * (u * (G * a)) ≤ 1 / 256 * (u * (G * a)) := mul_le_mul_of_nonneg_right ul uGa0
    linarith
  have pe : |p - (t - X0) * a| ≤ 2 * (u * (G * a)) + 1 / 256 * (u * (G * a)) + η := by
    have e : p - (t - X0) * a = (p - o * a) + (o - (t - X0)) * a := by ring
    rw [e]
    refine (abs_add_le _ _).trans ?_
    rw [abs_mul (o - _) a, abs_of_pos ap]
    have h1 := mul_le_mul_of_nonneg_right bo ap.le
    linarith
  have La : |(t - X0) * a| = G * a := by rw [abs_mul, abs_of_pos ap]
  have pb : |p| ≤ G * a + 2 * (u * (G * a)) + 1 / 256 * (u * (G * a)) + η := by
    have := abs_sub_abs_le_abs_sub p ((t - X0) * a); linarith
  have pY : |p + Y0| ≤ G * a + 2 * (u * (G * a)) + 1 / 256 * (u * (G * a)) + η + |Y0| := (abs_add_le _ _).trans (by linarith)
  obtain ⟨Y, hY, bY, rY⟩ := op_add A hp hy0 (by linarith)
  refine ⟨Y, hY, ?_, fun h => ?_⟩
  · have e : Y - ((t - X0) * a + Y0) = (Y - (p + Y0)) + (p - (t - X0) * a) := by ring
    rw [e]
    refine (abs_add_le _ _).trans ?_
    have h1 := mul_le_mul_of_nonneg_left pY u0
    have h2 : u * (u * (G * a)) ≤ 1 / 256 * (u * (G * a)) := mul_le_mul_of_nonneg_right ul uGa0
    have h3 : u * η ≤ 1 / 256 * η := mul_le_mul_of_nonneg_right ul e0
    have h4 : 0 ≤ u * |Y0| := mul_nonneg u0 (_root_.abs_nonneg _)
    linarith
  · rw [h, _root_.sub_self, F.rd_zero] at ro
    have z : o = 0 := (fin.inj ro).symm
    rw [z, zero_mul, F.rd_zero] at rp
    have z2 : p = 0 := (fin.inj rp).symm
    rw [z2, _root_.zero_add, rep hy0] at rY
    exact (fin.inj rY).symm

/-- `(y - y0) / s + x0`. -/
theorem linInv_spec (A : F.Acc u η) (R : Room F η B) {y x0 y0 s : FX F} {t X0 Y0 a : ℝ} (hy : y.1 = fin t) (hx0 : x0.1 = fin X0) (hy0 : y0.1 = fin Y0)
    (hs : s.1 = fin a) (b0 : |X0| ≤ B) (b1 : |Y0| ≤ B) (a0 : 1 / B ≤ a) (a1 : a ≤ B) (bt : |t| * (4 * B) ≤ F.top) :
    ∃ X, ((y - y0) / s + x0).1 = fin X ∧ |X - ((t - Y0) / a + X0)| ≤ u * (4 * (|t - Y0| / a) + |X0|) + 2 * η ∧ (t = Y0 → X = X0) := by
  have hB := R.one
  have B0 : 0 < B := by linarith
  have iB : 0 < 1 / B := by positivity
  obtain ⟨-, -, k2, k3, k4, k5, k6, -⟩ := room_facts A R
  have hT := R.top
  have u0 := A.u0
  have ul := A.u_le
  have e0 := A.η0
  have el : η ≤ 1 := by have := A.η_le; nlinarith
  have ap : 0 < a := by linarith
  have t1 : |t| ≤ F.top / 4 := by
    have : |t| * 4 ≤ |t| * (4 * B) := mul_le_mul_of_nonneg_left (by linarith) (_root_.abs_nonneg _)
    linarith
  have d1 : |t - Y0| ≤ |t| + B := (abs_sub t Y0).trans (by linarith)
  obtain ⟨o, ho, bo, ro⟩ := op_sub A hy hy0 (by linarith)
  have ia : 1 / a ≤ B := by rw [div_le_iff₀ ap]; rw [div_le_iff₀ B0] at a0; linarith
  set G := |t - Y0| with hG
  have G0 : 0 ≤ G := _root_.abs_nonneg _
  have Ga : G / a ≤ F.top / 4 + B ^ 2 := by
    have h1 : G * (1 / a) ≤ (|t| + B) * B := mul_le_mul d1 ia (by positivity) (by positivity)
    have h2 : (|t| + B) * B = 1 / 4 * (|t| * (4 * B)) + B ^ 2 := by ring
    rw [mul_one_div] at h1
    linarith
  have Ga0 : 0 ≤ G / a := div_nonneg G0 ap.le
  have uGa : u * (G / a) ≤ 1 / 256 * (G / a) := mul_le_mul_of_nonneg_right ul Ga0
  have uGa0 : 0 ≤ u * (G / a) := mul_nonneg u0 Ga0
  have oa : |o / a| ≤ G / a + u * (G / a) := by
    rw [abs_div, abs_of_pos ap]
    have h1 : |o| ≤ G + u * G := by have := abs_sub_abs_le_abs_sub o (t - Y0); linarith
    calc |o| / a ≤ (G + u * G) / a := div_le_div_of_nonneg_right h1 ap.le
      _ = G / a + u * (G / a) := by ring
  obtain ⟨p, hp, bp, rp⟩ := op_div A ho hs ap.ne' (by linarith)
  have up : u * |o / a| ≤ u * (G / a) + 1 / 256 * (u * (G / a)) := by
    have h1 := mul_le_mul_of_nonneg_left oa u0
    have h2 : u * (u * (G / a)) ≤ 1 / 256 * (u * (G / a)) := mul_le_mul_of_nonneg_right ul uGa0
    linarith
  have pe : |p - (t - Y0) / a| ≤ 2 * (u * (G / a)) + 1 / 256 * (u * (G / a)) + η := by
    have e : p - (t - Y0) / a = (p - o / a) + (o - (t - Y0)) / a := by ring
    rw [e]
    refine (abs_add_le _ _).trans ?_
    rw [abs_div (o - _) a, abs_of_pos ap]
    have h1 := div_le_div_of_nonneg_right bo ap.le
    have h2 : u * G / a = u * (G / a) := by ring
    linarith
  have La : |(t - Y0) / a| = G / a := by rw [abs_div, abs_of_pos ap]
  have pb : |p| ≤ G / a + 2 * (u * (G / a)) + 1 / 256 * (u * (G / a)) + η := by
    have := abs_sub_abs_le_abs_sub p ((t - Y0) / a); linarith
  have pY : |p + X0| ≤ G / a + 2 * (u * (G / a)) + 1 / 256 * (u * (G / a)) + η + |X0| := (abs_add_le _ _).trans (by linarith)
  obtain ⟨X, hX, bX, rX⟩ := op_add A hp hx0 (by linarith)
  refine ⟨X, hX, ?_, fun h => ?_⟩
  · have e : X - ((t - Y0) / a + X0) = (X - (p + X0)) + (p - (t - Y0) / a) := by ring
    rw [e]
    refine (abs_add_le _ _).trans ?_
    have h1 := mul_le_mul_of_nonneg_left pY u0
    have h2 : u * (u * (G / a)) ≤ 1 / 256 * (u * (G / a)) := mul_le_mul_of_nonneg_right ul uGa0
    have h3 : u * η ≤ 1 / 256 * η := mul_le_mul_of_nonneg_right ul e0
    have h4 : 0 ≤ u * |X0| := mul_nonneg u0 (_root_.abs_nonneg _)
    linarith
  · rw [h, _root_.sub_self, F.rd_zero] at ro
    have z : o = 0 := (fin.inj ro).symm
    rw [z, zero_div, F.rd_zero] at rp
    have z2 : p = 0 := (fin.inj rp).symm
    rw [z2, _root_.zero_add, rep hx0] at rX
    exact (fin.inj rX).symm

/-- The tails are increasing. -/
theorem lin_mono {x x' x0 y0 s : FX F} {a : ℝ} (hx0 : x0.finite) (hy0 : y0.finite) (hs : s.1 = fin a) (a0 : 0 < a) (h : x ≤ x') :
    (x - x0) * s + y0 ≤ (x' - x0) * s + y0 := by
  have h1 : x - x0 ≤ x' - x0 := by
    rw [sub_eq, sub_eq]
    have f := neg_finite.2 hx0
    exact add_le_add h (rfl' f.num) (add_num_fin' h.numL f) (add_num_fin' h.numR f)
  have h2 : (x - x0) * s ≤ (x' - x0) * s := by rw [mul_comm', mul_comm' _ s]; exact mul_pos_mono hs a0 h1
  exact add_le_add h2 (rfl' hy0.num) (add_num_fin' h2.numL hy0) (add_num_fin' h2.numR hy0)

theorem linInv_mono {x x' x0 y0 s : FX F} {a : ℝ} (hx0 : x0.finite) (hy0 : y0.finite) (hs : s.1 = fin a) (a0 : 0 < a) (h : x ≤ x') :
    (x - x0) / s + y0 ≤ (x' - x0) / s + y0 := by
  have h1 : x - x0 ≤ x' - x0 := by
    rw [sub_eq, sub_eq]
    have f := neg_finite.2 hx0
    exact add_le_add h (rfl' f.num) (add_num_fin' h.numL f) (add_num_fin' h.numR f)
  have h2 : (x - x0) / s ≤ (x' - x0) / s := div_pos_mono hs a0 h1
  exact add_le_add h2 (rfl' hy0.num) (add_num_fin' h2.numL hy0) (add_num_fin' h2.numR hy0)

end Distrax.FSpline
