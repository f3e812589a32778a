import Verif.Lemmas.FloatSpline5

/-!
C79: the rational-quadratic spline in floating point (first part: both directions, for given knots).
-/

namespace Distrax

open XR FX FSpline

variable {F : Fmt} {u η B : ℝ} {sum : List (FX F) → FX F} {K : ℕ} {xp yp sl : ℕ → FX F}

namespace GoodKnots

theorem xlt (G : GoodKnots B K xp yp sl) (hB : 0 < B) (i : ℕ) (hi : i < K) : (xp i).val < (xp (i + 1)).val := by
  have := G.x_gap i hi
  have : 0 < 1 / B := by positivity
  linarith

theorem ylt (G : GoodKnots B K xp yp sl) (hB : 0 < B) (i : ℕ) (hi : i < K) : (yp i).val < (yp (i + 1)).val := by
  have := G.y_gap i hi
  have : 0 < 1 / B := by positivity
  linarith

end GoodKnots

namespace FSpline

theorem fwd_below {x : FX F} (h : x ≤ xp 0) (h' : ¬ xp K ≤ x) :
    fwd sum K xp yp sl x = ((x - xp 0) * sl 0 + yp 0, FX.log (sl 0)) := by
  unfold fwd; dsimp only; rw [whr_neg h', whr_pos h, whr_neg h', whr_pos h]

theorem fwd_above {x : FX F} (h' : xp K ≤ x) :
    fwd sum K xp yp sl x = ((x - xp K) * sl K + yp K, FX.log (sl K)) := by
  unfold fwd; dsimp only; rw [whr_pos h', whr_pos h']

theorem inv_below {tiny y : FX F} (h : y ≤ yp 0) (h' : ¬ yp K ≤ y) :
    inv sum tiny K xp yp sl y = ((y - yp 0) / sl 0 + xp 0, -FX.log (sl 0)) := by
  unfold inv; dsimp only; rw [whr_neg h', whr_pos h, whr_neg h', whr_pos h]

theorem inv_above {tiny y : FX F} (h' : yp K ≤ y) :
    inv sum tiny K xp yp sl y = ((y - yp K) / sl K + xp K, -FX.log (sl K)) := by
  unfold inv; dsimp only; rw [whr_pos h', whr_pos h']

/-- Inside the range the spline is the segment of the bin that contains the input. -/
theorem fwd_inside (hs : AddsUp sum) (hB : 0 < B) (G : GoodKnots B K xp yp sl) {x : FX F} {t : ℝ} (hx : x.1 = fin t) (h0 : (xp 0).val < t) (h1 : t < (xp K).val) :
    ∃ i < K, (xp i).val ≤ t ∧ t < (xp (i + 1)).val ∧
      fwd sum K xp yp sl x = segFwd (xp i) (xp (i + 1)) (yp i) (yp (i + 1)) (sl i) (sl (i + 1)) x := by
  obtain ⟨i, hi, a, b, hp⟩ := bin_pick hs (fun i hi => (G.x_fin i hi).1) (G.xlt hB) hx h0.le h1
  refine ⟨i, hi, a, b, ?_⟩
  have n0 : ¬ x ≤ xp 0 := fun c => by
    have := (le_iff_fin hx (fin_val (G.x_fin 0 (Nat.zero_le _)).1)).1 c; linarith
  have n1 : ¬ xp K ≤ x := fun c => by
    have := (le_iff_fin (fin_val (G.x_fin K le_rfl).1) hx).1 c; linarith
  have px := hp xp fun j hj => (G.x_fin j hj).1
  have py := hp yp fun j hj => (G.y_fin j hj).1
  have ps := hp sl fun j hj => (G.s_fin j hj).1
  unfold fwd
  dsimp only
  rw [whr_neg n1, whr_neg n0, whr_neg n1, whr_neg n0, px.1, px.2, py.1, py.2, ps.1, ps.2]

theorem inv_inside (hs : AddsUp sum) (hB : 0 < B) (G : GoodKnots B K xp yp sl) {tiny y : FX F} {t : ℝ} (hy : y.1 = fin t) (h0 : (yp 0).val < t) (h1 : t < (yp K).val) :
    ∃ i < K, (yp i).val ≤ t ∧ t < (yp (i + 1)).val ∧
      inv sum tiny K xp yp sl y = segInv tiny (xp i) (xp (i + 1)) (yp i) (yp (i + 1)) (sl i) (sl (i + 1)) y := by
  obtain ⟨i, hi, a, b, hp⟩ := bin_pick hs (fun i hi => (G.y_fin i hi).1) (G.ylt hB) hy h0.le h1
  refine ⟨i, hi, a, b, ?_⟩
  have n0 : ¬ y ≤ yp 0 := fun c => by
    have := (le_iff_fin hy (fin_val (G.y_fin 0 (Nat.zero_le _)).1)).1 c; linarith
  have n1 : ¬ yp K ≤ y := fun c => by
    have := (le_iff_fin (fin_val (G.y_fin K le_rfl).1) hy).1 c; linarith
  have px := hp xp fun j hj => (G.x_fin j hj).1
  have py := hp yp fun j hj => (G.y_fin j hj).1
  have ps := hp sl fun j hj => (G.s_fin j hj).1
  unfold inv
  dsimp only
  rw [whr_neg n1, whr_neg n0, whr_neg n1, whr_neg n0, px.1, px.2, py.1, py.2, ps.1, ps.2]

theorem log_slope_finite (hB : 0 < B) (G : GoodKnots B K xp yp sl) {i : ℕ} (hi : i ≤ K) : (FX.log (sl i)).finite := by
  obtain ⟨hf, l, -⟩ := G.s_fin i hi
  have : 0 < 1 / B := by positivity
  obtain ⟨y, hy, -⟩ := log_finite (fin_val hf) (by linarith : 0 < (sl i).val)
  exact ⟨y, hy⟩

end FSpline

/-- C79: below and above its range the spline is the linear function with the boundary slope, up to rounding, and its log-derivative is the logarithm
of that slope. -/
theorem C79_forward_tails (A : F.Acc u η) (R : Room F η B) (G : GoodKnots B K xp yp sl) {x : FX F} {t : ℝ} (hx : x.1 = fin t) (ht : |t| * (4 * B) ≤ F.top) :
    (t ≤ (xp 0).val →
      (FSpline.fwd sum K xp yp sl x).1.Within ((yp 0).val + (sl 0).val * (t - (xp 0).val))
        (u * (4 * ((sl 0).val * |t - (xp 0).val|) + |(yp 0).val|) + 2 * η) ∧
      (FSpline.fwd sum K xp yp sl x).2 = FX.log (sl 0)) ∧
    ((xp K).val ≤ t →
      (FSpline.fwd sum K xp yp sl x).1.Within ((yp K).val + (sl K).val * (t - (xp K).val))
        (u * (4 * ((sl K).val * |t - (xp K).val|) + |(yp K).val|) + 2 * η) ∧
      (FSpline.fwd sum K xp yp sl x).2 = FX.log (sl K)) := by
  have hB : 0 < B := by have := R.one; linarith
  have lt : (xp 0).val < (xp K).val := by
    have := G.pos
    exact (G.xlt hB 0 (by omega)).trans_le (knots_mono (g := fun i => (xp i).val) (G.xlt hB) (by omega) le_rfl)
  have key : ∀ i ≤ K, ((x - xp i) * sl i + yp i).Within ((yp i).val + (sl i).val * (t - (xp i).val))
      (u * (4 * ((sl i).val * |t - (xp i).val|) + |(yp i).val|) + 2 * η) := fun i hi => by
    obtain ⟨fx, bx⟩ := G.x_fin i hi
    obtain ⟨fy, by'⟩ := G.y_fin i hi
    obtain ⟨fs, s0, s1⟩ := G.s_fin i hi
    obtain ⟨Y, hY, bY, -⟩ := lin_spec A R hx (fin_val fx) (fin_val fy) (fin_val fs) bx by' s0 s1 ht
    refine ⟨Y, hY, ?_⟩
    rw [mul_comm (sl i).val (t - _), mul_comm (sl i).val |_|, add_comm (yp i).val]
    exact bY
  have f0 := fin_val (G.x_fin 0 (Nat.zero_le _)).1
  have fK := fin_val (G.x_fin K le_rfl).1
  constructor <;> intro h
  · rw [fwd_below ((le_iff_fin hx f0).2 h) (fun c => by have := (le_iff_fin fK hx).1 c; linarith)]
    exact ⟨key 0 (Nat.zero_le _), rfl⟩
  · rw [fwd_above ((le_iff_fin fK hx).2 h)]
    exact ⟨key K le_rfl, rfl⟩

/-- C79: the spline and its log-derivative are finite numbers at every finite input (that does not overflow in the linear tails). -/
theorem C79_forward_finite (A : F.Acc u η) (R : Room F η B) (hs : AddsUp sum) (G : GoodKnots B K xp yp sl) {x : FX F} {t : ℝ} (hx : x.1 = fin t)
    (ht : |t| * (4 * B) ≤ F.top) : (FSpline.fwd sum K xp yp sl x).1.finite ∧ (FSpline.fwd sum K xp yp sl x).2.finite := by
  have hB : 0 < B := by have := R.one; linarith
  obtain ⟨T0, TK⟩ := C79_forward_tails (sum := sum) A R G hx ht
  rcases le_or_gt t (xp 0).val with h | h
  · obtain ⟨⟨Y, hY, -⟩, e⟩ := T0 h
    exact ⟨⟨Y, hY⟩, by rw [e]; exact log_slope_finite hB G (Nat.zero_le _)⟩
  rcases le_or_gt (xp K).val t with h' | h'
  · obtain ⟨⟨Y, hY, -⟩, e⟩ := TK h'
    exact ⟨⟨Y, hY⟩, by rw [e]; exact log_slope_finite hB G le_rfl⟩
  obtain ⟨i, hi, a, b, e⟩ := fwd_inside hs hB G hx h h'
  rw [e]
  obtain ⟨fx0, bx0⟩ := G.x_fin i hi.le
  obtain ⟨fx1, bx1⟩ := G.x_fin (i + 1) hi
  obtain ⟨fy0, by0⟩ := G.y_fin i hi.le
  obtain ⟨fy1, by1⟩ := G.y_fin (i + 1) hi
  obtain ⟨fs0, s0, s0'⟩ := G.s_fin i hi.le
  obtain ⟨fs1, s1, s1'⟩ := G.s_fin (i + 1) hi
  obtain ⟨l, Y, hY, -⟩ := segFwd_spec A R (fin_val fx0) (fin_val fx1) (fin_val fy0) (fin_val fy1) (fin_val fs0) (fin_val fs1) hx bx0 bx1 by0 by1
    (G.x_gap i hi) (G.y_gap i hi) s0 s1 s0' s1' a b.le
  exact ⟨⟨Y, hY⟩, l⟩

/-- C79: knots are mapped to knots, exactly. -/
theorem C79_forward_knots (A : F.Acc u η) (R : Room F η B) (hs : AddsUp sum) (G : GoodKnots B K xp yp sl) {i : ℕ} (hi : i ≤ K) :
    (FSpline.fwd sum K xp yp sl (xp i)).1 = yp i := by
  have hB : 0 < B := by have := R.one; linarith
  obtain ⟨fx, bx⟩ := G.x_fin i hi
  obtain ⟨fy, by'⟩ := G.y_fin i hi
  obtain ⟨fs, s0, s1⟩ := G.s_fin i hi
  have hx := fin_val fx
  have ht : |(xp i).val| * (4 * B) ≤ F.top := by
    have h1 : |(xp i).val| * (4 * B) ≤ B * (4 * B) := mul_le_mul_of_nonneg_right bx (by linarith)
    obtain ⟨-, -, k2, k3, k4, k5, k6, -⟩ := room_facts A R
    have h2 : B * (4 * B) = 4 * B ^ 2 := by ring
    have := R.top
    have := R.one
    linarith
  have f0 := fin_val (G.x_fin 0 (Nat.zero_le _)).1
  have fK := fin_val (G.x_fin K le_rfl).1
  have lin : ∀ j, j = i → (x : FX F) → x = xp i → ((x - xp j) * sl j + yp j) = yp i := by
    rintro j rfl x rfl
    obtain ⟨Y, hY, -, e⟩ := lin_spec A R hx hx (fin_val fy) (fin_val fs) bx by' s0 s1 ht
    exact ext (by rw [hY, e rfl, fin_val fy])
  have mono := fun {a b : ℕ} (h : a ≤ b) (hb : b ≤ K) => knots_mono (g := fun i => (xp i).val) (G.xlt hB) h hb
  have smono : ∀ {a b : ℕ}, a < b → b ≤ K → (xp a).val < (xp b).val := fun {a b} h hb =>
    (G.xlt hB a (by omega)).trans_le (mono (show a + 1 ≤ b by omega) hb)
  rcases Nat.eq_or_lt_of_le hi with h | h
  · rw [fwd_above ((le_iff_fin fK hx).2 (by rw [h]))]
    exact lin K h.symm _ rfl
  rcases Nat.eq_zero_or_pos i with h0 | h0
  · rw [fwd_below ((le_iff_fin hx f0).2 (by rw [h0])) (fun c => by have := (le_iff_fin fK hx).1 c; have := smono h le_rfl; linarith)]
    exact lin 0 h0.symm _ rfl
  obtain ⟨j, hj, a, b, e⟩ := fwd_inside hs hB G hx (smono h0 hi) (smono h le_rfl)
  obtain rfl : j = i := bin_unique (g := fun i => (xp i).val) (G.xlt hB) hj h a b le_rfl (G.xlt hB i h)
  rw [e]
  obtain ⟨fx1, bx1⟩ := G.x_fin (j + 1) hj
  obtain ⟨fy1, by1⟩ := G.y_fin (j + 1) hj
  obtain ⟨fs1, s1'', s1'⟩ := G.s_fin (j + 1) hj
  obtain ⟨l, Y, hY, -, -, e'⟩ := segFwd_spec A R hx (fin_val fx1) (fin_val fy) (fin_val fy1) (fin_val fs) (fin_val fs1) hx bx bx1 by' by1
    (G.x_gap j hj) (G.y_gap j hj) s0 s1'' s1 s1' le_rfl b.le
  exact ext (by rw [hY, e' rfl, fin_val fy])

/-- C79: every bin on the x axis is mapped into its bin on the y axis: never below it, and above it by at most a rounding error. -/
theorem C79_forward_bins (A : F.Acc u η) (R : Room F η B) (hs : AddsUp sum) (G : GoodKnots B K xp yp sl) {x : FX F} {t : ℝ} (hx : x.1 = fin t)
    {i : ℕ} (hi : i < K) (h0 : (xp i).val ≤ t) (h1 : t ≤ (xp (i + 1)).val) :
    ∃ Y, (FSpline.fwd sum K xp yp sl x).1.1 = fin Y ∧ (yp i).val ≤ Y ∧
      Y ≤ (yp (i + 1)).val + u * (64 * ((yp (i + 1)).val - (yp i).val) + |(yp (i + 1)).val|) := by
  have hB : 0 < B := by have := R.one; linarith
  obtain ⟨fx0, bx0⟩ := G.x_fin i hi.le
  obtain ⟨fx1, bx1⟩ := G.x_fin (i + 1) hi
  obtain ⟨fy0, by0⟩ := G.y_fin i hi.le
  obtain ⟨fy1, by1⟩ := G.y_fin (i + 1) hi
  have yl := G.ylt hB i hi
  have bnd : 0 ≤ u * (64 * ((yp (i + 1)).val - (yp i).val) + |(yp (i + 1)).val|) :=
    mul_nonneg A.u0 (by have := _root_.abs_nonneg (yp (i + 1)).val; linarith)
  have knot : ∀ j ≤ K, t = (xp j).val → x = xp j := fun j hj e => ext (by rw [hx, fin_val (G.x_fin j hj).1, e])
  rcases h1.eq_or_lt with e | h1
  · rw [knot (i + 1) hi e, C79_forward_knots A R hs G hi]
    exact ⟨_, fin_val fy1, yl.le, by linarith⟩
  rcases h0.eq_or_lt with e | h0
  · rw [knot i hi.le e.symm, C79_forward_knots A R hs G hi.le]
    exact ⟨_, fin_val fy0, le_rfl, by linarith⟩
  have mono := fun {a b : ℕ} (h : a ≤ b) (hb : b ≤ K) => knots_mono (g := fun i => (xp i).val) (G.xlt hB) h hb
  obtain ⟨j, hj, a, b, e⟩ := fwd_inside hs hB G hx (lt_of_le_of_lt (mono (Nat.zero_le i) hi.le) h0) (h1.trans_le (mono hi le_rfl))
  obtain rfl : j = i := bin_unique (g := fun i => (xp i).val) (G.xlt hB) hj hi a b h0.le h1
  rw [e]
  obtain ⟨fs0, s0, s0'⟩ := G.s_fin j hi.le
  obtain ⟨fs1, s1, s1'⟩ := G.s_fin (j + 1) hi
  obtain ⟨l, Y, hY, y0, y1, -⟩ := segFwd_spec A R (fin_val fx0) (fin_val fx1) (fin_val fy0) (fin_val fy1) (fin_val fs0) (fin_val fs1) hx bx0 bx1 by0 by1
    (G.x_gap j hi) (G.y_gap j hi) s0 s1 s0' s1' a b.le
  exact ⟨Y, hY, y0, y1⟩

/-- C79: the inverse outside the range. -/
theorem C79_inverse_tails (A : F.Acc u η) (R : Room F η B) (G : GoodKnots B K xp yp sl) (tiny : FX F) {y : FX F} {t : ℝ} (hy : y.1 = fin t) (ht : |t| * (4 * B) ≤ F.top) :
    (t ≤ (yp 0).val →
      (FSpline.inv sum tiny K xp yp sl y).1.Within ((xp 0).val + (t - (yp 0).val) / (sl 0).val)
        (u * (4 * (|t - (yp 0).val| / (sl 0).val) + |(xp 0).val|) + 2 * η) ∧
      (FSpline.inv sum tiny K xp yp sl y).2 = -FX.log (sl 0)) ∧
    ((yp K).val ≤ t →
      (FSpline.inv sum tiny K xp yp sl y).1.Within ((xp K).val + (t - (yp K).val) / (sl K).val)
        (u * (4 * (|t - (yp K).val| / (sl K).val) + |(xp K).val|) + 2 * η) ∧
      (FSpline.inv sum tiny K xp yp sl y).2 = -FX.log (sl K)) := by
  have hB : 0 < B := by have := R.one; linarith
  have lt : (yp 0).val < (yp K).val := by
    have := G.pos
    exact (G.ylt hB 0 (by omega)).trans_le (knots_mono (g := fun i => (yp i).val) (G.ylt hB) (by omega) le_rfl)
  have key : ∀ i ≤ K, ((y - yp i) / sl i + xp i).Within ((xp i).val + (t - (yp i).val) / (sl i).val)
      (u * (4 * (|t - (yp i).val| / (sl i).val) + |(xp i).val|) + 2 * η) := fun i hi => by
    obtain ⟨fx, bx⟩ := G.x_fin i hi
    obtain ⟨fy, by'⟩ := G.y_fin i hi
    obtain ⟨fs, s0, s1⟩ := G.s_fin i hi
    obtain ⟨Y, hY, bY, -⟩ := linInv_spec A R hy (fin_val fx) (fin_val fy) (fin_val fs) bx by' s0 s1 ht
    refine ⟨Y, hY, ?_⟩
    rw [add_comm (xp i).val]
    exact bY
  have f0 := fin_val (G.y_fin 0 (Nat.zero_le _)).1
  have fK := fin_val (G.y_fin K le_rfl).1
  constructor <;> intro h
  · rw [inv_below ((le_iff_fin hy f0).2 h) (fun c => by have := (le_iff_fin fK hy).1 c; linarith)]
    exact ⟨key 0 (Nat.zero_le _), rfl⟩
  · rw [inv_above ((le_iff_fin fK hy).2 h)]
    exact ⟨key K le_rfl, rfl⟩

/-- C79: the inverse spline and its log-derivative are finite numbers at every finite input. -/
theorem C79_inverse_finite (A : F.Acc u η) (R : Room F η B) (hs : AddsUp sum) (G : GoodKnots B K xp yp sl) {tiny : FX F} {τ : ℝ} (hτ : tiny.1 = fin τ) (τ0 : 0 < τ)
    (τ1 : τ ≤ 1) {y : FX F} {t : ℝ} (hy : y.1 = fin t) (ht : |t| * (4 * B) ≤ F.top) :
    (FSpline.inv sum tiny K xp yp sl y).1.finite ∧ (FSpline.inv sum tiny K xp yp sl y).2.finite := by
  have hB : 0 < B := by have := R.one; linarith
  obtain ⟨T0, TK⟩ := C79_inverse_tails (sum := sum) A R G tiny hy ht
  rcases le_or_gt t (yp 0).val with h | h
  · obtain ⟨⟨Y, hY, -⟩, e⟩ := T0 h
    exact ⟨⟨Y, hY⟩, by rw [e]; exact neg_finite.2 (log_slope_finite hB G (Nat.zero_le _))⟩
  rcases le_or_gt (yp K).val t with h' | h'
  · obtain ⟨⟨Y, hY, -⟩, e⟩ := TK h'
    exact ⟨⟨Y, hY⟩, by rw [e]; exact neg_finite.2 (log_slope_finite hB G le_rfl)⟩
  obtain ⟨i, hi, a, b, e⟩ := inv_inside (tiny := tiny) hs hB G hy h h'
  rw [e]
  obtain ⟨fx0, bx0⟩ := G.x_fin i hi.le
  obtain ⟨fx1, bx1⟩ := G.x_fin (i + 1) hi
  obtain ⟨fy0, by0⟩ := G.y_fin i hi.le
  obtain ⟨fy1, by1⟩ := G.y_fin (i + 1) hi
  obtain ⟨fs0, s0, s0'⟩ := G.s_fin i hi.le
  obtain ⟨fs1, s1, s1'⟩ := G.s_fin (i + 1) hi
  obtain ⟨l, Y, hY, -⟩ := segInv_spec A R hτ τ0 τ1 (fin_val fx0) (fin_val fx1) (fin_val fy0) (fin_val fy1) (fin_val fs0) (fin_val fs1) hy bx0 bx1 by0 by1
    (G.x_gap i hi) (G.y_gap i hi) s0 s1 s0' s1' a b.le
  exact ⟨⟨Y, hY⟩, l⟩

/-- C79: the inverse maps knots back to knots, exactly. -/
theorem C79_inverse_knots (A : F.Acc u η) (R : Room F η B) (hs : AddsUp sum) (G : GoodKnots B K xp yp sl) {tiny : FX F} {τ : ℝ} (hτ : tiny.1 = fin τ) (τ0 : 0 < τ)
    (τ1 : τ ≤ 1) {i : ℕ} (hi : i ≤ K) : (FSpline.inv sum tiny K xp yp sl (yp i)).1 = xp i := by
  have hB : 0 < B := by have := R.one; linarith
  obtain ⟨fx, bx⟩ := G.x_fin i hi
  obtain ⟨fy, by'⟩ := G.y_fin i hi
  obtain ⟨fs, s0, s1⟩ := G.s_fin i hi
  have hy := fin_val fy
  have ht : |(yp i).val| * (4 * B) ≤ F.top := by
    have h1 : |(yp i).val| * (4 * B) ≤ B * (4 * B) := mul_le_mul_of_nonneg_right by' (by linarith)
    obtain ⟨-, -, k2, k3, k4, k5, k6, -⟩ := room_facts A R
    have h2 : B * (4 * B) = 4 * B ^ 2 := by ring
    have := R.top
    have := R.one
    linarith
  have f0 := fin_val (G.y_fin 0 (Nat.zero_le _)).1
  have fK := fin_val (G.y_fin K le_rfl).1
  have lin : ∀ j, j = i → (y : FX F) → y = yp i → ((y - yp j) / sl j + xp j) = xp i := by
    rintro j rfl y rfl
    obtain ⟨Y, hY, -, e⟩ := linInv_spec A R hy (fin_val fx) hy (fin_val fs) bx by' s0 s1 ht
    exact ext (by rw [hY, e rfl, fin_val fx])
  have mono := fun {a b : ℕ} (h : a ≤ b) (hb : b ≤ K) => knots_mono (g := fun i => (yp i).val) (G.ylt hB) h hb
  have smono : ∀ {a b : ℕ}, a < b → b ≤ K → (yp a).val < (yp b).val := fun {a b} h hb =>
    (G.ylt hB a (by omega)).trans_le (mono (show a + 1 ≤ b by omega) hb)
  rcases Nat.eq_or_lt_of_le hi with h | h
  · rw [inv_above ((le_iff_fin fK hy).2 (by rw [h]))]
    exact lin K h.symm _ rfl
  rcases Nat.eq_zero_or_pos i with h0 | h0
  · rw [inv_below ((le_iff_fin hy f0).2 (by rw [h0])) (fun c => by have := (le_iff_fin fK hy).1 c; have := smono h le_rfl; linarith)]
    exact lin 0 h0.symm _ rfl
  obtain ⟨j, hj, a, b, e⟩ := inv_inside (tiny := tiny) hs hB G hy (smono h0 hi) (smono h le_rfl)
  obtain rfl : j = i := bin_unique (g := fun i => (yp i).val) (G.ylt hB) hj h a b le_rfl (G.ylt hB i h)
  rw [e]
  obtain ⟨fx1, bx1⟩ := G.x_fin (j + 1) hj
  obtain ⟨fy1, by1⟩ := G.y_fin (j + 1) hj
  obtain ⟨fs1, s1'', s1'⟩ := G.s_fin (j + 1) hj
  obtain ⟨l, Y, hY, -, -, e'⟩ := segInv_spec A R hτ τ0 τ1 (fin_val fx) (fin_val fx1) hy (fin_val fy1) (fin_val fs) (fin_val fs1) hy bx bx1 by' by1
    (G.x_gap j hj) (G.y_gap j hj) s0 s1'' s1 s1' le_rfl b.le
  exact ext (by rw [hY, e' rfl, fin_val fx])

/-- C79: every bin on the y axis is mapped back into its bin on the x axis, up to rounding. -/
theorem C79_inverse_bins (A : F.Acc u η) (R : Room F η B) (hs : AddsUp sum) (G : GoodKnots B K xp yp sl) {tiny : FX F} {τ : ℝ} (hτ : tiny.1 = fin τ) (τ0 : 0 < τ)
    (τ1 : τ ≤ 1) {y : FX F} {t : ℝ} (hy : y.1 = fin t) {i : ℕ} (hi : i < K) (h0 : (yp i).val ≤ t) (h1 : t ≤ (yp (i + 1)).val) :
    ∃ X, (FSpline.inv sum tiny K xp yp sl y).1.1 = fin X ∧ (xp i).val ≤ X ∧
      X ≤ (xp (i + 1)).val + u * (3 * ((xp (i + 1)).val - (xp i).val) + |(xp (i + 1)).val|) := by
  have hB : 0 < B := by have := R.one; linarith
  obtain ⟨fx0, bx0⟩ := G.x_fin i hi.le
  obtain ⟨fx1, bx1⟩ := G.x_fin (i + 1) hi
  obtain ⟨fy0, by0⟩ := G.y_fin i hi.le
  obtain ⟨fy1, by1⟩ := G.y_fin (i + 1) hi
  have xl := G.xlt hB i hi
  have bnd : 0 ≤ u * (3 * ((xp (i + 1)).val - (xp i).val) + |(xp (i + 1)).val|) :=
    mul_nonneg A.u0 (by have := _root_.abs_nonneg (xp (i + 1)).val; linarith)
  have knot : ∀ j ≤ K, t = (yp j).val → y = yp j := fun j hj e => ext (by rw [hy, fin_val (G.y_fin j hj).1, e])
  rcases h1.eq_or_lt with e | h1
  · rw [knot (i + 1) hi e, C79_inverse_knots A R hs G hτ τ0 τ1 hi]
    exact ⟨_, fin_val fx1, xl.le, by linarith⟩
  rcases h0.eq_or_lt with e | h0
  · rw [knot i hi.le e.symm, C79_inverse_knots A R hs G hτ τ0 τ1 hi.le]
    exact ⟨_, fin_val fx0, le_rfl, by linarith⟩
  have mono := fun {a b : ℕ} (h : a ≤ b) (hb : b ≤ K) => knots_mono (g := fun i => (yp i).val) (G.ylt hB) h hb
  obtain ⟨j, hj, a, b, e⟩ := inv_inside (tiny := tiny) hs hB G hy (lt_of_le_of_lt (mono (Nat.zero_le i) hi.le) h0) (h1.trans_le (mono hi le_rfl))
  obtain rfl : j = i := bin_unique (g := fun i => (yp i).val) (G.ylt hB) hj hi a b h0.le h1
  rw [e]
  obtain ⟨fs0, s0, s0'⟩ := G.s_fin j hi.le
  obtain ⟨fs1, s1, s1'⟩ := G.s_fin (j + 1) hi
  obtain ⟨l, Y, hY, y0, y1, -⟩ := segInv_spec A R hτ τ0 τ1 (fin_val fx0) (fin_val fx1) (fin_val fy0) (fin_val fy1) (fin_val fs0) (fin_val fs1) hy bx0 bx1 by0 by1
    (G.x_gap j hi) (G.y_gap j hi) s0 s1 s0' s1' a b.le
  exact ⟨Y, hY, y0, y1⟩

/-- C79: the tails never decrease (in either direction), whatever the rounding. -/
theorem C79_tails_monotone (hB : 0 < B) (G : GoodKnots B K xp yp sl) (tiny : FX F) {x x' : FX F} (h : x ≤ x') :
    (xp K ≤ x → (FSpline.fwd sum K xp yp sl x).1 ≤ (FSpline.fwd sum K xp yp sl x').1) ∧
    (x' ≤ xp 0 → (FSpline.fwd sum K xp yp sl x).1 ≤ (FSpline.fwd sum K xp yp sl x').1) ∧
    (yp K ≤ x → (FSpline.inv sum tiny K xp yp sl x).1 ≤ (FSpline.inv sum tiny K xp yp sl x').1) ∧
    (x' ≤ yp 0 → (FSpline.inv sum tiny K xp yp sl x).1 ≤ (FSpline.inv sum tiny K xp yp sl x').1) := by
  have iB : 0 < 1 / B := by positivity
  have K0 := G.pos
  have s : ∀ i ≤ K, (sl i).1 = fin (sl i).val ∧ 0 < (sl i).val := fun i hi => by
    obtain ⟨f, l, -⟩ := G.s_fin i hi; exact ⟨fin_val f, by linarith⟩
  have fx := fun i hi => (G.x_fin i hi).1
  have fy := fun i hi => (G.y_fin i hi).1
  have nx : ∀ z : FX F, z ≤ xp 0 → ¬ xp K ≤ z := fun z h1 h2 => by
    have h3 := (le_iff_fin (fin_val (fx K le_rfl)) (fin_val (fx 0 (Nat.zero_le _)))).1 (h2.tr h1)
    have h4 := (G.xlt hB 0 (by omega)).trans_le (knots_mono (g := fun i => (xp i).val) (G.xlt hB) (show 0 + 1 ≤ K by omega) le_rfl)
    linarith
  have ny : ∀ z : FX F, z ≤ yp 0 → ¬ yp K ≤ z := fun z h1 h2 => by
    have h3 := (le_iff_fin (fin_val (fy K le_rfl)) (fin_val (fy 0 (Nat.zero_le _)))).1 (h2.tr h1)
    have h4 := (G.ylt hB 0 (by omega)).trans_le (knots_mono (g := fun i => (yp i).val) (G.ylt hB) (show 0 + 1 ≤ K by omega) le_rfl)
    linarith
  refine ⟨fun g => ?_, fun g => ?_, fun g => ?_, fun g => ?_⟩
  · rw [fwd_above g, fwd_above (g.tr h)]
    exact lin_mono (fx K le_rfl) (fy K le_rfl) (s K le_rfl).1 (s K le_rfl).2 h
  · rw [fwd_below (h.tr g) (nx _ (h.tr g)), fwd_below g (nx _ g)]
    exact lin_mono (fx 0 (Nat.zero_le _)) (fy 0 (Nat.zero_le _)) (s 0 (Nat.zero_le _)).1 (s 0 (Nat.zero_le _)).2 h
  · rw [inv_above g, inv_above (g.tr h)]
    exact linInv_mono (fy K le_rfl) (fx K le_rfl) (s K le_rfl).1 (s K le_rfl).2 h
  · rw [inv_below (h.tr g) (ny _ (h.tr g)), inv_below g (ny _ g)]
    exact linInv_mono (fy 0 (Nat.zero_le _)) (fx 0 (Nat.zero_le _)) (s 0 (Nat.zero_le _)).1 (s 0 (Nat.zero_le _)).2 h

end Distrax
