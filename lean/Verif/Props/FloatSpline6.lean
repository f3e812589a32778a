import Verif.Lemmas.FloatSpline10
import Verif.Props.FloatSpline5
import Mathlib.Tactic

/-!
C79, continued: the log-determinants at the knots.
-/

namespace Distrax

open XR FX FSpline Spec

variable {F : Fmt} {u η B : ℝ} {sum cumsum : List (FX F) → FX F} {K : ℕ} {xp yp sl : ℕ → FX F}

/-- C79: at every knot the log-determinant of forward is the logarithm of the slope of that knot, and the log-determinant of inverse its negative,
up to `8 * u * log (4 * B^2)`: the two directions agree. -/
theorem C79_knot_logdets (A : F.Acc u η) (R : Room F η B) (hs : AddsUp sum) (G : GoodKnots B K xp yp sl) {tiny : FX F} {τ : ℝ} (hτ : tiny.1 = fin τ)
    (τ0 : 0 < τ) (τ1 : τ ≤ 1) {i : ℕ} (hi : i ≤ K) :
    (FSpline.fwd sum K xp yp sl (xp i)).2.Within (Real.log (sl i).val) (u * (8 * Real.log (4 * B ^ 2))) ∧
      (FSpline.inv sum tiny K xp yp sl (yp i)).2.Within (-Real.log (sl i).val) (u * (8 * Real.log (4 * B ^ 2))) := by
  have hB1 := R.one
  have hB : 0 < B := by linarith
  obtain ⟨fx, bx⟩ := G.x_fin i hi
  obtain ⟨fy, by'⟩ := G.y_fin i hi
  obtain ⟨fs, s0, s1⟩ := G.s_fin i hi
  have hx := fin_val fx
  have hy := fin_val fy
  have fx0 := fin_val (G.x_fin 0 (Nat.zero_le _)).1
  have fxK := fin_val (G.x_fin K le_rfl).1
  have fy0 := fin_val (G.y_fin 0 (Nat.zero_le _)).1
  have fyK := fin_val (G.y_fin K le_rfl).1
  have mono := fun {g : ℕ → ℝ} (l : ∀ i < K, g i < g (i + 1)) {a b : ℕ} (h : a ≤ b) (hb : b ≤ K) => knots_mono (g := g) l h hb
  have smono : ∀ {g : ℕ → ℝ}, (∀ i < K, g i < g (i + 1)) → ∀ {a b : ℕ}, a < b → b ≤ K → g a < g b := fun {g} l {a b} h hb =>
    (l a (by omega)).trans_le (mono l (show a + 1 ≤ b by omega) hb)
  have hu : η ≤ u := by
    obtain ⟨-, e2, -⟩ := room_facts A R
    refine e2.trans (div_le_self A.u0 ?_)
    have : (1 : ℝ) ≤ B ^ 4 := one_le_pow₀ hB1
    linarith
  have B2 : B ≤ B ^ 2 := le_self_pow₀ hB1 (by norm_num)
  have iB2 : 1 / B ^ 2 ≤ 1 / B := one_div_le_one_div_of_le hB B2
  have ib : 0 < 1 / B := by positivity
  have own : (FX.log (sl i)).Within (Real.log (sl i).val) (u * (8 * Real.log (4 * B ^ 2))) := by
    have p : 0 < (sl i).val := by linarith
    have q := log_size hB1 (s := (sl i).val) (by have : (0 : ℝ) < 1 / B ^ 2 := by positivity
                                                 linarith) (by linarith)
    exact (logs_acc A hu (fin_val fs) (fin_val fs) p p (one_le_log_size hB1) q q).2.2
  have neg : ∀ {a : FX F} {x e : ℝ}, a.Within x e → (-a).Within (-x) e := fun {a x e} h => by
    obtain ⟨y, hy, b⟩ := h
    exact ⟨-y, by rw [neg_val, hy]; rfl, by rw [show -y - -x = -(y - x) by ring, abs_neg]; exact b⟩
  rcases Nat.eq_or_lt_of_le hi with h | h
  · rw [fwd_above ((le_iff_fin fxK hx).2 (by rw [h])), inv_above ((le_iff_fin fyK hy).2 (by rw [h])), ← h]
    exact ⟨own, neg own⟩
  rcases Nat.eq_zero_or_pos i with h0 | h0
  · rw [fwd_below ((le_iff_fin hx fx0).2 (by rw [h0])) (fun c => by have := (le_iff_fin fxK hx).1 c; have := smono (G.xlt hB) h le_rfl; linarith),
      inv_below ((le_iff_fin hy fy0).2 (by rw [h0])) (fun c => by have := (le_iff_fin fyK hy).1 c; have := smono (G.ylt hB) h le_rfl; linarith), ← h0]
    exact ⟨own, neg own⟩
  obtain ⟨fx1, bx1⟩ := G.x_fin (i + 1) h
  obtain ⟨fy1, by1⟩ := G.y_fin (i + 1) h
  obtain ⟨fs1, s2, s3⟩ := G.s_fin (i + 1) h
  obtain ⟨l1, l2, -⟩ := seg_left_logs A R hτ τ0 τ1 hx (fin_val fx1) hy (fin_val fy1) (fin_val fs) (fin_val fs1) bx bx1 by' by1
    (G.x_gap i h) (G.y_gap i h) s0 s2 s1 s3
  constructor
  · obtain ⟨j, hj, a, b, e⟩ := fwd_inside hs hB G hx (smono (G.xlt hB) h0 hi) (smono (G.xlt hB) h le_rfl)
    obtain rfl : j = i := bin_unique (g := fun i => (xp i).val) (G.xlt hB) hj h a b le_rfl (G.xlt hB i h)
    rw [e]; exact l1
  · obtain ⟨j, hj, a, b, e⟩ := inv_inside (tiny := tiny) hs hB G hy (smono (G.ylt hB) h0 hi) (smono (G.ylt hB) h le_rfl)
    obtain rfl : j = i := bin_unique (g := fun i => (yp i).val) (G.ylt hB) hj h a b le_rfl (G.ylt hB i h)
    rw [e]; exact l2

/-- Non-vacuity, in `float32`: the middle knot of a spline with two bins. -/
example (rd : ℝ → XR) (h : IEEE 24 (-149) 104 rd) : ∃ F : Fmt, F.rd = rd ∧ ∃ (sum cumsum : List (FX F) → FX F) (o : FSpline.Obj F),
    AddsUp sum ∧ AddsUp cumsum ∧ FSpline.mk? sum cumsum 7 (fun _ => lit 0) 0 1 "identity" (1 / 10000) (1 / 10000) = .ok o ∧
    GoodKnots 20000 o.K o.xp o.yp o.sl ∧ Room F ((2 : ℝ) ^ (-150 : ℤ)) 20000 ∧
    o.K = 2 ∧
    (o.forward sum (o.xp 1)).2.Within (Real.log (o.sl 1).val) ((2 : ℝ) ^ (-24 : ℤ) * (8 * Real.log (4 * 20000 ^ 2))) ∧
    (o.inverse sum (lit (1 / 2)) (o.yp 1)).2.Within (-Real.log (o.sl 1).val) ((2 : ℝ) ^ (-24 : ℤ) * (8 * Real.log (4 * 20000 ^ 2))) := by
  obtain ⟨F, hF, A⟩ := C63_formats.2.2.1 rd h
  obtain ⟨sum, hs⟩ := FSpline.adds_up_exists F
  have tp : (2 : ℝ) ^ 100 ≤ F.top := by
    have m0 : (2 : ℝ) ^ (100 : ℤ) ∈ binary 24 (-149) 104 := ⟨1, 100, by norm_num, by norm_num, by norm_num, by norm_num⟩
    have r := RoundsToNearest.rep h m0 (by rw [abs_of_pos (by positivity)]; norm_num)
    rw [← hF] at r
    have := F.range r
    rw [abs_of_pos (by positivity)] at this
    exact_mod_cast this
  have R : Room F ((2 : ℝ) ^ (-150 : ℤ)) 20000 := ⟨by norm_num, by refine le_trans ?_ tp; norm_num, by norm_num⟩
  obtain ⟨o, ho⟩ := C79_accepts (F := F) (sum := sum) (cumsum := sum) (len := 7) (fun _ => lit 0) (rmin := 0) (rmax := 1) (mb := 1 / 10000) (ms := 1 / 10000)
    (opt := "identity") (by norm_num) (by norm_num) (by norm_num) (by norm_num) (by norm_num) (by norm_num) (by norm_num) (by simp)
  have hk : o.K = 2 := by have := (FSpline.mk?_ok ho).2.1; omega
  have fz : ∀ i < 7, ((fun _ => lit 0 : ℕ → FX F) i).finite ∧ ((fun _ => lit 0 : ℕ → FX F) i).val ≤ 0 := fun i _ =>
    ⟨⟨0, lit_zero⟩, le_of_eq (val_of lit_zero)⟩
  have hm : 128 * ((o.K : ℝ) * (2 : ℝ) ^ (-24 : ℤ)) * 1 ≤ 1 / 10000 := by rw [hk]; norm_num
  have h2 : (lit (1 / 2) : FX F).1 = fin (1 / 2) := lit_val F.half
  have G := C79_constructed (M := 1) (V := 0) A hs hs ho fz le_rfl le_rfl (by norm_num) (by norm_num) hm R (by norm_num) (by norm_num) (by norm_num) (by norm_num)
  have l := C79_knot_logdets A R hs G h2 (by norm_num) (by norm_num) (i := 1) (by omega)
  exact ⟨F, hF, sum, sum, o, hs, hs, ho, G, R, hk, l.1, l.2⟩

end Distrax
