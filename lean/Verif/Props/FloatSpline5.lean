import Verif.Lemmas.FloatSpline9
import Verif.Props.FloatSpline4
import Mathlib.Tactic

/-!
C79, continued: accuracy of the forward map inside the range, and which parameters each part of the spline depends on.
-/

namespace Distrax

open XR FX FSpline Spec

variable {F : Fmt} {u η B : ℝ} {sum cumsum : List (FX F) → FX F} {K : ℕ} {xp yp sl : ℕ → FX F}

theorem FSpline.rqSegment_left {x0 x1 y0 y1 d0 d1 : ℝ} : rqSegment x0 x1 y0 y1 d0 d1 x0 = y0 := by simp [rqSegment]

theorem FSpline.rqSegment_right {x0 x1 y0 y1 d0 d1 : ℝ} (hx : x0 < x1) (hy : y0 < y1) : rqSegment x0 x1 y0 y1 d0 d1 x1 = y1 := by
  have h : x1 - x0 ≠ 0 := by linarith
  have h' : (y1 - y0) / (x1 - x0) ≠ 0 := div_ne_zero (by linarith) h
  unfold rqSegment
  rw [div_self h]
  simp [div_self h']

/-- C79: inside the range, the computed value is accurate: within `u` times `|y| + 256 * (h + w * (d0 + d1))` of the exact rational-quadratic
value `y`, in a bin of width `w` and height `h` with slopes `d0`, `d1`. -/
theorem C79_forward_accurate (A : F.Acc u η) (R : Room F η B) (hs : AddsUp sum) (G : GoodKnots B K xp yp sl) {x : FX F} {t : ℝ} (hx : x.1 = fin t)
    {i : ℕ} (hi : i < K) (h0 : (xp i).val ≤ t) (h1 : t ≤ (xp (i + 1)).val) {y : ℝ}
    (hy : y = rqSegment (xp i).val (xp (i + 1)).val (yp i).val (yp (i + 1)).val (sl i).val (sl (i + 1)).val t) :
    (FSpline.fwd sum K xp yp sl x).1.Within y
      (u * (|y| + 256 * (((yp (i + 1)).val - (yp i).val) + ((xp (i + 1)).val - (xp i).val) * ((sl i).val + (sl (i + 1)).val)))) := by
  have hB : 0 < B := by have := R.one; linarith
  obtain ⟨fx0, bx0⟩ := G.x_fin i hi.le
  obtain ⟨fx1, bx1⟩ := G.x_fin (i + 1) hi
  obtain ⟨fy0, by0⟩ := G.y_fin i hi.le
  obtain ⟨fy1, by1⟩ := G.y_fin (i + 1) hi
  obtain ⟨fs0, s0, s0'⟩ := G.s_fin i hi.le
  obtain ⟨fs1, s1, s1'⟩ := G.s_fin (i + 1) hi
  have yl := G.ylt hB i hi
  have xl := G.xlt hB i hi
  have iB : 0 < 1 / B := by positivity
  have bnd : 0 ≤ u * (|y| + 256 * (((yp (i + 1)).val - (yp i).val) + ((xp (i + 1)).val - (xp i).val) * ((sl i).val + (sl (i + 1)).val))) := by
    refine mul_nonneg A.u0 ?_
    have h1 := mul_nonneg (show 0 ≤ (xp (i + 1)).val - (xp i).val by linarith) (show 0 ≤ (sl i).val + (sl (i + 1)).val by linarith)
    have := _root_.abs_nonneg y
    linarith
  have knot : ∀ j ≤ K, t = (xp j).val → x = xp j := fun j hj e => ext (by rw [hx, fin_val (G.x_fin j hj).1, e])
  rcases h1.eq_or_lt with e | h1
  · rw [knot (i + 1) hi e, C79_forward_knots A R hs G hi]
    rw [e, rqSegment_right xl yl] at hy
    exact ⟨_, fin_val fy1, by rw [show (yp (i + 1)).val - y = 0 by linarith, abs_zero]; exact bnd⟩
  rcases h0.eq_or_lt with e | h0
  · rw [knot i hi.le e.symm, C79_forward_knots A R hs G hi.le]
    rw [← e, rqSegment_left] at hy
    exact ⟨_, fin_val fy0, by rw [show (yp i).val - y = 0 by linarith, abs_zero]; exact bnd⟩
  have mono := fun {a b : ℕ} (h : a ≤ b) (hb : b ≤ K) => knots_mono (g := fun i => (xp i).val) (G.xlt hB) h hb
  obtain ⟨j, hj, a, b, e⟩ := fwd_inside hs hB G hx (lt_of_le_of_lt (mono (Nat.zero_le i) hi.le) h0) (h1.trans_le (mono hi le_rfl))
  obtain rfl : j = i := bin_unique (g := fun i => (xp i).val) (G.xlt hB) hj hi a b h0.le h1
  rw [e]
  refine segFwd_acc A R (fin_val fx0) (fin_val fx1) (fin_val fy0) (fin_val fy1) (fin_val fs0) (fin_val fs1) hx bx0 bx1 by0 by1
    (G.x_gap j hi) (G.y_gap j hi) s0 s1 s0' s1' a b.le rfl rfl rfl rfl ?_
  rw [hy, rqSegment]
  congr 3 <;> ring

theorem FSpline.maxOf_congr {w w' : ℕ → FX F} (hK : 1 ≤ K) (h : ∀ i < K, w' i = w i) : maxOf K w' = maxOf K w := by
  unfold maxOf
  rw [h 0 (by omega)]
  refine List.foldl_ext _ _ _ fun m j hj => ?_
  rw [h (j + 1) (by have := List.mem_range.1 hj; omega)]

theorem FSpline.sizes_congr {w w' : ℕ → FX F} {total mb : ℝ} {z z' : ℕ → FX F} (hK : 1 ≤ K) (h : ∀ i < K, w' i = w i)
    (e : normalizeBinSizes sum K w total mb = .ok z) (e' : normalizeBinSizes sum K w' total mb = .ok z') : ∀ i < K, z' i = z i := by
  unfold normalizeBinSizes at e e'
  split_ifs at e e'
  obtain rfl := Except.ok.inj e
  obtain rfl := Except.ok.inj e'
  intro i hi
  have m := maxOf_congr hK h
  have l : ((List.range K).map fun j => FX.exp (w' j - maxOf K w)) = (List.range K).map fun j => FX.exp (w j - maxOf K w) :=
    List.map_congr_left fun j hj => by rw [h j (List.mem_range.1 hj)]
  simp only [softmax, m, l, h i hi]

theorem FSpline.positions_congr {z z' : ℕ → FX F} {rmin rmax : ℝ} (h : ∀ i < K, z' i = z i) (i : ℕ) :
    positions cumsum K z' rmin rmax i = positions cumsum K z rmin rmax i := by
  unfold positions
  split_ifs with h0 h1
  · rfl
  · have l : (List.range i).map z' = (List.range i).map z := List.map_congr_left fun j hj => h j ((List.mem_range.1 hj).trans h1)
    rw [l]
  · rfl

/-- Non-vacuity, in `float32`: one bin from 0 to 1 with slopes 1; at `1/2` the exact value is `1/2` and the bound is `2^-24 * 768.5`. -/
example (rd : ℝ → XR) (h : IEEE 24 (-149) 104 rd) : ∃ F : Fmt, F.rd = rd ∧ ∃ sum : List (FX F) → FX F, AddsUp sum ∧
    GoodKnots 1 1 (fun i => if i = 0 then (lit 0 : FX F) else lit 1) (fun i => if i = 0 then lit 0 else lit 1) (fun _ => lit 1) ∧
    Room F ((2 : ℝ) ^ (-150 : ℤ)) 1 ∧
    (FSpline.fwd sum 1 (fun i => if i = 0 then (lit 0 : FX F) else lit 1) (fun i => if i = 0 then lit 0 else lit 1) (fun _ => lit 1) (lit (1 / 2))).1.Within
      (1 / 2) ((2 : ℝ) ^ (-24 : ℤ) * (1537 / 2)) := by
  obtain ⟨F, hF, A⟩ := C63_formats.2.2.1 rd h
  obtain ⟨sum, hs⟩ := FSpline.adds_up_exists F
  have tp : (4096 : ℝ) ≤ F.top := by
    have m0 : (2 : ℝ) ^ (100 : ℤ) ∈ binary 24 (-149) 104 := ⟨1, 100, by norm_num, by norm_num, by norm_num, by norm_num⟩
    have r := RoundsToNearest.rep h m0 (by rw [abs_of_pos (by positivity)]; norm_num)
    rw [← hF] at r
    have := F.range r
    rw [abs_of_pos (by positivity)] at this
    exact le_trans (by norm_num) this
  have R : Room F ((2 : ℝ) ^ (-150 : ℤ)) 1 := ⟨le_rfl, by linarith, by norm_num⟩
  have v0 : (lit 0 : FX F).val = 0 := val_of lit_zero
  have v1 : (lit 1 : FX F).val = 1 := val_of lit_one
  have f0 : (lit 0 : FX F).finite := ⟨0, lit_zero⟩
  have f1 : (lit 1 : FX F).finite := ⟨1, lit_one⟩
  have G : GoodKnots 1 1 (fun i => if i = 0 then (lit 0 : FX F) else lit 1) (fun i => if i = 0 then lit 0 else lit 1) (fun _ => lit 1) := by
    refine ⟨le_rfl, fun i _ => ?_, fun i _ => ?_, fun i _ => ⟨f1, by simp [v1], by simp [v1]⟩, fun i hi => ?_, fun i hi => ?_⟩
    · show (if i = 0 then (lit 0 : FX F) else lit 1).finite ∧ _
      by_cases c : i = 0 <;> simp [c, v0, v1, f0, f1]
    · show (if i = 0 then (lit 0 : FX F) else lit 1).finite ∧ _
      by_cases c : i = 0 <;> simp [c, v0, v1, f0, f1]
    · obtain rfl : i = 0 := by omega
      simp [v0, v1]
    · obtain rfl : i = 0 := by omega
      simp [v0, v1]
  refine ⟨F, hF, sum, hs, G, R, ?_⟩
  have := C79_forward_accurate A R hs G (lit_val F.half : (lit (1 / 2) : FX F).1 = fin (1 / 2)) (i := 0) (by norm_num) (by simp [v0]) (by simp [v1]; norm_num) rfl
  obtain ⟨Y, hY, b⟩ := this
  refine ⟨Y, hY, ?_⟩
  simp only [rqSegment, v0, v1, if_true, Nat.add_eq_zero_iff, one_ne_zero, and_false, if_false, Nat.zero_add] at b
  norm_num [abs_of_pos] at b ⊢
  exact b

/-- C79: which parameters matter where: the knot positions in `x` depend on the first `K` parameters only, those in `y` on the next `K`, and
the slopes on the last `K + 1`; nothing depends on a parameter beyond the end of the vector. -/
theorem C79_split {len : ℕ} {params params' : ℕ → FX F} {rmin rmax mb ms : ℝ} {opt : String} {o o' : FSpline.Obj F}
    (h : FSpline.mk? sum cumsum len params rmin rmax opt mb ms = .ok o) (h' : FSpline.mk? sum cumsum len params' rmin rmax opt mb ms = .ok o') :
    o'.K = o.K ∧ ((∀ i < o.K, params' i = params i) → ∀ i ≤ o.K, o'.xp i = o.xp i) ∧
      ((∀ i < o.K, params' (o.K + i) = params (o.K + i)) → ∀ i ≤ o.K, o'.yp i = o.yp i) ∧
      ((∀ i ≤ o.K, params' (2 * o.K + i) = params (2 * o.K + i)) → ∀ i ≤ o.K, o'.sl i = o.sl i) := by
  obtain ⟨l4, eK, -, -, -, ⟨zx, ex, hx⟩, ⟨zy, ey, hy⟩, s, es, hs⟩ := mk?_ok h
  obtain ⟨l4', eK', -, -, -, ⟨zx', ex', hx'⟩, ⟨zy', ey', hy'⟩, s', es', hs'⟩ := mk?_ok h'
  have k : o'.K = o.K := by omega
  rw [k] at ex' ey' es' hs' hx' hy'
  have hK : 1 ≤ o.K := by omega
  refine ⟨k, fun hp i _ => ?_, fun hp i _ => ?_, fun hp i hi => ?_⟩
  · rw [hx, hx', positions_congr (sizes_congr hK hp ex ex')]
  · rw [hy, hy', positions_congr (sizes_congr hK hp ey ey')]
  · unfold normalizeKnotSlopes at es es'
    split_ifs at es es'
    have q : ∀ i ≤ o.K, s' i = s i := fun i hi => by
      rw [← Except.ok.inj es, ← Except.ok.inj es']
      simp only [hp i hi]
    have b1 := q i hi
    have b0 := q 0 (Nat.zero_le _)
    unfold boundary at hs hs'
    split_ifs at hs hs' <;> (rw [← Except.ok.inj hs, ← Except.ok.inj hs']) <;> first | exact b1 | (simp only [b1, b0])

/-- Non-vacuity: two accepted calls with two bins that differ in the second width parameter only. -/
example (F : Fmt) (sum : List (FX F) → FX F) : ∃ o o' : FSpline.Obj F,
    FSpline.mk? sum sum 7 (fun _ => lit 0) 0 1 "circular" (1 / 10) (1 / 10) = .ok o ∧
      FSpline.mk? sum sum 7 (fun i => if i = 1 then lit 1 else lit 0) 0 1 "circular" (1 / 10) (1 / 10) = .ok o' ∧
      (∀ i ≤ o.K, o'.yp i = o.yp i) ∧ ∀ i ≤ o.K, o'.sl i = o.sl i := by
  have acc := fun params : ℕ → FX F => C79_accepts (F := F) (sum := sum) (cumsum := sum) (len := 7) params (rmin := 0) (rmax := 1) (mb := 1 / 10) (ms := 1 / 10)
    (opt := "circular") (by norm_num) (by norm_num) (by norm_num) (by norm_num) (by norm_num) (by norm_num) (by norm_num) (by simp)
  obtain ⟨o, ho⟩ := acc (fun _ => lit 0)
  obtain ⟨o', ho'⟩ := acc (fun i => if i = 1 then lit 1 else lit 0)
  have hk : o.K = 2 := by have := (FSpline.mk?_ok ho).2.1; omega
  obtain ⟨-, -, a, b⟩ := C79_split ho ho'
  exact ⟨o, o', ho, ho', a fun i _ => by simp [hk]; omega, b fun i _ => by simp [hk]; omega⟩

end Distrax
