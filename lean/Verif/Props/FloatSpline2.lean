import Verif.Props.FloatSpline
import Verif.Lemmas.FloatSpline8
import Mathlib.Tactic

/-!
C79, continued: what the constructor guarantees in floating point.
-/

namespace Distrax

open XR FX FSpline

variable {F : Fmt} {u η B : ℝ} {sum cumsum : List (FX F) → FX F}

theorem FSpline.except_bind {α β : Type} {x : Except Err α} {f : α → Except Err β} {b : β} (h : (x >>= f) = .ok b) : ∃ a, x = .ok a ∧ f a = .ok b := by
  cases x with
  | error e => cases h
  | ok a => exact ⟨a, rfl, h⟩

/-- What an accepted constructor call computes. -/
theorem FSpline.mk?_ok {len : ℕ} {params : ℕ → FX F} {rmin rmax mb ms : ℝ} {opt : String} {o : FSpline.Obj F}
    (h : FSpline.mk? sum cumsum len params rmin rmax opt mb ms = .ok o) :
    4 ≤ len ∧ len = 3 * o.K + 1 ∧ rmin < rmax ∧ 0 < mb ∧ 0 < ms ∧
    (∃ sz, normalizeBinSizes sum o.K params (rmax - rmin) mb = .ok sz ∧ o.xp = positions cumsum o.K sz rmin rmax) ∧
    (∃ sz, normalizeBinSizes sum o.K (fun i => params (o.K + i)) (rmax - rmin) mb = .ok sz ∧ o.yp = positions cumsum o.K sz rmin rmax) ∧
    (∃ s, normalizeKnotSlopes (fun i => params (2 * o.K + i)) ms = .ok s ∧ boundary opt o.K s = .ok o.sl) := by
  unfold FSpline.mk? at h
  split_ifs at h with h1 h2 h3 h4
  obtain ⟨wd, hw, h⟩ := except_bind h
  obtain ⟨ht, hh, h⟩ := except_bind h
  obtain ⟨s, hs, h⟩ := except_bind h
  obtain ⟨b, hb, h⟩ := except_bind h
  obtain rfl := Except.ok.inj h
  refine ⟨by omega, by show len = 3 * ((len - 1) / 3) + 1; omega, by linarith, by linarith, by linarith, ⟨wd, hw, rfl⟩, ⟨ht, hh, rfl⟩, s, hs, hb⟩

/-- The documented argument checks are the only ones: everything else is accepted, whatever the parameters. -/
theorem C79_accepts {len : ℕ} (params : ℕ → FX F) {rmin rmax mb ms : ℝ} {opt : String} (h3 : len % 3 = 1) (h4 : 4 ≤ len) (hr : rmin < rmax)
    (hm : 0 < mb) (hs : 0 < ms) (hs1 : ms < 1) (hb : ((len - 1) / 3 : ℕ) * mb ≤ rmax - rmin)
    (ho : opt ∈ ["unconstrained", "lower_identity", "upper_identity", "identity", "circular"]) :
    ∃ o, FSpline.mk? sum cumsum len params rmin rmax opt mb ms = .ok o := by
  have e1 : ∀ w : ℕ → FX F, ∃ z, normalizeBinSizes sum ((len - 1) / 3) w (rmax - rmin) mb = .ok z := fun w => by
    unfold normalizeBinSizes; rw [if_neg (by linarith)]; exact ⟨_, rfl⟩
  have e2 : ∀ w : ℕ → FX F, ∃ z, normalizeKnotSlopes w ms = .ok z := fun w => by
    unfold normalizeKnotSlopes; rw [if_neg (by linarith)]; exact ⟨_, rfl⟩
  have e3 : ∀ (K : ℕ) (s : ℕ → FX F), ∃ z, boundary opt K s = .ok z := fun K s => by
    simp only [List.mem_cons, List.not_mem_nil, or_false] at ho
    rcases ho with rfl | rfl | rfl | rfl | rfl <;> exact ⟨_, rfl⟩
  unfold FSpline.mk?
  rw [if_neg (by omega), if_neg (by linarith), if_neg (by linarith), if_neg (by linarith)]
  obtain ⟨a, ha⟩ := e1 params
  obtain ⟨b, hb'⟩ := e1 (fun i => params ((len - 1) / 3 + i))
  obtain ⟨c, hc⟩ := e2 (fun i => params (2 * ((len - 1) / 3) + i))
  obtain ⟨d, hd⟩ := e3 ((len - 1) / 3) c
  simp only [ha, hb', hc, hd, bind, Except.bind]
  exact ⟨_, rfl⟩

/-- The two ends are the given range, rounded, for any parameters (even `nan`). -/
theorem C79_ends {len : ℕ} {params : ℕ → FX F} {rmin rmax mb ms : ℝ} {opt : String} {o : FSpline.Obj F}
    (h : FSpline.mk? sum cumsum len params rmin rmax opt mb ms = .ok o) :
    o.xp 0 = lit rmin ∧ o.yp 0 = lit rmin ∧ o.xp o.K = lit rmax ∧ o.yp o.K = lit rmax := by
  obtain ⟨h1, h2, -, -, -, ⟨_, -, ex⟩, ⟨_, -, ey⟩, -⟩ := FSpline.mk?_ok h
  have : o.K ≠ 0 := by omega
  rw [ex, ey]
  simp [positions, this]

variable (A : F.Acc u η)
include A

/-- **Constructed knots.** Finite parameters, a range within `±M`, and `min_bin_size` at least `128 * K` roundoffs of `M`: every knot is finite,
the knots increase strictly on both axes, and every bin keeps at least half of `min_bin_size`. -/
theorem C79_knots (hs : AddsUp sum) (hc : AddsUp cumsum) {len : ℕ} {params : ℕ → FX F} {rmin rmax mb ms M : ℝ} {opt : String} {o : FSpline.Obj F}
    (h : FSpline.mk? sum cumsum len params rmin rmax opt mb ms = .ok o) (hp : ∀ i < len, (params i).finite) (hM : 1 ≤ M) (h0 : |rmin| ≤ M)
    (h1 : |rmax| ≤ M) (hm : 128 * (o.K * u) * M ≤ mb) (htop : 16 * (o.K * M) ≤ F.top) :
    (∀ i ≤ o.K, (o.xp i).finite ∧ (o.yp i).finite ∧ |(o.xp i).val| ≤ 4 * M ∧ |(o.yp i).val| ≤ 4 * M) ∧
    ∀ i < o.K, mb / 2 ≤ (o.xp (i + 1)).val - (o.xp i).val ∧ mb / 2 ≤ (o.yp (i + 1)).val - (o.yp i).val := by
  obtain ⟨h4, hK, hr, hb, hsl, ⟨wd, hw, ex⟩, ⟨ht, hh, ey⟩, -⟩ := FSpline.mk?_ok h
  obtain ⟨x, x1, x2⟩ := positions_spec A hs hc (by omega) hM h0 h1 hr hm hb htop (fun i hi => hp i (by omega)) hw
  obtain ⟨y, y1, y2⟩ := positions_spec A hs hc (by omega) hM h0 h1 hr hm hb htop (fun i hi => hp (o.K + i) (by omega)) hh
  rw [ex, ey]
  refine ⟨fun i hi => ?_, fun i hi => ?_⟩
  · rw [val_of (x1 i hi).1, val_of (y1 i hi).1]
    exact ⟨⟨_, (x1 i hi).1⟩, ⟨_, (y1 i hi).1⟩, (x1 i hi).2, (y1 i hi).2⟩
  · rw [val_of (x1 (i + 1) hi).1, val_of (y1 (i + 1) hi).1, val_of (x1 i hi.le).1, val_of (y1 i hi.le).1]
    exact ⟨x2 i hi, y2 i hi⟩

/-- **Constructed slopes.** Every knot slope is exactly one (where the boundary option says so) or a finite number at least the rounded
`min_knot_slope`, at most `2 * V + 3` when the slope parameters are at most `V`. -/
theorem C79_slopes {len : ℕ} {params : ℕ → FX F} {rmin rmax mb ms V : ℝ} {opt : String} {o : FSpline.Obj F}
    (h : FSpline.mk? sum cumsum len params rmin rmax opt mb ms = .ok o) (hp : ∀ i ≤ o.K, ∃ v, (params (2 * o.K + i)).1 = fin v ∧ v ≤ V) (V0 : 0 ≤ V)
    (hV : 2 * V + 3 ≤ F.top) :
    (∀ i ≤ o.K, o.sl i = lit 1 ∨ (lit ms ≤ o.sl i ∧ (o.sl i).finite ∧ (o.sl i).val ≤ 2 * V + 3)) ∧
    (opt = "lower_identity" ∨ opt = "identity" → o.sl 0 = lit 1) ∧ (opt = "upper_identity" ∨ opt = "identity" → o.sl o.K = lit 1) ∧
    (opt = "circular" → o.sl o.K = o.sl 0) := by
  obtain ⟨h4, hK, hr, hb, hsl, -, -, s, es, eb⟩ := FSpline.mk?_ok h
  have key : ∀ i ≤ o.K, lit ms ≤ s i ∧ (s i).finite ∧ (s i).val ≤ 2 * V + 3 := fun i hi => by
    obtain ⟨v, hv, bv⟩ := hp i hi
    obtain ⟨l, z, hz, bz⟩ := slope_spec A hsl es hv bv V0 hV
    exact ⟨l, ⟨z, hz⟩, by rw [val_of hz]; exact bz⟩
  have K0 : o.K ≠ 0 := by omega
  unfold boundary at eb
  split_ifs at eb with e1 e2 e3 e4 e5
  all_goals injection eb with eb; rw [← eb]
  · subst e1; exact ⟨fun i hi => Or.inr (key i hi), by simp, by simp, by simp⟩
  · subst e2
    refine ⟨fun i hi => ?_, by simp, by simp, by simp⟩
    by_cases hi0 : i = 0
    · left; simp [hi0]
    · right; simp only [if_neg hi0]; exact key i hi
  · subst e3
    refine ⟨fun i hi => ?_, by simp, by simp, by simp⟩
    by_cases hi0 : i < o.K
    · right; simp only [if_pos hi0]; exact key i hi
    · left; simp [hi0]
  · subst e4
    refine ⟨fun i hi => ?_, by simp, by simp [K0], by simp⟩
    by_cases hi0 : i = 0
    · left; simp [hi0]
    by_cases hi1 : i < o.K
    · right; simp only [if_neg hi0, if_pos hi1]; exact key i hi
    · left; simp [hi0, hi1]
  · subst e5
    refine ⟨fun i hi => ?_, by simp, by simp, by simp⟩
    right
    by_cases hi1 : i < o.K
    · simp only [if_pos hi1]; exact key i hi
    · simp only [if_neg hi1]; exact key 0 (by omega)

/-- **The constructor keeps its promise in floating point.** Under explicit size conditions on the arguments, the constructed spline has good
knots; so the finiteness, knot, bin and tail theorems of C79 apply to it. -/
theorem C79_constructed (hs : AddsUp sum) (hc : AddsUp cumsum) {len : ℕ} {params : ℕ → FX F} {rmin rmax mb ms M V : ℝ} {opt : String} {o : FSpline.Obj F}
    (h : FSpline.mk? sum cumsum len params rmin rmax opt mb ms = .ok o) (hp : ∀ i < len, (params i).finite ∧ (params i).val ≤ V) (V0 : 0 ≤ V)
    (hM : 1 ≤ M) (h0 : |rmin| ≤ M) (h1 : |rmax| ≤ M) (hm : 128 * (o.K * u) * M ≤ mb)
    (R : Room F η B) (BM : 4 * M ≤ B) (Bm : 2 ≤ B * mb) (Bs : 2 ≤ B * ms) (BV : 2 * V + 3 ≤ B) : GoodKnots B o.K o.xp o.yp o.sl := by
  obtain ⟨h4, hK, hr, hb, hsl, ⟨wd, hw, -⟩, -⟩ := FSpline.mk?_ok h
  have B1 := R.one
  have B3 : B * B * B ≤ 4096 * B ^ 6 := by
    have : 1 ≤ B ^ 3 := one_le_pow₀ B1
    nlinarith [show B ^ 6 = B ^ 3 * B ^ 3 by ring, show B * B * B = B ^ 3 by ring]
  have BB : B ≤ B * B := by nlinarith
  have BBB : B * B ≤ B * B * B := by nlinarith
  have tp := R.top
  have hK1 : 1 ≤ o.K := by omega
  have hcK : o.K * mb ≤ 2 * M := by
    have a0 := abs_le.1 h0
    have a1 := abs_le.1 h1
    unfold normalizeBinSizes at hw
    split_ifs at hw with hc
    linarith [not_lt.1 hc]
  have KB : (o.K : ℝ) ≤ M * B := by
    have := mul_le_mul_of_nonneg_left Bm (show (0 : ℝ) ≤ o.K by positivity)
    have h2 := mul_le_mul_of_nonneg_right hcK (show 0 ≤ B by linarith)
    nlinarith
  have htop : 16 * (o.K * M) ≤ F.top := by
    have h2 := mul_le_mul_of_nonneg_right KB (show 0 ≤ 16 * M by linarith)
    have h3 : (4 * M) * (4 * M) ≤ B * B := mul_le_mul BM BM (by linarith) (by linarith)
    have h4 := mul_le_mul_of_nonneg_right h3 (show 0 ≤ B by linarith)
    nlinarith
  obtain ⟨k1, k2⟩ := C79_knots A hs hc h (fun i hi => (hp i hi).1) hM h0 h1 hm htop
  obtain ⟨s1, -⟩ := C79_slopes A h (V := V) (fun i hi => ⟨_, fin_val (hp (2 * o.K + i) (by omega)).1, (hp (2 * o.K + i) (by omega)).2⟩) V0 (by linarith)
  have Bi : 1 / B ≤ mb / 2 := by rw [div_le_div_iff₀ (by linarith) (by norm_num)]; linarith
  have low : 1 / B ≤ (lit ms : FX F).val ∧ (lit ms : FX F).finite ∨ ms ≥ 1 := by
    by_cases hms : ms ≥ 1
    · exact Or.inr hms
    left
    obtain ⟨x, hx⟩ := F.fits (x := ms) (by rw [abs_of_pos hsl]; have := F.top_ge; linarith)
    refine ⟨?_, ⟨x, hx⟩⟩
    rw [val_of (lit_val hx)]
    have e := A.err hx
    rw [abs_of_pos hsl] at e
    have := (abs_le.1 e).1
    have hη : η * (4 * B) ≤ 1 := by
      refine le_trans (mul_le_mul_of_nonneg_left ?_ A.η0) R.low
      have : B ≤ B ^ 8 := le_self_pow₀ B1 (by norm_num)
      linarith
    have um := mul_le_mul_of_nonneg_right A.u_le hsl.le
    rw [div_le_iff₀ (by linarith)]
    have hx1 : ms * (255 / 256) - η ≤ x := by linarith
    have := mul_le_mul_of_nonneg_right hx1 (show 0 ≤ B by linarith)
    nlinarith
  have s2 : ∀ i ≤ o.K, (o.sl i).finite ∧ 1 / B ≤ (o.sl i).val ∧ (o.sl i).val ≤ B := fun i hi => by
    rcases s1 i hi with e | ⟨l, f, b⟩
    · rw [e]
      refine ⟨⟨1, lit_one⟩, ?_, ?_⟩
      · rw [val_of lit_one, div_le_one (by linarith)]; exact B1
      · rw [val_of lit_one]; exact B1
    · refine ⟨f, ?_, by linarith⟩
      rcases low with ⟨lo, lf⟩ | lo
      · exact lo.trans ((le_iff_fin (fin_val lf) (fin_val f)).1 l)
      · have l1 : lit 1 ≤ o.sl i := (lit_le lo).tr l
        have := (le_iff_fin lit_one (fin_val f)).1 l1
        refine le_trans ?_ this
        rw [div_le_one (by linarith)]; exact B1
  exact ⟨hK1, fun i hi => ⟨(k1 i hi).1, (k1 i hi).2.2.1.trans BM⟩, fun i hi => ⟨(k1 i hi).2.1, (k1 i hi).2.2.2.trans BM⟩, s2,
    fun i hi => Bi.trans (k2 i hi).1, fun i hi => Bi.trans (k2 i hi).2⟩

end Distrax
