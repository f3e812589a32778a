import Verif.Lemmas.SplineGrad
import Verif.Props.Spline

/-!
# C70: gradients through the rational-quadratic spline
-/

namespace Distrax.Spline

open Filter Topology Finset

variable {K : ℕ} {xp yp sl : ℕ → ℝ → ℝ} {xp' yp' sl' : ℕ → ℝ} {t : ℝ}

/-! ### Values -/

theorem where_val {c : Prop} [Decidable c] (a b : Dual) : (Dual.where_ (decide c) a b).val = if c then a.val else b.val := by
  rw [where_cond]; split <;> rfl

theorem rootD_val (tie tiny : ℝ) (a b c : Dual) : (rootD tie tiny a b c).val = safeQuadraticRoot tiny a.val b.val c.val := by
  unfold rootD safeQuadraticRoot
  simp only [Dual.val_div]
  rw [where_val, where_val]
  simp only [Dual.val_sub, Dual.val_add, Dual.val_neg]
  rw [where_val]
  simp only [Dual.sqrt, Dual.clipLow, Dual.val_sub, Dual.val_mul, Dual.val_const, pow_two]
  congr!

/-- The values computed alongside the tangents are the spline's values. -/
theorem C70_values (tie tiny : ℝ) (K : ℕ) (xp yp sl : ℕ → Dual) (v : Dual) :
    ((fwdD tie K xp yp sl v).1.val, (fwdD tie K xp yp sl v).2.val) =
      fwd K (fun i => (xp i).val) (fun i => (yp i).val) (fun i => (sl i).val) v.val ∧
    ((invD tie tiny K xp yp sl v).1.val, (invD tie tiny K xp yp sl v).2.val) =
      inv tiny K (fun i => (xp i).val) (fun i => (yp i).val) (fun i => (sl i).val) v.val := by
  constructor
  · simp only [fwdD, where_val, Dual.val_add, Dual.val_sub, Dual.val_mul, Dual.val_div, Dual.val_const, Dual.val_log, fwd,
      pow_two, Dual.clip, pickLeftD, pickRightD, clip01]
  · simp only [invD, rootD_val, where_val, Dual.val_add, Dual.val_sub, Dual.val_mul, Dual.val_div, Dual.val_const, Dual.val_log,
      Dual.val_neg, Spline.inv, pow_two, Dual.clip, pickLeftD, pickRightD, clip01]

/-! ### Forward -/

/-- The tangents of both outputs strictly inside a bin. -/
theorem fwd_inside (tie : ℝ) (h : Valid K (snap xp t) (snap yp t) (snap sl t)) (m : Moving K xp yp sl xp' yp' sl' t)
    {x : ℝ → ℝ} {x' : ℝ} (hx : HasDerivAt x x' t) {i : ℕ} (hi : i < K) (h1 : xp i t < x t) (h2 : x t < xp (i + 1) t) :
    Tracks (fun s => (fwd K (snap xp s) (snap yp s) (snap sl s) (x s)).1)
      (fwdD tie K (seen xp xp' t) (seen yp yp' t) (seen sl sl' t) ⟨x t, x'⟩).1 t ∧
    Tracks (fun s => (fwd K (snap xp s) (snap yp s) (snap sl s) (x s)).2)
      (fwdD tie K (seen xp xp' t) (seen yp yp' t) (seen sl sl' t) ⟨x t, x'⟩).2 t := by
  have h0 : xp 0 t < x t := (mono_le h.x_lt (Nat.zero_le i) hi.le : xp 0 t ≤ xp i t).trans_lt h1
  have hK : x t < xp K t := h2.trans_le (mono_le h.x_lt (show i + 1 ≤ K from hi) le_rfl : xp (i + 1) t ≤ xp K t)
  rw [fwdD_binF (x := ⟨x t, x'⟩) (xp := seen xp xp' t) h0 hK]
  simp only [pickLeftD_eq (p := seen xp xp' t) (v := ⟨x t, x'⟩) h.x_lt hi h1.le h2,
    pickRightD_eq (p := seen xp xp' t) (v := ⟨x t, x'⟩) h.x_lt hi h1.le h2]
  have B := binF_tracks tie (seen_tracks (m.x i hi.le)) (seen_tracks (m.x (i + 1) hi)) (seen_tracks (m.y i hi.le))
    (seen_tracks (m.y (i + 1) hi)) (seen_tracks (m.s i hi.le)) (seen_tracks (m.s (i + 1) hi)) (⟨rfl, hx⟩ : Tracks x ⟨x t, x'⟩ t)
    h1 h2 (h.y_lt i hi) (h.slope i hi.le) (h.slope (i + 1) hi)
  have ev : ∀ᶠ s in 𝓝 t, fwd K (snap xp s) (snap yp s) (snap sl s) (x s) =
      binF (xp i s) (xp (i + 1) s) (yp i s) (yp (i + 1) s) (sl i s) (sl (i + 1) s) (x s) := by
    filter_upwards [valid_eventually h m, (m.x i hi.le).continuousAt.eventually_lt hx.continuousAt h1,
      hx.continuousAt.eventually_lt (m.x (i + 1) hi).continuousAt h2] with s hv e1 e2
    have e0 : snap xp s 0 < x s := (mono_le hv.x_lt (Nat.zero_le i) hi.le : xp 0 s ≤ xp i s).trans_lt e1
    have eK : x s < snap xp s K := e2.trans_le (mono_le hv.x_lt (show i + 1 ≤ K from hi) le_rfl : xp (i + 1) s ≤ xp K s)
    rw [fwd_binF e0 eK]
    simp only [pickLeft_eq hv.x_lt hi (show snap xp s i ≤ x s from e1.le) e2, pickRight_eq hv.x_lt hi (show snap xp s i ≤ x s from e1.le) e2]
    rfl
  exact ⟨B.1.eventually (by filter_upwards [ev] with s e; rw [e]), B.2.eventually (by filter_upwards [ev] with s e; rw [e])⟩

/-- The lower tail. -/
theorem fwdD_below (tie : ℝ) {xp yp sl : ℕ → Dual} {v : Dual} (h : v.val ≤ (xp 0).val) (hK : v.val < (xp K).val) :
    fwdD tie K xp yp sl v = ((v - xp 0) * sl 0 + yp 0, (sl 0).log) := by
  unfold fwdD
  simp only [decide_eq_true h, ge_iff_le, decide_eq_false (not_le.2 hK), Dual.where_, if_true, Bool.false_eq_true, if_false]

/-- The upper tail. -/
theorem fwdD_above (tie : ℝ) {xp yp sl : ℕ → Dual} {v : Dual} (hK : (xp K).val ≤ v.val) :
    fwdD tie K xp yp sl v = ((v - xp K) * sl K + yp K, (sl K).log) := by
  unfold fwdD
  simp only [ge_iff_le, decide_eq_true hK, Dual.where_, if_true]

/-- The true derivative of the output where the input meets knot `i`, when knots, slopes and input all move. -/
theorem C70_true_derivative_at_knot (h : Valid K (snap xp t) (snap yp t) (snap sl t)) (m : Moving K xp yp sl xp' yp' sl' t)
    {x : ℝ → ℝ} {x' : ℝ} (hx : HasDerivAt x x' t) {i : ℕ} (hi : i ≤ K) (hk : x t = xp i t) :
    HasDerivAt (fun s => (fwd K (snap xp s) (snap yp s) (snap sl s) (x s)).1) (yp' i + sl i t * (x' - xp' i)) t := by
  have X : Tracks x ⟨x t, x'⟩ t := ⟨rfl, hx⟩
  have tail : ∀ j, j = i → Tracks (fun s => (x s - xp j s) * sl j s + yp j s) ⟨yp i t, yp' i + sl i t * (x' - xp' i)⟩ t := by
    rintro j rfl
    have T := ((X.sub (seen_tracks (m.x j hi))).mul (seen_tracks (m.s j hi))).add (seen_tracks (m.y j hi))
    refine ⟨by simp [hk], T.deriv.congr_deriv ?_⟩
    simp only [Dual.tan_add, Dual.tan_mul, Dual.val_sub, Dual.tan_sub, seen, hk]
    ring
  -- what the spline does just right and just left of the knot
  have right : ∃ R : ℝ → ℝ, Tracks R ⟨yp i t, yp' i + sl i t * (x' - xp' i)⟩ t ∧
      ∀ᶠ s in 𝓝 t, xp i s ≤ x s → (fwd K (snap xp s) (snap yp s) (snap sl s) (x s)).1 = R s := by
    rcases hi.lt_or_eq with hlt | rfl
    · refine ⟨fun s => gbin (snap xp s) (snap yp s) (snap sl s) i (x s), ⟨?_, ?_⟩, ?_⟩
      · show _ = gbin (snap xp t) (snap yp t) (snap sl t) i (x t)
        rw [hk]; exact (gbin_left (xp := snap xp t) (yp := snap yp t) (sl := snap sl t) i).symm
      · have := (binG_tracks (seen_tracks (m.x i hi)) (seen_tracks (m.x (i + 1) hlt)) (seen_tracks (m.y i hi))
          (seen_tracks (m.y (i + 1) hlt)) (seen_tracks (m.s i hi)) (seen_tracks (m.s (i + 1) hlt)) X (h.x_lt i hlt) hk.ge
          (hk.trans_lt (h.x_lt i hlt)).le (h.y_lt i hlt) (h.slope i hi) (h.slope (i + 1) hlt)).1 hk
        exact this
      · filter_upwards [valid_eventually h m,
          hx.continuousAt.eventually_lt (m.x (i + 1) hlt).continuousAt (hk.trans_lt (h.x_lt i hlt))] with s hv e2 e1
        rw [fwd_closed hv hlt e1 (le_of_lt e2)]
    · refine ⟨_, tail i rfl, Eventually.of_forall fun s hs => ?_⟩
      exact congrArg Prod.fst (fwd_above (xp := snap xp s) (yp := snap yp s) (sl := snap sl s) hs)
  have left : ∃ L : ℝ → ℝ, Tracks L ⟨yp i t, yp' i + sl i t * (x' - xp' i)⟩ t ∧
      ∀ᶠ s in 𝓝 t, x s ≤ xp i s → (fwd K (snap xp s) (snap yp s) (snap sl s) (x s)).1 = L s := by
    rcases Nat.eq_zero_or_pos i with rfl | hp
    · refine ⟨_, tail 0 rfl, ?_⟩
      filter_upwards [valid_eventually h m] with s hv hs
      exact congrArg Prod.fst (fwd_below hv hs)
    · obtain ⟨j, rfl⟩ : ∃ j, i = j + 1 := ⟨i - 1, by omega⟩
      have hj : j < K := hi
      have hjx : xp j t < x t := by rw [hk]; exact h.x_lt j hj
      refine ⟨fun s => gbin (snap xp s) (snap yp s) (snap sl s) j (x s), ⟨?_, ?_⟩, ?_⟩
      · show _ = gbin (snap xp t) (snap yp t) (snap sl t) j (x t)
        rw [hk]; exact (gbin_right h hj).symm
      · have := (binG_tracks (seen_tracks (m.x j hj.le)) (seen_tracks (m.x (j + 1) hi)) (seen_tracks (m.y j hj.le))
          (seen_tracks (m.y (j + 1) hi)) (seen_tracks (m.s j hj.le)) (seen_tracks (m.s (j + 1) hi)) X (h.x_lt j hj) hjx.le
          hk.le (h.y_lt j hj) (h.slope j hj.le) (h.slope (j + 1) hi)).2 hk
        exact this
      · filter_upwards [valid_eventually h m, (m.x j hj.le).continuousAt.eventually_lt hx.continuousAt hjx] with s hv e2 e1
        rw [fwd_closed hv hj (le_of_lt e2) e1]
  obtain ⟨R, hR, eR⟩ := right
  obtain ⟨L, hL, eL⟩ := left
  refine (hR.select hL ?_).deriv
  filter_upwards [eR, eL] with s r l
  rcases le_total (xp i s) (x s) with q | q
  · exact .inl (r q)
  · exact .inr (l q)

/-- C70, forward.  For knots, slopes and input that depend in any differentiable way on a parameter, what `jax.jvp` returns
for the output is its derivative unless the input sits exactly on a knot strictly between the two ends of the range; and what
it returns for the log-determinant is its derivative unless the input sits exactly on a knot. -/
theorem C70_forward_partial (tie : ℝ) (h : Valid K (snap xp t) (snap yp t) (snap sl t)) (m : Moving K xp yp sl xp' yp' sl' t)
    {x : ℝ → ℝ} {x' : ℝ} (hx : HasDerivAt x x' t) :
    ((∀ i, 0 < i → i < K → x t ≠ xp i t) →
      HasDerivAt (fun s => (fwd K (snap xp s) (snap yp s) (snap sl s) (x s)).1)
        (fwdD tie K (seen xp xp' t) (seen yp yp' t) (seen sl sl' t) ⟨x t, x'⟩).1.tan t) ∧
    ((∀ i ≤ K, x t ≠ xp i t) →
      HasDerivAt (fun s => (fwd K (snap xp s) (snap yp s) (snap sl s) (x s)).2)
        (fwdD tie K (seen xp xp' t) (seen yp yp' t) (seen sl sl' t) ⟨x t, x'⟩).2.tan t) := by
  have X : Tracks x ⟨x t, x'⟩ t := ⟨rfl, hx⟩
  have h0K : xp 0 t < xp K t := mono_lt h.x_lt h.pos le_rfl
  rcases lt_trichotomy (x t) (xp 0 t) with hlt | he | hgt
  · have e : fwdD tie K (seen xp xp' t) (seen yp yp' t) (seen sl sl' t) ⟨x t, x'⟩ = _ :=
      fwdD_below tie (v := ⟨x t, x'⟩) (xp := seen xp xp' t) hlt.le (hlt.trans h0K)
    have ev : ∀ᶠ s in 𝓝 t, fwd K (snap xp s) (snap yp s) (snap sl s) (x s) =
        ((x s - xp 0 s) * sl 0 s + yp 0 s, Real.log (sl 0 s)) := by
      filter_upwards [valid_eventually h m, hx.continuousAt.eventually_lt (m.x 0 (Nat.zero_le K)).continuousAt hlt] with s hv hs
      exact fwd_below hv (le_of_lt hs)
    rw [e]
    have z := Nat.zero_le K
    exact ⟨fun _ => ((((X.sub (seen_tracks (m.x 0 z))).mul (seen_tracks (m.s 0 z))).add (seen_tracks (m.y 0 z))).eventually
        (by filter_upwards [ev] with s q; rw [q])).deriv,
      fun _ => (((seen_tracks (m.s 0 z)).log (h.slope 0 z).ne').eventually (by filter_upwards [ev] with s q; rw [q])).deriv⟩
  · refine ⟨fun _ => ?_, fun hne => absurd he (hne 0 (Nat.zero_le K))⟩
    have e : fwdD tie K (seen xp xp' t) (seen yp yp' t) (seen sl sl' t) ⟨x t, x'⟩ = _ :=
      fwdD_below tie (v := ⟨x t, x'⟩) (xp := seen xp xp' t) he.le (he.trans_lt h0K)
    refine (C70_true_derivative_at_knot h m hx (Nat.zero_le K) he).congr_deriv ?_
    rw [e]
    simp only [Dual.tan_add, Dual.tan_mul, Dual.val_sub, Dual.tan_sub, seen, he]
    ring
  · rcases lt_trichotomy (x t) (xp K t) with klt | ke | kgt
    · obtain ⟨i, hi, h1, h2⟩ := exists_bin (p := snap xp t) hgt.le klt
      rcases (h1 : xp i t ≤ x t).eq_or_lt with heq | hlt
      · have hi0 : 0 < i := Nat.pos_of_ne_zero fun h0 => by subst h0; exact hgt.ne heq
        exact ⟨fun hne => absurd heq.symm (hne i hi0 hi), fun hne => absurd heq.symm (hne i hi.le)⟩
      · have := fwd_inside tie h m hx hi hlt h2
        exact ⟨fun _ => this.1.deriv, fun _ => this.2.deriv⟩
    · refine ⟨fun _ => ?_, fun hne => absurd ke (hne K le_rfl)⟩
      have e : fwdD tie K (seen xp xp' t) (seen yp yp' t) (seen sl sl' t) ⟨x t, x'⟩ = _ :=
        fwdD_above tie (v := ⟨x t, x'⟩) (xp := seen xp xp' t) ke.ge
      refine (C70_true_derivative_at_knot h m hx le_rfl ke).congr_deriv ?_
      rw [e]
      simp only [Dual.tan_add, Dual.tan_mul, Dual.val_sub, Dual.tan_sub, seen, ke]
      ring
    · have e : fwdD tie K (seen xp xp' t) (seen yp yp' t) (seen sl sl' t) ⟨x t, x'⟩ = _ :=
        fwdD_above tie (v := ⟨x t, x'⟩) (xp := seen xp xp' t) kgt.le
      have ev : ∀ᶠ s in 𝓝 t, fwd K (snap xp s) (snap yp s) (snap sl s) (x s) =
          ((x s - xp K s) * sl K s + yp K s, Real.log (sl K s)) := by
        filter_upwards [(m.x K le_rfl).continuousAt.eventually_lt hx.continuousAt kgt] with s hs
        exact fwd_above (xp := snap xp s) (yp := snap yp s) (sl := snap sl s) (le_of_lt hs)
      rw [e]
      exact ⟨fun _ => ((((X.sub (seen_tracks (m.x K le_rfl))).mul (seen_tracks (m.s K le_rfl))).add
          (seen_tracks (m.y K le_rfl))).eventually (by filter_upwards [ev] with s q; rw [q])).deriv,
        fun _ => (((seen_tracks (m.s K le_rfl)).log (h.slope K le_rfl).ne').eventually
          (by filter_upwards [ev] with s q; rw [q])).deriv⟩

/-- On a knot strictly between the ends, the part of the output's derivative that comes from the relative position in the bin
is multiplied by the share `tie` that `jnp.clip` passes at its bound. -/
theorem C70_forward_knot (tie : ℝ) (h : Valid K (snap xp t) (snap yp t) (snap sl t)) {x x' : ℝ} {i : ℕ} (h0 : 0 < i)
    (hi : i < K) (hk : x = xp i t) :
    (fwdD tie K (seen xp xp' t) (seen yp yp' t) (seen sl sl' t) ⟨x, x'⟩).1.tan = yp' i + tie * (sl i t * (x' - xp' i)) := by
  have e0 : xp 0 t < x := by rw [hk]; exact mono_lt h.x_lt h0 hi.le
  have eK : x < xp K t := by rw [hk]; exact mono_lt h.x_lt hi le_rfl
  have h1 : xp i t ≤ x := hk.ge
  have h2 : x < xp (i + 1) t := hk.trans_lt (h.x_lt i hi)
  rw [fwdD_binF (x := ⟨x, x'⟩) (xp := seen xp xp' t) e0 eK]
  simp only [pickLeftD_eq (p := seen xp xp' t) (v := ⟨x, x'⟩) h.x_lt hi h1 h2,
    pickRightD_eq (p := seen xp xp' t) (v := ⟨x, x'⟩) h.x_lt hi h1 h2]
  exact binF_knot tie (x0 := seen xp xp' t i) (x := ⟨x, x'⟩) hk (h.x_lt i hi) (h.y_lt i hi)

/-- The full claim is false: on every knot strictly between the ends, `jax.grad` of the output in the input is `tie` times the
derivative (half of it), for every valid spline; so it disagrees with `exp` of the reported log-determinant. -/
theorem C70_forward_knot_wrong (tie : ℝ) {xp yp sl : ℕ → ℝ} (h : Valid K xp yp sl) {i : ℕ} (h0 : 0 < i) (hi : i < K) :
    let g := (fwdD tie K (fun j => .const (xp j)) (fun j => .const (yp j)) (fun j => .const (sl j)) ⟨xp i, 1⟩).1.tan
    g = tie * sl i ∧ HasDerivAt (fun v => (fwd K xp yp sl v).1) (sl i) (xp i) ∧
      Real.exp (fwd K xp yp sl (xp i)).2 = sl i ∧
      (tie ≠ 1 → ¬ HasDerivAt (fun v => (fwd K xp yp sl v).1) g (xp i)) := by
  intro g
  have hg : g = tie * sl i := by
    have := C70_forward_knot (xp := fun j _ => xp j) (yp := fun j _ => yp j) (sl := fun j _ => sl j) (xp' := fun _ => 0)
      (yp' := fun _ => 0) (sl' := fun _ => 0) (t := 0) tie h (x' := 1) h0 hi rfl
    exact this.trans (by ring)
  have hd := (C12_knots h i hi.le).2
  refine ⟨hg, hd, by rw [fwd_knot h hi.le]; exact Real.exp_log (h.slope i hi.le), fun ht hbad => ht ?_⟩
  have := hd.unique hbad
  rw [hg] at this
  have hp := (h.slope i hi.le).ne'
  exact mul_right_cancel₀ hp (by rw [one_mul]; exact this.symm)

/-! ### Inverse -/

/-- A resolved spline resolves every bin's discriminant. -/
theorem resolved_bin {tiny tiny' : ℝ} {xp yp sl : ℕ → ℝ} (h : Valid K xp yp sl) (hr : Resolved tiny' K xp yp sl)
    (ht : tiny < tiny') {i : ℕ} (hi : i < K) {z : ℝ} (hz0 : 0 ≤ z) (hz1 : z ≤ 1) :
    tiny < (slp xp yp i * nrm (slp xp yp i) (sl i) (sl (i + 1)) z / den (slp xp yp i) (sl i) (sl (i + 1)) z) ^ 2 := by
  obtain ⟨mm, M, hm, hle, hsl, hbin⟩ := hr.ex
  have b := hbin i hi
  have a0 := hsl i hi.le
  have a1 := hsl (i + 1) hi
  have hs : 0 < slp xp yp i := slp_pos h hi
  have hd := den_pos hs (h.slope i hi.le) (h.slope (i + 1) hi) hz0 hz1
  have hn := nrm_ge (show mm ≤ slp xp yp i from b.1) a0.1 a1.1 hz0 hz1
  have hdM := den_le (show slp xp yp i ≤ M from b.2) a0.2 a1.2 hz0 hz1
  refine ht.trans_le (hle.trans (pow_le_pow_left₀ ?_ ?_ 2))
  · exact div_nonneg (mul_nonneg hm.le hm.le) (hm.le.trans (a0.1.trans a0.2))
  · exact div_le_div₀ (mul_nonneg hs.le (hm.le.trans hn)) (mul_le_mul b.1 hn hm.le hs.le) hd hdM

/-- C70, inverse.  When no discriminant falls near the smallest float, what `jax.jvp` returns for the inverse and for its
log-determinant are their derivatives, for knots, slopes and input that move in any differentiable way, unless the input sits
exactly on a knot. -/
theorem C70_inverse_partial (tie : ℝ) {tiny tiny' : ℝ} (ht0 : 0 < tiny) (ht : tiny < tiny')
    (h : Valid K (snap xp t) (snap yp t) (snap sl t)) (hr : Resolved tiny' K (snap xp t) (snap yp t) (snap sl t))
    (m : Moving K xp yp sl xp' yp' sl' t) {y : ℝ → ℝ} {y' : ℝ} (hy : HasDerivAt y y' t) (hne : ∀ i ≤ K, y t ≠ yp i t) :
    HasDerivAt (fun s => (inv tiny K (snap xp s) (snap yp s) (snap sl s) (y s)).1)
      (invD tie tiny K (seen xp xp' t) (seen yp yp' t) (seen sl sl' t) ⟨y t, y'⟩).1.tan t ∧
    HasDerivAt (fun s => (inv tiny K (snap xp s) (snap yp s) (snap sl s) (y s)).2)
      (invD tie tiny K (seen xp xp' t) (seen yp yp' t) (seen sl sl' t) ⟨y t, y'⟩).2.tan t := by
  have Y : Tracks y ⟨y t, y'⟩ t := ⟨rfl, hy⟩
  have h0K : yp 0 t < yp K t := mono_lt h.y_lt h.pos le_rfl
  rcases lt_or_gt_of_ne (hne 0 (Nat.zero_le K)) with hlt | hgt
  · have z := Nat.zero_le K
    have e : invD tie tiny K (seen xp xp' t) (seen yp yp' t) (seen sl sl' t) ⟨y t, y'⟩ =
        (((⟨y t, y'⟩ : Dual) - seen yp yp' t 0) / seen sl sl' t 0 + seen xp xp' t 0, -(seen sl sl' t 0).log) := by
      have a1 : y t ≤ (seen yp yp' t 0).val := hlt.le
      have a2 : ¬ y t ≥ (seen yp yp' t K).val := not_le.2 (hlt.trans h0K)
      unfold invD
      simp only [decide_eq_true a1, decide_eq_false a2, Dual.where_, if_true, Bool.false_eq_true, if_false]
    have ev : ∀ᶠ s in 𝓝 t, inv tiny K (snap xp s) (snap yp s) (snap sl s) (y s) =
        ((y s - yp 0 s) / sl 0 s + xp 0 s, -Real.log (sl 0 s)) := by
      filter_upwards [valid_eventually h m, hy.continuousAt.eventually_lt (m.y 0 z).continuousAt hlt] with s hv hs
      have a1 : y s ≤ snap yp s 0 := le_of_lt hs
      have a2 : ¬ snap yp s K ≤ y s := not_le.2 (a1.trans_lt (mono_lt hv.y_lt h.pos le_rfl))
      unfold inv
      simp only [if_pos a1, ge_iff_le, if_neg a2]
      rfl
    rw [e]
    exact ⟨((((Y.sub (seen_tracks (m.y 0 z))).div (seen_tracks (m.s 0 z)) (h.slope 0 z).ne').add
        (seen_tracks (m.x 0 z))).eventually (by filter_upwards [ev] with s q; rw [q])).deriv,
      (((seen_tracks (m.s 0 z)).log (h.slope 0 z).ne').neg.eventually (by filter_upwards [ev] with s q; rw [q])).deriv⟩
  rcases lt_or_gt_of_ne (hne K le_rfl) with klt | kgt
  · obtain ⟨i, hi, h1, h2⟩ := exists_bin (p := snap yp t) hgt.le klt
    have h1 : yp i t < y t := lt_of_le_of_ne h1 (hne i hi.le).symm
    rw [invD_binI (y := ⟨y t, y'⟩) (yp := seen yp yp' t) hgt klt]
    simp only [pickLeftD_eq (p := seen yp yp' t) (v := ⟨y t, y'⟩) h.y_lt hi h1.le h2,
      pickRightD_eq (p := seen yp yp' t) (v := ⟨y t, y'⟩) h.y_lt hi h1.le h2]
    have B := binI_tracks tie ht0 (seen_tracks (m.x i hi.le)) (seen_tracks (m.x (i + 1) hi)) (seen_tracks (m.y i hi.le))
      (seen_tracks (m.y (i + 1) hi)) (seen_tracks (m.s i hi.le)) (seen_tracks (m.s (i + 1) hi)) Y
      h1 h2 (h.x_lt i hi) (h.slope i hi.le) (h.slope (i + 1) hi) (fun z a b => resolved_bin h hr ht hi a b)
    have ev : ∀ᶠ s in 𝓝 t, inv tiny K (snap xp s) (snap yp s) (snap sl s) (y s) =
        binI tiny (xp i s) (xp (i + 1) s) (yp i s) (yp (i + 1) s) (sl i s) (sl (i + 1) s) (y s) := by
      filter_upwards [valid_eventually h m, (m.y i hi.le).continuousAt.eventually_lt hy.continuousAt h1,
        hy.continuousAt.eventually_lt (m.y (i + 1) hi).continuousAt h2] with s hv e1 e2
      have e0 : snap yp s 0 < y s := (mono_le hv.y_lt (Nat.zero_le i) hi.le : yp 0 s ≤ yp i s).trans_lt e1
      have eK : y s < snap yp s K := e2.trans_le (mono_le hv.y_lt (show i + 1 ≤ K from hi) le_rfl : yp (i + 1) s ≤ yp K s)
      rw [inv_binI e0 eK]
      simp only [pickLeft_eq hv.y_lt hi (show snap yp s i ≤ y s from e1.le) e2, pickRight_eq hv.y_lt hi (show snap yp s i ≤ y s from e1.le) e2]
      rfl
    exact ⟨(B.1.eventually (by filter_upwards [ev] with s e; rw [e])).deriv, (B.2.eventually (by filter_upwards [ev] with s e; rw [e])).deriv⟩
  · have e : invD tie tiny K (seen xp xp' t) (seen yp yp' t) (seen sl sl' t) ⟨y t, y'⟩ =
        (((⟨y t, y'⟩ : Dual) - seen yp yp' t K) / seen sl sl' t K + seen xp xp' t K, -(seen sl sl' t K).log) := by
      have a2 : y t ≥ (seen yp yp' t K).val := kgt.le
      unfold invD
      simp only [decide_eq_true a2, Dual.where_, if_true]
    have ev : ∀ᶠ s in 𝓝 t, inv tiny K (snap xp s) (snap yp s) (snap sl s) (y s) =
        ((y s - yp K s) / sl K s + xp K s, -Real.log (sl K s)) := by
      filter_upwards [(m.y K le_rfl).continuousAt.eventually_lt hy.continuousAt kgt] with s hs
      have a1 : snap yp s K ≤ y s := le_of_lt hs
      unfold inv
      simp only [ge_iff_le, if_pos a1]
      rfl
    rw [e]
    exact ⟨((((Y.sub (seen_tracks (m.y K le_rfl))).div (seen_tracks (m.s K le_rfl)) (h.slope K le_rfl).ne').add
        (seen_tracks (m.x K le_rfl))).eventually (by filter_upwards [ev] with s q; rw [q])).deriv,
      (((seen_tracks (m.s K le_rfl)).log (h.slope K le_rfl).ne').neg.eventually (by filter_upwards [ev] with s q; rw [q])).deriv⟩

/-- On an interior knot of the `y` axis two clips are in a tie, and the share that is passed is `tie * tie`: with jax's one
half, `jax.grad` of the inverse is a quarter of the derivative. -/
theorem C70_inverse_knot (tie : ℝ) {tiny tiny' : ℝ} (ht : tiny < tiny') (h : Valid K (snap xp t) (snap yp t) (snap sl t))
    (hr : Resolved tiny' K (snap xp t) (snap yp t) (snap sl t)) {y y' : ℝ} {i : ℕ} (h0 : 0 < i) (hi : i < K) (hk : y = yp i t) :
    (invD tie tiny K (seen xp xp' t) (seen yp yp' t) (seen sl sl' t) ⟨y, y'⟩).1.tan =
      xp' i + tie ^ 2 * ((y' - yp' i) / sl i t) := by
  have e0 : yp 0 t < y := by rw [hk]; exact mono_lt h.y_lt h0 hi.le
  have eK : y < yp K t := by rw [hk]; exact mono_lt h.y_lt hi le_rfl
  have h1 : yp i t ≤ y := hk.ge
  have h2 : y < yp (i + 1) t := hk.trans_lt (h.y_lt i hi)
  rw [invD_binI (y := ⟨y, y'⟩) (yp := seen yp yp' t) e0 eK]
  simp only [pickLeftD_eq (p := seen yp yp' t) (v := ⟨y, y'⟩) h.y_lt hi h1 h2,
    pickRightD_eq (p := seen yp yp' t) (v := ⟨y, y'⟩) h.y_lt hi h1 h2]
  have hres := resolved_bin h hr ht hi le_rfl zero_le_one
  have hs : slp (snap xp t) (snap yp t) i ≠ 0 := (slp_pos h hi).ne'
  have : slp (snap xp t) (snap yp t) i * nrm (slp (snap xp t) (snap yp t) i) (snap sl t i) (snap sl t (i + 1)) 0 /
      den (slp (snap xp t) (snap yp t) i) (snap sl t i) (snap sl t (i + 1)) 0 = sl i t := by
    simp [nrm, den, snap]
    field_simp [hs]
  rw [this] at hres
  exact binI_knot tie (y0 := seen yp yp' t i) (y := ⟨y, y'⟩) (d0 := seen sl sl' t i) hk (h.x_lt i hi) (h.y_lt i hi)
    (h.slope i hi.le) hres

/-- The true derivative of the inverse in its input at a knot is one over the knot's slope; `jax.grad` returns `tie ^ 2` of it at
every knot strictly between the ends. -/
theorem C70_inverse_knot_wrong (tie : ℝ) {tiny tiny' : ℝ} (ht : tiny < tiny') {xp yp sl : ℕ → ℝ} (h : Valid K xp yp sl)
    (hr : Resolved tiny' K xp yp sl) {i : ℕ} (h0 : 0 < i) (hi : i < K) :
    let g := (invD tie tiny K (fun j => .const (xp j)) (fun j => .const (yp j)) (fun j => .const (sl j)) ⟨yp i, 1⟩).1.tan
    g = tie ^ 2 / sl i ∧ HasDerivAt (fun v => (inv tiny K xp yp sl v).1) (1 / sl i) (yp i) ∧
      (tie ^ 2 ≠ 1 → ¬ HasDerivAt (fun v => (inv tiny K xp yp sl v).1) g (yp i)) := by
  intro g
  have hr' : Resolved tiny K xp yp sl := by
    obtain ⟨m, M, h1, h2, h3⟩ := hr.ex
    exact ⟨m, M, h1, ht.le.trans h2, h3⟩
  have hg : g = tie ^ 2 / sl i := by
    have := C70_inverse_knot (xp := fun j _ => xp j) (yp := fun j _ => yp j) (sl := fun j _ => sl j) (xp' := fun _ => 0)
      (yp' := fun _ => 0) (sl' := fun _ => 0) (t := 0) tie ht h hr (y' := 1) h0 hi rfl
    exact this.trans (by ring)
  have li : ∀ v, (inv tiny K xp yp sl (fwd K xp yp sl v).1).1 = v := fun v => by rw [inv_fwd h hr']
  have ri : ∀ v, (fwd K xp yp sl (inv tiny K xp yp sl v).1).1 = v := fun v => by rw [(C12_inverse h hr').2 v]
  have hmono : Monotone (fun v => (inv tiny K xp yp sl v).1) := fun a b hab => by
    by_contra hlt
    push Not at hlt
    have := fwd_strictMono h hlt
    simp only [ri] at this
    linarith
  have hcont : Continuous (fun v => (inv tiny K xp yp sl v).1) := hmono.continuous_of_surjective fun v => ⟨_, li v⟩
  have hk : (inv tiny K xp yp sl (yp i)).1 = xp i := by
    have := li (xp i)
    rwa [fwd_knot h hi.le] at this
  have hd : HasDerivAt (fun v => (inv tiny K xp yp sl v).1) (1 / sl i) (yp i) := by
    rw [one_div]
    refine HasDerivAt.of_local_left_inverse (f := fun v => (fwd K xp yp sl v).1) hcont.continuousAt ?_ (h.slope i hi.le).ne'
      (Eventually.of_forall ri)
    simp only [hk]
    exact (C12_knots h i hi.le).2
  refine ⟨hg, hd, fun hne hbad => hne ?_⟩
  have := hd.unique hbad
  rw [hg, div_eq_div_iff (h.slope i hi.le).ne' (h.slope i hi.le).ne'] at this
  have hp := (h.slope i hi.le).ne'
  exact mul_right_cancel₀ hp this.symm

/-! ### Through the constructor -/

theorem softmax_tracks {p : ℕ → ℝ → ℝ} {p' : ℕ → Dual} {K : ℕ} (hK : 0 < K) (hp : ∀ i, Tracks (p i) (p' i) t) (i : ℕ) :
    Tracks (fun s => softmax K (snap p s) i) (softmaxD K p' i) t := by
  have hv : ∀ i, (p' i).val = p i t := fun i => (hp i).val
  have hS : (∑ k ∈ range K, Real.exp (p k t)) ≠ 0 :=
    (Finset.sum_pos (fun k _ => Real.exp_pos _) (Finset.nonempty_range_iff.2 hK.ne')).ne'
  refine ⟨by simp only [softmaxD, hv]; rfl, ?_⟩
  refine (((hp i).deriv.exp).div (HasDerivAt.fun_sum fun k _ => (hp k).deriv.exp) hS).congr_deriv ?_
  simp only [softmaxD, hv, softmax]
  have e : ∑ j ∈ range K, Real.exp (p j t) / (∑ k ∈ range K, Real.exp (p k t)) * (p' j).tan =
      (∑ j ∈ range K, Real.exp (p j t) * (p' j).tan) / ∑ k ∈ range K, Real.exp (p k t) := by
    rw [Finset.sum_div]; exact Finset.sum_congr rfl fun j _ => by ring
  rw [e]
  generalize ∑ j ∈ range K, Real.exp (p j t) * (p' j).tan = A at *
  generalize ∑ k ∈ range K, Real.exp (p k t) = S at *
  field_simp

theorem positions_tracks {z : ℕ → ℝ → ℝ} {z' : ℕ → Dual} (hz : ∀ i, Tracks (z i) (z' i) t) (K : ℕ) (rmin rmax : ℝ) (i : ℕ) :
    Tracks (fun s => positions K (snap z s) rmin rmax i) (positionsD K z' rmin rmax i) t := by
  unfold positions positionsD
  split
  · exact .const _ _
  split
  · refine (Tracks.const rmin t).add (⟨?_, ?_⟩ : Tracks (fun s => ∑ j ∈ range i, snap z s j) _ t)
    · show ∑ j ∈ range i, (z' j).val = _; exact Finset.sum_congr rfl fun j _ => (hz j).val
    · exact HasDerivAt.fun_sum fun j _ => (hz j).deriv
  · exact .const _ _

theorem softplus_tracks {u : ℝ → ℝ} {u' : Dual} (hu : Tracks u u' t) : Tracks (fun s => softplus (u s)) u'.softplus t := by
  refine ⟨by simp only [Dual.softplus, hu.val]; rfl, ?_⟩
  have h1 : (1 + Real.exp (u t)) ≠ 0 := by positivity
  refine ((hu.deriv.exp.const_add 1).log h1).congr_deriv ?_
  simp only [Dual.softplus, hu.val, Real.exp_neg]
  have := Real.exp_pos (u t)
  field_simp
  ring

/-- The constructor's knots and slopes, as functions of the parameters, move with the tangents jax computes. -/
theorem mk_tracks {len : ℕ} {p : ℕ → ℝ → ℝ} {p' : ℕ → ℝ} (hp : ∀ i, HasDerivAt (p i) (p' i) t) {rmin rmax : ℝ} {opt : String}
    {mb ms : ℝ} {o : ℝ → Obj} (ho : ∀ s, mk? len (snap p s) rmin rmax opt mb ms = .ok (o s)) :
    let D := mkD len (seen p p' t) rmin rmax opt mb ms
    (∀ s, (o s).K = D.K) ∧ (∀ i, Tracks (fun s => (o s).xp i) (D.xp i) t) ∧ (∀ i, Tracks (fun s => (o s).yp i) (D.yp i) t) ∧
      ∀ i, Tracks (fun s => (o s).sl i) (D.sl i) t := by
  intro D
  have P : ∀ i, Tracks (p i) (seen p p' t i) t := fun i => seen_tracks (hp i)
  have hK : ∀ s, (o s).K = D.K := fun s => by
    obtain ⟨h1, -⟩ := mk_inv (ho s)
    show (o s).K = (len - 1) / 3
    omega
  have hKpos : 0 < D.K := by rw [← hK t]; exact (mk_inv (ho t)).2.1
  have sizes : ∀ q : ℕ → ℝ → ℝ, ∀ q' : ℕ → Dual, (∀ i, Tracks (q i) (q' i) t) → ∀ i,
      Tracks (fun s => softmax D.K (snap q s) i * (rmax - rmin - D.K * mb) + mb) (normalizeBinSizesD D.K q' (rmax - rmin) mb i) t :=
    fun q q' hq i => ((softmax_tracks hKpos hq i).mul (.const _ _)).add (.const _ _)
  have nb : ∀ {u : ℕ → ℝ} {w : ℕ → ℝ}, normalizeBinSizes D.K u (rmax - rmin) mb = .ok w →
      w = fun i => softmax D.K u i * (rmax - rmin - D.K * mb) + mb := by
    intro u w h
    unfold normalizeBinSizes at h
    split at h
    · cases h
    · exact (Except.ok.inj h).symm
  refine ⟨hK, fun i => ?_, fun i => ?_, fun i => ?_⟩
  · refine (positions_tracks (sizes p _ P) D.K rmin rmax i).congr fun s => ?_
    obtain ⟨-, -, -, -, -, -, -, w, hgt, sl, e1, -, -, -, e5, -⟩ := mk_inv (ho s)
    rw [hK s] at e1 e5
    rw [e5, nb e1]
    rfl
  · refine (positions_tracks (sizes (fun i => p (D.K + i)) _ (fun i => P (D.K + i))) D.K rmin rmax i).congr fun s => ?_
    obtain ⟨-, -, -, -, -, -, -, w, hgt, sl, -, e2, -, -, -, e6⟩ := mk_inv (ho s)
    rw [hK s] at e2 e6
    rw [e6, nb e2]
    rfl
  · have S : ∀ i, Tracks (fun s => softplus (p (2 * D.K + i) s + Real.log (Real.exp (1 - ms) - 1)) + ms)
        (normalizeKnotSlopesD (fun i => seen p p' t (2 * D.K + i)) ms i) t := fun i =>
      (softplus_tracks ((P (2 * D.K + i)).add (.const _ _))).add (.const _ _)
    have hsl : ∀ s, boundary opt D.K (fun i => softplus (p (2 * D.K + i) s + Real.log (Real.exp (1 - ms) - 1)) + ms) =
        .ok (o s).sl := fun s => by
      obtain ⟨-, -, -, -, -, -, -, w, hgt, sl, -, -, e3, e4, -, -⟩ := mk_inv (ho s)
      rw [hK s] at e3 e4
      unfold normalizeKnotSlopes at e3
      split at e3
      · cases e3
      · rw [← Except.ok.inj e3] at e4; exact e4
    have hD : D.sl = boundaryD opt D.K (normalizeKnotSlopesD (fun i => seen p p' t (2 * D.K + i)) ms) := rfl
    rw [hD]
    unfold boundary at hsl
    unfold boundaryD
    by_cases c1 : opt = "unconstrained"
    · simp only [if_pos c1] at hsl ⊢
      exact (S i).congr fun s => congrFun (Except.ok.inj (hsl s)) i
    simp only [if_neg c1] at hsl ⊢
    by_cases c2 : opt = "lower_identity"
    · simp only [if_pos c2] at hsl ⊢
      by_cases hi : i = 0
      · rw [if_pos hi]
        exact (Tracks.const 1 t).congr fun s => (if_pos hi).symm.trans (congrFun (Except.ok.inj (hsl s)) i)
      · rw [if_neg hi]
        exact (S i).congr fun s => (if_neg hi).symm.trans (congrFun (Except.ok.inj (hsl s)) i)
    simp only [if_neg c2] at hsl ⊢
    by_cases c3 : opt = "upper_identity"
    · simp only [if_pos c3] at hsl ⊢
      by_cases hi : i < D.K
      · rw [if_pos hi]
        exact (S i).congr fun s => (if_pos hi).symm.trans (congrFun (Except.ok.inj (hsl s)) i)
      · rw [if_neg hi]
        exact (Tracks.const 1 t).congr fun s => (if_neg hi).symm.trans (congrFun (Except.ok.inj (hsl s)) i)
    simp only [if_neg c3] at hsl ⊢
    by_cases c4 : opt = "identity"
    · simp only [if_pos c4] at hsl ⊢
      by_cases hi : i = 0
      · rw [if_pos hi]
        exact (Tracks.const 1 t).congr fun s => (if_pos hi).symm.trans (congrFun (Except.ok.inj (hsl s)) i)
      rw [if_neg hi]
      by_cases hi2 : i < D.K
      · rw [if_pos hi2]
        exact (S i).congr fun s => ((if_neg hi).trans (if_pos hi2)).symm.trans (congrFun (Except.ok.inj (hsl s)) i)
      · rw [if_neg hi2]
        exact (Tracks.const 1 t).congr fun s => ((if_neg hi).trans (if_neg hi2)).symm.trans (congrFun (Except.ok.inj (hsl s)) i)
    simp only [if_neg c4] at hsl ⊢
    by_cases c5 : opt = "circular"
    · simp only [if_pos c5] at hsl
      by_cases hi : i < D.K
      · rw [if_pos hi]
        exact (S i).congr fun s => (if_pos hi).symm.trans (congrFun (Except.ok.inj (hsl s)) i)
      · rw [if_neg hi]
        exact (S 0).congr fun s => (if_neg hi).symm.trans (congrFun (Except.ok.inj (hsl s)) i)
    · have := hsl t
      rw [if_neg c5] at this
      cases this

/-- C70, from the parameters of the constructor to the outputs: for parameters and an input that depend in any differentiable
way on a common variable, `jax.jvp` of "build the spline, apply it" returns the derivatives, off the interior knots for the
output and off all knots for the log-determinant. -/
theorem C70_spline_forward_partial (tie : ℝ) {len : ℕ} {p : ℕ → ℝ → ℝ} {p' : ℕ → ℝ} (hp : ∀ i, HasDerivAt (p i) (p' i) t)
    {rmin rmax : ℝ} {opt : String} {mb ms : ℝ} {o : ℝ → Obj} (ho : ∀ s, mk? len (snap p s) rmin rmax opt mb ms = .ok (o s))
    {x : ℝ → ℝ} {x' : ℝ} (hx : HasDerivAt x x' t) :
    let D := mkD len (seen p p' t) rmin rmax opt mb ms
    ((∀ i, 0 < i → i < (o t).K → x t ≠ (o t).xp i) →
      HasDerivAt (fun s => ((o s).forward (x s)).1) (fwdD tie D.K D.xp D.yp D.sl ⟨x t, x'⟩).1.tan t) ∧
    ((∀ i ≤ (o t).K, x t ≠ (o t).xp i) →
      HasDerivAt (fun s => ((o s).forward (x s)).2) (fwdD tie D.K D.xp D.yp D.sl ⟨x t, x'⟩).2.tan t) := by
  intro D
  obtain ⟨hK, hX, hY, hS⟩ := mk_tracks hp ho
  obtain ⟨-, -, -, -, -, -, -, hv⟩ := C11_knots (ho t)
  have eX : D.xp = seen (fun i s => (o s).xp i) (fun i => (D.xp i).tan) t := funext fun i => Dual.ext (hX i).val rfl
  have eY : D.yp = seen (fun i s => (o s).yp i) (fun i => (D.yp i).tan) t := funext fun i => Dual.ext (hY i).val rfl
  have eS : D.sl = seen (fun i s => (o s).sl i) (fun i => (D.sl i).tan) t := funext fun i => Dual.ext (hS i).val rfl
  have eF : ∀ s, (o s).forward (x s) = fwd D.K (o s).xp (o s).yp (o s).sl (x s) := fun s => by
    unfold Obj.forward; rw [hK s]
  rw [hK t] at hv ⊢
  simp only [eF]
  have := C70_forward_partial (K := D.K) (xp := fun i s => (o s).xp i) (yp := fun i s => (o s).yp i)
    (sl := fun i s => (o s).sl i) tie hv ⟨fun i _ => (hX i).deriv, fun i _ => (hY i).deriv, fun i _ => (hS i).deriv⟩ hx
  rw [eX, eY, eS]
  exact this

/-- C70, from the constructor's parameters to the outputs of the inverse. -/
theorem C70_spline_inverse_partial (tie : ℝ) {tiny tiny' : ℝ} (ht0 : 0 < tiny) (ht : tiny < tiny') {len : ℕ} {p : ℕ → ℝ → ℝ}
    {p' : ℕ → ℝ} (hp : ∀ i, HasDerivAt (p i) (p' i) t) {rmin rmax : ℝ} {opt : String} {mb ms : ℝ} {o : ℝ → Obj}
    (ho : ∀ s, mk? len (snap p s) rmin rmax opt mb ms = .ok (o s)) (hr : Resolved tiny' (o t).K (o t).xp (o t).yp (o t).sl)
    {y : ℝ → ℝ} {y' : ℝ} (hy : HasDerivAt y y' t) (hne : ∀ i ≤ (o t).K, y t ≠ (o t).yp i) :
    let D := mkD len (seen p p' t) rmin rmax opt mb ms
    HasDerivAt (fun s => ((o s).inverse tiny (y s)).1) (invD tie tiny D.K D.xp D.yp D.sl ⟨y t, y'⟩).1.tan t ∧
    HasDerivAt (fun s => ((o s).inverse tiny (y s)).2) (invD tie tiny D.K D.xp D.yp D.sl ⟨y t, y'⟩).2.tan t := by
  intro D
  obtain ⟨hK, hX, hY, hS⟩ := mk_tracks hp ho
  obtain ⟨-, -, -, -, -, -, -, hv⟩ := C11_knots (ho t)
  have eX : D.xp = seen (fun i s => (o s).xp i) (fun i => (D.xp i).tan) t := funext fun i => Dual.ext (hX i).val rfl
  have eY : D.yp = seen (fun i s => (o s).yp i) (fun i => (D.yp i).tan) t := funext fun i => Dual.ext (hY i).val rfl
  have eS : D.sl = seen (fun i s => (o s).sl i) (fun i => (D.sl i).tan) t := funext fun i => Dual.ext (hS i).val rfl
  have eF : ∀ s, (o s).inverse tiny (y s) = inv tiny D.K (o s).xp (o s).yp (o s).sl (y s) := fun s => by
    unfold Obj.inverse; rw [hK s]
  rw [hK t] at hv hne hr
  simp only [eF]
  have := C70_inverse_partial (K := D.K) (xp := fun i s => (o s).xp i) (yp := fun i s => (o s).yp i)
    (sl := fun i s => (o s).sl i) tie ht0 ht hv hr
    ⟨fun i _ => (hX i).deriv, fun i _ => (hY i).deriv, fun i _ => (hS i).deriv⟩ hy hne
  rw [eX, eY, eS]
  exact this

/-- The full claim fails already for the recommended initialisation: with all parameters zero the spline is the identity
function, yet `jax.grad` of its forward map at every knot strictly between the ends is `tie` (one half) instead of one.  With an
even number of bins the middle of the range is such a knot. -/
theorem C70_identity_init_wrong (tie : ℝ) {len : ℕ} {rmin rmax : ℝ} {opt : String} {mb ms : ℝ} {o : Obj}
    (h : mk? len (fun _ => 0) rmin rmax opt mb ms = .ok o) {i : ℕ} (h0 : 0 < i) (hi : i < o.K) :
    (∀ x, o.forward x = (x, 0)) ∧
    (fwdD tie o.K (fun j => .const (o.xp j)) (fun j => .const (o.yp j)) (fun j => .const (o.sl j)) ⟨o.xp i, 1⟩).1.tan = tie ∧
    (o.K = 2 * i → o.xp i = (rmin + rmax) / 2) := by
  obtain ⟨-, -, -, -, -, -, -, hv⟩ := C11_knots h
  have hid := C11_all_zeros_identity h
  obtain ⟨g1, g2, g3, g4⟩ := C70_forward_knot_wrong tie hv h0 hi
  have hs : o.sl i = 1 := by
    have := hid (o.xp i)
    unfold Obj.forward at this
    rw [this] at g3
    simpa using g3.symm
  refine ⟨hid, by rw [g1, hs, mul_one], fun hK => ?_⟩
  obtain ⟨-, hKpos, -, -, -, -, -, w, hgt, s, e1, -, -, -, e5, -⟩ := mk_inv h
  rw [e5, positions_eq hKpos _ e1 hi.le]
  unfold normalizeBinSizes at e1
  split at e1
  · cases e1
  · rw [← Except.ok.inj e1]
    simp only [softmax, Real.exp_zero, sum_const, card_range, nsmul_eq_mul, mul_one]
    rw [hK]
    have : (i : ℝ) ≠ 0 := by exact_mod_cast h0.ne'
    push_cast
    field_simp
    ring

/-! ### The hypotheses are met -/

/-- A two-bin spline whose knots, slopes and input all move: `x = s`, knots `0, 1 + s, 3`, heights `0, 2, 3 + s`. -/
example : Valid 2 (snap (fun i s => if i = 0 then 0 else if i = 1 then 1 + s else 3) 0)
      (snap (fun i s => if i = 0 then 0 else if i = 1 then 2 else 3 + s) 0) (snap (fun i s => 1 + i * (1 + s)) 0) ∧
    Moving 2 (fun i s => if i = 0 then 0 else if i = 1 then 1 + s else 3)
      (fun i s => if i = 0 then 0 else if i = 1 then 2 else 3 + s) (fun i s => 1 + i * (1 + s))
      (fun i => if i = 1 then 1 else 0) (fun i => if i = 2 then 1 else 0) (fun i => i) 0 := by
  have H : ∀ c : ℝ, HasDerivAt (fun s : ℝ => c + s) 1 0 := fun c => (hasDerivAt_id (0 : ℝ)).const_add c
  refine ⟨⟨by norm_num, ?_, ?_, ?_⟩, ⟨?_, ?_, ?_⟩⟩
  · intro i hi; interval_cases i <;> norm_num [snap]
  · intro i hi; interval_cases i <;> norm_num [snap]
  · intro i _; simp only [snap]; positivity
  · intro i hi
    interval_cases i
    · simpa using hasDerivAt_const (0 : ℝ) (0 : ℝ)
    · simpa using H 1
    · simpa using hasDerivAt_const (0 : ℝ) (3 : ℝ)
  · intro i hi
    interval_cases i
    · simpa using hasDerivAt_const (0 : ℝ) (0 : ℝ)
    · simpa using hasDerivAt_const (0 : ℝ) (2 : ℝ)
    · simpa using H 3
  · intro i _
    simpa using (((H 1).const_mul (i : ℝ)).const_add 1)

/-- Parameters for the end-to-end theorems: seven numbers (two bins) moving at different speeds, accepted for every `s`. -/
example : ∃ o : ℝ → Obj, ∀ s, mk? 7 (snap (fun i s => i * s) s) (-1) 1 "identity" 1e-4 1e-4 = .ok (o s) :=
  ⟨fun s => Classical.choose ((C11_ctor_ok_iff 7 (snap (fun i s => i * s) s) (-1) 1 "identity" 1e-4 1e-4).1.2
    ⟨⟨2, by norm_num, by norm_num, by norm_num⟩, by norm_num, by norm_num, by norm_num, by norm_num, by simp [knownOptions]⟩),
    fun s => Classical.choose_spec ((C11_ctor_ok_iff 7 (snap (fun i s => i * s) s) (-1) 1 "identity" 1e-4 1e-4).1.2
    ⟨⟨2, by norm_num, by norm_num, by norm_num⟩, by norm_num, by norm_num, by norm_num, by norm_num, by simp [knownOptions]⟩)⟩

/-- The identity-initialised spline with two bins on `[-1, 1]`: the forward map is the identity and `jax.grad` at 0 is one
half. -/
example : ∃ o, mk? 7 (fun _ => 0) (-1) 1 "identity" 1e-4 1e-4 = .ok o ∧ (∀ x, o.forward x = (x, 0)) ∧
    (fwdD (1 / 2) o.K (fun j => .const (o.xp j)) (fun j => .const (o.yp j)) (fun j => .const (o.sl j)) ⟨0, 1⟩).1.tan = 1 / 2 := by
  obtain ⟨o, ho⟩ := (C11_ctor_ok_iff 7 (fun _ => 0) (-1) 1 "identity" 1e-4 1e-4).1.2
    ⟨⟨2, by norm_num, by norm_num, by norm_num⟩, by norm_num, by norm_num, by norm_num, by norm_num, by simp [knownOptions]⟩
  have hK : o.K = 2 := by have := (mk_inv ho).1; omega
  obtain ⟨a, b, c⟩ := C70_identity_init_wrong (1 / 2) ho (i := 1) one_pos (by omega)
  refine ⟨o, ho, a, ?_⟩
  rw [c (by omega)] at b
  norm_num at b ⊢
  exact b

end Distrax.Spline
