import Verif.Lemmas.Spline
import Mathlib.Algebra.BigOperators.Field
import Mathlib.Tactic.IntervalCases
import Mathlib.Analysis.Calculus.ContDiff.Deriv

/-!
Properties C11 (spline parameters) and C12 (the spline is an increasing C¹ bijection with the right
inverse and log-determinant).
-/

namespace Distrax.Spline

open Finset

/-! ### Helpers about the constructor -/

theorem softmax_pos {K : ℕ} (hK : 0 < K) (u : ℕ → ℝ) (i : ℕ) : 0 < softmax K u i :=
  div_pos (Real.exp_pos _)
    (Finset.sum_pos (fun _ _ => Real.exp_pos _) (Finset.nonempty_range_iff.2 hK.ne'))

theorem softmax_sum {K : ℕ} (hK : 0 < K) (u : ℕ → ℝ) : ∑ i ∈ range K, softmax K u i = 1 := by
  unfold softmax
  rw [← Finset.sum_div]
  exact div_self (Finset.sum_pos (fun _ _ => Real.exp_pos _) (Finset.nonempty_range_iff.2 hK.ne')).ne'

theorem softplus_pos (x : ℝ) : 0 < softplus x :=
  Real.log_pos (by linarith [Real.exp_pos x])

/-- The knot positions are the running sums of the normalised sizes. -/
theorem positions_eq {K : ℕ} (hK : 0 < K) (u : ℕ → ℝ) {rmin rmax mb : ℝ} {sz : ℕ → ℝ}
    (h : normalizeBinSizes K u (rmax - rmin) mb = .ok sz) {i : ℕ} (hi : i ≤ K) :
    positions K sz rmin rmax i = rmin + ∑ j ∈ range i, sz j := by
  unfold normalizeBinSizes at h
  split at h
  · simp at h
  · obtain rfl : _ = sz := Except.ok.inj h
    unfold positions
    rcases Nat.eq_zero_or_pos i with rfl | hp
    · simp
    · rw [if_neg hp.ne']
      rcases hi.lt_or_eq with hlt | rfl
      · rw [if_pos hlt]
      · rw [if_neg (lt_irrefl _), Finset.sum_add_distrib, ← Finset.sum_mul, softmax_sum hK]
        simp

theorem sizes_ge {K : ℕ} (hK : 0 < K) (u : ℕ → ℝ) {t mb : ℝ} {sz : ℕ → ℝ}
    (h : normalizeBinSizes K u t mb = .ok sz) (i : ℕ) : mb ≤ sz i := by
  unfold normalizeBinSizes at h
  split at h
  · simp at h
  · rename_i hle
    obtain rfl : _ = sz := Except.ok.inj h
    have := mul_nonneg (softmax_pos hK u i).le (by linarith : 0 ≤ t - K * mb)
    linarith

/-- What a successful constructor call yields (helper: the call, inverted). -/
theorem mk_inv {len : ℕ} {params : ℕ → ℝ} {rmin rmax : ℝ} {opt : String} {mb ms : ℝ} {o : Obj}
    (h : mk? len params rmin rmax opt mb ms = .ok o) :
    len = 3 * o.K + 1 ∧ 0 < o.K ∧ rmin < rmax ∧ 0 < mb ∧ 0 < ms ∧ ms < 1 ∧ o.K * mb ≤ rmax - rmin ∧
    ∃ w hgt s, normalizeBinSizes o.K params (rmax - rmin) mb = .ok w ∧
      normalizeBinSizes o.K (fun i => params (o.K + i)) (rmax - rmin) mb = .ok hgt ∧
      normalizeKnotSlopes (fun i => params (2 * o.K + i)) ms = .ok s ∧
      boundary opt o.K s = .ok o.sl ∧
      o.xp = positions o.K w rmin rmax ∧ o.yp = positions o.K hgt rmin rmax := by
  unfold mk? at h
  split at h; · simp at h
  rename_i h1
  split at h; · simp at h
  split at h; · simp at h
  split at h; · simp at h
  simp only [bind, Except.bind, pure, Except.pure] at h
  split at h; · simp at h
  rename_i w hw
  split at h; · simp at h
  rename_i hgt hh
  split at h; · simp at h
  rename_i s hs
  split at h; · simp at h
  rename_i s' hs'
  obtain rfl := Except.ok.inj h
  have c1 : ((len - 1) / 3 : ℕ) * mb ≤ rmax - rmin := by
    unfold normalizeBinSizes at hw
    split at hw
    · simp at hw
    · rename_i hn; exact not_lt.1 hn
  have c2 : ms < 1 := by
    unfold normalizeKnotSlopes at hs
    split at hs
    · simp at hs
    · rename_i hn; exact not_le.1 hn
  push Not at h1
  simp only [ge_iff_le, not_le] at *
  refine ⟨by omega, by omega, by assumption, by assumption, by assumption, c2, c1, w, hgt, s, hw, hh, hs,
    hs', rfl, rfl⟩

theorem slopes_ge {u s : ℕ → ℝ} {ms : ℝ} (h : normalizeKnotSlopes u ms = .ok s) (i : ℕ) : ms < s i := by
  unfold normalizeKnotSlopes at h
  split at h
  · simp at h
  · obtain rfl := Except.ok.inj h
    have := softplus_pos (u i + Real.log (Real.exp (1 - ms) - 1))
    simp only
    linarith

theorem boundary_ge {opt : String} {K : ℕ} {s s' : ℕ → ℝ} {ms : ℝ} (hms : ms < 1) (hs : ∀ i, ms < s i)
    (h : boundary opt K s = .ok s') (i : ℕ) : ms < s' i := by
  unfold boundary at h
  split at h
  · obtain rfl := Except.ok.inj h; exact hs i
  split at h
  · obtain rfl := Except.ok.inj h
    by_cases hi : i = 0 <;> simp [hi, hms, hs]
  split at h
  · obtain rfl := Except.ok.inj h
    by_cases hi : i < K <;> simp [hi, hms, hs]
  split at h
  · obtain rfl := Except.ok.inj h
    by_cases hi : i = 0
    · simp [hi, hms]
    · by_cases hi' : i < K <;> simp [hi, hi', hms, hs]
  split at h
  · obtain rfl := Except.ok.inj h
    by_cases hi : i < K <;> simp [hi, hs]
  · simp at h

/-! ## C11 -/

/-- The boundary options the documentation lists. -/
def knownOptions : List String :=
  ["unconstrained", "lower_identity", "upper_identity", "identity", "circular"]

/-- C11: the constructor succeeds exactly on `3·K + 1` parameters with `K ≥ 1`, `range_min < range_max`,
positive minima, `min_knot_slope < 1`, bins that fit in the range, and a documented option; otherwise it
raises `ValueError`. -/
theorem C11_ctor_ok_iff (len : ℕ) (params : ℕ → ℝ) (rmin rmax : ℝ) (opt : String) (mb ms : ℝ) :
    ((∃ o, mk? len params rmin rmax opt mb ms = .ok o) ↔
      (∃ K, 1 ≤ K ∧ len = 3 * K + 1 ∧ K * mb ≤ rmax - rmin) ∧ rmin < rmax ∧ 0 < mb ∧ 0 < ms ∧ ms < 1 ∧
        opt ∈ knownOptions) ∧
    ((¬ ∃ o, mk? len params rmin rmax opt mb ms = .ok o) →
      mk? len params rmin rmax opt mb ms = .error .valueError) := by
  constructor
  · constructor
    · rintro ⟨o, h⟩
      obtain ⟨h1, h2, h3, h4, h5, h6, h7, w, hg, s, _, _, _, hb, _⟩ := mk_inv h
      refine ⟨⟨o.K, h2, h1, h7⟩, h3, h4, h5, h6, ?_⟩
      unfold boundary at hb
      by_contra hn
      simp only [knownOptions, List.mem_cons, List.not_mem_nil, or_false, not_or] at hn
      simp [hn] at hb
    · rintro ⟨⟨K, hK, rfl, hKm⟩, h1, h2, h3, h4, h5⟩
      unfold mk?
      have e : (3 * K + 1 - 1) / 3 = K := by omega
      rw [if_neg (by omega), if_neg (not_le.2 h1), if_neg (not_le.2 h2), if_neg (not_le.2 h3), e]
      simp only [normalizeBinSizes, normalizeKnotSlopes, bind, Except.bind, if_neg (not_lt.2 hKm),
        if_neg (not_le.2 h4), gt_iff_lt, ge_iff_le]
      simp only [knownOptions, List.mem_cons, List.not_mem_nil, or_false] at h5
      rcases h5 with rfl | rfl | rfl | rfl | rfl <;> simp [boundary, pure, Except.pure]
  · intro hn
    cases hm : mk? len params rmin rmax opt mb ms with
    | ok o => exact absurd ⟨o, hm⟩ hn
    | error e =>
      unfold mk? at hm
      split at hm; · exact hm.symm
      split at hm; · exact hm.symm
      split at hm; · exact hm.symm
      split at hm; · exact hm.symm
      simp only [bind, Except.bind, pure, Except.pure, normalizeBinSizes, normalizeKnotSlopes] at hm
      split at hm
      · rename_i hh; split at hh <;> simp_all
      split at hm
      · rename_i hh; split at hh <;> simp_all
      split at hm
      · rename_i hh; split at hh <;> simp_all
      split at hm
      · rename_i hh
        unfold boundary at hh
        repeat' split at hh
        all_goals simp_all
      · simp at hm

example : ∃ o, mk? 7 (fun i => (i : ℝ) - 3) (-1) 2 "circular" 1e-4 1e-4 = .ok o :=
  (C11_ctor_ok_iff _ _ _ _ _ _ _).1.2
    ⟨⟨2, by norm_num, by norm_num, by norm_num⟩, by norm_num, by norm_num, by norm_num, by norm_num,
      by simp [knownOptions]⟩

/-- C11: whatever the unconstrained parameters, the knots run from `range_min` to `range_max` on both
axes, every bin has at least the minimum size, and every knot slope is at least the minimum slope. -/
theorem C11_knots {len : ℕ} {params : ℕ → ℝ} {rmin rmax : ℝ} {opt : String} {mb ms : ℝ} {o : Obj}
    (h : mk? len params rmin rmax opt mb ms = .ok o) :
    o.xp 0 = rmin ∧ o.xp o.K = rmax ∧ o.yp 0 = rmin ∧ o.yp o.K = rmax ∧
    (∀ i < o.K, mb ≤ o.xp (i + 1) - o.xp i) ∧ (∀ i < o.K, mb ≤ o.yp (i + 1) - o.yp i) ∧
    (∀ i ≤ o.K, ms ≤ o.sl i) ∧ Valid o.K o.xp o.yp o.sl := by
  obtain ⟨h1, h2, h3, h4, h5, h6, h7, w, hg, s, ew, eh, es, hb, hx, hy⟩ := mk_inv h
  have gap : ∀ {u sz : ℕ → ℝ}, normalizeBinSizes o.K u (rmax - rmin) mb = .ok sz → ∀ i < o.K,
      mb ≤ positions o.K sz rmin rmax (i + 1) - positions o.K sz rmin rmax i := by
    intro u sz hsz i hi
    rw [positions_eq h2 u hsz hi.le, positions_eq h2 u hsz hi, Finset.sum_range_succ]
    have := sizes_ge h2 u hsz i
    linarith
  have gx : ∀ i < o.K, mb ≤ o.xp (i + 1) - o.xp i := by rw [hx]; exact gap ew
  have gy : ∀ i < o.K, mb ≤ o.yp (i + 1) - o.yp i := by rw [hy]; exact gap eh
  have gs : ∀ i, ms < o.sl i := boundary_ge h6 (slopes_ge es) hb
  refine ⟨by simp [hx, positions], by simp [hx, positions, h2.ne'], by simp [hy, positions],
    by simp [hy, positions, h2.ne'], gx, gy, fun i _ => (gs i).le, h2, ?_, ?_, ?_⟩
  · intro i hi; linarith [gx i hi]
  · intro i hi; linarith [gy i hi]
  · intro i _; linarith [gs i]

/-- C11: the exact sizes, as documented: bin `i` takes its softmax share of what is left of the range after
`min_bin_size` is set aside for every bin. -/
theorem C11_bin_sizes {len : ℕ} {params : ℕ → ℝ} {rmin rmax : ℝ} {opt : String} {mb ms : ℝ} {o : Obj}
    (h : mk? len params rmin rmax opt mb ms = .ok o) (i : ℕ) (hi : i < o.K) :
    o.xp (i + 1) - o.xp i = mb + (rmax - rmin - o.K * mb) *
      (Real.exp (params i) / ∑ j ∈ range o.K, Real.exp (params j)) ∧
    o.yp (i + 1) - o.yp i = mb + (rmax - rmin - o.K * mb) *
      (Real.exp (params (o.K + i)) / ∑ j ∈ range o.K, Real.exp (params (o.K + j))) := by
  obtain ⟨h1, h2, h3, h4, h5, h6, h7, w, hg, s, ew, eh, es, hb, hx, hy⟩ := mk_inv h
  have gap : ∀ {u sz : ℕ → ℝ}, normalizeBinSizes o.K u (rmax - rmin) mb = .ok sz → 
      positions o.K sz rmin rmax (i + 1) - positions o.K sz rmin rmax i =
      mb + (rmax - rmin - o.K * mb) * (Real.exp (u i) / ∑ j ∈ range o.K, Real.exp (u j)) := by
    intro u sz hsz
    rw [positions_eq h2 u hsz hi.le, positions_eq h2 u hsz hi, Finset.sum_range_succ]
    unfold normalizeBinSizes at hsz
    split at hsz
    · simp at hsz
    · obtain rfl := Except.ok.inj hsz
      simp only [softmax]
      ring
  exact ⟨by rw [hx]; exact gap ew, by rw [hy]; exact gap eh⟩

/-- C11: the boundary options. `S i = min_knot_slope + softplus(param + offset)` are the free slopes. -/
theorem C11_boundary {len : ℕ} {params : ℕ → ℝ} {rmin rmax : ℝ} {opt : String} {mb ms : ℝ} {o : Obj}
    (h : mk? len params rmin rmax opt mb ms = .ok o) :
    let S := fun i => Real.log (1 + Real.exp (params (2 * o.K + i)) * (Real.exp (1 - ms) - 1)) + ms
    (∀ i, 0 < i → i < o.K → o.sl i = S i) ∧
    (opt ∈ ["lower_identity", "identity"] → o.sl 0 = 1) ∧
    (opt ∈ ["upper_identity", "identity"] → o.sl o.K = 1) ∧
    (opt ∈ ["unconstrained", "upper_identity", "circular"] → o.sl 0 = S 0) ∧
    (opt ∈ ["unconstrained", "lower_identity"] → o.sl o.K = S o.K) ∧
    (opt = "circular" → o.sl o.K = o.sl 0) := by
  obtain ⟨h1, h2, h3, h4, h5, h6, h7, w, hg, s, ew, eh, es, hb, hx, hy⟩ := mk_inv h
  intro S
  have hs : ∀ i, s i = S i := by
    intro i
    unfold normalizeKnotSlopes at es
    split at es
    · simp at es
    · obtain rfl := Except.ok.inj es
      simp only [S, softplus]
      have : 0 < Real.exp (1 - ms) - 1 := by
        have := Real.one_lt_exp_iff.2 (by linarith : 0 < 1 - ms); linarith
      rw [Real.exp_add, Real.exp_log this]
  have hopt : opt ∈ knownOptions :=
    ((C11_ctor_ok_iff len params rmin rmax opt mb ms).1.1 ⟨o, h⟩).2.2.2.2.2
  simp only [knownOptions, List.mem_cons, List.not_mem_nil, or_false] at hopt
  rcases hopt with rfl | rfl | rfl | rfl | rfl <;> simp [boundary] at hb <;>
    simp +contextual [← hb, hs, h2, Nat.pos_iff_ne_zero.1 h2, Nat.pos_iff_ne_zero]

/-- C11: with equal width and height parameters and zero slope parameters (in particular with all-zero
parameters) every option gives the identity, with log-determinant zero, on the whole line. -/
theorem C11_zero_params_identity {len : ℕ} {params : ℕ → ℝ} {rmin rmax : ℝ} {opt : String} {mb ms : ℝ}
    {o : Obj} (h : mk? len params rmin rmax opt mb ms = .ok o)
    (hwh : ∀ i < o.K, params (o.K + i) = params i) (hz : ∀ i ≤ o.K, params (2 * o.K + i) = 0) (x : ℝ) :
    o.forward x = (x, 0) := by
  obtain ⟨k1, k2, k3, k4, k5, k6, k7, hv⟩ := C11_knots h
  obtain ⟨b1, b2, b3, b4, b5, b6⟩ := C11_boundary h
  obtain ⟨h1, h2, h3, h4, h5, h6, h7, w, hg, s, ew, eh, es, hb, hx, hy⟩ := mk_inv h
  have hS : ∀ i ≤ o.K, Real.log (1 + Real.exp (params (2 * o.K + i)) * (Real.exp (1 - ms) - 1)) + ms = 1 := by
    intro i hi
    rw [hz i hi, Real.exp_zero, one_mul, add_sub_cancel, Real.log_exp]; ring
  have hopt : opt ∈ knownOptions :=
    ((C11_ctor_ok_iff len params rmin rmax opt mb ms).1.1 ⟨o, h⟩).2.2.2.2.2
  simp only [knownOptions, List.mem_cons, List.not_mem_nil, or_false] at hopt
  have hsl0 : o.sl 0 = 1 := by
    rcases hopt with rfl | rfl | rfl | rfl | rfl
    · exact (b4 (by simp)).trans (hS 0 (Nat.zero_le _))
    · exact b2 (by simp)
    · exact (b4 (by simp)).trans (hS 0 (Nat.zero_le _))
    · exact b2 (by simp)
    · exact (b4 (by simp)).trans (hS 0 (Nat.zero_le _))
  have hslK : o.sl o.K = 1 := by
    rcases hopt with rfl | rfl | rfl | rfl | rfl
    · exact (b5 (by simp)).trans (hS _ le_rfl)
    · exact (b5 (by simp)).trans (hS _ le_rfl)
    · exact b3 (by simp)
    · exact b3 (by simp)
    · rw [b6 rfl, hsl0]
  have hsl : ∀ i ≤ o.K, o.sl i = 1 := by
    intro i hi
    rcases Nat.eq_zero_or_pos i with rfl | hp
    · exact hsl0
    · rcases hi.lt_or_eq with hlt | rfl
      · exact (b1 i hp hlt).trans (hS i hi)
      · exact hslK
  have hxy : ∀ i ≤ o.K, o.yp i = o.xp i := by
    intro i
    induction i with
    | zero => intro _; rw [k1, k3]
    | succ i ih =>
      intro hi
      have e := C11_bin_sizes h i hi
      have es : ∑ j ∈ range o.K, Real.exp (params (o.K + j)) = ∑ j ∈ range o.K, Real.exp (params j) :=
        Finset.sum_congr rfl fun j hj => by rw [hwh j (Finset.mem_range.1 hj)]
      rw [hwh i hi, es] at e
      have := ih (by omega)
      linarith [e.1, e.2]
  unfold Obj.forward
  by_cases hx0 : x ≤ o.xp 0
  · rw [fwd_below hv hx0, hsl 0 (Nat.zero_le _), hxy 0 (Nat.zero_le _)]; simp
  push Not at hx0
  by_cases hxK : o.xp o.K ≤ x
  · rw [fwd_above hxK, hsl _ le_rfl, hxy _ le_rfl]; simp
  push Not at hxK
  obtain ⟨i, hi, l1, l2⟩ := exists_bin hx0.le hxK
  have hwp := sub_pos.2 (hv.x_lt i hi)
  rw [fwd_in_bin hv hi l1 l2 hx0]
  have hslp : slp o.xp o.yp i = 1 := by
    unfold slp; rw [hxy i hi.le, hxy (i + 1) hi]; exact div_self hwp.ne'
  refine Prod.ext ?_ ?_
  · simp only [gbin, gz, den, hslp, hsl i hi.le, hsl (i + 1) hi, hxy i hi.le, hxy (i + 1) hi]
    rw [show (1 : ℝ) + (1 + 1 - 2 * 1) * (zed o.xp i x - zed o.xp i x * zed o.xp i x) = 1 by ring,
      show (1 : ℝ) * (zed o.xp i x * zed o.xp i x) + 1 * (zed o.xp i x - zed o.xp i x * zed o.xp i x) =
        zed o.xp i x by ring, div_one, zed, mul_div_cancel₀ _ hwp.ne']
    ring
  · simp only [lbin, nrm, den, hslp, hsl i hi.le, hsl (i + 1) hi]
    rw [show (1 : ℝ) * (zed o.xp i x * zed o.xp i x) + 2 * 1 * (zed o.xp i x - zed o.xp i x * zed o.xp i x) +
      1 * (1 - zed o.xp i x) ^ 2 = 1 by ring]
    rw [show (1 : ℝ) + (1 + 1 - 2 * 1) * (zed o.xp i x - zed o.xp i x * zed o.xp i x) = 1 by ring]
    simp

/-- The documented special case. -/
theorem C11_all_zeros_identity {len : ℕ} {rmin rmax : ℝ} {opt : String} {mb ms : ℝ} {o : Obj}
    (h : mk? len (fun _ => 0) rmin rmax opt mb ms = .ok o) (x : ℝ) : o.forward x = (x, 0) :=
  C11_zero_params_identity h (fun _ _ => rfl) (fun _ _ => rfl) x

example : ∃ o, mk? 10 (fun _ => 0) (-1) 2 "identity" 1e-4 1e-4 = .ok o ∧ o.forward 0.3 = (0.3, 0) := by
  obtain ⟨o, ho⟩ := (C11_ctor_ok_iff 10 (fun _ => 0) (-1) 2 "identity" 1e-4 1e-4).1.2
    ⟨⟨3, by norm_num, by norm_num, by norm_num⟩, by norm_num, by norm_num, by norm_num, by norm_num,
      by simp [knownOptions]⟩
  exact ⟨o, ho, C11_all_zeros_identity ho _⟩

/-! ## C12 -/

/-- C12: the forward map goes through every knot with the knot's slope. -/
theorem C12_knots {K : ℕ} {xp yp sl : ℕ → ℝ} (h : Valid K xp yp sl) (i : ℕ) (hi : i ≤ K) :
    (fwd K xp yp sl (xp i)).1 = yp i ∧ HasDerivAt (fun v => (fwd K xp yp sl v).1) (sl i) (xp i) := by
  refine ⟨by rw [fwd_knot h hi], ?_⟩
  have := fwd_hasDerivAt h (xp i)
  rwa [fwd_knot h hi, Real.exp_log (h.slope i hi)] at this

/-- C12: strictly increasing and onto the whole real line. -/
theorem C12_increasing_bijection {K : ℕ} {xp yp sl : ℕ → ℝ} (h : Valid K xp yp sl) :
    StrictMono (fun v => (fwd K xp yp sl v).1) ∧ Function.Bijective (fun v => (fwd K xp yp sl v).1) :=
  ⟨fwd_strictMono h, (fwd_strictMono h).injective, fwd_surjective h⟩

/-- C12: at every real point - inside bins, at knots and on the tails - the map is differentiable, the
reported log-determinant is the log of the derivative, and it is continuous in the input (so the map is
C¹). -/
theorem C12_logdet {K : ℕ} {xp yp sl : ℕ → ℝ} (h : Valid K xp yp sl) :
    (∀ x, HasDerivAt (fun v => (fwd K xp yp sl v).1) (Real.exp (fwd K xp yp sl x).2) x) ∧
    Continuous (fun v => (fwd K xp yp sl v).2) ∧
    ContDiff ℝ 1 (fun v => (fwd K xp yp sl v).1) := by
  refine ⟨fwd_hasDerivAt h, ld_continuous h, ?_⟩
  rw [contDiff_one_iff_deriv]
  refine ⟨fun x => (fwd_hasDerivAt h x).differentiableAt, ?_⟩
  rw [show deriv (fun v => (fwd K xp yp sl v).1) = fun x => Real.exp (fwd K xp yp sl x).2 from
    funext fun x => (fwd_hasDerivAt h x).deriv]
  exact Real.continuous_exp.comp (ld_continuous h)

/-- C12: linear tails with the boundary slopes. -/
theorem C12_tails {K : ℕ} {xp yp sl : ℕ → ℝ} (h : Valid K xp yp sl) (x : ℝ) :
    (x ≤ xp 0 → fwd K xp yp sl x = (yp 0 + sl 0 * (x - xp 0), Real.log (sl 0))) ∧
    (xp K ≤ x → fwd K xp yp sl x = (yp K + sl K * (x - xp K), Real.log (sl K))) := by
  constructor
  · intro hx; rw [fwd_below h hx]; ring_nf
  · intro hx; rw [fwd_above hx]; ring_nf

/-- C12: the inverse recovers the input exactly and reports the negated log-determinant, and conversely
forward undoes inverse. The guard `Resolved` says slopes are not so extreme that the squared derivative
falls below the smallest float, where the code clamps the discriminant. -/
theorem C12_inverse {K : ℕ} {xp yp sl : ℕ → ℝ} (h : Valid K xp yp sl) {tiny : ℝ}
    (hr : Resolved tiny K xp yp sl) :
    (∀ x, inv tiny K xp yp sl (fwd K xp yp sl x).1 = (x, -(fwd K xp yp sl x).2)) ∧
    (∀ y, fwd K xp yp sl (inv tiny K xp yp sl y).1 = (y, -(inv tiny K xp yp sl y).2)) := by
  refine ⟨inv_fwd h hr, fun y => ?_⟩
  obtain ⟨x, rfl⟩ := fwd_surjective h y
  simp only
  rw [inv_fwd h hr x]
  simp

/-- C12: every spline built by the constructor with knot slopes at most `S` meets the guard as soon as
`tiny` is below the stated product of user-visible quantities. -/
theorem C12_constructed_resolved {len : ℕ} {params : ℕ → ℝ} {rmin rmax : ℝ} {opt : String} {mb ms S : ℝ}
    {o : Obj} (h : mk? len params rmin rmax opt mb ms = .ok o) (hS : ∀ i ≤ o.K, o.sl i ≤ S) {tiny : ℝ}
    (ht : tiny ≤ (min ms (mb / (rmax - rmin)) * min ms (mb / (rmax - rmin)) /
      max S ((rmax - rmin) / mb)) ^ 2) : Resolved tiny o.K o.xp o.yp o.sl := by
  obtain ⟨k1, k2, k3, k4, k5, k6, k7, hv⟩ := C11_knots h
  obtain ⟨h1, h2, h3, h4, h5, h6, h7, -⟩ := mk_inv h
  have hR : 0 < rmax - rmin := by linarith
  refine ⟨_, _, lt_min h5 (div_pos h4 hR), ht,
    fun i hi => ⟨(min_le_left _ _).trans (k7 i hi), (hS i hi).trans (le_max_left _ _)⟩, fun i hi => ?_⟩
  have a1 := k5 i hi
  have a2 := k6 i hi
  have a3 : o.xp (i + 1) - o.xp i ≤ rmax - rmin := by
    have := mono_le hv.x_lt (Nat.zero_le i) hi.le
    have := mono_le hv.x_lt (show i + 1 ≤ o.K from hi) le_rfl
    linarith
  have a4 : o.yp (i + 1) - o.yp i ≤ rmax - rmin := by
    have := mono_le hv.y_lt (Nat.zero_le i) hi.le
    have := mono_le hv.y_lt (show i + 1 ≤ o.K from hi) le_rfl
    linarith
  exact ⟨(min_le_right _ _).trans (div_le_div₀ (by linarith) a2 (by linarith) a3),
    (div_le_div₀ hR.le a4 h4 a1).trans (le_max_right _ _)⟩

/-- C12 with the default minima, single precision (`tiny < 1.2e-38`), a range of length at most 100 and
knot slopes up to a million: exact inversion on the whole line, endpoints fixed. -/
theorem C12_defaults {len : ℕ} {params : ℕ → ℝ} {rmin rmax : ℝ} {opt : String}
    {o : Obj} (h : mk? len params rmin rmax opt 1e-4 1e-4 = .ok o) (hlen : rmax - rmin ≤ 100)
    (hbig : 1 ≤ rmax - rmin) (hS : ∀ i ≤ o.K, o.sl i ≤ 1e6) {tiny : ℝ} (ht : tiny ≤ 1.2e-38) :
    (∀ x, o.inverse tiny (o.forward x).1 = (x, -(o.forward x).2)) ∧
    (∀ y, o.forward (o.inverse tiny y).1 = (y, -(o.inverse tiny y).2)) ∧
    (o.forward rmin).1 = rmin ∧ (o.forward rmax).1 = rmax := by
  obtain ⟨k1, k2, k3, k4, k5, k6, k7, hv⟩ := C11_knots h
  have hr : Resolved tiny o.K o.xp o.yp o.sl := by
    refine C12_constructed_resolved h hS (ht.trans ?_)
    have p : (0 : ℝ) < rmax - rmin := by linarith
    have e1 : (1e-6 : ℝ) ≤ min 1e-4 (1e-4 / (rmax - rmin)) := by
      refine le_min (by norm_num) ?_
      rw [le_div_iff₀ p]
      nlinarith
    have e2 : max 1e6 ((rmax - rmin) / 1e-4) ≤ (1e6 : ℝ) := by
      refine max_le le_rfl ?_
      rw [div_le_iff₀ (by norm_num)]
      norm_num; linarith
    have : (1e-6 : ℝ) * 1e-6 / 1e6 ≤ min 1e-4 (1e-4 / (rmax - rmin)) * min 1e-4 (1e-4 / (rmax - rmin)) /
        max 1e6 ((rmax - rmin) / 1e-4) :=
      div_le_div₀ (by positivity) (mul_le_mul e1 e1 (by norm_num) (by linarith [show (0:ℝ) < 1e-6 by norm_num]))
        (lt_of_lt_of_le (by norm_num) (le_max_left _ _)) e2
    calc (1.2e-38 : ℝ) ≤ (1e-6 * 1e-6 / 1e6) ^ 2 := by norm_num
      _ ≤ _ := pow_le_pow_left₀ (by norm_num) this 2
  obtain ⟨i1, i2⟩ := C12_inverse hv hr
  refine ⟨i1, i2, ?_, ?_⟩
  · have := fwd_knot hv (Nat.zero_le o.K)
    rw [k1, k3] at this
    unfold Obj.forward; rw [this]
  · have := fwd_knot hv (le_refl o.K)
    rw [k2, k4] at this
    unfold Obj.forward; rw [this]

/-- The guard is needed: whatever the positive clamp `tiny`, some valid spline (one bin, slope `√tiny/2`)
is inverted wrongly because the discriminant is clamped. -/
theorem C12_guard_needed {tiny : ℝ} (ht : 0 < tiny) :
    ∃ K xp yp sl, Valid K xp yp sl ∧ ∃ x, (inv tiny K xp yp sl (fwd K xp yp sl x).1).1 ≠ x := by
  set e := Real.sqrt tiny / 2 with he
  have hsq : 0 < Real.sqrt tiny := Real.sqrt_pos.2 ht
  have e0 : 0 < e := by positivity
  have e2 : e * e < tiny := by
    have := Real.mul_self_sqrt ht.le
    rw [he]; nlinarith
  have hv : Valid 1 (fun i => (i : ℝ)) (fun i => (i : ℝ) * e) (fun _ => e) := by
    refine ⟨one_pos, fun i _ => by simp, fun i _ => ?_, fun _ _ => e0⟩
    push_cast
    nlinarith
  refine ⟨1, fun i => (i : ℝ), fun i => (i : ℝ) * e, fun _ => e, hv, 1 / 2, ?_⟩
  have hf : (fwd 1 (fun i => (i : ℝ)) (fun i => (i : ℝ) * e) (fun _ => e) (1 / 2)).1 = e / 2 := by
    rw [fwd_in_bin hv (i := 0) one_pos (by norm_num) (by norm_num) (by norm_num)]
    simp only [gbin, gz, den, slp, zed]
    norm_num
    field_simp
    norm_num
  rw [hf]
  have q0 : ((0 : ℕ) : ℝ) * e ≤ e / 2 := by simp; positivity
  have q1 : e / 2 < ((0 + 1 : ℕ) : ℝ) * e := by simp; exact e0
  have hy : ∀ i < 1, ((i : ℕ) : ℝ) * e < ((i + 1 : ℕ) : ℝ) * e := hv.y_lt
  have g : ¬ (e / 2 ≤ ((0 : ℕ) : ℝ) * e) := by simp; exact e0
  have g1 : ¬ (((1 : ℕ) : ℝ) * e ≤ e / 2) := by simp; exact e0
  unfold inv
  simp only [ge_iff_le]
  rw [if_neg g1, if_neg g]
  rw [pickLeft_eq (p := fun i => (i : ℝ) * e) hy one_pos q0 q1, pickRight_eq (p := fun i => (i : ℝ) * e) hy one_pos q0 q1,
    pickLeft_eq (p := fun i => (i : ℝ) * e) hy one_pos q0 q1, pickRight_eq (p := fun i => (i : ℝ) * e) hy one_pos q0 q1,
    pickLeft_eq (p := fun i => (i : ℝ) * e) hy one_pos q0 q1, pickRight_eq (p := fun i => (i : ℝ) * e) hy one_pos q0 q1]
  have w : clip01 ((e / 2 - ((0 : ℕ) : ℝ) * e) / ((((0 + 1 : ℕ) : ℝ)) * e - ((0 : ℕ) : ℝ) * e)) = 1 / 2 := by
    rw [clip01_id] <;> · simp; field_simp; try norm_num
  rw [w]
  have r : safeQuadraticRoot tiny 0 e (-e * (1 / 2)) = 1 / 3 := by
    unfold safeQuadraticRoot
    have : e ^ 2 - 4 * 0 * (-e * (1 / 2)) = e * e := by ring
    simp only [this, gt_iff_lt, ge_iff_le, if_pos (mul_pos e0 e0), if_pos e0.le, max_eq_right e2.le]
    rw [show Real.sqrt tiny = 2 * e by rw [he]; ring]
    field_simp
    norm_num
  norm_num
  rw [show e + e - 2 * e = 0 by ring, zero_mul, sub_zero, ← neg_mul, r]
  norm_num [clip01]

/-- A two-bin spline with different widths, heights and slopes. -/
theorem example_valid : Valid 2 (fun i => if i = 0 then 0 else if i = 1 then 1 else 3)
    (fun i => if i = 0 then 0 else if i = 1 then 2 else 3) (fun i => (i : ℝ) + 1) := by
  refine ⟨by norm_num, ?_, ?_, fun i _ => by positivity⟩
  · intro i hi; interval_cases i <;> norm_num
  · intro i hi; interval_cases i <;> norm_num

example : Resolved 1.2e-38 2 (fun i => if i = 0 then 0 else if i = 1 then 1 else 3)
    (fun i => if i = 0 then 0 else if i = 1 then 2 else 3) (fun i => (i : ℝ) + 1) := by
  refine ⟨1/2, 3, by norm_num, by norm_num, ?_, ?_⟩
  · intro i hi; interval_cases i <;> norm_num
  · intro i hi; interval_cases i <;> norm_num

/-- The constructor's own zero-parameter spline meets every hypothesis of `C12_defaults`. -/
example : ∃ o, mk? 7 (fun _ => 0) (-1) 2 "identity" 1e-4 1e-4 = .ok o ∧ ∀ i ≤ o.K, o.sl i ≤ 1e6 := by
  obtain ⟨o, ho⟩ := (C11_ctor_ok_iff 7 (fun _ => 0) (-1) 2 "identity" 1e-4 1e-4).1.2
    ⟨⟨2, by norm_num, by norm_num, by norm_num⟩, by norm_num, by norm_num, by norm_num, by norm_num,
      by simp [knownOptions]⟩
  refine ⟨o, ho, fun i hi => ?_⟩
  have hk := C12_knots (C11_knots ho).2.2.2.2.2.2.2 i hi
  have : (fun v => (fwd o.K o.xp o.yp o.sl v).1) = id := funext fun x => by
    have := C11_all_zeros_identity ho x
    unfold Obj.forward at this; rw [this]; rfl
  rw [this] at hk
  rw [hk.2.unique (hasDerivAt_id _)]
  norm_num

end Distrax.Spline
