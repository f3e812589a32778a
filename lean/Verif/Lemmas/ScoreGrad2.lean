import Verif.Lemmas.ScoreGrad

/-! Lemmas for C73: Gumbel, log-stddev-normal, mixtures, and all distributions built from them. -/

namespace Distrax

open Spec MeasureTheory Topology Filter

/-- The gauge for densities whose left tail decays faster than any exponential. -/
noncomputable def gumbelGauge (x : ℝ) : ℝ := 1 + |x| + Real.exp (-x)

theorem gumbelGauge_one (x : ℝ) : 1 ≤ gumbelGauge x := by
  unfold gumbelGauge; linarith [abs_nonneg x, Real.exp_pos (-x)]

theorem gumbelGauge_le (x : ℝ) : gumbelGauge x ≤ 2 * Real.exp |x| := by
  unfold gumbelGauge
  have h1 := Real.add_one_le_exp |x|
  have h2 := Real.exp_le_exp.2 (neg_le_abs x)
  linarith

theorem dominated_of_light {lp : ℝ → ℝ → ℝ} {t A c : ℝ} (hc : 0 < c)
    (h : ∀ᶠ s in 𝓝 t, ∀ x, (x < 0 → lp s x ≤ A - c * x ^ 2) ∧ (0 ≤ x → lp s x ≤ A - c * x)) :
    Dominated volume gumbelGauge lp t := by
  refine ⟨fun x => if x < 0 then Real.exp (A - c * x ^ 2) else Real.exp (A - c * x), fun k => ?_, ?_⟩
  · have hm : Measurable fun x : ℝ => gumbelGauge x ^ k * if x < 0 then Real.exp (A - c * x ^ 2) else Real.exp (A - c * x) := by
      unfold gumbelGauge
      refine Measurable.mul (by fun_prop) (Measurable.ite measurableSet_Iio (by fun_prop) (by fun_prop))
    refine (((integrable_exp_abs one_pos).const_mul (2 ^ k * Real.exp (A + (k + 1) ^ 2 / (4 * c)))).add
      ((lineGauge_integrable hc A k).const_mul (2 ^ k))).mono' hm.aestronglyMeasurable (ae_of_all _ fun x => ?_)
    have hg1 := gumbelGauge_one x
    have hl1 := lineGauge_one x
    have hnn : 0 ≤ gumbelGauge x ^ k * if x < 0 then Real.exp (A - c * x ^ 2) else Real.exp (A - c * x) := by
      refine mul_nonneg (by positivity) ?_
      split_ifs <;> positivity
    rw [Real.norm_eq_abs, abs_of_nonneg hnn]
    show _ ≤ 2 ^ k * Real.exp (A + (k + 1) ^ 2 / (4 * c)) * Real.exp (-(1 * |x|)) +
      2 ^ k * (lineGauge x ^ k * Real.exp (A - c * |x|))
    split_ifs with hx
    · have p1 : gumbelGauge x ^ k ≤ 2 ^ k * Real.exp (k * |x|) := by
        refine (pow_le_pow_left₀ (by linarith) (gumbelGauge_le x) k).trans (le_of_eq ?_)
        rw [mul_pow, ← Real.exp_nat_mul]
      have p2 : gumbelGauge x ^ k * Real.exp (A - c * x ^ 2) ≤
          2 ^ k * Real.exp (A + (k + 1) ^ 2 / (4 * c)) * Real.exp (-(1 * |x|)) := by
        refine (mul_le_mul_of_nonneg_right p1 (Real.exp_pos _).le).trans ?_
        rw [mul_assoc, mul_assoc, ← Real.exp_add, ← Real.exp_add]
        refine mul_le_mul_of_nonneg_left (Real.exp_le_exp.2 ?_) (by positivity)
        rw [show x ^ 2 = |x| ^ 2 from (sq_abs x).symm]
        generalize |x| = y
        have hsq : 0 ≤ (2 * c * y - (k + 1)) ^ 2 / (4 * c) := by positivity
        have e : (2 * c * y - (k + 1)) ^ 2 / (4 * c) = c * y ^ 2 - (k + 1) * y + (k + 1) ^ 2 / (4 * c) := by
          field_simp; ring
        rw [e] at hsq
        linarith
      have : 0 ≤ 2 ^ k * (lineGauge x ^ k * Real.exp (A - c * |x|)) := by positivity
      linarith
    · have hx0 : 0 ≤ x := not_lt.1 hx
      have p1 : gumbelGauge x ≤ 2 * lineGauge x := by
        have : Real.exp (-x) ≤ 1 := Real.exp_le_one_iff.2 (by linarith)
        unfold gumbelGauge lineGauge; linarith [abs_nonneg x]
      have p2 : gumbelGauge x ^ k ≤ 2 ^ k * lineGauge x ^ k := by
        rw [← mul_pow]; exact pow_le_pow_left₀ (by linarith) p1 k
      have p3 := mul_le_mul_of_nonneg_right p2 (Real.exp_pos (A - c * x)).le
      rw [abs_of_nonneg hx0]
      have : 0 ≤ 2 ^ k * Real.exp (A + (k + 1) ^ 2 / (4 * c)) * Real.exp (-(1 * x)) := by positivity
      linarith
  · filter_upwards [h] with s hs x
    split_ifs with hx
    · exact Real.exp_le_exp.2 ((hs x).1 hx)
    · exact Real.exp_le_exp.2 ((hs x).2 (not_lt.1 hx))

section families

variable {loc loc' scale scale' : ℝ → ℝ} (hl : Curve loc loc') (hs : Curve scale scale') {t : ℝ} (hpos : 0 < scale t)
  {X : Type} [MeasurableSpace X] {μ : Measure X} {w : X → ℝ} {V : ℝ → X → ℝ} {DV : X → Dual}
include hl hs hpos

theorem normal_dom_light : Dominated volume gumbelGauge (fun s x => Normal.logProb ⟨loc s, scale s⟩ x) t := by
  obtain ⟨M, hM, h⟩ := scale_bounds hl hs hpos
  refine dominated_of_light (A := 1 + (M + M ^ 2 + |halfLog2pi| + M)) (c := min 1 (1 / (4 * M ^ 2))) (by positivity) ?_
  filter_upwards [h] with s ⟨h1, h2, h3, h4, h5⟩ x
  simp only [Normal.logProb, Normal.standardize]
  have hx := std_abs (x := x) (l := loc s) h2
  have a1 := neg_abs_le halfLog2pi
  have a2 := neg_abs_le (Real.log (scale s))
  rw [show ((x - loc s) / scale s) ^ 2 = |(x - loc s) / scale s| ^ 2 from (sq_abs _).symm]
  have hz := abs_nonneg ((x - loc s) / scale s)
  generalize |(x - loc s) / scale s| = z at *
  have h6 : scale s ^ 2 ≤ M ^ 2 := pow_le_pow_left₀ h2.le h3 2
  have hM2 : 0 < M ^ 2 := by positivity
  constructor
  · intro _
    have hle : min 1 (1 / (4 * M ^ 2)) * x ^ 2 ≤ 1 / (4 * M ^ 2) * x ^ 2 :=
      mul_le_mul_of_nonneg_right (min_le_right _ _) (sq_nonneg x)
    have hxx : |x| ≤ M + M * z := by nlinarith
    have hx2 : x ^ 2 ≤ 2 * M ^ 2 + 2 * (M ^ 2 * z ^ 2) := by
      rw [← sq_abs x]
      have : |x| ^ 2 ≤ (M + M * z) ^ 2 := pow_le_pow_left₀ (abs_nonneg x) hxx 2
      nlinarith [sq_nonneg (M - M * z)]
    have h7 : 1 / (4 * M ^ 2) * x ^ 2 ≤ 1 / 2 + z ^ 2 / 2 := by
      rw [div_mul_eq_mul_div, one_mul, div_le_iff₀ (by positivity)]
      nlinarith
    nlinarith
  · intro hx0
    have hle : min 1 (1 / (4 * M ^ 2)) * x ≤ 1 * x := mul_le_mul_of_nonneg_right (min_le_left _ _) hx0
    rw [abs_of_nonneg hx0] at hx
    nlinarith [sq_nonneg (z - scale s)]

theorem gumbel_dom : Dominated volume gumbelGauge (fun s x => Gumbel.logProb ⟨loc s, scale s⟩ x) t := by
  obtain ⟨M, hM, h⟩ := scale_bounds hl hs hpos
  have hM2 : 0 < M ^ 2 := by positivity
  refine dominated_of_light (A := 1 + M * M + M) (c := 1 / (4 * M ^ 2)) (by positivity) ?_
  filter_upwards [h] with s ⟨h1, h2, h3, h4, h5⟩ x
  simp only [Gumbel.logProb, Gumbel.standardize]
  have hx := std_abs (x := x) (l := loc s) h2
  have a2 := neg_abs_le (Real.log (scale s))
  have hz := abs_nonneg ((x - loc s) / scale s)
  have hxx : |x| ≤ M + M * |(x - loc s) / scale s| := by nlinarith
  have hx2 : x ^ 2 ≤ 2 * M ^ 2 + 2 * (M ^ 2 * ((x - loc s) / scale s) ^ 2) := by
    rw [← sq_abs x, ← sq_abs ((x - loc s) / scale s)]
    have : |x| ^ 2 ≤ (M + M * |(x - loc s) / scale s|) ^ 2 := pow_le_pow_left₀ (abs_nonneg x) hxx 2
    nlinarith [sq_nonneg (M - M * |(x - loc s) / scale s|)]
  have e7 : ∀ z : ℝ, x ^ 2 ≤ 2 * M ^ 2 + 2 * (M ^ 2 * z ^ 2) → 1 / (4 * M ^ 2) * x ^ 2 ≤ 1 / 2 + z ^ 2 / 2 := fun z h => by
    rw [div_mul_eq_mul_div, one_mul, div_le_iff₀ (by positivity)]
    nlinarith
  have hl1 := neg_abs_le (loc s)
  have hl2 := le_abs_self (loc s)
  constructor
  · intro hx0
    have hMM : 1 ≤ M * M := by nlinarith
    by_cases hzs : (x - loc s) / scale s ≤ 0
    · have h7 := e7 _ hx2
      generalize (x - loc s) / scale s = z at *
      have hq := Real.quadratic_le_exp_of_nonneg (x := -z) (by linarith)
      nlinarith
    · have hzp : 0 < x - loc s := by
        by_contra hcon
        exact hzs (div_nonpos_of_nonpos_of_nonneg (not_lt.1 hcon) h2.le)
      have hxl : x ^ 2 ≤ M ^ 2 := by
        rw [← sq_abs x]
        refine pow_le_pow_left₀ (abs_nonneg x) ?_ 2
        rw [abs_of_neg hx0]; linarith
      have h8 : 1 / (4 * M ^ 2) * x ^ 2 ≤ 1 := by
        rw [div_mul_eq_mul_div, one_mul, div_le_iff₀ (by positivity)]; linarith
      have := Real.exp_pos (-((x - loc s) / scale s))
      linarith [not_le.1 hzs]
  · intro hx0
    have he := Real.exp_pos (-((x - loc s) / scale s))
    have hb : 1 / (4 * M ^ 2) * x - M * M ≤ (x - loc s) / scale s := by
      rw [le_div_iff₀ h2]
      have b1 : 1 / (4 * M ^ 2) * x * scale s ≤ x := by
        have : 1 / (4 * M ^ 2) * scale s ≤ 1 := by
          rw [div_mul_eq_mul_div, one_mul, div_le_one (by positivity)]; nlinarith
        nlinarith
      have b2 : M ≤ M * M * scale s := by nlinarith
      nlinarith
    linarith

theorem gumbel_tame (hw : ∀ x, 1 ≤ w x) (hV : Tame μ w V DV t)
    (hexp : ∃ K, ∃ k : ℕ, ∀ᶠ s in 𝓝 t, ∀ x, Real.exp (-((V s x - loc s) / scale s)) ≤ K * w x ^ k) :
    Tame μ w (fun s x => Gumbel.logProb ⟨loc s, scale s⟩ (V s x))
      (fun x => Dual.gumbelLogProb ⟨loc t, loc' t⟩ ⟨scale t, scale' t⟩ (DV x)) t := by
  have hz := std_tame hw hV hl hs hpos
  exact (((hz.add hw (hz.neg.exp hw hexp)).neg.sub hw (log_scale_tame hs hpos)).congr' fun s x => rfl).congr fun x => rfl

/-- The exponential of the negated standardised value is below a power of the gauge for Gumbel densities. -/
theorem gumbelGauge_exp : ∃ K, ∃ k : ℕ, ∀ᶠ s in 𝓝 t, ∀ x, Real.exp (-((x - loc s) / scale s)) ≤ K * gumbelGauge x ^ k := by
  obtain ⟨M, hM, h⟩ := scale_bounds hl hs hpos
  refine ⟨Real.exp (M * M), ⌈M⌉₊, ?_⟩
  filter_upwards [h] with s ⟨h1, h2, h3, h4, h5⟩ x
  have hg := gumbelGauge_one x
  have hl2 := le_abs_self (loc s)
  have hinv : 1 / scale s ≤ M := by rw [div_le_iff₀ h2]; linarith
  have e : -((x - loc s) / scale s) = loc s * (1 / scale s) + -x * (1 / scale s) := by field_simp; ring
  rw [e, Real.exp_add]
  have hi : 0 < 1 / scale s := by positivity
  refine mul_le_mul (Real.exp_le_exp.2 ?_) ?_ (Real.exp_pos _).le (Real.exp_pos _).le
  · nlinarith
  · rcases le_or_gt 0 x with hx | hx
    · refine (Real.exp_le_one_iff.2 ?_).trans (one_le_pow₀ hg)
      nlinarith
    · have hc : 1 / scale s ≤ (⌈M⌉₊ : ℝ) := hinv.trans (Nat.le_ceil M)
      calc Real.exp (-x * (1 / scale s)) ≤ Real.exp (⌈M⌉₊ * -x) := Real.exp_le_exp.2 (by nlinarith)
        _ = Real.exp (-x) ^ ⌈M⌉₊ := Real.exp_nat_mul _ _
        _ ≤ gumbelGauge x ^ ⌈M⌉₊ := pow_le_pow_left₀ (Real.exp_pos _).le (by unfold gumbelGauge; linarith [abs_nonneg x]) _

end families

/-! ### Log-stddev-normal -/

/-- The scale of a log-stddev-normal. -/
noncomputable def stddevR (m : Option ℝ) (ls : ℝ) : ℝ :=
  match m with
  | none => Real.exp ls
  | some m => Real.exp (Real.log m - rsoftplus (Real.log m - ls))

/-- Its derivative. -/
noncomputable def stddevR' (m : Option ℝ) (ls ls' : ℝ) : ℝ :=
  match m with
  | none => ls' * Real.exp ls
  | some m => ls' * (1 / (1 + Real.exp (-(Real.log m - ls)))) * stddevR (some m) ls

theorem stddevR_pos (m : Option ℝ) (ls : ℝ) : 0 < stddevR m ls := by cases m <;> exact Real.exp_pos _

theorem stddevR_curve (m : Option ℝ) {ls ls' : ℝ → ℝ} (h : Curve ls ls') :
    Curve (fun s => stddevR m (ls s)) fun s => stddevR' m (ls s) (ls' s) := by
  have hc : Continuous ls := continuous_iff_continuousAt.2 fun s => (h.deriv s).continuousAt
  cases m with
  | none => exact ⟨fun s => (h.deriv s).exp.congr_deriv (mul_comm _ _), by have := h.cont; simp only [stddevR']; fun_prop⟩
  | some m =>
    refine ⟨fun s => ?_, ?_⟩
    · have := (((rsoftplus_deriv (Real.log m - ls s)).comp s ((h.deriv s).const_sub (Real.log m))).const_sub (Real.log m)).exp
      refine this.congr_deriv ?_
      simp only [stddevR', stddevR, Function.comp_apply, rsigmoid]
      ring
    · have h1 := h.cont
      simp only [stddevR', stddevR, rsoftplus]
      refine (h1.mul (continuous_const.div (by fun_prop) fun s => by positivity)).mul (Real.continuous_exp.comp
        (continuous_const.sub (Continuous.log (by fun_prop) fun s => by positivity)))

theorem stddev_dual (m : Option ℝ) (a b : ℝ) : Dual.stddev m ⟨a, b⟩ = ⟨stddevR m a, stddevR' m a b⟩ := by
  cases m with
  | none => rfl
  | some m =>
    ext
    · rfl
    · simp only [Dual.stddev, Dual.exp, Dual.tan_sub, Dual.tan_const, Dual.softplus, Dual.val_sub, Dual.val_const, stddevR',
        stddevR, rsoftplus]
      ring

theorem density_lsn (m : Option ℝ) (loc ls : Param) (s x : ℝ) :
    density s x (.logStddevNormal m loc ls) = Normal.prob ⟨loc.val s, stddevR m (ls.val s)⟩ x := by
  cases m <;> rfl

/-! ### All distributions -/

theorem density_meas (d : ScalarDist) (s : ℝ) : Measurable fun x => density s x d := by
  induction d with
  | normal loc scale => simp only [density, Normal.prob, Normal.logProb, Normal.standardize]; fun_prop
  | logStddevNormal m loc ls => simp only [density_lsn, Normal.prob, Normal.logProb, Normal.standardize]; fun_prop
  | laplace loc scale => simp only [density, Laplace.prob, Laplace.logProb, Laplace.standardize]; fun_prop
  | logistic loc scale => simp only [density, Logistic.prob, Logistic.logProb, Logistic.standardize, rsoftplus]; fun_prop
  | gumbel loc scale => simp only [density, Gumbel.prob, Gumbel.logProb, Gumbel.standardize]; fun_prop
  | mixtureOfTwo p a b ha hb => simp only [density]; exact (ha.const_mul _).add (hb.const_mul _)
  | mixtureSameFamily n lg c h => simp only [density]; exact Finset.measurable_sum _ fun k _ => (h k).const_mul _

theorem weight_pos {n : ℕ} (lg : Fin n → ℝ) (k : Fin n) : 0 < Real.exp (lg k) / ∑ j, Real.exp (lg j) :=
  div_pos (Real.exp_pos _) (Finset.sum_pos (fun _ _ => Real.exp_pos _) ⟨k, Finset.mem_univ _⟩)

theorem weight_near {p p' : ℝ → ℝ} (h : Curve p p') {t : ℝ} (h0 : 0 < p t) (h1 : p t < 1) : ∀ᶠ s in 𝓝 t, 0 < p s ∧ p s < 1 := by
  have c := (h.deriv t).continuousAt
  filter_upwards [(continuousAt_const (y := (0 : ℝ))).eventually_lt c h0, c.eventually_lt (continuousAt_const (y := (1 : ℝ))) h1]
    with s a b using ⟨a, b⟩

theorem density_pos (d : ScalarDist) {t : ℝ} (hd : Valid t d) : ∀ᶠ s in 𝓝 t, ∀ x, 0 < density s x d := by
  induction d with
  | normal loc scale => exact Eventually.of_forall fun s x => Real.exp_pos _
  | logStddevNormal m loc ls => exact Eventually.of_forall fun s x => by rw [density_lsn]; exact Real.exp_pos _
  | laplace loc scale => exact Eventually.of_forall fun s x => Real.exp_pos _
  | logistic loc scale => exact Eventually.of_forall fun s x => Real.exp_pos _
  | gumbel loc scale => exact Eventually.of_forall fun s x => Real.exp_pos _
  | mixtureOfTwo p a b ha hb =>
    obtain ⟨h1, h2, h3, h4, h5⟩ := hd
    filter_upwards [ha h4, hb h5, weight_near h1 h2 h3] with s p1 p2 p3 x
    exact add_pos (mul_pos p3.1 (p1 x)) (mul_pos (by linarith [p3.2]) (p2 x))
  | mixtureSameFamily n lg c h =>
    obtain ⟨h1, h2, h3⟩ := hd
    have : ∀ᶠ s in 𝓝 t, ∀ k, ∀ x, 0 < density s x (c k) := eventually_all.2 fun k => h k (h3 k)
    filter_upwards [this] with s hs x
    exact Finset.sum_pos (fun k _ => mul_pos (weight_pos (fun j => (lg j).val s) k) (hs k x)) ⟨⟨0, h1⟩, Finset.mem_univ _⟩

/-- `log_softmax` of a row of parameters. -/
theorem logSoftmax_tame {X : Type} [MeasurableSpace X] {μ : Measure X} {w : X → ℝ} (hw : ∀ x, 1 ≤ w x) {n : ℕ} (hn : 0 < n)
    {F : Fin n → ℝ → X → ℝ} {D : Fin n → X → Dual} {t : ℝ} (h : ∀ i, Tame μ w (F i) (D i) t) (i : Fin n) :
    Tame μ w (fun s x => F i s x - Real.log (∑ j, Real.exp (F j s x))) (fun x => Dual.logSoftmax (fun j => D j x) i) t := by
  refine ((h i).sub hw (Tame.lse hw hn h)).congr fun x => ?_
  ext
  · simp only [Dual.logSoftmax, Dual.logsumexp, Dual.val_sub, Dual.val_add, Dual.val_const]; ring
  · simp only [Dual.logSoftmax, Dual.logsumexp, Dual.tan_sub, Dual.tan_add, Dual.tan_const]; ring

theorem logaddexp_val (a b : Dual) : (Dual.logaddexp a b).val = Real.log (Real.exp a.val + Real.exp b.val) := by
  show max a.val b.val + Real.log (1 + Real.exp (-|a.val - b.val|)) = _
  rcases le_total a.val b.val with h | h
  · rw [max_eq_right h, abs_of_nonpos (by linarith), neg_neg]
    nth_rewrite 1 [← Real.log_exp b.val]
    rw [← Real.log_mul (Real.exp_pos _).ne' (by positivity), mul_add, ← Real.exp_add]; ring_nf
  · rw [max_eq_left h, abs_of_nonneg (by linarith)]
    nth_rewrite 1 [← Real.log_exp a.val]
    rw [← Real.log_mul (Real.exp_pos _).ne' (by positivity), mul_add, ← Real.exp_add]; ring_nf

theorem logaddexp_eq (a b : Dual) : Dual.logaddexp a b = Dual.logsumexp ![a, b] := by
  have e1 : max a.val b.val + Real.log (1 + Real.exp (-|a.val - b.val|)) = Real.log (Real.exp a.val + Real.exp b.val) :=
    logaddexp_val a b
  set m := (⨆ j, ((![a, b] : Fin 2 → Dual) j).val) with hm
  have hp : 0 < Real.exp a.val + Real.exp b.val := by positivity
  ext
  · simp only [Dual.logaddexp, e1, Dual.logsumexp, ← hm, Dual.val_add, Dual.val_log, Dual.sum, Dual.exp, Dual.val_sub,
      Dual.val_const, Fin.sum_univ_two, Matrix.cons_val_zero, Matrix.cons_val_one, Real.exp_sub, ← add_div]
    rw [Real.log_div hp.ne' (Real.exp_pos _).ne', Real.log_exp, sub_add_cancel]
  · simp only [Dual.logaddexp, e1, Dual.logsumexp, ← hm, Dual.tan_add, Dual.log, Dual.sum, Dual.exp, Dual.val_sub,
      Dual.val_const, Dual.tan_sub, Dual.tan_const, sub_zero, add_zero, Fin.sum_univ_two, Matrix.cons_val_zero,
      Matrix.cons_val_one, Real.exp_sub, Real.exp_log hp]
    have := Real.exp_pos m
    field_simp

/-- The log-densities of all distributions are tame, at constants and along differentiable values. -/
theorem dist_tame {X : Type} [MeasurableSpace X] {μ : Measure X} {w : X → ℝ} (hw : ∀ x, 1 ≤ w x) {V : ℝ → X → ℝ} {DV : X → Dual}
    {t : ℝ} (hV : Tame μ w V DV t) (hc : ∀ c, ∀ᵐ x ∂μ, V t x ≠ c) (d : ScalarDist) (hd : Valid t d)
    (hg : NoGumbel d ∨ ∀ loc loc' scale scale' : ℝ → ℝ, Curve loc loc' → Curve scale scale' → 0 < scale t →
      ∃ K, ∃ k : ℕ, ∀ᶠ s in 𝓝 t, ∀ x, Real.exp (-((V s x - loc s) / scale s)) ≤ K * w x ^ k) :
    Tame μ w (fun s x => Real.log (density s (V s x) d)) (fun x => d.logProb t (DV x)) t := by
  have hm : ∀ d : ScalarDist, ∀ s, Measurable fun x => Real.log (density s (V s x) d) := fun d s =>
    Real.measurable_log.comp ((density_meas d s).comp (hV.meas s))
  induction d with
  | normal loc scale =>
    exact (normal_tame hd.1 hd.2.1 hd.2.2 hw hV).congr' fun s x => (Real.log_exp _).symm
  | logStddevNormal m loc ls =>
    refine ((normal_tame hd.1 (stddevR_curve m hd.2) (stddevR_pos _ _) hw hV).congr' fun s x => ?_).congr fun x => ?_
    · rw [density_lsn]; exact (Real.log_exp _).symm
    · simp only [ScalarDist.logProb, Dual.logStddevNormalLogProb, Param.at, stddev_dual]
  | laplace loc scale => exact (laplace_tame hd.1 hd.2.1 hd.2.2 hw hV hc).congr' fun s x => (Real.log_exp _).symm
  | logistic loc scale => exact (logistic_tame hd.1 hd.2.1 hd.2.2 hw hV).congr' fun s x => (Real.log_exp _).symm
  | gumbel loc scale =>
    rcases hg with hg | hg
    · exact hg.elim
    · exact (gumbel_tame hd.1 hd.2.1 hd.2.2 hw hV (hg _ _ _ _ hd.1 hd.2.1 hd.2.2)).congr' fun s x => (Real.log_exp _).symm
  | mixtureOfTwo p a b ha hb =>
    have hga := hg.imp_left (fun h : NoGumbel a ∧ NoGumbel b => h.1)
    have hgb := hg.imp_left (fun h : NoGumbel a ∧ NoGumbel b => h.2)
    obtain ⟨h1, h2, h3, h4, h5⟩ := hd
    have hp : Tame μ w (fun s _ => Real.log (p.val s)) (fun _ => Dual.log (p.at t)) t := log_scale_tame h1 h2
    have hq : Tame μ w (fun s _ => Real.log (1 - p.val s)) (fun _ => Dual.log (Dual.const 1 - p.at t)) t := by
      refine (log_scale_tame (scale := fun s => 1 - p.val s) (scale' := fun s => -p.der s)
        ⟨fun s => (h1.deriv s).const_sub 1, h1.cont.neg⟩ (by linarith)).congr fun x => ?_
      ext <;> simp [Dual.log, Dual.val_sub, Dual.tan_sub, Dual.val_const, Dual.tan_const, Param.at]
    have hA := hp.add hw (ha h4 hga)
    have hB := hq.add hw (hb h5 hgb)
    have hall : ∀ i, Tame μ w
        ((![fun s x => Real.log (p.val s) + Real.log (density s (V s x) a),
          fun s x => Real.log (1 - p.val s) + Real.log (density s (V s x) b)] : Fin 2 → ℝ → X → ℝ) i)
        ((![fun x => Dual.log (p.at t) + a.logProb t (DV x),
          fun x => Dual.log (Dual.const 1 - p.at t) + b.logProb t (DV x)] : Fin 2 → X → Dual) i) t := by
      intro i; fin_cases i
      · exact hA
      · exact hB
    refine ((Tame.lse hw two_pos hall).congr_near (hm _) ?_).congr fun x => ?_
    · filter_upwards [density_pos a h4, density_pos b h5, weight_near h1 h2 h3] with s p1 p2 p3 x
      simp only [Fin.sum_univ_two, Matrix.cons_val_zero, Matrix.cons_val_one, density]
      rw [Real.exp_add, Real.exp_add, Real.exp_log (p1 _), Real.exp_log (p2 _), Real.exp_log p3.1,
        Real.exp_log (by linarith [p3.2])]
    · simp only [ScalarDist.logProb, Dual.mixtureOfTwoLogProb, logaddexp_eq]
      congr 1
      funext i; fin_cases i <;> rfl
  | mixtureSameFamily n lg c h =>
    obtain ⟨h1, h2, h3⟩ := hd
    have hcomp : ∀ k, Tame μ w (fun s x => Real.log (density s (V s x) (c k))) (fun x => (c k).logProb t (DV x)) t := fun k =>
      h k (h3 k) (hg.imp_left fun hh : (∀ k, NoGumbel (c k)) => hh k)
    have hlg : ∀ k, Tame μ w (fun s _ => (lg k).val s) (fun _ => (lg k).at t) t := fun k =>
      Tame.param (curve_contDiff (h2 k) t) ((h2 k).deriv t)
    have hls := logSoftmax_tame hw h1 (logSoftmax_tame hw h1 hlg)
    refine ((Tame.lse hw h1 fun k => (hcomp k).add hw (hls k)).congr_near (hm _) ?_).congr fun x => rfl
    have hpos : ∀ᶠ s in 𝓝 t, ∀ k, ∀ x, 0 < density s x (c k) := eventually_all.2 fun k => density_pos _ (h3 k)
    filter_upwards [hpos] with s hs x
    have hS : 0 < ∑ j, Real.exp ((lg j).val s) :=
      Finset.sum_pos (fun _ _ => Real.exp_pos _) ⟨⟨0, h1⟩, Finset.mem_univ _⟩
    have e1 : ∀ k, Real.exp ((lg k).val s - Real.log (∑ j, Real.exp ((lg j).val s))) =
        Real.exp ((lg k).val s) / ∑ j, Real.exp ((lg j).val s) := fun k => by rw [Real.exp_sub, Real.exp_log hS]
    have e2 : ∑ k, Real.exp ((lg k).val s - Real.log (∑ j, Real.exp ((lg j).val s))) = 1 := by
      simp only [e1]; rw [← Finset.sum_div, div_self hS.ne']
    simp only [density, e2, Real.log_one, sub_zero]
    congr 1
    refine Finset.sum_congr rfl fun k _ => ?_
    rw [Real.exp_add, e1, Real.exp_log (hs k _), mul_comm]

/-- Domination, for distributions whose leaves are dominated. -/
theorem dist_dom {w : ℝ → ℝ} {t : ℝ}
    (hn : ∀ loc loc' scale scale' : ℝ → ℝ, Curve loc loc' → Curve scale scale' → 0 < scale t →
      Dominated volume w (fun s x => Normal.logProb ⟨loc s, scale s⟩ x) t)
    (P : ScalarDist → Prop)
    (hP2 : ∀ p a b, P (.mixtureOfTwo p a b) → P a ∧ P b) (hPn : ∀ n lg c, P (.mixtureSameFamily n lg c) → ∀ k, P (c k))
    (hla : ∀ l s, P (.laplace l s) → Valid t (.laplace l s) →
      Dominated volume w (fun r x => Laplace.logProb ⟨l.val r, s.val r⟩ x) t)
    (hlo : ∀ l s, P (.logistic l s) → Valid t (.logistic l s) →
      Dominated volume w (fun r x => Logistic.logProb ⟨l.val r, s.val r⟩ x) t)
    (hgu : ∀ l s, P (.gumbel l s) → Valid t (.gumbel l s) →
      Dominated volume w (fun r x => Gumbel.logProb ⟨l.val r, s.val r⟩ x) t)
    (d : ScalarDist) (hd : Valid t d) (hp : P d) :
    ∃ B : ℝ → ℝ, (∀ k : ℕ, Integrable (fun x => w x ^ k * B x)) ∧ ∀ᶠ s in 𝓝 t, ∀ x, density s x d ≤ B x := by
  induction d with
  | normal loc scale => exact hn _ _ _ _ hd.1 hd.2.1 hd.2.2
  | logStddevNormal m loc ls =>
    simp only [density_lsn]
    exact hn _ _ _ _ hd.1 (stddevR_curve m hd.2) (stddevR_pos _ _)
  | laplace loc scale => exact hla _ _ hp hd
  | logistic loc scale => exact hlo _ _ hp hd
  | gumbel loc scale => exact hgu _ _ hp hd
  | mixtureOfTwo p a b ha hb =>
    obtain ⟨h1, h2, h3, h4, h5⟩ := hd
    obtain ⟨A, hA, hA'⟩ := ha h4 (hP2 _ _ _ hp).1
    obtain ⟨B, hB, hB'⟩ := hb h5 (hP2 _ _ _ hp).2
    refine ⟨fun x => A x + B x, fun k => ?_, ?_⟩
    · simp only [mul_add]; exact (hA k).add (hB k)
    · filter_upwards [hA', hB', density_pos a h4, density_pos b h5, weight_near h1 h2 h3] with s q1 q2 q3 q4 q5 x
      have := q1 x; have := q2 x; have := q3 x; have := q4 x
      simp only [density]
      nlinarith [q5.1, q5.2]
  | mixtureSameFamily n lg c h =>
    obtain ⟨h1, h2, h3⟩ := hd
    choose B hB hB' using fun k => h k (h3 k) (hPn _ _ _ hp k)
    refine ⟨fun x => ∑ k, B k x, fun k => ?_, ?_⟩
    · simp only [Finset.mul_sum]; exact integrable_finsetSum _ fun i _ => hB i k
    · have hpos : ∀ᶠ s in 𝓝 t, ∀ k, ∀ x, 0 < density s x (c k) := eventually_all.2 fun k => density_pos _ (h3 k)
      have hall : ∀ᶠ s in 𝓝 t, ∀ k, ∀ x, density s x (c k) ≤ B k x := eventually_all.2 hB'
      filter_upwards [hpos, hall] with s q1 q2 x
      simp only [density]
      refine Finset.sum_le_sum fun k _ => ?_
      have hw1 : Real.exp ((lg k).val s) / ∑ j, Real.exp ((lg j).val s) ≤ 1 := by
        rw [div_le_one (Finset.sum_pos (fun _ _ => Real.exp_pos _) ⟨k, Finset.mem_univ _⟩)]
        exact Finset.single_le_sum (f := fun j => Real.exp ((lg j).val s)) (fun _ _ => (Real.exp_pos _).le) (Finset.mem_univ k)
      have := q1 k x; have := q2 k x; have := weight_pos (fun j => (lg j).val s) k
      nlinarith

theorem dominated_of_density {w : ℝ → ℝ} {t : ℝ} (d : ScalarDist) (hd : Valid t d)
    (h : ∃ B : ℝ → ℝ, (∀ k : ℕ, Integrable (fun x => w x ^ k * B x)) ∧ ∀ᶠ s in 𝓝 t, ∀ x, density s x d ≤ B x) :
    Dominated volume w (fun s x => Real.log (density s x d)) t := by
  obtain ⟨B, hB, hB'⟩ := h
  refine ⟨B, hB, ?_⟩
  filter_upwards [hB', density_pos d hd] with s h1 h2 x
  rw [Real.exp_log (h2 x)]; exact h1 x

/-- Distributions without Gumbel components. -/
theorem dist_line {t : ℝ} (d : ScalarDist) (hd : Valid t d) (hg : NoGumbel d) :
    Tame volume lineGauge (fun s x => Real.log (density s x d)) (fun x => d.logProb t (Dual.const x)) t ∧
      Dominated volume lineGauge (fun s x => Real.log (density s x d)) t := by
  refine ⟨dist_tame lineGauge_one (V := fun _ x => x) (Tame.fixed measurable_id (K := 1) (k := 1) (fun x => ?_) lineGauge_one)
    (fun c => ?_) d hd (Or.inl hg), dominated_of_density d hd (dist_dom (fun _ _ _ _ h1 h2 h3 => normal_dom h1 h2 h3) NoGumbel
      (fun _ _ _ h => h) (fun _ _ _ h => h) (fun l s _ hv => laplace_dom hv.1 hv.2.1 hv.2.2)
      (fun l s _ hv => logistic_dom hv.1 hv.2.1 hv.2.2) (fun l s h => h.elim) d hd hg)⟩
  · unfold lineGauge; simp
  · rw [ae_iff]; simp

/-- Distributions with Gumbel components but without Laplace and Logistic components. -/
theorem dist_light {t : ℝ} (d : ScalarDist) (hd : Valid t d) (hg : LightLeft d) :
    Tame volume gumbelGauge (fun s x => Real.log (density s x d)) (fun x => d.logProb t (Dual.const x)) t ∧
      Dominated volume gumbelGauge (fun s x => Real.log (density s x d)) t := by
  refine ⟨dist_tame gumbelGauge_one (V := fun _ x => x) (Tame.fixed measurable_id (K := 1) (k := 1) (fun x => ?_) gumbelGauge_one)
    (fun c => ?_) d hd (Or.inr fun _ _ _ _ h1 h2 h3 => gumbelGauge_exp h1 h2 h3), dominated_of_density d hd
      (dist_dom (fun _ _ _ _ h1 h2 h3 => normal_dom_light h1 h2 h3) LightLeft
      (fun _ _ _ h => h) (fun _ _ _ h => h) (fun l s h => h.elim) (fun l s h => h.elim)
      (fun l s _ hv => gumbel_dom hv.1 hv.2.1 hv.2.2) d hd hg)⟩
  · unfold gumbelGauge; have := Real.exp_pos (-x); simp; linarith
  · rw [ae_iff]; simp

end Distrax
