import Verif.Lemmas.SplineGrad
import Verif.Lemmas.Pathwise
import Mathlib.Analysis.Calculus.ParametricIntegral
import Mathlib.Analysis.Calculus.ContDiff.RCLike
import Mathlib.Analysis.SpecialFunctions.Log.Deriv
import Mathlib.MeasureTheory.Function.SpecialFunctions.Basic
import Verif.Model.ScoreGrad

/-! Lemmas for C73: families of log-densities that are differentiable in a parameter, with bounds good enough to differentiate
under an expectation; closure of such families under the operations `log_prob` is built from. -/

namespace Distrax

open Spec MeasureTheory Topology Filter

variable {X : Type*} [MeasurableSpace X]

/-- `D` is the value and tangent that automatic differentiation computes for `F s x` at `s = t`; the family is bounded and
Lipschitz in the parameter near `t`, up to a power of the gauge `w`. -/
structure Tame (μ : Measure X) (w : X → ℝ) (F : ℝ → X → ℝ) (D : X → Dual) (t : ℝ) : Prop where
  val : ∀ x, (D x).val = F t x
  meas : ∀ s, Measurable (F s)
  grow : ∃ K, 0 ≤ K ∧ ∃ k : ℕ, ∃ ε > 0, ∀ x, ∀ s ∈ Metric.ball t ε, |F s x| ≤ K * w x ^ k ∧
    ∀ r ∈ Metric.ball t ε, |F s x - F r x| ≤ K * w x ^ k * |s - r|
  deriv : ∀ᵐ x ∂μ, HasDerivAt (fun s => F s x) (D x).tan t

namespace Tame

variable {μ : Measure X} {w : X → ℝ} {F G : ℝ → X → ℝ} {D E : X → Dual} {t : ℝ}

theorem congr (h : Tame μ w F D t) (e : ∀ x, D x = E x) : Tame μ w F E t := by
  have : D = E := funext e
  rwa [← this]

theorem congr' (h : Tame μ w F D t) (e : ∀ s x, F s x = G s x) : Tame μ w G D t := by
  have : F = G := funext fun s => funext (e s)
  rwa [← this]

theorem congr_near (h : Tame μ w F D t) (hm : ∀ s, Measurable (G s)) (e : ∀ᶠ s in 𝓝 t, ∀ x, F s x = G s x) :
    Tame μ w G D t := by
  obtain ⟨δ, hδ, e'⟩ := Metric.eventually_nhds_iff_ball.1 e
  refine ⟨fun x => by rw [h.val, e' t (Metric.mem_ball_self hδ)], hm, ?_, ?_⟩
  · obtain ⟨K, hK, k, ε, hε, hb⟩ := h.grow
    refine ⟨K, hK, k, min ε δ, lt_min hε hδ, fun x s hs => ?_⟩
    have hs1 := Metric.ball_subset_ball (min_le_left ε δ) hs
    have hs2 := Metric.ball_subset_ball (min_le_right ε δ) hs
    refine ⟨by rw [← e' s hs2]; exact (hb x s hs1).1, fun r hr => ?_⟩
    have hr1 := Metric.ball_subset_ball (min_le_left ε δ) hr
    have hr2 := Metric.ball_subset_ball (min_le_right ε δ) hr
    rw [← e' s hs2, ← e' r hr2]; exact (hb x s hs1).2 r hr1
  · filter_upwards [h.deriv] with x hx
    exact hx.congr_of_eventuallyEq (e.mono fun s hs => (hs x).symm)

/-- A function that does not depend on the parameter. -/
theorem fixed {f : X → ℝ} (hf : Measurable f) {K : ℝ} {k : ℕ} (hb : ∀ x, |f x| ≤ K * w x ^ k) (hw : ∀ x, 1 ≤ w x) :
    Tame μ w (fun _ => f) (fun x => Dual.const (f x)) t := by
  refine ⟨fun x => rfl, fun _ => hf, ⟨max K 0, le_max_right _ _, k, 1, one_pos, fun x s _ => ⟨?_, fun r _ => ?_⟩⟩,
    ae_of_all _ fun x => hasDerivAt_const _ _⟩
  · exact (hb x).trans (mul_le_mul_of_nonneg_right (le_max_left _ _) (by have := hw x; positivity))
  · have := hw x
    simp only [sub_self, abs_zero]
    positivity

theorem const (c : ℝ) (hw : ∀ x, 1 ≤ w x) : Tame μ w (fun _ _ => c) (fun _ => Dual.const c) t :=
  fixed measurable_const (K := |c|) (k := 0) (fun x => by simp) hw

/-- A function of the parameter only. -/
theorem param {g : ℝ → ℝ} {g' : ℝ} (hg : ContDiffAt ℝ 1 g t) (hd : HasDerivAt g g' t) :
    Tame μ w (fun s _ => g s) (fun _ => ⟨g t, g'⟩) t := by
  refine ⟨fun x => rfl, fun _ => measurable_const, ?_, ae_of_all _ fun x => hd⟩
  obtain ⟨K, S, hS, hL⟩ := hg.exists_lipschitzOnWith
  have hb : ∀ᶠ s in 𝓝 t, |g s| ≤ |g t| + 1 := by
    have := (hd.continuousAt.abs).eventually_lt (continuousAt_const (y := |g t| + 1)) (by linarith)
    filter_upwards [this] with s hs using hs.le
  obtain ⟨ε, hε, h⟩ := Metric.mem_nhds_iff.1 (inter_mem hS hb)
  refine ⟨max K (|g t| + 1), le_max_of_le_left K.2, 0, ε, hε, fun x s hs => ⟨?_, fun r hr => ?_⟩⟩
  · rw [pow_zero, mul_one]; exact (h hs).2.trans (le_max_right _ _)
  · have h1 := hL.dist_le_mul s (h hs).1 r (h hr).1
    rw [Real.dist_eq, Real.dist_eq] at h1
    rw [pow_zero, mul_one]
    exact h1.trans (mul_le_mul_of_nonneg_right (le_max_left _ _) (abs_nonneg _))

theorem neg (h : Tame μ w F D t) : Tame μ w (fun s x => -F s x) (fun x => -D x) t := by
  refine ⟨fun x => by rw [Dual.val_neg, h.val], fun s => (h.meas s).neg, ?_, ?_⟩
  · obtain ⟨K, hK, k, ε, hε, hb⟩ := h.grow
    refine ⟨K, hK, k, ε, hε, fun x s hs => ⟨by rw [abs_neg]; exact (hb x s hs).1, fun r hr => ?_⟩⟩
    rw [← neg_sub', abs_neg]; exact (hb x s hs).2 r hr
  · filter_upwards [h.deriv] with x hx using hx.neg

theorem pow_le_pow_gauge {a : ℝ} (ha : 1 ≤ a) {k l : ℕ} : a ^ k ≤ a ^ (k + l) ∧ a ^ l ≤ a ^ (k + l) :=
  ⟨pow_le_pow_right₀ ha (Nat.le_add_right _ _), pow_le_pow_right₀ ha (Nat.le_add_left _ _)⟩

theorem add (hw : ∀ x, 1 ≤ w x) (h : Tame μ w F D t) (g : Tame μ w G E t) :
    Tame μ w (fun s x => F s x + G s x) (fun x => D x + E x) t := by
  refine ⟨fun x => by rw [Dual.val_add, h.val, g.val], fun s => (h.meas s).add (g.meas s), ?_, ?_⟩
  · obtain ⟨K, hK, k, ε, hε, hb⟩ := h.grow
    obtain ⟨L, hL, l, δ, hδ, gb⟩ := g.grow
    refine ⟨K + L, by positivity, k + l, min ε δ, lt_min hε hδ, fun x s hs => ?_⟩
    obtain ⟨p1, p2⟩ := pow_le_pow_gauge (hw x) (k := k) (l := l)
    have hs1 := Metric.ball_subset_ball (min_le_left ε δ) hs
    have hs2 := Metric.ball_subset_ball (min_le_right ε δ) hs
    have q1 := mul_le_mul_of_nonneg_left p1 hK
    have q2 := mul_le_mul_of_nonneg_left p2 hL
    refine ⟨?_, fun r hr => ?_⟩
    · refine (abs_add_le _ _).trans ?_
      have := (hb x s hs1).1; have := (gb x s hs2).1
      nlinarith
    · have hr1 := Metric.ball_subset_ball (min_le_left ε δ) hr
      have hr2 := Metric.ball_subset_ball (min_le_right ε δ) hr
      have a1 := (hb x s hs1).2 r hr1
      have a2 := (gb x s hs2).2 r hr2
      have b1 := mul_le_mul_of_nonneg_right q1 (abs_nonneg (s - r))
      have b2 := mul_le_mul_of_nonneg_right q2 (abs_nonneg (s - r))
      calc |F s x + G s x - (F r x + G r x)| = |(F s x - F r x) + (G s x - G r x)| := by ring_nf
        _ ≤ _ := abs_add_le _ _
        _ ≤ _ := by nlinarith
  · filter_upwards [h.deriv, g.deriv] with x hx gx using hx.add gx

theorem sub (hw : ∀ x, 1 ≤ w x) (h : Tame μ w F D t) (g : Tame μ w G E t) :
    Tame μ w (fun s x => F s x - G s x) (fun x => D x - E x) t :=
  ((h.add hw g.neg).congr' fun s x => (sub_eq_add_neg _ _).symm).congr fun x => by
    ext <;> simp [Dual.val_add, Dual.tan_add, Dual.val_neg, Dual.tan_neg, Dual.val_sub, Dual.tan_sub, sub_eq_add_neg]

theorem mul (hw : ∀ x, 1 ≤ w x) (h : Tame μ w F D t) (g : Tame μ w G E t) :
    Tame μ w (fun s x => F s x * G s x) (fun x => D x * E x) t := by
  refine ⟨fun x => by rw [Dual.val_mul, h.val, g.val], fun s => (h.meas s).mul (g.meas s), ?_, ?_⟩
  · obtain ⟨K, hK, k, ε, hε, hb⟩ := h.grow
    obtain ⟨L, hL, l, δ, hδ, gb⟩ := g.grow
    refine ⟨2 * (K * L), by positivity, k + l, min ε δ, lt_min hε hδ, fun x s hs => ?_⟩
    have hs1 := Metric.ball_subset_ball (min_le_left ε δ) hs
    have hs2 := Metric.ball_subset_ball (min_le_right ε δ) hs
    have hw0 : 0 < w x := by linarith [hw x]
    have e : (K * w x ^ k) * (L * w x ^ l) = K * L * w x ^ (k + l) := by rw [pow_add]; ring
    have hp : 0 ≤ K * L * w x ^ (k + l) := by positivity
    refine ⟨?_, fun r hr => ?_⟩
    · rw [abs_mul]
      have := mul_le_mul (hb x s hs1).1 (gb x s hs2).1 (abs_nonneg _) (by positivity)
      rw [e] at this
      linarith
    · have hr1 := Metric.ball_subset_ball (min_le_left ε δ) hr
      have hr2 := Metric.ball_subset_ball (min_le_right ε δ) hr
      have a1 := mul_le_mul ((hb x s hs1).2 r hr1) (gb x s hs2).1 (abs_nonneg _) (by positivity)
      have a2 := mul_le_mul (hb x r hr1).1 ((gb x s hs2).2 r hr2) (abs_nonneg _) (by positivity)
      rw [← abs_mul] at a1 a2
      calc |F s x * G s x - F r x * G r x| = |(F s x - F r x) * G s x + F r x * (G s x - G r x)| := by ring_nf
        _ ≤ _ := abs_add_le _ _
        _ ≤ _ := add_le_add a1 a2
        _ = 2 * (K * L) * w x ^ (k + l) * |s - r| := by rw [pow_add]; ring
  · filter_upwards [h.deriv, g.deriv] with x hx gx
    refine (hx.mul gx).congr_deriv ?_
    rw [Dual.tan_mul, h.val, g.val]

/-- Division by a positive function of the parameter. -/
theorem div (hw : ∀ x, 1 ≤ w x) (h : Tame μ w F D t) {g : ℝ → ℝ} {g' : ℝ} (hg : ContDiffAt ℝ 1 g t) (hd : HasDerivAt g g' t)
    (h0 : g t ≠ 0) : Tame μ w (fun s x => F s x / g s) (fun x => D x / ⟨g t, g'⟩) t :=
  ((h.mul hw (param (hg.inv h0) (hd.inv h0))).congr' fun s x => (div_eq_mul_inv _ _).symm).congr fun x => by
    ext
    · simp [Dual.val_mul, Dual.val_div, div_eq_mul_inv]
    · simp only [Dual.tan_mul, Dual.tan_div, Pi.inv_apply]; field_simp; try ring

/-- A Lipschitz function of a tame family. -/
theorem lip (hw : ∀ x, 1 ≤ w x) (h : Tame μ w F D t) {φ : ℝ → ℝ} {L : ℝ} (hm : Measurable φ) (hL0 : 0 ≤ L)
    (hL : ∀ a b, |φ a - φ b| ≤ L * |a - b|)
    (hE : ∀ x, (E x).val = φ (D x).val) (hd : ∀ᵐ x ∂μ, ∃ d, HasDerivAt φ d (D x).val ∧ (E x).tan = d * (D x).tan) :
    Tame μ w (fun s x => φ (F s x)) E t := by
  refine ⟨fun x => by rw [hE, h.val], fun s => hm.comp (h.meas s), ?_, ?_⟩
  · obtain ⟨K, hK, k, ε, hε, hb⟩ := h.grow
    refine ⟨L * K + |φ 0|, by positivity, k, ε, hε, fun x s hs => ?_⟩
    have hw1 : 1 ≤ w x ^ k := one_le_pow₀ (hw x)
    refine ⟨?_, fun r hr => ?_⟩
    · have h1 := hL (F s x) 0
      rw [sub_zero] at h1
      have h2 := mul_le_mul_of_nonneg_left (hb x s hs).1 hL0
      have h3 : |φ (F s x)| ≤ |φ (F s x) - φ 0| + |φ 0| := by
        have := abs_add_le (φ (F s x) - φ 0) (φ 0); simpa using this
      nlinarith [abs_nonneg (φ 0)]
    · refine (hL _ _).trans ((mul_le_mul_of_nonneg_left ((hb x s hs).2 r hr) hL0).trans ?_)
      have := mul_nonneg (mul_nonneg (abs_nonneg (φ 0)) (by positivity : 0 ≤ w x ^ k)) (abs_nonneg (s - r))
      nlinarith
  · filter_upwards [h.deriv, hd] with x hx ⟨d, h1, h2⟩
    rw [h.val] at h1
    rw [h2]
    exact h1.comp t hx

/-- The exponential of a tame family that is bounded above by a power of the gauge. -/
theorem exp (hw : ∀ x, 1 ≤ w x) (h : Tame μ w F D t)
    (hb : ∃ K, ∃ k : ℕ, ∀ᶠ s in 𝓝 t, ∀ x, Real.exp (F s x) ≤ K * w x ^ k) :
    Tame μ w (fun s x => Real.exp (F s x)) (fun x => (D x).exp) t := by
  refine ⟨fun x => by show Real.exp _ = _; rw [h.val], fun s => (h.meas s).exp, ?_, ?_⟩
  · obtain ⟨K, hK, k, ε, hε, hb1⟩ := h.grow
    obtain ⟨L, l, hl⟩ := hb
    obtain ⟨δ, hδ, hl⟩ := Metric.eventually_nhds_iff_ball.1 hl
    refine ⟨max L 0 * max K 1, by positivity, k + l, min ε δ, lt_min hε hδ, fun x s hs => ?_⟩
    have hs1 := Metric.ball_subset_ball (min_le_left ε δ) hs
    have hs2 := Metric.ball_subset_ball (min_le_right ε δ) hs
    have hw0 : 0 < w x := by linarith [hw x]
    have hwk : 1 ≤ w x ^ k := one_le_pow₀ (hw x)
    have hE : ∀ r ∈ Metric.ball t (min ε δ), Real.exp (F r x) ≤ max L 0 * w x ^ l := fun r hr =>
      (hl r (Metric.ball_subset_ball (min_le_right ε δ) hr) x).trans
        (mul_le_mul_of_nonneg_right (le_max_left _ _) (by positivity))
    have hM : 0 ≤ max L 0 := le_max_right _ _
    have hK1 : 1 ≤ max K 1 := le_max_right _ _
    refine ⟨?_, fun r hr => ?_⟩
    · rw [abs_of_pos (Real.exp_pos _)]
      refine (hE s hs).trans ?_
      rw [pow_add]
      have hl0 : 0 ≤ w x ^ l := by positivity
      have h1 : (1 : ℝ) ≤ max K 1 * w x ^ k := one_le_mul_of_one_le_of_one_le hK1 hwk
      calc max L 0 * w x ^ l = max L 0 * w x ^ l * 1 := by ring
        _ ≤ max L 0 * w x ^ l * (max K 1 * w x ^ k) := mul_le_mul_of_nonneg_left h1 (by positivity)
        _ = _ := by ring
    · have hr1 := Metric.ball_subset_ball (min_le_left ε δ) hr
      have e1 : |Real.exp (F s x) - Real.exp (F r x)| ≤ max L 0 * w x ^ l * |F s x - F r x| := by
        have := Convex.norm_image_sub_le_of_norm_deriv_le (f := Real.exp) (s := Set.Iic (Real.log (max L 0 * w x ^ l)))
          (C := max L 0 * w x ^ l) (x := F r x) (y := F s x) (fun z _ => Real.differentiableAt_exp) (fun z hz => ?_)
          (convex_Iic _) ?_ ?_
        · simpa [Real.norm_eq_abs] using this
        · rw [Real.deriv_exp, Real.norm_eq_abs, abs_of_pos (Real.exp_pos _)]
          have hp : 0 < max L 0 * w x ^ l := (Real.exp_pos _).trans_le (hE s hs)
          calc _ ≤ Real.exp (Real.log (max L 0 * w x ^ l)) := Real.exp_le_exp.2 hz
            _ = _ := Real.exp_log hp
        · exact (Real.le_log_iff_exp_le ((Real.exp_pos _).trans_le (hE s hs))).2 (hE r hr)
        · exact (Real.le_log_iff_exp_le ((Real.exp_pos _).trans_le (hE s hs))).2 (hE s hs)
      refine e1.trans ((mul_le_mul_of_nonneg_left ((hb1 x s hs1).2 r hr1) (by positivity)).trans ?_)
      rw [pow_add]
      calc max L 0 * w x ^ l * (K * w x ^ k * |s - r|) = max L 0 * K * (w x ^ k * w x ^ l) * |s - r| := by ring
        _ ≤ max L 0 * max K 1 * (w x ^ k * w x ^ l) * |s - r| := by
          gcongr
          exact le_max_left _ _
  · filter_upwards [h.deriv] with x hx
    refine hx.exp.congr_deriv ?_
    show _ = (D x).tan * Real.exp (D x).val
    rw [h.val]; ring

theorem sum (hw : ∀ x, 1 ≤ w x) {n : ℕ} {F : Fin n → ℝ → X → ℝ} {D : Fin n → X → Dual} (h : ∀ i, Tame μ w (F i) (D i) t) :
    Tame μ w (fun s x => ∑ i, F i s x) (fun x => Dual.sum fun i => D i x) t := by
  induction n with
  | zero => exact ((const 0 hw).congr' fun s x => by simp).congr fun x => by ext <;> simp [Dual.sum, Dual.const]
  | succ n ih =>
    refine (((h 0).add hw (ih fun i => h i.succ)).congr' fun s x => by rw [Fin.sum_univ_succ]).congr fun x => ?_
    ext
    · simp [Dual.val_add, Dual.sum, Fin.sum_univ_succ]
    · simp [Dual.tan_add, Dual.sum, Fin.sum_univ_succ]

/-- The logarithm of a sum of exponentials. -/
theorem lse (hw : ∀ x, 1 ≤ w x) {n : ℕ} (hn : 0 < n) {F : Fin n → ℝ → X → ℝ} {D : Fin n → X → Dual}
    (h : ∀ i, Tame μ w (F i) (D i) t) :
    Tame μ w (fun s x => Real.log (∑ i, Real.exp (F i s x))) (fun x => Dual.logsumexp fun i => D i x) t := by
  have hne : (Finset.univ : Finset (Fin n)).Nonempty := ⟨⟨0, hn⟩, Finset.mem_univ _⟩
  have hpos : ∀ a : Fin n → ℝ, 0 < ∑ i, Real.exp (a i) := fun a => Finset.sum_pos (fun i _ => Real.exp_pos _) hne
  have one : ∀ a b : Fin n → ℝ, Real.log (∑ i, Real.exp (a i)) ≤ Real.log (∑ i, Real.exp (b i)) + ∑ i, |a i - b i| := by
    intro a b
    rw [← Real.log_exp (∑ i, |a i - b i|), ← Real.log_mul (hpos b).ne' (Real.exp_pos _).ne']
    refine Real.log_le_log (hpos a) ?_
    rw [Finset.sum_mul]
    refine Finset.sum_le_sum fun i _ => ?_
    rw [← Real.exp_add]
    refine Real.exp_le_exp.2 ?_
    have h1 := Finset.single_le_sum (f := fun i => |a i - b i|) (fun i _ => abs_nonneg _) (Finset.mem_univ i)
    have h2 := le_abs_self (a i - b i)
    linarith
  have lip : ∀ a b : Fin n → ℝ, |Real.log (∑ i, Real.exp (a i)) - Real.log (∑ i, Real.exp (b i))| ≤ ∑ i, |a i - b i| := by
    intro a b
    refine abs_le.2 ⟨?_, by linarith [one a b]⟩
    have := one b a
    have e : ∑ i, |b i - a i| = ∑ i, |a i - b i| := Finset.sum_congr rfl fun i _ => abs_sub_comm _ _
    linarith
  have hexp : ∀ (m : ℝ) (a : Fin n → ℝ), ∑ i, Real.exp (a i - m) = (∑ i, Real.exp (a i)) / Real.exp m := fun m a => by
    rw [Finset.sum_div]; exact Finset.sum_congr rfl fun i _ => Real.exp_sub _ _
  refine ⟨fun x => ?_, fun s => ?_, ?_, ?_⟩
  · simp only [Dual.logsumexp, Dual.val_add, Dual.val_log, Dual.sum, Dual.exp, Dual.val_sub, Dual.val_const, hexp]
    rw [Real.log_div (hpos _).ne' (Real.exp_pos _).ne', Real.log_exp, sub_add_cancel]
    simp only [(h _).val]
  · exact Real.measurable_log.comp (Finset.measurable_sum _ fun i _ => ((h i).meas s).exp)
  · have hsum : Tame μ w (fun s x => ∑ i, F i s x) (fun x => Dual.sum fun i => D i x) t := sum hw h
    have hall : ∃ K, 0 ≤ K ∧ ∃ k : ℕ, ∃ ε > 0, ∀ i x, ∀ s ∈ Metric.ball t ε, |F i s x| ≤ K * w x ^ k ∧
        ∀ r ∈ Metric.ball t ε, |F i s x - F i r x| ≤ K * w x ^ k * |s - r| := by
      choose K hK k ε hε hb using fun i => (h i).grow
      refine ⟨∑ i, K i, Finset.sum_nonneg fun i _ => hK i, ∑ i, k i, Finset.univ.inf' hne ε, ?_, fun i x s hs => ?_⟩
      · exact (Finset.lt_inf'_iff hne).2 fun i _ => hε i
      · have hsub : Metric.ball t (Finset.univ.inf' hne ε) ⊆ Metric.ball t (ε i) :=
          Metric.ball_subset_ball (Finset.inf'_le _ (Finset.mem_univ i))
        have hle : K i * w x ^ k i ≤ (∑ i, K i) * w x ^ ∑ i, k i := by
          have hw0 : 0 < w x := by linarith [hw x]
          refine mul_le_mul (Finset.single_le_sum (fun i _ => hK i) (Finset.mem_univ i))
            (pow_le_pow_right₀ (hw x) (Finset.single_le_sum (fun i _ => Nat.zero_le _) (Finset.mem_univ i)))
            (by positivity) (Finset.sum_nonneg fun i _ => hK i)
        refine ⟨((hb i x s (hsub hs)).1).trans hle, fun r hr => ((hb i x s (hsub hs)).2 r (hsub hr)).trans ?_⟩
        exact mul_le_mul_of_nonneg_right hle (abs_nonneg _)
    obtain ⟨K, hK, k, ε, hε, hb⟩ := hall
    refine ⟨n * K + |Real.log n|, by positivity, k, ε, hε, fun x s hs => ?_⟩
    have hwk : 1 ≤ w x ^ k := one_le_pow₀ (hw x)
    refine ⟨?_, fun r hr => ?_⟩
    · have h1 := lip (fun i => F i s x) (fun _ => 0)
      simp only [Real.exp_zero, Finset.sum_const, Finset.card_univ, Fintype.card_fin, nsmul_eq_mul, mul_one, sub_zero] at h1
      have h2 : ∑ i, |F i s x| ≤ n * (K * w x ^ k) := by
        refine (Finset.sum_le_sum fun i _ => (hb i x s hs).1).trans ?_
        simp
      have h3 : |Real.log (∑ i, Real.exp (F i s x))| ≤ |Real.log (∑ i, Real.exp (F i s x)) - Real.log n| + |Real.log n| := by
        have := abs_add_le (Real.log (∑ i, Real.exp (F i s x)) - Real.log n) (Real.log n); simpa using this
      nlinarith [abs_nonneg (Real.log (n : ℝ))]
    · refine (lip _ _).trans ((Finset.sum_le_sum fun i _ => (hb i x s hs).2 r hr).trans ?_)
      simp only [Finset.sum_const, Finset.card_univ, Fintype.card_fin, nsmul_eq_mul]
      have : 0 ≤ |Real.log n| * w x ^ k * |s - r| := by positivity
      nlinarith
  · have hall : ∀ᵐ x ∂μ, ∀ i, HasDerivAt (fun s => F i s x) (D i x).tan t := ae_all_iff.2 fun i => (h i).deriv
    filter_upwards [hall] with x hx
    have hd := (HasDerivAt.fun_sum fun i (_ : i ∈ Finset.univ) => (hx i).exp).log (hpos fun i => F i t x).ne'
    refine hd.congr_deriv ?_
    simp only [Dual.logsumexp, Dual.tan_add, Dual.log, Dual.sum, Dual.exp, Dual.val_sub, Dual.val_const, Dual.tan_sub,
      Dual.tan_const, sub_zero, add_zero, Real.exp_sub, (h _).val]
    have e : ∀ c : ℝ, ∑ i, (D i x).tan * (Real.exp (F i t x) / c) = (∑ i, Real.exp (F i t x) * (D i x).tan) / c := fun c => by
      rw [Finset.sum_div]; exact Finset.sum_congr rfl fun i _ => by ring
    rw [e, ← Finset.sum_div, div_div_div_cancel_right₀ (Real.exp_pos _).ne']

/-- Tangents are measurable. -/
theorem measT (h : Tame μ w F D t) : AEStronglyMeasurable (fun x => (D x).tan) μ := by
  refine aestronglyMeasurable_of_tendsto_ae (𝓝[≠] (0 : ℝ)) (f := fun u x => u⁻¹ • (F (t + u) x - F t x))
    (fun u => (show Measurable fun x => u⁻¹ • (F (t + u) x - F t x) from
      ((h.meas (t + u)).sub (h.meas t)).const_smul u⁻¹).aestronglyMeasurable) ?_
  filter_upwards [h.deriv] with x hx
  exact hasDerivAt_iff_tendsto_slope_zero.1 hx

end Tame

/-- The densities `exp (lp s x)` for parameters near `t` are below one function all of whose moments (against powers of the
gauge) are finite. -/
def Dominated (μ : Measure X) (w : X → ℝ) (lp : ℝ → X → ℝ) (t : ℝ) : Prop :=
  ∃ B : X → ℝ, (∀ k : ℕ, Integrable (fun x => w x ^ k * B x) μ) ∧ ∀ᶠ s in 𝓝 t, ∀ x, Real.exp (lp s x) ≤ B x

theorem exp_lip_le {a b B : ℝ} (ha : Real.exp a ≤ B) (hb : Real.exp b ≤ B) : |Real.exp a - Real.exp b| ≤ B * |a - b| := by
  have hp : 0 < B := (Real.exp_pos _).trans_le ha
  have := Convex.norm_image_sub_le_of_norm_deriv_le (f := Real.exp) (s := Set.Iic (Real.log B))
    (C := B) (x := b) (y := a) (fun z _ => Real.differentiableAt_exp) (fun z hz => ?_) (convex_Iic _)
    ((Real.le_log_iff_exp_le hp).2 hb) ((Real.le_log_iff_exp_le hp).2 ha)
  · simpa [Real.norm_eq_abs] using this
  · rw [Real.deriv_exp, Real.norm_eq_abs, abs_of_pos (Real.exp_pos _)]
    calc _ ≤ Real.exp (Real.log B) := Real.exp_le_exp.2 hz
      _ = _ := Real.exp_log hp

/-- Differentiation under the expectation. -/
theorem expect_deriv {μ : Measure X} {w : X → ℝ} (hw : ∀ x, 1 ≤ w x) {lp h : ℝ → X → ℝ} {D H : X → Dual} {t : ℝ}
    (hl : Tame μ w lp D t) (hdom : Dominated μ w lp t) (hh : Tame μ w h H t) :
    (∀ᶠ s in 𝓝 t, Integrable (fun x => Real.exp (lp s x) * h s x) μ) ∧
    Integrable (fun x => Real.exp (lp t x) * ((D x).tan * h t x + (H x).tan)) μ ∧
    HasDerivAt (fun s => ∫ x, Real.exp (lp s x) * h s x ∂μ)
      (∫ x, Real.exp (lp t x) * ((D x).tan * h t x + (H x).tan) ∂μ) t := by
  obtain ⟨K, hK, k, ε, hε, hb⟩ := hl.grow
  obtain ⟨L, hL, l, δ, hδ, gb⟩ := hh.grow
  obtain ⟨B, hBi, hB⟩ := hdom
  obtain ⟨η, hη, hB⟩ := Metric.eventually_nhds_iff_ball.1 hB
  set S := Metric.ball t (min (min ε δ) η) with hS
  have hSn : S ∈ 𝓝 t := Metric.ball_mem_nhds _ (lt_min (lt_min hε hδ) hη)
  have s1 : S ⊆ Metric.ball t ε := Metric.ball_subset_ball ((min_le_left _ _).trans (min_le_left _ _))
  have s2 : S ⊆ Metric.ball t δ := Metric.ball_subset_ball ((min_le_left _ _).trans (min_le_right _ _))
  have s3 : S ⊆ Metric.ball t η := Metric.ball_subset_ball (min_le_right _ _)
  have htS : t ∈ S := mem_of_mem_nhds hSn
  have hB0 : ∀ x, 0 ≤ B x := fun x => (Real.exp_pos _).le.trans (hB t (s3 htS) x)
  have hm : ∀ s, Measurable fun x => Real.exp (lp s x) * h s x := fun s => (hl.meas s).exp.mul (hh.meas s)
  have hint : ∀ s ∈ S, Integrable (fun x => Real.exp (lp s x) * h s x) μ := fun s hs => by
    refine ((hBi l).const_mul L).mono' (hm s).aestronglyMeasurable (ae_of_all _ fun x => ?_)
    rw [Real.norm_eq_abs, abs_mul, abs_of_pos (Real.exp_pos _)]
    have := mul_le_mul (hB s (s3 hs) x) (gb x s (s2 hs)).1 (abs_nonneg _) (hB0 x)
    linarith
  have hdT : AEStronglyMeasurable (fun x => Real.exp (lp t x) * ((D x).tan * h t x + (H x).tan)) μ :=
    (hl.meas t).exp.aestronglyMeasurable.mul ((hl.measT.mul (hh.meas t).aestronglyMeasurable).add hh.measT)
  have key := hasDerivAt_integral_of_dominated_loc_of_lip (μ := μ) (F := fun s x => Real.exp (lp s x) * h s x)
    (F' := fun x => Real.exp (lp t x) * ((D x).tan * h t x + (H x).tan))
    (bound := fun x => K * L * (w x ^ (k + l) * B x) + L * (w x ^ l * B x)) hSn
    (Eventually.of_forall fun s => (hm s).aestronglyMeasurable) (hint t htS) hdT ?_
    (((hBi (k + l)).const_mul (K * L)).add ((hBi l).const_mul L)) ?_
  · exact ⟨eventually_of_mem hSn hint, key.1, key.2⟩
  · refine ae_of_all _ fun x => ?_
    have hw0 : 0 < w x := by linarith [hw x]
    have hBx := hB0 x
    have hpos : 0 ≤ K * L * (w x ^ (k + l) * B x) + L * (w x ^ l * B x) := by positivity
    refine LipschitzOnWith.of_dist_le_mul fun s hs r hr => ?_
    rw [Real.dist_eq, Real.dist_eq, Real.coe_nnabs, abs_of_nonneg hpos]
    have e1 := exp_lip_le (hB s (s3 hs) x) (hB r (s3 hr) x)
    have e2 := e1.trans (mul_le_mul_of_nonneg_left ((hb x s (s1 hs)).2 r (s1 hr)) hBx)
    have a1 := mul_le_mul e2 (gb x s (s2 hs)).1 (abs_nonneg _) (by positivity)
    have a2 := mul_le_mul (hB r (s3 hr) x) ((gb x s (s2 hs)).2 r (s2 hr)) (abs_nonneg _) hBx
    rw [← abs_mul] at a1
    rw [← abs_of_pos (Real.exp_pos (lp r x)), ← abs_mul] at a2
    calc |Real.exp (lp s x) * h s x - Real.exp (lp r x) * h r x|
        = |(Real.exp (lp s x) - Real.exp (lp r x)) * h s x + Real.exp (lp r x) * (h s x - h r x)| := by ring_nf
      _ ≤ _ := abs_add_le _ _
      _ ≤ _ := add_le_add a1 a2
      _ = _ := by rw [pow_add]; ring
  · filter_upwards [hl.deriv, hh.deriv] with x hx gx
    refine (hx.exp.mul gx).congr_deriv ?_
    ring

end Distrax
