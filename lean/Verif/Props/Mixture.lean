import Verif.Model.Mixture
import Verif.Spec.Mixture
import Verif.Lemmas.MathUtils
import Verif.Lemmas.Categorical
import Mathlib.MeasureTheory.Measure.Dirac
import Mathlib.MeasureTheory.Measure.Prod
import Mathlib.Tactic.Linarith
import Mathlib.Tactic.Ring

/-! C34: mixtures. -/

namespace Distrax

open XR Spec MeasureTheory

theorem Spec.IsLogDensity.eq_xlog {x : XR} (h : IsLogDensity x) : x = xlog (weight x) := by
  rcases h with rfl | ⟨a, rfl⟩
  · simp [xlog, weight]
  · simp [xlog, weight, (Real.exp_pos a).ne', Real.log_exp]

theorem xlog_isLogDensity (p : ℝ) : IsLogDensity (xlog p) := by
  unfold xlog; split
  · exact Or.inl rfl
  · exact Or.inr ⟨_, rfl⟩

theorem xlog_pos {p : ℝ} (h : 0 < p) : xlog p = fin (Real.log p) := if_neg h.ne'
@[simp] theorem xlog_zero : xlog 0 = ninf := if_pos rfl

theorem xlog_add {p q : ℝ} (hp : 0 ≤ p) (hq : 0 ≤ q) : xlog p + xlog q = xlog (p * q) := by
  rcases hp.lt_or_eq with hp | rfl
  · rcases hq.lt_or_eq with hq | rfl
    · rw [xlog_pos hp, xlog_pos hq, xlog_pos (mul_pos hp hq), Real.log_mul hp.ne' hq.ne']; rfl
    · rw [xlog_pos hp]; simp
  · rw [zero_mul, xlog_zero]
    rcases xlog_isLogDensity q with h | ⟨a, h⟩ <;> rw [h] <;> rfl

theorem log1p_fin_nonneg {a : ℝ} (h : 0 ≤ a) : XR.log1p (fin a) = fin (Real.log (1 + a)) := by
  rw [log1p, one_def, fin_add, log_fin_pos (by linarith)]

theorem logaddexp_xlog {p q : ℝ} (hp : 0 ≤ p) (hq : 0 ≤ q) : logaddexp (xlog p) (xlog q) = xlog (p + q) := by
  unfold logaddexp
  rcases hp.lt_or_eq with hp | rfl
  · rcases hq.lt_or_eq with hq | rfl
    · rw [xlog_pos hp, xlog_pos hq, xlog_pos (add_pos hp hq), fin_sub]
      rw [sel_neg (by simp [isNan])]
      show XR.max (fin _) (fin _) + XR.log1p (XR.exp (fin (-|_|))) = _
      rw [exp_fin, log1p_fin_nonneg (Real.exp_pos _).le]
      rcases lt_or_ge p q with h | h
      · have hl := Real.log_lt_log hp h
        have : XR.max (fin (Real.log p)) (fin (Real.log q)) = fin (Real.log q) := if_pos hl
        rw [this, fin_add, fin_inj, abs_of_neg (by linarith), neg_neg, Real.exp_sub, Real.exp_log hp, Real.exp_log hq,
          ← Real.log_mul hq.ne' (by positivity)]
        congr 1; field_simp; ring
      · have hl := Real.log_le_log hq h
        have : XR.max (fin (Real.log p)) (fin (Real.log q)) = fin (Real.log p) := if_neg (not_lt.2 hl)
        rw [this, fin_add, fin_inj, abs_of_nonneg (by linarith), neg_sub, Real.exp_sub, Real.exp_log hp, Real.exp_log hq,
          ← Real.log_mul hp.ne' (by positivity)]
        congr 1; field_simp
    · rw [xlog_pos hp, xlog_zero, add_zero, xlog_pos hp, fin_sub_ninf, sel_neg (by simp [isNan])]
      show XR.max (fin _) ninf + XR.log1p (fin 0) = _
      rw [log1p_fin_nonneg le_rfl]
      have : XR.max (fin (Real.log p)) ninf = fin (Real.log p) := if_neg (by simp [ltB])
      rw [this]; simp
  · rcases hq.lt_or_eq with hq | rfl
    · rw [xlog_pos hq, xlog_zero, zero_add, xlog_pos hq, ninf_sub_fin, sel_neg (by simp [isNan])]
      show XR.max ninf (fin _) + XR.log1p (fin 0) = _
      rw [log1p_fin_nonneg le_rfl]
      have : XR.max ninf (fin (Real.log q)) = fin (Real.log q) := if_pos (by simp [ltB])
      rw [this]; simp
    · rw [add_zero, xlog_zero]
      show XR.sel (XR.isNan nan) _ _ = _
      exact sel_pos rfl

/-- `logsumexp` of a row of log-weights is the log of the sum of the weights; in particular it is `-inf`, not nan, when
all entries are `-inf`. -/
theorem logsumexp_legal {n : ℕ} (a : Fin n → XR) (h : ∀ i, IsLogDensity (a i)) :
    logsumexp a = xlog (∑ i, weight (a i)) := by
  by_cases hs : ∃ i x, a i = fin x
  · have hl : LegalLogits a := ⟨h, hs⟩
    obtain ⟨m, hm⟩ := hl.rowMax
    have hS := hl.weight_sum_pos
    unfold logsumexp
    simp only [hm]
    rw [sel_pos (show XR.isFinite (fin m) from trivial)]
    have : ∀ i, XR.exp (a i - fin m) = fin (weight (a i) * Real.exp (-m)) := fun i => weight_sub (h i) m
    simp only [this]
    rw [sum_fin, ← Finset.sum_mul, log_fin_pos (mul_pos hS (Real.exp_pos _)), Real.log_mul hS.ne' (Real.exp_pos _).ne',
      Real.log_exp, fin_add, xlog_pos hS]
    congr 1; ring
  · have hn : ∀ i, a i = ninf := fun i => (h i).resolve_right fun ⟨x, hx⟩ => hs ⟨i, x, hx⟩
    have hm : rowMax a = ninf := by
      unfold rowMax
      have : ∀ L : List XR, (∀ x ∈ L, x = ninf) → L.foldl XR.max ninf = ninf := by
        intro L
        induction L with
        | nil => simp
        | cons y L ih =>
          intro hL
          rw [List.foldl_cons, hL y (by simp)]
          have : XR.max ninf ninf = ninf := if_neg (by simp [ltB])
          rw [this]; exact ih fun x hx => hL x (by simp [hx])
      refine this _ fun x hx => ?_
      obtain ⟨i, rfl⟩ := (List.mem_ofFn' _ _).1 hx
      exact hn i
    unfold logsumexp
    simp only [hm]
    rw [sel_neg (by simp [isFinite])]
    have : ∀ i, XR.exp (a i - 0) = fin 0 := fun i => by rw [hn i]; rfl
    simp only [this]
    rw [sum_fin]
    simp [hn, weight]

/-- `MixtureOfTwo.log_prob` is `log (p a + (1 - p) b)` for every `0 ≤ p ≤ 1`, the end points included, and every value
(never nan). -/
theorem C34_two_log_prob {E : Type} (d : MixtureOfTwo E) (h0 : 0 ≤ d.probA) (h1 : d.probA ≤ 1) (v : E)
    (ha : IsLogDensity (d.logProbA v)) (hb : IsLogDensity (d.logProbB v)) :
    d.logProb v = xlog (d.probA * weight (d.logProbA v) + d.probB * weight (d.logProbB v)) ∧
    weight (d.logProb v) = d.probA * weight (d.logProbA v) + d.probB * weight (d.logProbB v) ∧
    IsLogDensity (d.logProb v) := by
  have h1' : 0 ≤ 1 - d.probA := by linarith
  have key : d.logProb v = xlog (d.probA * weight (d.logProbA v) + d.probB * weight (d.logProbB v)) := by
    unfold MixtureOfTwo.logProb MixtureOfTwo.probB
    simp only [XR.log_eq_xlog h0, XR.log_eq_xlog h1']
    conv_lhs => rw [ha.eq_xlog, hb.eq_xlog]
    rw [xlog_add h0 (weight_nonneg _), xlog_add h1' (weight_nonneg _),
      logaddexp_xlog (mul_nonneg h0 (weight_nonneg _)) (mul_nonneg h1' (weight_nonneg _))]
  refine ⟨key, ?_, ?_⟩
  · rw [key, weight_xlog]
    exact add_nonneg (mul_nonneg h0 (weight_nonneg _)) (mul_nonneg h1' (weight_nonneg _))
  · rw [key]; exact xlog_isLogDensity _

/-- Mixtures of normalised densities are normalised, with respect to any reference measure. -/
theorem C34_two_normalised {E : Type} [MeasurableSpace E] (μ : Measure E) (d : MixtureOfTwo E)
    (h0 : 0 ≤ d.probA) (h1 : d.probA ≤ 1) (ha : ∀ v, IsLogDensity (d.logProbA v)) (hb : ∀ v, IsLogDensity (d.logProbB v))
    (hda : IsDensity μ fun v => weight (d.logProbA v)) (hdb : IsDensity μ fun v => weight (d.logProbB v)) :
    IsDensity μ fun v => weight (d.logProb v) := by
  have e : (fun v => weight (d.logProb v)) = fun v => d.probA * weight (d.logProbA v) + d.probB * weight (d.logProbB v) :=
    funext fun v => (C34_two_log_prob d h0 h1 v (ha v) (hb v)).2.1
  refine ⟨fun v => weight_nonneg _, ?_, ?_⟩
  · rw [e]; exact (hda.integrable.const_mul _).add (hdb.integrable.const_mul _)
  · rw [e, integral_add (hda.integrable.const_mul _) (hdb.integrable.const_mul _), integral_const_mul, integral_const_mul,
      hda.one, hdb.one, MixtureOfTwo.probB]; ring

/-- Every sample of every batch entry is the sample of one of the two components, chosen by the mask of the draw. -/
theorem C34_two_sample {n : ℕ} {E B : Type} (mask : Fin n → Bool) (sa sb : Fin n → B → E) (i : Fin n) (b : B) :
    (mask i = true → MixtureOfTwo.sampleN mask sa sb i b = sa i b) ∧
    (mask i = false → MixtureOfTwo.sampleN mask sa sb i b = sb i b) := by
  constructor <;> intro h <;> simp [MixtureOfTwo.sampleN, h]

/-- Law of one batch entry: with an independent mask draw of success probability `p` and arbitrary component laws, the
sample lies in `A` with probability `p P(a ∈ A) + (1 - p) P(b ∈ A)`. -/
theorem C34_two_law {E : Type} [MeasurableSpace E] (α β : Measure E) [IsProbabilityMeasure α] [IsProbabilityMeasure β]
    {p : ℝ} (h0 : 0 ≤ p) (h1 : p ≤ 1) (A : Set E) (hA : MeasurableSet A) :
    (((ENNReal.ofReal p • Measure.dirac true + ENNReal.ofReal (1 - p) • Measure.dirac false).prod (α.prod β)).real
      {w : Bool × E × E | MixtureOfTwo.sampleN (n := 1) (fun _ => w.1) (fun _ (_ : Unit) => w.2.1) (fun _ _ => w.2.2) 0 () ∈ A}) =
      p * α.real A + (1 - p) * β.real A := by
  have hset : {w : Bool × E × E | MixtureOfTwo.sampleN (n := 1) (fun _ => w.1) (fun _ (_ : Unit) => w.2.1) (fun _ _ => w.2.2) 0 () ∈ A}
      = ({true} ×ˢ (A ×ˢ Set.univ)) ∪ ({false} ×ˢ (Set.univ ×ˢ A)) := by
    ext ⟨b, x, y⟩
    cases b <;> simp [MixtureOfTwo.sampleN]
  have h1' : 0 ≤ 1 - p := by linarith
  rw [hset, measureReal_def, measure_union]
  · rw [Measure.prod_prod, Measure.prod_prod, Measure.prod_prod, Measure.prod_prod]
    simp only [Measure.add_apply, Measure.smul_apply, smul_eq_mul, measure_univ, mul_one, one_mul]
    rw [Measure.dirac_apply' _ (measurableSet_singleton _), Measure.dirac_apply' _ (measurableSet_singleton _),
      Measure.dirac_apply' _ (measurableSet_singleton _), Measure.dirac_apply' _ (measurableSet_singleton _)]
    simp only [Set.indicator, Set.mem_singleton_iff, Pi.one_apply, if_true, Bool.false_eq_true, Bool.true_eq_false, if_false,
      reduceCtorEq, mul_one, mul_zero, add_zero, zero_add]
    rw [ENNReal.toReal_add (by finiteness) (by finiteness), ENNReal.toReal_mul, ENNReal.toReal_mul, ENNReal.toReal_ofReal h0,
      ENNReal.toReal_ofReal h1']
    rfl
  · rw [Set.disjoint_left]; rintro ⟨b, x, y⟩ ⟨h, -⟩ ⟨h', -⟩
    simp only [Set.mem_singleton_iff] at h h'
    rw [h] at h'; cases h'
  · exact (measurableSet_singleton _).prod (MeasurableSet.univ.prod hA)

/-- Finding: the mask is drawn once per sample, so in one draw all batch entries come from the same component: whenever
one entry differs from `b`'s sample, every entry is `a`'s. -/
theorem C34_two_batch_shares_mask {n : ℕ} {E B : Type} (mask : Fin n → Bool) (sa sb : Fin n → B → E) (i : Fin n) (b : B)
    (h : MixtureOfTwo.sampleN mask sa sb i b ≠ sb i b) : ∀ b', MixtureOfTwo.sampleN mask sa sb i b' = sa i b' := by
  intro b'
  have : mask i = true := by
    by_contra h'
    exact h ((C34_two_sample mask sa sb i b).2 (by simpa using h'))
  exact (C34_two_sample mask sa sb i b').1 this

/-- The constructor accepts exactly a scalar weight with components of equal event shape, batch shape and dtype. -/
theorem C34_two_ctor {δ : Type} [DecidableEq δ] (rank : ℕ) (ea eb ba bb : List ℕ) (da db : δ) :
    MixtureOfTwo.check rank ea eb ba bb da db = .ok () ↔ rank = 0 ∧ ea = eb ∧ ba = bb ∧ da = db := by
  unfold MixtureOfTwo.check
  split_ifs <;> simp_all

variable {K : ℕ} {E ι : Type}

/-- The mixture weights denoted by the logits. -/
noncomputable def mixW (logits : Fin K → XR) (k : Fin K) : ℝ := weight (logits k) / ∑ j, weight (logits j)

section
variable (logits : Fin K → XR) (hl : LegalLogits logits) (lp : Fin K → E → XR) (m v : Fin K → ι → ℝ)
include hl

/-- `MixtureSameFamily.log_prob` is `log sum_k w_k exp(log_prob_k)`, for every number of components, all logits, every
value (never nan; `-inf` iff no component of positive weight gives mass). -/
theorem C34_same_family_log_prob (x : E) (hx : ∀ k, IsLogDensity (lp k x)) :
    (MixtureSameFamily.init logits lp m v).logProb x = xlog (∑ k, mixW logits k * weight (lp k x)) ∧
    weight ((MixtureSameFamily.init logits lp m v).logProb x) = ∑ k, mixW logits k * weight (lp k x) := by
  have hW : ∀ k, 0 ≤ mixW logits k := (pmf_weights hl).nonneg
  have e : ∀ k, lp k x + logSoftmax logits k = xlog (mixW logits k * weight (lp k x)) := by
    intro k
    rw [logSoftmax_legal hl, mul_comm, ← xlog_add (weight_nonneg _) (hW k), ← (hx k).eq_xlog]; rfl
  have key : (MixtureSameFamily.init logits lp m v).logProb x = xlog (∑ k, mixW logits k * weight (lp k x)) := by
    show logsumexp (fun k => lp k x + logSoftmax logits k) = _
    rw [logsumexp_legal _ (fun k => by rw [e]; exact xlog_isLogDensity _)]
    congr 1
    refine Finset.sum_congr rfl fun k _ => ?_
    rw [e, weight_xlog (mul_nonneg (hW k) (weight_nonneg _))]
  exact ⟨key, by rw [key, weight_xlog (Finset.sum_nonneg fun k _ => mul_nonneg (hW k) (weight_nonneg _))]⟩

/-- Mixtures of normalised component densities are normalised. -/
theorem C34_same_family_normalised [MeasurableSpace E] (μ : Measure E) (hx : ∀ k x, IsLogDensity (lp k x))
    (hd : ∀ k, IsDensity μ fun x => weight (lp k x)) :
    IsDensity μ fun x => weight ((MixtureSameFamily.init logits lp m v).logProb x) := by
  have e : (fun x => weight ((MixtureSameFamily.init logits lp m v).logProb x)) =
      fun x => ∑ k, mixW logits k * weight (lp k x) :=
    funext fun x => (C34_same_family_log_prob logits hl lp m v x fun k => hx k x).2
  refine ⟨fun x => weight_nonneg _, ?_, ?_⟩
  · rw [e]; exact integrable_finsetSum _ fun k _ => (hd k).integrable.const_mul _
  · rw [e, integral_finsetSum _ fun k _ => (hd k).integrable.const_mul _]
    simp only [integral_const_mul, (hd _).one, mul_one]
    exact (pmf_weights hl).sum_one

theorem weights_eq (k : Fin K) : (MixtureSameFamily.init logits lp m v).weights k = fin (mixW logits k) := by
  show XR.exp (logSoftmax logits k) = _
  rw [logSoftmax_legal hl, exp_xlog]
  · rfl
  · exact (pmf_weights hl).nonneg k

/-- The formulas of `mean` and `variance` in real numbers. -/
theorem moments_formula (j : ι) :
    (MixtureSameFamily.init logits lp m v).mean j = fin (∑ k, mixW logits k * m k j) ∧
    (MixtureSameFamily.init logits lp m v).variance j =
      fin (∑ k, mixW logits k * v k j + ∑ k, mixW logits k * (m k j - ∑ i, mixW logits i * m i j) ^ 2) := by
  have hm : (∑ k, fin (m k j) * (MixtureSameFamily.init logits lp m v).weights k) = fin (∑ k, mixW logits k * m k j) := by
    simp only [weights_eq logits hl lp m v, fin_mul, sum_fin, mul_comm]
  refine ⟨hm, ?_⟩
  unfold MixtureSameFamily.variance
  show (∑ k, (MixtureSameFamily.init logits lp m v).weights k * fin (v k j)) +
    (∑ k, (MixtureSameFamily.init logits lp m v).weights k *
      ((fin (m k j) - (∑ k, fin (m k j) * (MixtureSameFamily.init logits lp m v).weights k)) *
      (fin (m k j) - (∑ k, fin (m k j) * (MixtureSameFamily.init logits lp m v).weights k)))) = _
  rw [hm]
  simp only [weights_eq logits hl lp m v, fin_mul, sum_fin, fin_sub, fin_add, sq]

/-- `mean` and `variance` are the mean and variance of the mixture density, coordinate by coordinate, whenever the
components report theirs. -/
theorem C34_same_family_moments [MeasurableSpace E] (μ : Measure E) (hx : ∀ k x, IsLogDensity (lp k x))
    (hd : ∀ k, IsDensity μ fun x => weight (lp k x)) (coord : ι → E → ℝ) (j : ι)
    (hm : ∀ k, HasMoments μ (fun x => weight (lp k x)) (coord j) (m k j) (v k j)) :
    ∃ M V, (MixtureSameFamily.init logits lp m v).mean j = fin M ∧
      (MixtureSameFamily.init logits lp m v).variance j = fin V ∧
      HasMoments μ (fun x => weight ((MixtureSameFamily.init logits lp m v).logProb x)) (coord j) M V := by
  obtain ⟨h1, h2⟩ := moments_formula logits hl lp m v j
  refine ⟨_, _, h1, h2, ?_⟩
  set M := ∑ k, mixW logits k * m k j with hM
  have e : (fun x => weight ((MixtureSameFamily.init logits lp m v).logProb x)) =
      fun x => ∑ k, mixW logits k * weight (lp k x) :=
    funext fun x => (C34_same_family_log_prob logits hl lp m v x fun k => hx k x).2
  have e' := fun x => congrFun e x
  have ei : ∀ k x, mixW logits k * weight (lp k x) * coord j x = mixW logits k * (weight (lp k x) * coord j x) := by
    intros; ring
  have hsq : ∀ k, (fun x => weight (lp k x) * (coord j x - M) ^ 2) = fun x =>
      weight (lp k x) * (coord j x - m k j) ^ 2 + (2 * (m k j - M) * (weight (lp k x) * coord j x) +
        (M ^ 2 - m k j ^ 2) * weight (lp k x)) := by intro k; ext x; ring
  have hk : ∀ k, Integrable (fun x => weight (lp k x) * (coord j x - M) ^ 2) μ ∧
      ∫ x, weight (lp k x) * (coord j x - M) ^ 2 ∂μ = v k j + (m k j - M) ^ 2 := by
    intro k
    have i1 := (hm k).int2
    have i2 : Integrable (fun x => 2 * (m k j - M) * (weight (lp k x) * coord j x) +
        (M ^ 2 - m k j ^ 2) * weight (lp k x)) μ := ((hm k).int1.const_mul (2 * (m k j - M))).add ((hd k).integrable.const_mul (M ^ 2 - m k j ^ 2))
    rw [hsq k]
    refine ⟨i1.add i2, ?_⟩
    rw [integral_add i1 i2, (hm k).variance]
    rw [integral_add ((hm k).int1.const_mul (2 * (m k j - M))) ((hd k).integrable.const_mul (M ^ 2 - m k j ^ 2)),
      integral_const_mul, integral_const_mul, (hm k).mean, (hd k).one]
    ring
  refine ⟨?_, ?_, ?_, ?_⟩
  · simp only [e']; simp only [Finset.sum_mul, ei]
    exact integrable_finsetSum _ fun k _ => (hm k).int1.const_mul _
  · simp only [e']; simp only [Finset.sum_mul, ei]
    rw [integral_finsetSum _ fun k _ => (hm k).int1.const_mul _]
    simp only [integral_const_mul, (hm _).mean, hM]
  · simp only [e']; simp only [Finset.sum_mul, mul_assoc]
    exact integrable_finsetSum _ fun k _ => (hk k).1.const_mul _
  · simp only [e']; simp only [Finset.sum_mul, mul_assoc]
    rw [integral_finsetSum _ fun k _ => (hk k).1.const_mul _]
    simp only [integral_const_mul, (hk _).2, mul_add, Finset.sum_add_distrib]
end

/-- If all components drew finite values, the sample is exactly the selected component's draw. -/
theorem C34_same_family_sample {n : ℕ} (s : Fin n → ι → ℝ) (k : Fin n) (j : ι) :
    MixtureSameFamily.sample (k : ℕ) (fun i j => fin (s i j)) j = fin (s k j) := by
  unfold MixtureSameFamily.sample oneHot
  have : ∀ i : Fin n, fin (s i j) * XR.sel (eqB (fin ((k : ℕ) : ℝ)) (fin ((i : ℕ) : ℝ))) 1 0 =
      fin (if i = k then s i j else 0) := by
    intro i
    by_cases h : i = k
    · subst h; rw [sel_pos (XR.eqB_fin.2 rfl), one_def, fin_mul]; simp
    · rw [sel_neg, zero_def, fin_mul]
      · simp [h]
      · show ¬ ((k : ℕ) : ℝ) = ((i : ℕ) : ℝ)
        intro h'; exact h (Fin.ext (by exact_mod_cast h'.symm))
  simp only [this, sum_fin]
  simp

/-- Finding: masking is by multiplication, so an infinite draw of an unselected component turns the sample into nan. -/
theorem C34_same_family_inf_leaks {n : ℕ} (s : Fin n → ι → XR) (k i : Fin n) (hik : i ≠ k) (j : ι)
    (hinf : s i j = pinf ∨ s i j = ninf) : MixtureSameFamily.sample (k : ℕ) s j = nan := by
  unfold MixtureSameFamily.sample oneHot
  refine sum_nan _ _ ⟨i, Finset.mem_univ _, ?_⟩
  have : ¬ eqB (fin ((k : ℕ) : ℝ)) (fin ((i : ℕ) : ℝ)) := by
    show ¬ ((k : ℕ) : ℝ) = ((i : ℕ) : ℝ)
    intro h'; exact hik (Fin.ext (by exact_mod_cast h'.symm))
  show s i j * XR.sel (eqB (fin ((k : ℕ) : ℝ)) (fin ((i : ℕ) : ℝ))) 1 0 = nan
  rw [sel_neg this, zero_def]
  rcases hinf with h | h <;> rw [h]
  · show infOf 0 = nan; simp [infOf]
  · show infOf (-0) = nan; simp [infOf]

/-- Finding: the constructor compares batch shapes only, not the number of mixture weights with the number of
components; a drawn component number beyond the last component yields the sample 0. -/
theorem C34_same_family_count_unchecked {n : ℕ} (s : Fin n → ι → ℝ) (k : ℕ) (hk : n ≤ k) (j : ι) (batch : List ℕ) :
    MixtureSameFamily.check batch (batch ++ [n]) = .ok () ∧
    MixtureSameFamily.sample k (fun i j => fin (s i j)) j = fin 0 := by
  refine ⟨by simp [MixtureSameFamily.check], ?_⟩
  unfold MixtureSameFamily.sample oneHot
  have : ∀ i : Fin n, fin (s i j) * XR.sel (eqB (fin (k : ℝ)) (fin ((i : ℕ) : ℝ))) 1 0 = fin 0 := by
    intro i
    rw [sel_neg, zero_def, fin_mul, mul_zero]
    show ¬ (k : ℝ) = ((i : ℕ) : ℝ)
    intro h'; have : k = i := by exact_mod_cast h'
    omega
  simp only [this, sum_fin]; simp

/-- The constructor's check: the components' batch shape is the mixture's with one trailing axis (or both are empty). -/
theorem C34_same_family_ctor (bm bc : List ℕ) :
    MixtureSameFamily.check bm bc = .ok () ↔ (∃ n, bc = bm ++ [n]) ∨ (bm = [] ∧ bc = []) := by
  unfold MixtureSameFamily.check
  rcases List.eq_nil_or_concat bc with rfl | ⟨l, a, rfl⟩
  · cases bm <;> simp
  · by_cases h : bm = l
    · subst h; simp
    · simp [h, Ne.symm h]

/-- Law of the sample: drawing the component number from the weights `w` and, independently, all components jointly from
any law `ν`, the sample lies in `A` with probability `sum_k w_k P(X_k ∈ A)`. -/
theorem C34_same_family_law (w : Fin K → ℝ) (hw : IsPmf w) (ν : Measure (Fin K → ι → ℝ)) [IsProbabilityMeasure ν]
    (A : Set (ι → ℝ)) (hA : MeasurableSet A) :
    ∑ k, w k * ν.real {s | ∃ y ∈ A, MixtureSameFamily.sample (k : ℕ) (fun i j => fin (s i j)) = fun j => fin (y j)} =
      ∑ k, w k * (ν.map fun s => s k).real A ∧ ∑ k, w k * (ν.map fun s => s k).real Set.univ = 1 := by
  constructor
  · refine Finset.sum_congr rfl fun k _ => ?_
    rw [measureReal_def, measureReal_def, Measure.map_apply (measurable_pi_apply k) hA]
    congr 3
    ext s
    have : MixtureSameFamily.sample (k : ℕ) (fun i j => fin (s i j)) = fun j => fin (s k j) :=
      funext fun j => C34_same_family_sample s k j
    simp only [this, Set.mem_ofPred_eq, Set.mem_preimage]
    constructor
    · rintro ⟨y, hy, h⟩
      have : s k = y := funext fun j => by have := congrFun h j; simpa using this
      rwa [this]
    · intro h; exact ⟨_, h, rfl⟩
  · rw [← hw.sum_one]
    refine Finset.sum_congr rfl fun k _ => ?_
    rw [measureReal_def, Measure.map_apply (measurable_pi_apply k) MeasurableSet.univ]; simp

/-- Non-vacuity: equal-weight two-point components under counting measure. -/
example : let d : MixtureOfTwo Bool := ⟨1, fun b => if b then .fin 0 else .ninf, fun b => if b then .ninf else .fin 0⟩
    weight (d.logProb true) = 1 ∧ weight (d.logProb false) = 0 := by
  intro d
  have h := fun v => (C34_two_log_prob d (by norm_num [d]) (by norm_num [d]) v
    (by cases v <;> simp [d, IsLogDensity]) (by cases v <;> simp [d, IsLogDensity])).2.1
  rw [h, h]
  simp [d, MixtureOfTwo.probB, weight]

example : LegalLogits (fun k : Fin 2 => if k = 0 then XR.ninf else .fin 3) := ⟨fun k => by fin_cases k <;> simp, ⟨1, 3, by simp⟩⟩

end Distrax
