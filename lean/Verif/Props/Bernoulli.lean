import Verif.Spec.Bernoulli
import Verif.Props.Categorical
import Mathlib.MeasureTheory.Measure.Lebesgue.Basic

/-! Property C27 (Bernoulli). -/

namespace Distrax

open XR Spec

/-- Exactly one parameter, and an admissible dtype. -/
theorem C27_constructor_errors (l p : Option XR) (dt : BDType) :
    (∃ e, Bern.init l p dt = .error e) ↔ (l.isSome = p.isSome ∨ dt = .other) := by
  unfold Bern.init
  cases l <;> cases p <;> cases dt <;> simp

theorem logistic_mem (a : ℝ) : 0 < 1 / (1 + Real.exp (-a)) ∧ 1 / (1 + Real.exp (-a)) < 1 := by
  have := Real.exp_pos (-a)
  refine ⟨by positivity, ?_⟩
  rw [div_lt_one (by positivity)]; linarith

/-- Every success probability in [0,1] and every logit except nan (infinite logits included) gives an object
describing the corresponding success probability. -/
theorem C27_constructor (dt : BDType) (hd : dt ≠ .other) :
    (∀ p : ℝ, 0 ≤ p → p ≤ 1 → ∃ d, Bern.init none (some (fin p)) dt = .ok d ∧ BernP d p) ∧
    (∀ l : XR, l ≠ nan → ∃ d p, Bern.init (some l) none dt = .ok d ∧ BernP d p ∧ XR.sigmoid l = fin p) := by
  refine ⟨fun p h0 h1 => ⟨⟨some (fin p), none⟩, ?_, h0, h1, .inl ⟨rfl, rfl⟩⟩, fun l hl => ?_⟩
  · unfold Bern.init; cases dt <;> simp_all
  · have hi : Bern.init (some l) none dt = .ok ⟨none, some l⟩ := by unfold Bern.init; cases dt <;> simp_all
    cases l with
    | fin a =>
      exact ⟨_, _, hi, ⟨(logistic_mem a).1.le, (logistic_mem a).2.le, .inr (.inl ⟨rfl, a, rfl, rfl⟩)⟩, rfl⟩
    | pinf => exact ⟨_, 1, hi, ⟨by norm_num, le_rfl, .inr (.inr (.inl ⟨rfl, rfl, rfl⟩))⟩, rfl⟩
    | ninf => exact ⟨_, 0, hi, ⟨le_rfl, by norm_num, .inr (.inr (.inr ⟨rfl, rfl, rfl⟩))⟩, rfl⟩
    | nan => exact absurd rfl hl

theorem one_sub_logistic (a : ℝ) : 1 - 1 / (1 + Real.exp (-a)) = 1 / (1 + Real.exp a) := by
  have h1 := Real.exp_pos (-a)
  have h2 := Real.exp_pos a
  have : Real.exp (-a) * Real.exp a = 1 := by rw [← Real.exp_add]; simp
  field_simp
  nlinarith

/-- All the numbers the methods are computed from. -/
theorem bern_params {d : Bern} {p : ℝ} (h : BernP d p) :
    d.probs = fin p ∧ d.logProbsParameter = (xlog (1 - p), xlog p) ∧
    d.probsAndLogProbs = (fin (1 - p), fin p, xlog (1 - p), xlog p) := by
  obtain ⟨h0, h1, h⟩ := h
  rcases h with ⟨e1, e2⟩ | ⟨e1, a, e2, rfl⟩ | ⟨e1, e2, rfl⟩ | ⟨e1, e2, rfl⟩
  · refine ⟨by simp [Bern.probs, e1], ?_, ?_⟩
    · simp only [Bern.logProbsParameter, e1, e2, log1p, one_def, fin_mul, fin_add]
      rw [XR.log_eq_xlog (by linarith), XR.log_eq_xlog h0]
      congr 2; ring
    · simp only [Bern.probsAndLogProbs, e1, e2, log1p, one_def, fin_mul, fin_add, fin_sub]
      rw [XR.log_eq_xlog (by linarith), XR.log_eq_xlog h0]
      congr 2
      · congr 1; ring
      · congr 2; ring
  · have k1 : -XR.softplus (fin a) = xlog (1 - 1 / (1 + Real.exp (-a))) := by
      have := Real.exp_pos a
      rw [one_sub_logistic, xlog, if_neg (by positivity)]
      simp [XR.softplus]
    have k2 : -XR.softplus (fin (-a)) = xlog (1 / (1 + Real.exp (-a))) := by
      have := Real.exp_pos (-a)
      rw [xlog, if_neg (by positivity)]
      simp [XR.softplus]
    have k3 : XR.sigmoid (fin (-a)) = fin (1 - 1 / (1 + Real.exp (-a))) := by
      rw [one_sub_logistic]; simp [XR.sigmoid]
    refine ⟨by simp [Bern.probs, e1, e2, XR.sigmoid], ?_, ?_⟩
    · simp only [Bern.logProbsParameter, e1, e2, fin_mul, neg_mul, one_mul, k1, k2]
    · simp only [Bern.probsAndLogProbs, e1, e2, fin_mul, neg_mul, one_mul, k1, k2, k3]
      rfl
  · have hm : (fin (-1) * pinf : XR) = ninf := by show XR.mul _ _ = _; simp [XR.mul, infOf]
    refine ⟨by simp [Bern.probs, e1, e2, XR.sigmoid], ?_, ?_⟩
    · simp [Bern.logProbsParameter, e2, hm, XR.softplus, xlog]
    · simp [Bern.probsAndLogProbs, e2, hm, XR.softplus, XR.sigmoid, xlog]
  · have hm : (fin (-1) * ninf : XR) = pinf := by show XR.mul _ _ = _; simp [XR.mul, infOf]
    refine ⟨by simp [Bern.probs, e1, e2, XR.sigmoid], ?_, ?_⟩
    · simp [Bern.logProbsParameter, e2, hm, XR.softplus, xlog]
    · simp [Bern.probsAndLogProbs, e2, hm, XR.softplus, XR.sigmoid, xlog]

example : BernP ⟨none, some pinf⟩ 1 ∧ BernP ⟨some (fin (1/3)), none⟩ (1/3) :=
  ⟨⟨by norm_num, le_rfl, .inr (.inr (.inl ⟨rfl, rfl, rfl⟩))⟩, ⟨by norm_num, by norm_num, .inl ⟨rfl, rfl⟩⟩⟩

/-- `logits` and `probs` describe the same number: `logits = log p - log(1-p)` in both parameterisations. -/
theorem C27_logits {d : Bern} {p : ℝ} (h : BernP d p) : d.logits = xlog p - xlog (1 - p) ∧ d.probs = fin p := by
  refine ⟨?_, (bern_params h).1⟩
  obtain ⟨h0, h1, h⟩ := h
  rcases h with ⟨e1, e2⟩ | ⟨e1, a, e2, rfl⟩ | ⟨e1, e2, rfl⟩ | ⟨e1, e2, rfl⟩
  · simp only [Bern.logits, e1, e2, one_def, fin_sub]
    rw [XR.log_eq_xlog h0, XR.log_eq_xlog (show 0 ≤ 1 - p by linarith)]
  · have k1 := Real.exp_pos a
    have k2 := Real.exp_pos (-a)
    rw [one_sub_logistic, xlog, xlog, if_neg (by positivity), if_neg (by positivity)]
    simp only [Bern.logits, e2, fin_sub, fin_inj, one_div, Real.log_inv]
    have : 1 + Real.exp a = Real.exp a * (1 + Real.exp (-a)) := by
      rw [mul_add, ← Real.exp_add]; simp; ring
    rw [this, Real.log_mul (by positivity) (by positivity), Real.log_exp]; ring
  · simp [Bern.logits, e2, xlog]
  · simp [Bern.logits, e2, xlog]

/-- `prob(1) = p`, `prob(0) = 1 - p` and `log_prob` is the logarithm of `prob` at both outcomes, also for
`p = 0` and `p = 1`. -/
theorem C27_log_prob {d : Bern} {p : ℝ} (h : BernP d p) :
    d.prob (fin 1) = fin p ∧ d.prob (fin 0) = fin (1 - p) ∧ d.prob (fin 0) + d.prob (fin 1) = fin 1 ∧
    d.logProb (fin 1) = xlog p ∧ d.logProb (fin 0) = xlog (1 - p) ∧
    XR.exp (d.logProb (fin 1)) = d.prob (fin 1) ∧ XR.exp (d.logProb (fin 0)) = d.prob (fin 0) := by
  obtain ⟨e1, e2, -⟩ := bern_params h
  have a1 : d.prob (fin 1) = fin p := by
    simp only [Bern.prob, e1, one_def, fin_sub, sub_self, mnn_zero, mnn_one _ (.inr ⟨_, rfl⟩), zero_add]
  have a2 : d.prob (fin 0) = fin (1 - p) := by
    simp only [Bern.prob, e1, one_def, fin_sub, sub_zero, mnn_zero, mnn_one _ (.inr ⟨_, rfl⟩), add_zero]
  have a3 : d.logProb (fin 1) = xlog p := by
    simp only [Bern.logProb, e2, one_def, fin_sub, sub_self, mnn_zero, mnn_one _ (xlog_cases _), zero_add]
  have a4 : d.logProb (fin 0) = xlog (1 - p) := by
    simp only [Bern.logProb, e2, one_def, fin_sub, sub_zero, mnn_zero, mnn_one _ (xlog_cases _), add_zero]
  refine ⟨a1, a2, by rw [a1, a2]; simp, a3, a4, ?_, ?_⟩
  · rw [a3, a1, exp_xlog h.1]
  · rw [a4, a2, exp_xlog (by linarith [h.2.1])]

/-- The cdf steps at 0 and 1; `log_cdf` is its logarithm. -/
theorem C27_cdf {d : Bern} {p : ℝ} (h : BernP d p) (v : ℝ) :
    d.cdf (fin v) = fin (if v < 0 then 0 else if v < 1 then 1 - p else 1) ∧
    d.logCdf (fin v) = xlog (if v < 0 then 0 else if v < 1 then 1 - p else 1) := by
  have key : d.cdf (fin v) = fin (if v < 0 then 0 else if v < 1 then 1 - p else 1) := by
    unfold Bern.cdf
    by_cases h0 : v < 0
    · rw [XR.sel_pos (ltB_fin_zero.2 h0), if_pos h0]
    · rw [XR.sel_neg (fun hc => h0 (ltB_fin_zero.1 hc)), if_neg h0]
      by_cases h1 : v < 1
      · rw [if_pos h1, XR.sel_neg, (bern_params h).1]; · rfl
        rintro (hc | hc)
        · have : (1 : ℝ) < v := hc
          linarith
        · have : (1 : ℝ) = v := hc
          linarith
      · rw [if_neg h1, XR.sel_pos]
        rcases (not_lt.1 h1).lt_or_eq with hc | hc
        · exact .inl hc
        · exact .inr hc
  refine ⟨key, ?_⟩
  rw [Bern.logCdf, key, XR.log_eq_xlog]
  split
  · exact le_rfl
  · split
    · linarith [h.2.1]
    · norm_num

/-- Mean, variance, and a mode of maximal probability. -/
theorem C27_moments {d : Bern} {p : ℝ} (h : BernP d p) :
    d.mean = fin p ∧ d.variance = fin (p * (1 - p)) ∧
    (∃ q, d.prob (fin d.mode) = fin q ∧ p ≤ q ∧ 1 - p ≤ q) := by
  obtain ⟨e1, -, -⟩ := bern_params h
  obtain ⟨a1, a2, -⟩ := C27_log_prob h
  refine ⟨e1, ?_, ?_⟩
  · simp only [Bern.variance, e1, one_def, fin_sub, fin_mul]; congr 1; ring
  · unfold Bern.mode
    rw [e1]
    by_cases hp : (1/2 : ℝ) < p
    · rw [if_pos (show ltB (fin (1/2)) (fin p) from hp)]
      exact ⟨p, by simpa using a1, le_rfl, by linarith⟩
    · rw [if_neg (show ¬ ltB (fin (1/2)) (fin p) from hp)]
      exact ⟨1 - p, by simpa using a2, by linarith, le_rfl⟩

/-- Sampling: the set of uniform numbers in [0,1) giving 1 has Lebesgue measure `p`. -/
theorem C27_sample_law {d : Bern} {p : ℝ} (h : BernP d p) :
    MeasureTheory.volume {u : ℝ | u ∈ Set.Ico 0 1 ∧ d.sample u = 1} = ENNReal.ofReal p ∧
    ∀ u, d.sample u = 0 ∨ d.sample u = 1 := by
  have hs : ∀ u, d.sample u = if u < p then 1 else 0 := by
    intro u
    unfold Bern.sample
    rw [(bern_params h).1]
    by_cases hu : u < p
    · rw [if_pos hu]; exact if_pos hu
    · rw [if_neg hu]; exact if_neg hu
  refine ⟨?_, fun u => by rw [hs]; split <;> simp⟩
  have : {u : ℝ | u ∈ Set.Ico 0 1 ∧ d.sample u = 1} = Set.Ico 0 p := by
    ext u
    simp only [hs, Set.mem_ofPred_eq, Set.mem_Ico]
    constructor
    · rintro ⟨⟨a, b⟩, c⟩
      refine ⟨a, ?_⟩
      by_contra hc; simp [hc] at c
    · rintro ⟨a, b⟩
      exact ⟨⟨a, b.trans_le h.2.1⟩, by simp [b]⟩
  rw [this, Real.volume_Ico, sub_zero]

theorem mnn_xlog (p q : ℝ) (h : p = 0 → q = 0) : multiplyNoNan (xlog p) (fin q) = fin (q * Real.log p) := by
  by_cases hq : q = 0
  · subst hq; rw [mnn_zero]; simp [XR.zero_def]
  · have hp : p ≠ 0 := fun e => hq (h e)
    have : multiplyNoNan (xlog p) (fin q) = xlog p * fin q := XR.sel_neg fun h' => by
      simp [XR.eqB_zero, hq] at h'
    rw [this, xlog, if_neg hp, fin_mul, mul_comm]

theorem mnn_xlog_inf {q : ℝ} (h : 0 < q) : multiplyNoNan (xlog 0) (fin q) = ninf := by
  have : multiplyNoNan (xlog 0) (fin q) = xlog 0 * fin q := XR.sel_neg fun h' => by
    simp [XR.eqB_zero, h.ne'] at h'
  rw [this, xlog, if_pos rfl]
  show XR.mul _ _ = _
  simp [XR.mul, infOf, h, not_lt.2 h.le]

theorem bern_pmf {p : ℝ} (h0 : 0 ≤ p) (h1 : p ≤ 1) : IsPmf ![1 - p, p] :=
  ⟨by intro i; fin_cases i <;> simp <;> linarith, by simp⟩

/-- Entropy: Shannon's, between 0 and `log 2`, and 0 for a sure outcome. -/
theorem C27_entropy {d : Bern} {p : ℝ} (h : BernP d p) :
    ∃ H, d.entropy = fin H ∧ H = shannon ![1 - p, p] ∧ 0 ≤ H ∧ H ≤ Real.log 2 ∧ (p = 0 ∨ p = 1 → H = 0) ∧
      (H = Real.log 2 ↔ p = 1/2) := by
  obtain ⟨-, -, e⟩ := bern_params h
  have hp := bern_pmf h.1 h.2.1
  obtain ⟨d', q, c1, c2, c3⟩ := C24_from_probs ![1 - p, p] hp.nonneg (by rw [hp.sum_one]; norm_num) .integer
    (by simp)
  have hq : q = ![1 - p, p] := by funext i; rw [c3, hp.sum_one, div_one]
  rw [hq] at c2
  obtain ⟨H, a1, a2, a3, a4, a5⟩ := C25_entropy_bounds c2
  have hH : H = shannon ![1 - p, p] := by
    have := a1.symm.trans (C25_entropy c2); simpa using this
  refine ⟨H, ?_, hH, a2, by exact_mod_cast a3, ?_, ?_⟩
  · rw [hH]
    simp only [Bern.entropy, e]
    rw [mnn_xlog _ _ (fun h => h), mnn_xlog _ _ (fun h => h)]
    simp [shannon]
  · intro h'
    rw [a5]
    rcases h' with rfl | rfl
    · exact ⟨0, by simp⟩
    · exact ⟨1, by simp⟩
  · have : H = Real.log 2 ↔ ∀ i, (![1 - p, p] : Fin 2 → ℝ) i = 1 / (2 : ℕ) := by exact_mod_cast a4
    rw [this]
    constructor
    · intro h'; have := h' 1; simpa using this
    · rintro rfl i; fin_cases i <;> norm_num

/-- KL: the divergence of the two outcome vectors, nonnegative, zero exactly for equal parameters; `+inf` when
an outcome possible under the first is impossible under the second.  Never nan. -/
theorem C27_kl {d1 d2 : Bern} {p q : ℝ} (h1 : BernP d1 p) (h2 : BernP d2 q) :
    ((q = 0 → p = 0) → (q = 1 → p = 1) →
      d1.kl d2 = fin (klDiv ![1 - p, p] ![1 - q, q]) ∧ 0 ≤ klDiv ![1 - p, p] ![1 - q, q] ∧
      (klDiv ![1 - p, p] ![1 - q, q] = 0 ↔ p = q)) ∧
    (¬ ((q = 0 → p = 0) ∧ (q = 1 → p = 1)) → d1.kl d2 = pinf) := by
  obtain ⟨-, -, e1⟩ := bern_params h1
  obtain ⟨-, -, e2⟩ := bern_params h2
  have hp := bern_pmf h1.1 h1.2.1
  have hq := bern_pmf h2.1 h2.2.1
  constructor
  · intro c0 c1
    have hac : ∀ i, (![1 - q, q] : Fin 2 → ℝ) i = 0 → (![1 - p, p] : Fin 2 → ℝ) i = 0 := by
      intro i; fin_cases i
      · simp only [Fin.zero_eta, Matrix.cons_val_zero]; intro h'; rw [c1 (by linarith)]; ring
      · simpa using c0
    refine ⟨?_, klDiv_nonneg hp hq hac, ?_⟩
    · simp only [Bern.kl, e1, e2]
      rw [mnn_xlog _ _ (fun h => h), mnn_xlog _ _ (fun h => h), mnn_xlog _ _ c0,
        mnn_xlog (1 - q) (1 - p) (by simpa using hac 0)]
      simp [klDiv]
      ring
    · rw [klDiv_eq_zero hp hq hac]
      constructor
      · intro h; have := congrFun h 1; simpa using this
      · rintro rfl; rfl
  · intro hn
    simp only [Bern.kl, e1, e2]
    rw [mnn_xlog _ _ (fun h => h), mnn_xlog _ _ (fun h => h)]
    by_cases c0 : q = 0 → p = 0
    · have c1 : ¬ (q = 1 → p = 1) := fun c1 => hn ⟨c0, c1⟩
      push Not at c1
      obtain ⟨rfl, hp1⟩ := c1
      have : 0 < 1 - p := by have := lt_of_le_of_ne h1.2.1 hp1; linarith
      rw [mnn_xlog _ _ c0, sub_self, mnn_xlog_inf this]
      simp
    · push Not at c0
      obtain ⟨rfl, hp0⟩ := c0
      have : 0 < p := lt_of_le_of_ne h1.1 (Ne.symm hp0)
      rw [mnn_xlog_inf this, mnn_xlog _ _ (by norm_num)]
      simp [XR.sub_def]

example : ∃ d1 d2 p q, BernP d1 p ∧ BernP d2 q ∧ ¬ ((q = 0 → p = 0) ∧ (q = 1 → p = 1)) :=
  ⟨⟨some (fin (1/2)), none⟩, ⟨none, some ninf⟩, 1/2, 0, ⟨by norm_num, by norm_num, .inl ⟨rfl, rfl⟩⟩,
    ⟨le_rfl, by norm_num, .inr (.inr (.inr ⟨rfl, rfl, rfl⟩))⟩, by norm_num⟩

/-- Finding: values outside {0,1} are not rejected and can get a "probability" outside [0,1]. -/
theorem C27_off_support_finding : ∃ d p, BernP d p ∧ d.prob (fin 2) = fin (-1) :=
  ⟨⟨some (fin 0), none⟩, 0, ⟨le_rfl, by norm_num, .inl ⟨rfl, rfl⟩⟩, by
    simp only [Bern.prob, Bern.probs, one_def, fin_sub]
    have h1 : multiplyNoNan (fin (1 - 0)) (fin (1 - 2)) = fin (1 - 0) * fin (1 - 2) := XR.sel_neg fun h' => by
      rw [XR.eqB_zero] at h'; norm_num at h'
    have h2 : multiplyNoNan (fin 0) (fin 2) = fin 0 * fin 2 := XR.sel_neg fun h' => by
      rw [XR.eqB_zero] at h'; norm_num at h'
    rw [h1, h2]; norm_num⟩

end Distrax
