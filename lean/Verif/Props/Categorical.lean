import Verif.Lemmas.Categorical
import Mathlib.Data.Fin.VecNotation
import Mathlib.Tactic.FinCases

/-! Properties C24 (Categorical), C25 (entropy, KL), C26 (OneHot, Greedy, EpsilonGreedy, Softmax). -/

namespace Distrax

open XR Spec Finset

/-! ### C24: construction -/

/-- Exactly one of `logits`, `probs` must be given, and the dtype must be integer or floating. -/
theorem C24_constructor_errors {n : ℕ} (l p : Option (Fin n → XR)) (dt : DType) :
    (∃ e, Cat.init l p dt = .error e) ↔ (l.isSome = p.isSome ∨ dt = .other) := by
  unfold Cat.init
  cases l <;> cases p <;> cases dt <;> simp

/-- Legal logits: the object denotes the softmax vector. -/
theorem C24_from_logits {n : ℕ} {l : Fin n → XR} (h : LegalLogits l) (dt : DType) (hd : dt ≠ .other) :
    ∃ d p, Cat.init (some l) none dt = .ok d ∧ HasPmf d p ∧ ∀ i, p i = weight (l i) / ∑ j, weight (l j) := by
  refine ⟨⟨none, some (normalizeLogits l)⟩, fun i => weight (l i) / ∑ j, weight (l j), ?_,
    ⟨pmf_weights h, ?_, ?_, .inr rfl⟩, fun _ => rfl⟩
  · unfold Cat.init; cases dt <;> simp_all
  · intro i
    have hp := pmf_weights h
    have e : normalizeLogits l = fun i => xlog (weight (l i) / ∑ j, weight (l j)) :=
      funext fun i => logSoftmax_legal h i
    show xsoftmax (normalizeLogits l) i = _
    rw [e, xsoftmax_legal (legal_xlog hp)]
    simp only [weight_xlog (hp.nonneg _), hp.sum_one, div_one]
  · intro i; exact logSoftmax_legal h i

/-- Nonnegative weights with positive sum: the object denotes the normalised weights. -/
theorem C24_from_probs {n : ℕ} (w : Fin n → ℝ) (h0 : ∀ i, 0 ≤ w i) (hs : 0 < ∑ i, w i) (dt : DType)
    (hd : dt ≠ .other) :
    ∃ d p, Cat.init none (some fun i => fin (w i)) dt = .ok d ∧ HasPmf d p ∧ ∀ i, p i = w i / ∑ j, w j := by
  have hp : IsPmf fun i => w i / ∑ j, w j :=
    ⟨fun i => div_nonneg (h0 i) hs.le, by rw [← Finset.sum_div, div_self hs.ne']⟩
  have e : ∀ i, normalizeProbs (fun i => fin (w i)) i = fin (w i / ∑ j, w j) := by
    intro i; simp only [normalizeProbs, sum_fin]; exact div_fin hs.ne'
  refine ⟨⟨some (normalizeProbs fun i => fin (w i)), none⟩, _, ?_, ⟨hp, ?_, ?_, .inl rfl⟩, fun _ => rfl⟩
  · unfold Cat.init; cases dt <;> simp_all
  · intro i; exact e i
  · intro i
    show XR.log (normalizeProbs (fun i => fin (w i)) i) = _
    rw [e, XR.log_eq_xlog (hp.nonneg i)]

example : ∃ d p, Cat.init (some ![fin 1, ninf, fin 2]) none .integer = .ok d ∧ HasPmf d p ∧ p 1 = 0 := by
  obtain ⟨d, p, h1, h2, h3⟩ := C24_from_logits (l := ![fin 1, ninf, fin 2])
    ⟨by intro i; fin_cases i <;> simp, 0, 1, rfl⟩ .integer (by simp)
  exact ⟨d, p, h1, h2, by rw [h3]; simp [weight]⟩

/-- Shifting all logits by a constant gives the same distribution. -/
theorem C24_logits_shift {n : ℕ} {l : Fin n → XR} (h : LegalLogits l) (c : ℝ) {d d' : Cat n} {p p' : Fin n → ℝ}
    {dt : DType} (h1 : Cat.init (some l) none dt = .ok d) (h2 : Cat.init (some fun i => l i + fin c) none dt = .ok d')
    (hp : HasPmf d p) (hp' : HasPmf d' p') : p = p' := by
  have hdt : dt ≠ .other := by rintro rfl; simp [Cat.init] at h1
  have h' : LegalLogits (fun i => l i + fin c) := by
    refine ⟨fun i => ?_, ?_⟩
    · rcases h.entry i with e | ⟨a, e⟩ <;> simp [e]
    · obtain ⟨i, a, e⟩ := h.some_finite
      exact ⟨i, a + c, by simp [e]⟩
  obtain ⟨e, q, a1, a2, a3⟩ := C24_from_logits h dt hdt
  obtain ⟨e', q', b1, b2, b3⟩ := C24_from_logits h' dt hdt
  rw [h1] at a1; rw [h2] at b1
  obtain rfl := Except.ok.inj a1
  obtain rfl := Except.ok.inj b1
  have hw : ∀ i, weight (l i + fin c) = weight (l i) * Real.exp c := by
    intro i
    rcases h.entry i with e | ⟨a, e⟩ <;> simp [e, weight, Real.exp_add]
  funext i
  have u1 : p i = q i := by have := (hp.probs i).symm.trans (a2.probs i); simpa using this
  have u2 : p' i = q' i := by have := (hp'.probs i).symm.trans (b2.probs i); simpa using this
  rw [u1, u2, a3, b3]
  simp only [hw, ← Finset.sum_mul]
  rw [mul_div_mul_right _ _ (Real.exp_pos c).ne']

/-! ### C24: log_prob, prob, cdf, mode, sample -/

theorem ltB_fin_zero {v : ℝ} : ltB (fin v) 0 ↔ v < 0 := Iff.rfl

/-- On a category: `log_prob(k) = log p_k`, `prob(k) = p_k = exp(log_prob(k))`. -/
theorem C24_on_support {n : ℕ} {d : Cat n} {p : Fin n → ℝ} (h : HasPmf d p) (k : Fin n) :
    d.logProb (fin (k : ℕ)) = xlog (p k) ∧ d.prob (fin (k : ℕ)) = fin (p k) ∧
    d.prob (fin (k : ℕ)) = XR.exp (d.logProb (fin (k : ℕ))) := by
  have h1 : d.logProb (fin (k : ℕ)) = xlog (p k) := by
    unfold Cat.logProb
    rw [if_neg, sum_mnn_oneHot k _ (by rw [h.logits]; exact xlog_cases _), h.logits]
    rintro (hc | hc)
    · rw [ltB_fin_zero] at hc
      exact absurd hc (not_lt.2 (Nat.cast_nonneg _))
    · have : (n : ℝ) - 1 < (k : ℕ) := hc
      have hk : ((k : ℕ) : ℝ) + 1 ≤ n := by exact_mod_cast k.2
      linarith
  have h2 : d.prob (fin (k : ℕ)) = fin (p k) := by
    unfold Cat.prob
    rw [sum_mnn_oneHot k _ (by rw [h.probs]; exact .inr ⟨_, rfl⟩), h.probs]
  exact ⟨h1, h2, by rw [h1, h2, exp_xlog (h.pmf.nonneg k)]⟩

/-- Below 0 or above `K-1` (including infinities): probability 0, log-probability `-inf`. -/
theorem C24_off_range {n : ℕ} {d : Cat n} (v : XR) (hv : ltB v 0 ∨ ltB (fin ((n : ℝ) - 1)) v) :
    d.logProb v = ninf ∧ d.prob v = fin 0 := by
  refine ⟨if_pos hv, ?_⟩
  refine sum_mnn_none ?_ _
  rintro i rfl
  rcases hv with hc | hc
  · exact absurd (ltB_fin_zero.1 hc) (not_lt.2 (Nat.cast_nonneg _))
  · have : (n : ℝ) - 1 < (i : ℕ) := hc
    have hk : ((i : ℕ) : ℝ) + 1 ≤ n := by exact_mod_cast i.2
    linarith

example : ltB (fin (-1)) 0 ∧ ltB ninf 0 ∧ ltB (fin ((3 : ℕ) - 1 : ℝ)) (fin 3) := by
  refine ⟨?_, trivial, ?_⟩
  · show (-1 : ℝ) < 0; norm_num
  · show ((3 : ℕ) : ℝ) - 1 < 3; norm_num

/-- The probabilities of the categories sum to one. -/
theorem C24_total {n : ℕ} {d : Cat n} {p : Fin n → ℝ} (h : HasPmf d p) :
    ∑ k : Fin n, d.prob (fin (k : ℕ)) = fin 1 := by
  simp only [fun k => (C24_on_support h k).2.1, sum_fin, h.pmf.sum_one]

/-- Finding: a value inside the range that is not an integer (or is nan) gets `log_prob = 0` (probability one)
while `prob` says 0, so the two disagree. -/
theorem C24_non_integer_disagree {n : ℕ} (d : Cat n) (v : XR) (h1 : ¬ ltB v 0) (h2 : ¬ ltB (fin ((n : ℝ) - 1)) v)
    (h3 : ∀ i : Fin n, v ≠ fin (i : ℕ)) : d.logProb v = fin 0 ∧ d.prob v = fin 0 := by
  refine ⟨?_, sum_mnn_none h3 _⟩
  unfold Cat.logProb
  rw [if_neg (by tauto)]
  exact sum_mnn_none h3 _

example : ¬ ltB (fin (1/2)) 0 ∧ ¬ ltB (fin (((2 : ℕ) : ℝ) - 1)) (fin (1/2)) ∧ ∀ i : Fin 2, fin (1/2) ≠ fin (i : ℕ) := by
  refine ⟨?_, ?_, ?_⟩
  · rw [ltB_fin_zero]; norm_num
  · show ¬ ((2 : ℕ) : ℝ) - 1 < 1/2; norm_num
  · intro i; fin_cases i <;> norm_num

/-- `cdf` at any integer is the probability of the categories not above it: 0 below the range, 1 above. -/
theorem C24_cdf {n : ℕ} {d : Cat n} {p : Fin n → ℝ} (h : HasPmf d p) (v : ℤ) :
    d.cdf (fin v) = fin (∑ j ∈ univ.filter (fun j : Fin n => ((j : ℕ) : ℤ) ≤ v), p j) := by
  unfold Cat.cdf
  by_cases h0 : v < 0
  · have : ltB (fin (v : ℝ)) 0 := by rw [ltB_fin_zero]; exact_mod_cast h0
    simp only [if_pos this]
    rw [Finset.sum_eq_zero]; · rfl
    intro j hj
    simp at hj; omega
  · have : ¬ ltB (fin (v : ℝ)) 0 := by rw [ltB_fin_zero]; exact_mod_cast h0
    simp only [if_neg this]
    have hle : leB (fin ((n : ℝ) - 1)) (fin (v : ℝ)) ↔ (n : ℤ) - 1 ≤ v := by
      have : leB (fin ((n : ℝ) - 1)) (fin (v : ℝ)) ↔ (n : ℝ) - 1 ≤ v := by
        unfold leB; rw [le_iff_lt_or_eq]; rfl
      rw [this]; exact_mod_cast Iff.rfl
    by_cases h1 : (n : ℤ) - 1 ≤ v
    · rw [if_pos (hle.2 h1), Finset.filter_true_of_mem fun j _ => by have := j.2; omega, h.pmf.sum_one]; rfl
    · rw [if_neg (fun hc => h1 (hle.1 hc))]
      obtain ⟨k, rfl⟩ := Int.eq_ofNat_of_zero_le (not_lt.1 h0)
      have hk : k < n := by push_cast at h1; omega
      have hclip : Cat.xclip (fin (((k : ℕ) : ℤ) : ℝ)) 0 (fin ((n : ℝ) - 1)) = fin (((⟨k, hk⟩ : Fin n) : ℕ) : ℝ) := by
        unfold Cat.xclip
        rw [if_neg (by simp), if_neg this, if_neg]
        · simp
        · intro hc
          have : (n : ℝ) - 1 < ((k : ℤ) : ℝ) := hc
          have : (k : ℝ) + 1 ≤ n := by exact_mod_cast hk
          push_cast at *; linarith
      have hcs : ∀ i, xcumsum d.probs i = fin (∑ j ∈ univ.filter (· ≤ i), p j) := by
        intro i
        unfold xcumsum
        rw [← sum_fin]
        exact Finset.sum_congr rfl fun j _ => h.probs j
      rw [hclip, sum_mnn_oneHot ⟨k, hk⟩ _ (by rw [hcs]; exact .inr ⟨_, rfl⟩), hcs]
      congr 1
      refine Finset.sum_congr ?_ fun _ _ => rfl
      ext j
      simp only [Finset.mem_filter, Finset.mem_univ, true_and, Fin.le_def]
      exact_mod_cast Iff.rfl

/-- The cdf lies in [0,1], is 0 below and 1 from `K-1` on, and is monotone over the integers. -/
theorem C24_cdf_range {n : ℕ} {d : Cat n} {p : Fin n → ℝ} (h : HasPmf d p) (v : ℤ) :
    ∃ c, d.cdf (fin v) = fin c ∧ 0 ≤ c ∧ c ≤ 1 ∧ (v < 0 → c = 0) ∧ ((n : ℤ) - 1 ≤ v → c = 1) ∧
      d.logCdf (fin v) = xlog c ∧ ∀ v' c', v ≤ v' → d.cdf (fin (v' : ℤ)) = fin c' → c ≤ c' := by
  have hc0 : 0 ≤ ∑ j ∈ univ.filter (fun j : Fin n => ((j : ℕ) : ℤ) ≤ v), p j :=
    Finset.sum_nonneg fun j _ => h.pmf.nonneg j
  refine ⟨_, C24_cdf h v, hc0, ?_, ?_, ?_, ?_, ?_⟩
  · rw [← h.pmf.sum_one]
    exact Finset.sum_le_sum_of_subset_of_nonneg (Finset.filter_subset _ _) fun j _ _ => h.pmf.nonneg j
  · intro hv
    refine Finset.sum_eq_zero fun j hj => ?_
    simp at hj; omega
  · intro hv
    rw [Finset.filter_true_of_mem fun j _ => by have := j.2; omega, h.pmf.sum_one]
  · rw [Cat.logCdf, C24_cdf h v, XR.log_eq_xlog hc0]
  · intro v' c' hv hc'
    rw [C24_cdf h v'] at hc'
    have := XR.fin_inj.1 hc'
    rw [← this]
    refine Finset.sum_le_sum_of_subset_of_nonneg ?_ fun j _ _ => h.pmf.nonneg j
    intro j hj
    simp only [Finset.mem_filter, Finset.mem_univ, true_and] at hj ⊢
    omega

/-- `mode` is the first index of a largest probability. -/
theorem C24_mode {n : ℕ} {d : Cat (n + 1)} {p : Fin (n + 1) → ℝ} (h : HasPmf d p) :
    (∀ j, p j ≤ p d.mode) ∧ ∀ j < d.mode, p j < p d.mode := by
  have key : ∃ f : Fin (n + 1) → XR, d.mode = argmaxIdx f ∧ (∀ i, f i ≠ nan) ∧
      ∀ i j, (f i).toE ≤ (f j).toE ↔ p i ≤ p j := by
    unfold Cat.mode
    rcases hl : d.logits? with _ | l
    · rcases hp : d.probs? with _ | q
      · have hs := h.stored; rw [hl, hp] at hs; simp at hs
      · refine ⟨q, rfl, ?_, ?_⟩
        all_goals
          have : ∀ i, q i = fin (p i) := fun i => by rw [← h.probs i]; simp [Cat.probs, hp]
          simp [this, toE]
    · refine ⟨l, rfl, ?_, ?_⟩
      all_goals have : ∀ i, l i = xlog (p i) := fun i => by rw [← h.logits i]; simp [Cat.logits, hl]
      · intro i; rw [this]; exact xlog_ne_nan _
      · intro i j; rw [this, this, xlog_toE_le (h.pmf.nonneg i) (h.pmf.nonneg j)]
  obtain ⟨f, e, hf, hm⟩ := key
  obtain ⟨h1, h2⟩ := argmaxIdx_spec f hf
  rw [e]
  refine ⟨fun j => (hm _ _).1 (h1 j), fun j hj => ?_⟩
  have := h2 j hj
  rw [← not_le, hm, not_le] at this
  exact this

/-- A sample is a category of positive probability, whatever the (finite) noise. -/
theorem C24_sample_support {n : ℕ} {d : Cat (n + 1)} {p : Fin (n + 1) → ℝ} (h : HasPmf d p)
    (g : Fin (n + 1) → ℝ) : ∃ k : Fin (n + 1), d.sample g = (k : ℕ) ∧ 0 < p k := by
  have hv : d.isValid := by
    refine ⟨fun i => by rw [h.probs]; trivial, fun i => ?_⟩
    rw [h.probs]
    rcases (h.pmf.nonneg i).lt_or_eq with hi | hi
    · exact .inl hi
    · exact .inr hi
  refine ⟨_, if_pos hv, ?_⟩
  have hx : ∀ i, fin (g i) + d.logits i = (if p i = 0 then ninf else fin (g i + Real.log (p i))) := by
    intro i; rw [h.logits]; unfold xlog; split <;> simp
  have hnn : ∀ i, fin (g i) + d.logits i ≠ nan := by
    intro i; rw [hx]; split <;> simp
  obtain ⟨h1, -⟩ := argmaxIdx_spec (fun i => fin (g i) + d.logits i) hnn
  obtain ⟨j, hj⟩ := h.pmf.exists_pos
  set r := argmaxIdx fun i => fin (g i) + d.logits i
  have := h1 j
  simp only [hx] at this
  rw [if_neg hj.ne'] at this
  by_contra hc
  have h0 : p r = 0 := le_antisymm (not_lt.1 hc) (h.pmf.nonneg r)
  rw [if_pos h0] at this
  simp [toE] at this

/-- Every category of positive probability is reachable by some noise; the noise decides by comparing
`g_i + log p_i`: the sampled category wins that comparison. -/
theorem C24_sample_reachable {n : ℕ} {d : Cat (n + 1)} {p : Fin (n + 1) → ℝ} (h : HasPmf d p)
    (k : Fin (n + 1)) (hk : 0 < p k) : ∃ g, d.sample g = (k : ℕ) := by
  obtain ⟨M, hM⟩ : ∃ M : ℝ, ∀ i, Real.log (p i) < M := by
    obtain ⟨M, hM⟩ := (Set.finite_range fun i => Real.log (p i)).bddAbove
    exact ⟨M + 1, fun i => by have := hM ⟨i, rfl⟩; linarith⟩
  refine ⟨fun i => if i = k then M - Real.log (p k) else 0, ?_⟩
  set g : Fin (n + 1) → ℝ := fun i => if i = k then M - Real.log (p k) else 0
  have hv : d.isValid := by
    refine ⟨fun i => by rw [h.probs]; trivial, fun i => ?_⟩
    rw [h.probs]
    rcases (h.pmf.nonneg i).lt_or_eq with hi | hi
    · exact .inl hi
    · exact .inr hi
  unfold Cat.sample
  rw [if_pos hv]
  have hx : ∀ i, fin (g i) + d.logits i = (if p i = 0 then ninf else fin (g i + Real.log (p i))) := by
    intro i; rw [h.logits]; unfold xlog; split <;> simp
  have hnn : ∀ i, fin (g i) + d.logits i ≠ nan := by
    intro i; rw [hx]; split <;> simp
  obtain ⟨h1, -⟩ := argmaxIdx_spec (fun i => fin (g i) + d.logits i) hnn
  set r := argmaxIdx fun i => fin (g i) + d.logits i
  have h2 := h1 k
  simp only [hx] at h2
  rw [if_neg hk.ne', show g k + Real.log (p k) = M by simp [g]] at h2
  suffices r = k by rw [this]
  by_contra hne
  by_cases h0 : p r = 0
  · rw [if_pos h0] at h2; simp [toE] at h2
  · rw [if_neg h0] at h2
    simp only [toE, EReal.coe_le_coe_iff, g, if_neg hne, zero_add] at h2
    exact absurd h2 (not_le.2 (hM r))

/-- If the stored probabilities contain nan, an infinity or a negative number, the sample is -1. -/
theorem C24_sample_invalid {n : ℕ} (d : Cat (n + 1)) (g : Fin (n + 1) → ℝ)
    (h : ∃ i, d.probs i = nan ∨ d.probs i = pinf ∨ d.probs i = ninf ∨ ∃ a < 0, d.probs i = fin a) :
    d.sample g = -1 := by
  refine if_neg ?_
  rintro ⟨h1, h2⟩
  obtain ⟨i, h⟩ := h
  have a1 := h1 i
  have a2 := h2 i
  rcases h with h | h | h | ⟨a, ha, h⟩ <;> rw [h] at a1 a2
  · exact a1
  · exact a1
  · exact a1
  · rcases a2 with a2 | a2
    · have : (0 : ℝ) < a := a2; linarith
    · have : (0 : ℝ) = a := a2; linarith

example : (⟨some ![fin (1/2), nan], none⟩ : Cat 2).sample (fun _ => 0) = -1 :=
  C24_sample_invalid _ _ ⟨1, .inl rfl⟩

/-! ### C25 -/

/-- The entropy is Shannon's, zero-probability categories contributing 0. -/
theorem C25_entropy {n : ℕ} {d : Cat n} {p : Fin n → ℝ} (h : HasPmf d p) : d.entropy = fin (shannon p) := by
  have key : d.entropy = -∑ i, mulExp (xlog (p i)) (xlog (p i)) := by
    unfold Cat.entropy
    rcases hl : d.logits? with _ | l
    · rcases hp : d.probs? with _ | q
      · have hs := h.stored; rw [hl, hp] at hs; simp at hs
      · have : ∀ i, q i = fin (p i) := fun i => by rw [← h.probs i]; simp [Cat.probs, hp]
        simp only [this, XR.log_eq_xlog (h.pmf.nonneg _)]
    · have e : l = fun i => xlog (p i) := funext fun i => by rw [← h.logits i]; simp [Cat.logits, hl]
      have : logSoftmax l = fun i => xlog (p i) := by
        funext i
        rw [e, logSoftmax_legal (legal_xlog h.pmf)]
        simp only [weight_xlog (h.pmf.nonneg _), h.pmf.sum_one, div_one]
      simp only [this]
  rw [key]
  simp only [entropy_term (h.pmf.nonneg _), sum_fin]
  rfl

/-- Between 0 and `log K`, with `log K` exactly for the uniform vector and 0 exactly for a point mass. -/
theorem C25_entropy_bounds {n : ℕ} {d : Cat n} {p : Fin n → ℝ} (h : HasPmf d p) :
    ∃ H : ℝ, d.entropy = fin H ∧ 0 ≤ H ∧ H ≤ Real.log n ∧ (H = Real.log n ↔ ∀ i, p i = 1 / n) ∧
      (H = 0 ↔ ∃ i, p i = 1) := by
  refine ⟨shannon p, C25_entropy h, ?_⟩
  have hn := h.pmf.pos
  have hu := uniform_pmf hn
  have hac : ∀ i : Fin n, (fun _ : Fin n => 1 / (n : ℝ)) i = 0 → p i = 0 := by
    intro i hi
    have : (n : ℝ) ≠ 0 := by positivity
    simp [this] at hi
  have hnm : ∀ i, 0 ≤ -(p i * Real.log (p i)) := fun i => by
    have := Real.negMulLog_nonneg (h.pmf.nonneg i) (h.pmf.le_one i)
    unfold Real.negMulLog at this; linarith
  have e := shannon_eq h.pmf
  have hk := klDiv_nonneg h.pmf hu hac
  have hsum : shannon p = ∑ i, -(p i * Real.log (p i)) := by rw [shannon, Finset.sum_neg_distrib]
  refine ⟨?_, by linarith, ?_, ?_⟩
  · rw [hsum]; exact Finset.sum_nonneg fun i _ => hnm i
  · rw [e, sub_eq_self, klDiv_eq_zero h.pmf hu hac]
    exact ⟨fun h' i => congrFun h' i, fun h' => funext h'⟩
  · rw [hsum, Finset.sum_eq_zero_iff_of_nonneg fun i _ => hnm i]
    constructor
    · intro h0
      obtain ⟨i, hi⟩ := h.pmf.exists_pos
      have := h0 i (Finset.mem_univ _)
      rw [neg_eq_zero, mul_eq_zero, or_iff_right hi.ne', Real.log_eq_zero] at this
      refine ⟨i, ?_⟩
      rcases this with h' | h' | h' <;> linarith
    · rintro ⟨i, hi⟩ j -
      by_cases hj : j = i
      · rw [hj, hi]; simp
      · have : p j = 0 := by
          have h2 := h.pmf.sum_one
          rw [← Finset.add_sum_erase _ _ (Finset.mem_univ i), hi] at h2
          have h3 : ∑ x ∈ univ.erase i, p x = 0 := by linarith
          exact (Finset.sum_eq_zero_iff_of_nonneg fun k _ => h.pmf.nonneg k).1 h3 j (by simp [hj])
        rw [this]; simp

example : ∃ d : Cat 2, ∃ p, HasPmf d p ∧ p 0 = 1/4 := by
  refine ⟨⟨some ![fin (1/4), fin (3/4)], none⟩, ![1/4, 3/4], ⟨⟨?_, ?_⟩, ?_, ?_, .inl rfl⟩, rfl⟩
  · intro i; fin_cases i <;> norm_num
  · simp; norm_num
  · intro i; fin_cases i <;> rfl
  · intro i; fin_cases i <;> simp [Cat.logits, xlog, log_fin_pos]

theorem logSoftmax_logits {n : ℕ} {d : Cat n} {p : Fin n → ℝ} (h : HasPmf d p) :
    logSoftmax d.logits = fun i => xlog (p i) := by
  rw [show d.logits = fun i => xlog (p i) from funext h.logits]
  funext i
  rw [logSoftmax_legal (legal_xlog h.pmf)]
  simp only [weight_xlog (h.pmf.nonneg _), h.pmf.sum_one, div_one]

/-- Different numbers of categories are rejected. -/
theorem C25_kl_size {m n : ℕ} (d1 : Cat m) (d2 : Cat n) (h : m ≠ n) : d1.kl d2 = .error .valueError :=
  dif_pos h

/-- With equal sizes and `p` absolutely continuous with respect to `q`: the KL divergence, nonnegative, and zero
exactly when the vectors coincide. -/
theorem C25_kl {n : ℕ} {d1 d2 : Cat n} {p q : Fin n → ℝ} (h1 : HasPmf d1 p) (h2 : HasPmf d2 q)
    (hac : ∀ i, q i = 0 → p i = 0) :
    d1.kl d2 = .ok (fin (klDiv p q)) ∧ 0 ≤ klDiv p q ∧ (klDiv p q = 0 ↔ p = q) := by
  refine ⟨?_, klDiv_nonneg h1.pmf h2.pmf hac, klDiv_eq_zero h1.pmf h2.pmf hac⟩
  simp only [Cat.kl, logSoftmax_logits h1, logSoftmax_logits h2, Fin.cast_refl, id]
  rw [dif_neg (by simp)]
  simp only [fun i => kl_term_ok (h1.pmf.nonneg i) (h2.pmf.nonneg i) (hac i), sum_fin, klDiv]

/-- If `p` puts mass where `q` has none the KL is `+inf` (not nan). -/
theorem C25_kl_inf {n : ℕ} {d1 d2 : Cat n} {p q : Fin n → ℝ} (h1 : HasPmf d1 p) (h2 : HasPmf d2 q)
    (h : ∃ i, q i = 0 ∧ 0 < p i) : d1.kl d2 = .ok pinf := by
  simp only [Cat.kl, logSoftmax_logits h1, logSoftmax_logits h2, Fin.cast_refl, id]
  rw [dif_neg (by simp)]
  congr 1
  refine sum_pinf _ _ ?_ ?_
  · intro i _
    by_cases hi : q i = 0 → p i = 0
    · exact .inr ⟨_, kl_term_ok (h1.pmf.nonneg i) (h2.pmf.nonneg i) hi⟩
    · push Not at hi
      left
      rw [hi.1]
      exact kl_term_inf (lt_of_le_of_ne (h1.pmf.nonneg i) (Ne.symm hi.2))
  · obtain ⟨i, h0, hp⟩ := h
    exact ⟨i, Finset.mem_univ _, by rw [h0]; exact kl_term_inf hp⟩

example : ∃ p q : Fin 2 → ℝ, IsPmf p ∧ IsPmf q ∧ (∃ i, q i = 0 ∧ 0 < p i) :=
  ⟨![1/2, 1/2], ![1, 0], ⟨by intro i; fin_cases i <;> norm_num, by simp; norm_num⟩,
    ⟨by intro i; fin_cases i <;> norm_num, by simp⟩, 1, rfl, by norm_num⟩

/-! ### C26 -/

/-- OneHotCategorical at the one-hot vector of `k`: same `log_prob`, `prob` and `cdf` as Categorical at `k`. -/
theorem C26_one_hot {n : ℕ} {d : Cat n} {p : Fin n → ℝ} (h : HasPmf d p) (k : Fin n) :
    d.ohLogProb (oneHot n (fin (k : ℕ))) = d.logProb (fin (k : ℕ)) ∧
    d.ohProb (oneHot n (fin (k : ℕ))) = d.prob (fin (k : ℕ)) ∧
    d.ohCdf (oneHot n (fin (k : ℕ))) = d.cdf (fin (k : ℕ)) := by
  refine ⟨?_, rfl, ?_⟩
  · rw [(C24_on_support h k).1, Cat.ohLogProb, sum_mnn_oneHot k _ (by rw [h.logits]; exact xlog_cases _), h.logits]
  · have hcs : ∀ i, xcumsum d.probs i = fin (∑ j ∈ univ.filter (· ≤ i), p j) := by
      intro i
      unfold xcumsum
      rw [← sum_fin]
      exact Finset.sum_congr rfl fun j _ => h.probs j
    have := C24_cdf h (k : ℕ)
    push_cast at this
    rw [this, Cat.ohCdf, sum_mnn_oneHot k _ (by rw [hcs]; exact .inr ⟨_, rfl⟩), hcs]
    simp only [Nat.cast_le, Fin.val_fin_le]

/-- Finding: the all-zero vector, which is not an event, gets `log_prob = 0`. -/
theorem C26_one_hot_zero_vector {n : ℕ} (d : Cat n) : d.ohLogProb (fun _ => fin 0) = fin 0 ∧
    d.ohProb (fun _ => fin 0) = fin 0 :=
  ⟨Finset.sum_eq_zero fun i _ => mnn_zero _, Finset.sum_eq_zero fun i _ => mnn_zero _⟩

/-- Samples of OneHotCategorical are one-hot vectors of the category Categorical would draw, which has positive
probability; the mode is the one-hot vector of Categorical's mode. -/
theorem C26_one_hot_sample {n : ℕ} {d : Cat (n + 1)} {p : Fin (n + 1) → ℝ} (h : HasPmf d p)
    (g : Fin (n + 1) → ℝ) :
    ∃ k : Fin (n + 1), d.sample g = (k : ℕ) ∧ 0 < p k ∧ d.ohSample g k = fin 1 ∧
      ∀ j, j ≠ k → d.ohSample g j = fin 0 := by
  have hv : d.isValid := by
    refine ⟨fun i => by rw [h.probs]; trivial, fun i => ?_⟩
    rw [h.probs]
    rcases (h.pmf.nonneg i).lt_or_eq with hi | hi
    · exact .inl hi
    · exact .inr hi
  obtain ⟨k, h1, h2⟩ := C24_sample_support h g
  refine ⟨k, h1, h2, ?_⟩
  have e : d.ohSample g = oneHot (n + 1) (fin ((argmaxIdx fun i => fin (g i) + d.logits i : Fin (n+1)) : ℕ)) :=
    if_pos hv
  have hk : (argmaxIdx fun i => fin (g i) + d.logits i) = k := by
    have : d.sample g = ((argmaxIdx fun i => fin (g i) + d.logits i : Fin (n + 1)) : ℕ) := if_pos hv
    rw [this] at h1
    exact Fin.ext (by exact_mod_cast h1)
  rw [e, hk]
  exact ⟨oneHot_self k, fun j hj => oneHot_ne hj⟩

theorem C26_one_hot_mode {n : ℕ} (d : Cat (n + 1)) :
    d.ohMode d.mode = fin 1 ∧ ∀ j, j ≠ d.mode → d.ohMode j = fin 0 :=
  ⟨oneHot_self _, fun _ hj => oneHot_ne hj⟩

open Classical in
/-- The Greedy weights: `1/#argmax` on the maximal preferences, 0 elsewhere; any preferences without nan. -/
theorem tieBreak_eq {n : ℕ} (prefs : Fin n → XR) (hx : ∀ i, prefs i ≠ nan) (hn : 0 < n) (i : Fin n) :
    0 < #(univ.filter fun j => ArgMax prefs j) ∧
    Cat.tieBreak prefs i = fin (if ArgMax prefs i then 1 / (#(univ.filter fun j => ArgMax prefs j) : ℝ) else 0) := by
  have hsel : ∀ j, XR.sel (eqB (prefs j) (rowMax prefs)) 1 0 = fin (if ArgMax prefs j then 1 else 0) := by
    intro j
    by_cases h : ArgMax prefs j
    · rw [XR.sel_pos ((eqB_rowMax prefs hx j).2 h), if_pos h]; rfl
    · rw [XR.sel_neg (fun h' => h ((eqB_rowMax prefs hx j).1 h')), if_neg h]; rfl
  have hpos : 0 < #(univ.filter fun j => ArgMax prefs j) := by
    rw [Finset.card_pos]
    obtain ⟨m, rfl⟩ : ∃ m, n = m + 1 := ⟨n - 1, by omega⟩
    refine ⟨argmaxIdx prefs, ?_⟩
    simp only [Finset.mem_filter, Finset.mem_univ, true_and]
    intro j
    rw [XR.leB_iff (hx j) (hx _)]
    exact (argmaxIdx_spec prefs hx).1 j
  refine ⟨hpos, ?_⟩
  simp only [Cat.tieBreak, hsel, sum_fin, Finset.sum_boole]
  rw [div_fin (by positivity)]
  split <;> simp

open Classical in
/-- Greedy: equal mass on exactly the argmax set, none elsewhere. -/
theorem C26_greedy {n : ℕ} (prefs : Fin n → XR) (hx : ∀ i, prefs i ≠ nan) (hn : 0 < n) (dt : DType)
    (hd : dt ≠ .other) :
    ∃ d p, Cat.greedy prefs dt = .ok d ∧ HasPmf d p ∧
      ∀ i, p i = if ArgMax prefs i then 1 / (#(univ.filter fun j => ArgMax prefs j) : ℝ) else 0 := by
  have hc := (tieBreak_eq prefs hx hn ⟨0, hn⟩).1
  have hs : ∑ i, (if ArgMax prefs i then 1 / (#(univ.filter fun j => ArgMax prefs j) : ℝ) else 0) = 1 := by
    rw [← Finset.sum_filter, Finset.sum_const, nsmul_eq_mul]
    field_simp
  obtain ⟨d, p, h1, h2, h3⟩ := C24_from_probs
    (fun i => if ArgMax prefs i then 1 / (#(univ.filter fun j => ArgMax prefs j) : ℝ) else 0)
    (fun i => by split <;> positivity) (by rw [hs]; norm_num) dt hd
  refine ⟨d, p, ?_, h2, ?_⟩
  · rw [Cat.greedy, show Cat.tieBreak prefs = _ from funext fun i => (tieBreak_eq prefs hx hn i).2]
    exact h1
  · intro i; rw [h3, hs, div_one]

open Classical in
/-- EpsilonGreedy: `eps/K + (1-eps) * greedy`. -/
theorem C26_epsilon_greedy {n : ℕ} (prefs : Fin n → XR) (hx : ∀ i, prefs i ≠ nan) (hn : 0 < n) (eps : ℝ)
    (he0 : 0 ≤ eps) (he1 : eps ≤ 1) (dt : DType) (hd : dt ≠ .other) :
    ∃ d p, Cat.epsilonGreedy prefs (fin eps) dt = .ok d ∧ HasPmf d p ∧
      ∀ i, p i = eps / n +
        (1 - eps) * if ArgMax prefs i then 1 / (#(univ.filter fun j => ArgMax prefs j) : ℝ) else 0 := by
  have hc := (tieBreak_eq prefs hx hn ⟨0, hn⟩).1
  set g : Fin n → ℝ := fun i => if ArgMax prefs i then 1 / (#(univ.filter fun j => ArgMax prefs j) : ℝ) else 0 with hg
  have hs : ∑ i, g i = 1 := by
    rw [hg, ← Finset.sum_filter, Finset.sum_const, nsmul_eq_mul]
    field_simp
  have hn' : (n : ℝ) ≠ 0 := by positivity
  have hs' : ∑ i, ((1 - eps) * g i + eps * (1 / n)) = 1 := by
    rw [Finset.sum_add_distrib, ← Finset.mul_sum, hs]
    simp; field_simp; ring
  have hg0 : ∀ i, 0 ≤ g i := fun i => by simp only [hg]; split <;> positivity
  obtain ⟨d, p, h1, h2, h3⟩ := C24_from_probs (fun i => (1 - eps) * g i + eps * (1 / n))
    (fun i => add_nonneg (mul_nonneg (by linarith) (hg0 i)) (by positivity)) (by rw [hs']; norm_num) dt hd
  refine ⟨d, p, ?_, h2, ?_⟩
  · rw [← h1, Cat.epsilonGreedy]
    congr 2
    funext i
    rw [Cat.mixUniform, (tieBreak_eq prefs hx hn i).2, one_def, div_fin hn']
    simp [hg]
  · intro i; rw [h3, hs', div_one]; ring

example : ∃ d p, Cat.greedy ![fin 1, fin 3, fin 3] .integer = .ok d ∧ HasPmf d p := by
  obtain ⟨d, p, h1, h2, -⟩ := C26_greedy ![fin 1, fin 3, fin 3] (by intro i; fin_cases i <;> simp) (by norm_num)
    .integer (by simp)
  exact ⟨d, p, h1, h2⟩

/-- Softmax with temperature `T > 0`: probabilities proportional to `exp(logit / T)`. -/
theorem C26_softmax {n : ℕ} {l : Fin n → ℝ} (hn : 0 < n) {T : ℝ} (hT : 0 < T) (dt : DType) (hd : dt ≠ .other) :
    ∃ d p, Cat.softmaxDist (fun i => fin (l i)) (fin T) dt = .ok d ∧ HasPmf d p ∧
      ∀ i, p i = Real.exp (l i / T) / ∑ j, Real.exp (l j / T) := by
  have e : (fun i => fin (l i) / fin T : Fin n → XR) = fun i => fin (l i / T) := funext fun i => div_fin hT.ne'
  have hl : LegalLogits (fun i => fin (l i / T) : Fin n → XR) :=
    ⟨fun i => .inr ⟨_, rfl⟩, ⟨0, hn⟩, _, rfl⟩
  obtain ⟨d, p, h1, h2, h3⟩ := C24_from_logits hl dt hd
  exact ⟨d, p, by rw [Cat.softmaxDist, e]; exact h1, h2, h3⟩

/-- Softmax also accepts `-inf` logits: those categories get probability 0. -/
theorem C26_softmax_ninf {n : ℕ} {l : Fin n → XR} (hl : LegalLogits l) {T : ℝ} (hT : 0 < T) (dt : DType)
    (hd : dt ≠ .other) :
    ∃ d p, Cat.softmaxDist l (fin T) dt = .ok d ∧ HasPmf d p ∧ ∀ i, p i = 0 ↔ l i = ninf := by
  have hdiv : ∀ i, (l i / fin T = ninf ∧ l i = ninf) ∨ ∃ a, l i / fin T = fin a ∧ l i ≠ ninf := by
    intro i
    rcases hl.entry i with e | ⟨a, e⟩
    · left
      refine ⟨?_, e⟩
      rw [e]; show XR.div _ _ = _; simp [XR.div, hT.le]
    · right; exact ⟨a / T, by rw [e]; exact div_fin hT.ne', by rw [e]; simp⟩
  have hl' : LegalLogits (fun i => l i / fin T) := by
    refine ⟨fun i => ?_, ?_⟩
    · rcases hdiv i with h | ⟨a, h, -⟩
      · exact .inl h.1
      · exact .inr ⟨a, h⟩
    · obtain ⟨i, a, e⟩ := hl.some_finite
      exact ⟨i, a / T, by rw [e]; exact div_fin hT.ne'⟩
  obtain ⟨d, p, h1, h2, h3⟩ := C24_from_logits hl' dt hd
  refine ⟨d, p, h1, h2, fun i => ?_⟩
  rw [h3, div_eq_zero_iff, or_iff_left hl'.weight_sum_pos.ne']
  rcases hdiv i with h | ⟨a, h, h'⟩
  · rw [h.1]; simp [h.2, weight]
  · simp [h, h', weight]

/-- Finding: temperature 0 does not give the greedy limit but an object whose samples are all -1. -/
theorem C26_softmax_zero_temperature :
    ∃ d, Cat.softmaxDist ![fin 1, fin 2] (fin 0) .integer = .ok d ∧ ∀ g, d.sample g = -1 := by
  refine ⟨⟨none, some (normalizeLogits fun i => (![fin 1, fin 2] : Fin 2 → XR) i / fin 0)⟩, rfl, fun g => ?_⟩
  refine C24_sample_invalid _ _ ⟨0, .inl ?_⟩
  have e : (fun i => (![fin 1, fin 2] : Fin 2 → XR) i / fin 0) = fun _ => pinf := by
    funext i
    fin_cases i <;> (show XR.div _ _ = _) <;> simp [XR.div, infOf]
  have hm : rowMax (fun _ : Fin 2 => pinf) = pinf := by
    simp [rowMax, XR.max, ltB]
  have hl : normalizeLogits (fun _ : Fin 2 => pinf) = fun _ => nan := by
    funext i
    simp only [normalizeLogits, logSoftmax, hm]
    rfl
  show xsoftmax (normalizeLogits _) 0 = nan
  rw [e, hl]
  have hm' : rowMax (fun _ : Fin 2 => nan) = nan := by
    simp [rowMax, XR.max]
  simp only [xsoftmax, hm']
  have : XR.exp (nan - nan) = nan := rfl
  rw [this]
  show XR.div _ _ = _
  simp [XR.div]

end Distrax
