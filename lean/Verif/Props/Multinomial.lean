import Verif.Lemmas.Multinomial
import Verif.Props.Categorical
import Verif.Props.Bernoulli
import Verif.Props.MathUtils
import Mathlib.Tactic.NormNum

/-! Property C36 (Multinomial). -/

namespace Distrax

open XR Spec Finset

variable {K : ℕ}

/-! ### Construction -/

/-- The constructor fails, always with ValueError, exactly when not one of `logits`/`probs` is given, there are fewer than two categories,
or the dtype is neither integer nor floating; otherwise it stores what `Categorical` stores. -/
theorem C36_ctor (n : ℕ) (l p : Option (Fin K → XR)) (dt : DType) :
    (∀ e, Mult.init n l p dt = .error e ↔ e = .valueError ∧ (l.isSome = p.isSome ∨ K < 2 ∨ dt = .other)) ∧
    ∀ d, Mult.init n l p dt = .ok d → d.total = n ∧ Cat.init l p dt = .ok d.cat := by
  by_cases hK : K < 2
  · unfold Mult.init Cat.init
    cases l <;> cases p <;> cases dt <;> simp [hK, eq_comm]
  · unfold Mult.init Cat.init
    cases l <;> cases p <;> cases dt <;> simp [hK, eq_comm]

/-! ### log_prob -/

theorem xlgamma_nat (m : ℕ) : xlgamma ((m : ℝ) + 1) = fin (Real.log m.factorial) := by
  rw [xlgamma, if_neg]
  · rw [lgamma, Real.Gamma_nat_eq_factorial, abs_of_nonneg (by positivity)]
  · rintro ⟨k, hk⟩
    have : (0 : ℝ) ≤ k := by positivity
    have : (0 : ℝ) ≤ m := by positivity
    linarith

theorem multPmf_pos_iff {n : ℕ} {p : Fin K → ℝ} (hp : IsPmf p) (c : Fin K → ℕ) :
    (0 ≤ multPmf n p c) ∧ (multPmf n p c = 0 ↔ ∃ i, p i = 0 ∧ c i ≠ 0) := by
  have h1 : 0 < (n.factorial : ℝ) / ∏ i, ((c i).factorial : ℝ) :=
    div_pos (by positivity) (prod_pos fun i _ => by positivity)
  refine ⟨mul_nonneg h1.le (prod_nonneg fun i _ => pow_nonneg (hp.nonneg i) _), ?_⟩
  unfold multPmf
  rw [mul_eq_zero, prod_eq_zero_iff]
  simp [h1.ne']

theorem log_multPmf {n : ℕ} {p : Fin K → ℝ} {c : Fin K → ℕ} (h : ∀ i, p i = 0 → c i = 0) :
    Real.log (multPmf n p c) =
      Real.log n.factorial - ∑ i, Real.log (c i).factorial + ∑ i, (c i : ℝ) * Real.log (p i) := by
  have h1 : (n.factorial : ℝ) ≠ 0 := by positivity
  have h2 : (∏ i, ((c i).factorial : ℝ)) ≠ 0 := prod_ne_zero_iff.2 fun i _ => by positivity
  have h3 : ∀ i, p i ^ c i ≠ 0 := by
    intro i hi
    by_cases e : p i = 0
    · simp [h i e] at hi
    · exact pow_ne_zero _ e hi
  have h3' : (∏ i, p i ^ c i) ≠ 0 := prod_ne_zero_iff.2 fun i _ => h3 i
  unfold multPmf
  rw [Real.log_mul (div_ne_zero h1 h2) h3', Real.log_div h1 h2,
    Real.log_prod (fun i _ => by positivity), Real.log_prod (fun i _ => h3 i)]
  simp only [Real.log_pow]

/-- `log_prob` of a vector of counts is the log of `n!/prod(c!) * prod(p^c)` (`-inf` when that is zero). -/
theorem C36_log_prob {d : Mult K} {p : Fin K → ℝ} (h : HasPmf d.cat p) (c : Fin K → ℕ) :
    d.logProb (fun i => c i) = xlog (multPmf d.total p c) := by
  have hl : ∀ i, d.logOfProbs i = xlog (p i) := h.logits
  simp only [Mult.logProb, hl, xlgamma_nat, sum_fin, fin_sub]
  by_cases hc : ∃ i, p i = 0 ∧ c i ≠ 0
  · rw [((multPmf_pos_iff h.pmf c).2).2 hc, sum_ninf, xlog, if_pos rfl]
    · rfl
    · intro i _
      by_cases hi : p i = 0 ∧ c i ≠ 0
      · left
        rw [hi.1]; exact mnn_xlog_inf (by exact_mod_cast Nat.pos_of_ne_zero hi.2)
      · right
        exact ⟨_, mnn_xlog (p i) (c i) fun e => by by_contra h'; exact hi ⟨e, by exact_mod_cast h'⟩⟩
    · obtain ⟨i, hi⟩ := hc
      refine ⟨i, mem_univ _, ?_⟩
      rw [hi.1]; exact mnn_xlog_inf (by exact_mod_cast Nat.pos_of_ne_zero hi.2)
  · have hne : multPmf d.total p c ≠ 0 := fun e => hc (((multPmf_pos_iff h.pmf c).2).1 e)
    push Not at hc
    rw [xlog, if_neg hne, log_multPmf hc]
    rw [sum_congr rfl fun i _ => mnn_xlog (p i) (c i) fun e => by exact_mod_cast hc i e, sum_fin, fin_add]

/-- The probabilities `exp(log_prob)` of the count vectors with total `n` are nonnegative and sum to one. -/
theorem C36_total {d : Mult K} {p : Fin K → ℝ} (h : HasPmf d.cat p) :
    ∑ c ∈ countVectors K d.total, weight (d.logProb fun i => c i) = 1 := by
  have := multE_const d.total h.pmf 1
  rw [← this, multE]
  refine sum_congr rfl fun c _ => ?_
  rw [C36_log_prob h, weight_xlog (multPmf_pos_iff h.pmf c).1, mul_one]

/-- The set of count vectors is what it should be. -/
theorem C36_support (n : ℕ) (c : Fin K → ℕ) : c ∈ countVectors K n ↔ ∑ i, c i = n := mem_countVectors

/-- Finding: `log_prob` does not look at the total of `value`: a vector of counts with a different total gets a
finite log-probability too (whenever its categories are possible), so the sum over all count vectors exceeds 1. -/
theorem C36_total_unchecked {d : Mult K} {p : Fin K → ℝ} (h : HasPmf d.cat p) (hpos : ∀ i, 0 < p i)
    (c : Fin K → ℕ) (_wrong : ∑ i, c i ≠ d.total) : ∃ a, d.logProb (fun i => c i) = fin a := by
  rw [C36_log_prob h, xlog, if_neg]
  · exact ⟨_, rfl⟩
  · intro e
    obtain ⟨i, h1, _⟩ := ((multPmf_pos_iff h.pmf c).2).1 e
    exact (hpos i).ne' h1

/-- A vector with a negative integer entry has log-probability `-inf` when all probabilities are positive. -/
theorem C36_negative_count {d : Mult K} {p : Fin K → ℝ} (h : HasPmf d.cat p) (hpos : ∀ i, 0 < p i)
    (v : Fin K → ℤ) (hv : ∃ i, v i < 0) : d.logProb (fun i => v i) = ninf := by
  have hl : ∀ i, d.logOfProbs i = xlog (p i) := h.logits
  simp only [Mult.logProb, hl, xlgamma_nat]
  have e1 : ∀ i, multiplyNoNan (xlog (p i)) (fin (v i)) = fin (v i * Real.log (p i)) :=
    fun i => mnn_xlog _ _ fun e => absurd e (hpos i).ne'
  have e2 : ∑ i, xlgamma ((v i : ℝ) + 1) = pinf := by
    refine sum_pinf _ _ (fun i _ => ?_) ?_
    · unfold xlgamma; split_ifs
      · exact .inl rfl
      · exact .inr ⟨_, rfl⟩
    · obtain ⟨i, hi⟩ := hv
      refine ⟨i, mem_univ _, if_pos ⟨(-v i - 1).toNat, ?_⟩⟩
      have : (((-v i - 1).toNat : ℤ) : ℝ) = -v i - 1 := by
        rw [Int.toNat_of_nonneg (by omega)]; push_cast; ring
      rw [Int.cast_natCast] at this
      rw [this]; ring
  simp only [e1, e2, sum_fin]
  rfl

/-! ### Sampling -/

theorem sampleLoop_eq (n : ℕ) (draw : ℕ → Fin K) (m i : ℕ) (him : i + m = n) (agg : Fin K → ℝ) (k : Fin K) :
    Mult.sampleLoop n draw i agg k = agg k + ∑ j ∈ range m, if draw (i + j) = k then (1 : ℝ) else 0 := by
  induction m generalizing i agg with
  | zero =>
    rw [Mult.sampleLoop, if_neg (by omega)]; simp
  | succ m ih =>
    rw [Mult.sampleLoop, if_pos (by omega), ih (i + 1) (by omega), sum_range_succ']
    simp only [add_zero]
    rw [add_assoc]
    congr 1
    rw [add_comm]
    congr 1
    exact sum_congr rfl fun j _ => by rw [show i + 1 + j = i + (j + 1) by ring]

/-- The sampled vector is the vector of counts of the `n` categories drawn in the loop. -/
theorem C36_sample_counts (n : ℕ) (draw : ℕ → Fin K) (k : Fin K) :
    Mult.sampleLoop n draw 0 (fun _ => 0) k = countsOf (fun i : Fin n => draw i) k := by
  rw [sampleLoop_eq n draw n 0 (by omega), countsOf, card_filter, Finset.sum_range]
  simp

theorem sum_countsOf {n : ℕ} (f : Fin n → Fin K) : ∑ k, countsOf f k = n := by
  unfold countsOf
  rw [← card_eq_sum_card_fiberwise (f := f) (s := univ) (t := univ) (by simp)]
  simp

/-- Every sample consists of nonnegative integers that add up to exactly `n`, and has positive probability. -/
theorem C36_sample_support {d : Mult (K + 1)} {p : Fin (K + 1) → ℝ} (h : HasPmf d.cat p)
    (g : ℕ → Fin (K + 1) → ℝ) :
    ∃ c ∈ countVectors (K + 1) d.total, (∀ k, d.sample g k = c k) ∧ ∃ a, d.logProb (d.sample g) = fin a := by
  set f : Fin d.total → Fin (K + 1) := fun i => argmaxIdx fun k => fin (g i k) + d.cat.logits k
  have hs : d.sample g = fun k => (countsOf f k : ℝ) := funext fun k => C36_sample_counts _ _ k
  refine ⟨countsOf f, mem_countVectors.2 (sum_countsOf f), fun k => by rw [hs], ?_⟩
  rw [hs, C36_log_prob h, xlog, if_neg]
  · exact ⟨_, rfl⟩
  · intro e
    obtain ⟨k, h1, h2⟩ := ((multPmf_pos_iff h.pmf _).2).1 e
    obtain ⟨i, hi⟩ := card_ne_zero.1 h2
    have hi' : f i = k := (mem_filter.1 hi).2
    obtain ⟨k', h3, h4⟩ := C24_sample_support h (g i)
    have hv : d.cat.isValid := by
      by_contra hv
      rw [Cat.sample, if_neg hv] at h3
      omega
    rw [Cat.sample, if_pos hv] at h3
    have : f i = k' := Fin.ext (by exact_mod_cast h3)
    rw [← this, hi', h1] at h4
    exact lt_irrefl _ h4

/-- If the categories drawn in the loop are independent with probabilities `p`, the sample has the multinomial
law: the probability of obtaining `c` is `exp(log_prob(c))`. -/
theorem C36_sample_law {d : Mult K} {p : Fin K → ℝ} (h : HasPmf d.cat p) (k0 : Fin K) {c : Fin K → ℕ}
    (hc : ∑ i, c i = d.total) :
    iidProb d.total p (fun f => ∀ k,
      Mult.sampleLoop d.total (fun i => if hi : i < d.total then f ⟨i, hi⟩ else k0) 0 (fun _ => 0) k = c k)
      = weight (d.logProb fun i => c i) := by
  rw [C36_log_prob h, weight_xlog (multPmf_pos_iff h.pmf c).1, iidProb]
  classical
  have := iid_counts d.total p (fun c' => if c' = c then 1 else 0)
  rw [multE] at this
  simp only [mul_ite, mul_one, mul_zero, sum_ite_eq', mem_countVectors.2 hc, if_true] at this
  rw [← this]
  refine sum_congr rfl fun f _ => ?_
  have e : (∀ k, Mult.sampleLoop d.total (fun i => if hi : i < d.total then f ⟨i, hi⟩ else k0) 0
      (fun _ => 0) k = (c k : ℝ)) ↔ countsOf f = c := by
    simp only [C36_sample_counts, Nat.cast_inj]
    simp [funext_iff]
  by_cases hf : countsOf f = c
  · rw [if_pos (e.2 hf), if_pos hf]
  · rw [if_neg (fun h' => hf (e.1 h')), if_neg hf]

/-! ### Moments -/

/-- `mean` is the expected count. -/
theorem C36_mean {d : Mult K} {p : Fin K → ℝ} (h : HasPmf d.cat p) (k : Fin K) :
    d.mean k = fin (multE d.total p fun c => c k) ∧ d.mean k = fin (d.total * p k) := by
  have : d.mean k = fin (d.total * p k) := by
    show fin d.total * d.cat.probs k = _
    rw [h.probs]; rfl
  exact ⟨by rw [this, multE_count _ h.pmf], this⟩

/-- `covariance` is the covariance of the counts. -/
theorem C36_covariance {d : Mult K} {p : Fin K → ℝ} (h : HasPmf d.cat p) (i j : Fin K) :
    d.covariance i j = fin (multE d.total p (fun c => (c i : ℝ) * c j)
      - multE d.total p (fun c => c i) * multE d.total p fun c => c j) := by
  have hp : ∀ k, d.probs k = fin (p k) := h.probs
  rw [multE_count_mul _ h.pmf, multE_count _ h.pmf, multE_count _ h.pmf]
  unfold Mult.covariance
  rw [hp, hp]
  by_cases e : i = j
  · simp only [e, if_true, neg_fin, fin_mul, fin_add]
    congr 1; ring
  · simp only [e, if_false, neg_fin, fin_mul, add_zero]
    congr 1; ring

/-- `variance` is the diagonal of `covariance`, namely `n p (1 - p)`, and each row of `covariance` sums to zero;
the matrix is symmetric. -/
theorem C36_variance {d : Mult K} {p : Fin K → ℝ} (h : HasPmf d.cat p) (k : Fin K) :
    d.variance k = fin (d.total * p k * (1 - p k)) ∧ d.variance k = d.covariance k k ∧
    ∑ j, d.covariance k j = 0 ∧ ∀ j, d.covariance k j = d.covariance j k := by
  have hp : ∀ k, d.probs k = fin (p k) := h.probs
  have hv : d.variance k = fin (d.total * p k * (1 - p k)) := by
    show fin d.total * d.probs k * (1 - d.probs k) = _
    rw [hp, XR.one_def]; simp
  have hc : ∀ i j, d.covariance i j = fin (-(d.total * (p i * p j)) + if i = j then d.total * p i else 0) := by
    intro i j
    rw [C36_covariance h, multE_count_mul _ h.pmf, multE_count _ h.pmf, multE_count _ h.pmf]
    congr 1; ring
  refine ⟨hv, ?_, ?_, fun j => ?_⟩
  · rw [hv, hc]; simp; ring
  · simp only [hc, sum_fin]
    rw [sum_add_distrib, sum_neg_distrib, ← mul_sum, ← mul_sum, h.pmf.sum_one]
    simp [XR.zero_def]
  · rw [hc, hc]
    by_cases e : k = j
    · subst e; rfl
    · simp only [e, Ne.symm e, if_false]; congr 1; ring

/-! ### Entropy -/

theorem pnn_nat {q : ℝ} (hq : 0 ≤ q) (m : ℕ) : powerNoNan (fin q) (fin (m : ℝ)) = fin (q ^ m) := by
  rcases hq.lt_or_eq with h | h
  · rw [C16_power_no_nan_real h, Real.rpow_natCast]
  · subst h
    rcases Nat.eq_zero_or_pos m with e | e
    · subst e; rw [Nat.cast_zero, C16_power_no_nan_zero]; simp
    · have : (m : ℝ) ≠ 0 := by positivity
      rw [C16_power_no_nan_else _ _ (by simpa using e.ne')]
      have hm : (0 : ℝ) < m := by positivity
      simp [XR.pow, e.ne', hm]

theorem log_choose_exp {n x : ℕ} (hx : x ≤ n) :
    Real.exp (Real.log n.factorial - Real.log x.factorial - Real.log (n - x).factorial) = n.choose x := by
  have h := Nat.choose_mul_factorial_mul_factorial hx
  have e1 : (0 : ℝ) < n.factorial := by positivity
  have e2 : (0 : ℝ) < x.factorial := by positivity
  have e3 : (0 : ℝ) < (n - x).factorial := by positivity
  rw [Real.exp_sub, Real.exp_sub, Real.exp_log e1, Real.exp_log e2, Real.exp_log e3, div_div, ← h]
  push_cast
  field_simp

theorem combTerm_eq {n x : ℕ} (hx : x ≤ n) {p : Fin K → ℝ} (hp : IsPmf p) (k : Fin K) :
    Mult.combTerm n (fun k => fin (p k)) x k =
      fin ((n.choose x : ℝ) * (p k ^ x * (1 - p k) ^ (n - x)) * Real.log x.factorial) := by
  have e : ((n : ℝ) - x + 1) = ((n - x : ℕ) : ℝ) + 1 := by rw [Nat.cast_sub hx]
  have e' : ((n : ℝ) - x) = ((n - x : ℕ) : ℝ) := by rw [Nat.cast_sub hx]
  simp only [Mult.combTerm, xlgamma_nat, e, e', XR.one_def, fin_sub, exp_fin, log_choose_exp hx,
    pnn_nat (hp.nonneg k), pnn_nat (sub_nonneg.2 (hp.le_one k)), Mult.xround]
  have : round ((n.choose x : ℕ) : ℝ) = (n.choose x : ℕ) := round_natCast _
  rw [this]
  simp only [fin_mul, Int.cast_natCast]
  congr 1; ring

theorem entropyLoop_eq (n : ℕ) {p : Fin K → ℝ} (hp : IsPmf p) (m x : ℕ) (hmx : x + m = n + 1)
    (acc : Fin K → ℝ) (k : Fin K) :
    Mult.entropyLoop n (fun k => fin (p k)) x (fun k => fin (acc k)) k = fin (acc k + ∑ j ∈ range m,
      (n.choose (x + j) : ℝ) * (p k ^ (x + j) * (1 - p k) ^ (n - (x + j))) * Real.log (x + j).factorial) := by
  induction m generalizing x acc with
  | zero => rw [Mult.entropyLoop, if_neg (by omega)]; simp
  | succ m ih =>
    rw [Mult.entropyLoop, if_pos (by omega)]
    have : (fun k => fin (acc k) + Mult.combTerm n (fun k => fin (p k)) x k) = fun k =>
        fin (acc k + (n.choose x : ℝ) * (p k ^ x * (1 - p k) ^ (n - x)) * Real.log x.factorial) := by
      funext k; rw [combTerm_eq (by omega) hp]; rfl
    rw [this, ih (x + 1) (by omega), sum_range_succ']
    congr 1
    simp only [add_zero]
    rw [add_assoc]
    congr 1
    rw [add_comm]
    congr 1
    exact sum_congr rfl fun j _ => by rw [show x + 1 + j = x + (j + 1) by ring]

theorem entropy_formula (n : ℕ) {p : Fin K → ℝ} (hp : IsPmf p) :
    -multE n p (fun c => Real.log (multPmf n p c)) =
      -Real.log n.factorial - ∑ k, (n : ℝ) * (p k * Real.log (p k)) + ∑ k, ∑ x ∈ range (n + 1),
        (n.choose x : ℝ) * (p k ^ x * (1 - p k) ^ (n - x)) * Real.log x.factorial := by
  have e : multE n p (fun c => Real.log (multPmf n p c)) = multE n p (fun c =>
      Real.log n.factorial + (∑ i, (-1) * Real.log (c i).factorial + ∑ i, Real.log (p i) * (c i : ℝ))) := by
    unfold multE
    refine sum_congr rfl fun c _ => ?_
    by_cases hc : multPmf n p c = 0
    · rw [hc]; ring
    · beta_reduce
      rw [log_multPmf]
      · rw [← mul_sum, sum_congr rfl fun i _ => mul_comm (Real.log (p i)) (c i : ℝ)]; ring
      · intro i h0
        by_contra h1
        exact hc (((multPmf_pos_iff hp c).2).2 ⟨i, h0, h1⟩)
  rw [e, multE_add, multE_add, multE_const n hp, multE_sum, multE_sum]
  simp only [multE_smul, multE_count n hp]
  rw [sum_congr rfl fun i _ => by rw [multE_marginal n hp i fun m => Real.log m.factorial], ← mul_sum]
  rw [sum_congr rfl fun i _ => show Real.log (p i) * (n * p i) = n * (p i * Real.log (p i)) by ring]
  ring

/-- `entropy` is minus the expected log-probability. -/
theorem C36_entropy {d : Mult K} {p : Fin K → ℝ} (h : HasPmf d.cat p) :
    d.entropy = fin (-multE d.total p fun c => Real.log (multPmf d.total p c)) := by
  rw [entropy_formula _ h.pmf]
  have hp : d.probs = fun k => fin (p k) := funext h.probs
  have hl : ∀ i, d.logOfProbs i = xlog (p i) := h.logits
  have z : (fun _ : Fin K => (0 : XR)) = fun k => fin ((fun _ => (0 : ℝ)) k) := rfl
  simp only [Mult.entropy, hp, hl, xlgamma_nat]
  rw [z]
  have e1 := fun k => entropyLoop_eq d.total h.pmf (d.total + 1) 0 (by omega) (fun _ => 0) k
  have e2 : ∀ k, multiplyNoNan (xlog (p k)) (fin (p k)) = fin (p k * Real.log (p k)) := fun k =>
    mnn_xlog _ _ fun e => e
  simp only [e1, e2, fin_mul, sum_fin, neg_fin, fin_sub, fin_add, zero_add]

/-- The two implementations of the entropy agree. -/
theorem C36_entropy_variants {d : Mult K} {p : Fin K → ℝ} (h : HasPmf d.cat p) :
    d.entropyScalar = d.entropy := by
  rw [C36_entropy h, entropy_formula _ h.pmf]
  have hp : ∀ k, d.probs k = fin (p k) := h.probs
  have hl : ∀ i, d.logOfProbs i = xlog (p i) := h.logits
  have e2 : ∀ k, multiplyNoNan (xlog (p k)) (fin (p k)) = fin (p k * Real.log (p k)) := fun k =>
    mnn_xlog _ _ fun e => e
  have er : ∀ x : Fin (d.total + 1), ((x.rev : ℕ) : ℝ) = ((d.total - x : ℕ) : ℝ) := by
    intro x; rw [Fin.val_rev]; congr 1; omega
  have ex : ∀ x : Fin (d.total + 1), (d.total : ℝ) - ((x : ℕ) : ℝ) = ((d.total - x : ℕ) : ℝ) := by
    intro x; rw [Nat.cast_sub (by have := x.2; omega)]
  have e1 : ∀ k, (1 : XR) - fin (p k) = fin (1 - p k) := fun k => by rw [XR.one_def]; simp
  simp only [Mult.entropyScalar, hp, hl, e2, xlgamma_nat, Fin.val_last, Fin.val_rev, ex, e1, pnn_nat (h.pmf.nonneg _),
    pnn_nat (sub_nonneg.2 (h.pmf.le_one _)), fin_mul, sum_fin, neg_fin, fin_sub, exp_fin]
  have e3 : ∀ x : Fin (d.total + 1), Real.exp (Real.log d.total.factorial - Real.log (x : ℕ).factorial
      - Real.log (d.total + 1 - (x + 1)).factorial) = d.total.choose x := by
    intro x
    rw [show d.total + 1 - ((x : ℕ) + 1) = d.total - x by omega]
    exact log_choose_exp (by have := x.2; omega)
  have e4 : ∀ x : Fin (d.total + 1), Mult.xround (fin (d.total.choose x : ℝ)) = fin (d.total.choose x : ℝ) := by
    intro x
    have : round ((d.total.choose x : ℕ) : ℝ) = (d.total.choose x : ℕ) := round_natCast _
    simp only [Mult.xround, this, Int.cast_natCast]
  simp only [e3, e4, fin_mul, sum_fin, fin_add]
  congr 2
  rw [sum_comm, Finset.sum_range]
  refine sum_congr rfl fun x _ => ?_
  rw [mul_sum]
  exact sum_congr rfl fun k _ => by ring

/-! ### A concrete case -/

/-- Five trials over three categories, one of them impossible. -/
example : ∃ (d : Mult 3) (p : Fin 3 → ℝ), Mult.init 5 none (some ![fin 1, fin 0, fin 3]) .integer = .ok d ∧
    HasPmf d.cat p ∧ d.total = 5 ∧ p 1 = 0 ∧ p 0 = 1 / 4 := by
  have hw : (![fin 1, fin 0, fin 3] : Fin 3 → XR) = fun i => fin ((![1, 0, 3] : Fin 3 → ℝ) i) := by
    funext i; fin_cases i <;> rfl
  obtain ⟨d, p, h1, h2, h3⟩ := C24_from_probs (![1, 0, 3] : Fin 3 → ℝ)
    (by intro i; fin_cases i <;> simp) (by simp [Fin.sum_univ_three]; norm_num) .integer (by simp)
  refine ⟨⟨5, d⟩, p, ?_, h2, rfl, ?_, ?_⟩
  · rw [hw]
    unfold Cat.init at h1
    simp at h1
    subst h1
    simp [Mult.init]
  · rw [h3]; simp
  · rw [h3]; simp [Fin.sum_univ_three]; norm_num

end Distrax
