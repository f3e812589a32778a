import Verif.Props.Equivalent
import Verif.Props.Bernoulli
import Verif.Props.Mixture
import Verif.Props.Multinomial
import Verif.Props.BetaDirichlet
import Verif.Props.HMM

/-! C60, part 2: limiting and special cases of one family that are another family. -/

namespace Distrax

open Spec Bij

/-! ### Bernoulli and Categorical -/

/-- `Bernoulli(p)` and `Categorical(probs=[1 - p, p])` agree: probabilities, log-probabilities, CDF at every integer, entropy. -/
theorem C60_bernoulli_categorical {d : Bern} {p : ℝ} (h : BernP d p) {c : Cat 2} (hc : HasPmf c ![1 - p, p]) :
    (∀ k : Fin 2, d.logProb (.fin (k : ℕ)) = c.logProb (.fin (k : ℕ)) ∧ d.prob (.fin (k : ℕ)) = c.prob (.fin (k : ℕ))) ∧
    (∀ v : ℤ, d.cdf (.fin v) = c.cdf (.fin v)) ∧ d.entropy = c.entropy := by
  obtain ⟨p1, p0, -, l1, l0, -⟩ := C27_log_prob h
  refine ⟨fun k => ?_, fun v => ?_, ?_⟩
  · obtain ⟨a, b, -⟩ := C24_on_support hc k
    rw [a, b]
    fin_cases k
    · simpa using ⟨l0, p0⟩
    · simpa using ⟨l1, p1⟩
  · rw [(C27_cdf h v).1, C24_cdf hc, Finset.sum_filter, Fin.sum_univ_two]
    rcases lt_trichotomy v 0 with hv | rfl | hv
    · have : (v : ℝ) < 0 := by exact_mod_cast hv
      simp [this, not_le.2 hv, show ¬ (1 : ℤ) ≤ v by omega]
    · simp
    · have h1 : (1 : ℤ) ≤ v := hv
      have h2 : ¬ (v : ℝ) < 0 := not_lt.2 (by exact_mod_cast hv.le)
      have h3 : ¬ (v : ℝ) < 1 := not_lt.2 (by exact_mod_cast h1)
      simp [h2, h3, hv.le, h1]
  · obtain ⟨H, h1, h2, -⟩ := C27_entropy h
    rw [h1, h2, C25_entropy hc]

/-! ### Mixtures -/

/-- `MixtureOfTwo(p, a, b)` and the `MixtureSameFamily` with components `a`, `b` and weights `(p, 1 - p)` have the same
`log_prob`, whatever logits denote those weights. -/
theorem C60_mixture_of_two {E ι : Type} (d : MixtureOfTwo E) (h0 : 0 ≤ d.probA) (h1 : d.probA ≤ 1) (logits : Fin 2 → XR)
    (hl : LegalLogits logits) (hw : ∀ k, weight (logits k) / ∑ j, weight (logits j) = ![d.probA, 1 - d.probA] k)
    (m s : Fin 2 → ι → ℝ) (v : E) (ha : IsLogDensity (d.logProbA v)) (hb : IsLogDensity (d.logProbB v)) :
    d.logProb v = (MixtureSameFamily.init logits ![d.logProbA, d.logProbB] m s).logProb v := by
  rw [(C34_two_log_prob d h0 h1 v ha hb).1,
    (C34_same_family_log_prob logits hl ![d.logProbA, d.logProbB] m s v (by intro k; fin_cases k; exacts [ha, hb])).1]
  have e0 := hw 0
  have e1 := hw 1
  simp only [Fin.sum_univ_two, mixW] at *
  rw [e0, e1]; rfl

/-- A mixture with one component is that component. -/
theorem C60_single_component {E ι : Type} (logits : Fin 1 → XR) (hl : LegalLogits logits) (lp : Fin 1 → E → XR)
    (m s : Fin 1 → ι → ℝ) :
    (∀ v, IsLogDensity (lp 0 v) → (MixtureSameFamily.init logits lp m s).logProb v = lp 0 v) ∧
    ∀ j, (MixtureSameFamily.init logits lp m s).mean j = .fin (m 0 j) ∧
      (MixtureSameFamily.init logits lp m s).variance j = .fin (s 0 j) := by
  have w : ∀ k, mixW logits k = 1 := by
    intro k
    have := (pmf_weights hl).sum_one
    rw [Fin.sum_univ_one] at this
    rw [Subsingleton.elim k 0]; exact this
  refine ⟨fun v hv => ?_, fun j => ?_⟩
  · rw [(C34_same_family_log_prob logits hl lp m s v fun k => by rw [Subsingleton.elim k 0]; exact hv).1, Fin.sum_univ_one, w, one_mul]
    exact hv.eq_xlog.symm
  · obtain ⟨a, b⟩ := moments_formula logits hl lp m s j
    rw [a, b]
    simp [w]

/-! ### Multinomial and OneHotCategorical -/

/-- One trial of a `Multinomial` is a `OneHotCategorical`: same `log_prob` on one-hot vectors, same sample from the same Gumbel
noise, same mean. -/
theorem C60_multinomial_one {K : ℕ} {d : Mult (K + 1)} (ht : d.total = 1) {p : Fin (K + 1) → ℝ} (h : HasPmf d.cat p) :
    (∀ k, d.logProb (fun i => if i = k then 1 else 0) = d.cat.ohLogProb (oneHot (K + 1) (.fin (k : ℕ)))) ∧
    (∀ g k, d.cat.ohSample (g 0) k = .fin (d.sample g k)) ∧ ∀ k, d.mean k = d.cat.probs k := by
  refine ⟨fun k => ?_, fun g k => ?_, fun k => ?_⟩
  · rw [(C26_one_hot h k).1, (C24_on_support h k).1]
    have := C36_log_prob h fun i => if i = k then 1 else 0
    simp only [Nat.cast_ite, Nat.cast_one, Nat.cast_zero] at this
    rw [this]
    congr 1
    unfold multPmf
    rw [ht]
    have f1 : ∀ i : Fin (K + 1), (((if i = k then 1 else 0 : ℕ).factorial : ℕ) : ℝ) = 1 := by intro i; split_ifs <;> simp
    simp only [f1, Finset.prod_const_one]
    rw [Finset.prod_eq_single k (fun i _ hi => by simp [hi]) (by simp)]
    simp
  · have hv : d.cat.isValid := by
      refine ⟨fun i => by rw [h.probs]; trivial, fun i => ?_⟩
      rw [h.probs]
      rcases (h.pmf.nonneg i).lt_or_eq with hi | hi
      · exact .inl hi
      · exact .inr hi
    have e : d.cat.ohSample (g 0) = oneHot (K + 1) (.fin ((argmaxIdx fun i => .fin (g 0 i) + d.cat.logits i : Fin (K + 1)) : ℕ)) :=
      if_pos hv
    have e2 : d.sample g k = (if (argmaxIdx fun i => .fin (g 0 i) + d.cat.logits i) = k then 1 else 0) := by
      unfold Mult.sample
      rw [ht, Mult.sampleLoop, if_pos (by norm_num), Mult.sampleLoop, if_neg (by norm_num), zero_add]
    rw [e, e2]
    by_cases hk : (argmaxIdx fun i => .fin (g 0 i) + d.cat.logits i) = k
    · rw [if_pos hk, ← hk]; exact oneHot_self _
    · rw [if_neg hk]; exact oneHot_ne (Ne.symm hk)
  · have : d.probs k = .fin (p k) := h.probs k
    rw [Mult.mean, ht, h.probs, this]
    show XR.fin _ = _
    simp

/-! ### EpsilonGreedy and Softmax -/

/-- `EpsilonGreedy` with `epsilon = 0` is `Greedy`, and with `epsilon = 1` it is uniform. -/
theorem C60_epsilon_greedy_limits {n : ℕ} (prefs : Fin n → XR) (hx : ∀ i, prefs i ≠ .nan) (hn : 0 < n) (dt : DType)
    (hd : dt ≠ .other) :
    (∃ d e p, Cat.epsilonGreedy prefs (.fin 0) dt = .ok d ∧ Cat.greedy prefs dt = .ok e ∧ HasPmf d p ∧ HasPmf e p) ∧
    ∃ d, Cat.epsilonGreedy prefs (.fin 1) dt = .ok d ∧ HasPmf d fun _ => 1 / n := by
  obtain ⟨d0, p0, a1, a2, a3⟩ := C26_epsilon_greedy prefs hx hn 0 le_rfl zero_le_one dt hd
  obtain ⟨d1, p1, b1, b2, b3⟩ := C26_epsilon_greedy prefs hx hn 1 zero_le_one le_rfl dt hd
  obtain ⟨e, q, c1, c2, c3⟩ := C26_greedy prefs hx hn dt hd
  have e0 : p0 = q := funext fun i => by rw [a3, c3]; simp
  have e1 : p1 = fun _ => 1 / (n : ℝ) := funext fun i => by rw [b3]; simp
  exact ⟨⟨d0, e, q, a1, c1, e0 ▸ a2, c2⟩, d1, b1, e1 ▸ b2⟩

/-- `Softmax(logits, temperature=1)` is `Categorical(logits)`. -/
theorem C60_softmax_one {n : ℕ} (l : Fin n → XR) (hl : ∀ i, l i = .ninf ∨ ∃ a, l i = .fin a) (dt : DType) :
    Cat.softmaxDist l (.fin 1) dt = Cat.init (some l) none dt := by
  unfold Cat.softmaxDist
  have : (fun i => l i / .fin 1) = l := funext fun i => by
    rcases hl i with e | ⟨a, e⟩ <;> rw [e]
    · show XR.div _ _ = _; simp [XR.div]
    · rw [XR.div_fin one_ne_zero, div_one]
  rw [this]

/-! ### Beta and Uniform -/

/-- `Beta(1, 1)` is `Uniform(0, 1)`: `log_prob` on the closed interval, CDF, mean, variance, entropy. -/
theorem C60_beta_uniform :
    let b : BetaD := ⟨1, 1⟩
    let u : Uniform := ⟨0, 1⟩
    (∀ x ∈ Set.Icc (0 : ℝ) 1, b.logProb x = u.logProb x ∧ b.cdf x = u.cdf x) ∧ b.mean = u.mean ∧ b.variance = u.variance ∧
    b.entropy = u.entropy := by
  intro b u
  have hz : b.logZ = 0 := by simp [b, BetaD.logZ, logBeta, lgamma, Real.Gamma_one, show (1 : ℝ) + 1 = 2 by norm_num]
  refine ⟨fun x hx => ⟨?_, ?_⟩, ?_, ?_, ?_⟩
  · have hu := ((C31_uniform_support u (by norm_num [u]) x).1 hx).2
    rw [hu]
    obtain ⟨b0, b1, -⟩ := C38_beta_boundary b
    have e : (XR.fin (-Real.log (u.high - u.low))) = .fin (-b.logZ) := by rw [hz]; simp [u]
    rw [e]
    rcases hx.1.lt_or_eq with h0 | h0
    · rcases hx.2.lt_or_eq with h1 | h1
      · rw [b.logProb_in ⟨h0, h1⟩]; simp [b]
      · rw [h1, b1]; simp [b]
    · rw [← h0, b0]; simp [b]
  · simp [b, u, BetaD.cdf, betainc, Uniform.cdf, Uniform.range, not_lt.2 hx.1, not_lt.2 hx.2]
    rw [show (1 : ℝ) + 1 = 2 by norm_num, Real.Gamma_two, mul_one]
  · norm_num [b, u, BetaD.mean, Uniform.mean]
  · norm_num [b, u, BetaD.variance, Uniform.variance, Uniform.range]
  · simp [b, u, BetaD.entropy, hz, Uniform.entropy, Uniform.range]; norm_num [b]

/-! ### CDF transforms -/

variable {Key : Type}

/-- A standard Gumbel through `GumbelCDF` is uniform on (0, 1): `log_prob` is exactly 0 there, for values of any shape. -/
theorem C60_gumbel_cdf_uniform (noise : Key → List ℕ → BArr ℝ) (p q : BArr ℝ) (d : P2) (hi : P2.init p q = .ok d)
    {T : List ℕ} (hd : broadcastShapes d.batch T = some T) (h0 : ∀ i, InRange T i → bget p i = 0 ∧ bget q i = 1)
    (v : Arr) (hvT : v.shape = T) (hv : ∀ i, InRange T i → v.data i ∈ Set.Ioo (0 : ℝ) 1) :
    ∃ l, TransformedA.logProb (GumbelA.dist noise d) .gumbelCDF v = .ok l ∧ l.shape = T ∧
      ∀ i, InRange T i → l.data i = 0 ∧ Uniform.logProb ⟨0, 1⟩ (v.data i) = .fin (l.data i) := by
  have lp := (C58_gumbel_partial p q d hi).2.2.2.2.2.1
  obtain ⟨l, l1, l2, l3⟩ := transformed_entries (b := .gumbelCDF) (noise := noise) (sN := GumbelA.sampleN d) (nlp := GumbelA.sampleNLP d)
    (e := GumbelA.entropy d) (lc := GumbelA.logCdf d) lp trivial rfl (T := T) trivial hd v hvT
  refine ⟨l, l1, l2, fun i hiT => ?_⟩
  obtain ⟨g0, g1⟩ := hv i hiT
  have e : l.data i = 0 := by
    rw [l3 i hiT, (P2.init_wf hi).1, (P2.init_wf hi).2.1, (h0 i hiT).1, (h0 i hiT).2]
    have hl : 0 < -Real.log (v.data i) := by have := Real.log_neg g0 g1; linarith
    simp only [den, Gumbel.logProb, Gumbel.standardize, gumbelCdfInv, gumbelCdfIldj]
    simp only [sub_zero, div_one, Real.log_one, neg_neg, Real.exp_log hl]
    ring
  refine ⟨e, ?_⟩
  rw [e, ((C31_uniform_support ⟨0, 1⟩ (by norm_num) (v.data i)).1 ⟨g0.le, g1.le⟩).2]
  simp

/-- A standard Logistic through `Sigmoid` is uniform on (0, 1). -/
theorem C60_logistic_sigmoid_uniform (noise : Key → List ℕ → BArr ℝ) (p q : BArr ℝ) (d : P2) (hi : P2.init p q = .ok d)
    {T : List ℕ} (hd : broadcastShapes d.batch T = some T) (h0 : ∀ i, InRange T i → bget p i = 0 ∧ bget q i = 1)
    (v : Arr) (hvT : v.shape = T) (hv : ∀ i, InRange T i → v.data i ∈ Set.Ioo (0 : ℝ) 1) :
    ∃ l, TransformedA.logProb (LogisticA.dist noise d) .sigmoid v = .ok l ∧ l.shape = T ∧
      ∀ i, InRange T i → l.data i = 0 ∧ Uniform.logProb ⟨0, 1⟩ (v.data i) = .fin (l.data i) := by
  have lp := (C58_logistic p q d hi).2.2.2.2.2.2.1
  obtain ⟨l, l1, l2, l3⟩ := transformed_entries (b := .sigmoid) (noise := noise) (sN := LogisticA.sampleN d)
    (nlp := fun rnd => (LogisticA.sampleN d rnd, LogisticA.logProb d (LogisticA.sampleN d rnd)))
    (e := LogisticA.entropy d) (lc := LogisticA.logCdf d) lp trivial rfl (T := T) trivial hd v hvT
  refine ⟨l, l1, l2, fun i hiT => ?_⟩
  obtain ⟨g0, g1⟩ := hv i hiT
  have e : l.data i = 0 := by
    rw [l3 i hiT, (P2.init_wf hi).1, (P2.init_wf hi).2.1, (h0 i hiT).1, (h0 i hiT).2]
    have hs : ∀ x, moreStableSoftplus x = rsoftplus x := by intro x; unfold moreStableSoftplus softplus rsoftplus; simp
    simp only [den, Logistic.logProb, Logistic.standardize, sigmoidFldj, hs]
    simp [rsoftplus_neg]; ring
  refine ⟨e, ?_⟩
  rw [e, ((C31_uniform_support ⟨0, 1⟩ (by norm_num) (v.data i)).1 ⟨g0.le, g1.le⟩).2]
  simp

/-! ### KL divergences are invariant under a common affine map -/

/-- KL divergences do not change when both distributions go through the same affine map. -/
theorem C60_kl_affine (m1 s1 m2 s2 c t : ℝ) (h1 : 0 < s1) (h2 : 0 < s2) (hc : c ≠ 0) :
    Normal.kl ⟨c * m1 + t, |c| * s1⟩ ⟨c * m2 + t, |c| * s2⟩ = Normal.kl ⟨m1, s1⟩ ⟨m2, s2⟩ ∧
    Laplace.kl ⟨c * m1 + t, |c| * s1⟩ ⟨c * m2 + t, |c| * s2⟩ = Laplace.kl ⟨m1, s1⟩ ⟨m2, s2⟩ ∧
    (0 < c → Gumbel.kl ⟨c * m1 + t, c * s1⟩ ⟨c * m2 + t, c * s2⟩ = Gumbel.kl ⟨m1, s1⟩ ⟨m2, s2⟩) := by
  have hc' := abs_pos.2 hc
  have e : Real.log (|c| * s1) - Real.log (|c| * s2) = Real.log s1 - Real.log s2 := by
    rw [Real.log_mul hc'.ne' h1.ne', Real.log_mul hc'.ne' h2.ne']; ring
  refine ⟨?_, ?_, fun hp => ?_⟩
  · simp only [Normal.kl]
    rw [e]
    have : ((c * m1 + t) / (|c| * s2) - (c * m2 + t) / (|c| * s2)) ^ 2 = (m1 / s2 - m2 / s2) ^ 2 := by
      rw [← sub_div, ← sub_div, div_pow, div_pow, mul_pow, sq_abs]
      field_simp; ring
    rw [this]
  · simp only [Laplace.kl]
    rw [e, show c * m1 + t - (c * m2 + t) = c * (m1 - m2) by ring, abs_mul, neg_mul_eq_mul_neg, mul_div_mul_left _ _ hc'.ne',
      mul_div_mul_left _ _ hc'.ne']
  · simp only [Gumbel.kl]
    have e' : Real.log (c * s2) - Real.log (c * s1) = Real.log s2 - Real.log s1 := by
      rw [Real.log_mul hc h1.ne', Real.log_mul hc h2.ne']; ring
    rw [e', show c * m2 + t - (c * m1 + t) = c * (m2 - m1) by ring, show c * m1 + t - (c * m2 + t) = c * (m1 - m2) by ring,
      mul_div_mul_left _ _ hc, mul_div_mul_left _ _ hc, mul_div_mul_left _ _ hc]

/-! ### Hidden Markov models -/

/-- A one-step hidden Markov model is a mixture: the log-likelihood `forward` returns for one observation is `log_prob` of the
`MixtureSameFamily` whose weights are the initial probabilities and whose components are the observation distributions. -/
theorem C60_hmm_one_step {K : ℕ} {O ι : Type} (h : HMM K O) (hv : h.Valid) (obs : ℕ → O)
    (hc : h.NoClampForward obs 1) (hp : 0 < h.evidence obs 0) (m s : Fin K → ι → ℝ) :
    (MixtureSameFamily.init (fun k => xlog (h.initProbs k)) (fun k o => xlog (h.obsProb o k)) m s).logProb (obs 0) =
      .fin (h.forward obs 1 1).1 := by
  have hw : ∀ k, weight (xlog (h.initProbs k)) = h.initProbs k := fun k => weight_xlog (hv.init_nonneg k)
  have hl : LegalLogits fun k => xlog (h.initProbs k) := by
    refine ⟨fun k => ?_, ?_⟩
    · unfold xlog; split_ifs
      · exact .inl rfl
      · exact .inr ⟨_, rfl⟩
    · obtain ⟨k, -, hk⟩ := Finset.exists_ne_zero_of_sum_ne_zero (by rw [hv.init_sum]; exact one_ne_zero : ∑ k, h.initProbs k ≠ 0)
      exact ⟨k, Real.log (h.initProbs k), by simp [xlog, hk]⟩
  have hmw : ∀ k, mixW (fun k => xlog (h.initProbs k)) k = h.initProbs k := by
    intro k; simp only [mixW, hw, hv.init_sum, div_one]
  have he : h.evidence obs 0 = ∑ k, h.initProbs k * h.obsProb (obs 0) k := by
    unfold HMM.evidence HMM.joint
    rw [← (Equiv.funUnique (Fin 1) (Fin K)).symm.sum_comp]
    refine Finset.sum_congr rfl fun k _ => ?_
    simp
  rw [(C34_same_family_log_prob _ hl _ m s (obs 0) fun k => xlog_isLogDensity _).1, (HMM.C41_forward h hv obs 0 hc hp).1, he]
  simp only [hmw, weight_xlog (hv.obs_nonneg _ _)]
  rw [← he, xlog, if_neg hp.ne']

/-- With a single state the observations are independent: the log-likelihood is the sum of the observation log-probabilities. -/
theorem C60_hmm_one_state {O : Type} (h : HMM 1 O) (hv : h.Valid) (obs : ℕ → O) (n : ℕ) (ho : ∀ t, 1e-15 ≤ h.obsProb (obs t) 0) :
    (h.forward obs (n + 1) (n + 1)).1 = ∑ t ∈ Finset.range (n + 1), Real.log (h.obsProb (obs t) 0) := by
  have hi : h.initProbs 0 = 1 := by have := hv.init_sum; rwa [Fin.sum_univ_one] at this
  have ht : ∀ i j, h.transProbs i j = 1 := fun i j => by
    have := hv.trans_sum i; rw [Fin.sum_univ_one] at this; rw [Subsingleton.elim j 0]; exact this
  have pos : ∀ t, 0 < h.obsProb (obs t) 0 := fun t => lt_of_lt_of_le (by norm_num) (ho t)
  have hj : ∀ (m : ℕ) (z : Fin (m + 1) → Fin 1), h.joint obs z = ∏ t ∈ Finset.range (m + 1), h.obsProb (obs t) 0 := by
    intro m z
    unfold HMM.joint
    rw [Subsingleton.elim (z 0) 0, hi, Finset.prod_congr rfl fun t _ => ht _ _, Finset.prod_const_one, Finset.prod_range]
    simp only [one_mul]
    exact Finset.prod_congr rfl fun t _ => by rw [Subsingleton.elim (z t) 0]
  have he : ∀ m, h.evidence obs m = ∏ t ∈ Finset.range (m + 1), h.obsProb (obs t) 0 := by
    intro m; unfold HMM.evidence; rw [Fintype.sum_unique]; exact hj m _
  have hm : ∀ m k, h.marginal obs m (Fin.last m) k = ∏ t ∈ Finset.range (m + 1), h.obsProb (obs t) 0 := by
    intro m k; unfold HMM.marginal; rw [Fintype.sum_unique, if_pos (Subsingleton.elim _ _)]; exact hj m _
  have ev : ∀ m, 0 < h.evidence obs m := fun m => by rw [he]; exact Finset.prod_pos fun t _ => pos t
  rw [(HMM.C41_forward h hv obs n (fun t _ k => .inr ?_) (ev n)).1, he, Real.log_prod (fun t _ => (pos t).ne')]
  unfold HMM.predictive
  rw [hm]
  rcases t with _ | t
  · simp only [zero_add, Finset.prod_range_one, if_true, div_one]; exact ho 0
  · rw [if_neg (by omega), Nat.add_sub_cancel, he, Finset.prod_range_succ, mul_comm, mul_div_assoc,
      div_self (Finset.prod_pos fun t _ => pos t).ne', mul_one]
    exact ho _

/-! ### The hypotheses are satisfiable -/

example : ∃ (d : Bern) (c : Cat 2), BernP d (1/3) ∧ HasPmf c ![1 - 1/3, 1/3] := by
  obtain ⟨d, -, h⟩ := (C27_constructor .integer (by decide)).1 (1/3) (by norm_num) (by norm_num)
  obtain ⟨c, p, -, hp, e⟩ := C24_from_probs ![1 - 1/3, 1/3] (by intro i; fin_cases i <;> norm_num) (by simp) .integer (by decide)
  refine ⟨d, c, h, ?_⟩
  have : p = ![1 - 1/3, 1/3] := funext fun i => by rw [e]; fin_cases i <;> simp
  exact this ▸ hp

example : ∃ (d : MixtureOfTwo ℝ) (l : Fin 2 → XR), 0 < d.probA ∧ d.probA < 1 ∧ LegalLogits l ∧
    (∀ k, weight (l k) / ∑ j, weight (l j) = ![d.probA, 1 - d.probA] k) ∧ ∀ v, IsLogDensity (d.logProbA v) := by
  refine ⟨⟨1/4, fun v => .fin v, fun _ => .ninf⟩, ![.fin (Real.log 2), .fin (Real.log 6)], by norm_num, by norm_num,
    ⟨fun i => .inr ?_, 0, _, rfl⟩, fun k => ?_, fun v => ?_⟩
  · fin_cases i
    exacts [⟨_, rfl⟩, ⟨_, rfl⟩]
  · fin_cases k <;> simp [weight, Real.exp_log] <;> norm_num
  · exact xlog_isLogDensity (Real.exp v) |> fun h => by simpa [xlog, (Real.exp_pos v).ne'] using h

example : ∃ (h : HMM 1 Bool), h.Valid ∧ ∀ o, 1e-15 ≤ h.obsProb o 0 :=
  ⟨⟨fun _ => 1, fun _ _ => 1, fun b _ => if b then 3/4 else 1/4, fun _ => 0, fun _ _ => 0, fun _ _ => 0⟩,
    ⟨by simp, by simp, by simp, by simp, by intro o _; cases o <;> norm_num⟩, by intro o; cases o <;> norm_num⟩

end Distrax
