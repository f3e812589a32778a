import Verif.Lemmas.Grad

/-! # C66: gradients at and around impossible outcomes (reverse mode) -/

namespace Distrax

open XR Spec Grad

variable {n : ℕ}

/-! ### The differentiated programs compute the modelled methods -/

/-- The values are those of the methods of the categorical model, for every input. -/
theorem C66_values (l p : Fin n → XR) (v : XR) (w : Fin n → XR) :
    (catLogProbL v l).1 = Cat.logProb ⟨none, some (normalizeLogits l)⟩ v ∧
    (catLogProbP v p).1 = Cat.logProb ⟨some (normalizeProbs p), none⟩ v ∧
    (catProbL v l).1 = Cat.prob ⟨none, some (normalizeLogits l)⟩ v ∧
    (catProbP v p).1 = Cat.prob ⟨some (normalizeProbs p), none⟩ v ∧
    (catEntropyL l).1 = Cat.entropy ⟨none, some (normalizeLogits l)⟩ ∧
    (catEntropyP p).1 = Cat.entropy ⟨some (normalizeProbs p), none⟩ ∧
    (ohLogProbL w l).1 = Cat.ohLogProb ⟨none, some (normalizeLogits l)⟩ w ∧
    .ok (catKlL l p).1 = Cat.kl ⟨none, some (normalizeLogits l)⟩ ⟨none, some (normalizeLogits p)⟩ := by
  refine ⟨rfl, rfl, rfl, rfl, rfl, rfl, rfl, ?_⟩
  simp only [Cat.kl, ne_eq, not_true_eq_false, dite_false]
  rfl

/-- The same for Bernoulli. -/
theorem C66_bernoulli_values (l p v : XR) :
    (bernLogProbL v l).1 = Bern.logProb ⟨none, some l⟩ v ∧ (bernLogProbP v p).1 = Bern.logProb ⟨some p, none⟩ v ∧
    (bernEntropyL l).1 = Bern.entropy ⟨none, some l⟩ ∧ (bernEntropyP p).1 = Bern.entropy ⟨some p, none⟩ ∧
    (bernKlL l p).1 = Bern.kl ⟨none, some l⟩ ⟨none, some p⟩ :=
  ⟨rfl, rfl, rfl, rfl, rfl⟩

/-! ### Categorical with logits -/

theorem oneHot_fin (k i : Fin n) : oneHot n (fin (k : ℕ)) i = fin (if i = k then 1 else 0) := by
  by_cases h : i = k
  · subst h; rw [oneHot_self]; simp
  · rw [oneHot_ne h]; simp [h]

theorem inside (k : Fin n) : ¬ (ltB (fin ((k : ℕ) : ℝ)) 0 ∨ ltB (fin ((n : ℝ) - 1)) (fin ((k : ℕ) : ℝ))) := by
  rintro (h | h)
  · exact absurd (show ((k : ℕ) : ℝ) < 0 from h) (not_lt.2 (Nat.cast_nonneg _))
  · have h' : (n : ℝ) - 1 < ((k : ℕ) : ℝ) := h
    have : ((k : ℕ) : ℝ) + 1 ≤ n := by exact_mod_cast k.2
    linarith

/-- The pullback of `log_prob` of any category, possible or not: the indicator of the category minus the probabilities. -/
theorem catLogProbL_pull {l : Fin n → XR} (h : LegalLogits l) (k : Fin n) (c : ℝ) (i : Fin n) :
    (catLogProbL (fin (k : ℕ)) l).2 (fin c) i = fin (c * ((if i = k then 1 else 0) - softP l i)) := by
  simp only [catLogProbL, RevS.comp, logProbOf, XR.sel_neg (inside k), oneHot_fin, mnnX_fin]
  rw [logSoftmaxV_pull h]
  simp [mul_sub]

theorem sum_ind (k : Fin n) (v : Fin n → ℝ) (q : Fin n → ℝ) :
    ∑ i, ((if i = k then 1 else 0) - q i) * v i = v k - ∑ i, q i * v i := by
  simp [sub_mul, Finset.sum_sub_distrib]

/-- A possible category: the value is the log-probability and the pullback is its gradient, whatever other categories are
impossible (logit `-inf`). -/
theorem C66_categorical_log_prob {l : Fin n → XR} (h : LegalLogits l) (k : Fin n) (hk : softP l k ≠ 0) :
    (catLogProbL (fin (k : ℕ)) l).1 = fin (Real.log (softP l k)) ∧
    GradientAt (fun l' => Real.log (softP l' k)) l (catLogProbL (fin (k : ℕ)) l).2 := by
  refine ⟨?_, fun i => (if i = k then 1 else 0) - softP l i, fun c i => catLogProbL_pull h k c i, fun v => ?_⟩
  · simp only [catLogProbL, RevS.comp, logProbOf, if_neg (inside k)]
    have e : logSoftmax l k = fin (Real.log (softP l k)) := by rw [logSoftmax_softP h, xlog, if_neg hk]
    exact (sum_mnn_oneHot k _ (Or.inr ⟨_, e⟩)).trans e
  · exact (log_softP_deriv h v k hk).congr_deriv (sum_ind k v _).symm

/-- An impossible category: the value is `-inf` and the pullback is still finite. -/
theorem C66_categorical_log_prob_impossible {l : Fin n → XR} (h : LegalLogits l) (k : Fin n) (hk : l k = ninf) :
    (catLogProbL (fin (k : ℕ)) l).1 = ninf ∧
    ∀ c i, (catLogProbL (fin (k : ℕ)) l).2 (fin c) i = fin (c * ((if i = k then 1 else 0) - softP l i)) := by
  refine ⟨?_, fun c i => catLogProbL_pull h k c i⟩
  simp only [catLogProbL, RevS.comp, logProbOf, if_neg (inside k)]
  have e : logSoftmax l k = ninf := by
    rw [logSoftmax_softP h, softP, hk]; simp [weight, xlog]
  exact (sum_mnn_oneHot k _ (Or.inl e)).trans e

/-- A value outside `{0, …, n-1}` on either side: `-inf` with zero gradient. -/
theorem C66_categorical_log_prob_outside {l : Fin n → XR} (h : LegalLogits l) (v : ℝ) (hv : v < 0 ∨ (n : ℝ) - 1 < v) :
    (catLogProbL (fin v) l).1 = ninf ∧ ∀ c i, (catLogProbL (fin v) l).2 (fin c) i = fin 0 := by
  have ho : ltB (fin v) 0 ∨ ltB (fin ((n : ℝ) - 1)) (fin v) := hv
  refine ⟨if_pos ho, fun c i => ?_⟩
  have hoh : ∀ j, ∃ a, oneHot n (fin v) j = fin a := fun j => by
    by_cases e : eqB (fin v) (fin ((j : ℕ) : ℝ))
    · exact ⟨1, XR.sel_pos e⟩
    · exact ⟨0, XR.sel_neg e⟩
  choose a ha using hoh
  simp only [catLogProbL, RevS.comp, logProbOf, XR.sel_pos ho, ha]
  simp only [zero_def, mnnX_fin]
  rw [logSoftmaxV_pull h]; simp

/-- One-hot `log_prob`: the same gradient. -/
theorem C66_one_hot_log_prob {l : Fin n → XR} (h : LegalLogits l) (k : Fin n) (hk : softP l k ≠ 0) :
    (ohLogProbL (fun i => fin (if i = k then 1 else 0)) l).1 = fin (Real.log (softP l k)) ∧
    GradientAt (fun l' => Real.log (softP l' k)) l (ohLogProbL (fun i => fin (if i = k then 1 else 0)) l).2 := by
  refine ⟨?_, fun i => (if i = k then 1 else 0) - softP l i, fun c i => ?_, fun v => ?_⟩
  · have := (C66_categorical_log_prob h k hk).1
    simp only [catLogProbL, RevS.comp, logProbOf, if_neg (inside k), oneHot_fin] at this
    exact this
  · simp only [ohLogProbL, RevS.comp, ohLogProbOf, mnnX_fin]
    rw [logSoftmaxV_pull h]
    simp [mul_sub]
  · exact (log_softP_deriv h v k hk).congr_deriv (sum_ind k v _).symm

theorem xsoftmax_softP {l : Fin n → XR} (h : LegalLogits l) (i : Fin n) : xsoftmax l i = fin (softP l i) :=
  xsoftmax_legal h i

theorem softmaxV_pull {l : Fin n → XR} (h : LegalLogits l) (r : Fin n → ℝ) (i : Fin n) :
    (softmaxV l).2 (fun j => fin (r j)) i = fin (softP l i * (r i - ∑ j, r j * softP l j)) := by
  simp only [softmaxV, xsoftmax_softP h, fin_mul, sum_fin, neg_fin, fin_add, fin_inj]
  ring

/-- `prob` of any category, impossible ones included. -/
theorem C66_categorical_prob {l : Fin n → XR} (h : LegalLogits l) (k : Fin n) :
    (catProbL (fin (k : ℕ)) l).1 = fin (softP l k) ∧
    GradientAt (fun l' => softP l' k) l (catProbL (fin (k : ℕ)) l).2 := by
  have h' := legal_logSoftmax h
  have hs : ∀ j, xsoftmax (logSoftmax l) j = fin (softP l j) := fun j => by
    rw [xsoftmax_softP h', softP_logSoftmax h]
  refine ⟨?_, fun i => softP l i * ((if i = k then 1 else 0) - softP l k), fun c i => ?_, fun v => ?_⟩
  · simp only [catProbL, RevS.comp, RevV.comp, probOf, logSoftmaxV_val, softmaxV]
    exact (sum_mnn_oneHot k _ (Or.inr ⟨_, hs k⟩)).trans (hs k)
  · simp only [catProbL, RevS.comp, RevV.comp, probOf, logSoftmaxV_val, oneHot_fin, mnnX_fin]
    have e : ((softmaxV (logSoftmax l)).2 fun j => fin (c * if j = k then 1 else 0)) =
        fun j => fin (softP l j * (c * (if j = k then 1 else 0) - c * softP l k)) := by
      funext j
      rw [softmaxV_pull h', softP_logSoftmax h]
      simp [softP_logSoftmax h]
    rw [e, logSoftmaxV_pull h]
    have : ∑ j, softP l j * (c * (if j = k then 1 else 0) - c * softP l k) = 0 := by
      simp only [mul_sub, Finset.sum_sub_distrib, ← Finset.sum_mul, (softP_pmf h).sum_one]
      simp; ring
    rw [this, fin_inj]; ring
  · refine (softP_deriv h v k).congr_deriv ?_
    have : ∀ i, softP l i * ((if i = k then 1 else 0) - softP l k) * v i =
        (if i = k then softP l k * v k else 0) - softP l k * (softP l i * v i) := fun i => by
      by_cases e : i = k
      · subst e; simp; ring
      · simp [e]; ring
    simp only [this, Finset.sum_sub_distrib, ← Finset.mul_sum]
    simp; ring

/-- Entropy: value and gradient are those of the Shannon entropy of the probabilities, impossible categories contributing
nothing. -/
theorem C66_entropy {l : Fin n → XR} (h : LegalLogits l) :
    (catEntropyL l).1 = fin (shannon (softP l)) ∧
    GradientAt (fun l' => shannon (softP l')) l (catEntropyL l).2 ∧
    ∀ c i, l i = ninf → (catEntropyL l).2 (fin c) i = fin 0 := by
  have hp := softP_pmf h
  have hv : ((logSoftmaxV.comp logSoftmaxV) l).1 = fun i => xlog (softP l i) := funext (twice_val h)
  have hpull : ∀ c i, (catEntropyL l).2 (fin c) i = fin (c * (-(softP l i * (Real.log (softP l i) + shannon (softP l))))) := by
    intro c i
    simp only [catEntropyL, RevS.comp, entropyOf, hv, neg_fin]
    have e : (fun j => (mulExpPull (xlog (softP l j)) (xlog (softP l j)) (fin (-c))).1 +
        (mulExpPull (xlog (softP l j)) (xlog (softP l j)) (fin (-c))).2) =
        fun j => fin (-c * softP l j + -c * (softP l j * Real.log (softP l j))) := by
      funext j
      rw [mulExpPull_xlog (hp.nonneg j) (x0 := Real.log (softP l j)) (fun hj => by simp [xlog, hj])]
      rfl
    rw [e, twice_pull h]
    have : ∑ j, (-c * softP l j + -c * (softP l j * Real.log (softP l j))) = -c + c * shannon (softP l) := by
      rw [Finset.sum_add_distrib, ← Finset.mul_sum, ← Finset.mul_sum, hp.sum_one, shannon]; ring
    rw [this, fin_inj]; ring
  refine ⟨?_, ⟨fun i => -(softP l i * (Real.log (softP l i) + shannon (softP l))), hpull, fun v => ?_⟩, fun c i hi => ?_⟩
  · simp only [catEntropyL, RevS.comp, entropyOf, hv]
    rw [Finset.sum_congr rfl fun i _ => entropy_term (hp.nonneg i), sum_fin, neg_fin, shannon]
  · have := (HasDerivAt.fun_sum (u := Finset.univ) fun i _ => plogp_deriv h v i).neg
    refine this.congr_deriv ?_
    have h1 : ∀ i, softP l i * (v i - ∑ j, softP l j * v j) * (Real.log (softP l i) + 1) =
        softP l i * (Real.log (softP l i)) * v i + softP l i * v i
          - (∑ j, softP l j * v j) * (softP l i * Real.log (softP l i)) - (∑ j, softP l j * v j) * softP l i := fun i => by ring
    have h2 : ∀ i, -(softP l i * (Real.log (softP l i) + shannon (softP l))) * v i =
        -(softP l i * (Real.log (softP l i)) * v i) - shannon (softP l) * (softP l i * v i) := fun i => by ring
    simp only [h1, h2, Finset.sum_sub_distrib, Finset.sum_add_distrib, ← Finset.mul_sum, hp.sum_one, Finset.sum_neg_distrib]
    have : ∑ i, softP l i * Real.log (softP l i) = -shannon (softP l) := by rw [shannon]; ring
    rw [this]; ring
  · rw [hpull]
    have : softP l i = 0 := by rw [softP, hi]; simp [weight]
    rw [this]; simp

/-! ### KL divergence -/

theorem kl_pull {l1 l2 : Fin n → XR} (h1 : LegalLogits l1) (h2 : LegalLogits l2)
    (hs : ∀ i, softP l2 i = 0 → softP l1 i = 0) (c : ℝ) (i : Fin n) :
    ((catKlL l1 l2).2 (fin c)).1 i =
      fin (c * (softP l1 i * (Real.log (softP l1 i) - Real.log (softP l2 i) - klDiv (softP l1) (softP l2)))) := by
  have hp := softP_pmf h1
  have hv1 : ((logSoftmaxV.comp logSoftmaxV) l1).1 = fun i => xlog (softP l1 i) := funext (twice_val h1)
  have hv2 : ((logSoftmaxV.comp logSoftmaxV) l2).1 = fun i => xlog (softP l2 i) := funext (twice_val h2)
  simp only [catKlL, klOf, hv1, hv2]
  have e : (fun j => (mulExpPull (xlog (softP l1 j) - xlog (softP l2 j)) (xlog (softP l1 j)) (fin c)).1 +
      (mulExpPull (xlog (softP l1 j) - xlog (softP l2 j)) (xlog (softP l1 j)) (fin c)).2) =
      fun j => fin (c * softP l1 j + c * (softP l1 j * (Real.log (softP l1 j) - Real.log (softP l2 j)))) := by
    funext j
    rw [mulExpPull_xlog (hp.nonneg j) (x0 := Real.log (softP l1 j) - Real.log (softP l2 j))
      (fun hj => by rw [xlog, xlog, if_neg hj, if_neg fun e => hj (hs j e), fin_sub])]
    rfl
  rw [e, twice_pull h1]
  have : ∑ j, (c * softP l1 j + c * (softP l1 j * (Real.log (softP l1 j) - Real.log (softP l2 j)))) =
      c + c * klDiv (softP l1) (softP l2) := by
    rw [Finset.sum_add_distrib, ← Finset.mul_sum, ← Finset.mul_sum, hp.sum_one, klDiv]; ring
  rw [this, fin_inj]; ring

theorem mulExpPull_fst {x : XR} {p : ℝ} (hp : 0 ≤ p) (g : ℝ) : (mulExpPull x (xlog p) (fin g)).1 = fin (g * p) := by
  by_cases h : p = 0
  · subst h
    rw [show xlog 0 = ninf by simp [xlog], mulExpPull_zero]; simp
  · have hp' : 0 < p := lt_of_le_of_ne hp (Ne.symm h)
    have : ¬ eqB (fin p) 0 := by rw [XR.eqB_zero]; simp [h]
    simp only [mulExpPull, exp_xlog hp, XR.sel_neg this, fin_mul]

theorem kl_pull_snd {l1 l2 : Fin n → XR} (h1 : LegalLogits l1) (h2 : LegalLogits l2) (c : ℝ) (i : Fin n) :
    ((catKlL l1 l2).2 (fin c)).2 i = fin (c * (softP l2 i - softP l1 i)) := by
  have hp := softP_pmf h1
  have hv1 : ((logSoftmaxV.comp logSoftmaxV) l1).1 = fun i => xlog (softP l1 i) := funext (twice_val h1)
  have hv2 : ((logSoftmaxV.comp logSoftmaxV) l2).1 = fun i => xlog (softP l2 i) := funext (twice_val h2)
  simp only [catKlL, klOf, hv1, hv2]
  have e : (fun j => -(mulExpPull (xlog (softP l1 j) - xlog (softP l2 j)) (xlog (softP l1 j)) (fin c)).1) =
      fun j => fin (-(c * softP l1 j)) := by
    funext j
    rw [mulExpPull_fst (hp.nonneg j), neg_fin]
  rw [e, twice_pull h2, Finset.sum_neg_distrib, ← Finset.mul_sum, hp.sum_one, fin_inj]; ring

theorem klTerm_deriv1 {l1 l2 : Fin n → XR} (h1 : LegalLogits l1) (v : Fin n → ℝ) (i : Fin n) :
    HasDerivAt (fun t : ℝ => softP (along l1 v t) i * (Real.log (softP (along l1 v t) i) - Real.log (softP l2 i)))
      (softP l1 i * (v i - ∑ j, softP l1 j * v j) * (Real.log (softP l1 i) - Real.log (softP l2 i) + 1)) 0 := by
  have h := (plogp_deriv h1 v i).sub ((softP_deriv h1 v i).mul_const (Real.log (softP l2 i)))
  refine (h.congr_of_eventuallyEq (Filter.Eventually.of_forall fun t => ?_)).congr_deriv ?_
  · simp only [Pi.sub_apply]; ring
  · ring

/-- KL divergence, first argument: when everything the first distribution can produce is possible under the second, the value
is the Kullback–Leibler divergence and the pullbacks to both rows of logits are its gradients; categories impossible under
both contribute nothing. -/
theorem C66_kl {l1 l2 : Fin n → XR} (h1 : LegalLogits l1) (h2 : LegalLogits l2)
    (hs : ∀ i, l2 i = ninf → l1 i = ninf) :
    (catKlL l1 l2).1 = fin (klDiv (softP l1) (softP l2)) ∧
    GradientAt (fun l => klDiv (softP l) (softP l2)) l1 (fun c => ((catKlL l1 l2).2 c).1) ∧
    GradientAt (fun l => klDiv (softP l1) (softP l)) l2 (fun c => ((catKlL l1 l2).2 c).2) := by
  have hp := softP_pmf h1
  have hq := softP_pmf h2
  have hz : ∀ i, softP l2 i = 0 → l2 i = ninf := fun i hi => by
    rcases h2.entry i with e | ⟨a, e⟩
    · exact e
    · have := div_pos (show 0 < weight (l2 i) by rw [e]; exact Real.exp_pos a) h2.weight_sum_pos
      exact absurd hi this.ne'
  have hs' : ∀ i, softP l2 i = 0 → softP l1 i = 0 := fun i hi => by
    rw [softP, hs i (hz i hi)]; simp [weight]
  have hv1 : ((logSoftmaxV.comp logSoftmaxV) l1).1 = fun i => xlog (softP l1 i) := funext (twice_val h1)
  have hv2 : ((logSoftmaxV.comp logSoftmaxV) l2).1 = fun i => xlog (softP l2 i) := funext (twice_val h2)
  refine ⟨?_, ⟨_, kl_pull h1 h2 hs', fun v => ?_⟩, ⟨_, kl_pull_snd h1 h2, fun v => ?_⟩⟩
  · simp only [catKlL, klOf, hv1, hv2]
    rw [Finset.sum_congr rfl fun i _ => kl_term_ok (hp.nonneg i) (hq.nonneg i) (hs' i), sum_fin, klDiv]
  · have := HasDerivAt.fun_sum (u := Finset.univ) fun i _ => klTerm_deriv1 (l2 := l2) h1 v i
    refine this.congr_deriv ?_
    have e1 : ∀ i, softP l1 i * (v i - ∑ j, softP l1 j * v j) * (Real.log (softP l1 i) - Real.log (softP l2 i) + 1) =
        softP l1 i * (Real.log (softP l1 i) - Real.log (softP l2 i)) * v i + softP l1 i * v i
          - (∑ j, softP l1 j * v j) * (softP l1 i * (Real.log (softP l1 i) - Real.log (softP l2 i)))
          - (∑ j, softP l1 j * v j) * softP l1 i := fun i => by ring
    have e2 : ∀ i, softP l1 i * (Real.log (softP l1 i) - Real.log (softP l2 i) - klDiv (softP l1) (softP l2)) * v i =
        softP l1 i * (Real.log (softP l1 i) - Real.log (softP l2 i)) * v i
          - klDiv (softP l1) (softP l2) * (softP l1 i * v i) := fun i => by ring
    simp only [e1, e2, Finset.sum_sub_distrib, Finset.sum_add_distrib, ← Finset.mul_sum, hp.sum_one]
    have : ∑ i, softP l1 i * (Real.log (softP l1 i) - Real.log (softP l2 i)) = klDiv (softP l1) (softP l2) := rfl
    rw [this]; ring
  · have hd : ∀ i, HasDerivAt (fun t : ℝ => softP l1 i * (Real.log (softP l1 i) - Real.log (softP (along l2 v t) i)))
        (-(softP l1 i * (v i - ∑ j, softP l2 j * v j))) 0 := fun i => by
      by_cases hi : softP l1 i = 0
      · simp only [hi, zero_mul, neg_zero]; exact hasDerivAt_const _ _
      · have h2i : softP l2 i ≠ 0 := fun e => hi (hs' i e)
        exact (((log_softP_deriv h2 v i h2i).const_sub _).const_mul _).congr_deriv (by ring)
    refine (HasDerivAt.fun_sum (u := Finset.univ) fun i _ => hd i).congr_deriv ?_
    have e1 : ∀ i, -(softP l1 i * (v i - ∑ j, softP l2 j * v j)) =
        (∑ j, softP l2 j * v j) * softP l1 i - softP l1 i * v i := fun i => by ring
    simp only [e1, sub_mul, Finset.sum_sub_distrib, ← Finset.mul_sum, hp.sum_one]
    ring

/-- KL divergence when the first distribution can produce something impossible under the second: the value is `+inf`, and the
pullback to the second row of logits is nevertheless finite. -/
theorem C66_kl_infinite {l1 l2 : Fin n → XR} (h1 : LegalLogits l1) (h2 : LegalLogits l2) (k : Fin n) (hk2 : l2 k = ninf)
    (hk1 : l1 k ≠ ninf) :
    (catKlL l1 l2).1 = pinf ∧ ∀ c i, ((catKlL l1 l2).2 (fin c)).2 i = fin (c * (softP l2 i - softP l1 i)) := by
  refine ⟨?_, kl_pull_snd h1 h2⟩
  have hp := softP_pmf h1
  have hq := softP_pmf h2
  have hv1 : ((logSoftmaxV.comp logSoftmaxV) l1).1 = fun i => xlog (softP l1 i) := funext (twice_val h1)
  have hv2 : ((logSoftmaxV.comp logSoftmaxV) l2).1 = fun i => xlog (softP l2 i) := funext (twice_val h2)
  simp only [catKlL, klOf, hv1, hv2]
  have hkp : 0 < softP l1 k := by
    rcases h1.entry k with e | ⟨a, e⟩
    · exact absurd e hk1
    · exact div_pos (by rw [e]; exact Real.exp_pos a) h1.weight_sum_pos
  have hk0 : softP l2 k = 0 := by rw [softP, hk2]; simp [weight]
  refine sum_pinf _ _ (fun i _ => ?_) ⟨k, Finset.mem_univ _, by rw [hk0]; exact kl_term_inf hkp⟩
  by_cases hi : softP l2 i = 0
  · by_cases hi1 : softP l1 i = 0
    · right; exact ⟨_, kl_term_ok (hp.nonneg i) (hq.nonneg i) fun _ => hi1⟩
    · left; rw [hi]; exact kl_term_inf (lt_of_le_of_ne (hp.nonneg i) (Ne.symm hi1))
  · right; exact ⟨_, kl_term_ok (hp.nonneg i) (hq.nonneg i) fun e => absurd e hi⟩

/-! ### Probabilities as parameters -/

theorem normalizeProbsV_val {p : Fin n → ℝ} (hs : (∑ i, p i) ≠ 0) (i : Fin n) :
    (normalizeProbsV fun j => fin (p j)).1 i = fin (p i / ∑ j, p j) := by
  simp only [normalizeProbsV, sum_fin, div_fin hs]

theorem normalizeProbsV_pull {p : Fin n → ℝ} (hs : (∑ i, p i) ≠ 0) (r : Fin n → ℝ) (i : Fin n) :
    (normalizeProbsV fun j => fin (p j)).2 (fun j => fin (r j)) i =
      fin (r i / (∑ j, p j) - (∑ j, r j * p j) / ((∑ j, p j) * ∑ j, p j)) := by
  have h2 : (∑ j, p j) * (∑ j, p j) ≠ 0 := mul_ne_zero hs hs
  simp only [normalizeProbsV, sum_fin, div_fin hs, fin_mul, neg_fin, div_fin h2, fin_add, fin_inj]
  rw [← Finset.sum_div, sub_eq_add_neg, ← neg_div, ← Finset.sum_neg_distrib]
  congr 3
  funext j; ring

theorem psum_deriv (p v : Fin n → ℝ) : HasDerivAt (fun t : ℝ => ∑ j, (p j + t * v j)) (∑ j, v j) 0 :=
  HasDerivAt.fun_sum fun j _ => by simpa using ((hasDerivAt_id (0 : ℝ)).mul_const (v j)).const_add (p j)

theorem pdiv_deriv {p : Fin n → ℝ} (hs : (∑ i, p i) ≠ 0) (v : Fin n → ℝ) (k : Fin n) :
    HasDerivAt (fun t : ℝ => (p k + t * v k) / ∑ j, (p j + t * v j))
      (v k / (∑ j, p j) - p k * (∑ j, v j) / ((∑ j, p j) * ∑ j, p j)) 0 := by
  have h1 : HasDerivAt (fun t : ℝ => p k + t * v k) (v k) 0 := by
    simpa using ((hasDerivAt_id (0 : ℝ)).mul_const (v k)).const_add (p k)
  refine (h1.div (psum_deriv p v) (by simpa using hs)).congr_deriv ?_
  simp only [zero_mul, add_zero]
  generalize (∑ j, p j) = S at *
  field_simp

/-- `prob` with probabilities as parameters: correct gradient for every nonnegative row with a positive sum, zeros included. -/
theorem C66_probs_prob {p : Fin n → ℝ} (hs : 0 < ∑ i, p i) (k : Fin n) :
    (catProbP (fin (k : ℕ)) fun i => fin (p i)).1 = fin (p k / ∑ i, p i) ∧
    GradientAtReal (fun q => q k / ∑ i, q i) p (catProbP (fin (k : ℕ)) fun i => fin (p i)).2 := by
  refine ⟨?_, fun i => (if i = k then 1 else 0) / (∑ j, p j) - p k / ((∑ j, p j) * ∑ j, p j), fun c i => ?_, fun v => ?_⟩
  · simp only [catProbP, RevS.comp, probOf]
    have e := normalizeProbsV_val hs.ne' k
    exact (sum_mnn_oneHot k _ (Or.inr ⟨_, e⟩)).trans e
  · simp only [catProbP, RevS.comp, probOf, oneHot_fin, mnnX_fin]
    rw [normalizeProbsV_pull hs.ne', fin_inj]
    simp
    split_ifs <;> ring
  · refine (pdiv_deriv hs.ne' v k).congr_deriv ?_
    simp only [sub_mul, Finset.sum_sub_distrib, ← Finset.mul_sum]
    simp only [div_eq_mul_inv, ite_mul, one_mul, zero_mul, Finset.sum_ite_eq', Finset.mem_univ, if_true]
    ring

theorem logP_pull {p : Fin n → ℝ} (hp : ∀ i, 0 < p i) (hs : 0 < ∑ i, p i) (r : Fin n → ℝ) (i : Fin n) :
    ((logV.comp normalizeProbsV) fun j => fin (p j)).2 (fun j => fin (r j)) i =
      fin (r i / p i - (∑ j, r j) / ∑ j, p j) := by
  simp only [RevV.comp, logV]
  have e : (fun j => fin (r j) / (normalizeProbsV fun j => fin (p j)).1 j) = fun j => fin (r j * (∑ k, p k) / p j) := by
    funext j
    have := (hp j).ne'
    have := hs.ne'
    rw [normalizeProbsV_val hs.ne', div_fin (by positivity), fin_inj]
    generalize (∑ k, p k) = S at *
    field_simp
  rw [e, normalizeProbsV_pull hs.ne', fin_inj]
  have e2 : ∀ j, r j * (∑ k, p k) / p j * p j = r j * ∑ k, p k := fun j => by
    have := (hp j).ne'
    field_simp
  simp only [e2, ← Finset.sum_mul]
  have := (hp i).ne'
  generalize (∑ k, p k) = S at *
  generalize (∑ k, r k) = R at *
  field_simp

theorem logP_val {p : Fin n → ℝ} (hp : ∀ i, 0 ≤ p i) (hs : 0 < ∑ i, p i) (i : Fin n) :
    ((logV.comp normalizeProbsV) fun j => fin (p j)).1 i = xlog (p i / ∑ j, p j) := by
  simp only [RevV.comp, logV]
  rw [normalizeProbsV_val hs.ne', XR.log_eq_xlog (div_nonneg (hp i) hs.le)]

theorem log_pdiv_deriv {p : Fin n → ℝ} (hp : ∀ i, 0 < p i) (hs : 0 < ∑ i, p i) (v : Fin n → ℝ) (k : Fin n) :
    HasDerivAt (fun t : ℝ => Real.log ((p k + t * v k) / ∑ j, (p j + t * v j)))
      (v k / p k - (∑ j, v j) / ∑ j, p j) 0 := by
  have hk := (hp k).ne'
  have hs' := hs.ne'
  refine ((pdiv_deriv hs.ne' v k).log (by simpa using ⟨hk, hs'⟩)).congr_deriv ?_
  simp only [zero_mul, add_zero]
  generalize (∑ j, p j) = S at *
  generalize (∑ j, v j) = T at *
  field_simp

/-- `log_prob` with probabilities as parameters, all of them positive: correct gradient. -/
theorem C66_probs_log_prob_partial {p : Fin n → ℝ} (hp : ∀ i, 0 < p i) (k : Fin n) :
    (catLogProbP (fin (k : ℕ)) fun i => fin (p i)).1 = fin (Real.log (p k / ∑ i, p i)) ∧
    GradientAtReal (fun q => Real.log (q k / ∑ i, q i)) p (catLogProbP (fin (k : ℕ)) fun i => fin (p i)).2 := by
  have hs : 0 < ∑ i, p i := Finset.sum_pos (fun i _ => hp i) ⟨k, Finset.mem_univ _⟩
  refine ⟨?_, fun i => (if i = k then 1 else 0) / p i - 1 / ∑ j, p j, fun c i => ?_, fun v => ?_⟩
  · simp only [catLogProbP, RevS.comp, logProbOf, if_neg (inside k)]
    have e := logP_val (fun i => (hp i).le) hs k
    rw [xlog, if_neg (div_pos (hp k) hs).ne'] at e
    exact (sum_mnn_oneHot k _ (Or.inr ⟨_, e⟩)).trans e
  · simp only [catLogProbP, RevS.comp, logProbOf, XR.sel_neg (inside k), oneHot_fin, mnnX_fin]
    rw [logP_pull hp hs, fin_inj]
    simp
    split_ifs <;> ring
  · refine (log_pdiv_deriv hp hs v k).congr_deriv ?_
    simp only [sub_mul, Finset.sum_sub_distrib, ← Finset.mul_sum]
    simp only [div_eq_mul_inv, ite_mul, one_mul, zero_mul, Finset.sum_ite_eq', Finset.mem_univ, if_true]
    ring

/-- Entropy with probabilities as parameters, all of them positive: correct gradient. -/
theorem C66_probs_entropy_partial {p : Fin n → ℝ} (hp : ∀ i, 0 < p i) (hn : 0 < n) :
    (catEntropyP fun i => fin (p i)).1 = fin (shannon fun i => p i / ∑ j, p j) ∧
    GradientAtReal (fun q => shannon fun i => q i / ∑ j, q j) p (catEntropyP fun i => fin (p i)).2 := by
  have hs : 0 < ∑ i, p i := Finset.sum_pos (fun i _ => hp i) ⟨⟨0, hn⟩, Finset.mem_univ _⟩
  have hv : ((logV.comp normalizeProbsV) fun j => fin (p j)).1 = fun i => xlog (p i / ∑ j, p j) :=
    funext (logP_val (fun i => (hp i).le) hs)
  have hq : ∀ i, 0 < p i / ∑ j, p j := fun i => div_pos (hp i) hs
  have hq1 : ∑ i, p i / ∑ j, p j = 1 := by rw [← Finset.sum_div]; exact div_self hs.ne'
  refine ⟨?_, fun i => -(Real.log (p i / ∑ j, p j) + shannon fun i => p i / ∑ j, p j) / ∑ j, p j, fun c i => ?_, fun v => ?_⟩
  · simp only [catEntropyP, RevS.comp, entropyOf, hv]
    rw [Finset.sum_congr rfl fun i _ => entropy_term (hq i).le, sum_fin, neg_fin, shannon]
  · simp only [catEntropyP, RevS.comp, entropyOf, hv, neg_fin]
    have e : (fun j => (mulExpPull (xlog (p j / ∑ k, p k)) (xlog (p j / ∑ k, p k)) (fin (-c))).1 +
        (mulExpPull (xlog (p j / ∑ k, p k)) (xlog (p j / ∑ k, p k)) (fin (-c))).2) =
        fun j => fin (-c * (p j / ∑ k, p k) + -c * ((p j / ∑ k, p k) * Real.log (p j / ∑ k, p k))) := by
      funext j
      rw [mulExpPull_xlog (hq j).le (x0 := Real.log (p j / ∑ k, p k)) (fun hj => by simp [xlog, hj])]
      rfl
    rw [e, logP_pull hp hs, Finset.sum_add_distrib, ← Finset.mul_sum, ← Finset.mul_sum, hq1, fin_inj, shannon]
    have := (hp i).ne'
    have := hs.ne'
    generalize (∑ j, p j / (∑ k, p k) * Real.log (p j / ∑ k, p k)) = E at *
    generalize Real.log (p i / ∑ k, p k) = L at *
    generalize (∑ k, p k) = S at *
    field_simp
    ring
  · have hd : ∀ i, HasDerivAt (fun t : ℝ => ((p i + t * v i) / ∑ j, (p j + t * v j)) *
        Real.log ((p i + t * v i) / ∑ j, (p j + t * v j)))
        ((v i / (∑ j, p j) - p i * (∑ j, v j) / ((∑ j, p j) * ∑ j, p j)) * (Real.log (p i / ∑ j, p j) + 1)) 0 := fun i => by
      refine ((pdiv_deriv hs.ne' v i).mul (log_pdiv_deriv hp hs v i)).congr_deriv ?_
      simp only [zero_mul, add_zero]
      have := (hp i).ne'
      have := hs.ne'
      generalize Real.log (p i / ∑ k, p k) = L at *
      generalize (∑ k, p k) = S at *
      generalize (∑ k, v k) = T at *
      field_simp
    refine (HasDerivAt.fun_sum (u := Finset.univ) fun i _ => hd i).neg.congr_deriv ?_
    set S := ∑ j, p j with hS
    set T := ∑ j, v j with hT
    have hS0 : S ≠ 0 := hs.ne'
    have e1 : ∀ i, (v i / S - p i * T / (S * S)) * (Real.log (p i / S) + 1) =
        (1 / S) * (Real.log (p i / S) * v i) + (1 / S) * v i - (T / S) * (p i / S * Real.log (p i / S)) - (T / S) * (p i / S) :=
      fun i => by field_simp; ring
    have e2 : ∀ i, -(Real.log (p i / S) + shannon fun i => p i / S) / S * v i =
        -((1 / S) * (Real.log (p i / S) * v i)) - ((shannon fun i => p i / S) / S) * v i := fun i => by ring
    simp only [e1, e2, Finset.sum_sub_distrib, Finset.sum_add_distrib, ← Finset.mul_sum, hq1, Finset.sum_neg_distrib, ← hT]
    rw [shannon]
    ring

theorem nan_all {p c : Fin n → XR} (h : ∃ j, -(c j) * p j = nan) (i : Fin n) : (normalizeProbsV p).2 c i = nan := by
  simp only [normalizeProbsV]
  have : ∑ j, -(c j) * p j / ((∑ j, p j) * ∑ j, p j) = nan := by
    obtain ⟨j, hj⟩ := h
    refine sum_nan _ _ ⟨j, Finset.mem_univ _, ?_⟩
    rw [hj]
    show XR.div nan _ = nan
    rfl
  rw [this, add_comm]; simp

/-- **Finding.** With probabilities as parameters, one zero probability makes every entry of the gradient of `log_prob` nan —
for every category, the possible ones included. -/
theorem C66_probs_log_prob_nan {p : Fin n → ℝ} (hs : 0 < ∑ i, p i) (j : Fin n) (hj : p j = 0) (k i : Fin n) :
    (catLogProbP (fin (k : ℕ)) fun i => fin (p i)).2 (fin 1) i = nan := by
  simp only [catLogProbP, RevS.comp, logProbOf, XR.sel_neg (inside k), oneHot_fin, mnnX_fin, RevV.comp, logV]
  apply nan_all
  refine ⟨j, ?_⟩
  rw [normalizeProbsV_val hs.ne', hj, zero_div]
  have hz : ∀ a : ℝ, fin a / fin 0 = infOf a := fun a => if_pos rfl
  rw [hz]
  by_cases e : j = k
  · rw [if_pos e]
    simp only [infOf]
    norm_num
    show XR.mul ninf (fin 0) = nan
    simp [XR.mul, infOf]
  · rw [if_neg e]
    simp only [infOf]
    norm_num
    rfl

/-- **Finding.** The same for the entropy. -/
theorem C66_probs_entropy_nan {p : Fin n → ℝ} (hp : ∀ i, 0 ≤ p i) (hs : 0 < ∑ i, p i) (j : Fin n) (hj : p j = 0) (i : Fin n) :
    (catEntropyP fun i => fin (p i)).2 (fin 1) i = nan := by
  have hv : ∀ i, XR.log ((normalizeProbsV fun j => fin (p j)).1 i) = xlog (p i / ∑ j, p j) :=
    logP_val hp hs
  simp only [catEntropyP, RevS.comp, entropyOf, RevV.comp, logV, hv, neg_fin]
  apply nan_all
  refine ⟨j, ?_⟩
  rw [normalizeProbsV_val hs.ne', hj, zero_div, show xlog 0 = ninf by simp [xlog], mulExpPull_zero]
  have : (fin 0 + fin 0) / fin 0 = nan := by
    rw [fin_add]
    exact (if_pos rfl).trans (by simp [infOf])
  rw [this]; rfl

/-! ### Bernoulli -/

theorem sig_pos (l : ℝ) : 0 < sig l := by unfold sig; positivity

theorem sig_add_neg (l : ℝ) : sig l + sig (-l) = 1 := by
  have h1 := Real.exp_pos l
  have h2 : Real.exp (-l) = (Real.exp l)⁻¹ := Real.exp_neg l
  simp only [sig, neg_neg, h2]
  field_simp
  ring

theorem sig_lt_one (l : ℝ) : sig l < 1 := by have := sig_pos (-l); have := sig_add_neg l; linarith

theorem sig_deriv (l : ℝ) : HasDerivAt sig (sig l * (1 - sig l)) l := by
  have h : HasDerivAt (fun l : ℝ => 1 + Real.exp (-l)) (-Real.exp (-l)) l := by
    simpa using ((hasDerivAt_id l).neg.exp).const_add 1
  have hp : (1 + Real.exp (-l)) ≠ 0 := by positivity
  have := h.inv hp
  refine (this.congr_of_eventuallyEq (Filter.Eventually.of_forall fun t => ?_)).congr_deriv ?_
  · simp [sig]
  · simp only [sig]; field_simp; ring

theorem log_sig_deriv (l : ℝ) : HasDerivAt (fun l => Real.log (sig l)) (1 - sig l) l := by
  refine ((sig_deriv l).log (sig_pos l).ne').congr_deriv ?_
  have := (sig_pos l).ne'
  field_simp

theorem softplus_log (l : ℝ) : Real.log (1 + Real.exp l) = -Real.log (sig (-l)) := by
  rw [sig, neg_neg, one_div, Real.log_inv, neg_neg]

theorem replaceInf_fin (a : ℝ) : replaceInf (fin a) = fin a := XR.sel_neg (by simp [eqB])

theorem softplusV_pull (l c : ℝ) : (softplusV (fin l)).2 (fin c) = fin (c * sig l) := by
  simp only [softplusV, XR.softplus, replaceInf_fin, fin_sub, exp_fin, fin_mul, fin_inj]
  rw [Real.exp_sub, Real.exp_log (by positivity), sig, Real.exp_neg]
  have := Real.exp_pos l
  field_simp
  ring

theorem softplusV_pinf (c : ℝ) : (softplusV pinf).2 (fin c) = fin c := by
  have : replaceInf pinf = 0 := XR.sel_pos (show eqB pinf pinf from trivial)
  simp [softplusV, XR.softplus, this, zero_def]

theorem softplusV_ninf (c : ℝ) : (softplusV ninf).2 (fin c) = fin 0 := by
  have : replaceInf ninf = ninf := XR.sel_neg (by simp [eqB])
  simp [softplusV, XR.softplus, this, replaceInf_fin]

theorem softplusV_val (l : ℝ) : (softplusV (fin l)).1 = fin (-Real.log (sig (-l))) := by
  simp only [softplusV, XR.softplus, softplus_log]

theorem bernLogProbsL_val (l : ℝ) : (bernLogProbsL (fin l)).1 = (fin (Real.log (sig (-l))), fin (Real.log (sig l))) := by
  simp only [bernLogProbsL, fin_mul, softplusV_val, neg_fin, neg_neg, neg_mul, one_mul]

theorem bernLogProbsL_pull (l a b : ℝ) :
    (bernLogProbsL (fin l)).2 (fin a, fin b) = fin (b * sig (-l) - a * sig l) := by
  simp only [bernLogProbsL, fin_mul, neg_fin, softplusV_pull, fin_add, fin_inj, neg_mul, one_mul]
  ring

/-- `Bernoulli(logits=l).log_prob(v)` at finite logits: correct value and derivative. -/
theorem C66_bernoulli_log_prob (l : ℝ) (v : Bool) :
    (bernLogProbL (fin (bit v)) (fin l)).1 = fin (Real.log (bernProb v (sig l))) ∧
    DerivAt (fun x => Real.log (bernProb v (sig x))) l (bernLogProbL (fin (bit v)) (fin l)).2 := by
  have h1 : ∀ x, 1 - sig x = sig (-x) := fun x => by have := sig_add_neg x; linarith
  have hm : ∀ x y : ℝ, multiplyNoNan (fin x) (fin y) = fin (x * y) := fun x y => by
    by_cases hy : y = 0
    · subst hy; rw [mnn_zero]; simp [zero_def]
    · exact XR.sel_neg (by rw [XR.eqB_zero]; simpa using hy)
  refine ⟨?_, bit v - sig l, fun c => ?_, ?_⟩
  · simp only [bernLogProbL, bernLogProbOf, bernLogProbsL_val, one_def, fin_sub, hm, fin_add, fin_inj]
    cases v <;> simp [bit, bernProb, h1]
  · simp only [bernLogProbL, bernLogProbOf, one_def, fin_sub, mnnX_fin, bernLogProbsL_pull, fin_inj]
    cases v <;> simp [bit, ← h1]
  · cases v
    · have e : (fun x => Real.log (bernProb false (sig x))) = fun x => Real.log (sig (-x)) :=
        funext fun x => by simp [bernProb, h1]
      rw [e]
      have := (log_sig_deriv (-l)).comp l (hasDerivAt_neg l)
      refine this.congr_deriv ?_
      have := h1 (-l)
      rw [neg_neg] at this
      rw [this]; simp [bit]
    · simpa [bernProb, bit] using log_sig_deriv l

/-- `Bernoulli(logits=±inf).log_prob(v)`: the pullback is finite, namely the outcome minus the mean, also when the outcome is
impossible (value `-inf`). -/
theorem C66_bernoulli_log_prob_inf (v : Bool) (c : ℝ) :
    (bernLogProbL (fin (bit v)) pinf).2 (fin c) = fin (c * (bit v - 1)) ∧
    (bernLogProbL (fin (bit v)) ninf).2 (fin c) = fin (c * (bit v - 0)) ∧
    (bernLogProbL (fin (bit false)) pinf).1 = ninf ∧ (bernLogProbL (fin (bit true)) pinf).1 = fin 0 ∧
    (bernLogProbL (fin (bit true)) ninf).1 = ninf ∧ (bernLogProbL (fin (bit false)) ninf).1 = fin 0 := by
  have e1 : (fin (-1) * pinf : XR) = ninf := by show XR.mul _ _ = _; simp [XR.mul, infOf]
  have e2 : (fin (-1) * ninf : XR) = pinf := by show XR.mul _ _ = _; simp [XR.mul, infOf]
  have n0 : multiplyNoNan (fin 0) (fin 1) = fin 0 := mnn_one _ (Or.inr ⟨_, rfl⟩)
  have n1 : multiplyNoNan ninf (fin 1) = ninf := mnn_one _ (Or.inl rfl)
  refine ⟨?_, ?_, ?_, ?_, ?_, ?_⟩
  · simp only [bernLogProbL, bernLogProbOf, bernLogProbsL, e1, one_def, fin_sub, mnnX_fin, neg_fin, softplusV_pinf,
      softplusV_ninf, fin_mul, fin_add, fin_inj]; ring
  · simp only [bernLogProbL, bernLogProbOf, bernLogProbsL, e2, one_def, fin_sub, mnnX_fin, neg_fin, softplusV_pinf,
      softplusV_ninf, fin_mul, fin_add, fin_inj]; ring
  · simp [bernLogProbL, bernLogProbOf, bernLogProbsL, e1, one_def, bit, softplusV, XR.softplus, mnn_zero, n1, zero_def]
  · simp [bernLogProbL, bernLogProbOf, bernLogProbsL, e1, one_def, bit, softplusV, XR.softplus, mnn_zero, n0, zero_def]
  · simp [bernLogProbL, bernLogProbOf, bernLogProbsL, e2, one_def, bit, softplusV, XR.softplus, mnn_zero, n1, zero_def]
  · simp [bernLogProbL, bernLogProbOf, bernLogProbsL, e2, one_def, bit, softplusV, XR.softplus, mnn_zero, n0, zero_def]

theorem sigmoidV_fin (l : ℝ) : (sigmoidV (fin l)).1 = fin (sig l) := rfl

theorem sigmoidV_pull (l c : ℝ) : (sigmoidV (fin l)).2 (fin c) = fin (c * (sig l * (1 - sig l))) := rfl

theorem coinEntropy_deriv {p : ℝ} (h0 : p ≠ 0) (h1 : 1 - p ≠ 0) :
    HasDerivAt coinEntropy (Real.log (1 - p) - Real.log p) p := by
  have d1 : HasDerivAt (fun p : ℝ => 1 - p) (-1) p := by simpa using (hasDerivAt_id p).const_sub 1
  have := ((d1.mul (d1.log h1)).add ((hasDerivAt_id p).mul ((hasDerivAt_id p).log h0))).neg
  refine this.congr_deriv ?_
  simp only [id]
  field_simp
  ring

theorem mnn_fin (x y : ℝ) : multiplyNoNan (fin x) (fin y) = fin (x * y) := by
  by_cases hy : y = 0
  · subst hy; rw [mnn_zero]; simp [zero_def]
  · exact XR.sel_neg (by rw [XR.eqB_zero]; simpa using hy)

/-- `Bernoulli(logits=l).entropy()` at finite logits: correct value and derivative. -/
theorem C66_bernoulli_entropy_partial (l : ℝ) :
    (bernEntropyL (fin l)).1 = fin (coinEntropy (sig l)) ∧ DerivAt (fun x => coinEntropy (sig x)) l (bernEntropyL (fin l)).2 := by
  have h1 : ∀ x, 1 - sig x = sig (-x) := fun x => by have := sig_add_neg x; linarith
  have hs0 := (sig_pos l).ne'
  have hs1 : 1 - sig l ≠ 0 := by have := sig_lt_one l; linarith
  refine ⟨?_, (Real.log (1 - sig l) - Real.log (sig l)) * (sig l * (1 - sig l)), fun c => ?_, ?_⟩
  · simp only [bernEntropyL, bernAllL, bernEntropyOf, bernLogProbsL_val, fin_mul, sigmoidV_fin, mnn_fin, fin_add, fin_inj,
      neg_mul, one_mul, coinEntropy, h1]
    ring
  · simp only [bernEntropyL, bernAllL, bernEntropyOf, bernLogProbsL_val, fin_mul, sigmoidV_fin, mnnX_eq, mnnY_eq,
      sigmoidV_pull, bernLogProbsL_pull, fin_add, fin_inj, neg_mul, one_mul, h1, neg_neg]
    ring
  · exact (coinEntropy_deriv hs0 hs1).comp l (sig_deriv l)

/-- KL divergence between two Bernoullis with finite logits: correct value, and correct derivatives with respect to both. -/
theorem C66_bernoulli_kl_partial (l m : ℝ) :
    (bernKlL (fin l) (fin m)).1 = fin (coinKl (sig l) (sig m)) ∧
    DerivAt (fun x => coinKl (sig x) (sig m)) l (fun c => ((bernKlL (fin l) (fin m)).2 c).1) ∧
    DerivAt (fun x => coinKl (sig l) (sig x)) m (fun c => ((bernKlL (fin l) (fin m)).2 c).2) := by
  have h1 : ∀ x, 1 - sig x = sig (-x) := fun x => by have := sig_add_neg x; linarith
  have hs0 := (sig_pos l).ne'
  have hs1 := (sig_pos (-l)).ne'
  have dn : ∀ x, HasDerivAt (fun x => sig (-x)) (-(sig x * sig (-x))) x := fun x => by
    refine ((sig_deriv (-x)).comp x (hasDerivAt_neg x)).congr_deriv ?_
    have := h1 (-x)
    rw [neg_neg] at this
    rw [this]; ring
  have dp : ∀ x, HasDerivAt sig (sig x * sig (-x)) x := fun x => (sig_deriv x).congr_deriv (by rw [h1])
  refine ⟨?_, ⟨(Real.log (sig l) - Real.log (sig m) - Real.log (sig (-l)) + Real.log (sig (-m))) * (sig l * sig (-l)),
    fun c => ?_, ?_⟩, ⟨sig m - sig l, fun c => ?_, ?_⟩⟩
  · simp only [bernKlL, bernAllL, bernKlOf, bernLogProbsL_val, fin_mul, sigmoidV_fin, mnn_fin, fin_add, fin_sub, fin_inj,
      neg_mul, one_mul, coinKl, h1]
    ring
  · simp only [bernKlL, bernAllL, bernKlOf, bernLogProbsL_val, fin_mul, sigmoidV_fin, mnnX_eq, mnnY_eq, neg_fin,
      sigmoidV_pull, bernLogProbsL_pull, fin_add, fin_inj, neg_mul, one_mul, h1, neg_neg]
    ring
  · simp only [coinKl, h1]
    have d := ((dp l).mul (((dp l).log hs0).sub_const (Real.log (sig m)))).add
      ((dn l).mul (((dn l).log hs1).sub_const (Real.log (sig (-m)))))
    refine d.congr_deriv ?_
    field_simp
    ring
  · simp only [bernKlL, bernAllL, bernKlOf, bernLogProbsL_val, fin_mul, sigmoidV_fin, mnnX_eq, neg_fin,
      bernLogProbsL_pull, fin_inj, neg_mul, one_mul]
    have := sig_add_neg l
    have := sig_add_neg m
    have e : sig (-l) = 1 - sig l := by linarith
    have e' : sig (-m) = 1 - sig m := by linarith
    rw [e, e']; ring
  · simp only [coinKl, h1]
    have d := (((dp m).log (sig_pos m).ne').const_sub (Real.log (sig l))).const_mul (sig l) |>.add
      ((((dn m).log (sig_pos (-m)).ne').const_sub (Real.log (sig (-l)))).const_mul (sig (-l)))
    refine d.congr_deriv ?_
    have := (sig_pos m).ne'
    have := (sig_pos (-m)).ne'
    have e : sig (-l) = 1 - sig l := by have := sig_add_neg l; linarith
    have e' : sig (-m) = 1 - sig m := by have := sig_add_neg m; linarith
    field_simp
    rw [e, e']; ring

/-- **Finding.** At infinite logits the entropy is 0 but its gradient is nan. -/
theorem C66_bernoulli_entropy_inf_nan :
    (bernEntropyL pinf).1 = fin 0 ∧ (bernEntropyL pinf).2 (fin 1) = nan ∧
    (bernEntropyL ninf).1 = fin 0 ∧ (bernEntropyL ninf).2 (fin 1) = nan := by
  have e1 : (fin (-1) * pinf : XR) = ninf := by show XR.mul _ _ = _; simp [XR.mul, infOf]
  have e2 : (fin (-1) * ninf : XR) = pinf := by show XR.mul _ _ = _; simp [XR.mul, infOf]
  have e3 : (pinf * fin 0 : XR) = nan := by show XR.mul _ _ = _; simp [XR.mul, infOf]
  have e4 : (fin (-1) * nan : XR) = nan := rfl
  have n0 : multiplyNoNan (fin 0) (fin 1) = fin 0 := mnn_one _ (Or.inr ⟨_, rfl⟩)
  refine ⟨?_, ?_, ?_, ?_⟩
  · simp [bernEntropyL, bernAllL, bernEntropyOf, bernLogProbsL, sigmoidV, XR.sigmoid, softplusV, XR.softplus, e1, mnn_zero,
      n0, zero_def]
  · simp [bernEntropyL, bernAllL, bernEntropyOf, sigmoidV, XR.sigmoid, bernLogProbsL, softplusV, XR.softplus, e1, e2, mnnY_eq,
      one_def, e3, e4]
  · simp [bernEntropyL, bernAllL, bernEntropyOf, bernLogProbsL, sigmoidV, XR.sigmoid, softplusV, XR.softplus, e2, mnn_zero,
      n0, zero_def]
  · simp [bernEntropyL, bernAllL, bernEntropyOf, sigmoidV, XR.sigmoid, bernLogProbsL, softplusV, XR.softplus, e2, mnnY_eq,
      one_def, e3]
    rw [add_assoc, add_comm]
    simp

theorem bernLogProbsP_val {p : ℝ} (h0 : 0 < p) (h1 : p < 1) :
    (bernLogProbsP (fin p)).1 = (fin (Real.log (1 - p)), fin (Real.log p)) := by
  have : (1 : ℝ) + -p = 1 - p := by ring
  simp only [bernLogProbsP, XR.log1p, one_def, fin_mul, fin_add, neg_mul, one_mul, this,
    log_fin_pos (show 0 < 1 - p by linarith), log_fin_pos h0]

theorem bernLogProbsP_pull {p : ℝ} (h0 : 0 < p) (h1 : p < 1) (a b : ℝ) :
    (bernLogProbsP (fin p)).2 (fin a, fin b) = fin (b / p - a / (1 - p)) := by
  have e : (1 : ℝ) + -p = 1 - p := by ring
  simp only [bernLogProbsP, one_def, fin_mul, fin_add, neg_mul, one_mul, e, div_fin (show 1 - p ≠ 0 by linarith),
    div_fin h0.ne', fin_inj]
  ring

/-- `Bernoulli(probs=p)` with `0 < p < 1`: correct value and derivative of `log_prob` and `entropy`. -/
theorem C66_bernoulli_probs_partial {p : ℝ} (h0 : 0 < p) (h1 : p < 1) (v : Bool) :
    (bernLogProbP (fin (bit v)) (fin p)).1 = fin (Real.log (bernProb v p)) ∧
    DerivAt (fun x => Real.log (bernProb v x)) p (bernLogProbP (fin (bit v)) (fin p)).2 ∧
    (bernEntropyP (fin p)).1 = fin (coinEntropy p) ∧ DerivAt coinEntropy p (bernEntropyP (fin p)).2 := by
  have h1' : 1 - p ≠ 0 := by linarith
  have h0' := h0.ne'
  have d1 : HasDerivAt (fun p : ℝ => 1 - p) (-1) p := by simpa using (hasDerivAt_id p).const_sub 1
  refine ⟨?_, ⟨bit v / p - (1 - bit v) / (1 - p), fun c => ?_, ?_⟩, ?_, ⟨Real.log (1 - p) - Real.log p, fun c => ?_, ?_⟩⟩
  · simp only [bernLogProbP, bernLogProbOf, bernLogProbsP_val h0 h1, one_def, fin_sub, mnn_fin, fin_add, fin_inj]
    cases v <;> simp [bit, bernProb]
  · simp only [bernLogProbP, bernLogProbOf, one_def, fin_sub, mnnX_fin, bernLogProbsP_pull h0 h1, fin_inj]
    ring
  · cases v
    · simpa [bernProb, bit, neg_div] using d1.log h1'
    · simpa [bernProb, bit] using (hasDerivAt_id p).log h0'
  · simp only [bernEntropyP, bernAllP, bernEntropyOf, bernLogProbsP_val h0 h1, one_def, fin_sub, mnn_fin, fin_mul, fin_add,
      fin_inj, coinEntropy]
    ring
  · simp only [bernEntropyP, bernAllP, bernEntropyOf, bernLogProbsP_val h0 h1, one_def, fin_sub, mnnX_eq, mnnY_eq, fin_mul,
      bernLogProbsP_pull h0 h1, neg_fin, fin_add, fin_inj]
    field_simp
    ring
  · exact coinEntropy_deriv h0' h1'

/-- **Finding.** At `probs` 0 or 1 the gradient of `log_prob` of the certain outcome, and that of the entropy, is nan, although
their values are the finite number 0. -/
theorem C66_bernoulli_probs_nan :
    (bernLogProbP (fin 1) (fin 1)).1 = fin 0 ∧ (bernLogProbP (fin 1) (fin 1)).2 (fin 1) = nan ∧
    (bernLogProbP (fin 0) (fin 0)).1 = fin 0 ∧ (bernLogProbP (fin 0) (fin 0)).2 (fin 1) = nan ∧
    (bernEntropyP (fin 0)).1 = fin 0 ∧ (bernEntropyP (fin 0)).2 (fin 1) = nan ∧
    (bernEntropyP (fin 1)).1 = fin 0 ∧ (bernEntropyP (fin 1)).2 (fin 1) = nan := by
  have hz : (fin 0 / fin 0 : XR) = nan := (if_pos rfl).trans (by simp [infOf])
  have e4 : ∀ a : ℝ, (fin a * nan : XR) = nan := fun _ => rfl
  have n0 : multiplyNoNan (fin 0) (fin 1) = fin 0 := mnn_one _ (Or.inr ⟨_, rfl⟩)
  have l1 : XR.log (fin 1) = fin 0 := by simp [XR.log]
  have hn : ∀ a : XR, a + nan = nan := fun a => by rw [add_comm]; simp
  refine ⟨?_, ?_, ?_, ?_, ?_, ?_, ?_, ?_⟩
  · simp [bernLogProbP, bernLogProbOf, bernLogProbsP, XR.log1p, one_def, mnn_zero, l1, n0, zero_def]
  · simp [bernLogProbP, bernLogProbOf, bernLogProbsP, one_def, mnnX_eq, hz, e4]
  · simp [bernLogProbP, bernLogProbOf, bernLogProbsP, XR.log1p, one_def, mnn_zero, l1, n0, zero_def]
  · simp [bernLogProbP, bernLogProbOf, bernLogProbsP, one_def, mnnX_eq, hz, hn]
  · simp [bernEntropyP, bernEntropyOf, bernAllP, bernLogProbsP, XR.log1p, one_def, mnn_zero, l1, n0, zero_def]
  · simp [bernEntropyP, bernEntropyOf, bernAllP, bernLogProbsP, one_def, mnnX_eq, hz, hn]
  · simp [bernEntropyP, bernEntropyOf, bernAllP, bernLogProbsP, XR.log1p, one_def, mnn_zero, l1, n0, zero_def]
  · simp [bernEntropyP, bernEntropyOf, bernAllP, bernLogProbsP, one_def, mnnX_eq, hz, hn, e4]

/-! ### Mixtures -/

theorem add_xlog_cases {x : XR} (hx : x = ninf ∨ ∃ a, x = fin a) {p : ℝ} (hp : 0 ≤ p) :
    (x + xlog p = ninf ∨ ∃ a, x + xlog p = fin a) ∧ weight (x + xlog p) = p * weight x := by
  by_cases h : p = 0
  · subst h
    have : x + xlog 0 = ninf := by
      rcases hx with rfl | ⟨a, rfl⟩ <;> simp [xlog]
    rw [this]; simp [weight]
  · have hp' : 0 < p := lt_of_le_of_ne hp (Ne.symm h)
    have e : xlog p = fin (Real.log p) := by simp [xlog, h]
    rw [e]
    refine ⟨?_, by rw [weight_add hx, Real.exp_log hp']; ring⟩
    rcases hx with rfl | ⟨a, rfl⟩
    · left; simp
    · right; exact ⟨a + Real.log p, by simp⟩

theorem logsumexpV_legal {z : Fin n → XR} (h : LegalLogits z) :
    (logsumexpV z).1 = fin (Real.log (∑ i, weight (z i))) ∧ ∀ c i, (logsumexpV z).2 (fin c) i = fin (c * softP z i) := by
  obtain ⟨m, hm⟩ := h.rowMax
  have hS := h.weight_sum_pos
  have e : ∑ j, XR.exp (z j - fin m) = fin ((∑ j, weight (z j)) * Real.exp (-m)) := by
    rw [Finset.sum_mul, ← sum_fin]
    exact Finset.sum_congr rfl fun j _ => weight_sub (h.entry j) m
  have hsel : XR.sel (isFinite (fin m)) (fin m) 0 = fin m := XR.sel_pos trivial
  refine ⟨?_, fun c i => ?_⟩
  · simp only [logsumexpV, hm, hsel]
    rw [e, log_fin_pos (by positivity), Real.log_mul hS.ne' (Real.exp_pos _).ne', Real.log_exp]
    simp
  · simp only [logsumexpV, hm, hsel]
    rw [e, div_fin (by positivity), weight_sub (h.entry i), fin_mul, fin_inj, softP]
    have := (Real.exp_pos (-m)).ne'
    generalize (∑ j, weight (z j)) = S at *
    field_simp

/-- A mixture at a value that some component of positive weight can produce: correct value, and correct gradients with respect
to the mixing logits and to the components' log-densities, whatever other components exclude the value or have weight 0. -/
theorem C66_mixture {logits lp : Fin n → XR} (hl : LegalLogits logits) (hlp : ∀ i, lp i = ninf ∨ ∃ a, lp i = fin a)
    (k : Fin n) (hk : logits k ≠ ninf) (hk' : lp k ≠ ninf) :
    (mixLogProb logits lp).1 = fin (mixLog logits lp) ∧
    GradientAt (fun l => mixLog l lp) logits (fun c => ((mixLogProb logits lp).2 c).1) ∧
    GradientAt (fun x => mixLog logits x) lp (fun c => ((mixLogProb logits lp).2 c).2) := by
  have hp := softP_pmf hl
  have hv : ((logSoftmaxV.comp logSoftmaxV) logits).1 = fun i => xlog (softP logits i) := funext (twice_val hl)
  set z : Fin n → XR := fun i => lp i + xlog (softP logits i) with hz
  have hw : ∀ i, weight (z i) = softP logits i * weight (lp i) := fun i => (add_xlog_cases (hlp i) (hp.nonneg i)).2
  have hkp : 0 < softP logits k := by
    rcases hl.entry k with e | ⟨a, e⟩
    · exact absurd e hk
    · exact div_pos (by rw [e]; exact Real.exp_pos a) hl.weight_sum_pos
  have hzl : LegalLogits z := by
    refine ⟨fun i => (add_xlog_cases (hlp i) (hp.nonneg i)).1, k, ?_⟩
    rcases hlp k with e | ⟨a, e⟩
    · exact absurd e hk'
    · exact ⟨a + Real.log (softP logits k), by simp [hz, e, xlog, hkp.ne']⟩
  have hsum : ∑ i, weight (z i) = ∑ i, softP logits i * weight (lp i) := Finset.sum_congr rfl fun i _ => hw i
  have hS := hzl.weight_sum_pos
  rw [hsum] at hS
  obtain ⟨hval, hpull⟩ := logsumexpV_legal hzl
  have hq := softP_pmf hzl
  have hqe : ∀ i, softP z i = softP logits i * weight (lp i) / ∑ j, softP logits j * weight (lp j) := fun i => by
    rw [softP, hw, hsum]
  refine ⟨?_, ⟨fun i => softP z i - softP logits i, fun c i => ?_, fun v => ?_⟩, ⟨fun i => softP z i, fun c i => ?_, fun v => ?_⟩⟩
  · simp only [mixLogProb, hv]
    exact hval.trans (by rw [hsum, mixLog])
  · simp only [mixLogProb, hv]
    have e : (logsumexpV fun i => lp i + xlog (softP logits i)).2 (fin c) = fun i => fin (c * softP z i) := funext fun i => hpull c i
    rw [e, twice_pull hl, ← Finset.mul_sum, hq.sum_one, fin_inj]; ring
  · have hd := (HasDerivAt.fun_sum (u := Finset.univ) fun i _ => (softP_deriv hl v i).mul_const (weight (lp i)))
    refine (hd.log (by rw [along_zero]; exact hS.ne')).congr_deriv ?_
    rw [along_zero]
    have e1 : ∀ i, softP logits i * (v i - ∑ j, softP logits j * v j) * weight (lp i) =
        softP logits i * weight (lp i) * v i - (∑ j, softP logits j * v j) * (softP logits i * weight (lp i)) := fun i => by ring
    have e2 : ∑ i, softP z i * v i = (∑ i, softP logits i * weight (lp i) * v i) / ∑ j, softP logits j * weight (lp j) := by
      rw [Finset.sum_div]; exact Finset.sum_congr rfl fun i _ => by rw [hqe]; ring
    simp only [e1, sub_mul, Finset.sum_sub_distrib, ← Finset.mul_sum, e2]
    generalize (∑ j, softP logits j * weight (lp j)) = S at *
    have := hS.ne'
    field_simp
  · simp only [mixLogProb, hv]
    exact hpull c i
  · have hd := (HasDerivAt.fun_sum (u := Finset.univ) fun i _ => (weight_deriv (hlp i) (v i)).const_mul (softP logits i))
    have h0 : ∑ i, softP logits i * weight (lp i + fin (0 * v i)) = ∑ i, softP logits i * weight (lp i) :=
      Finset.sum_congr rfl fun i _ => by rw [weight_add (hlp i)]; simp
    refine (hd.log (by rw [h0]; exact hS.ne')).congr_deriv ?_
    rw [h0, Finset.sum_div]
    exact Finset.sum_congr rfl fun i _ => by
      show _ = softP z i * v i
      rw [hqe]; ring

theorem foldl_ninf (L : List XR) (h : ∀ x ∈ L, x = ninf) : L.foldl XR.max ninf = ninf := by
  induction L with
  | nil => rfl
  | cons a L ih =>
    have ha := h a (by simp)
    subst ha
    have : XR.max ninf ninf = ninf := by simp [XR.max, ltB]
    rw [List.foldl_cons, this]
    exact ih fun x hx => h x (by simp [hx])

/-- **Finding.** At a value that no component can produce the mixture's `log_prob` is `-inf` and its gradient is nan in every
entry, both with respect to the mixing logits and with respect to the components' log-densities. -/
theorem C66_mixture_impossible_nan {logits : Fin n → XR} (hl : LegalLogits logits) (i : Fin n) :
    (mixLogProb logits fun _ => ninf).1 = ninf ∧
    ((mixLogProb logits fun _ => ninf).2 (fin 1)).1 i = nan ∧ ((mixLogProb logits fun _ => ninf).2 (fin 1)).2 i = nan := by
  have hv : ((logSoftmaxV.comp logSoftmaxV) logits).1 = fun i => xlog (softP logits i) := funext (twice_val hl)
  have hz : (fun i => ninf + xlog (softP logits i)) = fun _ : Fin n => ninf := funext fun i => by
    rcases xlog_cases (softP logits i) with e | ⟨a, e⟩ <;> rw [e] <;> rfl
  have hmax : rowMax (fun _ : Fin n => ninf) = ninf :=
    foldl_ninf _ fun x hx => by
      obtain ⟨j, rfl⟩ := (List.mem_ofFn' _ _).1 hx
      rfl
  have hsel : XR.sel (isFinite ninf) ninf 0 = fin 0 := XR.sel_neg (by simp [isFinite])
  have hs : ∑ _j : Fin n, XR.exp (ninf - fin 0) = fin 0 := by
    rw [ninf_sub_fin, exp_ninf, sum_fin]; simp
  have hd : (fin 1 / fin 0 : XR) = pinf := (if_pos rfl).trans (by simp [infOf])
  have hm : (pinf * fin 0 : XR) = nan := by show XR.mul _ _ = _; simp [XR.mul, infOf]
  have hp : (logsumexpV fun _ : Fin n => ninf).2 (fin 1) = fun _ => nan := by
    funext j
    simp only [logsumexpV, hmax, hsel, hs, hd]
    rw [ninf_sub_fin, exp_ninf, hm]
  refine ⟨?_, ?_, ?_⟩
  · have e : (logsumexpV fun _ : Fin n => ninf).1 = ninf := by
      simp only [logsumexpV, hmax, hsel, hs]
      simp
    simp only [mixLogProb, hv, hz, e]
  · simp only [mixLogProb, hv, hz, hp]
    have hn : ∀ (x : Fin n → XR) (j : Fin n), (logSoftmaxV x).2 (fun _ => nan) j = nan := fun x j => by
      simp [logSoftmaxV]
    simp only [RevV.comp]
    have e : (logSoftmaxV (logSoftmaxV logits).1).2 (fun _ => nan) = fun _ => nan := funext fun j => hn _ j
    rw [e]; exact hn _ i
  · simp only [mixLogProb, hv, hz, hp]

/-! ### The hypotheses are met -/

/-- Logits with an impossible category. -/
def egLogits : Fin 3 → XR := ![fin 0, ninf, fin 1]

theorem egLegal : LegalLogits egLogits := by
  refine ⟨fun i => ?_, 0, 0, rfl⟩
  fin_cases i
  · exact Or.inr ⟨0, rfl⟩
  · exact Or.inl rfl
  · exact Or.inr ⟨1, rfl⟩

example : GradientAt (fun l' => shannon (softP l')) egLogits (catEntropyL egLogits).2 ∧
    (catEntropyL egLogits).2 (fin 1) 1 = fin 0 := ⟨(C66_entropy egLegal).2.1, (C66_entropy egLegal).2.2 1 1 rfl⟩

example : GradientAt (fun l' => Real.log (softP l' 2)) egLogits (catLogProbL (fin ((2 : Fin 3) : ℕ)) egLogits).2 :=
  (C66_categorical_log_prob egLegal 2 (div_pos (Real.exp_pos 1) egLegal.weight_sum_pos).ne').2

example : (catLogProbL (fin ((1 : Fin 3) : ℕ)) egLogits).1 = ninf :=
  (C66_categorical_log_prob_impossible egLegal 1 rfl).1

example : (catLogProbL (fin 7) egLogits).2 (fin 1) 0 = fin 0 :=
  (C66_categorical_log_prob_outside egLegal 7 (Or.inr (by norm_num))).2 1 0

example : (catKlL egLogits ![fin 0, fin 0, fin 0]).1 ≠ pinf := by
  have h2 : LegalLogits (![fin 0, fin 0, fin 0] : Fin 3 → XR) :=
    ⟨fun i => by fin_cases i <;> exact Or.inr ⟨0, rfl⟩, 0, 0, rfl⟩
  rw [(C66_kl egLegal h2 (fun i hi => by fin_cases i <;> cases hi)).1]
  simp

example : (catKlL ![fin 0, fin 0, fin 0] egLogits).1 = pinf :=
  (C66_kl_infinite ⟨fun i => by fin_cases i <;> exact Or.inr ⟨0, rfl⟩, 0, 0, rfl⟩ egLegal 1 rfl (fun h => by cases h)).1

example : (catLogProbP (fin ((0 : Fin 2) : ℕ)) fun i => fin ((![1, 0] : Fin 2 → ℝ) i)).2 (fin 1) 0 = nan :=
  C66_probs_log_prob_nan (by simp) 1 rfl 0 0

example : GradientAt (fun l => mixLog l egLogits) egLogits (fun c => ((mixLogProb egLogits egLogits).2 c).1) :=
  (C66_mixture egLegal egLegal.entry 0 (fun h => by cases h) (fun h => by cases h)).2.1

end Distrax
