import Verif.Lemmas.HMM
import Mathlib.Algebra.BigOperators.Ring.Finset
import Mathlib.Tactic.FinCases
import Mathlib.Tactic.IntervalCases

/-!
Properties C41-C46: hidden Markov models.  Specifications (`joint`, `evidence`, `marginal`, `future`: sums
over all state paths) are in `Verif/Spec/HMM.lean`.
-/

namespace Distrax
namespace HMM

variable {K : ℕ} {O : Type}

/-! ## C44 / C41: forward -/

/-- **C44 (forward with `length`).** With `1 ≤ length ≤ seq_len`, `forward` returns
`log p(x_{0..length-1})`, the filtering posteriors `p(z_t | x_{0..t})` for `t < length`, and zero rows after;
the observations from `length` on are irrelevant.  Guard: no predictive weight in `(0, 1e-15)` (the code
clamps those) and the observed prefix is possible. -/
theorem C44_forward_length (h : HMM K O) (hv : h.Valid) (obs : ℕ → O) (seqLen length : ℕ)
    (h1 : 1 ≤ length) (h2 : length ≤ seqLen) (hc : h.NoClampForward obs length)
    (hp : 0 < h.evidence obs (length - 1)) :
    (h.forward obs seqLen length).1 = Real.log (h.evidence obs (length - 1)) ∧
    (h.forward obs seqLen length).2 = (List.range seqLen).map fun t k =>
      if t < length then h.marginal obs t (Fin.last t) k / h.evidence obs t else 0 := by
  obtain ⟨n, rfl⟩ : ∃ n, seqLen = n + 1 := ⟨seqLen - 1, by omega⟩
  obtain ⟨l, rfl⟩ : ∃ l, length = l + 1 := ⟨length - 1, by omega⟩
  simp only [Nat.add_sub_cancel] at hp
  have hin : ∀ t ≤ l, iter (forwardStep h obs (l + 1)) (fwdInit h obs) 1 t =
      (filt h obs t, Real.log (h.evidence obs t)) := fun t ht =>
    iter_possible hv t (by omega) (fun s hs => hc s (by omega)) (evidence_pos_of_le hv ht hp)
  have hout : ∀ m, iter (forwardStep h obs (l + 1)) (fwdInit h obs) 1 (l + 1 + m) =
      (fun _ => 0, Real.log (h.evidence obs l)) := by
    intro m
    apply iter_dead
    rw [iter, hin l le_rfl, step_beyond _ _ _ _ (by omega)]
  rw [forward_eq]
  constructor
  · simp only [Nat.add_sub_cancel]
    rcases Nat.lt_or_ge l n with hlt | hge
    · obtain ⟨m, rfl⟩ : ∃ m, n = l + 1 + m := ⟨n - (l + 1), by omega⟩
      rw [hout]
    · rw [hin n (by omega), show n = l by omega]
  · simp only
    apply List.map_congr_left
    intro t _
    rcases Nat.lt_or_ge t (l + 1) with hlt | hge
    · rw [hin t (by omega)]
      funext k
      simp [filt, hlt]
    · obtain ⟨m, rfl⟩ : ∃ m, t = l + 1 + m := ⟨t - (l + 1), by omega⟩
      rw [hout]
      funext k
      rw [if_neg (by omega)]

/-- **C41.** `forward` returns the log evidence of the whole sequence and all filtering posteriors. -/
theorem C41_forward (h : HMM K O) (hv : h.Valid) (obs : ℕ → O) (n : ℕ)
    (hc : h.NoClampForward obs (n + 1)) (hp : 0 < h.evidence obs n) :
    (h.forward obs (n + 1) (n + 1)).1 = Real.log (h.evidence obs n) ∧
    (h.forward obs (n + 1) (n + 1)).2 = (List.range (n + 1)).map fun t k =>
      h.marginal obs t (Fin.last t) k / h.evidence obs t := by
  have := C44_forward_length h hv obs (n + 1) (n + 1) (by omega) le_rfl hc (by simpa using hp)
  refine ⟨by simpa using this.1, this.2.trans (List.map_congr_left fun t ht => ?_)⟩
  funext k
  rw [if_pos (List.mem_range.1 ht)]

/-- **C41 (no guard).** Whatever the inputs, every returned row is nonnegative and either sums to one or is
identically zero; there is one row per time step. -/
theorem C41_forward_rows (h : HMM K O) (obs : ℕ → O) (n length : ℕ) :
    (h.forward obs (n + 1) length).2.length = n + 1 ∧
    ∀ a ∈ (h.forward obs (n + 1) length).2, (∀ k, 0 ≤ a k) ∧ (∑ k, a k = 1 ∨ ∀ k, a k = 0) := by
  rw [forward_eq]
  refine ⟨by simp, ?_⟩
  simp only [List.mem_map]
  rintro a ⟨t, _, rfl⟩
  cases t with
  | zero => exact normalize_fst eps_pos _
  | succ t => exact normalize_fst eps_pos _

/-! A two-state model used in the non-vacuity checks: observation `true` is emitted by state 0 with
probability 3/4, by state 1 with 1/4. -/

/-- The example model (log-parameters consistent with the probabilities). -/
noncomputable def ex : HMM 2 Bool where
  initProbs := fun _ => 1 / 2
  transProbs := fun _ _ => 1 / 2
  obsProb := fun o k => if o = (k = 0) then 3 / 4 else 1 / 4
  initLogits := fun _ => ENNReal.log (ENNReal.ofReal (1 / 2))
  transLogits := fun _ _ => ENNReal.log (ENNReal.ofReal (1 / 2))
  obsLogProb := fun o k => ENNReal.log (ENNReal.ofReal (if o = (k = 0) then 3 / 4 else 1 / 4))

theorem ex_valid : ex.Valid where
  init_nonneg := fun _ => by norm_num [ex]
  init_sum := by norm_num [ex]
  trans_nonneg := fun _ _ => by norm_num [ex]
  trans_sum := fun _ => by norm_num [ex]
  obs_nonneg := fun o k => by simp only [ex]; split_ifs <;> norm_num

theorem ex_sum_obs (o : Bool) : ∑ k, ex.obsProb o k = 1 := by
  cases o <;> norm_num [ex, Fin.sum_univ_two]

theorem ex_evidence (obs : ℕ → Bool) (n : ℕ) : ex.evidence obs n = (1 / 2) ^ (n + 1) := by
  have hm : ∀ n k, ex.marginal obs n (Fin.last n) k = (1 / 2) ^ (n + 1) * ex.obsProb (obs n) k := by
    intro n
    induction n with
    | zero => intro k; rw [marginal_zero]; simp [ex]
    | succ n ih =>
      intro k
      rw [marginal_succ]
      simp only [ih, show ∀ i j, ex.transProbs i j = 1 / 2 from fun _ _ => rfl]
      rw [← Finset.sum_mul, ← Finset.mul_sum, ex_sum_obs]
      ring
  rw [← ex.sum_marginal obs n (Fin.last n)]
  simp only [hm]
  rw [← Finset.mul_sum, ex_sum_obs, mul_one]

theorem ex_marginal (obs : ℕ → Bool) (n : ℕ) (k : Fin 2) :
    ex.marginal obs n (Fin.last n) k = (1 / 2) ^ (n + 1) * ex.obsProb (obs n) k := by
  cases n with
  | zero => rw [marginal_zero]; simp [ex]
  | succ n =>
    rw [marginal_succ]
    simp only [show ∀ i j, ex.transProbs i j = 1 / 2 from fun _ _ => rfl]
    rw [← Finset.sum_mul, ex.sum_marginal obs n (Fin.last n), ex_evidence]
    ring

theorem ex_obs_ge (o : Bool) (k : Fin 2) : 1 / 4 ≤ ex.obsProb o k := by
  simp only [ex]; split_ifs <;> norm_num

theorem ex_noClampForward (obs : ℕ → Bool) (n : ℕ) : ex.NoClampForward obs n := by
  intro t _ k
  right
  have h1 := ex_obs_ge (obs t) k
  unfold predictive
  rw [ex_marginal]
  cases t with
  | zero => simp only [if_true]; linarith
  | succ t =>
    rw [if_neg (Nat.succ_ne_zero t), Nat.add_sub_cancel, ex_evidence, pow_succ _ (t + 1)]
    have : (0:ℝ) < (1 / 2) ^ (t + 1) := by positivity
    rw [show (1 / 2 : ℝ) ^ (t + 1) * (1 / 2) * ex.obsProb (obs (t + 1)) k / (1 / 2) ^ (t + 1) =
      1 / 2 * ex.obsProb (obs (t + 1)) k by field_simp]
    linarith

theorem ex_future (obs : ℕ → Bool) (m : ℕ) : ∀ (t : ℕ) (k : Fin 2), ex.future obs t m k = (1 / 2) ^ m := by
  induction m with
  | zero => intro t k; simp [future_zero]
  | succ m ih =>
    intro t k
    rw [future_succ, back]
    simp only [ih, show ∀ i j, ex.transProbs i j = 1 / 2 from fun _ _ => rfl]
    rw [← Finset.sum_mul, ← Finset.mul_sum, ex_sum_obs]
    ring

theorem ex_futureNorm (obs : ℕ → Bool) (n t : ℕ) :
    ex.futureNorm obs n t = if t = n then 1 else 2 * (1 / 2) ^ (n - t) := by
  unfold futureNorm
  simp only [ex_future, Fin.sum_univ_two]
  split_ifs <;> ring

theorem ex_noClampBackward (obs : ℕ → Bool) (n : ℕ) : ex.NoClampBackward obs n := by
  intro t ht k
  right
  rw [ex_future, ex_futureNorm]
  obtain ⟨m, rfl⟩ : ∃ m, n = t + 1 + m := ⟨n - (t + 1), by omega⟩
  rw [show t + 1 + m - t = m + 1 by omega, show t + 1 + m - (t + 1) = m by omega, pow_succ]
  split_ifs with h
  · have : m = 0 := by omega
    subst this; norm_num
  · have : (0:ℝ) < (1 / 2) ^ m := by positivity
    rw [show (1 / 2 : ℝ) ^ m * (1 / 2) / (2 * (1 / 2) ^ m) = 1 / 4 by field_simp; norm_num]
    norm_num

theorem ex_noClampSmooth (obs : ℕ → Bool) (n : ℕ) : ex.NoClampSmooth obs n := by
  intro t ht k
  right
  have h1 := ex_obs_ge (obs t) k
  rw [ex_marginal, ex_evidence, ex_future, ex_futureNorm]
  have p1 : (0:ℝ) < (1 / 2) ^ (t + 1) := by positivity
  have p2 : (0:ℝ) < (1 / 2) ^ (n - t) := by positivity
  rw [show (1 / 2 : ℝ) ^ (t + 1) * ex.obsProb (obs t) k / (1 / 2) ^ (t + 1) = ex.obsProb (obs t) k by
    field_simp]
  split_ifs with h
  · subst h; simp; linarith
  · rw [show (1 / 2 : ℝ) ^ (n - t) / (2 * (1 / 2) ^ (n - t)) = 1 / 2 by field_simp]
    linarith

/-- Non-vacuity of C41/C43/C44: the example model meets all guards for every sequence of every length. -/
example (obs : ℕ → Bool) (n : ℕ) : ex.Valid ∧ ex.NoClampForward obs (n + 1) ∧ 0 < ex.evidence obs n ∧
    ex.NoClampBackward obs n ∧ ex.NoClampSmooth obs n :=
  ⟨ex_valid, ex_noClampForward obs _, by rw [ex_evidence]; positivity, ex_noClampBackward obs n,
    ex_noClampSmooth obs n⟩

/-! ## C42: impossible observations -/

/-- **C42 is false of the code (finding).** If the sequence is possible up to time `t0` and impossible from
`t0 + 1` on, `forward` returns the *finite* log-likelihood of the possible prefix, not `-inf`. -/
theorem C42_impossible_is_finite (h : HMM K O) (hv : h.Valid) (obs : ℕ → O) (n t0 : ℕ) (ht : t0 < n)
    (hc : h.NoClampForward obs (n + 1)) (hp : 0 < h.evidence obs t0) (h0 : h.evidence obs (t0 + 1) = 0) :
    h.evidence obs n = 0 ∧
    (h.forward obs (n + 1) (n + 1)).1 = Real.log (h.evidence obs t0) := by
  constructor
  · obtain ⟨m, rfl⟩ : ∃ m, n = t0 + 1 + m := ⟨n - (t0 + 1), by omega⟩
    exact evidence_zero_mono hv m h0
  · rw [forward_eq]
    simp only
    obtain ⟨m, rfl⟩ : ∃ m, n = t0 + 1 + m := ⟨n - (t0 + 1), by omega⟩
    rw [iter_dead (l := Real.log (h.evidence obs t0))]
    rw [iter, iter_possible hv t0 (by omega) (fun s hs => hc s (by omega)) hp,
      step_possible hv (by omega) (fun s hs => hc s (by omega)) hp, if_pos h0, filt_impossible h0, zero_add]

/-- **C42 (first observation impossible).** Then `forward` returns log-likelihood `0`, i.e. probability one,
and all rows are zero. -/
theorem C42_impossible_at_start (h : HMM K O) (hv : h.Valid) (obs : ℕ → O) (n : ℕ)
    (h0 : h.evidence obs 0 = 0) :
    h.evidence obs n = 0 ∧ (h.forward obs (n + 1) (n + 1)).1 = 0 ∧
    ∀ a ∈ (h.forward obs (n + 1) (n + 1)).2, ∀ k, a k = 0 := by
  have hc : h.NoClampForward obs 1 := by
    intro t ht k
    obtain rfl : t = 0 := by omega
    left
    rw [predictive, marginal_eq_zero hv h0, zero_div]
  have hi : ∀ m, iter (forwardStep h obs (n + 1)) (fwdInit h obs) 1 (0 + m) = (fun _ => 0, 0) := by
    intro m
    apply iter_dead
    rw [iter, fwdInit_eq hv hc, if_pos h0, filt_impossible h0]
  refine ⟨by simpa using evidence_zero_mono hv n h0, ?_, ?_⟩
  · rw [forward_eq]
    have := hi n
    rw [Nat.zero_add] at this
    simp only [this]
  · rw [forward_eq]
    simp only [List.mem_map]
    rintro a ⟨t, _, rfl⟩ k
    rw [← Nat.zero_add t, hi]

/-- **C42 (what holds).** `forward` never reports a log-likelihood below that of the longest possible prefix,
and an impossible sequence is still recognisable from the rows: the sequence is possible iff the last
returned row is not identically zero. -/
theorem C42_last_row_detects_impossible_partial (h : HMM K O) (hv : h.Valid) (obs : ℕ → O) (n : ℕ)
    (hc : h.NoClampForward obs (n + 1)) :
    (∃ a k, (h.forward obs (n + 1) (n + 1)).2[n]? = some a ∧ a k ≠ 0) ↔ 0 < h.evidence obs n := by
  constructor
  · rintro ⟨a, k, ha, hk⟩
    by_contra hneg
    have hz : h.evidence obs n = 0 := le_antisymm (not_lt.1 hneg) (evidence_nonneg hv obs n)
    have hdead : ∃ l, iter (forwardStep h obs (n + 1)) (fwdInit h obs) 1 n = (fun _ => 0, l) := by
      classical
      have hex : ∃ m, h.evidence obs m = 0 := ⟨n, hz⟩
      obtain ⟨m, hm, hmin⟩ : ∃ m, h.evidence obs m = 0 ∧ ∀ j < m, h.evidence obs j ≠ 0 :=
        ⟨Nat.find hex, Nat.find_spec hex, fun j hj => Nat.find_min hex hj⟩
      have hmn : m ≤ n := by
        by_contra hlt
        exact hmin n (by omega) hz
      obtain ⟨d, rfl⟩ : ∃ d, n = m + d := ⟨n - m, by omega⟩
      cases m with
      | zero =>
        refine ⟨0, iter_dead 0 d ?_⟩
        rw [iter, fwdInit_eq hv (fun s hs => hc s (by omega)), if_pos hm, filt_impossible hm]
      | succ t0 =>
        have hp : 0 < h.evidence obs t0 :=
          lt_of_le_of_ne (evidence_nonneg hv obs t0) (Ne.symm (hmin t0 (by omega)))
        refine ⟨Real.log (h.evidence obs t0), iter_dead (t0 + 1) d ?_⟩
        rw [iter, iter_possible hv t0 (by omega) (fun s hs => hc s (by omega)) hp,
          step_possible hv (by omega) (fun s hs => hc s (by omega)) hp, if_pos hm, filt_impossible hm,
          zero_add]
    obtain ⟨l, hl⟩ := hdead
    rw [forward_eq] at ha
    simp only [List.getElem?_map, List.getElem?_range (Nat.lt_succ_self n), Option.map_some, hl,
      Option.some.injEq] at ha
    exact hk (by rw [← ha])
  · intro hp
    rw [(C41_forward h hv obs n hc hp).2]
    simp only [List.getElem?_map, List.getElem?_range (Nat.lt_succ_self n), Option.map_some,
      Option.some.injEq]
    by_contra hneg
    have hall : ∀ k, h.marginal obs n (Fin.last n) k / h.evidence obs n = 0 := by
      intro k
      by_contra hk
      exact hneg ⟨_, k, rfl, hk⟩
    have hs := h.sum_marginal obs n (Fin.last n)
    rw [Finset.sum_eq_zero] at hs
    · linarith
    · intro k _
      have := hall k
      rcases div_eq_zero_iff.1 this with h1 | h1
      · exact h1
      · linarith

/-- Witness for C42: a one-state model that cannot emit `false`; the sequence `true, false` has probability
zero but `forward` reports log-likelihood `log 1`. -/
noncomputable def exImpossible : HMM 1 Bool where
  initProbs := fun _ => 1
  transProbs := fun _ _ => 1
  obsProb := fun o _ => if o then 1 else 0
  initLogits := fun _ => 0
  transLogits := fun _ _ => 0
  obsLogProb := fun o _ => if o then 0 else ⊥

theorem C42_witness : ∃ obs : ℕ → Bool, exImpossible.Valid ∧ exImpossible.evidence obs 1 = 0 ∧
    (exImpossible.forward obs 2 2).1 = 0 := by
  have hv : exImpossible.Valid :=
    ⟨fun _ => by norm_num [exImpossible], by norm_num [exImpossible], fun _ _ => by norm_num [exImpossible],
      fun _ => by norm_num [exImpossible], fun o _ => by simp only [exImpossible]; split_ifs <;> norm_num⟩
  set obs : ℕ → Bool := fun t => t = 0 with hobs
  have m0 : ∀ k, exImpossible.marginal obs 0 (Fin.last 0) k = 1 := by
    intro k; rw [marginal_zero]; simp [exImpossible, hobs]
  have m1 : ∀ k, exImpossible.marginal obs 1 (Fin.last 1) k = 0 := by
    intro k; rw [marginal_succ]; simp [exImpossible, hobs]
  have e0 : exImpossible.evidence obs 0 = 1 := by
    rw [← exImpossible.sum_marginal obs 0 (Fin.last 0)]
    simp only [m0]; simp
  have e1 : exImpossible.evidence obs 1 = 0 := by
    rw [← exImpossible.sum_marginal obs 1 (Fin.last 1)]
    simp only [m1]; simp
  refine ⟨obs, hv, e1, ?_⟩
  have := (C42_impossible_is_finite exImpossible hv obs 1 0 (by omega) ?_ (by rw [e0]; norm_num) e1).2
  · rw [this, e0, Real.log_one]
  · intro t ht k
    interval_cases t
    · right; rw [predictive, m0]; norm_num
    · left; rw [predictive, m1, zero_div]

/-! ## C43: smoothing -/

/-- **C43 (backward).** Row `t` of `backward` is `p(x_{t+1..n} | z_t = ·)` divided by a positive constant
that does not depend on the state (1 for the last row, the sum over states otherwise). -/
theorem C43_backward (h : HMM K O) (hv : h.Valid) (obs : ℕ → O) (n : ℕ)
    (hc : h.NoClampBackward obs n) (hp : 0 < h.evidence obs n) :
    (h.backward obs (n + 1) (n + 1) = (List.range (n + 1)).map fun t k =>
      h.future obs t (n - t) k / (if t = n then 1 else ∑ j, h.future obs t (n - t) j)) ∧
    ∀ t ≤ n, 0 < (if t = n then 1 else ∑ j, h.future obs t (n - t) j) := by
  constructor
  · rw [backward_eq]
    apply List.map_congr_left
    intro t ht
    rw [List.mem_range] at ht
    rw [bIter_full hv hc hp (n - t) (by omega)]
    funext k
    rw [show n - (n - t) = t by omega]
    rfl
  · intro t ht
    exact futureNorm_pos hv ht hp

/-- **C43.** `forward_backward` on a full sequence: `gamma[t] = p(z_t | x_{0..n})`, each row sums to one, and
the log-likelihood is `log p(x_{0..n})`. -/
theorem C43_forward_backward (h : HMM K O) (hv : h.Valid) (obs : ℕ → O) (n : ℕ)
    (hc : h.NoClampForward obs (n + 1)) (hb : h.NoClampBackward obs n) (hs : h.NoClampSmooth obs n)
    (hp : 0 < h.evidence obs n) :
    let r := h.forwardBackward obs (n + 1) (n + 1)
    r.2.2.2 = Real.log (h.evidence obs n) ∧
    r.1 = (h.forward obs (n + 1) (n + 1)).2 ∧ r.2.1 = h.backward obs (n + 1) (n + 1) ∧
    r.2.2.1.length = n + 1 ∧
    (∀ t (ht : t < n + 1), r.2.2.1[t]? =
      some fun k => h.marginal obs n ⟨t, ht⟩ k / h.evidence obs n) ∧
    ∀ g ∈ r.2.2.1, ∑ k, g k = 1 := by
  have hf := C41_forward h hv obs n hc hp
  have hbk := (C43_backward h hv obs n hb hp).1
  have key : (h.forwardBackward obs (n + 1) (n + 1)).2.2.1 =
      (List.range (n + 1)).map fun t => fun k =>
        h.marginal obs t (Fin.last t) k * h.future obs t (n - t) k / h.evidence obs n := by
    unfold forwardBackward
    simp only [hf.2, hbk, List.zipWith_map, List.zipWith_self, List.map_map]
    apply List.map_congr_left
    intro t ht
    rw [List.mem_range] at ht
    simp only [Function.comp]
    have hn := futureNorm_pos hv (n := n) (t := t) (by omega) hp
    have he := evidence_pos_of_le hv (t := t) (n := n) (by omega) hp
    have hev := h.evidence_split obs t (n - t)
    rw [show t + (n - t) = n by omega] at hev
    have hsum : ∑ k, h.marginal obs t (Fin.last t) k / h.evidence obs t *
        (h.future obs t (n - t) k / h.futureNorm obs n t) =
        h.evidence obs n / (h.evidence obs t * h.futureNorm obs n t) := by
      rw [hev, Finset.sum_div]
      exact Finset.sum_congr rfl fun k _ => div_mul_div_comm _ _ _ _
    have hne : h.evidence obs n / (h.evidence obs t * h.futureNorm obs n t) ≠ 0 :=
      (div_pos hp (mul_pos he hn)).ne'
    have := normalize_of_noClamp (e := eps) (fun k => h.marginal obs t (Fin.last t) k / h.evidence obs t *
        (h.future obs t (n - t) k / h.futureNorm obs n t))
        (by intro k; simpa [eps] using hs t (by omega) k)
    rw [hsum, if_neg hne] at this
    rw [show (if t = n then 1 else ∑ j, h.future obs t (n - t) j) = h.futureNorm obs n t from rfl, this]
    funext k
    simp only
    field_simp
  have hrow : ∀ t (ht : t < n + 1), (fun k => h.marginal obs t (Fin.last t) k * h.future obs t (n - t) k /
      h.evidence obs n) = fun k => h.marginal obs n ⟨t, ht⟩ k / h.evidence obs n := by
    intro t ht
    funext k
    congr 1
    rw [← marginal_split]
    have gen : ∀ n' (_ : n' = n) (h1 : t < n' + 1),
        h.marginal obs n' ⟨t, h1⟩ k = h.marginal obs n ⟨t, ht⟩ k := by rintro _ rfl _; rfl
    exact gen _ (by omega) _
  simp only
  refine ⟨hf.1, rfl, rfl, by rw [key]; simp, ?_, ?_⟩
  · intro t ht
    rw [key, List.getElem?_map, List.getElem?_range ht, Option.map_some, hrow t ht]
  · rw [key]
    simp only [List.mem_map, List.mem_range]
    rintro g ⟨t, ht, rfl⟩
    rw [hrow t ht, ← Finset.sum_div, sum_marginal, div_self hp.ne']

/-! ## C44: forward_backward with `length` -/

/-- **C44 is false for `forward_backward` (finding).** With any `length < seq_len` every backward row except
the last is identically zero, and *all* smoothing rows `gamma` are zero — also for `t < length`. -/
theorem C44_short_smoothing_is_zero (h : HMM K O) (hv : h.Valid) (obs : ℕ → O) (n length : ℕ)
    (h1 : 1 ≤ length) (h2 : length < n + 1) (hc : h.NoClampForward obs length)
    (hp : 0 < h.evidence obs (length - 1)) :
    (∀ t < n, (h.backward obs (n + 1) length)[t]? = some fun _ => 0) ∧
    ∀ g ∈ (h.forwardBackward obs (n + 1) length).2.2.1, ∀ k, g k = 0 := by
  have hf := (C44_forward_length h hv obs (n + 1) length h1 h2.le hc hp).2
  have hb : ∀ t < n, bIter h obs n length (n - t) = fun _ => 0 := by
    intro t ht
    obtain ⟨m, hm⟩ : ∃ m, n - t = m + 1 := ⟨n - t - 1, by omega⟩
    rw [hm, bIter_short h obs n length h2]
  constructor
  · intro t ht
    rw [backward_eq, List.getElem?_map, List.getElem?_range (by omega), Option.map_some, hb t ht]
  · unfold forwardBackward
    simp only [hf, backward_eq, List.zipWith_map, List.zipWith_self, List.map_map, List.mem_map,
      List.mem_range]
    rintro g ⟨t, ht, rfl⟩ k
    simp only [Function.comp]
    have hz : (fun k => (if t < length then h.marginal obs t (Fin.last t) k / h.evidence obs t else 0) *
        bIter h obs n length (n - t) k) = fun _ => 0 := by
      funext k
      rcases Nat.lt_or_ge t n with hlt | hge
      · rw [hb t hlt, mul_zero]
      · rw [if_neg (by omega), zero_mul]
    rw [hz, normalize_zero]

/-- Non-vacuity of the C44 finding: the example model, any sequence, any shorter length. -/
example (obs : ℕ → Bool) : ex.Valid ∧ 1 ≤ 3 ∧ 3 < 4 + 1 ∧ ex.NoClampForward obs 3 ∧
    0 < ex.evidence obs (3 - 1) :=
  ⟨ex_valid, by omega, by omega, ex_noClampForward obs _, by rw [ex_evidence]; positivity⟩

/-! ## C45: Viterbi -/

/-- **C45.** `viterbi` returns the state indices of a path of maximal joint probability with the
observations, for every sequence length (including 1) and with zero probabilities allowed. -/
theorem C45_viterbi [NeZero K] (h : HMM K O) (hv : h.Valid) (hl : h.LogConsistent) (obs : ℕ → O) (n : ℕ) :
    ∃ z : Fin (n + 1) → Fin K, h.viterbi obs (n + 1) = List.ofFn (fun t => (z t : ℕ)) ∧
      ∀ z' : Fin (n + 1) → Fin K, h.joint obs z' ≤ h.joint obs z := by
  set tr : Fin K → Fin K → EReal := fun i => logSoftmax (h.transLogits i) with htr
  set fst : Fin K → EReal := fun k => logSoftmax h.initLogits k + h.obsLogProb (obs 0) k with hfst
  have htr' : ∀ i j, tr i j = ENNReal.log (ENNReal.ofReal (h.transProbs i j)) := by
    intro i j
    obtain ⟨C, hC, hCl⟩ := hl.trans i
    exact logSoftmax_eq (hv.trans_nonneg i) (hv.trans_sum i) hC hCl j
  have hfst' : ∀ k, fst k = ENNReal.log (ENNReal.ofReal (h.initProbs k * h.obsProb (obs 0) k)) := by
    intro k
    obtain ⟨C, hC, hCl⟩ := hl.init
    simp only [hfst]
    rw [logSoftmax_eq hv.init_nonneg hv.init_sum hC hCl k, hl.obs, ENNReal.ofReal_mul (hv.init_nonneg k),
      ENNReal.log_mul_add]
  have hsc := fun z => score_eq_log_joint tr h.obsLogProb fst hv obs htr' hl.obs hfst' n z
  have hvit : h.viterbi obs (n + 1) = vPath (vTab tr h.obsLogProb fst obs n).2
      (argmax (vTab tr h.obsLogProb fst obs n).1) := by
    unfold viterbi
    cases n with
    | zero => simp [vPath, vTab, scan, scanRev, hfst]
    | succ n =>
      simp only [show n + 1 + 1 ≠ 1 by omega, if_false, List.tail_cons, Nat.add_sub_cancel]
      rfl
  obtain ⟨z, h1, h2, h3⟩ := path_score tr h.obsLogProb fst obs n
    (argmax (vTab tr h.obsLogProb fst obs n).1)
  refine ⟨z, hvit.trans h2, fun z' => ?_⟩
  have hle : score tr h.obsLogProb fst obs z' ≤ score tr h.obsLogProb fst obs z := by
    rw [h3]
    exact (score_le tr h.obsLogProb fst obs n z').trans (le_argmax _ _)
  rw [hsc, hsc, ENNReal.log_le_log_iff] at hle
  rwa [ENNReal.ofReal_le_ofReal_iff (joint_nonneg hv obs z)] at hle

theorem ex_logConsistent : ex.LogConsistent where
  init := ⟨1, one_pos, fun k => by simp [ex]⟩
  trans := fun i => ⟨1, one_pos, fun k => by simp [ex]⟩
  obs := fun o k => rfl

/-- Non-vacuity of C45 (also with a zero-probability, `-inf`, observation). -/
example : ex.Valid ∧ ex.LogConsistent ∧ exImpossible.LogConsistent :=
  ⟨ex_valid, ex_logConsistent, ⟨⟨1, one_pos, fun k => by simp [exImpossible]⟩,
    fun _ => ⟨1, one_pos, fun k => by simp [exImpossible]⟩,
    fun o k => by cases o <;> simp [exImpossible]⟩⟩

/-! ## C46: sampling and constructor -/

/-- **C46 (structure).** For every outcome of the draws: `seq_len` states and observations; the first state
is the initial draw, each later state is the transition draw at its predecessor, each observation the
observation draw at its state. -/
theorem C46_sample_structure (a : Fin K) (T : ℕ → Fin K → Fin K) (D : ℕ → Fin K → O) (n : ℕ) :
    ∃ s : ℕ → Fin K, s 0 = a ∧ (∀ t, s (t + 1) = T t (s t)) ∧
      (sample a T D (n + 1)).1 = (List.range (n + 1)).map s ∧
      (sample a T D (n + 1)).2 = (List.range (n + 1)).map fun t => D t (s t) :=
  ⟨sState a T, rfl, fun _ => rfl, by rw [sample_eq], by rw [sample_eq]⟩

/-- **C46 (law).** If the keys are independent and each component sampler has the right marginal law, the
returned pair (states, observations) has exactly the joint law of the HMM. `ΩI`, `ΩT`, `ΩO` are arbitrary
finite key spaces with weights. -/
theorem C46_sample_law {ΩI ΩT ΩO : Type} [Fintype ΩI] [Fintype ΩT] [Fintype ΩO] [DecidableEq O]
    (h : HMM K O) (wI : ΩI → ℝ) (wT : ΩT → ℝ) (wO : ΩO → ℝ)
    (drawI : ΩI → Fin K) (drawT : ΩT → Fin K → Fin K) (drawO : ΩO → Fin K → O)
    (hI : ∀ k, ∑ ω, (if drawI ω = k then wI ω else 0) = h.initProbs k)
    (hT : ∀ i j, ∑ ω, (if drawT ω i = j then wT ω else 0) = h.transProbs i j)
    (hO : ∀ k o, ∑ ω, (if drawO ω k = o then wO ω else 0) = h.obsProb o k)
    (n : ℕ) (obs : ℕ → O) (z : Fin (n + 1) → Fin K) :
    (∑ ωI, ∑ ωT : Fin n → ΩT, ∑ ωO : Fin (n + 1) → ΩO,
      if sample (drawI ωI) (fun t i => if ht : t < n then drawT (ωT ⟨t, ht⟩) i else i)
          (fun t k => if ht : t < n + 1 then drawO (ωO ⟨t, ht⟩) k else obs 0) (n + 1) =
          (List.ofFn z, List.ofFn fun t : Fin (n + 1) => obs t)
      then wI ωI * (∏ t, wT (ωT t)) * ∏ t, wO (ωO t) else 0) = h.joint obs z := by
  have step : ∀ (ωI : ΩI) (ωT : Fin n → ΩT) (ωO : Fin (n + 1) → ΩO),
      (if sample (drawI ωI) (fun t i => if ht : t < n then drawT (ωT ⟨t, ht⟩) i else i)
          (fun t k => if ht : t < n + 1 then drawO (ωO ⟨t, ht⟩) k else obs 0) (n + 1) =
          (List.ofFn z, List.ofFn fun t : Fin (n + 1) => obs t)
      then wI ωI * (∏ t, wT (ωT t)) * ∏ t, wO (ωO t) else 0) =
      (if drawI ωI = z 0 then wI ωI else 0) *
      ((∏ t : Fin n, if drawT (ωT t) (z t.castSucc) = z t.succ then wT (ωT t) else 0) *
        ∏ t : Fin (n + 1), if drawO (ωO t) (z t) = obs t then wO (ωO t) else 0) := by
    intro ωI ωT ωO
    rw [Fintype.prod_ite_zero, Fintype.prod_ite_zero]
    have := sample_eq_iff (drawI ωI) (fun t i => if ht : t < n then drawT (ωT ⟨t, ht⟩) i else i)
          (fun t k => if ht : t < n + 1 then drawO (ωO ⟨t, ht⟩) k else obs 0) n z (fun t => obs t)
    simp only [Fin.is_lt, dif_pos, Fin.eta] at this
    simp only [this]
    by_cases e1 : drawI ωI = z 0 <;>
      by_cases e2 : ∀ t : Fin n, drawT (ωT t) (z t.castSucc) = z t.succ <;>
      by_cases e3 : ∀ t : Fin (n + 1), drawO (ωO t) (z t) = obs t <;>
      simp [e1, e2, e3, mul_assoc]
  simp only [step, ← Finset.mul_sum, ← Finset.sum_mul]
  rw [joint, hI]
  have p1 : ∑ ωT : Fin n → ΩT, ∏ t, (if drawT (ωT t) (z t.castSucc) = z t.succ then wT (ωT t) else 0) =
      ∏ t : Fin n, h.transProbs (z t.castSucc) (z t.succ) := by
    simp only [← hT]
    rw [Finset.prod_univ_sum, Fintype.piFinset_univ]
  have p2 : ∑ ωO : Fin (n + 1) → ΩO, ∏ t, (if drawO (ωO t) (z t) = obs t then wO (ωO t) else 0) =
      ∏ t : Fin (n + 1), h.obsProb (obs t) (z t) := by
    simp only [← hO]
    rw [Finset.prod_univ_sum, Fintype.piFinset_univ]
  rw [p1, p2, mul_assoc]

/-- Non-vacuity of the sampling law: key spaces realising the fair two-state example's initial and
transition laws. -/
example : ∃ (wI : Fin 2 → ℝ) (drawI : Fin 2 → Fin 2) (drawT : Fin 2 → Fin 2 → Fin 2),
    (∀ k, ∑ ω, (if drawI ω = k then wI ω else 0) = ex.initProbs k) ∧
    (∀ i j, ∑ ω, (if drawT ω i = j then wI ω else 0) = ex.transProbs i j) :=
  ⟨fun _ => 1 / 2, fun ω => ω, fun ω _ => ω, fun k => by simp [ex], fun i j => by simp [ex]⟩

/-- **C46 (constructor).** The constructor accepts exactly integer-valued unbatched initial and
`(N,)`-batched transition distributions over the same `N` categories with an `(N,)`-batched observation
distribution; TypeError is for dtypes, ValueError for shapes. -/
theorem C46_constructor (i t : DistInfo) (ob : List ℕ) :
    (mk? i t ob = .ok i.numCategories ↔
      i.intDtype = true ∧ t.intDtype = true ∧ i.batchShape = [] ∧ ob = [i.numCategories] ∧
      t.batchShape = [i.numCategories] ∧ t.numCategories = i.numCategories) ∧
    (mk? i t ob = .error .typeError ↔ i.intDtype = false ∨ t.intDtype = false) ∧
    (∀ N, mk? i t ob = .ok N → N = i.numCategories) := by
  unfold mk?
  cases hi : i.intDtype <;> cases ht : t.intDtype <;> simp
  split_ifs <;> simp_all

example : mk? ⟨true, [], 3⟩ ⟨true, [3], 3⟩ [3] = .ok 3 ∧ mk? ⟨true, [], 3⟩ ⟨true, [3], 4⟩ [3] =
    .error .valueError := by decide

end HMM
end Distrax
