import Verif.Lemmas.FloatHMM

/-!
C76: the HMM recursions in floating point.  In a run without overflow, underflow or clamping, the relative errors of the filtering and
smoothing probabilities grow at most linearly in the length of the sequence (they do not double at every step, although every step divides
by a computed normaliser), and so does the error of the log-likelihood.
-/

namespace Distrax

open FX
open XR (fin)

variable {F : Fmt} {u η : ℝ} {K : ℕ} {O : Type} {h : FHMM F K O} {obs : ℕ → O} {S : ℕ → Option (Fin K) → (Fin K → FX F) → FX F}

section
variable (A : F.Acc u η)
include A

open FHMM

/-- Weights of one step, from rows that are close to the exact ones up to the factor `P`. -/
theorem weights_close (hK : 1 ≤ K) (hp : h.Proper) (hS : ∀ t o, IsSum (S t o)) {t m : ℕ} {a : Fin K → FX F} {P : ℝ} (hP : 0 < P)
    (a0 : ∀ k, 0 ≤ (a k).val)
    (hc : ∀ k, Close (perturb u) m ((a k).val * P) (h.exact.marginal obs t (Fin.last t) k))
    (hr : WeightsRegular u η h obs S (t + 1) a) (j : Fin K) :
    0 ≤ (h.weights obs S (t + 1) a j).val ∧
      Close (perturb u) (m + K + 1) ((h.weights obs S (t + 1) a j).val * P) (h.exact.marginal obs (t + 1) (Fin.last (t + 1)) j) := by
  have p1 := perturb_one_le A
  have c1 : ∀ i, _ := fun i => close_mul A (a0 i) (hp.trans_nonneg i j) (hr.product i j)
  obtain ⟨c2, n2⟩ := close_isSum A (hS (t + 1) (some j)) (fun i => a i * h.transProbs i j) (hr.sum_finite j) fun i => (c1 i).2
  obtain ⟨c3, n3⟩ := close_mul A (hp.obs_nonneg (obs (t + 1)) j) n2 (hr.weight j)
  refine ⟨n3, ?_⟩
  have d1 : Close (perturb u) (1 + m) (∑ i, (a i * h.transProbs i j).val * P)
      (∑ i, h.exact.marginal obs t (Fin.last t) i * (h.transProbs i j).val) := by
    refine Close.sum _ fun i => ?_
    have x1 := (c1 i).1.mulRight hP.le
    have x2 := (hc i).mulRight (hp.trans_nonneg i j)
    rw [show (a i).val * (h.transProbs i j).val * P = (a i).val * P * (h.transProbs i j).val by ring] at x1
    exact x1.trans p1 x2
  have d2 := (c2.mulRight hP.le)
  rw [Finset.sum_mul] at d2
  have d3 := (d2.trans p1 d1).mulLeft (hp.obs_nonneg (obs (t + 1)) j)
  have d4 := c3.mulRight hP.le
  rw [mul_assoc] at d4
  have d5 := d4.trans p1 d3
  rw [HMM.marginal_succ]
  rw [show 1 + (K - 1 + (1 + m)) = m + K + 1 by omega] at d5
  exact d5

theorem isSum_pos {s : (Fin K → FX F) → FX F} (hs : IsSum s) : 1 ≤ K := by
  have := sums_length (hs fun _ => lit 0)
  rwa [List.length_ofFn] at this

/-- A normalised row adds up to one, up to rounding. -/
theorem normalized_sum (hK : 1 ≤ K) {r w : Fin K → ℝ} {c : ℝ} (c0 : 0 < c) (hc : Close (perturb u) (K - 1) c (∑ k, w k))
    (hr : ∀ k, Close (perturb u) 1 (r k * c) (w k)) : Close (perturb u) K (∑ k, r k) 1 := by
  have p1 := perturb_one_le A
  have a : Close (perturb u) 1 ((∑ k, r k) * c) (∑ k, w k) := by rw [Finset.sum_mul]; exact Close.sum _ hr
  have b := (a.trans p1 hc.symm).mulRight (inv_pos.2 c0).le
  rwa [mul_assoc, mul_inv_cancel₀ c0.ne', mul_one, show 1 + (K - 1) = K by omega] at b

/-- The invariant of the forward pass: with `P` the product of the computed normalisers. -/
theorem forward_invariant (hp : h.Proper) (hS : ∀ t o, IsSum (S t o)) {n length : ℕ} (hl : n < length) (hpos : 0 < h.exact.evidence obs n)
    {rows : List (Fin K → FX F)} (hr : ForwardRegular u η h obs S n rows) (hrow : ∀ t ≤ n, rowAt rows t = (fIter h obs S length t).1)
    {M : ℝ} (hM : ∀ t ≤ n, |Real.log (h.exact.evidence obs t)| ≤ M) :
    ∀ t ≤ n, ∃ P : ℝ, 0 < P ∧ (∀ k, ((fIter h obs S length t).1 k).finite ∧ 0 ≤ ((fIter h obs S length t).1 k).val ∧
        Close (perturb u) (2 + t * (K + 2)) (((fIter h obs S length t).1 k).val * P) (h.exact.marginal obs t (Fin.last t) k)) ∧
      Close (perturb u) (t * (K + 2) + K) P (h.exact.evidence obs t) ∧
      Close (perturb u) K (∑ k, ((fIter h obs S length t).1 k).val) 1 ∧
      ((fIter h obs S length t).2.finite → |(fIter h obs S length t).2.val - Real.log P| ≤
        (t + 1) * u * (1 + u) ^ (t + 1) * (3 * M + 3 * ((n + 1) * (K + 2) * Real.log (perturb u)) + 1)) := by
  have p1 := perturb_one_le A
  have u0 := A.u0
  have hK := isSum_pos A (hS 0 none)
  have lp : 0 ≤ Real.log (perturb u) := Real.log_nonneg p1
  set B := (n + 1) * (K + 2) * Real.log (perturb u) with hB
  have B0 : 0 ≤ B := by positivity
  have M0 : 0 ≤ M := (_root_.abs_nonneg _).trans (hM 0 (Nat.zero_le _))
  have logP : ∀ t ≤ n, ∀ P : ℝ, 0 < P → Close (perturb u) (t * (K + 2) + K) P (h.exact.evidence obs t) → |Real.log P| ≤ M + B := by
    intro t ht P P0 hc
    have e := exact_evidence_pos hp ht hpos
    have l := hc.log p1 P0 e
    have : ((t * (K + 2) + K : ℕ) : ℝ) * Real.log (perturb u) ≤ B := by
      rw [hB]
      refine mul_le_mul_of_nonneg_right ?_ lp
      have : ((t * (K + 2) + K : ℕ) : ℝ) ≤ ((n + 1) * (K + 2) : ℕ) := by
        refine Nat.cast_le.2 ?_
        have := Nat.mul_le_mul_right (K + 2) ht
        nlinarith
      push_cast at this ⊢; linarith
    have := hM t ht
    have := abs_sub_abs_le_abs_sub (Real.log P) (Real.log (h.exact.evidence obs t))
    linarith
  intro t
  induction t with
  | zero =>
    intro _
    have w : ∀ k, Close (perturb u) 1 (h.initWeights obs k).val ((h.initProbs k).val * (h.obsProb (obs 0) k).val) ∧
        0 ≤ (h.initWeights obs k).val := fun k => close_mul A (hp.init_nonneg k) (hp.obs_nonneg (obs 0) k) (hr.first k)
    have cl : ∀ k, Close (perturb u) 1 (h.initWeights obs k).val (h.exact.marginal obs 0 (Fin.last 0) k) := by
      intro k; rw [HMM.marginal_zero]; exact (w k).1
    have cs : Close (perturb u) 1 (∑ k, (h.initWeights obs k).val) (h.exact.evidence obs 0) := by
      rw [← h.exact.sum_marginal obs 0 (Fin.last 0)]; exact Close.sum _ cl
    have ev := exact_evidence_pos hp (Nat.zero_le n) hpos
    obtain ⟨e, c0, cc, ck⟩ := close_normalize A (hS 0 none) (fun k => (w k).2) hr.first_normalize (cs.pos p1 ev)
    have cP : Close (perturb u) (0 * (K + 2) + K) (S 0 none (h.initWeights obs)).val (h.exact.evidence obs 0) := by
      have := cc.trans p1 cs
      rwa [show K - 1 + 1 = 0 * (K + 2) + K by omega] at this
    refine ⟨(S 0 none (h.initWeights obs)).val, c0, fun k => ⟨(ck k).1, (ck k).2.1, ?_⟩, cP, normalized_sum A hK c0 cc fun k => (ck k).2.2, fun hf => ?_⟩
    · have := (ck k).2.2.trans p1 (cl k)
      rw [show 2 + 0 * (K + 2) = 1 + 1 by omega]; exact this
    · have hll : (fIter h obs S length 0).2 = FX.log (S 0 none (h.initWeights obs)) := by
        show FX.log (FHMM.normalize (S 0 none) (h.initWeights obs)).2 = _
        rw [e]
      rw [hll]
      have := (within_val.1 (wu_log A (fin_val hr.first_normalize.sum_finite) c0)).2
      refine this.trans ?_
      have lb := logP 0 (Nat.zero_le _) _ c0 cP
      have : u * (|Real.log (S 0 none (h.initWeights obs)).val| + 1 / 256) ≤ u * (3 * M + 3 * B + 1) :=
        mul_le_mul_of_nonneg_left (by linarith) u0
      have g : u * (3 * M + 3 * B + 1) ≤ u * (1 + u) * (3 * M + 3 * B + 1) := by
        nlinarith [mul_nonneg (mul_nonneg u0 u0) (show 0 ≤ 3 * M + 3 * B + 1 by linarith)]
      simp only [Nat.cast_zero, zero_add, one_mul, pow_one]
      linarith
  | succ t ih =>
    intro ht
    obtain ⟨P, P0, hk, hc, -, hll⟩ := ih (by omega)
    have hrt := hr.step t (by omega)
    have hnt := hr.step_normalize t (by omega)
    rw [hrow t (by omega)] at hrt hnt
    have w : ∀ j, _ := fun j => weights_close A hK hp hS P0 (fun k => (hk k).2.1) (fun k => (hk k).2.2) hrt j
    set v := h.weights obs S (t + 1) (fIter h obs S length t).1 with hv
    have cs : Close (perturb u) (2 + t * (K + 2) + K + 1) ((∑ j, (v j).val) * P) (h.exact.evidence obs (t + 1)) := by
      rw [← h.exact.sum_marginal obs (t + 1) (Fin.last (t + 1)), Finset.sum_mul]; exact Close.sum _ fun j => (w j).2
    have ev := exact_evidence_pos hp ht hpos
    have sp : 0 < ∑ j, (v j).val := by
      have := cs.pos p1 ev
      exact (pos_iff_pos_of_mul_pos this).2 P0
    obtain ⟨e, c0, cc, ck⟩ := close_normalize A (hS (t + 1) none) (fun k => (w k).1) hnt sp
    have cP : Close (perturb u) ((t + 1) * (K + 2) + K) ((S (t + 1) none v).val * P) (h.exact.evidence obs (t + 1)) := by
      have := (cc.mulRight P0.le).trans p1 cs
      rwa [show K - 1 + (2 + t * (K + 2) + K + 1) = (t + 1) * (K + 2) + K by
        have : K - 1 + 1 = K := by omega
        nlinarith] at this
    have hit := fIter_succ (h := h) (obs := obs) (S := S) (length := length) (t := t) (by omega)
    rw [← hv] at hit
    refine ⟨(S (t + 1) none v).val * P, mul_pos c0 P0, fun k => ?_, cP, by rw [hit]; exact normalized_sum A hK c0 cc fun k => (ck k).2.2, fun hf => ?_⟩
    · rw [hit]
      refine ⟨(ck k).1, (ck k).2.1, ?_⟩
      have := ((ck k).2.2.mulRight P0.le).trans p1 (w k).2
      rw [← mul_assoc]
      rwa [show 1 + (2 + t * (K + 2) + K + 1) = 2 + (t + 1) * (K + 2) by ring] at this
    · have h2 : (fIter h obs S length (t + 1)).2 = FX.log (S (t + 1) none v) + (fIter h obs S length t).2 := by rw [hit, e]
      rw [h2] at hf ⊢
      have fl := (add_fin hf).2
      have f1 := (add_fin hf).1
      have i := hll fl
      have l1 := (within_val.1 (wu_log A (fin_val hnt.sum_finite) c0)).2
      have l2 : |(FX.log (S (t + 1) none v) + (fIter h obs S length t).2).val -
          ((FX.log (S (t + 1) none v)).val + (fIter h obs S length t).2.val)| ≤
          u * |(FX.log (S (t + 1) none v)).val + (fIter h obs S length t).2.val| :=
        A.addErr (rep (fin_val f1)) (rep (fin_val fl)) (by
          rw [← fin_val hf, add_val, fin_val f1, fin_val fl, XR.fin_add]; rfl)
      have q1 := logP t (by omega) P P0 hc
      have q2 := logP (t + 1) ht _ (mul_pos c0 P0) cP
      rw [Real.log_mul c0.ne' P0.ne'] at q2 ⊢
      generalize (FX.log (S (t + 1) none v) + (fIter h obs S length t).2).val = r at l2 ⊢
      generalize (FX.log (S (t + 1) none v)).val = a at l1 l2
      generalize (fIter h obs S length t).2.val = b at i l2
      generalize Real.log (S (t + 1) none v).val = a' at l1 q2 ⊢
      generalize Real.log P = b' at i q1 q2 ⊢
      set Q := 3 * M + 3 * B + 1 with hQ
      have Q0 : 0 ≤ Q := by linarith
      set E := ((t : ℝ) + 1) * u * (1 + u) ^ (t + 1) * Q with hE
      have a1 : |a'| ≤ 2 * M + 2 * B := by
        have := abs_sub (a' + b') b'
        rw [add_sub_cancel_right] at this
        linarith
      have s1 : |a + b - (a' + b')| ≤ E + u * (2 * M + 2 * B + 1 / 256) := by
        have := abs_add_le (a - a') (b - b')
        rw [show a - a' + (b - b') = a + b - (a' + b') by ring] at this
        have : u * (|a'| + 1 / 256) ≤ u * (2 * M + 2 * B + 1 / 256) := mul_le_mul_of_nonneg_left (by linarith) u0
        linarith
      have s2 : |a + b| ≤ E + u * (2 * M + 2 * B + 1 / 256) + (M + B) := by
        have := abs_sub_abs_le_abs_sub (a + b) (a' + b')
        linarith
      have s3 : |r - (a' + b')| ≤ u * |a + b| + |a + b - (a' + b')| := by
        have := abs_add_le (r - (a + b)) (a + b - (a' + b'))
        rw [show r - (a + b) + (a + b - (a' + b')) = r - (a' + b') by ring] at this
        linarith
      have s4 : |r - (a' + b')| ≤ (1 + u) * E + (1 + u) * u * Q := by
        have := mul_le_mul_of_nonneg_left s2 u0
        have t1 : u * (M + B) + (1 + u) * (u * (2 * M + 2 * B + 1 / 256)) ≤ (1 + u) * u * Q := by
          rw [hQ]
          have : 0 ≤ u * u * (M + B) := by positivity
          nlinarith [mul_nonneg u0 u0]
        nlinarith
      refine s4.trans ?_
      have pw : (1 + u) ≤ (1 + u) ^ (t + 1 + 1) := by
        calc (1 + u) = (1 + u) ^ 1 := (pow_one _).symm
          _ ≤ _ := pow_le_pow_right₀ (by linarith) (by omega)
      have : (1 + u) * u * Q ≤ (1 + u) ^ (t + 1 + 1) * u * Q := by
        refine mul_le_mul_of_nonneg_right (mul_le_mul_of_nonneg_right pw u0) Q0
      rw [hE]
      push_cast
      rw [show ((t : ℝ) + 1 + 1) * u * (1 + u) ^ (t + 1 + 1) * Q =
        (1 + u) * ((t + 1) * u * (1 + u) ^ (t + 1) * Q) + (1 + u) ^ (t + 1 + 1) * u * Q by ring]
      linarith

/-- Filtering in floating point.  In a run on the first `n + 1` observations of a padded sequence of any length, without overflow, underflow
or clamping, every returned `alpha[t]` is within `2(t+1)(K+2)` relative perturbations of size `1/(1-2u)` of the exact filtering posterior
`p(z_t | x_0..x_t)` of the model with the given (rounded) parameters, and adds up to one up to `K` perturbations. -/
theorem C76_forward (hp : h.Proper) (hS : ∀ t o, IsSum (S t o)) {n T : ℕ} (hT : n + 1 ≤ T) (hpos : 0 < h.exact.evidence obs n)
    (hr : ForwardRegular u η h obs S n (h.forward obs S T (n + 1)).2) (t : ℕ) (ht : t ≤ n) :
    (∀ k, (rowAt (h.forward obs S T (n + 1)).2 t k).finite ∧
      Close (perturb u) (2 * (t + 1) * (K + 2)) (rowAt (h.forward obs S T (n + 1)).2 t k).val
        (h.exact.marginal obs t (Fin.last t) k / h.exact.evidence obs t)) ∧
    Close (perturb u) K (∑ k, (rowAt (h.forward obs S T (n + 1)).2 t k).val) 1 := by
  obtain ⟨m, rfl⟩ := Nat.exists_eq_add_of_le hT
  have p1 := perturb_one_le A
  rw [show n + 1 + m = (n + m) + 1 by ring] at hr ⊢
  rw [rowAt_forward (show t ≤ n + m by omega)]
  obtain ⟨P, P0, hk, hc, hs, -⟩ := forward_invariant A hp hS (length := n + 1) (by omega) hpos hr (fun t ht => rowAt_forward (by omega))
    (M := ∑ t ∈ Finset.range (n + 1), |Real.log (h.exact.evidence obs t)|)
    (fun t ht => Finset.single_le_sum (f := fun t => |Real.log (h.exact.evidence obs t)|) (fun _ _ => _root_.abs_nonneg _)
      (Finset.mem_range.2 (by omega))) t ht
  refine ⟨fun k => ⟨(hk k).1, ?_⟩, hs⟩
  have ev := exact_evidence_pos hp ht hpos
  have m0 := exact_marginal_nonneg (obs := obs) hp t (Fin.last t) k
  have d := Close.div p1 (mul_nonneg (hk k).2.1 P0.le) m0 P0 ev (hk k).2.2 hc
  rw [mul_div_cancel_right₀ _ P0.ne'] at d
  exact d.mono p1 (hk k).2.1 (div_nonneg m0 ev.le) (by nlinarith)

/-- The log-likelihood in floating point: within `B + (n+1) u (1+u)^(n+1) (3M + 3B + 1)` of the exact log-likelihood of the first `n + 1`
observations, where `B = (n+1)(K+2) log(1/(1-2u))` and `M` bounds the exact log-likelihoods of the prefixes. -/
theorem C76_log_likelihood (hp : h.Proper) (hS : ∀ t o, IsSum (S t o)) {n : ℕ} (hpos : 0 < h.exact.evidence obs n)
    (hr : ForwardRegular u η h obs S n (h.forward obs S (n + 1) (n + 1)).2) (hf : (h.forward obs S (n + 1) (n + 1)).1.finite)
    {M : ℝ} (hM : ∀ t ≤ n, |Real.log (h.exact.evidence obs t)| ≤ M) :
    |(h.forward obs S (n + 1) (n + 1)).1.val - Real.log (h.exact.evidence obs n)| ≤
      (n + 1) * (K + 2) * Real.log (perturb u) +
        (n + 1) * u * (1 + u) ^ (n + 1) * (3 * M + 3 * ((n + 1) * (K + 2) * Real.log (perturb u)) + 1) := by
  have p1 := perturb_one_le A
  obtain ⟨P, P0, -, hc, -, hl⟩ := forward_invariant A hp hS (length := n + 1) (by omega) hpos hr (fun t ht => rowAt_forward (by omega)) hM n le_rfl
  have e : (h.forward obs S (n + 1) (n + 1)).1 = (fIter h obs S (n + 1) n).2 := by rw [forward_eq]
  rw [e] at hf ⊢
  have l1 := hl hf
  have l2 := hc.log p1 P0 hpos
  have lp : 0 ≤ Real.log (perturb u) := Real.log_nonneg p1
  have l3 : ((n * (K + 2) + K : ℕ) : ℝ) * Real.log (perturb u) ≤ (n + 1) * (K + 2) * Real.log (perturb u) :=
    mul_le_mul_of_nonneg_right (by push_cast; nlinarith) lp
  have := abs_add_le ((fIter h obs S (n + 1) n).2.val - Real.log P) (Real.log P - Real.log (h.exact.evidence obs n))
  rw [sub_add_sub_cancel] at this
  linarith

omit A in
theorem sums_zero {xs : List (FX F)} {s : FX F} (h : SumsTo xs s) (h0 : ∀ x ∈ xs, x = lit 0) : s = lit 0 := by
  induction h with
  | one a => exact h0 a (List.mem_singleton_self a)
  | add _ _ iha ihb =>
    rw [iha fun x hx => h0 x (List.mem_append_left _ hx), ihb fun x hx => h0 x (List.mem_append_right _ hx)]
    apply Subtype.ext
    rw [add_val, lit_zero, XR.fin_add, add_zero]; exact F.rd_zero
  | perm p _ ih => exact ih fun x hx => h0 x (p.mem_iff.1 hx)

omit A in
/-- Beyond `length` the step returns a row of zeros and leaves the log-likelihood unchanged. -/
theorem forwardStep_padding (hS : ∀ t o, IsSum (S t o)) {length t : ℕ} (ht : length ≤ t) (c : (Fin K → FX F) × FX F) :
    forwardStep h obs S length c t = ((fun _ => lit 0, c.2), fun _ => lit 0) := by
  have z : S t none (fun _ => lit 0) = lit 0 := sums_zero (hS t none _) (by
    intro x hx; obtain ⟨k, rfl⟩ := (List.mem_ofFn' _ _).1 hx; rfl)
  have e : FHMM.normalize (S t none) (fun _ => lit 0) = (fun _ => lit 0, lit 1) := by
    have e1 : FHMM.normalize (S t none) (fun _ => lit 0) = (fun _ => lit 0 / lit 1, lit 1) := by
      simp only [FHMM.normalize, whr, eq_self_iff_true, if_true, z]
    rw [e1, zero_div' lit_one one_pos]
  have e2 : (FX.log (lit 1) : FX F) + c.2 = c.2 := by rw [FX.log_one, zero_add']
  have nl : ¬ t < length := by omega
  simp only [forwardStep, if_neg nl, e, e2]

omit A in
/-- Padding: rows beyond `length` are zero and the log-likelihood is that of the sequence cut at `length`, bit by bit, whatever the
padded observations and whatever happened before. -/
theorem C76_padding (hS : ∀ t o, IsSum (S t o)) {n m : ℕ} :
    (h.forward obs S (n + 1 + m) (n + 1)).1 = (h.forward obs S (n + 1) (n + 1)).1 ∧
    (h.forward obs S (n + 1 + m) (n + 1)).2 = (h.forward obs S (n + 1) (n + 1)).2 ++ List.replicate m fun _ => lit 0 := by
  have st : ∀ m, fIter h obs S (n + 1) (n + (m + 1)) = (fun _ => lit 0, (fIter h obs S (n + 1) n).2) := by
    intro m
    induction m with
    | zero =>
      show (forwardStep h obs S (n + 1) (fIter h obs S (n + 1) n) (1 + n)).1 = _
      rw [forwardStep_padding hS (by omega)]
    | succ m ih =>
      show (forwardStep h obs S (n + 1) (fIter h obs S (n + 1) (n + (m + 1))) (1 + (n + (m + 1)))).1 = _
      rw [forwardStep_padding hS (by omega), ih]
  rw [show n + 1 + m = (n + m) + 1 by ring, forward_eq, forward_eq]
  constructor
  · cases m with
    | zero => rfl
    | succ m => rw [show n + (m + 1) = n + (m + 1) from rfl, st m]
  · rw [show n + m + 1 = (n + 1) + m by ring, List.range_add, List.map_append]
    refine congrArg (_ ++ ·) ?_
    rw [List.map_map, List.eq_replicate_iff]
    refine ⟨by rw [List.length_map, List.length_range], ?_⟩
    intro b hb
    obtain ⟨x, -, rfl⟩ := List.mem_map.1 hb
    show (fIter h obs S (n + 1) (n + 1 + x)).1 = _
    rw [show n + 1 + x = n + (x + 1) by ring, st x]

end

end Distrax
