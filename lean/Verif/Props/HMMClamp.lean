import Verif.Props.HMM

/-!
Properties C41, C43, C44 without the no-clamp guards: what `forward` and `forward_backward` return when the
clamp at `1e-15` in `_normalize` is hit.
-/

namespace Distrax
namespace HMM

variable {K : ℕ} {O : Type}

/-- What the clamp does to one weight. -/
noncomputable def clampAt (e v : ℝ) : ℝ := if v = 0 then 0 else if v < e then e else v

theorem clampAt_ge {e v : ℝ} : v ≤ clampAt e v := by
  unfold clampAt; split_ifs with h1 h2 <;> linarith

theorem clampAt_le {e v : ℝ} (he : 0 ≤ e) (hv : 0 ≤ v) : clampAt e v ≤ v + e := by
  unfold clampAt; split_ifs with h1 h2 <;> linarith

theorem clampAt_eq_zero {e v : ℝ} (he : 0 < e) : clampAt e v = 0 ↔ v = 0 := by
  unfold clampAt; split_ifs with h1 h2
  · simp [h1]
  · simp [h1, he.ne']
  · simp [h1]

theorem normalize_mul {e : ℝ} (u : Fin K → ℝ) (hu : ∃ k, u k ≠ 0) (h0 : ∀ k, 0 ≤ u k) :
    (normalize e u).2 = ∑ k, clampAt e (u k) ∧
    ∀ k, (normalize e u).1 k * (normalize e u).2 = clampAt e (u k) := by
  have hs : (∑ k, clampAt e (u k)) ≠ 0 := by
    obtain ⟨k, hk⟩ := hu
    have hp : 0 < ∑ k, clampAt e (u k) :=
      Finset.sum_pos' (fun i _ => (h0 i).trans clampAt_ge)
        ⟨k, Finset.mem_univ k, (lt_of_le_of_ne (h0 k) (Ne.symm hk)).trans_le clampAt_ge⟩
    exact hp.ne'
  have h2 : (normalize e u).2 = ∑ k, clampAt e (u k) := by
    simp only [normalize]; exact if_neg hs
  refine ⟨h2, fun k => ?_⟩
  have h1 : (normalize e u).1 k = clampAt e (u k) / (normalize e u).2 := by
    simp only [normalize, clampAt]
  rw [h1, h2, div_mul_cancel₀ _ hs]

/-- The forward scan without guards: the unnormalised weights `alpha_t * exp(log_ll_t)` dominate the true joint
weights, vanish exactly where those do, and with observation probabilities at most one exceed them by at most
`(1 + K * 1e-15)^(t+1) - 1` in total. -/
theorem iter_clamped {h : HMM K O} (hv : h.Valid) {obs : ℕ → O} {length : ℕ} (n : ℕ) (hl : n < length)
    (hp : 0 < h.evidence obs n) :
    let s := iter (forwardStep h obs length) (fwdInit h obs) 1 n
    (∀ k, h.marginal obs n (Fin.last n) k ≤ s.1 k * Real.exp s.2) ∧
    (∀ k, s.1 k = 0 ↔ h.marginal obs n (Fin.last n) k = 0) ∧
    (∀ k, 0 ≤ s.1 k) ∧ ∑ k, s.1 k = 1 ∧
    ((∀ o k, h.obsProb o k ≤ 1) → Real.exp s.2 ≤ h.evidence obs n + ((1 + K * eps) ^ (n + 1) - 1)) := by
  have he := eps_pos
  -- one normalisation step
  have key : ∀ (u m : Fin K → ℝ) (l E D : ℝ), (∀ k, 0 ≤ u k) → (∀ k, 0 ≤ m k) → (∃ k, 0 < m k) →
      (∀ k, m k ≤ u k * Real.exp l) → (∀ k, u k = 0 ↔ m k = 0) →
      (∀ k, m k ≤ (normalize eps u).1 k * Real.exp (Real.log (normalize eps u).2 + l)) ∧
      (∀ k, (normalize eps u).1 k = 0 ↔ m k = 0) ∧
      (∀ k, 0 ≤ (normalize eps u).1 k) ∧ ∑ k, (normalize eps u).1 k = 1 ∧
      (Real.exp (Real.log (normalize eps u).2 + l) ≤ (∑ k, u k) * Real.exp l + K * eps * Real.exp l) := by
    intro u m l E D hu hm ⟨k0, hk0⟩ hmu hz
    have hne : ∃ k, u k ≠ 0 := ⟨k0, fun h0 => hk0.ne' ((hz k0).1 h0)⟩
    obtain ⟨e2, e1⟩ := normalize_mul u hne hu
    have hc := normalize_snd_pos he u
    have hexp : Real.exp (Real.log (normalize eps u).2 + l) = (normalize eps u).2 * Real.exp l := by
      rw [Real.exp_add, Real.exp_log hc]
    have hz' : ∀ k, (normalize eps u).1 k = 0 ↔ m k = 0 := by
      intro k
      rw [← hz k, ← clampAt_eq_zero (v := u k) he, ← e1 k]
      simp [hc.ne']
    refine ⟨fun k => ?_, hz', (normalize_fst he u).1, ?_, ?_⟩
    · rw [hexp, ← mul_assoc, e1 k]
      exact (hmu k).trans (mul_le_mul_of_nonneg_right clampAt_ge (Real.exp_pos l).le)
    · rcases (normalize_fst he u).2 with h1 | h1
      · exact h1
      · exact absurd ((hz' k0).1 (h1 k0)) hk0.ne'
    · rw [hexp, e2, ← add_mul]
      refine mul_le_mul_of_nonneg_right ?_ (Real.exp_pos l).le
      calc ∑ k, clampAt eps (u k) ≤ ∑ k, (u k + eps) := Finset.sum_le_sum fun k _ => clampAt_le he.le (hu k)
        _ = _ := by rw [Finset.sum_add_distrib]; simp
  have pos : ∀ t ≤ n, ∃ k, 0 < h.marginal obs t (Fin.last t) k := by
    intro t ht
    by_contra hcon
    push Not at hcon
    have h1 := evidence_pos_of_le hv ht hp
    rw [← h.sum_marginal obs t (Fin.last t)] at h1
    exact absurd (Finset.sum_nonpos fun k _ => hcon k) (not_le.2 h1)
  induction n with
  | zero =>
    simp only [iter, fwdInit]
    have h0 : ∀ k, h.marginal obs 0 (Fin.last 0) k = h.initProbs k * h.obsProb (obs 0) k := fun k => by
      rw [marginal_zero]
    have hu : ∀ k, 0 ≤ h.initProbs k * h.obsProb (obs 0) k := fun k =>
      mul_nonneg (hv.init_nonneg k) (hv.obs_nonneg _ k)
    obtain ⟨a, b, c, d, e⟩ := key (fun k => h.initProbs k * h.obsProb (obs 0) k)
      (h.marginal obs 0 (Fin.last 0)) 0 0 0 hu (fun k => by rw [h0]; exact hu k) (pos 0 le_rfl)
      (fun k => by rw [h0]; simp) (fun k => by rw [h0])
    simp only [add_zero] at a e
    refine ⟨a, b, c, d, fun _ => e.trans (le_of_eq ?_)⟩
    have : ∑ k, h.initProbs k * h.obsProb (obs 0) k = h.evidence obs 0 := by
      rw [← h.sum_marginal obs 0 (Fin.last 0)]
      exact Finset.sum_congr rfl fun k _ => (h0 k).symm
    rw [this]
    simp
  | succ n ih =>
    have hp' := evidence_pos_of_le hv (Nat.le_succ n) hp
    obtain ⟨i1, i2, i3, i4, i5⟩ := ih (by omega) hp' (fun t ht => pos t (by omega))
    simp only [iter]
    generalize iter (forwardStep h obs length) (fwdInit h obs) 1 n = s at i1 i2 i3 i4 i5 ⊢
    obtain ⟨al, l⟩ := s
    simp only at i1 i2 i3 i4 i5
    simp only [forwardStep, Nat.add_comm 1 n, if_pos hl]
    have hm : ∀ k, h.marginal obs (n + 1) (Fin.last (n + 1)) k =
        h.obsProb (obs (n + 1)) k * ∑ i, h.marginal obs n (Fin.last n) i * h.transProbs i k := fun k => by
      rw [marginal_succ]
    have hmn : ∀ k, 0 ≤ h.marginal obs n (Fin.last n) k := fun k => marginal_nonneg hv obs n _ k
    have hu : ∀ k, 0 ≤ h.obsProb (obs (n + 1)) k * ∑ i, al i * h.transProbs i k := fun k =>
      mul_nonneg (hv.obs_nonneg _ k) (Finset.sum_nonneg fun i _ => mul_nonneg (i3 i) (hv.trans_nonneg i k))
    obtain ⟨a, b, c, d, e⟩ := key (fun j => h.obsProb (obs (n + 1)) j * ∑ i, al i * h.transProbs i j)
      (h.marginal obs (n + 1) (Fin.last (n + 1))) l 0 0 hu
      (fun k => marginal_nonneg hv obs (n + 1) _ k) (pos (n + 1) le_rfl)
      (fun k => by
        rw [hm, mul_assoc, Finset.sum_mul]
        refine mul_le_mul_of_nonneg_left (Finset.sum_le_sum fun i _ => ?_) (hv.obs_nonneg _ k)
        have := mul_le_mul_of_nonneg_right (i1 i) (hv.trans_nonneg i k)
        linarith)
      (fun k => by
        rw [hm, mul_eq_zero, mul_eq_zero,
          Finset.sum_eq_zero_iff_of_nonneg fun i _ => mul_nonneg (i3 i) (hv.trans_nonneg i k),
          Finset.sum_eq_zero_iff_of_nonneg fun i _ => mul_nonneg (hmn i) (hv.trans_nonneg i k)]
        simp only [mul_eq_zero, i2])
    refine ⟨a, b, c, d, fun hob => e.trans ?_⟩
    have i5 := i5 hob
    -- the excess before this step
    have hev : h.evidence obs n = ∑ i, h.marginal obs n (Fin.last n) i := (h.sum_marginal obs n (Fin.last n)).symm
    have hsum : (∑ k, h.obsProb (obs (n + 1)) k * ∑ i, al i * h.transProbs i k) * Real.exp l ≤
        h.evidence obs (n + 1) + (Real.exp l - h.evidence obs n) := by
      have e1 : h.evidence obs (n + 1) =
          ∑ k, h.obsProb (obs (n + 1)) k * ∑ i, h.marginal obs n (Fin.last n) i * h.transProbs i k := by
        rw [← h.sum_marginal obs (n + 1) (Fin.last (n + 1))]
        exact Finset.sum_congr rfl fun k _ => hm k
      have e2 : (∑ k, h.obsProb (obs (n + 1)) k * ∑ i, al i * h.transProbs i k) * Real.exp l - h.evidence obs (n + 1) =
          ∑ k, h.obsProb (obs (n + 1)) k * ∑ i, (al i * Real.exp l - h.marginal obs n (Fin.last n) i) * h.transProbs i k := by
        rw [e1, Finset.sum_mul, ← Finset.sum_sub_distrib]
        refine Finset.sum_congr rfl fun k _ => ?_
        rw [mul_assoc, ← mul_sub, Finset.sum_mul, ← Finset.sum_sub_distrib]
        congr 1
        exact Finset.sum_congr rfl fun i _ => by ring
      have e3 : (∑ k, h.obsProb (obs (n + 1)) k *
          ∑ i, (al i * Real.exp l - h.marginal obs n (Fin.last n) i) * h.transProbs i k) ≤
          ∑ k, ∑ i, (al i * Real.exp l - h.marginal obs n (Fin.last n) i) * h.transProbs i k := by
        refine Finset.sum_le_sum fun k _ => ?_
        have hn : 0 ≤ ∑ i, (al i * Real.exp l - h.marginal obs n (Fin.last n) i) * h.transProbs i k :=
          Finset.sum_nonneg fun i _ => mul_nonneg (sub_nonneg.2 (i1 i)) (hv.trans_nonneg i k)
        have := mul_le_mul_of_nonneg_right (hob (obs (n + 1)) k) hn
        linarith
      have e4 : (∑ k, ∑ i, (al i * Real.exp l - h.marginal obs n (Fin.last n) i) * h.transProbs i k) =
          Real.exp l - h.evidence obs n := by
        rw [Finset.sum_comm]
        simp only [← Finset.mul_sum, hv.trans_sum, mul_one]
        rw [Finset.sum_sub_distrib, ← Finset.sum_mul, i4, one_mul, hev]
      linarith
    have hle1 : h.evidence obs n ≤ 1 := by
      have : ∀ m, h.evidence obs m ≤ 1 := by
        intro m
        induction m with
        | zero =>
          rw [← h.sum_marginal obs 0 (Fin.last 0), ← hv.init_sum]
          refine Finset.sum_le_sum fun k _ => ?_
          rw [marginal_zero]
          have := mul_le_mul_of_nonneg_left (hob (obs 0) k) (hv.init_nonneg k)
          linarith
        | succ m ihm =>
          refine le_trans ?_ ihm
          rw [← h.sum_marginal obs (m + 1) (Fin.last (m + 1)), ← h.sum_marginal obs m (Fin.last m)]
          have : ∀ k, h.marginal obs (m + 1) (Fin.last (m + 1)) k ≤
              ∑ i, h.marginal obs m (Fin.last m) i * h.transProbs i k := by
            intro k
            rw [marginal_succ]
            have hn : 0 ≤ ∑ i, h.marginal obs m (Fin.last m) i * h.transProbs i k :=
              Finset.sum_nonneg fun i _ => mul_nonneg (marginal_nonneg hv obs m _ i) (hv.trans_nonneg i k)
            have := mul_le_mul_of_nonneg_right (hob (obs (m + 1)) k) hn
            linarith
          refine (Finset.sum_le_sum fun k _ => this k).trans (le_of_eq ?_)
          rw [Finset.sum_comm]
          simp only [← Finset.mul_sum, hv.trans_sum, mul_one]
      exact this n
    have hK : (0 : ℝ) ≤ K * eps := by positivity
    have e5 : K * eps * Real.exp l ≤ K * eps * (1 + K * eps) ^ (n + 1) :=
      mul_le_mul_of_nonneg_left (by linarith) hK
    have e6 : (1 + (K : ℝ) * eps) ^ (n + 1 + 1) = (1 + K * eps) ^ (n + 1) + K * eps * (1 + K * eps) ^ (n + 1) := by
      ring
    rw [e6]
    linarith

/-- **C41 (no guard on the size of the weights).** For every possible sequence: `forward`'s log-likelihood is never
below the true one; with observation probabilities at most one (discrete observations) the likelihood it reports
exceeds the true one by at most `(1 + K·1e-15)^T - 1`; every row is a probability vector that is zero exactly at the
states the true filtering posterior rules out. -/
theorem C41_forward_bounds (h : HMM K O) (hv : h.Valid) (obs : ℕ → O) (n : ℕ) (hp : 0 < h.evidence obs n) :
    Real.log (h.evidence obs n) ≤ (h.forward obs (n + 1) (n + 1)).1 ∧
    ((∀ o k, h.obsProb o k ≤ 1) →
      Real.exp (h.forward obs (n + 1) (n + 1)).1 ≤ h.evidence obs n + ((1 + K * 1e-15) ^ (n + 1) - 1)) ∧
    ∀ t ≤ n, ∃ a, (h.forward obs (n + 1) (n + 1)).2[t]? = some a ∧ (∀ k, 0 ≤ a k) ∧ ∑ k, a k = 1 ∧
      ∀ k, a k = 0 ↔ h.marginal obs t (Fin.last t) k / h.evidence obs t = 0 := by
  rw [forward_eq]
  obtain ⟨i1, -, -, i4, i5⟩ := iter_clamped hv (length := n + 1) n (by omega) hp
  refine ⟨?_, by simpa [eps] using i5, fun t ht => ?_⟩
  · rw [Real.log_le_iff_le_exp hp, ← h.sum_marginal obs n (Fin.last n)]
    refine (Finset.sum_le_sum fun k _ => i1 k).trans (le_of_eq ?_)
    rw [← Finset.sum_mul, i4, one_mul]
  · have hpt := evidence_pos_of_le hv ht hp
    obtain ⟨-, i2, i3, i4, -⟩ := iter_clamped hv (length := n + 1) t (by omega) hpt
    refine ⟨(iter (forwardStep h obs (n + 1)) (fwdInit h obs) 1 t).1, by simp [Nat.lt_succ_of_le ht], i3, i4, fun k => ?_⟩
    rw [i2 k, div_eq_zero_iff]
    simp [hpt.ne']

example (obs : ℕ → Bool) (n : ℕ) : ex.Valid ∧ 0 < ex.evidence obs n ∧ ∀ o k, ex.obsProb o k ≤ 1 :=
  ⟨ex_valid, by rw [ex_evidence]; positivity, fun o k => by simp only [ex]; split_ifs <;> norm_num⟩

/-- A model whose second state has prior probability `1e-16` and is the only one that can emit `true`; states never change. -/
noncomputable def exClamp : HMM 2 Bool where
  initProbs := ![1 - 1e-16, 1e-16]
  transProbs := fun i j => if i = j then 1 else 0
  obsProb := fun o k => if k = 0 ∧ o = true then 0 else 1
  initLogits := fun _ => 0
  transLogits := fun _ _ => 0
  obsLogProb := fun _ _ => 0

/-- **C41 does not extend to weights below the clamp (finding).** A valid model and a possible sequence of two
observations for which the likelihood reported by `forward` is more than nine times the true one. -/
theorem C41_clamp_witness : exClamp.Valid ∧ ∃ obs : ℕ → Bool, 0 < exClamp.evidence obs 1 ∧
    9 * exClamp.evidence obs 1 < Real.exp (exClamp.forward obs 2 2).1 := by
  have hv : exClamp.Valid := by
    refine ⟨?_, ?_, ?_, ?_, ?_⟩
    · intro k; fin_cases k <;> norm_num [exClamp]
    · norm_num [exClamp, Fin.sum_univ_two]
    · intro i j; simp only [exClamp]; split_ifs <;> norm_num
    · intro i; fin_cases i <;> norm_num [exClamp, Fin.sum_univ_two]
    · intro o k; simp only [exClamp]; split_ifs <;> norm_num
  refine ⟨hv, fun t => t == 1, ?_⟩
  have e1 : exClamp.evidence (fun t => t == 1) 1 = 1e-16 := by
    rw [← exClamp.sum_marginal _ 1 (Fin.last 1)]
    simp only [marginal_succ, marginal_zero, Fin.sum_univ_two]
    norm_num [exClamp]
  have e0 : normalize eps (fun k => exClamp.initProbs k * exClamp.obsProb (0 == 1) k) =
      (![(1 - 1e-16) / (1 + 9e-16), 1e-15 / (1 + 9e-16)], 1 + 9e-16) := by
    simp only [normalize, eps, exClamp, Fin.sum_univ_two]
    norm_num
    funext k
    fin_cases k <;> norm_num
  have e2 : normalize eps (![0, 1e-15 / (1 + 9e-16)] : Fin 2 → ℝ) = (![0, 1], 1e-15) := by
    simp only [normalize, eps, Fin.sum_univ_two]
    norm_num
    funext k
    fin_cases k <;> norm_num
  have e3 : (exClamp.forward (fun t => t == 1) 2 2).1 = Real.log 1e-15 + Real.log (1 + 9e-16) := by
    rw [forward_eq]
    have hu : (fun j => exClamp.obsProb (1 == 1) j *
        ∑ i, (![(1 - 1e-16) / (1 + 9e-16), 1e-15 / (1 + 9e-16)] : Fin 2 → ℝ) i * exClamp.transProbs i j) =
        ![0, 1e-15 / (1 + 9e-16)] := by
      funext j
      fin_cases j <;> norm_num [exClamp, Fin.sum_univ_two]
    simp only [iter, fwdInit, forwardStep, e0]
    norm_num at hu e2 ⊢
    rw [hu, e2]
  rw [e1, e3, Real.exp_add, Real.exp_log (by norm_num), Real.exp_log (by norm_num)]
  constructor <;> norm_num

/-- **C43 (no guard).** Whatever the inputs, `forward_backward` returns one smoothing row per time step, each
nonnegative and summing to one or identically zero, and exactly `forward`'s log-likelihood and rows. -/
theorem C43_rows (h : HMM K O) (obs : ℕ → O) (n length : ℕ) :
    let r := h.forwardBackward obs (n + 1) length
    r.2.2.1.length = n + 1 ∧ (∀ g ∈ r.2.2.1, (∀ k, 0 ≤ g k) ∧ (∑ k, g k = 1 ∨ ∀ k, g k = 0)) ∧
    r.2.2.2 = (h.forward obs (n + 1) length).1 ∧ r.1 = (h.forward obs (n + 1) length).2 ∧
    r.2.1 = h.backward obs (n + 1) length := by
  simp only [forwardBackward]
  refine ⟨?_, ?_, trivial, trivial, trivial⟩
  · simp [forward_eq, backward_eq]
  · intro g hg
    simp only [List.mem_map] at hg
    obtain ⟨x, -, rfl⟩ := hg
    exact normalize_fst eps_pos x

/-- **C44 (`length = 0`, finding).** An empty prefix is treated as a prefix of one observation: the first observation
is always consumed. -/
theorem C44_length_zero (h : HMM K O) (obs : ℕ → O) (n : ℕ) :
    h.forward obs (n + 1) 0 = h.forward obs (n + 1) 1 := by
  have hs : ∀ t, iter (forwardStep h obs 0) (fwdInit h obs) 1 t = iter (forwardStep h obs 1) (fwdInit h obs) 1 t := by
    intro t
    induction t with
    | zero => rfl
    | succ t ih =>
      simp only [iter, ih, forwardStep, Nat.not_lt_zero, if_false, if_neg (show ¬ (1 + t < 1) by omega)]
  simp only [forward_eq, hs]

end HMM
end Distrax
