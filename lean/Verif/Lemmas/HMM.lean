import Verif.Spec.HMM
import Mathlib.Algebra.BigOperators.Fin
import Mathlib.Algebra.BigOperators.Field
import Mathlib.Data.Fin.Tuple.Basic

/-! Helper lemmas for the HMM properties. -/

namespace Distrax
namespace HMM

variable {K : ℕ} {O : Type}

/-! ### scan -/

section
variable {C X Y : Type}

/-- carry after `n` steps over `s, s+1, ...` -/
def iter (f : C → ℕ → C × Y) (c : C) (s : ℕ) : ℕ → C
  | 0 => c
  | n + 1 => (f (iter f c s n) (s + n)).1

theorem iter_succ' (f : C → ℕ → C × Y) (c : C) (s n : ℕ) :
    iter f c s (n + 1) = iter f (f c s).1 (s + 1) n := by
  induction n with
  | zero => simp [iter]
  | succ n ih =>
    rw [iter, ih, iter]
    rw [show s + (n + 1) = s + 1 + n by omega]

theorem scan_range' (f : C → ℕ → C × Y) (n : ℕ) : ∀ (c : C) (s : ℕ),
    scan f c (List.range' s n) =
      (iter f c s n, (List.range n).map fun t => (f (iter f c s t) (s + t)).2) := by
  induction n with
  | zero => intro c s; simp [scan, iter]
  | succ n ih =>
    intro c s
    rw [List.range'_succ, scan, ih, List.range_succ_eq_map]
    simp only [List.map_cons, List.map_map, iter_succ', Prod.mk.injEq, true_and]
    simp only [iter, Nat.add_zero, List.cons.injEq, true_and]
    apply List.map_congr_left
    intro t _
    simp only [Function.comp, Nat.succ_eq_add_one, iter_succ']
    rw [show s + 1 + t = s + (t + 1) by omega]

theorem scan_append (f : C → X → C × Y) (xs : List X) (x : X) : ∀ c,
    scan f c (xs ++ [x]) =
      ((f (scan f c xs).1 x).1, (scan f c xs).2 ++ [(f (scan f c xs).1 x).2]) := by
  induction xs with
  | nil => intro c; simp [scan]
  | cons y ys ih => intro c; simp [scan, ih]

theorem scanRev_append (f : C → X → C × Y) (xs : List X) (x : X) (c : C) :
    scanRev f c (xs ++ [x]) =
      ((scanRev f (f c x).1 xs).1, (scanRev f (f c x).1 xs).2 ++ [(f c x).2]) := by
  induction xs with
  | nil => simp [scanRev]
  | cons y ys ih => simp [scanRev, ih]

end

/-! ### normalize -/

theorem eps_pos : (0 : ℝ) < eps := by unfold eps; norm_num

theorem normalize_snd_pos {e : ℝ} (he : 0 < e) (u : Fin K → ℝ) : 0 < (normalize e u).2 := by
  simp only [normalize]
  split
  · norm_num
  · rename_i h
    refine lt_of_le_of_ne (Finset.sum_nonneg fun k _ => ?_) (Ne.symm h)
    split_ifs with h1 h2
    · exact le_rfl
    · exact he.le
    · linarith

theorem normalize_of_noClamp {e : ℝ} (u : Fin K → ℝ) (hu : ∀ k, u k = 0 ∨ e ≤ u k) :
    normalize e u = (fun k => u k / (if ∑ k, u k = 0 then 1 else ∑ k, u k),
      if ∑ k, u k = 0 then 1 else ∑ k, u k) := by
  have h : ∀ k, (if u k = 0 then 0 else if u k < e then e else u k) = u k := by
    intro k
    rcases hu k with h | h
    · simp [h]
    · split_ifs with h1 h2
      · exact h1.symm
      · linarith
      · rfl
  simp only [normalize]
  simp only [h]

theorem normalize_zero {e : ℝ} : normalize e (fun _ : Fin K => (0 : ℝ)) = (fun _ => 0, 1) := by
  rw [normalize_of_noClamp _ (by simp)]
  simp

/-- Whatever the input, a normalised vector is nonnegative and sums to one or is identically zero. -/
theorem normalize_fst {e : ℝ} (he : 0 < e) (u : Fin K → ℝ) :
    (∀ k, 0 ≤ (normalize e u).1 k) ∧
    (∑ k, (normalize e u).1 k = 1 ∨ ∀ k, (normalize e u).1 k = 0) := by
  have hc := normalize_snd_pos he u
  simp only [normalize] at *
  have h0 : ∀ k, (0 : ℝ) ≤ if u k = 0 then 0 else if u k < e then e else u k := by
    intro k; split_ifs <;> first | exact le_rfl | exact he.le | linarith
  refine ⟨fun k => div_nonneg (h0 k) hc.le, ?_⟩
  by_cases hs : (∑ k, if u k = 0 then (0:ℝ) else if u k < e then e else u k) = 0
  · right
    intro k
    have := (Finset.sum_eq_zero_iff_of_nonneg fun k _ => h0 k).1 hs k (Finset.mem_univ k)
    rw [this, zero_div]
  · left
    rw [if_neg hs, ← Finset.sum_div, div_self hs]

/-! ### brute-force recurrences -/

theorem sum_snoc {n : ℕ} (F : (Fin (n + 1) → Fin K) → ℝ) :
    ∑ z, F z = ∑ k : Fin K, ∑ z : Fin n → Fin K, F (Fin.snoc z k) := by
  rw [← (Fin.snocEquiv fun _ => Fin K).sum_comp, Fintype.sum_prod_type]
  rfl

theorem sum_cons {n : ℕ} (F : (Fin (n + 1) → Fin K) → ℝ) :
    ∑ z, F z = ∑ k : Fin K, ∑ z : Fin n → Fin K, F (Fin.cons k z) := by
  rw [← (Fin.consEquiv fun _ => Fin K).sum_comp, Fintype.sum_prod_type]
  rfl

theorem joint_snoc (h : HMM K O) (obs : ℕ → O) {n : ℕ} (z : Fin (n + 1) → Fin K) (k : Fin K) :
    h.joint obs (Fin.snoc z k : Fin (n + 2) → Fin K) =
      h.joint obs z * (h.transProbs (z (Fin.last n)) k * h.obsProb (obs (n + 1)) k) := by
  unfold joint
  rw [Fin.prod_univ_castSucc (n := n), Fin.prod_univ_castSucc (n := n + 1)]
  have h0 : (Fin.snoc z k : Fin (n + 2) → Fin K) 0 = z 0 := by
    rw [← Fin.castSucc_zero, Fin.snoc_castSucc (α := fun _ => Fin K)]
  have h1 : ∀ t : Fin n, (Fin.snoc z k : Fin (n + 2) → Fin K) t.castSucc.succ = z t.succ := by
    intro t
    rw [Fin.succ_castSucc, Fin.snoc_castSucc (α := fun _ => Fin K)]
  have h2 : (Fin.snoc z k : Fin (n + 2) → Fin K) (Fin.last n).succ = k := by
    rw [Fin.succ_last, Fin.snoc_last (α := fun _ => Fin K)]
  simp only [h0, h1, h2, Fin.snoc_castSucc (α := fun _ => Fin K), Fin.snoc_last (α := fun _ => Fin K),
    Fin.val_castSucc, Fin.val_last]
  ring

/-- joint mass with `z_t = k` and a terminal weight -/
def wmarg (h : HMM K O) (obs : ℕ → O) (n : ℕ) (t : Fin (n + 1)) (k : Fin K) (f : Fin K → ℝ) : ℝ :=
  ∑ z : Fin (n + 1) → Fin K, (if z t = k then h.joint obs z else 0) * f (z (Fin.last n))

theorem wmarg_one (h : HMM K O) (obs : ℕ → O) (n : ℕ) (t : Fin (n + 1)) (k : Fin K) :
    h.wmarg obs n t k (fun _ => 1) = h.marginal obs n t k := by
  simp [wmarg, marginal]

/-- one backward step applied to `f` at time `t` -/
def back (h : HMM K O) (obs : ℕ → O) (t : ℕ) (f : Fin K → ℝ) (i : Fin K) : ℝ :=
  ∑ j, h.transProbs i j * h.obsProb (obs t) j * f j

theorem wmarg_succ (h : HMM K O) (obs : ℕ → O) (n : ℕ) (t : Fin (n + 1)) (k : Fin K) (f : Fin K → ℝ) :
    h.wmarg obs (n + 1) t.castSucc k f = h.wmarg obs n t k (h.back obs (n + 1) f) := by
  unfold wmarg back
  rw [sum_snoc, Finset.sum_comm]
  apply Finset.sum_congr rfl
  intro z _
  rw [Finset.mul_sum]
  apply Finset.sum_congr rfl
  intro j _
  rw [Fin.snoc_castSucc (α := fun _ => Fin K), Fin.snoc_last (α := fun _ => Fin K), joint_snoc]
  split_ifs <;> ring

theorem wmarg_last (h : HMM K O) (obs : ℕ → O) (n : ℕ) (k : Fin K) (f : Fin K → ℝ) :
    h.wmarg obs n (Fin.last n) k f = h.marginal obs n (Fin.last n) k * f k := by
  unfold wmarg marginal
  rw [Finset.sum_mul]
  apply Finset.sum_congr rfl
  intro z _
  split_ifs with hz
  · rw [hz]
  · simp

theorem future_zero (h : HMM K O) (obs : ℕ → O) (t : ℕ) : h.future obs t 0 = fun _ => 1 := by
  funext k; simp [future]

theorem future_succ (h : HMM K O) (obs : ℕ → O) (t m : ℕ) :
    h.future obs t (m + 1) = h.back obs (t + 1) (h.future obs (t + 1) m) := by
  funext k
  unfold future back
  rw [sum_cons]
  apply Finset.sum_congr rfl
  intro j _
  rw [Finset.mul_sum]
  apply Finset.sum_congr rfl
  intro w _
  rw [Fin.prod_univ_succ]
  simp only [Fin.castSucc_zero, Fin.cons_zero, Fin.val_zero, Nat.add_zero, Fin.cons_succ,
    ← Fin.succ_castSucc, Fin.val_succ]
  congr 1
  apply Finset.prod_congr rfl
  intro s _
  rw [show t + 1 + (↑s + 1) = t + 1 + 1 + ↑s by omega]

theorem wmarg_future (h : HMM K O) (obs : ℕ → O) (t : ℕ) (k : Fin K) (m : ℕ) : ∀ j : ℕ,
    h.wmarg obs (t + m) ⟨t, by omega⟩ k (h.future obs (t + m) j) =
      h.marginal obs t (Fin.last t) k * h.future obs t (m + j) k := by
  induction m with
  | zero =>
    intro j
    have := h.wmarg_last obs t k (h.future obs t j)
    simpa [Fin.last] using this
  | succ m ih =>
    intro j
    have e := h.wmarg_succ obs (t + m) ⟨t, by omega⟩ k (h.future obs (t + m + 1) j)
    have e2 : h.wmarg obs (t + (m + 1)) ⟨t, by omega⟩ k (h.future obs (t + (m + 1)) j) =
      h.wmarg obs (t + m) ⟨t, by omega⟩ k (h.back obs (t + m + 1) (h.future obs (t + m + 1) j)) := e
    rw [e2, ← future_succ, ih (j + 1)]
    rw [show m + (j + 1) = m + 1 + j by omega]

/-- `p(z_t = k, x_{0..t+m}) = p(z_t = k, x_{0..t}) p(x_{t+1..t+m} | z_t = k)` -/
theorem marginal_split (h : HMM K O) (obs : ℕ → O) (t m : ℕ) (k : Fin K) :
    h.marginal obs (t + m) ⟨t, by omega⟩ k =
      h.marginal obs t (Fin.last t) k * h.future obs t m k := by
  have := h.wmarg_future obs t k m 0
  rw [future_zero, wmarg_one] at this
  exact this

theorem marginal_zero (h : HMM K O) (obs : ℕ → O) (k : Fin K) :
    h.marginal obs 0 (Fin.last 0) k = h.initProbs k * h.obsProb (obs 0) k := by
  unfold marginal
  rw [sum_cons]
  simp [joint, Fin.last]

theorem marginal_succ (h : HMM K O) (obs : ℕ → O) (n : ℕ) (k : Fin K) :
    h.marginal obs (n + 1) (Fin.last (n + 1)) k =
      h.obsProb (obs (n + 1)) k * ∑ i, h.marginal obs n (Fin.last n) i * h.transProbs i k := by
  unfold marginal
  rw [sum_snoc]
  simp only [Fin.snoc_last (α := fun _ => Fin K), joint_snoc]
  rw [Finset.sum_eq_single k]
  · simp only [if_true, Finset.sum_mul]
    rw [Finset.sum_comm, Finset.mul_sum]
    apply Finset.sum_congr rfl
    intro z _
    rw [Finset.sum_eq_single (z (Fin.last n))]
    · simp; ring
    · intro b _ hb
      simp [Ne.symm hb]
    · simp
  · intro b _ hb; simp [hb]
  · simp

theorem sum_marginal (h : HMM K O) (obs : ℕ → O) (n : ℕ) (t : Fin (n + 1)) :
    ∑ k, h.marginal obs n t k = h.evidence obs n := by
  unfold marginal evidence
  rw [Finset.sum_comm]
  simp

theorem joint_nonneg {h : HMM K O} (hv : h.Valid) (obs : ℕ → O) {n : ℕ} (z : Fin (n + 1) → Fin K) :
    0 ≤ h.joint obs z :=
  mul_nonneg (mul_nonneg (hv.init_nonneg _) (Finset.prod_nonneg fun _ _ => hv.trans_nonneg _ _))
    (Finset.prod_nonneg fun _ _ => hv.obs_nonneg _ _)

theorem marginal_nonneg {h : HMM K O} (hv : h.Valid) (obs : ℕ → O) (n : ℕ) (t : Fin (n + 1)) (k : Fin K) :
    0 ≤ h.marginal obs n t k :=
  Finset.sum_nonneg fun z _ => by split_ifs; exacts [joint_nonneg hv obs z, le_rfl]

theorem evidence_nonneg {h : HMM K O} (hv : h.Valid) (obs : ℕ → O) (n : ℕ) : 0 ≤ h.evidence obs n :=
  Finset.sum_nonneg fun z _ => joint_nonneg hv obs z

theorem future_nonneg {h : HMM K O} (hv : h.Valid) (obs : ℕ → O) (t m : ℕ) (k : Fin K) :
    0 ≤ h.future obs t m k :=
  Finset.sum_nonneg fun _ _ => Finset.prod_nonneg fun _ _ =>
    mul_nonneg (hv.trans_nonneg _ _) (hv.obs_nonneg _ _)

theorem evidence_split (h : HMM K O) (obs : ℕ → O) (t m : ℕ) :
    h.evidence obs (t + m) = ∑ k, h.marginal obs t (Fin.last t) k * h.future obs t m k := by
  rw [← h.sum_marginal obs (t + m) ⟨t, by omega⟩]
  simp only [marginal_split]

theorem marginal_eq_zero {h : HMM K O} (hv : h.Valid) {obs : ℕ → O} {n : ℕ} (h0 : h.evidence obs n = 0)
    (t : Fin (n + 1)) (k : Fin K) : h.marginal obs n t k = 0 := by
  rw [← h.sum_marginal obs n t] at h0
  exact (Finset.sum_eq_zero_iff_of_nonneg fun k _ => marginal_nonneg hv obs n t k).1 h0 k
    (Finset.mem_univ k)

/-- once impossible, always impossible -/
theorem evidence_zero_mono {h : HMM K O} (hv : h.Valid) {obs : ℕ → O} {t : ℕ} (m : ℕ)
    (h0 : h.evidence obs t = 0) : h.evidence obs (t + m) = 0 := by
  rw [evidence_split]
  apply Finset.sum_eq_zero
  intro k _
  rw [marginal_eq_zero hv h0, zero_mul]

theorem evidence_pos_of_le {h : HMM K O} (hv : h.Valid) {obs : ℕ → O} {t n : ℕ} (htn : t ≤ n)
    (hp : 0 < h.evidence obs n) : 0 < h.evidence obs t := by
  refine lt_of_le_of_ne (evidence_nonneg hv obs t) fun h0 => ?_
  have := evidence_zero_mono hv (n - t) h0.symm
  rw [Nat.add_sub_cancel' htn] at this
  linarith

/-! ### forward -/

theorem predictive_zero (h : HMM K O) (obs : ℕ → O) (k : Fin K) :
    h.predictive obs 0 k = h.initProbs k * h.obsProb (obs 0) k := by
  rw [predictive, if_pos rfl, div_one, marginal_zero]

theorem predictive_succ (h : HMM K O) (obs : ℕ → O) (n : ℕ) (k : Fin K) :
    h.predictive obs (n + 1) k =
      h.obsProb (obs (n + 1)) k *
        ∑ i, h.marginal obs n (Fin.last n) i / h.evidence obs n * h.transProbs i k := by
  simp only [predictive, marginal_succ, Nat.add_sub_cancel, if_neg (Nat.succ_ne_zero n)]
  rw [mul_div_assoc, Finset.sum_div]
  congr 1
  apply Finset.sum_congr rfl
  intro i _
  ring

theorem sum_predictive (h : HMM K O) (obs : ℕ → O) (n : ℕ) :
    ∑ k, h.predictive obs n k = h.evidence obs n / (if n = 0 then 1 else h.evidence obs (n - 1)) := by
  simp only [predictive, ← Finset.sum_div, sum_marginal]

/-- the row `p(z_t | x_{0..t})` (zero when the prefix is impossible) -/
noncomputable def filt (h : HMM K O) (obs : ℕ → O) (t : ℕ) (k : Fin K) : ℝ :=
  h.marginal obs t (Fin.last t) k / h.evidence obs t

noncomputable def fwdInit (h : HMM K O) (obs : ℕ → O) : (Fin K → ℝ) × ℝ :=
  let r := normalize eps (fun k => h.initProbs k * h.obsProb (obs 0) k)
  (r.1, Real.log r.2)

theorem forward_eq (h : HMM K O) (obs : ℕ → O) (n length : ℕ) :
    h.forward obs (n + 1) length =
      ((iter (forwardStep h obs length) (fwdInit h obs) 1 n).2,
        (List.range (n + 1)).map fun t => (iter (forwardStep h obs length) (fwdInit h obs) 1 t).1) := by
  unfold forward
  simp only [Nat.add_sub_cancel]
  rw [show ((normalize eps fun k => h.initProbs k * h.obsProb (obs 0) k).1,
    Real.log (normalize eps fun k => h.initProbs k * h.obsProb (obs 0) k).2) = fwdInit h obs from rfl]
  rw [scan_range', List.range_succ_eq_map]
  simp only [List.map_cons, List.map_map, Prod.mk.injEq, true_and, List.cons.injEq]
  refine ⟨rfl, List.map_congr_left fun t _ => ?_⟩
  simp [iter, forwardStep]

theorem fwdInit_eq {h : HMM K O} (hv : h.Valid) {obs : ℕ → O} (hc : h.NoClampForward obs 1) :
    fwdInit h obs = (filt h obs 0,
      if h.evidence obs 0 = 0 then 0 else Real.log (h.evidence obs 0)) := by
  have h1 : (fun k => h.initProbs k * h.obsProb (obs 0) k) = h.predictive obs 0 :=
    funext fun k => (predictive_zero h obs k).symm
  have hs := h.sum_predictive obs 0
  simp only [if_true, div_one] at hs
  unfold fwdInit
  rw [h1]
  simp only
  rw [normalize_of_noClamp _ (by intro k; simpa [eps] using hc 0 (by omega) k), hs]
  by_cases h0 : h.evidence obs 0 = 0
  · simp only [h0, if_true, Real.log_one, Prod.mk.injEq, and_true]
    funext k
    simp [predictive, filt, marginal_eq_zero hv h0]
  · simp only [h0, if_false, Prod.mk.injEq, and_true]
    funext k
    simp [predictive, filt]

theorem step_possible {h : HMM K O} (hv : h.Valid) {obs : ℕ → O} {length n : ℕ} (hl : n + 1 < length)
    (hc : h.NoClampForward obs (n + 2)) (h0 : 0 < h.evidence obs n) (l : ℝ) :
    (forwardStep h obs length (filt h obs n, l) (1 + n)).1 =
      (filt h obs (n + 1), (if h.evidence obs (n + 1) = 0 then 0 else
        Real.log (h.evidence obs (n + 1)) - Real.log (h.evidence obs n)) + l) := by
  rw [Nat.add_comm 1 n]
  unfold forwardStep
  have h1 : (fun j => h.obsProb (obs (n + 1)) j * ∑ i, filt h obs n i * h.transProbs i j) =
      h.predictive obs (n + 1) := funext fun k => (predictive_succ h obs n k).symm
  simp only [if_pos hl, h1]
  have hs := h.sum_predictive obs (n + 1)
  simp only [Nat.add_sub_cancel, if_neg (Nat.succ_ne_zero n)] at hs
  rw [normalize_of_noClamp _ (by intro k; simpa [eps] using hc (n + 1) (by omega) k), hs]
  by_cases he : h.evidence obs (n + 1) = 0
  · simp only [he, zero_div, if_true, Real.log_one, Prod.mk.injEq, and_true]
    funext k
    simp [predictive, filt, marginal_eq_zero hv he]
  · have hne : h.evidence obs (n + 1) / h.evidence obs n ≠ 0 := div_ne_zero he h0.ne'
    simp only [hne, he, if_false, Prod.mk.injEq]
    constructor
    · funext k
      simp only [predictive, filt, Nat.add_sub_cancel, if_neg (Nat.succ_ne_zero n)]
      have := h0.ne'
      field_simp
    · rw [Real.log_div he h0.ne']

theorem step_dead (h : HMM K O) (obs : ℕ → O) (length t : ℕ) (l : ℝ) :
    (forwardStep h obs length (fun _ => 0, l) t).1 = (fun _ => 0, l) := by
  unfold forwardStep
  have : (if t < length then fun j => h.obsProb (obs t) j * ∑ i, (fun _ : Fin K => (0:ℝ)) i *
      h.transProbs i j else fun _ => 0) = (fun _ : Fin K => (0 : ℝ)) := by
    funext j; split_ifs <;> simp
  simp only [this, normalize_zero, Real.log_one, zero_add]

theorem step_beyond (h : HMM K O) (obs : ℕ → O) (length t : ℕ) (ht : length ≤ t) (a : Fin K → ℝ) (l : ℝ) :
    (forwardStep h obs length (a, l) t).1 = (fun _ => 0, l) := by
  unfold forwardStep
  simp only [if_neg (not_lt.2 ht), normalize_zero, Real.log_one, zero_add]

/-- state of the forward scan at a possible prefix -/
theorem iter_possible {h : HMM K O} (hv : h.Valid) {obs : ℕ → O} {length : ℕ} (n : ℕ) (hl : n < length)
    (hc : h.NoClampForward obs (n + 1)) (h0 : 0 < h.evidence obs n) :
    iter (forwardStep h obs length) (fwdInit h obs) 1 n =
      (filt h obs n, Real.log (h.evidence obs n)) := by
  induction n with
  | zero => rw [iter, fwdInit_eq hv hc, if_neg h0.ne']
  | succ n ih =>
    have hp := evidence_pos_of_le hv (Nat.le_succ n) h0
    rw [iter, ih (by omega) (fun t ht => hc t (by omega)) hp, step_possible hv hl hc hp, if_neg h0.ne']
    simp

theorem iter_dead {h : HMM K O} {obs : ℕ → O} {length : ℕ} (n m : ℕ) {l : ℝ}
    (hd : iter (forwardStep h obs length) (fwdInit h obs) 1 n = (fun _ => 0, l)) :
    iter (forwardStep h obs length) (fwdInit h obs) 1 (n + m) = (fun _ => 0, l) := by
  induction m with
  | zero => exact hd
  | succ m ih => rw [← Nat.add_assoc, iter, ih, step_dead]

theorem filt_impossible {h : HMM K O} {obs : ℕ → O} {n : ℕ} (h0 : h.evidence obs n = 0) :
    filt h obs n = fun _ => 0 := by
  funext k; simp [filt, h0]

/-! ### backward -/

theorem scan_map {C X X' Y : Type} (f : C → X → C × Y) (g : X' → X) (xs : List X') : ∀ c,
    scan f c (xs.map g) = scan (fun c x => f c (g x)) c xs := by
  induction xs with
  | nil => intro c; rfl
  | cons x xs ih => intro c; simp [scan, ih]

/-- beta after `m` backward steps -/
noncomputable def bIter (h : HMM K O) (obs : ℕ → O) (n length m : ℕ) : Fin K → ℝ :=
  iter (fun b x => backwardStep h obs length b (n + 1 - x)) (fun _ => 1) 0 m

theorem backward_eq (h : HMM K O) (obs : ℕ → O) (n length : ℕ) :
    h.backward obs (n + 1) length =
      (List.range (n + 1)).map fun t => bIter h obs n length (n - t) := by
  unfold backward
  simp only [Nat.add_sub_cancel, List.reverse_range', scan_map]
  have e : (fun (c : Fin K → ℝ) x => backwardStep h obs length c (2 + n - 1 - x)) =
      fun c x => backwardStep h obs length c (n + 1 - x) := by
    funext c x; rw [show 2 + n - 1 - x = n + 1 - x by omega]
  rw [e, List.range_eq_range' (n := n), scan_range']
  have e2 : ((fun _ : Fin K => (1:ℝ)) :: (List.range n).map fun t =>
      (backwardStep h obs length (iter (fun c x => backwardStep h obs length c (n + 1 - x))
        (fun _ => 1) 0 t) (n + 1 - (0 + t))).2) =
      (List.range (n + 1)).map fun t => bIter h obs n length t := by
    rw [List.range_succ_eq_map]
    simp only [List.map_cons, List.map_map, List.cons.injEq]
    exact ⟨rfl, List.map_congr_left fun t _ => rfl⟩
  simp only at e2 ⊢
  rw [e2, ← List.map_reverse, List.range_eq_range', List.reverse_range', List.map_map,
    ← List.range_eq_range']
  apply List.map_congr_left
  intro t _
  simp

theorem futureNorm_pos {h : HMM K O} (hv : h.Valid) {obs : ℕ → O} {n t : ℕ} (ht : t ≤ n)
    (hp : 0 < h.evidence obs n) : 0 < h.futureNorm obs n t := by
  unfold futureNorm
  split_ifs with e
  · norm_num
  · refine lt_of_le_of_ne (Finset.sum_nonneg fun k _ => future_nonneg hv obs _ _ k) fun h0 => ?_
    have hz := (Finset.sum_eq_zero_iff_of_nonneg fun k _ => future_nonneg hv obs t (n - t) k).1 h0.symm
    have := h.evidence_split obs t (n - t)
    rw [Nat.add_sub_cancel' ht] at this
    rw [this] at hp
    refine hp.ne' (Finset.sum_eq_zero fun k hk => ?_)
    rw [hz k hk, mul_zero]

theorem bIter_full {h : HMM K O} (hv : h.Valid) {obs : ℕ → O} {n : ℕ}
    (hc : h.NoClampBackward obs n) (hp : 0 < h.evidence obs n) (m : ℕ) (hm : m ≤ n) :
    bIter h obs n (n + 1) m = fun k => h.future obs (n - m) m k / h.futureNorm obs n (n - m) := by
  induction m with
  | zero => funext k; simp [bIter, iter, future_zero, futureNorm]
  | succ m ih =>
    have hstep : bIter h obs n (n + 1) (m + 1) =
      (backwardStep h obs (n + 1) (bIter h obs n (n + 1) m) (n + 1 - (0 + m))).1 := rfl
    rw [hstep, ih (by omega)]
    obtain ⟨t, ht⟩ : ∃ t, n - m = t + 1 := ⟨n - m - 1, by omega⟩
    have e1 : n - (m + 1) = t := by omega
    have e2 : n - t = m + 1 := by omega
    unfold backwardStep
    rw [if_neg (by omega), show n + 1 - (0 + m) - 1 = t + 1 by omega, ht, e1]
    have hu : (fun i => ∑ j, h.future obs (t + 1) m j / h.futureNorm obs n (t + 1) *
        h.obsProb (obs (t + 1)) j * h.transProbs i j) =
        fun k => h.future obs t (m + 1) k / h.futureNorm obs n (t + 1) := by
      funext i
      rw [future_succ, back, Finset.sum_div]
      apply Finset.sum_congr rfl
      intro j _
      ring
    simp only [hu]
    have hn := futureNorm_pos hv (n := n) (t := t + 1) (by omega) hp
    have hn' := futureNorm_pos hv (n := n) (t := t) (by omega) hp
    have hs : ∑ k, h.future obs t (m + 1) k / h.futureNorm obs n (t + 1) =
        h.futureNorm obs n t / h.futureNorm obs n (t + 1) := by
      rw [← Finset.sum_div]
      congr 1
      rw [futureNorm, if_neg (by omega), e2]
    rw [normalize_of_noClamp _ (by
      intro k
      have := hc t (by omega) k
      rw [e2] at this
      simpa [eps] using this), hs, if_neg (div_pos hn' hn).ne']
    funext k
    simp only
    field_simp

theorem bIter_short (h : HMM K O) (obs : ℕ → O) (n length : ℕ) (hl : length < n + 1) (m : ℕ) :
    bIter h obs n length (m + 1) = fun _ => 0 := by
  induction m with
  | zero =>
    show (backwardStep h obs length _ (n + 1 - (0 + 0))).1 = _
    unfold backwardStep
    rw [if_pos (by omega)]
  | succ m ih =>
    have hstep : bIter h obs n length (m + 1 + 1) =
      (backwardStep h obs length (bIter h obs n length (m + 1)) (n + 1 - (0 + (m + 1)))).1 := rfl
    rw [hstep, ih]
    unfold backwardStep
    split_ifs
    · rfl
    · simp [normalize_zero]

/-! ### viterbi -/

section viterbi
variable [NeZero K]

theorem le_argmax (f : Fin K → EReal) (k : Fin K) : f k ≤ f (argmax f) := by
  unfold argmax
  have hne : (List.finRange K).argmax f ≠ none := by
    rw [Ne, List.argmax_eq_none]
    intro h
    have := List.mem_finRange k
    rw [h] at this
    simp at this
  obtain ⟨m, hm⟩ := Option.ne_none_iff_exists'.1 hne
  rw [hm, Option.getD_some]
  exact List.le_of_mem_argmax (List.mem_finRange k) hm

theorem sup'_argmax (f : Fin K → EReal) :
    Finset.univ.sup' Finset.univ_nonempty f = f (argmax f) :=
  le_antisymm (Finset.sup'_le _ _ fun k _ => le_argmax f k) (Finset.le_sup' f (Finset.mem_univ _))

theorem viterbiBackward_eq (s : Fin K) (src : Fin K → Fin K) :
    viterbiBackward (s : ℕ) src = ((src s : ℕ), (src s : ℕ)) := by
  unfold viterbiBackward
  have : ∑ k, (src k : ℕ) * (if (k : ℕ) = (s : ℕ) then 1 else 0) = (src s : ℕ) := by
    rw [Finset.sum_eq_single s]
    · simp
    · intro b _ hb
      simp [Fin.val_inj, hb]
    · simp
  simp only [this]

variable (tr : Fin K → Fin K → EReal) (ob : O → Fin K → EReal) (fst : Fin K → EReal)

/-- log-score of a path -/
noncomputable def score (obs : ℕ → O) : {n : ℕ} → (Fin (n + 1) → Fin K) → EReal
  | 0, z => fst (z 0)
  | n + 1, z => score obs (n := n) (fun t => z t.castSucc) +
      tr (z (Fin.last n).castSucc) (z (Fin.last (n + 1))) + ob (obs (n + 1)) (z (Fin.last (n + 1)))

/-- forward table and sources -/
noncomputable def vTab (obs : ℕ → O) (n : ℕ) : (Fin K → EReal) × List (Fin K → Fin K) :=
  scan (viterbiForward tr ob) fst ((List.range' 1 n).map obs)

theorem vTab_succ (obs : ℕ → O) (n : ℕ) :
    vTab tr ob fst obs (n + 1) =
      ((viterbiForward tr ob (vTab tr ob fst obs n).1 (obs (n + 1))).1,
        (vTab tr ob fst obs n).2 ++ [(viterbiForward tr ob (vTab tr ob fst obs n).1 (obs (n + 1))).2]) := by
  unfold vTab
  rw [List.range'_concat, List.map_append, List.map_singleton, scan_append]
  simp [Nat.add_comm]

theorem score_le (obs : ℕ → O) (n : ℕ) : ∀ z : Fin (n + 1) → Fin K,
    score tr ob fst obs z ≤ (vTab tr ob fst obs n).1 (z (Fin.last n)) := by
  induction n with
  | zero => intro z; simp [score, vTab, scan]
  | succ n ih =>
    intro z
    rw [vTab_succ, score]
    simp only [viterbiForward]
    refine le_trans ?_ (Finset.le_sup' (fun i => (vTab tr ob fst obs n).1 i + tr i (z (Fin.last (n + 1))) +
      ob (obs (n + 1)) (z (Fin.last (n + 1)))) (Finset.mem_univ (z (Fin.last n).castSucc)))
    exact add_le_add (add_le_add (ih _) le_rfl) le_rfl

/-- the backtracked list from state `k` -/
def vPath (src : List (Fin K → Fin K)) (k : Fin K) : List ℕ :=
  (scanRev viterbiBackward (k : ℕ) src).2 ++ [(k : ℕ)]

theorem vPath_append (src : List (Fin K → Fin K)) (s : Fin K → Fin K) (k : Fin K) :
    vPath (src ++ [s]) k = vPath src (s k) ++ [(k : ℕ)] := by
  simp [vPath, scanRev_append, viterbiBackward_eq]

theorem score_snoc (obs : ℕ → O) {n : ℕ} (z : Fin (n + 1) → Fin K) (k : Fin K) :
    score tr ob fst obs (Fin.snoc z k : Fin (n + 2) → Fin K) =
      score tr ob fst obs z + tr (z (Fin.last n)) k + ob (obs (n + 1)) k := by
  rw [score]
  simp only [Fin.snoc_castSucc (α := fun _ => Fin K), Fin.snoc_last (α := fun _ => Fin K)]

theorem path_score (obs : ℕ → O) (n : ℕ) : ∀ k : Fin K, ∃ z : Fin (n + 1) → Fin K,
    z (Fin.last n) = k ∧ vPath (vTab tr ob fst obs n).2 k = List.ofFn (fun t => (z t : ℕ)) ∧
      score tr ob fst obs z = (vTab tr ob fst obs n).1 k := by
  induction n with
  | zero =>
    intro k
    exact ⟨fun _ => k, rfl, by simp [vPath, vTab, scan, scanRev], by simp [score, vTab, scan]⟩
  | succ n ih =>
    intro k
    rw [vTab_succ]
    set src := (viterbiForward tr ob (vTab tr ob fst obs n).1 (obs (n + 1))).2 with hsrc
    obtain ⟨z, h1, h2, h3⟩ := ih (src k)
    refine ⟨Fin.snoc z k, Fin.snoc_last (α := fun _ => Fin K) _ _, ?_, ?_⟩
    · rw [vPath_append, h2, List.ofFn_succ' (fun t => ((Fin.snoc z k : Fin (n + 2) → Fin K) t : ℕ))]
      simp only [Fin.snoc_castSucc (α := fun _ => Fin K), Fin.snoc_last (α := fun _ => Fin K),
        List.concat_eq_append]
    · rw [score_snoc, h1, h3]
      simp only [viterbiForward]
      rw [sup'_argmax (fun i => (vTab tr ob fst obs n).1 i + tr i k + ob (obs (n + 1)) k)]
      rfl

theorem logSoftmax_eq {p : Fin K → ℝ} (hp : ∀ k, 0 ≤ p k) (hs : ∑ k, p k = 1) {C : ℝ} (hC : 0 < C)
    {l : Fin K → EReal} (hl : ∀ k, l k = ENNReal.log (ENNReal.ofReal (C * p k))) (k : Fin K) :
    logSoftmax l k = ENNReal.log (ENNReal.ofReal (p k)) := by
  unfold logSoftmax
  simp only [hl, ENNReal.exp_log]
  rw [← ENNReal.ofReal_sum_of_nonneg fun k _ => mul_nonneg hC.le (hp k), ← Finset.mul_sum, hs, mul_one,
    sub_eq_add_neg, ← ENNReal.log_inv, ← ENNReal.log_mul_add, ENNReal.ofReal_mul hC.le,
    ← ENNReal.ofReal_inv_of_pos hC, mul_right_comm, ← ENNReal.ofReal_mul hC.le, mul_inv_cancel₀ hC.ne',
    ENNReal.ofReal_one, one_mul]

theorem score_eq_log_joint {h : HMM K O} (hv : h.Valid) (obs : ℕ → O)
    (htr : ∀ i j, tr i j = ENNReal.log (ENNReal.ofReal (h.transProbs i j)))
    (hob : ∀ o k, ob o k = ENNReal.log (ENNReal.ofReal (h.obsProb o k)))
    (hfst : ∀ k, fst k = ENNReal.log (ENNReal.ofReal (h.initProbs k * h.obsProb (obs 0) k))) (n : ℕ) :
    ∀ z : Fin (n + 1) → Fin K,
      score tr ob fst obs z = ENNReal.log (ENNReal.ofReal (h.joint obs z)) := by
  induction n with
  | zero => intro z; rw [score, hfst]; simp [joint]
  | succ n ih =>
    intro z
    have hz : z = (Fin.snoc (fun t : Fin (n + 1) => z t.castSucc) (z (Fin.last (n + 1))) :
        Fin (n + 2) → Fin K) := by
      exact (Fin.snoc_init_self (α := fun _ => Fin K) z).symm
    rw [hz, score_snoc, joint_snoc, ih, htr, hob,
      ENNReal.ofReal_mul (joint_nonneg hv obs _), ENNReal.ofReal_mul (hv.trans_nonneg _ _),
      ENNReal.log_mul_add, ENNReal.log_mul_add, add_assoc]

end viterbi

/-! ### sampling -/

/-- the state at time `t` -/
def sState (a : Fin K) (T : ℕ → Fin K → Fin K) : ℕ → Fin K
  | 0 => a
  | t + 1 => T t (sState a T t)

theorem iter_sState (a : Fin K) (T : ℕ → Fin K → Fin K) (t : ℕ) :
    iter (fun prev (key : ℕ) => (T key prev, T key prev)) a 0 t = sState a T t := by
  induction t with
  | zero => rfl
  | succ t ih => simp [iter, ih, sState]

theorem sample_eq (a : Fin K) (T : ℕ → Fin K → Fin K) (D : ℕ → Fin K → O) (n : ℕ) :
    sample a T D (n + 1) = ((List.range (n + 1)).map (sState a T),
      (List.range (n + 1)).map fun t => D t (sState a T t)) := by
  have h1 : a :: (scan (fun prev (key : ℕ) => (T key prev, T key prev)) a (List.range n)).2 =
      (List.range (n + 1)).map (sState a T) := by
    rw [List.range_eq_range' (n := n), scan_range', List.range_succ_eq_map]
    simp only [List.map_cons, List.map_map, iter_sState, List.cons.injEq]
    exact ⟨rfl, List.map_congr_left fun t _ => by simp [sState]⟩
  unfold sample
  simp only [Nat.add_sub_cancel, h1, Prod.mk.injEq, true_and]
  rw [List.zipWith_map_left, List.zipWith_self]

theorem sample_eq_iff (a : Fin K) (T : ℕ → Fin K → Fin K) (D : ℕ → Fin K → O) (n : ℕ)
    (z : Fin (n + 1) → Fin K) (x : Fin (n + 1) → O) :
    sample a T D (n + 1) = (List.ofFn z, List.ofFn x) ↔
      a = z 0 ∧ (∀ t : Fin n, T t (z t.castSucc) = z t.succ) ∧ ∀ t : Fin (n + 1), D t (z t) = x t := by
  have hl : ∀ {β : Type} (f : ℕ → β) (g : Fin (n + 1) → β),
      (List.range (n + 1)).map f = List.ofFn g ↔ ∀ t : Fin (n + 1), f t = g t := by
    intro β f g
    rw [List.ext_getElem_iff]
    simp only [List.length_map, List.length_range, List.length_ofFn, true_and]
    constructor
    · intro h t
      have := h t t.2 t.2
      rwa [List.getElem_map, List.getElem_range, List.getElem_ofFn] at this
    · intro h t h1 h2
      rw [List.getElem_map, List.getElem_range, List.getElem_ofFn]
      exact h ⟨t, h1⟩
  rw [sample_eq, Prod.mk.injEq, hl, hl]
  constructor
  · rintro ⟨h1, h2⟩
    refine ⟨h1 0, fun t => ?_, fun t => by rw [← h1 t]; exact h2 t⟩
    rw [← h1 t.castSucc, ← h1 t.succ]
    simp [sState]
  · rintro ⟨h1, h2, h3⟩
    have key : ∀ m (hm : m < n + 1), sState a T m = z ⟨m, hm⟩ := by
      intro m
      induction m with
      | zero => intro _; simpa [sState] using h1
      | succ m ih =>
        intro hm
        rw [sState, ih (by omega)]
        exact h2 ⟨m, by omega⟩
    exact ⟨fun t => key t t.2, fun t => by rw [key t t.2]; exact h3 t⟩

end HMM
end Distrax
