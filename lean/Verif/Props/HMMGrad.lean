import Verif.Lemmas.HMMGrad
import Verif.Props.HMM
import Mathlib.Analysis.SpecialFunctions.ExpDeriv

/-!
Property C71: derivatives through `HMM.forward` and `HMM.forward_backward`.  A family `h s` of models is differentiated at
`s0`; `Follows h d s0` says that the numbers handed to the algorithm carry the right derivatives, `NonnegNear` that `s0` is not
an end point of the range of legal parameters.  The specification side (`evidence`, `marginal`: sums over all state paths) is
that of C41 and C43.
-/

namespace Distrax
namespace HMMD

open Filter Topology Finset Distrax.Spec

variable {K : ℕ} {O : Type}

/-! ## Values -/

/-- **C71 (values).** Differentiating changes no value: log-likelihood, filtering rows, messages and smoothing rows are those of
the plain algorithms, with any `length`, possible or impossible observations, clamped or not. -/
theorem C71_values (h : HMM K O) (d : HMMD K O) (hi : ∀ k, (d.initProbs k).val = h.initProbs k)
    (ht : ∀ i j, (d.transProbs i j).val = h.transProbs i j) (ho : ∀ o k, (d.obsProb o k).val = h.obsProb o k)
    (obs : ℕ → O) (seqLen length : ℕ) :
    let r := d.forwardBackwardD obs seqLen length
    let s := h.forwardBackward obs seqLen length
    r.1.map vals = s.1 ∧ r.2.1.map vals = s.2.1 ∧ r.2.2.1.map vals = s.2.2.1 ∧ r.2.2.2.val = s.2.2.2 := by
  have hfs : ∀ c t, ((vals (forwardStepD d obs length c t).1.1, (forwardStepD d obs length c t).1.2.val) :
        (Fin K → ℝ) × ℝ) = (HMM.forwardStep h obs length (vals c.1, c.2.val) t).1 ∧
      vals (forwardStepD d obs length c t).2 = (HMM.forwardStep h obs length (vals c.1, c.2.val) t).2 := by
    intro c t
    have hu : vals (fun j => Dual.where_ (decide (t < length))
        (d.obsProb (obs t) j * Dual.sum fun i => c.1 i * d.transProbs i j) (Dual.const 0)) =
        (if t < length then fun j => h.obsProb (obs t) j * ∑ i, vals c.1 i * h.transProbs i j else fun _ => 0) := by
      funext j
      by_cases hl : t < length
      · simp [vals, Dual.where_, hl, Dual.val_mul, Dual.sum, ho, ht]
      · simp [vals, Dual.where_, hl, Dual.val_const]
    have := normalizeD_val HMM.eps (fun j => Dual.where_ (decide (t < length))
        (d.obsProb (obs t) j * Dual.sum fun i => c.1 i * d.transProbs i j) (Dual.const 0))
    rw [hu] at this
    simp only [forwardStepD, HMM.forwardStep, this.1, Dual.val_add, Dual.val_log, this.2, and_self]
  have hinit := normalizeD_val HMM.eps (fun k => d.initProbs k * d.obsProb (obs 0) k)
  rw [show vals (fun k => d.initProbs k * d.obsProb (obs 0) k) = fun k => h.initProbs k * h.obsProb (obs 0) k from
    funext fun k => by simp [vals, Dual.val_mul, hi, ho]] at hinit
  have hfw : (d.forwardD obs seqLen length).1.val = (h.forward obs seqLen length).1 ∧
      (d.forwardD obs seqLen length).2.map vals = (h.forward obs seqLen length).2 := by
    have key := HMM.scan_hom (forwardStepD d obs length) (HMM.forwardStep h obs length)
      (fun c => (vals c.1, c.2.val)) vals (fun c t => (hfs c t).1) (fun c t => (hfs c t).2)
      (List.range' 1 (seqLen - 1)) (initD d obs)
    rw [show (vals (initD d obs).1, (initD d obs).2.val) = HMM.fwdInit h obs from by
      simp only [initD, HMM.fwdInit, hinit.1, Dual.val_log, hinit.2]] at key
    exact ⟨congrArg Prod.snd key.1, by
      simp only [forwardD, HMM.forward, List.map_cons, hinit.1]
      rw [← HMM.fwdInit, ← initD, key.2]⟩
  have hbs : ∀ b t, vals (backwardStepD d obs length b t).1 = (HMM.backwardStep h obs length (vals b) t).1 := by
    intro b t
    have hu : vals (fun i => Dual.sum fun j => b j * d.obsProb (obs (t - 1)) j * d.transProbs i j) =
        fun i => ∑ j, vals b j * h.obsProb (obs (t - 1)) j * h.transProbs i j := by
      funext i
      simp [vals, Dual.val_mul, Dual.sum, ho, ht]
    have := (normalizeD_val HMM.eps (fun i => Dual.sum fun j => b j * d.obsProb (obs (t - 1)) j * d.transProbs i j)).1
    rw [hu] at this
    simp only [backwardStepD, HMM.backwardStep]
    by_cases hl : length < t
    · rw [if_pos hl]
      funext i
      simp [vals, Dual.where_, hl, Dual.val_const]
    · rw [if_neg hl, ← this]
      funext i
      simp [vals, Dual.where_, hl]
  have hbw : (d.backwardD obs seqLen length).map vals = h.backward obs seqLen length := by
    have key := HMM.scan_hom (backwardStepD d obs length) (HMM.backwardStep h obs length) vals vals hbs hbs
      ((List.range' 2 (seqLen - 1)).reverse) (fun _ => Dual.const 1)
    simp only [backwardD, HMM.backward, List.map_reverse, List.map_cons, key.2]
    rfl
  refine ⟨hfw.2, hbw, ?_, hfw.1⟩
  simp only [forwardBackwardD, HMM.forwardBackward]
  rw [← hfw.2, ← hbw, List.map_map, List.zipWith_map, List.map_zipWith, List.map_zipWith]
  congr 1
  funext a b
  exact (normalizeD_val HMM.eps _).1

/-! ## Where the derivative is the true one -/

/-- **C71 (log-likelihood and filtering rows; partial).** Differentiating `forward` gives the exact derivative of the log
evidence of the first `length` observations and of every filtering posterior; rows beyond `length` are constant.  What the
guards exclude is in `C71_boundary_wrong` (an end point of the range of legal parameters) and `C71_clamped_wrong` (weights in
`(0, 1e-15)`). -/
theorem C71_forward_partial (h : ℝ → HMM K O) (d : HMMD K O) (s0 : ℝ) (hf : Follows h d s0) (hn : NonnegNear h s0)
    (hv : (h s0).Valid) (obs : ℕ → O) (seqLen length : ℕ) (h1 : 1 ≤ length) (h2 : length ≤ seqLen)
    (hc : (h s0).NoClampForward obs length) (hp : 0 < (h s0).evidence obs (length - 1)) :
    HasDerivAt (fun s => Real.log ((h s).evidence obs (length - 1))) (d.forwardD obs seqLen length).1.tan s0 ∧
    (d.forwardD obs seqLen length).2.length = seqLen ∧
    ∀ t a, (d.forwardD obs seqLen length).2[t]? = some a → ∀ k, HasDerivAt
      (fun s => if t < length then (h s).marginal obs t (Fin.last t) k / (h s).evidence obs t else 0) (a k).tan s0 := by
  obtain ⟨n, rfl⟩ : ∃ n, seqLen = n + 1 := ⟨seqLen - 1, by omega⟩
  obtain ⟨l, rfl⟩ : ∃ l, length = l + 1 := ⟨length - 1, by omega⟩
  simp only [Nat.add_sub_cancel] at hp ⊢
  have hin : ∀ t ≤ l, _ := fun t ht => iter_tracks hf hn hv (length := l + 1) t (by omega)
    (fun s hs => hc s (by omega)) (HMM.evidence_pos_of_le hv ht hp)
  rw [forwardD_eq]
  refine ⟨?_, by simp, ?_⟩
  · rcases Nat.lt_or_ge l n with hlt | hge
    · obtain ⟨m, rfl⟩ : ∃ m, n = l + 1 + m := ⟨n - (l + 1), by omega⟩
      rw [iter_beyondD _ _ _ _ _ le_rfl]
      exact (hin l le_rfl).2.1.deriv
    · obtain rfl : n = l := by omega
      exact (hin n le_rfl).2.1.deriv
  · intro t a ha k
    obtain ⟨ht, rfl⟩ := List.getElem?_eq_some_iff.1 ha
    simp only [List.getElem_map, List.getElem_range]
    rcases Nat.lt_or_ge t (l + 1) with hlt | hge
    · simp only [if_pos hlt]
      exact ((hin t (by omega)).1 k).deriv
    · obtain ⟨m, rfl⟩ : ∃ m, t = l + 1 + m := ⟨t - (l + 1), by omega⟩
      rw [iter_beyondD _ _ _ _ _ le_rfl]
      simp only [if_neg (not_lt.2 hge)]
      exact hasDerivAt_const s0 (0 : ℝ)

/-- **C71 (smoothing rows; partial).** Differentiating `forward_backward` on a full sequence gives the exact derivative of
every smoothing posterior `p(z_t = k | x_{0..n})` and of the log-likelihood, under the guards of C43 at `s0`. -/
theorem C71_smoothing_partial (h : ℝ → HMM K O) (d : HMMD K O) (s0 : ℝ) (hf : Follows h d s0) (hn : NonnegNear h s0)
    (hv : (h s0).Valid) (obs : ℕ → O) (n : ℕ) (hc : (h s0).NoClampForward obs (n + 1)) (hb : (h s0).NoClampBackward obs n)
    (hs : (h s0).NoClampSmooth obs n) (hp : 0 < (h s0).evidence obs n) :
    HasDerivAt (fun s => Real.log ((h s).evidence obs n)) (d.forwardBackwardD obs (n + 1) (n + 1)).2.2.2.tan s0 ∧
    (d.forwardBackwardD obs (n + 1) (n + 1)).2.2.1.length = n + 1 ∧
    ∀ (t : Fin (n + 1)) g, (d.forwardBackwardD obs (n + 1) (n + 1)).2.2.1[(t : ℕ)]? = some g → ∀ k, HasDerivAt
      (fun s => (h s).marginal obs n t k / (h s).evidence obs n) (g k).tan s0 := by
  refine ⟨(C71_forward_partial h d s0 hf hn hv obs (n + 1) (n + 1) (by omega) le_rfl hc hp).1, ?_, ?_⟩
  · simp [forwardBackwardD, forwardD_eq, backwardD_eq]
  · rintro ⟨t, ht⟩ g hg k
    have key := gamma_tracks hf hn hv hc hb hs hp t ht k
    simp only [forwardBackwardD, forwardD_eq, backwardD_eq, List.zipWith_map, List.zipWith_self, List.map_map] at hg
    rw [List.getElem?_map, List.getElem?_range ht, Option.map_some, Option.some.injEq] at hg
    rw [← hg]
    exact key.deriv

/-- **C71 (the score; partial).** If the direction moves the logarithms of the probabilities by `a`, `b`, `c`, the derivative of
the log-likelihood is the posterior expectation, given the observations, of the total move along the hidden path. -/
theorem C71_score_partial (h : ℝ → HMM K O) (d : HMMD K O) (s0 : ℝ) (hf : Follows h d s0) (hn : NonnegNear h s0)
    (hv : (h s0).Valid) (obs : ℕ → O) (seqLen length : ℕ) (h1 : 1 ≤ length) (h2 : length ≤ seqLen)
    (hc : (h s0).NoClampForward obs length) (hp : 0 < (h s0).evidence obs (length - 1))
    (a : Fin K → ℝ) (b : Fin K → Fin K → ℝ) (c : O → Fin K → ℝ)
    (ha : ∀ k, (d.initProbs k).tan = (h s0).initProbs k * a k)
    (hb : ∀ i j, (d.transProbs i j).tan = (h s0).transProbs i j * b i j)
    (ho : ∀ o k, (d.obsProb o k).tan = (h s0).obsProb o k * c o k) :
    (d.forwardD obs seqLen length).1.tan = score (h s0) obs (length - 1) a b c := by
  have h3 := (C71_forward_partial h d s0 hf hn hv obs seqLen length h1 h2 hc hp).1
  have h4 := (evidence_deriv hf (obs := obs) (n := length - 1) ha hb ho).log hp.ne'
  rw [h3.unique h4, score_expect]

/-- The family behind `moveObs`: one observation probability grows exponentially, the rest stays. -/
noncomputable def growObs [DecidableEq O] (h : HMM K O) (o : O) (k : Fin K) (s : ℝ) : HMM K O :=
  { h with obsProb := fun o' i => if o' = o ∧ i = k then h.obsProb o' i * Real.exp s else h.obsProb o' i }

theorem growObs_zero [DecidableEq O] (h : HMM K O) (o : O) (k : Fin K) : growObs h o k 0 = h := by
  simp [growObs]

theorem moveObs_follows [DecidableEq O] (h : HMM K O) (o : O) (k : Fin K) : Follows (growObs h o k) (moveObs h o k) 0 where
  init i := Tracks.const _ _
  trans i j := Tracks.const _ _
  obs o' i := by
    refine ⟨?_, ?_⟩
    · simp [growObs, moveObs]
    · simp only [growObs, moveObs]
      split_ifs
      · exact ((Real.hasDerivAt_exp 0).const_mul _).congr_deriv (by simp)
      · exact hasDerivAt_const _ _

theorem growObs_nonneg [DecidableEq O] {h : HMM K O} (hv : h.Valid) (o : O) (k : Fin K) :
    NonnegNear (growObs h o k) 0 where
  init i := Eventually.of_forall fun _ => hv.init_nonneg i
  trans i j := Eventually.of_forall fun _ => hv.trans_nonneg i j
  obs o' i := Eventually.of_forall fun s => by
    simp only [growObs]
    split_ifs
    · exact mul_nonneg (hv.obs_nonneg _ _) (Real.exp_pos s).le
    · exact hv.obs_nonneg _ _

/-- **C71 (gradient and posterior; partial).** The derivative of the log-likelihood with respect to `log obs_dist.prob(o)[k]` is
the sum, over the times at which `o` was observed, of the smoothing posterior of state `k` that `forward_backward` itself
returns. -/
theorem C71_observation_gradient_partial [DecidableEq O] (h : HMM K O) (hv : h.Valid) (obs : ℕ → O) (n : ℕ)
    (hc : h.NoClampForward obs (n + 1)) (hb : h.NoClampBackward obs n) (hs : h.NoClampSmooth obs n)
    (hp : 0 < h.evidence obs n) :
    ∃ gamma : Fin (n + 1) → Fin K → ℝ, (h.forwardBackward obs (n + 1) (n + 1)).2.2.1 = List.ofFn gamma ∧
      ∀ o k, ((moveObs h o k).forwardD obs (n + 1) (n + 1)).1.tan = ∑ t : Fin (n + 1), if obs t = o then gamma t k else 0 := by
  refine ⟨fun t k => h.marginal obs n t k / h.evidence obs n, ?_, ?_⟩
  · obtain ⟨-, -, -, hl, hg, -⟩ := HMM.C43_forward_backward h hv obs n hc hb hs hp
    apply List.ext_getElem?
    intro t
    rcases Nat.lt_or_ge t (n + 1) with ht | ht
    · rw [hg t ht]
      rw [List.getElem?_ofFn, dif_pos ht]
    · rw [List.getElem?_eq_none (by omega), List.getElem?_eq_none (by simpa using ht)]
  · intro o k
    have key := C71_score_partial (growObs h o k) (moveObs h o k) 0 (moveObs_follows h o k) (growObs_nonneg hv o k)
      (by rw [growObs_zero]; exact hv) obs (n + 1) (n + 1) (by omega) le_rfl (by rw [growObs_zero]; exact hc)
      (by rw [growObs_zero]; exact hp) (fun _ => 0) (fun _ _ => 0) (fun o' i => if o' = o ∧ i = k then 1 else 0)
      (fun k => by simp [moveObs, Dual.const]) (fun i j => by simp [moveObs, Dual.const])
      (fun o' i => by rw [growObs_zero]; simp [moveObs])
    rw [key, growObs_zero]
    simp only [score, Nat.add_sub_cancel, mul_zero, Finset.sum_const_zero, zero_add]
    refine Finset.sum_congr rfl fun t _ => ?_
    by_cases ho : obs t = o <;> simp [ho]

/-- Beyond `length` nothing moves: the log-likelihood and its derivative are those of the first `length` observations, whatever
the padded observations are. -/
theorem C71_padding (d : HMMD K O) (obs obs' : ℕ → O) (seqLen length : ℕ) (h1 : 1 ≤ length) (h2 : length ≤ seqLen)
    (he : ∀ t < length, obs' t = obs t) :
    (d.forwardD obs' seqLen length).1 = (d.forwardD obs length length).1 := by
  obtain ⟨n, rfl⟩ : ∃ n, seqLen = n + 1 := ⟨seqLen - 1, by omega⟩
  obtain ⟨l, rfl⟩ : ∃ l, length = l + 1 := ⟨length - 1, by omega⟩
  have hi : ∀ t ≤ l, HMM.iter (forwardStepD d obs' (l + 1)) (initD d obs') 1 t =
      HMM.iter (forwardStepD d obs (l + 1)) (initD d obs) 1 t := by
    intro t ht
    induction t with
    | zero => simp only [HMM.iter, initD, he 0 (by omega)]
    | succ t ih => simp only [HMM.iter, ih (by omega), forwardStepD, he (1 + t) (by omega)]
  rw [forwardD_eq, forwardD_eq]
  rcases Nat.lt_or_ge l n with hlt | hge
  · obtain ⟨m, rfl⟩ : ∃ m, n = l + 1 + m := ⟨n - (l + 1), by omega⟩
    rw [iter_beyondD _ _ _ _ _ le_rfl]
    exact congrArg Prod.snd (hi l le_rfl)
  · obtain rfl : n = l := by omega
    exact congrArg Prod.snd (hi n le_rfl)

/-! ## Impossible observations -/

theorem normalizeD_of_zero (e : ℝ) (u : Fin K → Dual) (hu : ∀ k, (u k).val = 0) :
    normalizeD e u = (fun _ => Dual.const 0, Dual.const 1) := by
  rw [← normalizeD_zero e]
  simp only [normalizeD, hu, Dual.val_const, decide_true, Dual.where_, if_true]

/-- **C71 (impossible observations).** When the observation after step `t0` is impossible, the derivative of the finite number
that `forward` returns is that of the log evidence up to `t0`: nothing is divided by zero and nothing after `t0` contributes. -/
theorem C71_impossible (h : ℝ → HMM K O) (d : HMMD K O) (s0 : ℝ) (hf : Follows h d s0) (hn : NonnegNear h s0)
    (hv : (h s0).Valid) (obs : ℕ → O) (n t0 : ℕ) (ht : t0 < n) (hc : (h s0).NoClampForward obs (t0 + 1))
    (hp : 0 < (h s0).evidence obs t0) (h0 : (h s0).evidence obs (t0 + 1) = 0) :
    HasDerivAt (fun s => Real.log ((h s).evidence obs t0)) (d.forwardD obs (n + 1) (n + 1)).1.tan s0 := by
  have hin := iter_tracks hf hn hv (length := n + 1) t0 (by omega) hc hp
  have hlog : ∀ a : Dual, (Dual.const 1).log + a = a := by
    intro a
    ext
    · rw [Dual.val_add, Dual.val_log, Dual.val_const, Real.log_one, zero_add]
    · rw [Dual.tan_add]; simp [Dual.log, Dual.const]
  have hdead : ∀ m, HMM.iter (forwardStepD d obs (n + 1)) (initD d obs) 1 (t0 + 1 + m) =
      (fun _ => Dual.const 0, (HMM.iter (forwardStepD d obs (n + 1)) (initD d obs) 1 t0).2) := by
    intro m
    induction m with
    | zero =>
      rw [Nat.add_zero, HMM.iter]
      have hz : ∀ k, (Dual.where_ (decide (1 + t0 < n + 1)) (d.obsProb (obs (1 + t0)) k * Dual.sum fun i =>
          (HMM.iter (forwardStepD d obs (n + 1)) (initD d obs) 1 t0).1 i * d.transProbs i k) (Dual.const 0)).val = 0 := by
        intro k
        have hpz := (h s0).predictive_succ obs t0 k
        rw [HMM.predictive, HMM.marginal_eq_zero hv h0, zero_div] at hpz
        rw [Dual.val_where, if_pos (by simpa using by omega), Nat.add_comm 1 t0, Dual.val_mul, (hf.obs _ k).val, Dual.sum]
        simp only [Dual.val_mul, (hin.1 _).val, (hf.trans _ _).val]
        exact hpz.symm
      simp only [forwardStepD]
      rw [normalizeD_of_zero _ _ hz, hlog]
    | succ m ih =>
      rw [← Nat.add_assoc, HMM.iter, ih]
      simp only [forwardStepD]
      rw [normalizeD_of_zero _ _ (fun k => by
        rw [Dual.val_where, Dual.val_mul, Dual.sum]
        simp [Dual.val_mul, Dual.val_const]), hlog]
  rw [forwardD_eq]
  obtain ⟨m, rfl⟩ : ∃ m, n = t0 + 1 + m := ⟨n - (t0 + 1), by omega⟩
  simp only [hdead]
  exact hin.2.1.deriv

/-! ## Where it is not -/

/-- **C71 (clamped weights, finding 44).** If at the first step every state gives the observation a nonzero weight below `1e-15`
(a density value a few standard deviations out in a handful of dimensions is enough), the derivative of the log-likelihood with
respect to everything is zero. -/
theorem C71_clamped_vanishes (d : HMMD K O) (obs : ℕ → O)
    (hw : ∀ k, (d.initProbs k).val * (d.obsProb (obs 0) k).val < 1e-15) :
    (d.forwardD obs 1 1).1.tan = 0 := by
  have hu : ∀ k, (Dual.where_ (decide ((d.initProbs k * d.obsProb (obs 0) k).val = 0)) (Dual.const 0)
      (Dual.where_ (decide ((d.initProbs k * d.obsProb (obs 0) k).val < HMM.eps)) (Dual.const HMM.eps)
        (d.initProbs k * d.obsProb (obs 0) k))).tan = 0 := by
    intro k
    have : (d.initProbs k * d.obsProb (obs 0) k).val < HMM.eps := hw k
    rw [Dual.tan_where, Dual.tan_where]
    simp [this, Dual.tan_const]
  have hc : (normalizeD HMM.eps fun k => d.initProbs k * d.obsProb (obs 0) k).2.tan = 0 := by
    have : ∀ (b : Bool) (a : Dual), a.tan = 0 → (Dual.where_ b (Dual.const 1) a).tan = 0 := by
      rintro (_ | _) a h
      · exact h
      · rfl
    refine this _ _ ?_
    simp only [Dual.sum]
    exact Finset.sum_eq_zero fun k _ => (by convert hu k)
  have : (d.forwardD obs 1 1).1 = (normalizeD HMM.eps fun k => d.initProbs k * d.obsProb (obs 0) k).2.log := rfl
  rw [this, Dual.log, hc, zero_div]

/-- Two states, equally likely; the densities of the one observation are `1e-20` and `s`. -/
noncomputable def faint (s : ℝ) : HMM 2 Unit where
  initProbs _ := 1 / 2
  transProbs _ _ := 1 / 2
  obsProb _ k := if k = 0 then 1e-20 else s
  initLogits _ := 0
  transLogits _ _ := 0
  obsLogProb _ _ := 0

/-- What jax is given at `s = 1e-20`, direction: the logarithm of the second density. -/
noncomputable def faintD : HMMD 2 Unit where
  initProbs _ := Dual.const (1 / 2)
  transProbs _ _ := Dual.const (1 / 2)
  obsProb _ k := if k = 0 then Dual.const 1e-20 else ⟨1e-20, 1e-20⟩

theorem faint_evidence (s : ℝ) (obs : ℕ → Unit) : (faint s).evidence obs 0 = (1e-20 + s) / 2 := by
  rw [← (faint s).sum_marginal obs 0 (Fin.last 0), Fin.sum_univ_two, (faint s).marginal_zero, (faint s).marginal_zero]
  simp [faint]; ring

/-- **C71 fails where weights are clamped.** The true derivative is 1/2, jax returns 0 (and a log-likelihood of about `-33.8`
for a true one of about `-46.1`). -/
theorem C71_clamped_wrong :
    (faint 1e-20).Valid ∧ Follows (fun s => faint (1e-20 * Real.exp s)) faintD 0 ∧
    HasDerivAt (fun s => Real.log ((faint (1e-20 * Real.exp s)).evidence (fun _ => ()) 0)) (1 / 2) 0 ∧
    (faintD.forwardD (fun _ => ()) 1 1).1.tan = 0 := by
  refine ⟨⟨fun _ => by norm_num [faint], by norm_num [faint], fun _ _ => by norm_num [faint], fun _ => by norm_num [faint],
    fun _ k => ?_⟩, ⟨fun k => Tracks.const _ _, fun i j => Tracks.const _ _, fun o k => ?_⟩, ?_, ?_⟩
  · fin_cases k <;> norm_num [faint]
  · fin_cases k
    · exact Tracks.const _ _
    · refine ⟨?_, ?_⟩
      · simp [faint, faintD]
      · exact ((Real.hasDerivAt_exp 0).const_mul (1e-20 : ℝ)).congr_deriv (by simp [faintD])
  · simp only [faint_evidence]
    have h1 : HasDerivAt (fun s : ℝ => (1e-20 + 1e-20 * Real.exp s) / 2) (1e-20 / 2) 0 :=
      ((((Real.hasDerivAt_exp 0).const_mul (1e-20 : ℝ)).const_add (1e-20 : ℝ)).div_const 2).congr_deriv (by simp)
    exact (h1.log (by norm_num)).congr_deriv (by norm_num)
  · apply C71_clamped_vanishes
    intro k
    fin_cases k <;> norm_num [faintD, Dual.const]

/-- Two states of which the second starts with probability `s`; it explains the observation twice as well. -/
noncomputable def edge (s : ℝ) : HMM 2 Unit where
  initProbs k := if k = 0 then 1 - s else s
  transProbs _ _ := 1 / 2
  obsProb _ k := if k = 0 then 1 / 4 else 1 / 2
  initLogits _ := 0
  transLogits _ _ := 0
  obsLogProb _ _ := 0

/-- What jax is given at `s = 0`. -/
noncomputable def edgeD : HMMD 2 Unit where
  initProbs k := if k = 0 then ⟨1, -1⟩ else ⟨0, 1⟩
  transProbs _ _ := Dual.const (1 / 2)
  obsProb _ k := if k = 0 then Dual.const (1 / 4) else Dual.const (1 / 2)

theorem edge_evidence (s : ℝ) (obs : ℕ → Unit) : (edge s).evidence obs 0 = (1 + s) / 4 := by
  rw [← (edge s).sum_marginal obs 0 (Fin.last 0), Fin.sum_univ_two, (edge s).marginal_zero, (edge s).marginal_zero]
  simp [edge]; ring

/-- **C71 fails at the edge of the parameter range (finding 44).** The model is legal for `0 ≤ s ≤ 1` and no weight is clamped at
`s = 0`; moving probability onto the so far excluded state increases the log-likelihood at rate 1, but the derivative jax
returns is -1: the `where(u == 0, 0, ...)` of `_normalize` hides the excluded state's share. -/
theorem C71_boundary_wrong :
    (∀ s, 0 ≤ s → s ≤ 1 → (edge s).Valid) ∧ (edge 0).NoClampForward (fun _ => ()) 1 ∧ Follows edge edgeD 0 ∧
    HasDerivAt (fun s => Real.log ((edge s).evidence (fun _ => ()) 0)) 1 0 ∧
    (edgeD.forwardD (fun _ => ()) 1 1).1.tan = -1 := by
  refine ⟨fun s h0 h1 => ⟨fun k => ?_, by simp [edge], fun _ _ => by norm_num [edge], fun _ => by norm_num [edge],
    fun _ k => ?_⟩, fun t ht k => ?_, ⟨fun k => ?_, fun i j => Tracks.const _ _, fun o k => ?_⟩, ?_, ?_⟩
  · fin_cases k
    · simpa [edge] using h1
    · simpa [edge] using h0
  · fin_cases k <;> norm_num [edge]
  · obtain rfl : t = 0 := by omega
    rw [HMM.predictive_zero]
    fin_cases k <;> norm_num [edge]
  · fin_cases k
    · exact ⟨by simp [edge, edgeD], ((hasDerivAt_id (0 : ℝ)).const_sub 1).congr_deriv (by simp [edgeD])⟩
    · exact ⟨by simp [edge, edgeD], (hasDerivAt_id (0 : ℝ)).congr_deriv (by simp [edgeD])⟩
  · fin_cases k <;> exact Tracks.const _ _
  · simp only [edge_evidence]
    have h1 : HasDerivAt (fun s : ℝ => (1 + s) / 4) (1 / 4) 0 :=
      (((hasDerivAt_id (0 : ℝ)).const_add 1).div_const 4).congr_deriv (by simp)
    exact (h1.log (by norm_num)).congr_deriv (by norm_num)
  · have h0 : (edgeD.forwardD (fun _ => ()) 1 1).1 =
      (normalizeD HMM.eps fun k => edgeD.initProbs k * edgeD.obsProb () k).2.log := rfl
    have e0 : edgeD.initProbs 0 * edgeD.obsProb () 0 = ⟨1 / 4, -(1 / 4)⟩ := by
      ext <;> norm_num [edgeD, Dual.val_mul, Dual.tan_mul, Dual.const]
    have e1 : edgeD.initProbs 1 * edgeD.obsProb () 1 = ⟨0, 1 / 2⟩ := by
      ext <;> norm_num [edgeD, Dual.val_mul, Dual.tan_mul, Dual.const]
    have hc : (normalizeD HMM.eps fun k => edgeD.initProbs k * edgeD.obsProb () k).2 = ⟨1 / 4, -(1 / 4)⟩ := by
      have : ¬ (1 / 4 : ℝ) < HMM.eps := by norm_num [HMM.eps]
      simp only [normalizeD, Dual.sum, Fin.sum_univ_two, e0, e1, Dual.where_]
      norm_num [Dual.const, HMM.eps]
    rw [h0, hc]
    norm_num [Dual.log]

/-! ## Non-vacuity -/

/-- The two-state model of C41, observed for any number of steps: every guard of the theorems above holds and the derivative is
the posterior weight of the moved state. -/
example (obs : ℕ → Bool) (n : ℕ) (o : Bool) (k : Fin 2) :
    Follows (growObs HMM.ex o k) (moveObs HMM.ex o k) 0 ∧ NonnegNear (growObs HMM.ex o k) 0 ∧
    ∃ gamma : Fin (n + 1) → Fin 2 → ℝ, (HMM.ex.forwardBackward obs (n + 1) (n + 1)).2.2.1 = List.ofFn gamma ∧
      ∀ o k, ((moveObs HMM.ex o k).forwardD obs (n + 1) (n + 1)).1.tan = ∑ t : Fin (n + 1), if obs t = o then gamma t k else 0 :=
  ⟨moveObs_follows _ _ _, growObs_nonneg HMM.ex_valid _ _,
    C71_observation_gradient_partial HMM.ex HMM.ex_valid obs n (HMM.ex_noClampForward obs _) (HMM.ex_noClampBackward obs _)
      (HMM.ex_noClampSmooth obs _) (by rw [HMM.ex_evidence]; positivity)⟩

/-- An impossible second observation: the hypotheses of `C71_impossible` hold for the model of `C42_witness` when the
probability of the first observation moves; its derivative 1 is what is returned. -/
example : let obs : ℕ → Bool := fun t => t = 0
    HasDerivAt (fun s => Real.log ((growObs HMM.exImpossible true 0 s).evidence obs 0))
      ((moveObs HMM.exImpossible true 0).forwardD obs 2 2).1.tan 0 := by
  intro obs
  have hv : HMM.exImpossible.Valid :=
    ⟨fun _ => by norm_num [HMM.exImpossible], by norm_num [HMM.exImpossible], fun _ _ => by norm_num [HMM.exImpossible],
      fun _ => by norm_num [HMM.exImpossible], fun o _ => by simp only [HMM.exImpossible]; split_ifs <;> norm_num⟩
  have m0 : ∀ k, HMM.exImpossible.marginal obs 0 (Fin.last 0) k = 1 := by
    intro k; rw [HMM.marginal_zero]; simp [HMM.exImpossible, obs]
  have m1 : ∀ k, HMM.exImpossible.marginal obs 1 (Fin.last 1) k = 0 := by
    intro k; rw [HMM.marginal_succ]; simp [HMM.exImpossible, obs]
  have e0 : HMM.exImpossible.evidence obs 0 = 1 := by
    rw [← HMM.exImpossible.sum_marginal obs 0 (Fin.last 0)]
    simp only [m0]; simp
  have e1 : HMM.exImpossible.evidence obs 1 = 0 := by
    rw [← HMM.exImpossible.sum_marginal obs 1 (Fin.last 1)]
    simp only [m1]; simp
  refine C71_impossible _ _ 0 (moveObs_follows _ _ _) (growObs_nonneg hv _ _) (by rw [growObs_zero]; exact hv) obs 1 0
    (by omega) ?_ ?_ ?_
  · rw [growObs_zero]
    intro t ht k
    obtain rfl : t = 0 := by omega
    right; rw [HMM.predictive, m0]; norm_num
  · rw [growObs_zero, e0]; norm_num
  · rw [growObs_zero, e1]

end HMMD
end Distrax
