import Verif.Props.Float2

/-! C61 continued: discrete distributions, mixtures, quantized distributions, hidden Markov models. -/

namespace Distrax

open FX Spec
open XR (fin pinf ninf nan leB ltB leB_fin leB_pinf ninf_leB pinf_leB leB_ninf fin_sub fin_mul fin_add infOf)

variable {F : Fmt}

/-! ### Products with numbers in [0, 1] -/

/-- A number in [0, 1] is finite. -/
theorem unit_fin {p : FX F} (h0 : lit 0 ≤ p) (h1 : p ≤ lit 1) : ∃ x, p.1 = fin x ∧ 0 ≤ x ∧ x ≤ 1 := by
  obtain ⟨x, hx⟩ := finite_of_le h0 h1 zero_fits one_fits
  rw [le_def, hx, lit_zero, leB_fin] at h0
  rw [le_def, hx, lit_one, leB_fin] at h1
  exact ⟨x, hx, h0, h1⟩

/-- A nonpositive number times a positive float. -/
theorem mul_nonpos_pos {a p : FX F} {x : ℝ} (ha : a ≤ lit 0) (hp : p.1 = fin x) (hx : 0 < x) : a * p ≤ lit 0 := by
  have := mul_pos_mono hp hx ha
  rwa [mul_pos_zero hp, mul_comm'] at this

/-- ... with a factor at most 1 it is also not below the number. -/
theorem le_mul_unit {a p : FX F} (ha : a ≤ lit 0) (hf : a.finite) (h0 : lit 0 ≤ p) (h1 : p ≤ lit 1) :
    a ≤ a * p ∧ a * p ≤ lit 0 := by
  obtain ⟨y, hy⟩ := hf
  obtain ⟨x, hx, x0, x1⟩ := unit_fin h0 h1
  have hy0 : y ≤ 0 := by rw [le_def, hy, lit_zero, leB_fin] at ha; exact ha
  have e : (a * p).1 = F.rd (y * x) := by rw [mul_val, hy, hx, fin_mul]; rfl
  constructor
  · rw [le_def, e, hy, ← rep hy]; exact F.mono (by nlinarith)
  · rw [le_def, e, lit_zero, ← F.rd_zero]; exact F.mono (by nlinarith)

theorem fmnn_zero {a p : FX F} (h : p.1 = fin 0) : multiplyNoNan a p = lit 0 := if_pos h

theorem fmnn_one (a : FX F) : multiplyNoNan a (lit 1) = a := by
  unfold multiplyNoNan whr
  rw [if_neg (by rw [lit_one]; simp), mul_one']

theorem fmnn_nonpos {a p : FX F} (ha : a ≤ lit 0) (h0 : lit 0 ≤ p) (h1 : p ≤ lit 1) : multiplyNoNan a p ≤ lit 0 := by
  unfold multiplyNoNan whr
  split_ifs with g
  · exact rfl' (lit_num 0)
  · obtain ⟨x, hx, x0, -⟩ := unit_fin h0 h1
    exact mul_nonpos_pos ha hx (lt_of_le_of_ne x0 fun e => g (by rw [hx, ← e]))

/-- If the log-probability is finite wherever the probability is not zero, the product is finite. -/
theorem fmnn_finite {a p : FX F} (ha : a ≤ lit 0) (h0 : lit 0 ≤ p) (h1 : p ≤ lit 1) (hf : p.1 ≠ fin 0 → a.finite) :
    (multiplyNoNan a p).finite := by
  unfold multiplyNoNan whr
  split_ifs with g
  · exact ⟨0, lit_zero⟩
  · obtain ⟨l, u⟩ := le_mul_unit ha (hf g) h0 h1
    rcases fin_or u.numL with h | h | h
    · exact h
    · exact absurd h (ne_pinf_of_le u zero_fits)
    · rw [le_def, h] at l
      obtain ⟨y, hy⟩ := hf g
      rw [leB_ninf l] at hy; cases hy

theorem le_mnn {a p : FX F} (ha : a ≤ lit 0) (h0 : lit 0 ≤ p) (h1 : p ≤ lit 1) (hb : lit (-1) ≤ a) : a ≤ multiplyNoNan a p := by
  unfold multiplyNoNan whr
  split_ifs with g
  · exact ha
  · exact (le_mul_unit ha (finite_of_le hb ha (by rw [abs_neg]; exact one_fits) zero_fits) h0 h1).1

/-! ### Bernoulli -/

theorem neg_one_mul' (a : FX F) : lit (-1) * a = -a := ext (by
  rw [neg_val, mul_val, lit_neg_one]
  conv_rhs => rw [← a.2, ← F.r_neg]
  congr 1
  generalize a.1 = x
  cases x with
  | fin y => rw [fin_mul]; congr 1; ring
  | pinf => show infOf (-1) = _; norm_num [infOf]
  | ninf => show infOf (- -1) = _; norm_num [infOf]
  | nan => rfl)

/-- What `Bernoulli` computes from legal parameters: log-probabilities at most 0, probabilities in [0, 1], and the log-probability is
finite where the probability is not 0. -/
structure BernOk (p lp : FX F × FX F) : Prop where
  lp0 : lp.1 ≤ lit 0
  lp1 : lp.2 ≤ lit 0
  p0 : lit 0 ≤ p.1 ∧ p.1 ≤ lit 1
  p1 : lit 0 ≤ p.2 ∧ p.2 ≤ lit 1
  fin0 : p.1.1 ≠ fin 0 → lp.1.finite
  fin1 : p.2.1 ≠ fin 0 → lp.2.finite
  bal : lit (-1) ≤ lp.1 ∨ lit (-1) ≤ lp.2

theorem neg_unit {p : FX F} (h1 : p ≤ lit 1) : lit (-1) ≤ -p := by
  have := neg_le h1
  rwa [show -(lit 1 : FX F) = lit (-1) from ext (by rw [neg_val]; simp)] at this

theorem neg_softplus_ok {x : FX F} (h : ¬ x.isNan) :
    -(softplus x) ≤ lit 0 ∧ ((sigmoid (-x)).1 ≠ fin 0 → (-(softplus x)).finite) := by
  refine ⟨neg_nonpos (softplus_nonneg h), fun g => neg_finite.2 ?_⟩
  rcases fin_or h with hf | hf | hf
  · exact (softplus_finite hf).1
  · exact absurd (by rw [sigmoid, fn_ninf (by rw [neg_val, hf]; rfl)]; exact F.rd_zero) g
  · rw [softplus_ninf hf]; exact ⟨0, lit_zero⟩

theorem bern_logits {l : FX F} (h : ¬ l.isNan) : BernOk (FloatBern.probs l) (FloatBern.logProbs l) := by
  have hn : ¬ (-l).isNan := neg_num.2 h
  unfold FloatBern.probs FloatBern.logProbs
  rw [neg_one_mul']
  refine ⟨(neg_softplus_ok h).1, (neg_softplus_ok hn).1, sigmoid_mem hn, sigmoid_mem h, (neg_softplus_ok h).2, ?_, ?_⟩
  · have := (neg_softplus_ok hn).2
    rwa [neg_neg''] at this
  · rcases le_total h (lit_num 0) with g | g
    · exact .inl (neg_unit (softplus_nonpos_le_one g))
    · exact .inr (neg_unit (softplus_nonpos_le_one (neg_nonpos g)))

theorem one_sub_unit {p : FX F} (h0 : lit 0 ≤ p) (h1 : p ≤ lit 1) : lit 0 ≤ lit 1 - p ∧ lit 1 - p ≤ lit 1 := by
  obtain ⟨x, hx, x0, x1⟩ := unit_fin h0 h1
  have e : (lit 1 - p).1 = F.rd (1 - x) := by rw [sub_val, lit_one, hx, fin_sub]; rfl
  constructor
  · rw [le_def, e, lit_zero, ← F.rd_zero]; exact F.mono (by linarith)
  · rw [le_def, e, lit_one, ← F.rd_one]; exact F.mono (by linarith)

theorem log1p_neg_finite {p : FX F} {x : ℝ} (hx : p.1 = fin x) (x0 : 0 ≤ x) (x1 : x < 1) : (log1p (-p)).finite := by
  have e : (log1p (-p)).1 = F.rd (Real.log (1 - x)) := by
    rw [log1p, fn_val (show (-p).1 = fin (-x) by rw [neg_val, hx]; rfl), ← sub_eq_add_neg, XR.log_fin_pos (by linarith)]
    rfl
  have ht := F.top_ge
  by_cases c : (1 : ℝ) / 2 ≤ x
  · have hl := F.logs (F.oneSub (rep hx) c x1.le) (by linarith)
    have hlb := F.lb_le
    have l0 := (_root_.abs_nonneg _).trans hl
    obtain ⟨z, hz⟩ := F.fits (x := Real.log (1 - x)) (by linarith)
    exact ⟨z, e.trans hz⟩
  · push Not at c
    have l1 : Real.log (1 - x) ≤ 0 := Real.log_nonpos (by linarith) (by linarith)
    have l2 : Real.log (1 / 2) ≤ Real.log (1 - x) := Real.log_le_log (by norm_num) (by linarith)
    have l3 : Real.log (1 / 2) = -Real.log 2 := by rw [one_div, Real.log_inv]
    have l4 := Real.log_two_lt_d9
    obtain ⟨z, hz⟩ := F.fits (x := Real.log (1 - x)) (by rw [abs_le]; constructor <;> linarith)
    exact ⟨z, e.trans hz⟩

theorem bern_probs {p : FX F} (h0 : lit 0 ≤ p) (h1 : p ≤ lit 1) : BernOk (FloatBern.probsP p) (FloatBern.logProbsP p) := by
  obtain ⟨x, hx, x0, x1⟩ := unit_fin h0 h1
  obtain ⟨q0, q1⟩ := one_sub_unit h0 h1
  unfold FloatBern.probsP FloatBern.logProbsP
  rw [neg_one_mul']
  refine ⟨log1p_nonpos (neg_unit h1) (neg_nonpos h0), log_nonpos h0 h1, ⟨q0, q1⟩, one_sub_unit q0 q1, fun g => ?_, fun g => ?_, ?_⟩
  · refine log1p_neg_finite hx x0 (lt_of_le_of_ne x1 fun e => g ?_)
    simp only
    rw [sub_val, hx, e, lit_one, fin_sub, sub_self]; exact F.rd_zero
  · have hp : 0 < x := lt_of_le_of_ne x0 fun e => g (by
      have : p = lit 0 := ext (by rw [hx, ← e, lit_zero])
      simp only
      rw [this, sub_eq (lit 1) (lit 0), neg_zero', add_zero', sub_val, lit_one, fin_sub, sub_self]; exact F.rd_zero)
    obtain ⟨y, hy, -⟩ := log_finite hx hp
    exact ⟨y, hy⟩
  · have l3 : Real.log (1 / 2) = -Real.log 2 := by rw [one_div, Real.log_inv]
    have l4 := Real.log_two_lt_d9
    rcases _root_.le_total (1 / 2 : ℝ) x with c | c
    · right
      simp only
      rw [le_def, log, fn_val hx, XR.log_fin_pos (by linarith)]
      refine F.mono ?_
      have := Real.log_le_log (by norm_num) c
      linarith
    · left
      simp only
      rw [le_def, log1p, fn_val (show (-p).1 = fin (-x) by rw [neg_val, hx]; rfl), ← sub_eq_add_neg, XR.log_fin_pos (by linarith)]
      refine F.mono ?_
      have := Real.log_le_log (show (0 : ℝ) < 1 / 2 by norm_num) (show 1 / 2 ≤ 1 - x by linarith)
      linarith

/-- What every pair of probabilities and log-probabilities that `Bernoulli` computes satisfies: `log_prob(0)` and `log_prob(1)` are
the stored log-probabilities bit for bit and at most 0; the entropy is a nonnegative finite number or `+inf`, never `nan`. -/
theorem bern_ok {p lp : FX F × FX F} (h : BernOk p lp) :
    FloatBern.logProb lp (lit 0) = lp.1 ∧ FloatBern.logProb lp (lit 1) = lp.2 ∧
    lit 0 ≤ FloatBern.entropy p lp ∧
    ∀ q lq : FX F × FX F, BernOk q lq → ¬ (FloatBern.kl p lp lq).isNan := by
  have s0 : ∀ a : FX F, a - lit 0 = a := fun a => by rw [sub_eq, neg_zero', add_zero']
  have s1 : (lit 1 - lit 1 : FX F) = lit 0 := sub_self' ⟨1, lit_one⟩
  have m1 := fmnn_nonpos h.lp0 h.p0.1 h.p0.2
  have m2 := fmnn_nonpos h.lp1 h.p1.1 h.p1.2
  refine ⟨?_, ?_, ?_, fun q lq hq => ?_⟩
  · unfold FloatBern.logProb
    rw [s0, fmnn_one, fmnn_zero lit_zero, add_zero']
  · unfold FloatBern.logProb
    rw [s1, fmnn_one, fmnn_zero lit_zero, zero_add']
  · unfold FloatBern.entropy
    rw [neg_one_mul']
    exact neg_nonneg (add_nonpos m1 m2)
  · have f1 := fmnn_finite h.lp0 h.p0.1 h.p0.2 h.fin0
    have f2 := fmnn_finite h.lp1 h.p1.1 h.p1.2 h.fin1
    have n1 := fmnn_nonpos hq.lp0 h.p0.1 h.p0.2
    have n2 := fmnn_nonpos hq.lp1 h.p1.1 h.p1.2
    have g0 := sub_num_fin f2 n2.numL
    have g1 : (multiplyNoNan lp.2 p.2 - multiplyNoNan lq.2 p.2).1 ≠ ninf := by
      have := le_add f2.num (by obtain ⟨y, hy⟩ := f2; rw [hy]; simp) (neg_nonneg n2)
      rw [← sub_eq] at this
      intro g
      rw [le_def, g] at this
      obtain ⟨y, hy⟩ := f2
      rw [leB_ninf this] at hy; cases hy
    have g2 := add_num_fin' g0 f1
    have n1' := neg_nonneg n1
    have g3 : (multiplyNoNan lp.2 p.2 - multiplyNoNan lq.2 p.2 + multiplyNoNan lp.1 p.1).1 ≠ ninf := by
      obtain ⟨c, hc⟩ := f1
      have bc := abs_le.1 (abs_le_top hc)
      rcases fin_or g0 with ⟨y, hy⟩ | hy | hy
      · have by' := abs_le.1 (abs_le_top hy)
        have key : -1 ≤ c ∨ -1 ≤ y := by
          rcases h.bal with b | b
          · left
            have := LE.le.tr b (le_mnn h.lp0 h.p0.1 h.p0.2 b)
            rw [le_def, hc, lit_neg_one, leB_fin] at this
            exact this
          · right
            have t := le_add f2.num (by obtain ⟨y, hy⟩ := f2; rw [hy]; simp) (neg_nonneg n2)
            rw [← sub_eq] at t
            have := LE.le.tr (LE.le.tr b (le_mnn h.lp1 h.p1.1 h.p1.2 b)) t
            rw [le_def, hy, lit_neg_one, leB_fin] at this
            exact this
        have c0 : c ≤ 0 := by rw [le_def, hc, lit_zero, leB_fin] at m1; exact m1
        have lo : -(F.top + 8) ≤ y + c := by rcases key with k | k <;> linarith
        obtain ⟨z, hz⟩ := F.fits (x := -(F.top + 8)) (by
          have := F.top_ge
          rw [abs_neg, abs_of_pos (by linarith)])
        rw [add_val, hy, hc, fin_add]
        intro g
        have := F.mono lo
        rw [hz] at this
        change F.rd (y + c) = ninf at g
        rw [g] at this
        cases leB_ninf this
      · rw [add_val, hy, hc]; simp [Fmt.r]
      · exact absurd hy g1
    unfold FloatBern.kl
    rw [sub_eq _ (multiplyNoNan lq.1 p.1)]
    exact add_num_iff.2 ⟨g2, n1'.numR, fun g => ne_ninf_of_le n1' zero_fits g.2, fun g => g3 g.1⟩

/-- `Bernoulli(logits=l)` for every `l` that is not `nan`, infinities included. -/
theorem C61_bernoulli_logits (l : FX F) (h : ¬ l.isNan) :
    FloatBern.logProb (FloatBern.logProbs l) (lit 0) ≤ lit 0 ∧ FloatBern.logProb (FloatBern.logProbs l) (lit 1) ≤ lit 0 ∧
    (lit 0 ≤ (FloatBern.probs l).1 ∧ (FloatBern.probs l).1 ≤ lit 1) ∧ (lit 0 ≤ (FloatBern.probs l).2 ∧ (FloatBern.probs l).2 ≤ lit 1) ∧
    (l.finite → (FloatBern.logProb (FloatBern.logProbs l) (lit 0)).finite ∧ (FloatBern.logProb (FloatBern.logProbs l) (lit 1)).finite) ∧
    lit 0 ≤ FloatBern.entropy (FloatBern.probs l) (FloatBern.logProbs l) := by
  have b := bern_logits h
  obtain ⟨e0, e1, e2, -⟩ := bern_ok b
  rw [e0, e1]
  refine ⟨b.lp0, b.lp1, b.p0, b.p1, fun hf => ⟨neg_finite.2 (softplus_finite hf).1, neg_finite.2 ?_⟩, e2⟩
  rw [neg_one_mul']
  exact (softplus_finite (neg_finite.2 hf)).1

/-- `Bernoulli(probs=p)` for every `p` in [0, 1], the ends included. -/
theorem C61_bernoulli_probs (p : FX F) (h0 : lit 0 ≤ p) (h1 : p ≤ lit 1) :
    FloatBern.logProb (FloatBern.logProbsP p) (lit 0) ≤ lit 0 ∧ FloatBern.logProb (FloatBern.logProbsP p) (lit 1) ≤ lit 0 ∧
    lit 0 ≤ FloatBern.entropy (FloatBern.probsP p) (FloatBern.logProbsP p) := by
  have b := bern_probs h0 h1
  obtain ⟨e0, e1, e2, -⟩ := bern_ok b
  rw [e0, e1]
  exact ⟨b.lp0, b.lp1, e2⟩

/-- The KL divergence of two Bernoullis is never `nan`, in all four combinations of `logits` and `probs`, the ends included. -/
theorem C61_bernoulli_kl (l l' p p' : FX F) (hl : ¬ l.isNan) (hl' : ¬ l'.isNan) (h0 : lit 0 ≤ p) (h1 : p ≤ lit 1)
    (h0' : lit 0 ≤ p') (h1' : p' ≤ lit 1) :
    ¬ (FloatBern.kl (FloatBern.probs l) (FloatBern.logProbs l) (FloatBern.logProbs l')).isNan ∧
    ¬ (FloatBern.kl (FloatBern.probs l) (FloatBern.logProbs l) (FloatBern.logProbsP p')).isNan ∧
    ¬ (FloatBern.kl (FloatBern.probsP p) (FloatBern.logProbsP p) (FloatBern.logProbs l')).isNan ∧
    ¬ (FloatBern.kl (FloatBern.probsP p) (FloatBern.logProbsP p) (FloatBern.logProbsP p')).isNan :=
  ⟨(bern_ok (bern_logits hl)).2.2.2 _ _ (bern_logits hl'), (bern_ok (bern_logits hl)).2.2.2 _ _ (bern_probs h0' h1'),
    (bern_ok (bern_probs h0 h1)).2.2.2 _ _ (bern_logits hl'), (bern_ok (bern_probs h0 h1)).2.2.2 _ _ (bern_probs h0' h1')⟩

/-! ### Categorical -/

theorem foldl_max {l : List (FX F)} {a : FX F} (ha : a.Num) (h : ∀ x ∈ l, x.Num) :
    a ≤ l.foldl FX.max a ∧ (∀ x ∈ l, x ≤ l.foldl FX.max a) ∧ (l.foldl FX.max a = a ∨ l.foldl FX.max a ∈ l) := by
  induction l generalizing a with
  | nil => exact ⟨rfl' ha, by simp, .inl rfl⟩
  | cons b t ih =>
    have hb : b.Num := h b (by simp)
    rw [List.foldl_cons]
    have key : a ≤ max a b ∧ b ≤ max a b ∧ (max a b = a ∨ max a b = b) := by
      rcases max_val ha hb with ⟨e, g⟩ | ⟨e, g⟩ <;> rw [e]
      · exact ⟨g, rfl' hb, .inr rfl⟩
      · exact ⟨rfl' ha, g, .inl rfl⟩
    obtain ⟨i1, i2, i3⟩ := ih key.1.numR fun x hx => h x (by simp [hx])
    refine ⟨LE.le.tr key.1 i1, fun x hx => ?_, ?_⟩
    · rcases List.mem_cons.1 hx with rfl | hx
      · exact LE.le.tr key.2.1 i1
      · exact i2 x hx
    · rcases i3 with e | e
      · rw [e]
        rcases key.2.2 with k | k
        · exact .inl k
        · exact .inr (by simp [k])
      · exact .inr (by simp [e])

theorem maxEntry_spec {n : ℕ} {l : Fin (n + 1) → FX F} (h : ∀ i, (l i).Num) :
    (∀ i, l i ≤ FloatCat.maxEntry l) ∧ ∃ j, FloatCat.maxEntry l = l j := by
  unfold FloatCat.maxEntry
  have ht : (List.ofFn l).tail = List.ofFn fun i : Fin n => l i.succ := by rw [List.ofFn_succ]; rfl
  rw [ht]
  obtain ⟨a, b, c⟩ := foldl_max (l := List.ofFn fun i : Fin n => l i.succ) (h 0) fun x hx => by
    obtain ⟨i, rfl⟩ := (List.mem_ofFn' _ _).1 hx
    exact h _
  refine ⟨fun i => ?_, ?_⟩
  · refine Fin.cases a (fun k => b _ ?_) i
    exact (List.mem_ofFn' _ _).2 ⟨k, rfl⟩
  · rcases c with c | c
    · exact ⟨0, c⟩
    · obtain ⟨k, hk⟩ := (List.mem_ofFn' _ _).1 c
      exact ⟨k.succ, hk.symm⟩

/-- The common part of `log_softmax` and `softmax`: the shifted logits are at most 0, one of them is 0, and the sum of the exponentials is
at least 1. -/
theorem shifted_spec {n : ℕ} {l : Fin (n + 1) → FX F} (h : FloatLogits l) :
    (∀ i, l i - FloatCat.maxEntry l ≤ lit 0) ∧
    (∀ s, SumsTo (List.ofFn fun i => exp (l i - FloatCat.maxEntry l)) s → lit 1 ≤ s ∧ ∀ i, exp (l i - FloatCat.maxEntry l) ≤ s) := by
  have hn : ∀ i, (l i).Num := fun i => by
    rcases h.1 i with g | g
    · exact g.num
    · show (l i).1 ≠ nan; rw [g]; simp
  obtain ⟨m1, j, hj⟩ := maxEntry_spec hn
  have mf : (FloatCat.maxEntry l).finite := by
    rcases h.1 j with g | g
    · rw [hj]; exact g
    · obtain ⟨i, x, hx⟩ := h.2
      have := m1 i
      rw [hj, le_def, g] at this
      rw [leB_ninf this] at hx; cases hx
  have s0 : ∀ i, l i - FloatCat.maxEntry l ≤ lit 0 := fun i => sub_nonpos (m1 i) (sub_num_fin' (hn i) mf)
  refine ⟨s0, fun s hs => ?_⟩
  obtain ⟨-, b⟩ := sums_nonneg hs fun x hx => by
    obtain ⟨i, rfl⟩ := (List.mem_ofFn' _ _).1 hx
    exact exp_nonneg (s0 i).numL
  have hle : ∀ i, exp (l i - FloatCat.maxEntry l) ≤ s := fun i => b _ ((List.mem_ofFn' _ _).2 ⟨i, rfl⟩)
  have := hle j
  rw [← hj, sub_self' mf, exp_zero] at this
  exact ⟨this, hle⟩

/-- `log_softmax` of legal logits (`-inf` entries allowed, not all of them): every entry is at most 0 and not `nan`, for any number of
categories and any order of summation. -/
theorem C61_log_softmax {n : ℕ} (l r : Fin (n + 1) → FX F) (h : FloatLogits l) (hr : FloatCat.LogSoftmax l r) :
    ∀ i, r i ≤ lit 0 := by
  obtain ⟨s, hs, e⟩ := hr
  obtain ⟨s0, s1⟩ := shifted_spec h
  intro i
  rw [e, sub_eq]
  exact add_nonpos (s0 i) (neg_nonpos (log_nonneg (s1 s hs).1))

/-- `Categorical.probs` of legal logits lies in [0, 1] and is never `nan`. -/
theorem C61_softmax {n : ℕ} (l p : Fin (n + 1) → FX F) (h : FloatLogits l) (hp : FloatCat.Softmax l p) :
    ∀ i, lit 0 ≤ p i ∧ p i ≤ lit 1 := by
  obtain ⟨s, hs, e⟩ := hp
  obtain ⟨s0, s1⟩ := shifted_spec h
  obtain ⟨b1, b2⟩ := s1 s hs
  intro i
  have x0 := exp_nonneg (s0 i).numL
  have hle := b2 i
  rw [e]
  rcases fin_or b1.numR with ⟨y, hy⟩ | hy | hy
  · have y1 : 1 ≤ y := by rw [le_def, hy, lit_one, leB_fin] at b1; exact b1
    have A := div_pos_mono hy (by linarith) x0
    have B := div_pos_mono hy (by linarith) hle
    rw [zero_div' hy (by linarith)] at A
    refine ⟨A, LE.le.tr B ?_⟩
    rw [le_def, div_val, hy, XR.div_fin (by linarith), div_self (by linarith), lit_one]
    show leB (F.rd 1) _
    rw [F.rd_one]; exact leB_fin.2 le_rfl
  · obtain ⟨x, hx, -, -⟩ := unit_fin x0 (exp_le_one (s0 i))
    have : exp (l i - FloatCat.maxEntry l) / s = lit 0 := ext (by rw [div_val, hx, hy]; rfl)
    rw [this]
    exact ⟨rfl' (lit_num 0), lit_le zero_le_one⟩
  · exact absurd hy (ne_ninf_of_le b1 one_fits)

/-- `Categorical.entropy` of legal logits is nonnegative and never `nan`, zero-probability categories included. -/
theorem C61_categorical_entropy {n : ℕ} (l : Fin (n + 1) → FX F) (e : FX F) (h : FloatLogits l) (he : FloatCat.Entropy l e) :
    lit 0 ≤ e := by
  obtain ⟨lp, s, h1, h2, rfl⟩ := he
  refine neg_nonneg (sums_nonpos h2 fun x hx => ?_)
  obtain ⟨i, rfl⟩ := (List.mem_ofFn' _ _).1 hx
  have l0 := C61_log_softmax l lp h h1 i
  unfold mulExp whr
  simp only
  split_ifs with g
  · rw [show exp (lp i) = lit 0 from ext (by rw [g, lit_zero]), mul_pos_zero lit_zero]
    exact rfl' (lit_num 0)
  · obtain ⟨x, hx, x0, -⟩ := unit_fin (exp_nonneg l0.numL) (exp_le_one l0)
    exact mul_nonpos_pos l0 hx (lt_of_le_of_ne x0 fun e => g (by rw [hx, ← e]))

/-! ### Mixtures -/

/-- `MixtureOfTwo.log_prob` with mixing probability in [0, 1] (ends included) and component log-probabilities that are not `nan` or
`+inf` is never `nan`, and is at least each weighted component. -/
theorem C61_mixture_of_two (pA lpA lpB : FX F) (h0 : lit 0 ≤ pA) (h1 : pA ≤ lit 1) (hA : ¬ lpA.isNan) (hA' : lpA.1 ≠ pinf)
    (hB : ¬ lpB.isNan) (hB' : lpB.1 ≠ pinf) :
    log pA + lpA ≤ floatMixtureOfTwo pA lpA lpB ∧ log (lit 1 - pA) + lpB ≤ floatMixtureOfTwo pA lpA lpB := by
  obtain ⟨q0, q1⟩ := one_sub_unit h0 h1
  have key : ∀ {p l : FX F}, lit 0 ≤ p → p ≤ lit 1 → l.Num → l.1 ≠ pinf → (log p + l).Num ∧ (log p + l).1 ≠ pinf := by
    intro p l h0 h1 hl hl'
    have := add_le hl hl' (log_nonpos h0 h1)
    rw [add_comm'] at this
    refine ⟨this.numL, fun g => hl' ?_⟩
    rw [le_def, g] at this
    exact pinf_leB this
  obtain ⟨a1, a2⟩ := key h0 h1 hA hA'
  obtain ⟨b1, b2⟩ := key q0 q1 hB hB'
  exact logaddexp_num a1 b1 a2 b2

end Distrax
