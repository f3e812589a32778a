import Verif.Lemmas.FloatViterbi
import Verif.Props.FloatHMM4

/-!
**C77: Viterbi decoding in floating point.**  In every format the path that `viterbi` returns maximises the log joint probability *as
evaluated in floating point*; so its exact log joint probability is within the rounding error of the evaluation of the best one.
-/

namespace Distrax

open FX Spec
open XR (fin pinf ninf nan leB ltB fin_mul fin_add)

namespace FVit

variable {F : Fmt} {K : ℕ} {O : Type} [NeZero K] {h : FVit F K O} {obs : ℕ → O} {S : (Fin K → FX F) → FX F} {n : ℕ} {u η : ℝ}

/-- **C77 (the float score is maximised).**  For every format, number of states, sequence and length, if no path evaluates to `nan`: the
list returned is a path whose floating-point score is the largest of all paths. -/
theorem C77_maximises (hK : IndicesExact F K) (hS : IsSum S) (hn : ∀ z, (h.floatScore obs z n).Num) :
    ∃ z, h.Returns obs S n z ∧ ∀ z', h.floatScore obs z' n ≤ h.floatScore obs z n := by
  refine ⟨_, h.returns_pathTo obs hK hS n, fun z' => ?_⟩
  rw [← h.table_eq_pathTo obs]
  exact (h.score_le_table obs hn z').tr (le_argmax _ (h.table_num obs hn) _)

/-! ### log-probabilities are at most zero -/

omit [NeZero K] in
theorem score_nonpos (h0 : h.All (· ≤ lit 0)) (z : ℕ → Fin K) : h.floatScore obs z n ≤ lit 0 := by
  induction n with
  | zero => exact add_nonpos (h0.init _) (h0.obs _ _)
  | succ n ih => exact add_nonpos (add_nonpos ih (h0.trans _ _)) (h0.obs _ _)

/-- **C77 (discrete observations).**  If all log-probabilities are at most zero (they may be `-inf`) there is no proviso: in every format
and for every length the returned path has the largest floating-point score. -/
theorem C77_discrete (hK : IndicesExact F K) (hS : IsSum S) (h0 : h.All (· ≤ lit 0)) :
    ∃ z, h.Returns obs S n z ∧ ∀ z', h.floatScore obs z' n ≤ h.floatScore obs z n :=
  C77_maximises hK hS fun z => (score_nonpos h0 z).numL

omit [NeZero K] in
theorem possible_of_finite {z : ℕ → Fin K} (hf : (h.floatScore obs z n).finite) : h.Possible obs z n := by
  induction n with
  | zero =>
    obtain ⟨a, b⟩ := add_fin hf
    exact ⟨a, fun t ht => by rw [Nat.le_zero.1 ht]; exact b, fun t ht => absurd ht (by omega)⟩
  | succ n ih =>
    obtain ⟨a, b⟩ := add_fin hf
    obtain ⟨a, c⟩ := add_fin a
    obtain ⟨i1, i2, i3⟩ := ih a
    refine ⟨i1, fun t ht => ?_, fun t ht => ?_⟩
    · rcases Nat.lt_or_ge t (n + 1) with g | g
      · exact i2 t (by omega)
      · rw [show t = n + 1 by omega]; exact b
    · rcases Nat.lt_or_ge t n with g | g
      · exact i3 t g
      · rw [show t = n by omega]; exact c

omit [NeZero K] in
theorem logJoint_succ (z : ℕ → Fin K) : h.logJoint obs z (n + 1) =
    h.logJoint obs z n + (h.transLogProbs (z n) (z (n + 1))).val + (h.obsLogProb (obs (n + 1)) (z (n + 1))).val := by
  unfold logJoint
  rw [Finset.sum_range_succ _ (n + 1), Finset.sum_range_succ (fun t => (h.transLogProbs (z t) (z (t + 1))).val) n]
  ring

theorem val_nonpos {a : FX F} (hf : a.finite) (h0 : a ≤ lit 0) : a.val ≤ 0 := by
  rw [le_def, fin_val hf, lit_zero] at h0
  exact XR.leB_fin.1 h0

section
variable (A : F.Acc u η)
include A

theorem add_rel {a b : FX F} (hf : (a + b).finite) : |(a + b).val - (a.val + b.val)| ≤ u * |a.val + b.val| := by
  obtain ⟨fa, fb⟩ := add_fin hf
  exact A.addErr (rep (fin_val fa)) (rep (fin_val fb)) (by
        rw [← fin_val hf, add_val, fin_val fa, fin_val fb, fin_add]; rfl)

theorem close_add_nonpos {a b : FX F} {k : ℕ} {x : ℝ} (hf : (a + b).finite) (ha : a.val ≤ 0) (hb : b.val ≤ 0) (hx : x ≤ 0)
    (c : Close (perturb u) k (-a.val) (-x)) : Close (perturb u) (k + 1) (-(a + b).val) (-(x + b.val)) ∧ (a + b).val ≤ 0 := by
  have u0 := A.u0
  have u1 := A.u_le
  have p1 := perturb_one_le A
  have hρ : 0 < 1 - 2 * u := by linarith
  have key := add_rel A hf
  rw [abs_of_nonpos (by linarith : a.val + b.val ≤ 0)] at key
  have hd := abs_le.1 key
  have pab : 0 ≤ -(a.val + b.val) := by linarith
  have c1 : Close (perturb u) 1 (-(a + b).val) (-(a.val + b.val)) := by
    unfold Close perturb
    rw [pow_one]
    constructor
    · rw [div_mul_eq_mul_div, le_div_iff₀ hρ]
      nlinarith [mul_nonneg u0 pab, mul_nonneg u0 (mul_nonneg u0 pab)]
    · rw [div_mul_eq_mul_div, le_div_iff₀ hρ]; nlinarith [mul_nonneg u0 pab, mul_nonneg u0 (mul_nonneg u0 pab)]
  have c2 : Close (perturb u) k (-(a.val + b.val)) (-(x + b.val)) := by
    have pk : 1 ≤ perturb u ^ k := one_le_pow₀ p1
    constructor
    · nlinarith [c.1, mul_nonneg (sub_nonneg.2 pk) (neg_nonneg.2 hb)]
    · nlinarith [c.2, mul_nonneg (sub_nonneg.2 pk) (neg_nonneg.2 hb)]
  refine ⟨?_, by nlinarith⟩
  rw [add_comm k 1]
  exact c1.trans p1 c2

omit [NeZero K] in
theorem close_score (h0 : h.All (· ≤ lit 0)) (z : ℕ → Fin K) (hf : (h.floatScore obs z n).finite) :
    Close (perturb u) (2 * n + 1) (-(h.floatScore obs z n).val) (-(h.logJoint obs z n)) ∧ h.logJoint obs z n ≤ 0 := by
  induction n with
  | zero =>
    obtain ⟨a, b⟩ := add_fin hf
    have ha := val_nonpos a (h0.init _)
    have hb := val_nonpos b (h0.obs _ _)
    have := close_add_nonpos A hf ha hb ha (Close.refl _ _)
    have e : h.logJoint obs z 0 = (h.initLogProbs (z 0)).val + (h.obsLogProb (obs 0) (z 0)).val := by simp [logJoint]
    rw [e]
    exact ⟨this.1, by linarith⟩
  | succ n ih =>
    obtain ⟨a, b⟩ := add_fin hf
    obtain ⟨a', c⟩ := add_fin a
    obtain ⟨i1, i2⟩ := ih a'
    have hs := val_nonpos a' (score_nonpos h0 z)
    have hb := val_nonpos b (h0.obs _ _)
    have hc := val_nonpos c (h0.trans _ _)
    obtain ⟨s1, s2⟩ := close_add_nonpos A a hs hc i2 i1
    obtain ⟨s3, -⟩ := close_add_nonpos A hf s2 hb (by linarith) s1
    rw [logJoint_succ]
    exact ⟨s3, by linarith⟩

/-- **C77 (relative suboptimality).**  With log-probabilities at most zero: compared with any path `z'` whose floating-point score is
finite, the path returned is possible and its negative log joint probability exceeds that of `z'` at most by the factor
`(1 / (1 - 2u)) ^ (2 (2n + 1))`. -/
theorem C77_relative (hK : IndicesExact F K) (hS : IsSum S) (h0 : h.All (· ≤ lit 0)) :
    ∃ z, h.Returns obs S n z ∧ ∀ z', (h.floatScore obs z' n).finite →
      h.Possible obs z n ∧ -(h.logJoint obs z n) ≤ perturb u ^ (2 * (2 * n + 1)) * -(h.logJoint obs z' n) := by
  obtain ⟨z, hz, hm⟩ := C77_discrete (obs := obs) (n := n) hK hS h0
  refine ⟨z, hz, fun z' hf => ?_⟩
  have hle := hm z'
  have hf2 : (h.floatScore obs z n).finite := by
    have g := score_nonpos (obs := obs) (n := n) h0 z
    rw [le_def] at g hle
    rw [fin_val hf] at hle
    rw [lit_zero] at g
    cases e : (h.floatScore obs z n).1 with
    | fin x => exact ⟨x, e⟩
    | pinf => rw [e] at g; simp [leB, ltB, XR.eqB] at g
    | ninf => rw [e] at hle; simp [leB, ltB, XR.eqB] at hle
    | nan => rw [e] at hle; simp [leB, ltB, XR.eqB] at hle
  refine ⟨possible_of_finite hf2, ?_⟩
  obtain ⟨c1, -⟩ := close_score A h0 z hf2
  obtain ⟨c2, -⟩ := close_score A h0 z' hf
  have hv : (h.floatScore obs z' n).val ≤ (h.floatScore obs z n).val := by
    rw [le_def, fin_val hf, fin_val hf2] at hle
    exact XR.leB_fin.1 hle
  have p0 : 0 ≤ perturb u ^ (2 * n + 1) := pow_nonneg (by linarith [perturb_one_le A]) _
  calc -(h.logJoint obs z n) ≤ perturb u ^ (2 * n + 1) * -(h.floatScore obs z n).val := c1.2
    _ ≤ perturb u ^ (2 * n + 1) * (perturb u ^ (2 * n + 1) * -(h.logJoint obs z' n)) :=
        mul_le_mul_of_nonneg_left ((neg_le_neg hv).trans c2.1) p0
    _ = perturb u ^ (2 * (2 * n + 1)) * -(h.logJoint obs z' n) := by rw [two_mul (2 * n + 1), pow_add]; ring

/-! ### log-densities of either sign -/

/-- `k` additions have produced the float `a` for the sum `x` of terms whose absolute values add up to at most `B`. -/
def Tracked (u : ℝ) (k : ℕ) (a : FX F) (x B : ℝ) : Prop := a.finite ∧ |a.val - x| ≤ ((1 + u) ^ k - 1) * B ∧ |x| ≤ B

theorem Tracked.add {k : ℕ} {a b : FX F} {x B : ℝ} (ha : Tracked u k a x B) (hb : b.finite) {M : ℝ} (hM : |b.val| ≤ M)
    (htop : (1 + u) ^ k * (B + M) ≤ F.top) : Tracked u (k + 1) (a + b) (x + b.val) (B + M) := by
  have u0 := A.u0
  obtain ⟨f, e, hx⟩ := ha
  have pk : 1 ≤ (1 + u) ^ k := one_le_pow₀ (by linarith)
  have M0 := (_root_.abs_nonneg _).trans hM
  have hB := (_root_.abs_nonneg _).trans hx
  have sa : |a.val| ≤ (1 + u) ^ k * B := by
    have := abs_add_le (a.val - x) x
    rw [sub_add_cancel] at this
    nlinarith
  have sab : |a.val + b.val| ≤ (1 + u) ^ k * (B + M) := by
    have := abs_add_le a.val b.val
    nlinarith
  have hf : (a + b).finite := fin_add_of (fin_val f) (fin_val hb) (by linarith)
  refine ⟨hf, ?_, (abs_add_le _ _).trans (by linarith)⟩
  have r := add_rel A hf
  have t : |(a + b).val - (x + b.val)| ≤ |(a + b).val - (a.val + b.val)| + |a.val - x| := by
    have := abs_add_le ((a + b).val - (a.val + b.val)) (a.val - x)
    rwa [show (a + b).val - (a.val + b.val) + (a.val - x) = (a + b).val - (x + b.val) by ring] at this
  have q : u * |a.val + b.val| ≤ u * ((1 + u) ^ k * (B + M)) := mul_le_mul_of_nonneg_left sab u0
  have := mul_nonneg (_root_.sub_nonneg.2 pk) M0
  rw [pow_succ]
  nlinarith

omit A in
theorem bounded_fin {M : ℝ} {a : FX F} (hb : Bounded M a) (hf : a.finite) : |a.val| ≤ M := by
  rcases hb with e | e
  · obtain ⟨x, hx⟩ := hf; rw [e] at hx; cases hx
  · exact e.2

omit [NeZero K] in
theorem tracked_score {M : ℝ} (hb : h.All (Bounded M)) (hM : 0 ≤ M) (htop : (1 + u) ^ (2 * n + 1) * (2 * (n + 1) * M) ≤ F.top)
    {z : ℕ → Fin K} (hp : h.Possible obs z n) :
    Tracked u (2 * n + 1) (h.floatScore obs z n) (h.logJoint obs z n) (2 * (n + 1) * M) := by
  have u0 := A.u0
  induction n with
  | zero =>
    have t0 : Tracked u 0 (h.initLogProbs (z 0)) (h.initLogProbs (z 0)).val M :=
      ⟨hp.1, by simp, bounded_fin (hb.init _) hp.1⟩
    have := t0.add A (hp.2.1 0 le_rfl) (bounded_fin (hb.obs _ _) (hp.2.1 0 le_rfl)) (by
      have : (1 + u) ^ 0 * (M + M) ≤ (1 + u) ^ (2 * 0 + 1) * (2 * (((0 : ℕ) : ℝ) + 1) * M) := by norm_num; nlinarith
      exact this.trans htop)
    have e : h.logJoint obs z 0 = (h.initLogProbs (z 0)).val + (h.obsLogProb (obs 0) (z 0)).val := by simp [logJoint]
    rw [e]
    rw [show 2 * (((0 : ℕ) : ℝ) + 1) * M = M + M by push_cast; ring]
    exact this
  | succ n ih =>
    have hp' : h.Possible obs z n := ⟨hp.1, fun t ht => hp.2.1 t (by omega), fun t ht => hp.2.2 t (by omega)⟩
    have up : ∀ k ≤ 2 * (n + 1) + 1, ∀ c : ℝ, c ≤ 2 * ((n + 1 : ℕ) + 1) * M → 0 ≤ c → (1 + u) ^ k * c ≤ F.top := by
      intro k hk c hc c0
      refine le_trans (mul_le_mul (pow_le_pow_right₀ (by linarith) hk) hc c0 (pow_nonneg (by linarith) _)) htop
    have nn : (0 : ℝ) ≤ n := Nat.cast_nonneg n
    have i := ih (up _ (by omega) _ (by push_cast; nlinarith) (by positivity)) hp'
    have f1 := hp.2.2 n (by omega)
    have f2 := hp.2.1 (n + 1) le_rfl
    have t1 := i.add A f1 (bounded_fin (hb.trans _ _) f1) (up _ (by omega) _ (by push_cast; nlinarith) (by positivity))
    have t2 := t1.add A f2 (bounded_fin (hb.obs _ _) f2) (up _ (by omega) _ (by push_cast; nlinarith) (by positivity))
    rw [logJoint_succ]
    rw [show 2 * (((n + 1 : ℕ) : ℝ) + 1) * M = 2 * ((n : ℝ) + 1) * M + M + M by push_cast; ring]
    exact t2

omit [NeZero K] in
/-- Without overflow a path evaluates to a finite number if it is possible and to `-inf` otherwise. -/
theorem score_of_not_possible {M : ℝ} (hb : h.All (Bounded M)) (hM : 0 ≤ M) (htop : (1 + u) ^ (2 * n + 1) * (2 * (n + 1) * M) ≤ F.top)
    {z : ℕ → Fin K} (hp : ¬ h.Possible obs z n) : (h.floatScore obs z n).1 = ninf := by
  have u0 := A.u0
  have bf : ∀ {a : FX F}, Bounded M a → a.1 = ninf ∨ a.finite := fun h => h.imp id And.left
  have na : ∀ {a b : FX F}, (a.1 = ninf ∨ a.finite) → (b.1 = ninf ∨ b.finite) → (a.1 = ninf ∨ b.1 = ninf) → (a + b).1 = ninf := by
    intro a b ha hb h
    rw [add_val]
    rcases ha with ha | ⟨x, ha⟩ <;> rcases hb with hb | ⟨y, hb⟩ <;> rw [ha, hb] <;> first | rfl | (rw [ha, hb] at h; simp at h)
  induction n with
  | zero =>
    refine na (bf (hb.init _)) (bf (hb.obs _ _)) ?_
    by_contra g
    push Not at g
    exact hp ⟨(bf (hb.init _)).resolve_left g.1, fun t ht => by rw [Nat.le_zero.1 ht]; exact (bf (hb.obs _ _)).resolve_left g.2,
      fun t ht => absurd ht (by omega)⟩
  | succ n ih =>
    have nn : (0 : ℝ) ≤ n := Nat.cast_nonneg n
    have top' : ∀ k ≤ 2 * (n + 1) + 1, ∀ c : ℝ, c ≤ 2 * ((n + 1 : ℕ) + 1) * M → 0 ≤ c → (1 + u) ^ k * c ≤ F.top := by
      intro k hk c hc c0
      refine le_trans (mul_le_mul (pow_le_pow_right₀ (by linarith) hk) hc c0 (pow_nonneg (by linarith) _)) htop
    have ht := top' (2 * n + 1) (by omega) (2 * (n + 1) * M) (by push_cast; nlinarith) (by positivity)
    by_cases g : h.Possible obs z n
    · have i := tracked_score A hb hM ht g
      by_cases g1 : (h.transLogProbs (z n) (z (n + 1))).1 = ninf
      · exact na (Or.inl (na (Or.inr i.1) (Or.inl g1) (Or.inr g1))) (bf (hb.obs _ _)) (Or.inl (na (Or.inr i.1) (Or.inl g1) (Or.inr g1)))
      · have f1 := (bf (hb.trans (z n) (z (n + 1)))).resolve_left g1
        have t1 := i.add A f1 (bounded_fin (hb.trans _ _) f1) (top' _ (by omega) _ (by push_cast; nlinarith) (by positivity))
        refine na (Or.inr t1.1) (bf (hb.obs _ _)) (Or.inr ?_)
        by_contra g2
        have f2 := (bf (hb.obs (obs (n + 1)) (z (n + 1)))).resolve_left g2
        refine hp ⟨g.1, fun t ht => ?_, fun t ht => ?_⟩
        · rcases Nat.lt_or_ge t (n + 1) with q | q
          · exact g.2.1 t (by omega)
          · rw [show t = n + 1 by omega]; exact f2
        · rcases Nat.lt_or_ge t n with q | q
          · exact g.2.2 t q
          · rw [show t = n by omega]; exact f1
    · have i := ih ht g
      have s1 := na (Or.inl i) (bf (hb.trans (z n) (z (n + 1)))) (Or.inl i)
      exact na (Or.inl s1) (bf (hb.obs _ _)) (Or.inl s1)

/-- **C77 (absolute suboptimality).**  Log-probabilities that are `-inf` or of absolute value at most `M` (densities may exceed one), sums
that do not overflow: if any path is possible the one returned is, and its exact log joint probability falls short of the best at most by
twice the rounding error of a sum of `2(n + 1)` terms. -/
theorem C77_absolute (hK : IndicesExact F K) (hS : IsSum S) {M : ℝ} (hb : h.All (Bounded M)) (hM : 0 ≤ M)
    (htop : (1 + u) ^ (2 * n + 1) * (2 * (n + 1) * M) ≤ F.top) :
    ∃ z, h.Returns obs S n z ∧ ∀ z', h.Possible obs z' n →
      h.Possible obs z n ∧ h.logJoint obs z' n ≤ h.logJoint obs z n + 2 * (((1 + u) ^ (2 * n + 1) - 1) * (2 * (n + 1) * M)) := by
  obtain ⟨z, hz, hm⟩ := C77_maximises (h := h) (obs := obs) (S := S) (n := n) hK hS (by
    intro z
    by_cases g : h.Possible obs z n
    · exact (tracked_score A hb hM htop g).1.num
    · intro e
      have := score_of_not_possible A hb hM htop g
      rw [show (h.floatScore obs z n).1 = nan from e] at this
      cases this)
  refine ⟨z, hz, fun z' hp => ?_⟩
  have t' := tracked_score A hb hM htop hp
  have hle := hm z'
  rw [le_def, fin_val t'.1] at hle
  have g : h.Possible obs z n := by
    by_contra g
    rw [score_of_not_possible A hb hM htop g] at hle
    simp [leB, ltB, XR.eqB] at hle
  have t := tracked_score A hb hM htop g
  rw [fin_val t.1] at hle
  have hv := XR.leB_fin.1 hle
  have e1 := abs_le.1 t.2.1
  have e2 := abs_le.1 t'.2.1
  exact ⟨g, by linarith⟩

/-- **C77 (exact decoding).**  If one possible path beats every other by more than that error, `viterbi` returns exactly this path. -/
theorem C77_exact (hK : IndicesExact F K) (hS : IsSum S) {M : ℝ} (hb : h.All (Bounded M)) (hM : 0 ≤ M)
    (htop : (1 + u) ^ (2 * n + 1) * (2 * (n + 1) * M) ≤ F.top) {best : ℕ → Fin K} (hbest : h.Possible obs best n)
    (hgap : ∀ z, h.Possible obs z n → (∃ t ≤ n, z t ≠ best t) →
      h.logJoint obs z n + 2 * (((1 + u) ^ (2 * n + 1) - 1) * (2 * (n + 1) * M)) < h.logJoint obs best n) :
    h.Returns obs S n best := by
  obtain ⟨z, hz, hm⟩ := C77_absolute A (obs := obs) (n := n) hK hS hb hM htop
  obtain ⟨g1, g2⟩ := hm best hbest
  have e : ∀ t ≤ n, z t = best t := by
    by_contra g
    push Not at g
    exact absurd (hgap z g1 g) (by linarith)
  unfold Returns at hz ⊢
  rw [hz]
  refine List.map_congr_left fun t ht => ?_
  rw [e t (by have := List.mem_range.1 ht; omega)]

end

/-! ### where the log-probabilities come from -/

/-- **C77 (categorical models).**  Legal logits (`-inf` entries allowed) pushed through `log_softmax`, and observation log-probabilities at
most zero: `viterbi` maximises the floating-point score, without any further condition. -/
theorem C77_categorical {m : ℕ} {h : FVit F (m + 1) O} {S : (Fin (m + 1) → FX F) → FX F} {il : Fin (m + 1) → FX F}
    {tl : Fin (m + 1) → Fin (m + 1) → FX F} (hK : IndicesExact F (m + 1)) (hS : IsSum S) (hil : FloatLogits il)
    (hi : FloatCat.LogSoftmax il h.initLogProbs) (htl : ∀ i, FloatLogits (tl i)) (ht : ∀ i, FloatCat.LogSoftmax (tl i) (h.transLogProbs i))
    (ho : ∀ o k, h.obsLogProb o k ≤ lit 0) :
    ∃ z, h.Returns obs S n z ∧ ∀ z', h.floatScore obs z' n ≤ h.floatScore obs z n :=
  C77_discrete hK hS ⟨C61_log_softmax _ _ hil hi, fun i => C61_log_softmax _ _ (htl i) (ht i), ho⟩

/-! ### single precision -/

theorem indicesExact_ieee {rd : ℝ → XR} (hrd : IEEE 24 (-149) 104 rd) (hF : F.rd = rd) {K : ℕ} (hK : K ≤ 2 ^ 24) : IndicesExact F K := by
  intro k hk
  rw [hF]
  refine RoundsToNearest.rep hrd (binary_nat' (by norm_num) (by norm_num) k (by omega)) ?_
  rw [abs_of_nonneg (Nat.cast_nonneg k)]
  have : (k : ℝ) ≤ 2 ^ 24 := by exact_mod_cast (by omega : k ≤ 2 ^ 24)
  refine this.trans_lt ?_
  norm_num

theorem roundoff_pow_le {k : ℕ} (hk : k ≤ 2000) : (1 + (2 : ℝ) ^ (-24 : ℤ)) ^ k ≤ 2 := by
  have h1 : (1 + (2 : ℝ) ^ (-24 : ℤ)) ≤ perturb ((2 : ℝ) ^ (-24 : ℤ)) := by unfold perturb; norm_num
  have kr : (k : ℝ) ≤ 2000 := by exact_mod_cast hk
  refine (pow_le_pow_left₀ (by norm_num) h1 k).trans ((perturb_pow_le (k := k) (c := 1 / 2) ?_ le_rfl).trans (by norm_num))
  norm_num
  linarith

/-- **C77 (single precision).**  Up to `2^24` states, up to 1000 observations, log-probabilities that are `-inf` or between `-1e30` and 0: if
any path is possible the one returned is, and its negative log joint probability is within 0.1 percent of the smallest. -/
theorem C77_float32 (rd : ℝ → XR) (hrd : IEEE 24 (-149) 104 rd) : ∃ F : Fmt, F.rd = rd ∧
    ∀ (K : ℕ) [NeZero K] (O : Type) (h : FVit F K O) (obs : ℕ → O) (S : (Fin K → FX F) → FX F), K ≤ 2 ^ 24 → IsSum S →
      h.All (fun a => a.1 = ninf ∨ ∃ x, a.1 = fin x ∧ -1e30 ≤ x ∧ x ≤ 0) → ∀ n < 1000, ∃ z, h.Returns obs S n z ∧
        ∀ z', h.Possible obs z' n → h.Possible obs z n ∧ -(h.logJoint obs z n) ≤ 1.001 * -(h.logJoint obs z' n) := by
  obtain ⟨F, hF, htop⟩ := C61_formats.2.2.1 rd hrd
  have A : F.Acc ((2 : ℝ) ^ (-24 : ℤ)) ((2 : ℝ) ^ (-150 : ℤ)) := by
    have := ieee_acc rd hrd hF (by norm_num) (by norm_num) (by norm_num); norm_num at this ⊢; exact this
  refine ⟨F, hF, fun K _ O h obs S hK hS hb n hn => ?_⟩
  have b1 : ∀ a : FX F, (a.1 = ninf ∨ ∃ x, a.1 = fin x ∧ -1e30 ≤ x ∧ x ≤ 0) → Bounded 1e30 a := by
    rintro a (e | ⟨x, e, h1, h2⟩)
    · exact Or.inl e
    · refine Or.inr ⟨⟨x, e⟩, ?_⟩
      rw [val_of e, abs_of_nonpos h2]; linarith
  have b2 : ∀ a : FX F, (a.1 = ninf ∨ ∃ x, a.1 = fin x ∧ -1e30 ≤ x ∧ x ≤ 0) → a ≤ lit 0 := by
    rintro a (e | ⟨x, e, h1, h2⟩)
    · rw [le_def, e, lit_zero]; simp [leB, ltB]
    · rw [le_def, e, lit_zero]; exact XR.leB_fin.2 h2
  have hB : h.All (Bounded 1e30) := ⟨fun _ => b1 _ (hb.init _), fun _ _ => b1 _ (hb.trans _ _), fun _ _ => b1 _ (hb.obs _ _)⟩
  have h0 : h.All (· ≤ lit 0) := ⟨fun _ => b2 _ (hb.init _), fun _ _ => b2 _ (hb.trans _ _), fun _ _ => b2 _ (hb.obs _ _)⟩
  have nr : (n : ℝ) + 1 ≤ 1000 := by exact_mod_cast (show n + 1 ≤ 1000 by omega)
  have top' : (1 + (2 : ℝ) ^ (-24 : ℤ)) ^ (2 * n + 1) * (2 * (n + 1) * 1e30) ≤ F.top := by
    have p2 := roundoff_pow_le (k := 2 * n + 1) (by omega)
    have p0 : (0 : ℝ) ≤ 2 * (n + 1) * 1e30 := by positivity
    have t0 : 2 * (2 * 1000 * (1e30 : ℝ)) ≤ F.top := by rw [htop]; norm_num
    generalize (1 + (2 : ℝ) ^ (-24 : ℤ)) ^ (2 * n + 1) = w at p2 ⊢
    have : (2 * ((n : ℝ) + 1) * 1e30) ≤ 2 * 1000 * 1e30 := by linarith
    exact (mul_le_mul p2 this p0 (by norm_num)).trans t0
  obtain ⟨z, hz, hm⟩ := C77_relative A (obs := obs) (n := n) (indicesExact_ieee hrd hF hK) hS h0
  refine ⟨z, hz, fun z' hp => ?_⟩
  obtain ⟨g1, g2⟩ := hm z' (tracked_score A hB (by norm_num) top' hp).1
  refine ⟨g1, g2.trans ?_⟩
  have l0 := (close_score A h0 z' (tracked_score A hB (by norm_num) top' hp).1).2
  refine mul_le_mul_of_nonneg_right ?_ (by linarith)
  have pw := perturb_pow_le (k := 2 * (2 * n + 1)) (c := 0.0005) (by push_cast; norm_num; linarith) (by norm_num)
  exact pw.trans (by norm_num)

/-! ### non-vacuity -/

/-- Two states that are left seldom, the second one never; the observations are the states with errors. -/
noncomputable def sticky (F : Fmt) : FVit F 2 (Fin 2) where
  initLogProbs := ![lit 0, lit (-8)]
  transLogProbs := ![![lit 0, lit (-8)], ![negInf, lit 0]]
  obsLogProb := ![![lit 0, lit (-8)], ![lit (-8), lit 0]]

theorem lit_neg_eight : (lit (-8) : FX F).1 = fin (-8) := F.rd_neg (by exact_mod_cast F.small 8 (by norm_num))

theorem sticky_cases (P : FX F → Prop) (h0 : P (lit 0)) (h8 : P (lit (-8))) (hn : P negInf) : (sticky F).All P := by
  refine ⟨fun k => ?_, fun i j => ?_, fun o k => ?_⟩
  · fin_cases k <;> simpa [sticky]
  · fin_cases i <;> fin_cases j <;> simpa [sticky]
  · fin_cases o <;> fin_cases k <;> simpa [sticky]

theorem sticky_nonpos : (sticky F).All (· ≤ lit 0) := by
  refine sticky_cases _ (rfl' (lit_num 0)) (lit_le (by norm_num)) ?_
  rw [le_def, lit_zero]; exact Or.inl trivial

theorem sticky_bounded : (sticky F).All (Bounded 8) := by
  refine sticky_cases _ (Or.inr ⟨⟨0, lit_zero⟩, ?_⟩) (Or.inr ⟨⟨-8, lit_neg_eight⟩, ?_⟩) (Or.inl rfl)
  · rw [val_of lit_zero]; norm_num
  · rw [val_of lit_neg_eight]; norm_num

/-- The hypotheses of `C77_maximises`, `C77_discrete` and `C77_relative` are met, for every sequence of observations of every length. -/
example (rd : ℝ → XR) (hrd : IEEE 24 (-149) 104 rd) : ∃ F : Fmt, F.rd = rd ∧ (∃ u η, F.Acc u η) ∧ IndicesExact F 2 ∧
    IsSum (fun v : Fin 2 → FX F => v 0 + v 1) ∧ (sticky F).All (· ≤ lit 0) ∧
    ∀ obs n, (∀ z, ((sticky F).floatScore obs z n).Num) ∧ (sticky F).Possible obs (fun _ => 0) n := by
  obtain ⟨F, hF, htop⟩ := C61_formats.2.2.1 rd hrd
  have A : F.Acc ((2 : ℝ) ^ (-24 : ℤ)) ((2 : ℝ) ^ (-150 : ℤ)) := by
    have := ieee_acc rd hrd hF (by norm_num) (by norm_num) (by norm_num); norm_num at this ⊢; exact this
  refine ⟨F, hF, ⟨_, _, A⟩, indicesExact_ieee hrd hF (by norm_num), isSum_two, sticky_nonpos, fun obs n =>
    ⟨fun z => (score_nonpos sticky_nonpos z).numL, ⟨0, lit_zero⟩, fun t _ => ?_, fun t _ => ⟨0, lit_zero⟩⟩⟩
  generalize obs t = o
  fin_cases o
  · exact ⟨0, lit_zero⟩
  · exact ⟨-8, lit_neg_eight⟩

/-- `C77_absolute` and `C77_exact` apply: in single precision a hundred identical observations are decoded to the constant path. -/
example (rd : ℝ → XR) (hrd : IEEE 24 (-149) 104 rd) : ∃ F : Fmt, F.rd = rd ∧ ∀ S : (Fin 2 → FX F) → FX F, IsSum S →
    (sticky F).Returns (fun _ => 0) S 99 (fun _ => 0) := by
  obtain ⟨F, hF, htop⟩ := C61_formats.2.2.1 rd hrd
  have A : F.Acc ((2 : ℝ) ^ (-24 : ℤ)) ((2 : ℝ) ^ (-150 : ℤ)) := by
    have := ieee_acc rd hrd hF (by norm_num) (by norm_num) (by norm_num); norm_num at this ⊢; exact this
  have z0 : (lit 0 : FX F).val = 0 := val_of lit_zero
  have v8 : (lit (-8) : FX F).val = -8 := val_of lit_neg_eight
  have np : (sticky F).All fun a => a.val ≤ 0 :=
    sticky_cases _ (by rw [z0]) (by rw [v8]; norm_num) (show (0 : ℝ) ≤ 0 from le_rfl)
  have p199 : (1 + (2 : ℝ) ^ (-24 : ℤ)) ^ (2 * 99 + 1) ≤ 1.0001 := by norm_num
  refine ⟨F, hF, fun S hS => C77_exact A (indicesExact_ieee hrd hF (by norm_num)) hS (M := 8) sticky_bounded (by norm_num) ?_
    ⟨⟨0, lit_zero⟩, fun t _ => ⟨0, lit_zero⟩, fun t _ => ⟨0, lit_zero⟩⟩ ?_⟩
  · rw [htop]
    generalize (1 + (2 : ℝ) ^ (-24 : ℤ)) ^ (2 * 99 + 1) = w at p199 ⊢
    norm_num
    linarith
  · rintro z - ⟨t, ht, hne⟩
    have e0 : (sticky F).logJoint (fun _ => 0) (fun _ => 0) 99 = 0 := by simp [logJoint, sticky, z0]
    have h1 : z t = 1 := by omega
    have obs8 : ∑ t ∈ Finset.range (99 + 1), ((sticky F).obsLogProb 0 (z t)).val ≤ -8 := by
      rw [← Finset.sum_erase_add _ _ (Finset.mem_range.2 (show t < 99 + 1 by omega)), h1]
      have := Finset.sum_nonpos fun s (_ : s ∈ (Finset.range (99 + 1)).erase t) => np.obs 0 (z s)
      have e : ((sticky F).obsLogProb 0 1).val = -8 := v8
      linarith
    have := np.init (z 0)
    have tr := Finset.sum_nonpos fun t (_ : t ∈ Finset.range 99) => np.trans (z t) (z (t + 1))
    rw [e0]
    unfold logJoint
    generalize (1 + (2 : ℝ) ^ (-24 : ℤ)) ^ (2 * 99 + 1) = w at p199 ⊢
    norm_num at obs8 tr ⊢
    linarith

end FVit

end Distrax
