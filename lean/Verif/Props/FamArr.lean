import Verif.Lemmas.FamArr

/-!
C58: the methods of the scalar families on whole arrays: shapes, broadcasting, and which parameter reaches which entry.
-/

namespace Distrax

open Spec

variable {α β : Type}

/-- The constructor succeeds exactly when the parameter shapes broadcast, and stores them with the broadcast shape. -/
theorem C58_init (p q : BArr ℝ) :
    (∀ b, broadcastShapes p.shape q.shape = some b → P2.init p q = .ok ⟨p, q, b⟩) ∧
    (broadcastShapes p.shape q.shape = none → P2.init p q = .error .valueError) ∧
    ∀ d, P2.init p q = .ok d → d.p = p ∧ d.q = q ∧ broadcastShapes p.shape q.shape = some d.batch := by
  unfold P2.init
  refine ⟨fun b h => by rw [h], fun h => by rw [h], fun d h => ?_⟩
  split at h
  · next b hb => obtain rfl := Except.ok.inj h; exact ⟨rfl, rfl, hb⟩
  · exact absurd h (by simp)

/-- A constructed object. -/
def P2.Wf (d : P2) : Prop := broadcastShapes d.p.shape d.q.shape = some d.batch

theorem P2.init_wf {p q : BArr ℝ} {d : P2} (h : P2.init p q = .ok d) : d.p = p ∧ d.q = q ∧ d.Wf := by
  obtain ⟨h1, h2, h3⟩ := (C58_init p q).2.2 d h
  exact ⟨h1, h2, by unfold P2.Wf; rw [h1, h2]; exact h3⟩

theorem P2.Wf.le_p {d : P2} (h : d.Wf) : BLe d.p.shape d.batch := BLe.left h
theorem P2.Wf.le_q {d : P2} (h : d.Wf) : BLe d.q.shape d.batch := BLe.right h

theorem EW.p_ {d : P2} {T} (h : d.Wf) (hT : BLe d.batch T) : EW T d.p_ [d.p.shape] (bget d.p) := EW.arr (h.le_p.trans hT)
theorem EW.q_ {d : P2} {T} (h : d.Wf) (hT : BLe d.batch T) : EW T d.q_ [d.q.shape] (bget d.q) := EW.arr (h.le_q.trans hT)
theorem EW.pB {d : P2} {T} (h : d.Wf) (hT : BLe d.batch T) : EW T d.pB [d.batch] (bget d.p) :=
  EW.broadcastTo hT rfl h.le_p (EW.p_ h hT)
theorem EW.qB {d : P2} {T} (h : d.Wf) (hT : BLe d.batch T) : EW T d.qB [d.batch] (bget d.q) :=
  EW.broadcastTo hT rfl h.le_q (EW.q_ h hT)

/-- Which list of shapes forces the result to have the batch shape. -/
def P2.Cov (d : P2) (L : List (List ℕ)) : Prop := d.batch ∈ L ∨ (d.p.shape ∈ L ∧ d.q.shape ∈ L)

theorem P2.Cov.le {d : P2} {L} (hd : d.Wf) (h : d.Cov L) {u : List ℕ} (hu : ∀ l ∈ L, BLe l u) : BLe d.batch u := by
  rcases h with h | ⟨h1, h2⟩
  · exact hu _ h
  · exact BLe.join hd (hu _ h1) (hu _ h2)

theorem EW.summary {d : P2} (hd : d.Wf) {x : AE α} {L f} {g : ℝ → ℝ → α} (h : EW d.batch x L f) (hL : d.Cov L)
    (hfg : ∀ i, f i = g (bget d.p i) (bget d.q i)) : Summary d x g :=
  h.perEntry (fun _ hu _ => hL.le hd hu) fun i _ => hfg i

theorem EW.ofValue {d : P2} (hd : d.Wf) {x : AE β → AE α} {g : ℝ → ℝ → β → α}
    (h : ∀ (v : BArr β) t, BLe d.batch t → BLe v.shape t → EW t (AE.arr v) [v.shape] (bget v) →
      ∃ L f, EW t (x (.arr v)) L f ∧ (d.Cov L ∧ v.shape ∈ L) ∧ ∀ i, f i = g (bget d.p i) (bget d.q i) (bget v i)) :
    OfValue d x g := by
  intro v t ht
  obtain ⟨L, f, h1, ⟨h2, h3⟩, h4⟩ := h v t (BLe.left ht) (BLe.right ht) (EW.arr (BLe.right ht))
  exact h1.perEntry (fun u hu _ => BLe.join ht (h2.le hd hu) (hu _ h3)) fun i _ => h4 i

theorem BLe.lead (n : ℕ) (b : List ℕ) : BLe b (n :: b) := by
  have : broadcastShapes ([] ++ b) ([n] ++ b) = _ := broadcast_append b _ _
  rw [broadcastShapes_nil] at this
  exact this

theorem bget_full {a : BArr α} {s i : List ℕ} (h : a.shape = s) (hi : InRange s i) : bget a i = a.data i := by
  unfold bget; rw [h, proj_self hi]

theorem EW.ofNoise {d : P2} {x : ℕ → AE ℝ → AE α} {g : ℝ → ℝ → ℝ → α}
    (h : ∀ (n : ℕ) (rnd : BArr ℝ), BLe d.batch (n :: d.batch) → rnd.shape = n :: d.batch →
      EW (n :: d.batch) (AE.arr rnd) [n :: d.batch] (bget rnd) →
      ∃ L f, EW (n :: d.batch) (x n (.arr rnd)) L f ∧ (n :: d.batch ∈ L) ∧
        ∀ i, f i = g (bget d.p i) (bget d.q i) (bget rnd i)) : OfNoise d x g := by
  intro n rnd hr
  obtain ⟨L, f, h1, h2, h3⟩ := h n rnd (BLe.lead _ _) hr (by
    have := @EW.arr _ (n :: d.batch) rnd (by rw [hr]; exact BLe.refl _)
    rwa [hr] at this)
  exact h1.perEntry (fun u hu _ => hu _ h2) fun i hi => by rw [h3, bget_full hr hi]

theorem EW.ofPair {x : P2 → P2 → AE α} {g : ℝ → ℝ → ℝ → ℝ → α}
    (h : ∀ (d1 d2 : P2) (t : List ℕ), d1.Wf → d2.Wf → BLe d1.batch t → BLe d2.batch t →
      ∃ L f, EW t (x d1 d2) L f ∧ (d1.batch ∈ L ∧ d2.batch ∈ L) ∧
        ∀ i, f i = g (bget d1.p i) (bget d1.q i) (bget d2.p i) (bget d2.q i)) : OfPair x g := by
  intro p1 q1 p2 q2 d1 d2 t h1 h2 ht
  obtain ⟨rfl, rfl, w1⟩ := P2.init_wf h1
  obtain ⟨rfl, rfl, w2⟩ := P2.init_wf h2
  obtain ⟨L, f, k1, ⟨k2, k3⟩, k4⟩ := h d1 d2 t w1 w2 (BLe.left ht) (BLe.right ht)
  exact k1.perEntry (fun u hu _ => BLe.join ht (hu _ k2) (hu _ k3)) fun i _ => k4 i

/-- Structural descent through an array expression. -/
macro "ew" : tactic => `(tactic| repeat' first
  | assumption
  | (apply EW.p_ <;> assumption)
  | (apply EW.q_ <;> assumption)
  | (apply EW.pB <;> assumption)
  | (apply EW.qB <;> assumption)
  | apply EW.scalar
  | apply EW.add | apply EW.sub | apply EW.mul | apply EW.div | apply EW.neg
  | apply EW.log | apply EW.exp | apply EW.square | apply EW.abs | apply EW.sqrt | apply EW.xlog | apply EW.ext
  | (apply EW.expandTo _ (by assumption))
  | apply EW.fullLike | apply EW.whr | apply EW.bin | apply EW.tern | apply EW.map)


set_option linter.unusedSimpArgs false in
set_option linter.unusedSimpArgs false in
set_option linter.unusedTactic false in
set_option linter.unreachableTactic false in
set_option linter.unusedSimpArgs false in
set_option linter.unusedTactic false in
set_option linter.unreachableTactic false in
/-- normal.py: every method acts entry by entry: summaries have the batch shape, `value` methods the broadcast of the batch and
value shapes, samples `(n,) + batch_shape`; each entry is computed from the parameters (and value or noise) that
broadcasting assigns to it. -/
theorem C58_normal (p q : BArr ℝ) (d : P2) (hi : P2.init p q = .ok d) :
    Summary d (NormalA.mean d) (fun a b => Normal.mean ⟨a, b⟩) ∧
    Summary d (NormalA.variance d) (fun a b => Normal.variance ⟨a, b⟩) ∧
    Summary d (NormalA.stddev d) (fun a b => Normal.stddev ⟨a, b⟩) ∧
    Summary d (NormalA.mode d) (fun a b => Normal.mode ⟨a, b⟩) ∧
    Summary d (NormalA.median d) (fun a b => Normal.median ⟨a, b⟩) ∧
    Summary d (NormalA.entropy d) (fun a b => Normal.entropy ⟨a, b⟩) ∧
    OfValue d (NormalA.logProb d) (fun a b => Normal.logProb ⟨a, b⟩) ∧
    OfValue d (NormalA.prob d) (fun a b => Normal.prob ⟨a, b⟩) ∧
    OfValue d (NormalA.cdf d) (fun a b => Normal.cdf ⟨a, b⟩) ∧
    OfValue d (NormalA.logCdf d) (fun a b => Normal.logCdf ⟨a, b⟩) ∧
    OfValue d (NormalA.survival d) (fun a b => Normal.survival ⟨a, b⟩) ∧
    OfValue d (NormalA.logSurvival d) (fun a b => Normal.logSurvival ⟨a, b⟩) ∧
    OfNoise d (fun _ => NormalA.sampleN d) (fun a b => Normal.sample ⟨a, b⟩) ∧
    OfNoise d (fun _ rnd => (NormalA.sampleNLP d rnd).1) (fun a b rnd => (Normal.sampleAndLogProb ⟨a, b⟩ rnd).1) ∧
    OfNoise d (fun _ rnd => (NormalA.sampleNLP d rnd).2) (fun a b rnd => (Normal.sampleAndLogProb ⟨a, b⟩ rnd).2) := by
  obtain ⟨-, -, h⟩ := P2.init_wf hi
  have hT := BLe.refl d.batch
  refine ⟨?_, ?_, ?_, ?_, ?_, ?_, ?_, ?_, ?_, ?_, ?_, ?_, ?_, ?_, ?_⟩
  · simp only [NormalA.mean, NormalA.variance, NormalA.stddev, NormalA.mode, NormalA.median, NormalA.entropy, NormalA.logProb, NormalA.prob, NormalA.cdf, NormalA.logCdf, NormalA.survival, NormalA.logSurvival, NormalA.standardize, NormalA.sampleN, NormalA.sampleNLP]
    refine EW.summary h (by ew) ?_ fun i => ?_
    · simp [P2.Cov]
    · first | rfl | (simp only [Normal.mean, Normal.variance, Normal.stddev, Normal.mode, Normal.median, Normal.entropy, Normal.logProb, Normal.prob, Normal.cdf, Normal.logCdf, Normal.survival, Normal.logSurvival]; (first | rfl | congr | (split_ifs <;> rfl)))
  · simp only [NormalA.mean, NormalA.variance, NormalA.stddev, NormalA.mode, NormalA.median, NormalA.entropy, NormalA.logProb, NormalA.prob, NormalA.cdf, NormalA.logCdf, NormalA.survival, NormalA.logSurvival, NormalA.standardize, NormalA.sampleN, NormalA.sampleNLP]
    refine EW.summary h (by ew) ?_ fun i => ?_
    · simp [P2.Cov]
    · first | rfl | (simp only [Normal.mean, Normal.variance, Normal.stddev, Normal.mode, Normal.median, Normal.entropy, Normal.logProb, Normal.prob, Normal.cdf, Normal.logCdf, Normal.survival, Normal.logSurvival]; (first | rfl | congr | (split_ifs <;> rfl)))
  · simp only [NormalA.mean, NormalA.variance, NormalA.stddev, NormalA.mode, NormalA.median, NormalA.entropy, NormalA.logProb, NormalA.prob, NormalA.cdf, NormalA.logCdf, NormalA.survival, NormalA.logSurvival, NormalA.standardize, NormalA.sampleN, NormalA.sampleNLP]
    refine EW.summary h (by ew) ?_ fun i => ?_
    · simp [P2.Cov]
    · first | rfl | (simp only [Normal.mean, Normal.variance, Normal.stddev, Normal.mode, Normal.median, Normal.entropy, Normal.logProb, Normal.prob, Normal.cdf, Normal.logCdf, Normal.survival, Normal.logSurvival]; (first | rfl | congr | (split_ifs <;> rfl)))
  · simp only [NormalA.mean, NormalA.variance, NormalA.stddev, NormalA.mode, NormalA.median, NormalA.entropy, NormalA.logProb, NormalA.prob, NormalA.cdf, NormalA.logCdf, NormalA.survival, NormalA.logSurvival, NormalA.standardize, NormalA.sampleN, NormalA.sampleNLP]
    refine EW.summary h (by ew) ?_ fun i => ?_
    · simp [P2.Cov]
    · first | rfl | (simp only [Normal.mean, Normal.variance, Normal.stddev, Normal.mode, Normal.median, Normal.entropy, Normal.logProb, Normal.prob, Normal.cdf, Normal.logCdf, Normal.survival, Normal.logSurvival]; (first | rfl | congr | (split_ifs <;> rfl)))
  · simp only [NormalA.mean, NormalA.variance, NormalA.stddev, NormalA.mode, NormalA.median, NormalA.entropy, NormalA.logProb, NormalA.prob, NormalA.cdf, NormalA.logCdf, NormalA.survival, NormalA.logSurvival, NormalA.standardize, NormalA.sampleN, NormalA.sampleNLP]
    refine EW.summary h (by ew) ?_ fun i => ?_
    · simp [P2.Cov]
    · first | rfl | (simp only [Normal.mean, Normal.variance, Normal.stddev, Normal.mode, Normal.median, Normal.entropy, Normal.logProb, Normal.prob, Normal.cdf, Normal.logCdf, Normal.survival, Normal.logSurvival]; (first | rfl | congr | (split_ifs <;> rfl)))
  · simp only [NormalA.mean, NormalA.variance, NormalA.stddev, NormalA.mode, NormalA.median, NormalA.entropy, NormalA.logProb, NormalA.prob, NormalA.cdf, NormalA.logCdf, NormalA.survival, NormalA.logSurvival, NormalA.standardize, NormalA.sampleN, NormalA.sampleNLP]
    refine EW.summary h (by ew) ?_ fun i => ?_
    · simp [P2.Cov]
    · first | rfl | (simp only [Normal.mean, Normal.variance, Normal.stddev, Normal.mode, Normal.median, Normal.entropy, Normal.logProb, Normal.prob, Normal.cdf, Normal.logCdf, Normal.survival, Normal.logSurvival]; (first | rfl | congr | (split_ifs <;> rfl)))
  · refine EW.ofValue h fun v t hT hv hV => ?_
    simp only [NormalA.mean, NormalA.variance, NormalA.stddev, NormalA.mode, NormalA.median, NormalA.entropy, NormalA.logProb, NormalA.prob, NormalA.cdf, NormalA.logCdf, NormalA.survival, NormalA.logSurvival, NormalA.standardize, NormalA.sampleN, NormalA.sampleNLP]
    refine ⟨_, _, by ew, ?_, fun i => ?_⟩
    · simp [P2.Cov]
    · first | rfl | (simp only [Normal.mean, Normal.variance, Normal.stddev, Normal.mode, Normal.median, Normal.entropy, Normal.logProb, Normal.prob, Normal.cdf, Normal.logCdf, Normal.survival, Normal.logSurvival]; (first | rfl | congr | (split_ifs <;> rfl)))
  · refine EW.ofValue h fun v t hT hv hV => ?_
    simp only [NormalA.mean, NormalA.variance, NormalA.stddev, NormalA.mode, NormalA.median, NormalA.entropy, NormalA.logProb, NormalA.prob, NormalA.cdf, NormalA.logCdf, NormalA.survival, NormalA.logSurvival, NormalA.standardize, NormalA.sampleN, NormalA.sampleNLP]
    refine ⟨_, _, by ew, ?_, fun i => ?_⟩
    · simp [P2.Cov]
    · first | rfl | (simp only [Normal.mean, Normal.variance, Normal.stddev, Normal.mode, Normal.median, Normal.entropy, Normal.logProb, Normal.prob, Normal.cdf, Normal.logCdf, Normal.survival, Normal.logSurvival]; (first | rfl | congr | (split_ifs <;> rfl)))
  · refine EW.ofValue h fun v t hT hv hV => ?_
    simp only [NormalA.mean, NormalA.variance, NormalA.stddev, NormalA.mode, NormalA.median, NormalA.entropy, NormalA.logProb, NormalA.prob, NormalA.cdf, NormalA.logCdf, NormalA.survival, NormalA.logSurvival, NormalA.standardize, NormalA.sampleN, NormalA.sampleNLP]
    refine ⟨_, _, by ew, ?_, fun i => ?_⟩
    · simp [P2.Cov]
    · first | rfl | (simp only [Normal.mean, Normal.variance, Normal.stddev, Normal.mode, Normal.median, Normal.entropy, Normal.logProb, Normal.prob, Normal.cdf, Normal.logCdf, Normal.survival, Normal.logSurvival]; (first | rfl | congr | (split_ifs <;> rfl)))
  · refine EW.ofValue h fun v t hT hv hV => ?_
    simp only [NormalA.mean, NormalA.variance, NormalA.stddev, NormalA.mode, NormalA.median, NormalA.entropy, NormalA.logProb, NormalA.prob, NormalA.cdf, NormalA.logCdf, NormalA.survival, NormalA.logSurvival, NormalA.standardize, NormalA.sampleN, NormalA.sampleNLP]
    refine ⟨_, _, by ew, ?_, fun i => ?_⟩
    · simp [P2.Cov]
    · first | rfl | (simp only [Normal.mean, Normal.variance, Normal.stddev, Normal.mode, Normal.median, Normal.entropy, Normal.logProb, Normal.prob, Normal.cdf, Normal.logCdf, Normal.survival, Normal.logSurvival]; (first | rfl | congr | (split_ifs <;> rfl)))
  · refine EW.ofValue h fun v t hT hv hV => ?_
    simp only [NormalA.mean, NormalA.variance, NormalA.stddev, NormalA.mode, NormalA.median, NormalA.entropy, NormalA.logProb, NormalA.prob, NormalA.cdf, NormalA.logCdf, NormalA.survival, NormalA.logSurvival, NormalA.standardize, NormalA.sampleN, NormalA.sampleNLP]
    refine ⟨_, _, by ew, ?_, fun i => ?_⟩
    · simp [P2.Cov]
    · first | rfl | (simp only [Normal.mean, Normal.variance, Normal.stddev, Normal.mode, Normal.median, Normal.entropy, Normal.logProb, Normal.prob, Normal.cdf, Normal.logCdf, Normal.survival, Normal.logSurvival]; (first | rfl | congr | (split_ifs <;> rfl)))
  · refine EW.ofValue h fun v t hT hv hV => ?_
    simp only [NormalA.mean, NormalA.variance, NormalA.stddev, NormalA.mode, NormalA.median, NormalA.entropy, NormalA.logProb, NormalA.prob, NormalA.cdf, NormalA.logCdf, NormalA.survival, NormalA.logSurvival, NormalA.standardize, NormalA.sampleN, NormalA.sampleNLP]
    refine ⟨_, _, by ew, ?_, fun i => ?_⟩
    · simp [P2.Cov]
    · first | rfl | (simp only [Normal.mean, Normal.variance, Normal.stddev, Normal.mode, Normal.median, Normal.entropy, Normal.logProb, Normal.prob, Normal.cdf, Normal.logCdf, Normal.survival, Normal.logSurvival]; (first | rfl | congr | (split_ifs <;> rfl)))
  · refine EW.ofNoise fun n rnd hT hr hR => ?_
    have hn : AE.ndim (AE.arr rnd) = (n :: d.batch).length := congrArg List.length hr
    simp only [NormalA.mean, NormalA.variance, NormalA.stddev, NormalA.mode, NormalA.median, NormalA.entropy, NormalA.logProb, NormalA.prob, NormalA.cdf, NormalA.logCdf, NormalA.survival, NormalA.logSurvival, NormalA.standardize, NormalA.sampleN, NormalA.sampleNLP]
    refine ⟨_, _, by ew, ?_, fun i => ?_⟩
    · simp [P2.Cov]
    · first | rfl | (simp only [Normal.mean, Normal.variance, Normal.stddev, Normal.mode, Normal.median, Normal.entropy, Normal.logProb, Normal.prob, Normal.cdf, Normal.logCdf, Normal.survival, Normal.logSurvival]; (first | rfl | congr | (split_ifs <;> rfl)))
  · refine EW.ofNoise fun n rnd hT hr hR => ?_
    have hn : AE.ndim (AE.arr rnd) = (n :: d.batch).length := congrArg List.length hr
    simp only [NormalA.mean, NormalA.variance, NormalA.stddev, NormalA.mode, NormalA.median, NormalA.entropy, NormalA.logProb, NormalA.prob, NormalA.cdf, NormalA.logCdf, NormalA.survival, NormalA.logSurvival, NormalA.standardize, NormalA.sampleN, NormalA.sampleNLP]
    refine ⟨_, _, by ew, ?_, fun i => ?_⟩
    · simp [P2.Cov]
    · first | rfl | (simp only [Normal.mean, Normal.variance, Normal.stddev, Normal.mode, Normal.median, Normal.entropy, Normal.logProb, Normal.prob, Normal.cdf, Normal.logCdf, Normal.survival, Normal.logSurvival]; (first | rfl | congr | (split_ifs <;> rfl)))
  · refine EW.ofNoise fun n rnd hT hr hR => ?_
    have hn : AE.ndim (AE.arr rnd) = (n :: d.batch).length := congrArg List.length hr
    simp only [NormalA.mean, NormalA.variance, NormalA.stddev, NormalA.mode, NormalA.median, NormalA.entropy, NormalA.logProb, NormalA.prob, NormalA.cdf, NormalA.logCdf, NormalA.survival, NormalA.logSurvival, NormalA.standardize, NormalA.sampleN, NormalA.sampleNLP]
    refine ⟨_, _, by ew, ?_, fun i => ?_⟩
    · simp [P2.Cov]
    · first | rfl | (simp only [Normal.mean, Normal.variance, Normal.stddev, Normal.mode, Normal.median, Normal.entropy, Normal.logProb, Normal.prob, Normal.cdf, Normal.logCdf, Normal.survival, Normal.logSurvival]; (first | rfl | congr | (split_ifs <;> rfl)))

set_option linter.unusedSimpArgs false in
set_option linter.unusedTactic false in
set_option linter.unreachableTactic false in
/-- laplace.py: every method acts entry by entry: summaries have the batch shape, `value` methods the broadcast of the batch and
value shapes, samples `(n,) + batch_shape`; each entry is computed from the parameters (and value or noise) that
broadcasting assigns to it. -/
theorem C58_laplace (p q : BArr ℝ) (d : P2) (hi : P2.init p q = .ok d) :
    Summary d (LaplaceA.mean d) (fun a b => Laplace.mean ⟨a, b⟩) ∧
    Summary d (LaplaceA.variance d) (fun a b => Laplace.variance ⟨a, b⟩) ∧
    Summary d (LaplaceA.stddev d) (fun a b => Laplace.stddev ⟨a, b⟩) ∧
    Summary d (LaplaceA.mode d) (fun a b => Laplace.mode ⟨a, b⟩) ∧
    Summary d (LaplaceA.median d) (fun a b => Laplace.median ⟨a, b⟩) ∧
    Summary d (LaplaceA.entropy d) (fun a b => Laplace.entropy ⟨a, b⟩) ∧
    OfValue d (LaplaceA.logProb d) (fun a b => Laplace.logProb ⟨a, b⟩) ∧
    OfValue d (LaplaceA.prob d) (fun a b => Laplace.prob ⟨a, b⟩) ∧
    OfValue d (LaplaceA.cdf d) (fun a b => Laplace.cdf ⟨a, b⟩) ∧
    OfValue d (LaplaceA.logCdf d) (fun a b => Laplace.logCdf ⟨a, b⟩) ∧
    OfValue d (LaplaceA.survival d) (fun a b => Laplace.survival ⟨a, b⟩) ∧
    OfValue d (LaplaceA.logSurvival d) (fun a b => Laplace.logSurvival ⟨a, b⟩) ∧
    OfNoise d (fun _ => LaplaceA.sampleN d) (fun a b => Laplace.sample ⟨a, b⟩) ∧
    OfNoise d (fun _ rnd => (LaplaceA.sampleNLP d rnd).1) (fun a b rnd => (Laplace.sampleAndLogProb ⟨a, b⟩ rnd).1) ∧
    OfNoise d (fun _ rnd => (LaplaceA.sampleNLP d rnd).2) (fun a b rnd => (Laplace.sampleAndLogProb ⟨a, b⟩ rnd).2) := by
  obtain ⟨-, -, h⟩ := P2.init_wf hi
  have hT := BLe.refl d.batch
  refine ⟨?_, ?_, ?_, ?_, ?_, ?_, ?_, ?_, ?_, ?_, ?_, ?_, ?_, ?_, ?_⟩
  · simp only [LaplaceA.mean, LaplaceA.variance, LaplaceA.stddev, LaplaceA.mode, LaplaceA.median, LaplaceA.entropy, LaplaceA.logProb, LaplaceA.prob, LaplaceA.cdf, LaplaceA.logCdf, LaplaceA.survival, LaplaceA.logSurvival, LaplaceA.standardize, LaplaceA.logCdfStd, LaplaceA.sampleN, LaplaceA.sampleNLP]
    refine EW.summary h (by ew) ?_ fun i => ?_
    · simp [P2.Cov]
    · first | rfl | (simp only [Laplace.mean, Laplace.variance, Laplace.stddev, Laplace.mode, Laplace.median, Laplace.entropy, Laplace.logProb, Laplace.prob, Laplace.cdf, Laplace.logCdf, Laplace.survival, Laplace.logSurvival]; (first | rfl | congr | (split_ifs <;> rfl)))
  · simp only [LaplaceA.mean, LaplaceA.variance, LaplaceA.stddev, LaplaceA.mode, LaplaceA.median, LaplaceA.entropy, LaplaceA.logProb, LaplaceA.prob, LaplaceA.cdf, LaplaceA.logCdf, LaplaceA.survival, LaplaceA.logSurvival, LaplaceA.standardize, LaplaceA.logCdfStd, LaplaceA.sampleN, LaplaceA.sampleNLP]
    refine EW.summary h (by ew) ?_ fun i => ?_
    · simp [P2.Cov]
    · first | rfl | (simp only [Laplace.mean, Laplace.variance, Laplace.stddev, Laplace.mode, Laplace.median, Laplace.entropy, Laplace.logProb, Laplace.prob, Laplace.cdf, Laplace.logCdf, Laplace.survival, Laplace.logSurvival]; (first | rfl | congr | (split_ifs <;> rfl)))
  · simp only [LaplaceA.mean, LaplaceA.variance, LaplaceA.stddev, LaplaceA.mode, LaplaceA.median, LaplaceA.entropy, LaplaceA.logProb, LaplaceA.prob, LaplaceA.cdf, LaplaceA.logCdf, LaplaceA.survival, LaplaceA.logSurvival, LaplaceA.standardize, LaplaceA.logCdfStd, LaplaceA.sampleN, LaplaceA.sampleNLP]
    refine EW.summary h (by ew) ?_ fun i => ?_
    · simp [P2.Cov]
    · first | rfl | (simp only [Laplace.mean, Laplace.variance, Laplace.stddev, Laplace.mode, Laplace.median, Laplace.entropy, Laplace.logProb, Laplace.prob, Laplace.cdf, Laplace.logCdf, Laplace.survival, Laplace.logSurvival]; (first | rfl | congr | (split_ifs <;> rfl)))
  · simp only [LaplaceA.mean, LaplaceA.variance, LaplaceA.stddev, LaplaceA.mode, LaplaceA.median, LaplaceA.entropy, LaplaceA.logProb, LaplaceA.prob, LaplaceA.cdf, LaplaceA.logCdf, LaplaceA.survival, LaplaceA.logSurvival, LaplaceA.standardize, LaplaceA.logCdfStd, LaplaceA.sampleN, LaplaceA.sampleNLP]
    refine EW.summary h (by ew) ?_ fun i => ?_
    · simp [P2.Cov]
    · first | rfl | (simp only [Laplace.mean, Laplace.variance, Laplace.stddev, Laplace.mode, Laplace.median, Laplace.entropy, Laplace.logProb, Laplace.prob, Laplace.cdf, Laplace.logCdf, Laplace.survival, Laplace.logSurvival]; (first | rfl | congr | (split_ifs <;> rfl)))
  · simp only [LaplaceA.mean, LaplaceA.variance, LaplaceA.stddev, LaplaceA.mode, LaplaceA.median, LaplaceA.entropy, LaplaceA.logProb, LaplaceA.prob, LaplaceA.cdf, LaplaceA.logCdf, LaplaceA.survival, LaplaceA.logSurvival, LaplaceA.standardize, LaplaceA.logCdfStd, LaplaceA.sampleN, LaplaceA.sampleNLP]
    refine EW.summary h (by ew) ?_ fun i => ?_
    · simp [P2.Cov]
    · first | rfl | (simp only [Laplace.mean, Laplace.variance, Laplace.stddev, Laplace.mode, Laplace.median, Laplace.entropy, Laplace.logProb, Laplace.prob, Laplace.cdf, Laplace.logCdf, Laplace.survival, Laplace.logSurvival]; (first | rfl | congr | (split_ifs <;> rfl)))
  · simp only [LaplaceA.mean, LaplaceA.variance, LaplaceA.stddev, LaplaceA.mode, LaplaceA.median, LaplaceA.entropy, LaplaceA.logProb, LaplaceA.prob, LaplaceA.cdf, LaplaceA.logCdf, LaplaceA.survival, LaplaceA.logSurvival, LaplaceA.standardize, LaplaceA.logCdfStd, LaplaceA.sampleN, LaplaceA.sampleNLP]
    refine EW.summary h (by ew) ?_ fun i => ?_
    · simp [P2.Cov]
    · first | rfl | (simp only [Laplace.mean, Laplace.variance, Laplace.stddev, Laplace.mode, Laplace.median, Laplace.entropy, Laplace.logProb, Laplace.prob, Laplace.cdf, Laplace.logCdf, Laplace.survival, Laplace.logSurvival]; (first | rfl | congr | (split_ifs <;> rfl)))
  · refine EW.ofValue h fun v t hT hv hV => ?_
    simp only [LaplaceA.mean, LaplaceA.variance, LaplaceA.stddev, LaplaceA.mode, LaplaceA.median, LaplaceA.entropy, LaplaceA.logProb, LaplaceA.prob, LaplaceA.cdf, LaplaceA.logCdf, LaplaceA.survival, LaplaceA.logSurvival, LaplaceA.standardize, LaplaceA.logCdfStd, LaplaceA.sampleN, LaplaceA.sampleNLP]
    refine ⟨_, _, by ew, ?_, fun i => ?_⟩
    · simp [P2.Cov]
    · first | rfl | (simp only [Laplace.mean, Laplace.variance, Laplace.stddev, Laplace.mode, Laplace.median, Laplace.entropy, Laplace.logProb, Laplace.prob, Laplace.cdf, Laplace.logCdf, Laplace.survival, Laplace.logSurvival]; (first | rfl | congr | (split_ifs <;> rfl)))
  · refine EW.ofValue h fun v t hT hv hV => ?_
    simp only [LaplaceA.mean, LaplaceA.variance, LaplaceA.stddev, LaplaceA.mode, LaplaceA.median, LaplaceA.entropy, LaplaceA.logProb, LaplaceA.prob, LaplaceA.cdf, LaplaceA.logCdf, LaplaceA.survival, LaplaceA.logSurvival, LaplaceA.standardize, LaplaceA.logCdfStd, LaplaceA.sampleN, LaplaceA.sampleNLP]
    refine ⟨_, _, by ew, ?_, fun i => ?_⟩
    · simp [P2.Cov]
    · first | rfl | (simp only [Laplace.mean, Laplace.variance, Laplace.stddev, Laplace.mode, Laplace.median, Laplace.entropy, Laplace.logProb, Laplace.prob, Laplace.cdf, Laplace.logCdf, Laplace.survival, Laplace.logSurvival]; (first | rfl | congr | (split_ifs <;> rfl)))
  · refine EW.ofValue h fun v t hT hv hV => ?_
    simp only [LaplaceA.mean, LaplaceA.variance, LaplaceA.stddev, LaplaceA.mode, LaplaceA.median, LaplaceA.entropy, LaplaceA.logProb, LaplaceA.prob, LaplaceA.cdf, LaplaceA.logCdf, LaplaceA.survival, LaplaceA.logSurvival, LaplaceA.standardize, LaplaceA.logCdfStd, LaplaceA.sampleN, LaplaceA.sampleNLP]
    refine ⟨_, _, by ew, ?_, fun i => ?_⟩
    · simp [P2.Cov]
    · first | rfl | (simp only [Laplace.mean, Laplace.variance, Laplace.stddev, Laplace.mode, Laplace.median, Laplace.entropy, Laplace.logProb, Laplace.prob, Laplace.cdf, Laplace.logCdf, Laplace.survival, Laplace.logSurvival]; (first | rfl | congr | (split_ifs <;> rfl)))
  · refine EW.ofValue h fun v t hT hv hV => ?_
    simp only [LaplaceA.mean, LaplaceA.variance, LaplaceA.stddev, LaplaceA.mode, LaplaceA.median, LaplaceA.entropy, LaplaceA.logProb, LaplaceA.prob, LaplaceA.cdf, LaplaceA.logCdf, LaplaceA.survival, LaplaceA.logSurvival, LaplaceA.standardize, LaplaceA.logCdfStd, LaplaceA.sampleN, LaplaceA.sampleNLP]
    refine ⟨_, _, by ew, ?_, fun i => ?_⟩
    · simp [P2.Cov]
    · first | rfl | (simp only [Laplace.mean, Laplace.variance, Laplace.stddev, Laplace.mode, Laplace.median, Laplace.entropy, Laplace.logProb, Laplace.prob, Laplace.cdf, Laplace.logCdf, Laplace.survival, Laplace.logSurvival]; (first | rfl | congr | (split_ifs <;> rfl)))
  · refine EW.ofValue h fun v t hT hv hV => ?_
    simp only [LaplaceA.mean, LaplaceA.variance, LaplaceA.stddev, LaplaceA.mode, LaplaceA.median, LaplaceA.entropy, LaplaceA.logProb, LaplaceA.prob, LaplaceA.cdf, LaplaceA.logCdf, LaplaceA.survival, LaplaceA.logSurvival, LaplaceA.standardize, LaplaceA.logCdfStd, LaplaceA.sampleN, LaplaceA.sampleNLP]
    refine ⟨_, _, by ew, ?_, fun i => ?_⟩
    · simp [P2.Cov]
    · first | rfl | (simp only [Laplace.mean, Laplace.variance, Laplace.stddev, Laplace.mode, Laplace.median, Laplace.entropy, Laplace.logProb, Laplace.prob, Laplace.cdf, Laplace.logCdf, Laplace.survival, Laplace.logSurvival]; (first | rfl | congr | (split_ifs <;> rfl)))
  · refine EW.ofValue h fun v t hT hv hV => ?_
    simp only [LaplaceA.mean, LaplaceA.variance, LaplaceA.stddev, LaplaceA.mode, LaplaceA.median, LaplaceA.entropy, LaplaceA.logProb, LaplaceA.prob, LaplaceA.cdf, LaplaceA.logCdf, LaplaceA.survival, LaplaceA.logSurvival, LaplaceA.standardize, LaplaceA.logCdfStd, LaplaceA.sampleN, LaplaceA.sampleNLP]
    refine ⟨_, _, by ew, ?_, fun i => ?_⟩
    · simp [P2.Cov]
    · first | rfl | (simp only [Laplace.mean, Laplace.variance, Laplace.stddev, Laplace.mode, Laplace.median, Laplace.entropy, Laplace.logProb, Laplace.prob, Laplace.cdf, Laplace.logCdf, Laplace.survival, Laplace.logSurvival]; (first | rfl | congr | (split_ifs <;> rfl)))
  · refine EW.ofNoise fun n rnd hT hr hR => ?_
    have hn : AE.ndim (AE.arr rnd) = (n :: d.batch).length := congrArg List.length hr
    simp only [LaplaceA.mean, LaplaceA.variance, LaplaceA.stddev, LaplaceA.mode, LaplaceA.median, LaplaceA.entropy, LaplaceA.logProb, LaplaceA.prob, LaplaceA.cdf, LaplaceA.logCdf, LaplaceA.survival, LaplaceA.logSurvival, LaplaceA.standardize, LaplaceA.logCdfStd, LaplaceA.sampleN, LaplaceA.sampleNLP]
    refine ⟨_, _, by ew, ?_, fun i => ?_⟩
    · simp [P2.Cov]
    · first | rfl | (simp only [Laplace.mean, Laplace.variance, Laplace.stddev, Laplace.mode, Laplace.median, Laplace.entropy, Laplace.logProb, Laplace.prob, Laplace.cdf, Laplace.logCdf, Laplace.survival, Laplace.logSurvival]; (first | rfl | congr | (split_ifs <;> rfl)))
  · refine EW.ofNoise fun n rnd hT hr hR => ?_
    have hn : AE.ndim (AE.arr rnd) = (n :: d.batch).length := congrArg List.length hr
    simp only [LaplaceA.mean, LaplaceA.variance, LaplaceA.stddev, LaplaceA.mode, LaplaceA.median, LaplaceA.entropy, LaplaceA.logProb, LaplaceA.prob, LaplaceA.cdf, LaplaceA.logCdf, LaplaceA.survival, LaplaceA.logSurvival, LaplaceA.standardize, LaplaceA.logCdfStd, LaplaceA.sampleN, LaplaceA.sampleNLP]
    refine ⟨_, _, by ew, ?_, fun i => ?_⟩
    · simp [P2.Cov]
    · first | rfl | (simp only [Laplace.mean, Laplace.variance, Laplace.stddev, Laplace.mode, Laplace.median, Laplace.entropy, Laplace.logProb, Laplace.prob, Laplace.cdf, Laplace.logCdf, Laplace.survival, Laplace.logSurvival]; (first | rfl | congr | (split_ifs <;> rfl)))
  · refine EW.ofNoise fun n rnd hT hr hR => ?_
    have hn : AE.ndim (AE.arr rnd) = (n :: d.batch).length := congrArg List.length hr
    simp only [LaplaceA.mean, LaplaceA.variance, LaplaceA.stddev, LaplaceA.mode, LaplaceA.median, LaplaceA.entropy, LaplaceA.logProb, LaplaceA.prob, LaplaceA.cdf, LaplaceA.logCdf, LaplaceA.survival, LaplaceA.logSurvival, LaplaceA.standardize, LaplaceA.logCdfStd, LaplaceA.sampleN, LaplaceA.sampleNLP]
    refine ⟨_, _, by ew, ?_, fun i => ?_⟩
    · simp [P2.Cov]
    · first | rfl | (simp only [Laplace.mean, Laplace.variance, Laplace.stddev, Laplace.mode, Laplace.median, Laplace.entropy, Laplace.logProb, Laplace.prob, Laplace.cdf, Laplace.logCdf, Laplace.survival, Laplace.logSurvival]; (first | rfl | congr | (split_ifs <;> rfl)))

set_option linter.unusedSimpArgs false in
set_option linter.unusedTactic false in
set_option linter.unreachableTactic false in
/-- logistic.py: every method acts entry by entry: summaries have the batch shape, `value` methods the broadcast of the batch and
value shapes, samples `(n,) + batch_shape`; each entry is computed from the parameters (and value or noise) that
broadcasting assigns to it. -/
theorem C58_logistic (p q : BArr ℝ) (d : P2) (hi : P2.init p q = .ok d) :
    Summary d (LogisticA.mean d) (fun a b => Logistic.mean ⟨a, b⟩) ∧
    Summary d (LogisticA.variance d) (fun a b => Logistic.variance ⟨a, b⟩) ∧
    Summary d (LogisticA.stddev d) (fun a b => Logistic.stddev ⟨a, b⟩) ∧
    Summary d (LogisticA.mode d) (fun a b => Logistic.mode ⟨a, b⟩) ∧
    Summary d (LogisticA.median d) (fun a b => Logistic.median ⟨a, b⟩) ∧
    Summary d (LogisticA.entropy d) (fun a b => Logistic.entropy ⟨a, b⟩) ∧
    OfValue d (LogisticA.logProb d) (fun a b => Logistic.logProb ⟨a, b⟩) ∧
    OfValue d (LogisticA.prob d) (fun a b => Logistic.prob ⟨a, b⟩) ∧
    OfValue d (LogisticA.cdf d) (fun a b => Logistic.cdf ⟨a, b⟩) ∧
    OfValue d (LogisticA.logCdf d) (fun a b => Logistic.logCdf ⟨a, b⟩) ∧
    OfValue d (LogisticA.survival d) (fun a b => Logistic.survival ⟨a, b⟩) ∧
    OfValue d (LogisticA.logSurvival d) (fun a b => Logistic.logSurvival ⟨a, b⟩) ∧
    OfNoise d (fun _ => LogisticA.sampleN d) (fun a b => Logistic.sample ⟨a, b⟩) := by
  obtain ⟨-, -, h⟩ := P2.init_wf hi
  have hT := BLe.refl d.batch
  refine ⟨?_, ?_, ?_, ?_, ?_, ?_, ?_, ?_, ?_, ?_, ?_, ?_, ?_⟩
  · simp only [LogisticA.mean, LogisticA.variance, LogisticA.stddev, LogisticA.mode, LogisticA.median, LogisticA.entropy, LogisticA.logProb, LogisticA.prob, LogisticA.cdf, LogisticA.logCdf, LogisticA.survival, LogisticA.logSurvival, LogisticA.standardize, LogisticA.sampleN]
    refine EW.summary h (by ew) ?_ fun i => ?_
    · simp [P2.Cov]
    · first | rfl | (simp only [Logistic.mean, Logistic.variance, Logistic.stddev, Logistic.mode, Logistic.median, Logistic.entropy, Logistic.logProb, Logistic.prob, Logistic.cdf, Logistic.logCdf, Logistic.survival, Logistic.logSurvival]; (first | rfl | congr | (split_ifs <;> rfl)))
  · simp only [LogisticA.mean, LogisticA.variance, LogisticA.stddev, LogisticA.mode, LogisticA.median, LogisticA.entropy, LogisticA.logProb, LogisticA.prob, LogisticA.cdf, LogisticA.logCdf, LogisticA.survival, LogisticA.logSurvival, LogisticA.standardize, LogisticA.sampleN]
    refine EW.summary h (by ew) ?_ fun i => ?_
    · simp [P2.Cov]
    · first | rfl | (simp only [Logistic.mean, Logistic.variance, Logistic.stddev, Logistic.mode, Logistic.median, Logistic.entropy, Logistic.logProb, Logistic.prob, Logistic.cdf, Logistic.logCdf, Logistic.survival, Logistic.logSurvival]; (first | rfl | congr | (split_ifs <;> rfl)))
  · simp only [LogisticA.mean, LogisticA.variance, LogisticA.stddev, LogisticA.mode, LogisticA.median, LogisticA.entropy, LogisticA.logProb, LogisticA.prob, LogisticA.cdf, LogisticA.logCdf, LogisticA.survival, LogisticA.logSurvival, LogisticA.standardize, LogisticA.sampleN]
    refine EW.summary h (by ew) ?_ fun i => ?_
    · simp [P2.Cov]
    · first | rfl | (simp only [Logistic.mean, Logistic.variance, Logistic.stddev, Logistic.mode, Logistic.median, Logistic.entropy, Logistic.logProb, Logistic.prob, Logistic.cdf, Logistic.logCdf, Logistic.survival, Logistic.logSurvival]; (first | rfl | congr | (split_ifs <;> rfl)))
  · simp only [LogisticA.mean, LogisticA.variance, LogisticA.stddev, LogisticA.mode, LogisticA.median, LogisticA.entropy, LogisticA.logProb, LogisticA.prob, LogisticA.cdf, LogisticA.logCdf, LogisticA.survival, LogisticA.logSurvival, LogisticA.standardize, LogisticA.sampleN]
    refine EW.summary h (by ew) ?_ fun i => ?_
    · simp [P2.Cov]
    · first | rfl | (simp only [Logistic.mean, Logistic.variance, Logistic.stddev, Logistic.mode, Logistic.median, Logistic.entropy, Logistic.logProb, Logistic.prob, Logistic.cdf, Logistic.logCdf, Logistic.survival, Logistic.logSurvival]; (first | rfl | congr | (split_ifs <;> rfl)))
  · simp only [LogisticA.mean, LogisticA.variance, LogisticA.stddev, LogisticA.mode, LogisticA.median, LogisticA.entropy, LogisticA.logProb, LogisticA.prob, LogisticA.cdf, LogisticA.logCdf, LogisticA.survival, LogisticA.logSurvival, LogisticA.standardize, LogisticA.sampleN]
    refine EW.summary h (by ew) ?_ fun i => ?_
    · simp [P2.Cov]
    · first | rfl | (simp only [Logistic.mean, Logistic.variance, Logistic.stddev, Logistic.mode, Logistic.median, Logistic.entropy, Logistic.logProb, Logistic.prob, Logistic.cdf, Logistic.logCdf, Logistic.survival, Logistic.logSurvival]; (first | rfl | congr | (split_ifs <;> rfl)))
  · simp only [LogisticA.mean, LogisticA.variance, LogisticA.stddev, LogisticA.mode, LogisticA.median, LogisticA.entropy, LogisticA.logProb, LogisticA.prob, LogisticA.cdf, LogisticA.logCdf, LogisticA.survival, LogisticA.logSurvival, LogisticA.standardize, LogisticA.sampleN]
    refine EW.summary h (EW.add (EW.scalar _) (EW.broadcastTo (a := ⟨d.q.shape, fun i => Real.log (d.q.data i)⟩) hT rfl h.le_q (EW.log (EW.q_ h hT)))) ?_ fun i => ?_
    · simp [P2.Cov]
    · first | rfl | (simp only [Logistic.mean, Logistic.variance, Logistic.stddev, Logistic.mode, Logistic.median, Logistic.entropy, Logistic.logProb, Logistic.prob, Logistic.cdf, Logistic.logCdf, Logistic.survival, Logistic.logSurvival]; (first | rfl | congr | (split_ifs <;> rfl)))
  · refine EW.ofValue h fun v t hT hv hV => ?_
    simp only [LogisticA.mean, LogisticA.variance, LogisticA.stddev, LogisticA.mode, LogisticA.median, LogisticA.entropy, LogisticA.logProb, LogisticA.prob, LogisticA.cdf, LogisticA.logCdf, LogisticA.survival, LogisticA.logSurvival, LogisticA.standardize, LogisticA.sampleN]
    refine ⟨_, _, by ew, ?_, fun i => ?_⟩
    · simp [P2.Cov]
    · first | rfl | (simp only [Logistic.mean, Logistic.variance, Logistic.stddev, Logistic.mode, Logistic.median, Logistic.entropy, Logistic.logProb, Logistic.prob, Logistic.cdf, Logistic.logCdf, Logistic.survival, Logistic.logSurvival]; (first | rfl | congr | (split_ifs <;> rfl)))
  · refine EW.ofValue h fun v t hT hv hV => ?_
    simp only [LogisticA.mean, LogisticA.variance, LogisticA.stddev, LogisticA.mode, LogisticA.median, LogisticA.entropy, LogisticA.logProb, LogisticA.prob, LogisticA.cdf, LogisticA.logCdf, LogisticA.survival, LogisticA.logSurvival, LogisticA.standardize, LogisticA.sampleN]
    refine ⟨_, _, by ew, ?_, fun i => ?_⟩
    · simp [P2.Cov]
    · first | rfl | (simp only [Logistic.mean, Logistic.variance, Logistic.stddev, Logistic.mode, Logistic.median, Logistic.entropy, Logistic.logProb, Logistic.prob, Logistic.cdf, Logistic.logCdf, Logistic.survival, Logistic.logSurvival]; (first | rfl | congr | (split_ifs <;> rfl)))
  · refine EW.ofValue h fun v t hT hv hV => ?_
    simp only [LogisticA.mean, LogisticA.variance, LogisticA.stddev, LogisticA.mode, LogisticA.median, LogisticA.entropy, LogisticA.logProb, LogisticA.prob, LogisticA.cdf, LogisticA.logCdf, LogisticA.survival, LogisticA.logSurvival, LogisticA.standardize, LogisticA.sampleN]
    refine ⟨_, _, by ew, ?_, fun i => ?_⟩
    · simp [P2.Cov]
    · first | rfl | (simp only [Logistic.mean, Logistic.variance, Logistic.stddev, Logistic.mode, Logistic.median, Logistic.entropy, Logistic.logProb, Logistic.prob, Logistic.cdf, Logistic.logCdf, Logistic.survival, Logistic.logSurvival]; (first | rfl | congr | (split_ifs <;> rfl)))
  · refine EW.ofValue h fun v t hT hv hV => ?_
    simp only [LogisticA.mean, LogisticA.variance, LogisticA.stddev, LogisticA.mode, LogisticA.median, LogisticA.entropy, LogisticA.logProb, LogisticA.prob, LogisticA.cdf, LogisticA.logCdf, LogisticA.survival, LogisticA.logSurvival, LogisticA.standardize, LogisticA.sampleN]
    refine ⟨_, _, by ew, ?_, fun i => ?_⟩
    · simp [P2.Cov]
    · first | rfl | (simp only [Logistic.mean, Logistic.variance, Logistic.stddev, Logistic.mode, Logistic.median, Logistic.entropy, Logistic.logProb, Logistic.prob, Logistic.cdf, Logistic.logCdf, Logistic.survival, Logistic.logSurvival]; (first | rfl | congr | (split_ifs <;> rfl)))
  · refine EW.ofValue h fun v t hT hv hV => ?_
    simp only [LogisticA.mean, LogisticA.variance, LogisticA.stddev, LogisticA.mode, LogisticA.median, LogisticA.entropy, LogisticA.logProb, LogisticA.prob, LogisticA.cdf, LogisticA.logCdf, LogisticA.survival, LogisticA.logSurvival, LogisticA.standardize, LogisticA.sampleN]
    refine ⟨_, _, by ew, ?_, fun i => ?_⟩
    · simp [P2.Cov]
    · first | rfl | (simp only [Logistic.mean, Logistic.variance, Logistic.stddev, Logistic.mode, Logistic.median, Logistic.entropy, Logistic.logProb, Logistic.prob, Logistic.cdf, Logistic.logCdf, Logistic.survival, Logistic.logSurvival]; (first | rfl | congr | (split_ifs <;> rfl)))
  · refine EW.ofValue h fun v t hT hv hV => ?_
    simp only [LogisticA.mean, LogisticA.variance, LogisticA.stddev, LogisticA.mode, LogisticA.median, LogisticA.entropy, LogisticA.logProb, LogisticA.prob, LogisticA.cdf, LogisticA.logCdf, LogisticA.survival, LogisticA.logSurvival, LogisticA.standardize, LogisticA.sampleN]
    refine ⟨_, _, by ew, ?_, fun i => ?_⟩
    · simp [P2.Cov]
    · first | rfl | (simp only [Logistic.mean, Logistic.variance, Logistic.stddev, Logistic.mode, Logistic.median, Logistic.entropy, Logistic.logProb, Logistic.prob, Logistic.cdf, Logistic.logCdf, Logistic.survival, Logistic.logSurvival]; (first | rfl | congr | (split_ifs <;> rfl)))
  · refine EW.ofNoise fun n rnd hT hr hR => ?_
    have hn : AE.ndim (AE.arr rnd) = (n :: d.batch).length := congrArg List.length hr
    simp only [LogisticA.mean, LogisticA.variance, LogisticA.stddev, LogisticA.mode, LogisticA.median, LogisticA.entropy, LogisticA.logProb, LogisticA.prob, LogisticA.cdf, LogisticA.logCdf, LogisticA.survival, LogisticA.logSurvival, LogisticA.standardize, LogisticA.sampleN]
    refine ⟨_, _, by ew, ?_, fun i => ?_⟩
    · simp [P2.Cov]
    · first | rfl | (simp only [Logistic.mean, Logistic.variance, Logistic.stddev, Logistic.mode, Logistic.median, Logistic.entropy, Logistic.logProb, Logistic.prob, Logistic.cdf, Logistic.logCdf, Logistic.survival, Logistic.logSurvival]; (first | rfl | congr | (split_ifs <;> rfl)))

set_option linter.unusedSimpArgs false in
set_option linter.unusedTactic false in
set_option linter.unreachableTactic false in
/-- gumbel.py: every method acts entry by entry: summaries have the batch shape, `value` methods the broadcast of the batch and
value shapes, samples `(n,) + batch_shape`; each entry is computed from the parameters (and value or noise) that
broadcasting assigns to it. -/
theorem C58_gumbel_partial (p q : BArr ℝ) (d : P2) (hi : P2.init p q = .ok d) :
    Summary d (GumbelA.mean d) (fun a b => Gumbel.mean ⟨a, b⟩) ∧
    Summary d (GumbelA.variance d) (fun a b => Gumbel.variance ⟨a, b⟩) ∧
    Summary d (GumbelA.stddev d) (fun a b => Gumbel.stddev ⟨a, b⟩) ∧
    Summary d (GumbelA.mode d) (fun a b => Gumbel.mode ⟨a, b⟩) ∧
    Summary d (GumbelA.median d) (fun a b => Gumbel.median ⟨a, b⟩) ∧
    OfValue d (GumbelA.logProb d) (fun a b => Gumbel.logProb ⟨a, b⟩) ∧
    OfValue d (GumbelA.prob d) (fun a b => Gumbel.prob ⟨a, b⟩) ∧
    OfValue d (GumbelA.cdf d) (fun a b => Gumbel.cdf ⟨a, b⟩) ∧
    OfValue d (GumbelA.logCdf d) (fun a b => Gumbel.logCdf ⟨a, b⟩) ∧
    OfValue d (GumbelA.survival d) (fun a b => Gumbel.survival ⟨a, b⟩) ∧
    OfNoise d (fun _ => GumbelA.sampleN d) (fun a b => Gumbel.sample ⟨a, b⟩) ∧
    OfNoise d (fun _ rnd => (GumbelA.sampleNLP d rnd).1) (fun a b rnd => (Gumbel.sampleAndLogProb ⟨a, b⟩ rnd).1) ∧
    OfNoise d (fun _ rnd => (GumbelA.sampleNLP d rnd).2) (fun a b rnd => (Gumbel.sampleAndLogProb ⟨a, b⟩ rnd).2) := by
  obtain ⟨-, -, h⟩ := P2.init_wf hi
  have hT := BLe.refl d.batch
  refine ⟨?_, ?_, ?_, ?_, ?_, ?_, ?_, ?_, ?_, ?_, ?_, ?_, ?_⟩
  · simp only [GumbelA.mean, GumbelA.variance, GumbelA.stddev, GumbelA.mode, GumbelA.median, GumbelA.logProb, GumbelA.prob, GumbelA.cdf, GumbelA.logCdf, GumbelA.survival, GumbelA.standardize, GumbelA.sampleN, GumbelA.sampleNLP]
    refine EW.summary h (by ew) ?_ fun i => ?_
    · simp [P2.Cov]
    · first | rfl | (simp only [Gumbel.mean, Gumbel.variance, Gumbel.stddev, Gumbel.mode, Gumbel.median, Gumbel.logProb, Gumbel.prob, Gumbel.cdf, Gumbel.logCdf, Gumbel.survival]; (first | rfl | congr | (split_ifs <;> rfl)))
  · simp only [GumbelA.mean, GumbelA.variance, GumbelA.stddev, GumbelA.mode, GumbelA.median, GumbelA.logProb, GumbelA.prob, GumbelA.cdf, GumbelA.logCdf, GumbelA.survival, GumbelA.standardize, GumbelA.sampleN, GumbelA.sampleNLP]
    refine EW.summary h (by ew) ?_ fun i => ?_
    · simp [P2.Cov]
    · first | rfl | (simp only [Gumbel.mean, Gumbel.variance, Gumbel.stddev, Gumbel.mode, Gumbel.median, Gumbel.logProb, Gumbel.prob, Gumbel.cdf, Gumbel.logCdf, Gumbel.survival]; (first | rfl | congr | (split_ifs <;> rfl)))
  · simp only [GumbelA.mean, GumbelA.variance, GumbelA.stddev, GumbelA.mode, GumbelA.median, GumbelA.logProb, GumbelA.prob, GumbelA.cdf, GumbelA.logCdf, GumbelA.survival, GumbelA.standardize, GumbelA.sampleN, GumbelA.sampleNLP]
    refine EW.summary h (by ew) ?_ fun i => ?_
    · simp [P2.Cov]
    · first | rfl | (simp only [Gumbel.mean, Gumbel.variance, Gumbel.stddev, Gumbel.mode, Gumbel.median, Gumbel.logProb, Gumbel.prob, Gumbel.cdf, Gumbel.logCdf, Gumbel.survival]; (first | rfl | congr | (split_ifs <;> rfl)))
  · simp only [GumbelA.mean, GumbelA.variance, GumbelA.stddev, GumbelA.mode, GumbelA.median, GumbelA.logProb, GumbelA.prob, GumbelA.cdf, GumbelA.logCdf, GumbelA.survival, GumbelA.standardize, GumbelA.sampleN, GumbelA.sampleNLP]
    refine EW.summary h (by ew) ?_ fun i => ?_
    · simp [P2.Cov]
    · first | rfl | (simp only [Gumbel.mean, Gumbel.variance, Gumbel.stddev, Gumbel.mode, Gumbel.median, Gumbel.logProb, Gumbel.prob, Gumbel.cdf, Gumbel.logCdf, Gumbel.survival]; (first | rfl | congr | (split_ifs <;> rfl)))
  · simp only [GumbelA.mean, GumbelA.variance, GumbelA.stddev, GumbelA.mode, GumbelA.median, GumbelA.logProb, GumbelA.prob, GumbelA.cdf, GumbelA.logCdf, GumbelA.survival, GumbelA.standardize, GumbelA.sampleN, GumbelA.sampleNLP]
    refine EW.summary h (by ew) ?_ fun i => ?_
    · simp [P2.Cov]
    · first | rfl | (simp only [Gumbel.mean, Gumbel.variance, Gumbel.stddev, Gumbel.mode, Gumbel.median, Gumbel.logProb, Gumbel.prob, Gumbel.cdf, Gumbel.logCdf, Gumbel.survival]; (first | rfl | congr | (split_ifs <;> rfl)))
  · refine EW.ofValue h fun v t hT hv hV => ?_
    simp only [GumbelA.mean, GumbelA.variance, GumbelA.stddev, GumbelA.mode, GumbelA.median, GumbelA.logProb, GumbelA.prob, GumbelA.cdf, GumbelA.logCdf, GumbelA.survival, GumbelA.standardize, GumbelA.sampleN, GumbelA.sampleNLP]
    refine ⟨_, _, by ew, ?_, fun i => ?_⟩
    · simp [P2.Cov]
    · first | rfl | (simp only [Gumbel.mean, Gumbel.variance, Gumbel.stddev, Gumbel.mode, Gumbel.median, Gumbel.logProb, Gumbel.prob, Gumbel.cdf, Gumbel.logCdf, Gumbel.survival]; (first | rfl | congr | (split_ifs <;> rfl)))
  · refine EW.ofValue h fun v t hT hv hV => ?_
    simp only [GumbelA.mean, GumbelA.variance, GumbelA.stddev, GumbelA.mode, GumbelA.median, GumbelA.logProb, GumbelA.prob, GumbelA.cdf, GumbelA.logCdf, GumbelA.survival, GumbelA.standardize, GumbelA.sampleN, GumbelA.sampleNLP]
    refine ⟨_, _, by ew, ?_, fun i => ?_⟩
    · simp [P2.Cov]
    · first | rfl | (simp only [Gumbel.mean, Gumbel.variance, Gumbel.stddev, Gumbel.mode, Gumbel.median, Gumbel.logProb, Gumbel.prob, Gumbel.cdf, Gumbel.logCdf, Gumbel.survival]; (first | rfl | congr | (split_ifs <;> rfl)))
  · refine EW.ofValue h fun v t hT hv hV => ?_
    simp only [GumbelA.mean, GumbelA.variance, GumbelA.stddev, GumbelA.mode, GumbelA.median, GumbelA.logProb, GumbelA.prob, GumbelA.cdf, GumbelA.logCdf, GumbelA.survival, GumbelA.standardize, GumbelA.sampleN, GumbelA.sampleNLP]
    refine ⟨_, _, by ew, ?_, fun i => ?_⟩
    · simp [P2.Cov]
    · first | rfl | (simp only [Gumbel.mean, Gumbel.variance, Gumbel.stddev, Gumbel.mode, Gumbel.median, Gumbel.logProb, Gumbel.prob, Gumbel.cdf, Gumbel.logCdf, Gumbel.survival]; (first | rfl | congr | (split_ifs <;> rfl)))
  · refine EW.ofValue h fun v t hT hv hV => ?_
    simp only [GumbelA.mean, GumbelA.variance, GumbelA.stddev, GumbelA.mode, GumbelA.median, GumbelA.logProb, GumbelA.prob, GumbelA.cdf, GumbelA.logCdf, GumbelA.survival, GumbelA.standardize, GumbelA.sampleN, GumbelA.sampleNLP]
    refine ⟨_, _, by ew, ?_, fun i => ?_⟩
    · simp [P2.Cov]
    · first | rfl | (simp only [Gumbel.mean, Gumbel.variance, Gumbel.stddev, Gumbel.mode, Gumbel.median, Gumbel.logProb, Gumbel.prob, Gumbel.cdf, Gumbel.logCdf, Gumbel.survival]; (first | rfl | congr | (split_ifs <;> rfl)))
  · refine EW.ofValue h fun v t hT hv hV => ?_
    simp only [GumbelA.mean, GumbelA.variance, GumbelA.stddev, GumbelA.mode, GumbelA.median, GumbelA.logProb, GumbelA.prob, GumbelA.cdf, GumbelA.logCdf, GumbelA.survival, GumbelA.standardize, GumbelA.sampleN, GumbelA.sampleNLP]
    refine ⟨_, _, by ew, ?_, fun i => ?_⟩
    · simp [P2.Cov]
    · first | rfl | (simp only [Gumbel.mean, Gumbel.variance, Gumbel.stddev, Gumbel.mode, Gumbel.median, Gumbel.logProb, Gumbel.prob, Gumbel.cdf, Gumbel.logCdf, Gumbel.survival]; (first | rfl | congr | (split_ifs <;> rfl)))
  · refine EW.ofNoise fun n rnd hT hr hR => ?_
    have hn : AE.ndim (AE.arr rnd) = (n :: d.batch).length := congrArg List.length hr
    simp only [GumbelA.mean, GumbelA.variance, GumbelA.stddev, GumbelA.mode, GumbelA.median, GumbelA.logProb, GumbelA.prob, GumbelA.cdf, GumbelA.logCdf, GumbelA.survival, GumbelA.standardize, GumbelA.sampleN, GumbelA.sampleNLP]
    refine ⟨_, _, by ew, ?_, fun i => ?_⟩
    · simp [P2.Cov]
    · first | rfl | (simp only [Gumbel.mean, Gumbel.variance, Gumbel.stddev, Gumbel.mode, Gumbel.median, Gumbel.logProb, Gumbel.prob, Gumbel.cdf, Gumbel.logCdf, Gumbel.survival]; (first | rfl | congr | (split_ifs <;> rfl)))
  · refine EW.ofNoise fun n rnd hT hr hR => ?_
    have hn : AE.ndim (AE.arr rnd) = (n :: d.batch).length := congrArg List.length hr
    simp only [GumbelA.mean, GumbelA.variance, GumbelA.stddev, GumbelA.mode, GumbelA.median, GumbelA.logProb, GumbelA.prob, GumbelA.cdf, GumbelA.logCdf, GumbelA.survival, GumbelA.standardize, GumbelA.sampleN, GumbelA.sampleNLP]
    refine ⟨_, _, by ew, ?_, fun i => ?_⟩
    · simp [P2.Cov]
    · first | rfl | (simp only [Gumbel.mean, Gumbel.variance, Gumbel.stddev, Gumbel.mode, Gumbel.median, Gumbel.logProb, Gumbel.prob, Gumbel.cdf, Gumbel.logCdf, Gumbel.survival]; (first | rfl | congr | (split_ifs <;> rfl)))
  · refine EW.ofNoise fun n rnd hT hr hR => ?_
    have hn : AE.ndim (AE.arr rnd) = (n :: d.batch).length := congrArg List.length hr
    simp only [GumbelA.mean, GumbelA.variance, GumbelA.stddev, GumbelA.mode, GumbelA.median, GumbelA.logProb, GumbelA.prob, GumbelA.cdf, GumbelA.logCdf, GumbelA.survival, GumbelA.standardize, GumbelA.sampleN, GumbelA.sampleNLP]
    refine ⟨_, _, by ew, ?_, fun i => ?_⟩
    · simp [P2.Cov]
    · first | rfl | (simp only [Gumbel.mean, Gumbel.variance, Gumbel.stddev, Gumbel.mode, Gumbel.median, Gumbel.logProb, Gumbel.prob, Gumbel.cdf, Gumbel.logCdf, Gumbel.survival]; (first | rfl | congr | (split_ifs <;> rfl)))

set_option linter.unusedSimpArgs false in
set_option linter.unusedTactic false in
set_option linter.unreachableTactic false in
/-- uniform.py: every method acts entry by entry: summaries have the batch shape, `value` methods the broadcast of the batch and
value shapes, samples `(n,) + batch_shape`; each entry is computed from the parameters (and value or noise) that
broadcasting assigns to it. -/
theorem C58_uniform (p q : BArr ℝ) (d : P2) (hi : P2.init p q = .ok d) :
    Summary d (UniformA.mean d) (fun a b => Uniform.mean ⟨a, b⟩) ∧
    Summary d (UniformA.variance d) (fun a b => Uniform.variance ⟨a, b⟩) ∧
    Summary d (UniformA.stddev d) (fun a b => Uniform.stddev ⟨a, b⟩) ∧
    Summary d (UniformA.median d) (fun a b => Uniform.median ⟨a, b⟩) ∧
    Summary d (UniformA.entropy d) (fun a b => Uniform.entropy ⟨a, b⟩) ∧
    OfValue d (UniformA.logProb d) (fun a b => Uniform.logProb ⟨a, b⟩) ∧
    OfValue d (UniformA.prob d) (fun a b => Uniform.prob ⟨a, b⟩) ∧
    OfValue d (UniformA.cdf d) (fun a b => Uniform.cdf ⟨a, b⟩) ∧
    OfValue d (UniformA.logCdf d) (fun a b => Uniform.logCdf ⟨a, b⟩) ∧
    OfValue d (UniformA.survival d) (fun a b => Uniform.survival ⟨a, b⟩) ∧
    OfNoise d (fun _ => UniformA.sampleN d) (fun a b => Uniform.sample ⟨a, b⟩) ∧
    OfNoise d (fun n rnd => (UniformA.sampleNLP d n rnd).1) (fun a b rnd => (Uniform.sampleAndLogProb ⟨a, b⟩ rnd).1) ∧
    OfNoise d (fun n rnd => (UniformA.sampleNLP d n rnd).2) (fun a b rnd => (Uniform.sampleAndLogProb ⟨a, b⟩ rnd).2) := by
  obtain ⟨-, -, h⟩ := P2.init_wf hi
  have hT := BLe.refl d.batch
  refine ⟨?_, ?_, ?_, ?_, ?_, ?_, ?_, ?_, ?_, ?_, ?_, ?_, ?_⟩
  · simp only [UniformA.mean, UniformA.variance, UniformA.stddev, UniformA.median, UniformA.entropy, UniformA.logProb, UniformA.prob, UniformA.cdf, UniformA.logCdf, UniformA.survival, UniformA.range, UniformA.sampleN, UniformA.sampleNLP]
    refine EW.summary h (by ew) ?_ fun i => ?_
    · simp [P2.Cov]
    · first | rfl | (simp only [Uniform.mean, Uniform.variance, Uniform.stddev, Uniform.median, Uniform.entropy, Uniform.logProb, Uniform.prob, Uniform.cdf, Uniform.logCdf, Uniform.survival]; (first | rfl | congr | (split_ifs <;> rfl)))
  · simp only [UniformA.mean, UniformA.variance, UniformA.stddev, UniformA.median, UniformA.entropy, UniformA.logProb, UniformA.prob, UniformA.cdf, UniformA.logCdf, UniformA.survival, UniformA.range, UniformA.sampleN, UniformA.sampleNLP]
    refine EW.summary h (by ew) ?_ fun i => ?_
    · simp [P2.Cov]
    · first | rfl | (simp only [Uniform.mean, Uniform.variance, Uniform.stddev, Uniform.median, Uniform.entropy, Uniform.logProb, Uniform.prob, Uniform.cdf, Uniform.logCdf, Uniform.survival]; (first | rfl | congr | (split_ifs <;> rfl)))
  · simp only [UniformA.mean, UniformA.variance, UniformA.stddev, UniformA.median, UniformA.entropy, UniformA.logProb, UniformA.prob, UniformA.cdf, UniformA.logCdf, UniformA.survival, UniformA.range, UniformA.sampleN, UniformA.sampleNLP]
    refine EW.summary h (by ew) ?_ fun i => ?_
    · simp [P2.Cov]
    · first | rfl | (simp only [Uniform.mean, Uniform.variance, Uniform.stddev, Uniform.median, Uniform.entropy, Uniform.logProb, Uniform.prob, Uniform.cdf, Uniform.logCdf, Uniform.survival]; (first | rfl | congr | (split_ifs <;> rfl)))
  · simp only [UniformA.mean, UniformA.variance, UniformA.stddev, UniformA.median, UniformA.entropy, UniformA.logProb, UniformA.prob, UniformA.cdf, UniformA.logCdf, UniformA.survival, UniformA.range, UniformA.sampleN, UniformA.sampleNLP]
    refine EW.summary h (by ew) ?_ fun i => ?_
    · simp [P2.Cov]
    · first | rfl | (simp only [Uniform.mean, Uniform.variance, Uniform.stddev, Uniform.median, Uniform.entropy, Uniform.logProb, Uniform.prob, Uniform.cdf, Uniform.logCdf, Uniform.survival]; (first | rfl | congr | (split_ifs <;> rfl)))
  · simp only [UniformA.mean, UniformA.variance, UniformA.stddev, UniformA.median, UniformA.entropy, UniformA.logProb, UniformA.prob, UniformA.cdf, UniformA.logCdf, UniformA.survival, UniformA.range, UniformA.sampleN, UniformA.sampleNLP]
    refine EW.summary h (by ew) ?_ fun i => ?_
    · simp [P2.Cov]
    · first | rfl | (simp only [Uniform.mean, Uniform.variance, Uniform.stddev, Uniform.median, Uniform.entropy, Uniform.logProb, Uniform.prob, Uniform.cdf, Uniform.logCdf, Uniform.survival]; (first | rfl | congr | (split_ifs <;> rfl)))
  · refine EW.ofValue h fun v t hT hv hV => ?_
    simp only [UniformA.mean, UniformA.variance, UniformA.stddev, UniformA.median, UniformA.entropy, UniformA.logProb, UniformA.prob, UniformA.cdf, UniformA.logCdf, UniformA.survival, UniformA.range, UniformA.sampleN, UniformA.sampleNLP]
    refine ⟨_, _, by ew, ?_, fun i => ?_⟩
    · simp [P2.Cov]
    · first | rfl | (simp only [Uniform.mean, Uniform.variance, Uniform.stddev, Uniform.median, Uniform.entropy, Uniform.logProb, Uniform.prob, Uniform.cdf, Uniform.logCdf, Uniform.survival]; (first | rfl | congr | (split_ifs <;> rfl)))
  · refine EW.ofValue h fun v t hT hv hV => ?_
    simp only [UniformA.mean, UniformA.variance, UniformA.stddev, UniformA.median, UniformA.entropy, UniformA.logProb, UniformA.prob, UniformA.cdf, UniformA.logCdf, UniformA.survival, UniformA.range, UniformA.sampleN, UniformA.sampleNLP]
    refine ⟨_, _, by ew, ?_, fun i => ?_⟩
    · simp [P2.Cov]
    · first | rfl | (simp only [Uniform.mean, Uniform.variance, Uniform.stddev, Uniform.median, Uniform.entropy, Uniform.logProb, Uniform.prob, Uniform.cdf, Uniform.logCdf, Uniform.survival]; (first | rfl | congr | (split_ifs <;> rfl)))
  · refine EW.ofValue h fun v t hT hv hV => ?_
    simp only [UniformA.mean, UniformA.variance, UniformA.stddev, UniformA.median, UniformA.entropy, UniformA.logProb, UniformA.prob, UniformA.cdf, UniformA.logCdf, UniformA.survival, UniformA.range, UniformA.sampleN, UniformA.sampleNLP]
    refine ⟨_, _, by ew, ?_, fun i => ?_⟩
    · simp [P2.Cov]
    · first | rfl | (simp only [Uniform.mean, Uniform.variance, Uniform.stddev, Uniform.median, Uniform.entropy, Uniform.logProb, Uniform.prob, Uniform.cdf, Uniform.logCdf, Uniform.survival]; (first | rfl | congr | (split_ifs <;> rfl)))
  · refine EW.ofValue h fun v t hT hv hV => ?_
    simp only [UniformA.mean, UniformA.variance, UniformA.stddev, UniformA.median, UniformA.entropy, UniformA.logProb, UniformA.prob, UniformA.cdf, UniformA.logCdf, UniformA.survival, UniformA.range, UniformA.sampleN, UniformA.sampleNLP]
    refine ⟨_, _, by ew, ?_, fun i => ?_⟩
    · simp [P2.Cov]
    · first | rfl | (simp only [Uniform.mean, Uniform.variance, Uniform.stddev, Uniform.median, Uniform.entropy, Uniform.logProb, Uniform.prob, Uniform.cdf, Uniform.logCdf, Uniform.survival]; (first | rfl | congr | (split_ifs <;> rfl)))
  · refine EW.ofValue h fun v t hT hv hV => ?_
    simp only [UniformA.mean, UniformA.variance, UniformA.stddev, UniformA.median, UniformA.entropy, UniformA.logProb, UniformA.prob, UniformA.cdf, UniformA.logCdf, UniformA.survival, UniformA.range, UniformA.sampleN, UniformA.sampleNLP]
    refine ⟨_, _, by ew, ?_, fun i => ?_⟩
    · simp [P2.Cov]
    · first | rfl | (simp only [Uniform.mean, Uniform.variance, Uniform.stddev, Uniform.median, Uniform.entropy, Uniform.logProb, Uniform.prob, Uniform.cdf, Uniform.logCdf, Uniform.survival]; (first | rfl | congr | (split_ifs <;> rfl)))
  · refine EW.ofNoise fun n rnd hT hr hR => ?_
    have hn : AE.ndim (AE.arr rnd) = (n :: d.batch).length := congrArg List.length hr
    simp only [UniformA.mean, UniformA.variance, UniformA.stddev, UniformA.median, UniformA.entropy, UniformA.logProb, UniformA.prob, UniformA.cdf, UniformA.logCdf, UniformA.survival, UniformA.range, UniformA.sampleN, UniformA.sampleNLP]
    refine ⟨_, _, by ew, ?_, fun i => ?_⟩
    · simp [P2.Cov]
    · first | rfl | (simp only [Uniform.mean, Uniform.variance, Uniform.stddev, Uniform.median, Uniform.entropy, Uniform.logProb, Uniform.prob, Uniform.cdf, Uniform.logCdf, Uniform.survival]; (first | rfl | congr | (split_ifs <;> rfl)))
  · refine EW.ofNoise fun n rnd hT hr hR => ?_
    have hn : AE.ndim (AE.arr rnd) = (n :: d.batch).length := congrArg List.length hr
    simp only [UniformA.mean, UniformA.variance, UniformA.stddev, UniformA.median, UniformA.entropy, UniformA.logProb, UniformA.prob, UniformA.cdf, UniformA.logCdf, UniformA.survival, UniformA.range, UniformA.sampleN, UniformA.sampleNLP]
    refine ⟨_, _, by ew, ?_, fun i => ?_⟩
    · simp [P2.Cov]
    · first | rfl | (simp only [Uniform.mean, Uniform.variance, Uniform.stddev, Uniform.median, Uniform.entropy, Uniform.logProb, Uniform.prob, Uniform.cdf, Uniform.logCdf, Uniform.survival]; (first | rfl | congr | (split_ifs <;> rfl)))
  · intro n rnd hr
    have h1 := EW.neg (EW.xlog (EW.sub (EW.qB h hT) (EW.pB h hT)))
    refine EW.perEntry (EW.repeatLead n h1 fun u hu _ => P2.Cov.le h (by simp [P2.Cov]) hu) (fun u hu _ => hu _ (by simp)) ?_
    intro i hi
    cases hi with
    | cons hk hi =>
      rename_i k j
      have hl : (k :: j).length - d.p.shape.length = (j.length - d.p.shape.length) + 1 := by
        have := h.le_p.length; have := hi.length_eq; simp only [List.length_cons]; omega
      have hl' : (k :: j).length - d.q.shape.length = (j.length - d.q.shape.length) + 1 := by
        have := h.le_q.length; have := hi.length_eq; simp only [List.length_cons]; omega
      simp only [List.tail_cons, Uniform.sampleAndLogProb, Uniform.range, bget, proj, hl, hl', List.drop_succ_cons]

set_option linter.unusedSimpArgs false in
set_option linter.unusedTactic false in
set_option linter.unreachableTactic false in
/-- gamma.py: every method acts entry by entry: summaries have the batch shape, `value` methods the broadcast of the batch and
value shapes, samples `(n,) + batch_shape`; each entry is computed from the parameters (and value or noise) that
broadcasting assigns to it. -/
theorem C58_gamma (p q : BArr ℝ) (d : P2) (hi : P2.init p q = .ok d) :
    Summary d (GammaA.mean d) (fun a b => GammaD.mean ⟨a, b⟩) ∧
    Summary d (GammaA.variance d) (fun a b => GammaD.variance ⟨a, b⟩) ∧
    Summary d (GammaA.stddev d) (fun a b => GammaD.stddev ⟨a, b⟩) ∧
    Summary d (GammaA.mode d) (fun a b => GammaD.mode ⟨a, b⟩) ∧
    Summary d (GammaA.entropy d) (fun a b => GammaD.entropy ⟨a, b⟩) ∧
    OfValue d (GammaA.logProb d) (fun a b => GammaD.logProb ⟨a, b⟩) ∧
    OfValue d (GammaA.cdf d) (fun a b => GammaD.cdf ⟨a, b⟩) ∧
    OfValue d (GammaA.logCdf d) (fun a b => GammaD.logCdf ⟨a, b⟩) ∧
    OfNoise d (fun _ => GammaA.sampleN d) (fun a b => GammaD.sample ⟨a, b⟩) := by
  obtain ⟨-, -, h⟩ := P2.init_wf hi
  have hT := BLe.refl d.batch
  refine ⟨?_, ?_, ?_, ?_, ?_, ?_, ?_, ?_, ?_⟩
  · simp only [GammaA.mean, GammaA.variance, GammaA.stddev, GammaA.mode, GammaA.entropy, GammaA.logProb, GammaA.cdf, GammaA.logCdf, GammaA.sampleN]
    refine EW.summary h (by ew) ?_ fun i => ?_
    · simp [P2.Cov]
    · first | rfl | (simp only [GammaD.mean, GammaD.variance, GammaD.stddev, GammaD.mode, GammaD.entropy, GammaD.logProb, GammaD.cdf, GammaD.logCdf]; (first | rfl | congr | (split_ifs <;> rfl)))
  · simp only [GammaA.mean, GammaA.variance, GammaA.stddev, GammaA.mode, GammaA.entropy, GammaA.logProb, GammaA.cdf, GammaA.logCdf, GammaA.sampleN]
    refine EW.summary h (by ew) ?_ fun i => ?_
    · simp [P2.Cov]
    · first | rfl | (simp only [GammaD.mean, GammaD.variance, GammaD.stddev, GammaD.mode, GammaD.entropy, GammaD.logProb, GammaD.cdf, GammaD.logCdf]; (first | rfl | congr | (split_ifs <;> rfl)))
  · simp only [GammaA.mean, GammaA.variance, GammaA.stddev, GammaA.mode, GammaA.entropy, GammaA.logProb, GammaA.cdf, GammaA.logCdf, GammaA.sampleN]
    refine EW.summary h (by ew) ?_ fun i => ?_
    · simp [P2.Cov]
    · first | rfl | (simp only [GammaD.mean, GammaD.variance, GammaD.stddev, GammaD.mode, GammaD.entropy, GammaD.logProb, GammaD.cdf, GammaD.logCdf]; (first | rfl | congr | (split_ifs <;> rfl)))
  · simp only [GammaA.mean, GammaA.variance, GammaA.stddev, GammaA.mode, GammaA.entropy, GammaA.logProb, GammaA.cdf, GammaA.logCdf, GammaA.sampleN]
    refine EW.summary h (by ew) ?_ fun i => ?_
    · simp [P2.Cov]
    · first | rfl | (simp only [GammaD.mean, GammaD.variance, GammaD.stddev, GammaD.mode, GammaD.entropy, GammaD.logProb, GammaD.cdf, GammaD.logCdf]; (first | rfl | congr | (split_ifs <;> rfl)))
  · simp only [GammaA.mean, GammaA.variance, GammaA.stddev, GammaA.mode, GammaA.entropy, GammaA.logProb, GammaA.cdf, GammaA.logCdf, GammaA.sampleN]
    refine EW.summary h (by ew) ?_ fun i => ?_
    · simp [P2.Cov]
    · first | rfl | (simp only [GammaD.mean, GammaD.variance, GammaD.stddev, GammaD.mode, GammaD.entropy, GammaD.logProb, GammaD.cdf, GammaD.logCdf]; (first | rfl | congr | (split_ifs <;> rfl)))
  · refine EW.ofValue h fun v t hT hv hV => ?_
    simp only [GammaA.mean, GammaA.variance, GammaA.stddev, GammaA.mode, GammaA.entropy, GammaA.logProb, GammaA.cdf, GammaA.logCdf, GammaA.sampleN]
    refine ⟨_, _, by ew, ?_, fun i => ?_⟩
    · simp [P2.Cov]
    · first | rfl | (simp only [GammaD.mean, GammaD.variance, GammaD.stddev, GammaD.mode, GammaD.entropy, GammaD.logProb, GammaD.cdf, GammaD.logCdf]; (first | rfl | congr | (split_ifs <;> rfl)))
  · refine EW.ofValue h fun v t hT hv hV => ?_
    simp only [GammaA.mean, GammaA.variance, GammaA.stddev, GammaA.mode, GammaA.entropy, GammaA.logProb, GammaA.cdf, GammaA.logCdf, GammaA.sampleN]
    refine ⟨_, _, by ew, ?_, fun i => ?_⟩
    · simp [P2.Cov]
    · first | rfl | (simp only [GammaD.mean, GammaD.variance, GammaD.stddev, GammaD.mode, GammaD.entropy, GammaD.logProb, GammaD.cdf, GammaD.logCdf]; (first | rfl | congr | (split_ifs <;> rfl)))
  · refine EW.ofValue h fun v t hT hv hV => ?_
    simp only [GammaA.mean, GammaA.variance, GammaA.stddev, GammaA.mode, GammaA.entropy, GammaA.logProb, GammaA.cdf, GammaA.logCdf, GammaA.sampleN]
    refine ⟨_, _, by ew, ?_, fun i => ?_⟩
    · simp [P2.Cov]
    · first | rfl | (simp only [GammaD.mean, GammaD.variance, GammaD.stddev, GammaD.mode, GammaD.entropy, GammaD.logProb, GammaD.cdf, GammaD.logCdf]; (first | rfl | congr | (split_ifs <;> rfl)))
  · refine EW.ofNoise fun n rnd hT hr hR => ?_
    have hn : AE.ndim (AE.arr rnd) = (n :: d.batch).length := congrArg List.length hr
    simp only [GammaA.mean, GammaA.variance, GammaA.stddev, GammaA.mode, GammaA.entropy, GammaA.logProb, GammaA.cdf, GammaA.logCdf, GammaA.sampleN]
    refine ⟨_, _, by ew, ?_, fun i => ?_⟩
    · simp [P2.Cov]
    · first | rfl | (simp only [GammaD.mean, GammaD.variance, GammaD.stddev, GammaD.mode, GammaD.entropy, GammaD.logProb, GammaD.cdf, GammaD.logCdf]; (first | rfl | congr | (split_ifs <;> rfl)))

set_option linter.unusedSimpArgs false in
set_option linter.unusedTactic false in
set_option linter.unreachableTactic false in
/-- beta.py: every method acts entry by entry: summaries have the batch shape, `value` methods the broadcast of the batch and
value shapes, samples `(n,) + batch_shape`; each entry is computed from the parameters (and value or noise) that
broadcasting assigns to it. -/
theorem C58_beta (p q : BArr ℝ) (d : P2) (hi : P2.init p q = .ok d) :
    Summary d (BetaA.mean d) (fun a b => BetaD.mean ⟨a, b⟩) ∧
    Summary d (BetaA.variance d) (fun a b => BetaD.variance ⟨a, b⟩) ∧
    Summary d (BetaA.mode d) (fun a b => BetaD.mode ⟨a, b⟩) ∧
    Summary d (BetaA.entropy d) (fun a b => BetaD.entropy ⟨a, b⟩) ∧
    OfValue d (BetaA.logProb d) (fun a b => BetaD.logProb ⟨a, b⟩) ∧
    OfValue d (BetaA.cdf d) (fun a b => BetaD.cdf ⟨a, b⟩) ∧
    OfNoise d (fun _ => BetaA.sampleN) (fun _ _ rnd => rnd) := by
  obtain ⟨-, -, h⟩ := P2.init_wf hi
  have hT := BLe.refl d.batch
  refine ⟨?_, ?_, ?_, ?_, ?_, ?_, ?_⟩
  · simp only [BetaA.mean, BetaA.variance, BetaA.mode, BetaA.entropy, BetaA.logProb, BetaA.cdf, BetaA.logZ, BetaA.sampleN]
    refine EW.summary h (by ew) ?_ fun i => ?_
    · simp [P2.Cov]
    · first | rfl | (simp only [BetaD.mean, BetaD.variance, BetaD.mode, BetaD.entropy, BetaD.logProb, BetaD.cdf]; (first | rfl | congr | (split_ifs <;> rfl)))
  · simp only [BetaA.mean, BetaA.variance, BetaA.mode, BetaA.entropy, BetaA.logProb, BetaA.cdf, BetaA.logZ, BetaA.sampleN]
    refine EW.summary h (by ew) ?_ fun i => ?_
    · simp [P2.Cov]
    · first | rfl | (simp only [BetaD.mean, BetaD.variance, BetaD.mode, BetaD.entropy, BetaD.logProb, BetaD.cdf]; (first | rfl | congr | (split_ifs <;> rfl)))
  · simp only [BetaA.mean, BetaA.variance, BetaA.mode, BetaA.entropy, BetaA.logProb, BetaA.cdf, BetaA.logZ, BetaA.sampleN]
    refine EW.summary h (by ew) ?_ fun i => ?_
    · simp [P2.Cov]
    · first | rfl | (simp only [BetaD.mean, BetaD.variance, BetaD.mode, BetaD.entropy, BetaD.logProb, BetaD.cdf]; (first | rfl | congr | (split_ifs <;> rfl)))
  · simp only [BetaA.mean, BetaA.variance, BetaA.mode, BetaA.entropy, BetaA.logProb, BetaA.cdf, BetaA.logZ, BetaA.sampleN]
    refine EW.summary h (by ew) ?_ fun i => ?_
    · simp [P2.Cov]
    · first | rfl | (simp only [BetaD.mean, BetaD.variance, BetaD.mode, BetaD.entropy, BetaD.logProb, BetaD.cdf]; (first | rfl | congr | (split_ifs <;> rfl)))
  · refine EW.ofValue h fun v t hT hv hV => ?_
    simp only [BetaA.mean, BetaA.variance, BetaA.mode, BetaA.entropy, BetaA.logProb, BetaA.cdf, BetaA.logZ, BetaA.sampleN]
    refine ⟨_, _, by ew, ?_, fun i => ?_⟩
    · simp [P2.Cov]
    · first | rfl | (simp only [BetaD.mean, BetaD.variance, BetaD.mode, BetaD.entropy, BetaD.logProb, BetaD.cdf]; (first | rfl | congr | (split_ifs <;> rfl)))
  · refine EW.ofValue h fun v t hT hv hV => ?_
    simp only [BetaA.mean, BetaA.variance, BetaA.mode, BetaA.entropy, BetaA.logProb, BetaA.cdf, BetaA.logZ, BetaA.sampleN]
    refine ⟨_, _, by ew, ?_, fun i => ?_⟩
    · simp [P2.Cov]
    · first | rfl | (simp only [BetaD.mean, BetaD.variance, BetaD.mode, BetaD.entropy, BetaD.logProb, BetaD.cdf]; (first | rfl | congr | (split_ifs <;> rfl)))
  · refine EW.ofNoise fun n rnd hT hr hR => ?_
    have hn : AE.ndim (AE.arr rnd) = (n :: d.batch).length := congrArg List.length hr
    simp only [BetaA.mean, BetaA.variance, BetaA.mode, BetaA.entropy, BetaA.logProb, BetaA.cdf, BetaA.logZ, BetaA.sampleN]
    refine ⟨_, _, by ew, ?_, fun i => ?_⟩
    · simp [P2.Cov]
    · first | rfl | (simp only [BetaD.mean, BetaD.variance, BetaD.mode, BetaD.entropy, BetaD.logProb, BetaD.cdf]; (first | rfl | congr | (split_ifs <;> rfl)))

set_option linter.unusedSimpArgs false in
set_option linter.unusedTactic false in
set_option linter.unreachableTactic false in
/-- von_mises.py: every method acts entry by entry: summaries have the batch shape, `value` methods the broadcast of the batch and
value shapes, samples `(n,) + batch_shape`; each entry is computed from the parameters (and value or noise) that
broadcasting assigns to it. -/
theorem C58_von_mises_partial (p q : BArr ℝ) (d : P2) (hi : P2.init p q = .ok d) :
    Summary d (VonMisesA.mean d) (fun a b => VonMises.mean ⟨a, b⟩) ∧
    Summary d (VonMisesA.mode d) (fun a b => VonMises.mode ⟨a, b⟩) ∧
    OfValue d (VonMisesA.logProb d) (fun a b => VonMises.logProb ⟨a, b⟩) ∧
    OfValue d (VonMisesA.prob d) (fun a b => VonMises.prob ⟨a, b⟩) ∧
    (∀ core, OfValue d (VonMisesA.cdf d core) fun a b => VonMises.cdf ⟨a, b⟩ core) ∧
    (∀ core, OfValue d (VonMisesA.survival d core) fun a b => VonMises.survival ⟨a, b⟩ core) ∧
    OfNoise d (fun _ => VonMisesA.sampleN d) (fun a _ std => convertAngle (std + a)) := by
  obtain ⟨-, -, h⟩ := P2.init_wf hi
  have hT := BLe.refl d.batch
  refine ⟨?_, ?_, ?_, ?_, ?_, ?_, ?_⟩
  · simp only [VonMisesA.mean, VonMisesA.mode, VonMisesA.logProb, VonMisesA.prob, VonMisesA.sampleN, VonMisesA.cdf, VonMisesA.survival]
    refine EW.summary h (by ew) ?_ fun i => ?_
    · simp [P2.Cov]
    · first | rfl | (simp only [VonMises.mean, VonMises.mode, VonMises.logProb, VonMises.prob]; (first | rfl | congr | (split_ifs <;> rfl)))
  · simp only [VonMisesA.mean, VonMisesA.mode, VonMisesA.logProb, VonMisesA.prob, VonMisesA.sampleN, VonMisesA.cdf, VonMisesA.survival]
    refine EW.summary h (by ew) ?_ fun i => ?_
    · simp [P2.Cov]
    · first | rfl | (simp only [VonMises.mean, VonMises.mode, VonMises.logProb, VonMises.prob]; (first | rfl | congr | (split_ifs <;> rfl)))
  · refine EW.ofValue h fun v t hT hv hV => ?_
    simp only [VonMisesA.mean, VonMisesA.mode, VonMisesA.logProb, VonMisesA.prob, VonMisesA.sampleN, VonMisesA.cdf, VonMisesA.survival]
    refine ⟨_, _, by ew, ?_, fun i => ?_⟩
    · simp [P2.Cov]
    · first | rfl | (simp only [VonMises.mean, VonMises.mode, VonMises.logProb, VonMises.prob]; (first | rfl | congr | (split_ifs <;> rfl)))
  · refine EW.ofValue h fun v t hT hv hV => ?_
    simp only [VonMisesA.mean, VonMisesA.mode, VonMisesA.logProb, VonMisesA.prob, VonMisesA.sampleN, VonMisesA.cdf, VonMisesA.survival]
    refine ⟨_, _, by ew, ?_, fun i => ?_⟩
    · simp [P2.Cov]
    · first | rfl | (simp only [VonMises.mean, VonMises.mode, VonMises.logProb, VonMises.prob]; (first | rfl | congr | (split_ifs <;> rfl)))
  · intro core; refine EW.ofValue h fun v t hT hv hV => ?_
    simp only [VonMisesA.mean, VonMisesA.mode, VonMisesA.logProb, VonMisesA.prob, VonMisesA.sampleN, VonMisesA.cdf, VonMisesA.survival]
    refine ⟨_, _, by ew, ?_, fun i => ?_⟩
    · simp [P2.Cov]
    · first | rfl | (simp only [VonMises.mean, VonMises.mode, VonMises.logProb, VonMises.prob]; (first | rfl | congr | (split_ifs <;> rfl)))
  · intro core; refine EW.ofValue h fun v t hT hv hV => ?_
    simp only [VonMisesA.mean, VonMisesA.mode, VonMisesA.logProb, VonMisesA.prob, VonMisesA.sampleN, VonMisesA.cdf, VonMisesA.survival]
    refine ⟨_, _, by ew, ?_, fun i => ?_⟩
    · simp [P2.Cov]
    · first | rfl | (simp only [VonMises.mean, VonMises.mode, VonMises.logProb, VonMises.prob]; (first | rfl | congr | (split_ifs <;> rfl)))
  · refine EW.ofNoise fun n rnd hT hr hR => ?_
    have hn : AE.ndim (AE.arr rnd) = (n :: d.batch).length := congrArg List.length hr
    simp only [VonMisesA.mean, VonMisesA.mode, VonMisesA.logProb, VonMisesA.prob, VonMisesA.sampleN, VonMisesA.cdf, VonMisesA.survival]
    refine ⟨_, _, by ew, ?_, fun i => ?_⟩
    · simp [P2.Cov]
    · first | rfl | (simp only [VonMises.mean, VonMises.mode, VonMises.logProb, VonMises.prob]; (first | rfl | congr | (split_ifs <;> rfl)))

set_option linter.unusedSimpArgs false in
set_option linter.unusedTactic false in
set_option linter.unreachableTactic false in
/-- The KL divergences: shape and entries by broadcasting the two batches. -/
theorem C58_kl :
    OfPair NormalA.kl (fun a b a' b' => Normal.kl ⟨a, b⟩ ⟨a', b'⟩) ∧
    OfPair LaplaceA.kl (fun a b a' b' => Laplace.kl ⟨a, b⟩ ⟨a', b'⟩) ∧
    OfPair GumbelA.kl (fun a b a' b' => Gumbel.kl ⟨a, b⟩ ⟨a', b'⟩) ∧
    OfPair UniformA.kl (fun a b a' b' => Uniform.kl ⟨a, b⟩ ⟨a', b'⟩) ∧
    OfPair GammaA.kl (fun a b a' b' => GammaD.kl ⟨a, b⟩ ⟨a', b'⟩) ∧
    OfPair BetaA.kl (fun a b a' b' => BetaD.kl ⟨a, b⟩ ⟨a', b'⟩) ∧
    OfPair VonMisesA.kl (fun a b a' b' => VonMises.kl ⟨a, b⟩ ⟨a', b'⟩) := by
  refine ⟨?_, ?_, ?_, ?_, ?_, ?_, ?_⟩ <;>
  · refine EW.ofPair fun d1 d2 t w1 w2 t1 t2 => ?_
    simp only [NormalA.kl, LaplaceA.kl, GumbelA.kl, UniformA.kl, GammaA.kl, BetaA.kl, VonMisesA.kl]
    refine ⟨_, _, by ew, ?_, fun i => ?_⟩
    · simp
    · first | rfl | (simp only [Uniform.kl]; congr)

/-- The hypotheses are satisfiable with genuine broadcasting: parameters of shapes `(2, 1)` and `(3,)`. -/
example : ∃ d, P2.init ⟨[2, 1], fun i => i.length⟩ ⟨[3], fun i => i.length⟩ = .ok d ∧ d.batch = [2, 3] :=
  ⟨_, rfl, rfl⟩

end Distrax
