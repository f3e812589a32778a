import Verif.Model.Defaults
import Verif.Props.Normal
import Verif.Props.LocScale
import Verif.Props.Categorical
import Verif.Props.Bernoulli
import Verif.Props.Gamma
import Verif.Props.BetaDirichlet
import Verif.Props.DirichletLaw
import Verif.Props.MVN
import Verif.Props.VonMises
import Verif.Props.Shape
import Mathlib.Probability.CDF

/-!
# C55: methods the base class derives from others

`cross_entropy(q)` must be `-E_p[log q]`; default `prob`, `cdf`, `survival_function`, `log_survival_function`, `stddev`,
`batch_shape` must agree with what they are derived from.
-/

namespace Distrax

open Spec XR MeasureTheory

/-! ### Cross entropy -/

/-- **Any densities.**  If `kl_divergence` and `entropy` return the divergence and the entropy, `cross_entropy` returns
`-E_p[log q]`. -/
theorem C55_cross_entropy_density {E : Type} [MeasurableSpace E] {μ : Measure E} {S : Set E} {p q : E → ℝ} {k h : ℝ}
    (hk : KLOn μ S p q k) (hh : EntropyOn μ S p h) :
    ∃ c, crossEntropy (.ok k) (.ok h) = .ok c ∧ ExpOn μ S p (fun x => -Real.log (q x)) c := by
  refine ⟨k + h, rfl, ?_⟩
  refine (Spec.ExpOn.add hk hh).congr (fun x => ?_) rfl
  ring

/-- The same on the real line. -/
theorem C55_cross_entropy_real {p q : ℝ → ℝ} {k h : ℝ} (hk : HasKL p q k) (hh : HasEntropy p h) :
    ∃ c, crossEntropy (.ok k) (.ok h) = .ok c ∧ HasExp p (fun x => -Real.log (q x)) c := by
  refine ⟨k + h, rfl, ?_, ?_⟩
  · have := hk.1.add hh.1
    refine this.congr (Filter.Eventually.of_forall fun x => ?_)
    simp only [Pi.add_apply]; ring
  · rw [← hk.2, ← hh.2, ← integral_add hk.1 hh.1]
    congr 1; funext x; ring

/-- What `cross_entropy` must be on the real line: `-E_p[log q]`, at least the entropy of `p`, with equality exactly when
`same`. -/
def IsCrossEntropy (p q : ℝ → ℝ) (h c : ℝ) (same : Prop) : Prop :=
  HasExp p (fun x => -Real.log (q x)) c ∧ h ≤ c ∧ (c = h ↔ same)

theorem isCrossEntropy_of {p q : ℝ → ℝ} {k h : ℝ} {same : Prop} (hk : HasKL p q k) (hh : HasEntropy p h) (h0 : 0 ≤ k)
    (hs : k = 0 ↔ same) : ∃ c, crossEntropy (.ok k) (.ok h) = .ok c ∧ IsCrossEntropy p q h c same := by
  obtain ⟨c, c1, c2⟩ := C55_cross_entropy_real hk hh
  have : c = k + h := by cases c1; rfl
  exact ⟨c, c1, c2, by linarith, by rw [← hs, this]; constructor <;> intro h <;> linarith⟩

/-- **Normal.** -/
theorem C55_normal (p q : Normal) (hp : 0 < p.scale) (hq : 0 < q.scale) :
    ∃ c, crossEntropy (.ok (Normal.kl p q)) (.ok p.entropy) = .ok c ∧
      IsCrossEntropy p.prob q.prob p.entropy c (p.loc = q.loc ∧ p.scale = q.scale) :=
  isCrossEntropy_of (C28_normal_kl p q hp hq) (C28_normal_moments p hp).2.2.2.2.2.2 (C28_normal_kl_nonneg p q hp hq).1
    (C28_normal_kl_nonneg p q hp hq).2

/-- **Laplace.** -/
theorem C55_laplace (p q : Laplace) (hp : 0 < p.scale) (hq : 0 < q.scale) :
    ∃ c, crossEntropy (.ok (Laplace.kl p q)) (.ok p.entropy) = .ok c ∧
      IsCrossEntropy p.prob q.prob p.entropy c (p.loc = q.loc ∧ p.scale = q.scale) :=
  isCrossEntropy_of (C30_laplace_kl p q hp hq).1 (C29_laplace_moments p hp).2.2.2.2.2.2 (C30_laplace_kl p q hp hq).2.1
    (C30_laplace_kl p q hp hq).2.2

/-- **Gumbel.** -/
theorem C55_gumbel (p q : Gumbel) (hp : 0 < p.scale) (hq : 0 < q.scale) :
    ∃ c, crossEntropy (.ok (Gumbel.kl p q)) (.ok p.entropy) = .ok c ∧
      IsCrossEntropy p.prob q.prob p.entropy c (p.loc = q.loc ∧ p.scale = q.scale) :=
  isCrossEntropy_of (C30_gumbel_kl p q hp hq).1 (C29_gumbel_moments p hp).2.2.2.2.2 (C30_gumbel_kl p q hp hq).2.1
    (C30_gumbel_kl p q hp hq).2.2

/-- **Gamma.** -/
theorem C55_gamma (p q : GammaD) (hp : 0 < p.concentration) (hpr : 0 < p.rate) (hq : 0 < q.concentration) (hqr : 0 < q.rate) :
    ∃ c, crossEntropy (.ok (p.kl q)) (.ok p.entropy) = .ok c ∧ IsCrossEntropy p.pdf q.pdf p.entropy c (p = q) :=
  isCrossEntropy_of (C39_kl p q hp hpr hq hqr).1 (C39_moments p hp hpr).2.2.2 (C39_kl p q hp hpr hq hqr).2.1
    (C39_kl p q hp hpr hq hqr).2.2

/-- **Beta.** -/
theorem C55_beta (p q : BetaD) (hpa : 0 < p.alpha) (hpb : 0 < p.beta) (hqa : 0 < q.alpha) (hqb : 0 < q.beta) :
    ∃ c, crossEntropy (.ok (p.kl q)) (.ok p.entropy) = .ok c ∧ IsCrossEntropy p.density q.density p.entropy c (p = q) :=
  isCrossEntropy_of (C38_beta_kl p q hpa hpb hqa hqb).1 (C38_beta_moments p hpa hpb).2.2 (C38_beta_kl p q hpa hpb hqa hqb).2.1
    (C38_beta_kl p q hpa hpb hqa hqb).2.2

/-- **Uniform**: finite exactly when the second support contains the first. -/
theorem C55_uniform (p q : Uniform) (hp : p.low < p.high) (hq : q.low < q.high) :
    ∃ c, crossEntropy (.ok (Uniform.kl p q)) (.ok (fin p.entropy)) = .ok c ∧
      (Set.Icc p.low p.high ⊆ Set.Icc q.low q.high →
        ∃ r, c = fin r ∧ IsCrossEntropy p.prob q.prob p.entropy r (p.low = q.low ∧ p.high = q.high)) ∧
      (¬ Set.Icc p.low p.high ⊆ Set.Icc q.low q.high → c = pinf) := by
  refine ⟨_, rfl, fun h => ?_, fun h => ?_⟩
  · obtain ⟨k, k1, k2, k3, k4⟩ := (C30_uniform_kl p q hp hq).2 h
    obtain ⟨r, r1, r2⟩ := isCrossEntropy_of k2 (C29_uniform_moments p hp).2.2.2.2.2 k3 k4
    cases r1
    exact ⟨_, by rw [k1]; simp, r2⟩
  · rw [(C30_uniform_kl p q hp hq).1.2 h]; simp

/-- **VonMises.** -/
theorem C55_von_mises (d1 d2 : VonMises) (h1 : 0 ≤ d1.concentration) (h2 : 0 ≤ d2.concentration) :
    ∃ c, crossEntropy (.ok (d1.kl d2)) (.ok d1.entropy) = .ok c ∧
      ExpOn volume turn d1.prob (fun x => -Real.log (d2.prob x)) c ∧ d1.entropy ≤ c ∧
      (c = d1.entropy ↔ ∀ x, d1.prob x = d2.prob x) := by
  obtain ⟨k1, k2, k3⟩ := C40_kl d1 d2 h1 h2
  obtain ⟨c, c1, c2⟩ := C55_cross_entropy_density k1 (C40_entropy d1 h1)
  have : c = d1.kl d2 + d1.entropy := by cases c1; rfl
  exact ⟨c, c1, c2, by linarith, by rw [← k3, this]; constructor <;> intro h <;> linarith⟩

/-- **Dirichlet** (at least two categories): `-E_p[log q]`, at least the entropy, equal exactly for equal parameters. -/
theorem C55_dirichlet {n : ℕ} (hn : 1 ≤ n) (p q : Dir (n + 1)) (hp : ∀ i, 0 < p.concentration i)
    (hq : ∀ i, 0 < q.concentration i) :
    ∃ c, crossEntropy (p.kl q) (.ok p.entropy) = .ok c ∧
      ExpOn volume (openSimplex n) p.density (fun x => -Real.log (q.density x)) c ∧ p.entropy ≤ c ∧
      (c = p.entropy ↔ ∀ i, p.concentration i = q.concentration i) := by
  obtain ⟨k, k1, k2⟩ := C38_dirichlet_kl_meaning p hp q hq
  obtain ⟨k', k1', k3, k4⟩ := (C38_dirichlet_kl p q).2 rfl (by omega) hp hq
  rw [k1, Except.ok.injEq] at k1'
  subst k1'
  rw [k1]
  obtain ⟨c, c1, c2⟩ := C55_cross_entropy_density k2 (C38_dirichlet_entropy p hp)
  have : c = k + p.entropy := by cases c1; rfl
  refine ⟨c, c1, c2, by linarith, ?_⟩
  simp only [Fin.cast_refl, id] at k4
  rw [← k4, this]; constructor <;> intro h <;> linarith

/-- **Multivariate normals**, on full batches: the result has the broadcast batch shape and each entry is the cross entropy of
the two Gaussian entries that broadcasting pairs; it is at least the entropy of the first entry, and equal to it exactly when
the two entries are the same Gaussian. -/
theorem C55_mvn {n : ℕ} {d1 d2 : MVN} {batch1 batch2 t : List ℕ} {b1 b2 : List ℕ → Fin n → ℝ}
    {C1 C2 : List ℕ → Matrix (Fin n) (Fin n) ℝ} (h1 : Represents d1 n batch1 b1 C1) (h2 : Represents d2 n batch2 b2 C2)
    (ht : broadcastShapes batch1 batch2 = some t) :
    ∃ c e, crossEntropyArr (MVN.kl d1 d2) d1.entropy = .ok c ∧ c.shape = t ∧ d1.entropy = .ok e ∧ e.shape = batch1 ∧
      ∀ i, InRange t i →
      ExpOn volume Set.univ (gaussPdf (b1 (proj batch1 i)) (C1 (proj batch1 i)))
        (fun x => -Real.log (gaussPdf (b2 (proj batch2 i)) (C2 (proj batch2 i)) x)) (c.data i) ∧
      e.data (proj batch1 i) ≤ c.data i ∧ (c.data i = e.data (proj batch1 i) ↔
        b1 (proj batch1 i) = b2 (proj batch2 i) ∧ C1 (proj batch1 i) = C2 (proj batch2 i)) := by
  obtain ⟨k, k1, k2, k3⟩ := C37_kl h1 h2 ht
  obtain ⟨k', k1', k4⟩ := C37_kl_nonneg h1 h2 ht
  rw [k1, Except.ok.injEq] at k1'
  subst k1'
  obtain ⟨e, e1, e2, e3⟩ := (C37_methods h1).entropy
  obtain ⟨A1, A1h, -⟩ := (C37_methods h1).sample
  obtain ⟨A2, A2h, -⟩ := (C37_methods h2).sample
  have hl := broadcast_absorb_left ht
  have hbin : Arr.bin (· + ·) k e = .ok ⟨t, fun i => k.data (proj k.shape i) + e.data (proj e.shape i)⟩ := by
    unfold Arr.bin
    rw [k2, e2, broadcastShapes_comm, hl]
  refine ⟨_, e, by rw [crossEntropyArr, k1, e1]; exact hbin, rfl, e1, e2, fun i hi => ⟨?_, ?_⟩⟩
  rotate_left
  · obtain ⟨n1, n2⟩ := k4 i hi
    simp only [k2, e2, proj_self hi]
    refine ⟨by linarith, ?_⟩
    rw [← n2]; constructor <;> intro h <;> linarith
  have i1 := proj_inRange hl hi
  have i2 := proj_inRange (broadcast_absorb_right ht) hi
  obtain ⟨x1, x2⟩ := A1h _ i1
  obtain ⟨y1, y2⟩ := A2h _ i2
  simp only [k2, e2, proj_self hi, k3 i hi, e3 _ i1]
  rw [x2, y2]
  obtain ⟨c, c1, c2⟩ := C55_cross_entropy_density (C37_kl_meaning _ _ (b1 (proj batch1 i)) (b2 (proj batch2 i)) x1 y1).1
    (C37_gaussian _ (b1 (proj batch1 i)) x1).2.2.2.2.2
  cases c1
  exact c2

/-- **Categorical** (all its relatives inherit it): `-sum p log q`, at least the entropy, equal exactly for equal laws; `+inf`,
never nan, when `p` puts mass where `q` has none; different category counts are a ValueError. -/
theorem C55_categorical {m n : ℕ} {d1 : Cat m} {d2 : Cat n} {p : Fin m → ℝ} {q : Fin n → ℝ} (h1 : HasPmf d1 p)
    (h2 : HasPmf d2 q) :
    (m ≠ n → crossEntropy (d1.kl d2) (.ok d1.entropy) = .error .valueError) ∧
    (∀ e : m = n, (∀ i, q (Fin.cast e i) = 0 → p i = 0) → ∃ c, crossEntropy (d1.kl d2) (.ok d1.entropy) = .ok (fin c) ∧
      c = -∑ i, p i * Real.log (q (Fin.cast e i)) ∧ shannon p ≤ c ∧ (c = shannon p ↔ ∀ i, p i = q (Fin.cast e i))) ∧
    (∀ e : m = n, (∃ i, q (Fin.cast e i) = 0 ∧ 0 < p i) → crossEntropy (d1.kl d2) (.ok d1.entropy) = .ok pinf) := by
  refine ⟨fun h => by rw [C25_kl_size _ _ h]; rfl, ?_, ?_⟩
  · rintro rfl hac
    simp only [Fin.cast_refl, id] at hac ⊢
    obtain ⟨k1, k2, k3⟩ := C25_kl h1 h2 hac
    refine ⟨klDiv p q + shannon p, by rw [k1, C25_entropy h1]; rfl, ?_, by linarith, ?_⟩
    · unfold klDiv shannon
      rw [← sub_eq_add_neg, ← Finset.sum_sub_distrib, ← Finset.sum_neg_distrib]
      exact Finset.sum_congr rfl fun i _ => by ring
    · rw [← funext_iff, ← k3]; constructor <;> intro h <;> linarith
  · rintro rfl h
    simp only [Fin.cast_refl, id] at h
    rw [C25_kl_inf h1 h2 h, C25_entropy h1]; rfl

/-- **Bernoulli**: `-E_p[log q]`, at least the entropy, equal exactly for equal probabilities; `+inf` when the second gives
probability zero to an outcome of the first. -/
theorem C55_bernoulli {d1 d2 : Bern} {p q : ℝ} (h1 : BernP d1 p) (h2 : BernP d2 q) :
    ((q = 0 → p = 0) → (q = 1 → p = 1) → ∃ c, crossEntropy (.ok (d1.kl d2)) (.ok d1.entropy) = .ok (fin c) ∧
      c = -(p * Real.log q + (1 - p) * Real.log (1 - q)) ∧ shannon ![1 - p, p] ≤ c ∧ (c = shannon ![1 - p, p] ↔ p = q)) ∧
    (¬ ((q = 0 → p = 0) ∧ (q = 1 → p = 1)) → crossEntropy (.ok (d1.kl d2)) (.ok d1.entropy) = .ok pinf) := by
  obtain ⟨H, e1, e2, -⟩ := C27_entropy h1
  refine ⟨fun a b => ?_, fun a => ?_⟩
  · obtain ⟨k1, k2, k3⟩ := (C27_kl h1 h2).1 a b
    refine ⟨klDiv ![1 - p, p] ![1 - q, q] + H, ?_, ?_, by linarith, ?_⟩
    · rw [k1, e1]; rfl
    · rw [e2]; simp [klDiv, shannon, Fin.sum_univ_two]; ring
    · rw [← k3, ← e2]; constructor <;> intro h <;> linarith
  · rw [(C27_kl h1 h2).2 a, e1]; rfl

/-- Whatever is missing is reported: an unregistered pair or a class without `entropy` makes `cross_entropy` raise. -/
theorem C55_missing {L : Type} [Add L] (k h : Except Err L) (e : Err) :
    crossEntropy (.error e) h = .error e ∧ ((∃ a, k = .ok a) → crossEntropy k (.error e) = .error e) :=
  ⟨rfl, by rintro ⟨a, rfl⟩; rfl⟩

/-- Non-vacuity. -/
example : ∃ c, crossEntropy (.ok (Normal.kl ⟨0, 1⟩ ⟨1, 2⟩)) (.ok (Normal.entropy ⟨0, 1⟩)) = .ok c ∧ Normal.entropy ⟨0, 1⟩ < c := by
  obtain ⟨c, c1, c2, c3, c4⟩ := C55_normal ⟨0, 1⟩ ⟨1, 2⟩ one_pos two_pos
  refine ⟨c, c1, lt_of_le_of_ne c3 fun h => ?_⟩
  have := (c4.1 h.symm).1
  norm_num at this

/-! ### Probabilities derived from others -/

/-- **Default `survival_function` and `log_survival_function`** of a real-valued law `μ` (discrete, continuous or mixed) whose
`cdf` returns `P[X ≤ x]`: they return `P[X > x]` and its logarithm (`-inf` at 0); for non-scalar events they raise. -/
theorem C55_survival (μ : Measure ℝ) [IsProbabilityMeasure μ] (x : ℝ) (event : List ℕ) :
    defaultSurvival [] (fin (ProbabilityTheory.cdf μ x)) = .ok (fin (μ.real (Set.Ioi x))) ∧
    defaultLogSurvival [] (fin (ProbabilityTheory.cdf μ x)) = .ok (xlog (μ.real (Set.Ioi x))) ∧
    (event ≠ [] → ∀ c, defaultSurvival event c = .error .notImplemented ∧
      defaultLogSurvival event c = .error .notImplemented) := by
  have hc : 1 - ProbabilityTheory.cdf μ x = μ.real (Set.Ioi x) := by
    rw [ProbabilityTheory.cdf_eq_real, ← Set.compl_Iic, probReal_compl_eq_one_sub measurableSet_Iic]
  refine ⟨?_, ?_, fun h c => ⟨if_neg h, if_neg h⟩⟩
  · rw [defaultSurvival, if_pos rfl, ← hc]
    simp only [one_def, fin_sub]
  · rw [defaultLogSurvival, if_pos rfl]
    congr 1
    rw [neg_fin, XR.log1p, ← XR.log_eq_xlog measureReal_nonneg, ← hc]
    simp only [one_def, fin_add]
    congr 2

/-- **Default `prob` and `cdf`** undo the logarithm, including at `-inf`. -/
theorem C55_prob_cdf {p : ℝ} (hp : 0 ≤ p) : defaultProb (xlog p) = fin p ∧ defaultCdf (xlog p) = fin p :=
  ⟨exp_xlog hp, exp_xlog hp⟩

/-- **Default `stddev`**: nonnegative with square `variance`. -/
theorem C55_stddev {v : ℝ} (hv : 0 ≤ v) : 0 ≤ defaultStddev v ∧ defaultStddev v ^ 2 = v :=
  ⟨Real.sqrt_nonneg _, Real.sq_sqrt hv⟩

/-! ### Default `batch_shape` -/

/-- **Default `batch_shape`** of a distribution with array events: if `_sample_n(key, n)` stacks `n` draws of shape
`batch + event` then the shape inferred from a sample is exactly `batch` (for every event rank, 0 included). -/
theorem C55_batch_shape {Key : Type} (d : ADist Key) (hs : StacksDraws d) (prngKey : ℤ → Key) (seed : Seed Key) :
    ∃ a, d.sample prngKey seed (.seq []) = .ok a ∧ defaultBatchShape [(a.shape, d.event)] = .ok d.batch := by
  obtain ⟨a, h1, h2⟩ : ∃ a, d.sample prngKey seed (.seq []) = .ok a ∧ a.shape = d.batch ++ d.event := by
    unfold ADist.sample
    have hc : (convertSeedAndSampleShape prngKey seed (.seq [])).2 = [] := by cases seed <;> rfl
    generalize convertSeedAndSampleShape prngKey seed (.seq []) = c at hc ⊢
    obtain ⟨k, ss⟩ := c
    simp only at hc
    subst hc
    simp only [List.foldl_nil, List.nil_append, Arr.reshape, hs k 1, List.drop_succ_cons, List.drop_zero]
    rw [if_pos (by simp)]
    exact ⟨_, rfl, rfl⟩
  refine ⟨a, h1, ?_⟩
  simp [defaultBatchShape, commonBatch, leafBatch, h2]

/-- **Nested events**: if every leaf of a sample has shape `batch + event_leaf` the inferred shape is `batch` (when there is a
leaf); if two leaves disagree an error is raised instead of a wrong answer. -/
theorem C55_batch_shape_nested (leaves : List (List ℕ × List ℕ)) :
    (∀ batch, leaves ≠ [] → (∀ l ∈ leaves, l.1 = batch ++ l.2) → defaultBatchShape leaves = .ok batch) ∧
    (∀ l ∈ leaves, ∀ l' ∈ leaves, ∀ b b', l.1 = b ++ l.2 → l'.1 = b' ++ l'.2 → b ≠ b' →
      defaultBatchShape leaves = .error .assertionError) := by
  have hleaf : ∀ (l : List ℕ × List ℕ) b, l.1 = b ++ l.2 → leafBatch l.1 l.2 = b := by
    intro l b h; simp [leafBatch, h]
  constructor
  · intro batch hne h
    cases leaves with
    | nil => exact absurd rfl hne
    | cons l ls =>
      simp only [defaultBatchShape, List.map_cons, commonBatch]
      rw [hleaf l batch (h l (by simp)), if_pos]
      rw [List.all_eq_true]
      intro x hx
      obtain ⟨l', hl', rfl⟩ := List.mem_map.1 hx
      rw [hleaf l' batch (h l' (by simp [hl']))]
      simp
  · intro l hl l' hl' b b' hb hb' hne
    cases leaves with
    | nil => cases hl
    | cons a ls =>
      simp only [defaultBatchShape, List.map_cons, commonBatch]
      rw [if_neg]
      intro hall
      rw [List.all_eq_true] at hall
      have key : ∀ x ∈ a :: ls, leafBatch x.1 x.2 = leafBatch a.1 a.2 := by
        intro x hx
        rcases List.mem_cons.1 hx with rfl | hx
        · rfl
        · have := hall _ (List.mem_map.2 ⟨x, hx, rfl⟩)
          exact (by simpa using this : leafBatch a.1 a.2 = leafBatch x.1 x.2).symm
      exact hne (by rw [← hleaf l b hb, ← hleaf l' b' hb', key l hl, key l' hl'])

example : defaultBatchShape [([4, 2], [2]), ([4], []), ([4, 3, 3], [3, 3])] = .ok [4] ∧
    defaultBatchShape [([4, 2], [2]), ([5], [])] = .error .assertionError := by
  simp [defaultBatchShape, commonBatch, leafBatch]

end Distrax
