import Verif.Lemmas.GumbelMax
import Verif.Props.Categorical
import Verif.Props.Multinomial

/-!
Sampling laws of the categorical family: with the random numbers `jax.random.gumbel` draws (independent uniform
numbers, transformed), the samples have the advertised probabilities.
-/

namespace Distrax

open XR Spec Finset MeasureTheory

theorem Spec.HasPmf.isValid {n : ℕ} {d : Cat n} {p : Fin n → ℝ} (h : HasPmf d p) : d.isValid := by
  refine ⟨fun i => by rw [h.probs]; trivial, fun i => ?_⟩
  rw [h.probs]
  rcases (h.pmf.nonneg i).lt_or_eq with hi | hi
  · exact .inl hi
  · exact .inr hi

theorem sample_iff {n : ℕ} {d : Cat (n + 1)} {p : Fin (n + 1) → ℝ} (h : HasPmf d p) (u : Fin (n + 1) → ℝ)
    (k : Fin (n + 1)) : d.sample (fun i => gumbelOf (u i)) = (k : ℕ) ↔
      argmaxIdx (fun i => fin (gumbelOf (u i)) + xlog (p i)) = k := by
  have e : (fun i => fin (gumbelOf (u i)) + d.logits i) = fun i => fin (gumbelOf (u i)) + xlog (p i) :=
    funext fun i => by rw [h.logits i]
  rw [Cat.sample, if_pos h.isValid, e]
  rw [Fin.ext_iff]
  exact Int.natCast_inj

/-- A Categorical sample is category `k` with probability exactly `probs[k]`, which is `exp(log_prob(k))`. -/
theorem C24_sample_law {n : ℕ} {d : Cat (n + 1)} {p : Fin (n + 1) → ℝ} (h : HasPmf d p) (k : Fin (n + 1)) :
    unitN (n + 1) {u | d.sample (fun i => gumbelOf (u i)) = (k : ℕ)} = ENNReal.ofReal (p k) := by
  rw [← (gumbel_max h.pmf k).1]
  congr 1
  ext u
  exact sample_iff h u k

/-- A OneHotCategorical sample is the `k`-th unit vector with probability `probs[k]`. -/
theorem C26_one_hot_sample_law {n : ℕ} {d : Cat (n + 1)} {p : Fin (n + 1) → ℝ} (h : HasPmf d p)
    (k : Fin (n + 1)) :
    unitN (n + 1) {u | ∀ j, d.ohSample (fun i => gumbelOf (u i)) j = if j = k then fin 1 else fin 0}
      = ENNReal.ofReal (p k) := by
  rw [← C24_sample_law h k]
  congr 1
  ext u
  obtain ⟨k', h1, _, h2, h3⟩ := C26_one_hot_sample h fun i => gumbelOf (u i)
  show (∀ j, _) ↔ _ = _
  rw [h1]
  constructor
  · intro hj
    have := hj k'
    rw [h2] at this
    by_contra hne
    have : k' ≠ k := fun e => hne (by rw [e])
    simp_all
  · intro e j
    have e : k' = k := Fin.ext (by exact_mod_cast e)
    subst e
    split_ifs with hj
    · rw [hj, h2]
    · exact h3 j hj

/-- A Multinomial sample equals the count vector `c` with probability `exp(log_prob(c))`, when every iteration of
the sampling loop receives fresh independent random numbers. -/
theorem C36_sample_law_noise {K : ℕ} {d : Mult (K + 1)} {p : Fin (K + 1) → ℝ} (h : HasPmf d.cat p)
    {c : Fin (K + 1) → ℕ} (hc : ∑ i, c i = d.total) :
    (Measure.pi fun _ : Fin d.total => unitN (K + 1))
      {u | ∀ k, d.sample (fun i j => if hi : i < d.total then gumbelOf (u ⟨i, hi⟩ j) else 0) k = c k}
      = ENNReal.ofReal (weight (d.logProb fun i => c i)) := by
  classical
  set μ := Measure.pi fun _ : Fin d.total => unitN (K + 1)
  set D : (Fin (K + 1) → ℝ) → Fin (K + 1) := fun u => argmaxIdx fun i => fin (gumbelOf (u i)) + xlog (p i)
  set R : (Fin d.total → Fin (K + 1)) → Set (Fin d.total → Fin (K + 1) → ℝ) := fun f =>
    Set.univ.pi fun i => {v | D v = f i}
  have hR : ∀ f, μ (R f) = ENNReal.ofReal (∏ i, p (f i)) := by
    intro f
    rw [Measure.pi_pi, ENNReal.ofReal_prod_of_nonneg fun i _ => h.pmf.nonneg _]
    exact prod_congr rfl fun i _ => (gumbel_max h.pmf (f i)).1
  have hRm : ∀ f, NullMeasurableSet (R f) μ := by
    intro f
    have : R f = ⋂ i, (fun u : Fin d.total → Fin (K + 1) → ℝ => u i) ⁻¹' {v | D v = f i} := by
      ext u; simp only [R, Set.mem_univ_pi, Set.mem_iInter, Set.mem_preimage]
    rw [this]
    exact NullMeasurableSet.iInter fun i => (gumbel_max h.pmf (f i)).2.preimage
      (Measure.quasiMeasurePreserving_eval (fun _ : Fin d.total => unitN (K + 1)) i)
  have hset : {u : Fin d.total → Fin (K + 1) → ℝ |
      ∀ k, d.sample (fun i j => if hi : i < d.total then gumbelOf (u ⟨i, hi⟩ j) else 0) k = c k}
      = ⋃ f ∈ univ.filter fun f : Fin d.total → Fin (K + 1) => countsOf f = c, R f := by
    ext u
    have e : ∀ k, d.sample (fun i j => if hi : i < d.total then gumbelOf (u ⟨i, hi⟩ j) else 0) k
        = countsOf (fun i => D (u i)) k := by
      intro k
      rw [Mult.sample, C36_sample_counts]
      congr 2
      funext i
      simp only [i.2, dif_pos, D]
      congr 1
      funext j
      rw [h.logits]
    simp only [Set.mem_ofPred_eq, e, Nat.cast_inj, Set.mem_iUnion, mem_filter, mem_univ, true_and, R,
      Set.mem_univ_pi]
    constructor
    · intro hk
      exact ⟨fun i => D (u i), funext hk, fun i => rfl⟩
    · rintro ⟨f, hf, hu⟩ k
      rw [show (fun i => D (u i)) = f from funext hu, hf]
  rw [hset, measure_biUnion_finset₀ ?_ fun f _ => hRm f]
  · simp only [hR]
    rw [← ENNReal.ofReal_sum_of_nonneg fun f _ => prod_nonneg fun i _ => h.pmf.nonneg _]
    congr 1
    have := C36_sample_law h (0 : Fin (K + 1)) hc
    rw [← this, iidProb, sum_filter]
    refine sum_congr rfl fun f _ => ?_
    have e : (∀ k, Mult.sampleLoop d.total (fun i => if hi : i < d.total then f ⟨i, hi⟩ else 0) 0
        (fun _ => 0) k = (c k : ℝ)) ↔ countsOf f = c := by
      simp only [C36_sample_counts, Nat.cast_inj]
      simp [funext_iff]
    by_cases hf : countsOf f = c
    · rw [if_pos hf, if_pos (e.2 hf)]
    · rw [if_neg hf, if_neg fun h' => hf (e.1 h')]
  · intro f _ f' _ hne
    refine Disjoint.aedisjoint (Set.disjoint_left.2 fun u h1 h2 => hne (funext fun i => ?_))
    exact (Set.mem_univ_pi.1 h1 i).symm.trans (Set.mem_univ_pi.1 h2 i)

/-- A fair three-way choice, with the random numbers the code uses. -/
example : ∃ d, Cat.init none (some fun _ : Fin 3 => fin 1) .integer = .ok d ∧
    unitN 3 {u | d.sample (fun i => gumbelOf (u i)) = 1} = ENNReal.ofReal (1 / 3) := by
  obtain ⟨d, p, h1, h2, h3⟩ := C24_from_probs (fun _ : Fin 3 => (1 : ℝ)) (by simp) (by simp) .integer (by simp)
  refine ⟨d, h1, ?_⟩
  have := C24_sample_law h2 1
  rw [h3] at this
  simpa using this

end Distrax
