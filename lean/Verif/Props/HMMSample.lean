import Verif.Props.HMM
import Mathlib.MeasureTheory.Constructions.Pi
import Mathlib.MeasureTheory.Measure.Lebesgue.Basic

/-! Property C46 for arbitrary key spaces and arbitrary (continuous, discrete, mixed) observation spaces. -/

namespace Distrax
namespace HMM
open MeasureTheory

variable {K : ℕ} {O : Type}

theorem map_range_ofFn {α : Type} (f : ℕ → α) (m : ℕ) : (List.range m).map f = List.ofFn fun t : Fin m => f t := by
  refine List.ext_getElem (by simp) fun i h1 h2 => ?_
  rw [List.getElem_map, List.getElem_range, List.getElem_ofFn]

theorem forall₂_ofFn {α β : Type} {m : ℕ} (R : α → β → Prop) (f : Fin m → α) (g : Fin m → β) :
    List.Forall₂ R (List.ofFn f) (List.ofFn g) ↔ ∀ t, R (f t) (g t) := by
  rw [List.forall₂_iff_get]
  constructor
  · rintro ⟨_, h⟩ t
    have := h t (by rw [List.length_ofFn]; exact t.2) (by rw [List.length_ofFn]; exact t.2)
    simpa only [List.get_ofFn, Fin.cast_mk, Fin.eta] using this
  · intro h
    refine ⟨by rw [List.length_ofFn, List.length_ofFn], fun i h1 h2 => ?_⟩
    rw [List.get_ofFn, List.get_ofFn]; exact h _

/-- The pair returned by `sample` runs through the path `z` with observations in `B`: what that says about the draws. -/
theorem sample_mem_iff (a : Fin K) (T : ℕ → Fin K → Fin K) (D : ℕ → Fin K → O) (n : ℕ)
    (z : Fin (n + 1) → Fin K) (B : Fin (n + 1) → Set O) :
    ((sample a T D (n + 1)).1 = List.ofFn z ∧ List.Forall₂ (fun o b => o ∈ b) (sample a T D (n + 1)).2 (List.ofFn B)) ↔
      a = z 0 ∧ (∀ t : Fin n, T t (z t.castSucc) = z t.succ) ∧ ∀ t : Fin (n + 1), D t (z t) ∈ B t := by
  have h0 := sample_eq_iff a T D n z (fun t => D t (z t))
  constructor
  · rintro ⟨h1, h2⟩
    have hs : ∀ t : Fin (n + 1), sState a T t = z t := by
      rw [sample_eq, map_range_ofFn] at h1
      exact congrFun (List.ofFn_injective h1)
    have h3 : sample a T D (n + 1) = (List.ofFn z, List.ofFn fun t : Fin (n + 1) => D t (z t)) := by
      refine Prod.ext h1 ?_
      rw [sample_eq, map_range_ofFn, map_range_ofFn]
      exact congrArg List.ofFn (funext fun t => by rw [hs t])
    obtain ⟨e1, e2, _⟩ := h0.1 h3
    rw [h3] at h2
    exact ⟨e1, e2, (forall₂_ofFn (fun (o : O) b => o ∈ b) _ _).1 h2⟩
  · rintro ⟨h1, h2, h3⟩
    rw [h0.2 ⟨h1, h2, fun _ => rfl⟩]
    exact ⟨rfl, (forall₂_ofFn (fun (o : O) b => o ∈ b) _ _).2 h3⟩

/-- **C46 (law, arbitrary observation space).**  The keys are independent (one initial key, `n` transition keys, `n + 1`
observation keys, as split by the code); `init_dist.sample` has law `I`, entry `i` of `trans_dist.sample` law `P i`, entry
`k` of `obs_dist.sample` law `Q k` (any measures: densities, atoms or neither).  Then the probability that the returned states
are the path `z` and the returned observations lie in `B_0, …, B_n` is
`I(z_0) ∏ P(z_t, z_{t+1}) ∏ Q(z_t)(B_t)`: the joint law of the hidden Markov model. -/
theorem C46_sample_law_general {ΩI ΩT ΩO : Type} [MeasurableSpace ΩI] [MeasurableSpace ΩT] [MeasurableSpace ΩO]
    [MeasurableSpace O] (μI : Measure ΩI) (μT : Measure ΩT) (μO : Measure ΩO)
    [IsProbabilityMeasure μI] [IsProbabilityMeasure μT] [IsProbabilityMeasure μO]
    (drawI : ΩI → Fin K) (drawT : ΩT → Fin K → Fin K) (drawO : ΩO → Fin K → O)
    (I : Fin K → ENNReal) (P : Fin K → Fin K → ENNReal) (Q : Fin K → Measure O)
    (hI : ∀ k, μI {ω | drawI ω = k} = I k)
    (hT : ∀ i j, μT {ω | drawT ω i = j} = P i j)
    (hO : ∀ k B, MeasurableSet B → μO {ω | drawO ω k ∈ B} = Q k B)
    (n : ℕ) (z : Fin (n + 1) → Fin K) (B : Fin (n + 1) → Set O) (hB : ∀ t, MeasurableSet (B t)) (o0 : O) :
    (μI.prod ((Measure.pi fun _ : Fin n => μT).prod (Measure.pi fun _ : Fin (n + 1) => μO)))
      {ω | (sample (drawI ω.1) (fun t i => if ht : t < n then drawT (ω.2.1 ⟨t, ht⟩) i else i)
            (fun t k => if ht : t < n + 1 then drawO (ω.2.2 ⟨t, ht⟩) k else o0) (n + 1)).1 = List.ofFn z ∧
          List.Forall₂ (fun o b => o ∈ b)
            (sample (drawI ω.1) (fun t i => if ht : t < n then drawT (ω.2.1 ⟨t, ht⟩) i else i)
              (fun t k => if ht : t < n + 1 then drawO (ω.2.2 ⟨t, ht⟩) k else o0) (n + 1)).2 (List.ofFn B)} =
      I (z 0) * (∏ t : Fin n, P (z t.castSucc) (z t.succ)) * ∏ t : Fin (n + 1), Q (z t) (B t) := by
  have e : {ω : ΩI × (Fin n → ΩT) × (Fin (n + 1) → ΩO) |
        (sample (drawI ω.1) (fun t i => if ht : t < n then drawT (ω.2.1 ⟨t, ht⟩) i else i)
            (fun t k => if ht : t < n + 1 then drawO (ω.2.2 ⟨t, ht⟩) k else o0) (n + 1)).1 = List.ofFn z ∧
          List.Forall₂ (fun o b => o ∈ b)
            (sample (drawI ω.1) (fun t i => if ht : t < n then drawT (ω.2.1 ⟨t, ht⟩) i else i)
              (fun t k => if ht : t < n + 1 then drawO (ω.2.2 ⟨t, ht⟩) k else o0) (n + 1)).2 (List.ofFn B)} =
      {ω | drawI ω = z 0} ×ˢ ((Set.univ.pi fun t : Fin n => {ω | drawT ω (z t.castSucc) = z t.succ}) ×ˢ
        (Set.univ.pi fun t : Fin (n + 1) => {ω | drawO ω (z t) ∈ B t})) := by
    ext ω
    rw [Set.mem_ofPred_eq, sample_mem_iff]
    simp only [Fin.is_lt, dif_pos, Fin.eta, Set.mem_prod, Set.mem_pi, Set.mem_univ, true_imp_iff, Set.mem_ofPred_eq]
  rw [e, Measure.prod_prod, Measure.prod_prod, Measure.pi_pi, Measure.pi_pi, hI, ← mul_assoc]
  congr 1
  · congr 1; exact Finset.prod_congr rfl fun t _ => hT _ _
  · exact Finset.prod_congr rfl fun t _ => hO _ _ (hB t)

/-- Non-vacuity: one fair coin as initial and transition key, a uniform-measure observation key: all hypotheses hold with
continuous observations `ω + k`. -/
example : ∃ (μ : Measure (Fin 2)) (_ : IsProbabilityMeasure μ) (Q : Fin 2 → Measure ℝ),
    (∀ k, μ {ω | id ω = k} = 1 / 2) ∧ (∀ i j : Fin 2, μ {ω | (fun ω _ => ω : Fin 2 → Fin 2 → Fin 2) ω i = j} = 1 / 2) ∧
    ∀ (k : Fin 2) (B : Set ℝ), MeasurableSet B → (volume.restrict (Set.Ioo (0 : ℝ) 1)) {ω | ω + (k : ℕ) ∈ B} = Q k B := by
  have h : ∀ k : Fin 2, ((1 / 2 : ENNReal) • (Measure.count : Measure (Fin 2))) {ω | ω = k} = 1 / 2 := by
    intro k
    rw [Measure.smul_apply, show {ω : Fin 2 | ω = k} = {k} from rfl, Measure.count_singleton, smul_eq_mul, mul_one]
  refine ⟨(1 / 2 : ENNReal) • Measure.count, ⟨?_⟩,
    fun k => (volume.restrict (Set.Ioo (0 : ℝ) 1)).map fun ω => ω + (k : ℕ), h, fun _ => h, fun k B hB => ?_⟩
  · rw [Measure.smul_apply, Measure.count_apply_finite _ Set.finite_univ]
    simp [ENNReal.inv_mul_cancel]
  · rw [Measure.map_apply (by fun_prop) hB]; rfl

end HMM
end Distrax
