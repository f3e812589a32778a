import Verif.Spec.Multinomial
import Verif.Model.Multinomial
import Verif.Lemmas.Categorical
import Mathlib.Data.Fin.Tuple.Basic
import Mathlib.Algebra.BigOperators.Fin
import Mathlib.Data.Nat.Choose.Basic
import Mathlib.Tactic.FieldSimp
import Mathlib.Analysis.SpecialFunctions.Gamma.Basic

/-! Combinatorics of the multinomial law. -/

namespace Distrax

open XR Spec Finset

variable {K : ℕ}

theorem mem_countVectors {n : ℕ} {c : Fin K → ℕ} : c ∈ countVectors K n ↔ ∑ i, c i = n := by
  simp [countVectors]

theorem prod_update_fact (c : Fin K → ℕ) (k : Fin K) (g : ℕ → ℝ) :
    ∏ i, g ((c + Pi.single k 1 : Fin K → ℕ) i) = g (c k + 1) * ∏ i ∈ univ.erase k, g (c i) := by
  rw [← mul_prod_erase univ _ (mem_univ k)]
  simp only [Pi.add_apply, Pi.single_eq_same]
  congr 1
  refine prod_congr rfl fun i hi => ?_
  rw [Pi.single_eq_of_ne (ne_of_mem_erase hi), add_zero]

/-- Adding one observation of category `k`. -/
theorem multPmf_succ (n : ℕ) (p : Fin K → ℝ) (c : Fin K → ℕ) (k : Fin K) :
    ((c k : ℝ) + 1) * multPmf (n + 1) p (c + Pi.single k 1) = (n + 1) * (p k * multPmf n p c) := by
  have h1 := prod_update_fact c k fun m => (m.factorial : ℝ)
  have h2 : ∏ i, p i ^ ((c + Pi.single k 1 : Fin K → ℕ) i) = p k ^ (c k + 1) * ∏ i ∈ univ.erase k, p i ^ c i := by
    rw [← mul_prod_erase univ _ (mem_univ k)]
    simp only [Pi.add_apply, Pi.single_eq_same]
    congr 1
    refine prod_congr rfl fun i hi => ?_
    rw [Pi.single_eq_of_ne (ne_of_mem_erase hi), add_zero]
  unfold multPmf
  rw [h1, h2, ← mul_prod_erase univ (fun i => ((c i).factorial : ℝ)) (mem_univ k),
    ← mul_prod_erase univ (fun i => p i ^ c i) (mem_univ k), Nat.factorial_succ, Nat.factorial_succ]
  have e1 : ((c k).factorial : ℝ) ≠ 0 := by positivity
  have e2 : (∏ i ∈ univ.erase k, ((c i).factorial : ℝ)) ≠ 0 :=
    prod_ne_zero_iff.2 fun i _ => by positivity
  push_cast
  field_simp
  ring

/-- One-step recursion of the multinomial expectation. -/
theorem multE_succ (n : ℕ) (p : Fin K → ℝ) (F : (Fin K → ℕ) → ℝ) :
    multE (n + 1) p F = ∑ k, p k * multE n p fun c => F (c + Pi.single k 1) := by
  have key : ∀ k, ∑ c ∈ countVectors K (n + 1), (c k : ℝ) / (n + 1) * (multPmf (n + 1) p c * F c)
      = p k * multE n p fun c => F (c + Pi.single k 1) := by
    intro k
    rw [multE, mul_sum]
    symm
    refine sum_bij_ne_zero (fun c _ _ => c + Pi.single k 1) ?_ ?_ ?_ ?_
    · intro c hc _
      rw [mem_countVectors] at hc ⊢
      simp [sum_add_distrib, hc]
    · intro c _ _ c' _ _ h
      exact add_right_cancel h
    · intro c hc hne
      have hck : c k ≠ 0 := by rintro e; simp [e] at hne
      have hcc : c - Pi.single k 1 + Pi.single k 1 = c := by
        funext i
        by_cases hi : i = k
        · subst hi; simp; omega
        · simp [Pi.single_eq_of_ne hi]
      have hm : c - Pi.single k 1 ∈ countVectors K n := by
        rw [mem_countVectors] at hc ⊢
        have := congrArg (fun c : Fin K → ℕ => ∑ i, c i) hcc
        simp only [Pi.add_apply, sum_add_distrib] at this
        rw [hc] at this
        simp at this
        simpa using this
      refine ⟨_, hm, ?_, hcc⟩
      intro h0
      apply hne
      have := multPmf_succ n p (c - Pi.single k 1) k
      rw [hcc] at this
      have e : ((c - Pi.single k 1 : Fin K → ℕ) k : ℝ) + 1 = c k := by
        have : (c - Pi.single k 1 : Fin K → ℕ) k + 1 = c k := by simp; omega
        exact_mod_cast this
      rw [e] at this
      simp only [hcc] at h0
      have hn : ((n : ℝ) + 1) ≠ 0 := by positivity
      calc (c k : ℝ) / (n + 1) * (multPmf (n + 1) p c * F c)
          = ((c k : ℝ) * multPmf (n + 1) p c) / (n + 1) * F c := by ring
        _ = p k * (multPmf n p (c - Pi.single k 1) * F c) := by rw [this]; field_simp
        _ = 0 := h0
    · intro c _ _
      have := multPmf_succ n p c k
      have hn : ((n : ℝ) + 1) ≠ 0 := by positivity
      have e : ((c + Pi.single k 1 : Fin K → ℕ) k : ℝ) = c k + 1 := by simp
      rw [e]
      calc p k * (multPmf n p c * F (c + Pi.single k 1))
          = ((n + 1) * (p k * multPmf n p c)) / (n + 1) * F (c + Pi.single k 1) := by field_simp
        _ = _ := by rw [← this]; ring
  rw [← sum_congr rfl fun k _ => key k, sum_comm]
  refine sum_congr rfl fun c hc => ?_
  rw [← sum_mul, ← sum_div]
  have : (∑ i, (c i : ℝ)) = n + 1 := by
    have := mem_countVectors.1 hc
    exact_mod_cast this
  rw [this, div_self (by positivity), one_mul]

theorem multE_zero (p : Fin K → ℝ) (F : (Fin K → ℕ) → ℝ) : multE 0 p F = F 0 := by
  have : countVectors K 0 = {0} := by
    ext c; simp [mem_countVectors, funext_iff]
  simp [multE, this, multPmf]

theorem multE_const (n : ℕ) {p : Fin K → ℝ} (hp : IsPmf p) (a : ℝ) : multE n p (fun _ => a) = a := by
  induction n with
  | zero => exact multE_zero p _
  | succ n ih => rw [multE_succ]; simp only [ih]; rw [← sum_mul, hp.sum_one, one_mul]

theorem multE_add (n : ℕ) (p : Fin K → ℝ) (F G : (Fin K → ℕ) → ℝ) :
    multE n p (fun c => F c + G c) = multE n p F + multE n p G := by
  simp only [multE, mul_add, sum_add_distrib]

theorem multE_smul (n : ℕ) (p : Fin K → ℝ) (a : ℝ) (F : (Fin K → ℕ) → ℝ) :
    multE n p (fun c => a * F c) = a * multE n p F := by
  simp only [multE, mul_sum]
  exact sum_congr rfl fun c _ => by ring

theorem multE_sum {ι : Type*} (s : Finset ι) (n : ℕ) (p : Fin K → ℝ) (F : ι → (Fin K → ℕ) → ℝ) :
    multE n p (fun c => ∑ i ∈ s, F i c) = ∑ i ∈ s, multE n p (F i) := by
  simp only [multE, mul_sum]; exact sum_comm

theorem multE_count (n : ℕ) {p : Fin K → ℝ} (hp : IsPmf p) (j : Fin K) :
    multE n p (fun c => (c j : ℝ)) = n * p j := by
  induction n with
  | zero => simp [multE_zero]
  | succ n ih =>
    rw [multE_succ]
    have : ∀ k, p k * multE n p (fun c => (((c + Pi.single k 1 : Fin K → ℕ) j : ℕ) : ℝ))
        = p k * (n * p j) + p k * (if k = j then 1 else 0) := by
      intro k
      have : (fun c : Fin K → ℕ => (((c + Pi.single k 1 : Fin K → ℕ) j : ℕ) : ℝ))
          = fun c => (c j : ℝ) + (if k = j then 1 else 0) := by
        funext c
        by_cases h : k = j
        · subst h; simp
        · simp [h, Pi.single_eq_of_ne (Ne.symm h)]
      rw [this, multE_add, ih, multE_const n hp]; ring
    simp only [this, sum_add_distrib]
    rw [← sum_mul, hp.sum_one]
    simp; ring

theorem multE_count_mul (n : ℕ) {p : Fin K → ℝ} (hp : IsPmf p) (i j : Fin K) :
    multE n p (fun c => (c i : ℝ) * c j) = n * (n - 1) * (p i * p j) + if i = j then n * p i else 0 := by
  induction n with
  | zero => simp [multE_zero]
  | succ n ih =>
    rw [multE_succ]
    have : ∀ k, p k * multE n p (fun c => ((((c + Pi.single k 1 : Fin K → ℕ) i : ℕ) : ℝ)) *
          (((c + Pi.single k 1 : Fin K → ℕ) j : ℕ) : ℝ))
        = p k * (n * (n - 1) * (p i * p j) + if i = j then n * p i else 0)
          + p k * (if k = j then 1 else 0) * (n * p i)
          + p k * (if k = i then 1 else 0) * (n * p j)
          + p k * (if k = i then (if i = j then 1 else 0) else 0) := by
      intro k
      have : (fun c : Fin K → ℕ => (((c + Pi.single k 1 : Fin K → ℕ) i : ℕ) : ℝ) *
          (((c + Pi.single k 1 : Fin K → ℕ) j : ℕ) : ℝ))
          = fun c => (c i : ℝ) * c j + ((if k = j then 1 else 0) * (c i : ℝ)
            + ((if k = i then 1 else 0) * (c j : ℝ) + (if k = i then (if i = j then 1 else 0) else 0))) := by
        funext c
        have h1 : ∀ l, (((c + Pi.single k 1 : Fin K → ℕ) l : ℕ) : ℝ) = c l + if k = l then 1 else 0 := by
          intro l
          by_cases h : k = l
          · subst h; simp
          · simp [h, Pi.single_eq_of_ne (Ne.symm h)]
        rw [h1, h1]
        by_cases h : k = i <;> by_cases h' : k = j
        · simp [← h, ← h']; ring
        · have : i ≠ j := fun e => h' (h.trans e)
          simp [h, this]; ring
        · have : ¬j = i := fun e => h (h'.trans e)
          simp [h', this]; ring
        · simp [h, h']
      rw [this, multE_add, multE_add, multE_add, ih, multE_const n hp, multE_smul, multE_smul,
        multE_count n hp, multE_count n hp]
      ring
    simp only [this, sum_add_distrib]
    rw [← sum_mul, hp.sum_one]
    by_cases hij : i = j
    · subst hij; simp; ring
    · simp [hij]; ring

/-- Each count has a binomial law. -/
theorem multE_marginal (n : ℕ) {p : Fin K → ℝ} (hp : IsPmf p) (j : Fin K) (h : ℕ → ℝ) :
    multE n p (fun c => h (c j)) = ∑ x ∈ range (n + 1), (n.choose x : ℝ) * (p j ^ x * (1 - p j) ^ (n - x)) * h x := by
  induction n generalizing h with
  | zero => simp [multE_zero]
  | succ n ih =>
    rw [multE_succ]
    have e : ∀ k, p k * multE n p (fun c => h ((c + Pi.single k 1 : Fin K → ℕ) j))
        = p k * multE n p (fun c => h (c j)) + p k * (if k = j then 1 else 0) *
          (multE n p (fun c => h (c j + 1)) - multE n p fun c => h (c j)) := by
      intro k
      by_cases hk : k = j
      · subst hk; simp; ring
      · simp [hk, Pi.single_eq_of_ne (Ne.symm hk)]
    simp only [e, sum_add_distrib]
    rw [← sum_mul, hp.sum_one, ← sum_mul]
    simp only [mul_ite, mul_one, mul_zero, sum_ite_eq', mem_univ, if_true, one_mul]
    rw [ih h, ih fun m => h (m + 1)]
    set q := p j
    have r1 : ∑ x ∈ range (n + 1), (n.choose x : ℝ) * (q ^ x * (1 - q) ^ (n - x)) * h x * (1 - q)
        = ∑ x ∈ range (n + 2), (n.choose x : ℝ) * (q ^ x * (1 - q) ^ (n + 1 - x)) * h x := by
      rw [sum_range_succ _ (n + 1), Nat.choose_succ_self]
      rw [Nat.cast_zero, zero_mul, zero_mul, add_zero]
      refine sum_congr rfl fun x hx => ?_
      rw [mem_range] at hx
      rw [show n + 1 - x = (n - x) + 1 by omega, pow_succ]; ring
    have r2 : ∀ A B : ℝ, A + q * (B - A) = q * B + A * (1 - q) := by intros; ring
    rw [r2, sum_mul, r1, mul_sum, sum_range_succ' (fun x => (n.choose x : ℝ) * (q ^ x * (1 - q) ^ (n + 1 - x)) * h x),
      sum_range_succ' (fun x => ((n + 1).choose x : ℝ) * (q ^ x * (1 - q) ^ (n + 1 - x)) * h x), ← add_assoc,
      ← sum_add_distrib]
    simp only [Nat.choose_zero_right]
    congr 1
    refine sum_congr rfl fun x hx => ?_
    rw [show n + 1 - (x + 1) = n - x by omega, pow_succ, Nat.choose_succ_succ', Nat.cast_add]; ring

/-! ### Independent draws -/

theorem countsOf_cons {n : ℕ} (k : Fin K) (f : Fin n → Fin K) :
    countsOf (Fin.cons k f : Fin (n + 1) → Fin K) = countsOf f + Pi.single k 1 := by
  funext j
  unfold countsOf
  rw [Pi.add_apply, card_filter, card_filter, Fin.sum_univ_succ]
  simp only [Fin.cons_zero, Fin.cons_succ]
  rw [add_comm]
  congr 1
  by_cases h : k = j
  · subst h; simp
  · simp [h, Pi.single_eq_of_ne (Ne.symm h)]

/-- Expectation over independent draws of a function of the counts. -/
theorem iid_counts (n : ℕ) (p : Fin K → ℝ) (F : (Fin K → ℕ) → ℝ) :
    ∑ f : Fin n → Fin K, (∏ i, p (f i)) * F (countsOf f) = multE n p F := by
  induction n generalizing F with
  | zero =>
    rw [multE_zero]
    simp [countsOf]
    congr 1
  | succ n ih =>
    rw [multE_succ, ← (Fin.consEquiv fun _ : Fin (n + 1) => Fin K).sum_comp, Fintype.sum_prod_type]
    refine sum_congr rfl fun k _ => ?_
    rw [← ih, mul_sum]
    refine sum_congr rfl fun f _ => ?_
    have : (Fin.consEquiv fun _ : Fin (n + 1) => Fin K) (k, f) = Fin.cons k f := rfl
    rw [this, countsOf_cons, Fin.prod_univ_succ]
    simp only [Fin.cons_zero, Fin.cons_succ]
    ring

end Distrax
