import Verif.Model.XR

namespace Distrax.XR

open Finset

theorem zero_def : (0 : XR) = fin 0 := rfl
theorem one_def : (1 : XR) = fin 1 := rfl
@[simp] theorem fin_add (a b : ℝ) : fin a + fin b = fin (a + b) := rfl
@[simp] theorem fin_mul (a b : ℝ) : fin a * fin b = fin (a * b) := rfl
@[simp] theorem neg_fin (a : ℝ) : -fin a = fin (-a) := rfl
@[simp] theorem neg_ninf : -ninf = pinf := rfl
@[simp] theorem neg_pinf : -pinf = ninf := rfl
@[simp] theorem neg_nan : -nan = nan := rfl
@[simp] theorem fin_sub (a b : ℝ) : fin a - fin b = fin (a - b) := by
  show fin a + -fin b = _; rw [neg_fin, fin_add, sub_eq_add_neg]
@[simp] theorem exp_fin (a : ℝ) : exp (fin a) = fin (Real.exp a) := rfl
@[simp] theorem exp_ninf : exp ninf = fin 0 := rfl
theorem log_fin_pos {a : ℝ} (h : 0 < a) : log (fin a) = fin (Real.log a) := if_pos h
@[simp] theorem log_fin_zero : log (fin 0) = ninf := by simp [log]
@[simp] theorem fin_inj {a b : ℝ} : fin a = fin b ↔ a = b := ⟨fun h => by injection h, fun h => by rw [h]⟩
theorem div_fin {a b : ℝ} (h : b ≠ 0) : fin a / fin b = fin (a / b) := if_neg h
@[simp] theorem ninf_add_fin (a : ℝ) : ninf + fin a = ninf := rfl
@[simp] theorem fin_add_ninf (a : ℝ) : fin a + ninf = ninf := rfl
@[simp] theorem pinf_add_fin (a : ℝ) : pinf + fin a = pinf := rfl
@[simp] theorem fin_add_pinf (a : ℝ) : fin a + pinf = pinf := rfl
@[simp] theorem ninf_add_ninf : ninf + ninf = ninf := rfl
@[simp] theorem pinf_add_pinf : pinf + pinf = pinf := rfl
@[simp] theorem nan_add (a : XR) : nan + a = nan := by cases a <;> rfl
@[simp] theorem ninf_sub_fin (a : ℝ) : ninf - fin a = ninf := rfl
@[simp] theorem fin_sub_ninf (a : ℝ) : fin a - ninf = pinf := rfl
@[simp] theorem ninf_sub_ninf : ninf - ninf = nan := rfl
theorem sub_def (a b : XR) : a - b = a + -b := rfl

/-- `fin` as a monoid homomorphism. -/
def finHom : ℝ →+ XR := ⟨⟨fin, rfl⟩, fun _ _ => rfl⟩

theorem sum_fin {ι : Type*} (s : Finset ι) (f : ι → ℝ) : ∑ i ∈ s, fin (f i) = fin (∑ i ∈ s, f i) :=
  (map_sum finHom f s).symm

/-- A sum in which exactly the entries of a nonempty set are `-inf` and the others finite is `-inf`. -/
theorem sum_ninf {ι : Type*} (s : Finset ι) (f : ι → XR) (h : ∀ i ∈ s, f i = ninf ∨ ∃ a, f i = fin a)
    (h' : ∃ i ∈ s, f i = ninf) : ∑ i ∈ s, f i = ninf := by
  classical
  obtain ⟨i, hi, hf⟩ := h'
  rw [← Finset.add_sum_erase s f hi, hf]
  have : ∀ t : Finset ι, (∀ i ∈ t, f i = ninf ∨ ∃ a, f i = fin a) →
      (∑ i ∈ t, f i = ninf ∨ ∃ a, ∑ i ∈ t, f i = fin a) := by
    intro t
    induction t using Finset.induction_on with
    | empty => intro _; right; exact ⟨0, rfl⟩
    | insert j t hj ih =>
      intro ht
      rw [Finset.sum_insert hj]
      rcases ht j (by simp) with e1 | ⟨a, e1⟩ <;>
        rcases ih (fun k hk => ht k (by simp [hk])) with e2 | ⟨b, e2⟩ <;> rw [e1, e2] <;> simp
  rcases this (s.erase i) (fun k hk => h k (Finset.mem_of_mem_erase hk)) with e | ⟨a, e⟩ <;> rw [e] <;> simp

theorem sum_pinf {ι : Type*} (s : Finset ι) (f : ι → XR) (h : ∀ i ∈ s, f i = pinf ∨ ∃ a, f i = fin a)
    (h' : ∃ i ∈ s, f i = pinf) : ∑ i ∈ s, f i = pinf := by
  classical
  obtain ⟨i, hi, hf⟩ := h'
  rw [← Finset.add_sum_erase s f hi, hf]
  have : ∀ t : Finset ι, (∀ i ∈ t, f i = pinf ∨ ∃ a, f i = fin a) →
      (∑ i ∈ t, f i = pinf ∨ ∃ a, ∑ i ∈ t, f i = fin a) := by
    intro t
    induction t using Finset.induction_on with
    | empty => intro _; right; exact ⟨0, rfl⟩
    | insert j t hj ih =>
      intro ht
      rw [Finset.sum_insert hj]
      rcases ht j (by simp) with e1 | ⟨a, e1⟩ <;>
        rcases ih (fun k hk => ht k (by simp [hk])) with e2 | ⟨b, e2⟩ <;> rw [e1, e2] <;> simp
  rcases this (s.erase i) (fun k hk => h k (Finset.mem_of_mem_erase hk)) with e | ⟨a, e⟩ <;> rw [e] <;> simp

theorem sum_nan {ι : Type*} (s : Finset ι) (f : ι → XR) (h' : ∃ i ∈ s, f i = nan) : ∑ i ∈ s, f i = nan := by
  classical
  obtain ⟨i, hi, hf⟩ := h'
  rw [← Finset.add_sum_erase s f hi, hf, nan_add]

end Distrax.XR
