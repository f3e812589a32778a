import Verif.Model.MathUtils
import Verif.Spec.MathUtils
import Verif.Lemmas.XR
import Mathlib.Algebra.BigOperators.Field
import Mathlib.Algebra.Order.BigOperators.Group.Finset

namespace Distrax

open XR Spec Finset

theorem XR.sel_pos {c : Prop} {a b : XR} (h : c) : XR.sel c a b = a := if_pos h
theorem XR.sel_neg {c : Prop} {a b : XR} (h : ¬c) : XR.sel c a b = b := if_neg h

theorem XR.eqB_fin {a b : ℝ} : eqB (fin a) (fin b) ↔ a = b := Iff.rfl
theorem XR.eqB_zero {x : XR} : eqB x 0 ↔ x = fin 0 := by
  rw [XR.zero_def]
  cases x <;> simp [eqB]

theorem XR.log_eq_xlog {p : ℝ} (h : 0 ≤ p) : XR.log (fin p) = xlog p := by
  unfold xlog
  rcases h.lt_or_eq with h | rfl
  · rw [log_fin_pos h, if_neg h.ne']
  · simp

theorem weight_nonneg (x : XR) : 0 ≤ weight x := by
  cases x <;> simp [weight, (Real.exp_pos _).le]

theorem exp_eq_weight {x : XR} (h : x = ninf ∨ ∃ a, x = fin a) : XR.exp x = fin (weight x) := by
  rcases h with rfl | ⟨a, rfl⟩ <;> simp [weight]

theorem Spec.LegalLogits.weight_sum_pos {n : ℕ} {l : Fin n → XR} (h : LegalLogits l) : 0 < ∑ i, weight (l i) := by
  obtain ⟨i, a, hi⟩ := h.some_finite
  refine Finset.sum_pos' (fun i _ => weight_nonneg _) ⟨i, Finset.mem_univ _, ?_⟩
  rw [hi]; exact Real.exp_pos a

theorem foldl_max_fin (L : List XR) (hL : ∀ x ∈ L, x = ninf ∨ ∃ a, x = fin a) (m : ℝ) :
    ∃ m', L.foldl XR.max (fin m) = fin m' := by
  induction L generalizing m with
  | nil => exact ⟨m, rfl⟩
  | cons x L ih =>
    have hx := hL x (by simp)
    have hL' : ∀ y ∈ L, y = ninf ∨ ∃ a, y = fin a := fun y hy => hL y (by simp [hy])
    rcases hx with rfl | ⟨a, rfl⟩
    · have : XR.max (fin m) ninf = fin m := by simp [XR.max, ltB]
      rw [List.foldl_cons, this]; exact ih hL' m
    · by_cases h : m < a
      · have : XR.max (fin m) (fin a) = fin a := by simp [XR.max, ltB, h]
        rw [List.foldl_cons, this]; exact ih hL' a
      · have : XR.max (fin m) (fin a) = fin m := by simp [XR.max, ltB, h]
        rw [List.foldl_cons, this]; exact ih hL' m

theorem foldl_max_ninf (L : List XR) (hL : ∀ x ∈ L, x = ninf ∨ ∃ a, x = fin a) :
    (∃ x ∈ L, ∃ a, x = fin a) → ∃ m', L.foldl XR.max ninf = fin m' := by
  induction L with
  | nil => simp
  | cons x L ih =>
    intro h
    have hL' : ∀ y ∈ L, y = ninf ∨ ∃ a, y = fin a := fun y hy => hL y (by simp [hy])
    rcases hL x (by simp) with rfl | ⟨a, rfl⟩
    · have : XR.max ninf ninf = ninf := by simp [XR.max, ltB]
      rw [List.foldl_cons, this]
      refine ih hL' ?_
      obtain ⟨y, hy, a, rfl⟩ := h
      rcases List.mem_cons.1 hy with hy | hy
      · simp at hy
      · exact ⟨_, hy, a, rfl⟩
    · have : XR.max ninf (fin a) = fin a := by simp [XR.max, ltB]
      rw [List.foldl_cons, this]; exact foldl_max_fin L hL' a

theorem Spec.LegalLogits.rowMax {n : ℕ} {l : Fin n → XR} (h : LegalLogits l) : ∃ m, rowMax l = fin m := by
  refine foldl_max_ninf _ ?_ ?_
  · intro x hx
    obtain ⟨i, rfl⟩ := (List.mem_ofFn' _ _).1 hx
    exact h.entry i
  · obtain ⟨i, a, hi⟩ := h.some_finite
    exact ⟨l i, (List.mem_ofFn' _ _).2 ⟨i, rfl⟩, a, hi⟩

theorem weight_sub {x : XR} (hx : x = ninf ∨ ∃ a, x = fin a) (m : ℝ) :
    XR.exp (x - fin m) = fin (weight x * Real.exp (-m)) := by
  rcases hx with rfl | ⟨a, rfl⟩
  · simp [weight]
  · simp [weight, ← Real.exp_add, sub_eq_add_neg]

/-- `log_softmax` of a legal row is the log of the normalised weights. -/
theorem logSoftmax_legal {n : ℕ} {l : Fin n → XR} (h : LegalLogits l) (i : Fin n) :
    logSoftmax l i = xlog (weight (l i) / ∑ j, weight (l j)) := by
  obtain ⟨m, hm⟩ := h.rowMax
  have hS := h.weight_sum_pos
  unfold logSoftmax
  simp only [hm]
  have e : ∑ j, XR.exp (l j - fin m) = fin ((∑ j, weight (l j)) * Real.exp (-m)) := by
    rw [Finset.sum_mul, ← sum_fin]
    exact Finset.sum_congr rfl fun j _ => weight_sub (h.entry j) m
  rw [e, log_fin_pos (by positivity), Real.log_mul hS.ne' (Real.exp_pos _).ne', Real.log_exp]
  rcases h.entry i with hi | ⟨a, hi⟩
  · simp [hi, xlog, weight]
  · have hw : 0 < weight (l i) := by rw [hi]; exact Real.exp_pos a
    rw [xlog, if_neg (by positivity), hi]
    simp only [fin_sub, fin_inj, show weight (fin a) = Real.exp a from rfl]
    rw [Real.log_div (Real.exp_pos _).ne' hS.ne', Real.log_exp]
    ring

theorem exp_xlog {p : ℝ} (h : 0 ≤ p) : XR.exp (xlog p) = fin p := by
  unfold xlog
  split
  · simp_all
  · rename_i h0; simp [Real.exp_log (lt_of_le_of_ne h (Ne.symm h0))]

theorem weight_xlog {p : ℝ} (h : 0 ≤ p) : weight (xlog p) = p := by
  unfold xlog
  split
  · simp_all [weight]
  · rename_i h0; simp [weight, Real.exp_log (lt_of_le_of_ne h (Ne.symm h0))]

theorem legal_xlog {n : ℕ} {p : Fin n → ℝ} (h : IsPmf p) : LegalLogits fun i => xlog (p i) := by
  constructor
  · intro i; unfold xlog; split
    · left; rfl
    · right; exact ⟨_, rfl⟩
  · by_contra hc
    have : ∀ i, p i = 0 := by
      intro i
      by_contra h0
      exact hc ⟨i, Real.log (p i), by simp [xlog, h0]⟩
    have := h.sum_one
    simp_all

theorem pmf_weights {n : ℕ} {l : Fin n → XR} (h : LegalLogits l) :
    IsPmf fun i => weight (l i) / ∑ j, weight (l j) :=
  ⟨fun i => div_nonneg (weight_nonneg _) h.weight_sum_pos.le, by
    rw [← Finset.sum_div]; exact div_self h.weight_sum_pos.ne'⟩

end Distrax
