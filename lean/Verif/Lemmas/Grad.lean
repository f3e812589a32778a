import Verif.Model.Grad
import Verif.Spec.Grad
import Verif.Lemmas.Categorical
import Mathlib.Analysis.SpecialFunctions.Log.Deriv
import Mathlib.Analysis.SpecialFunctions.ExpDeriv

namespace Distrax

open XR Spec Grad

variable {n : ℕ}

theorem weight_add {x : XR} (hx : x = ninf ∨ ∃ a, x = fin a) (s : ℝ) :
    weight (x + fin s) = weight x * Real.exp s := by
  rcases hx with rfl | ⟨a, rfl⟩
  · simp [weight]
  · simp [weight, Real.exp_add]

theorem legal_along {l : Fin n → XR} (h : LegalLogits l) (v : Fin n → ℝ) (t : ℝ) : LegalLogits (along l v t) := by
  refine ⟨fun i => ?_, ?_⟩
  · rcases h.entry i with e | ⟨a, e⟩
    · left; simp [along, e]
    · right; exact ⟨a + t * v i, by simp [along, e]⟩
  · obtain ⟨i, a, e⟩ := h.some_finite
    exact ⟨i, a + t * v i, by simp [along, e]⟩

theorem softP_pmf {l : Fin n → XR} (h : LegalLogits l) : IsPmf (softP l) := pmf_weights h

theorem logSoftmax_softP {l : Fin n → XR} (h : LegalLogits l) (i : Fin n) : logSoftmax l i = xlog (softP l i) :=
  logSoftmax_legal h i

theorem legal_logSoftmax {l : Fin n → XR} (h : LegalLogits l) : LegalLogits (logSoftmax l) := by
  have := legal_xlog (softP_pmf h)
  rwa [show logSoftmax l = fun i => xlog (softP l i) from funext (logSoftmax_softP h)]

theorem softP_logSoftmax {l : Fin n → XR} (h : LegalLogits l) (i : Fin n) : softP (logSoftmax l) i = softP l i := by
  have hp := softP_pmf h
  have e : ∀ j, weight (logSoftmax l j) = softP l j := fun j => by
    rw [logSoftmax_softP h, weight_xlog (hp.nonneg j)]
  rw [softP, e, Finset.sum_congr rfl fun j _ => e j, hp.sum_one, div_one]

theorem weight_deriv {x : XR} (hx : x = ninf ∨ ∃ a, x = fin a) (v : ℝ) :
    HasDerivAt (fun t : ℝ => weight (x + fin (t * v))) (weight x * v) 0 := by
  have e : (fun t : ℝ => weight (x + fin (t * v))) = fun t => weight x * Real.exp (t * v) :=
    funext fun t => weight_add hx _
  rw [e]
  have := (((hasDerivAt_id (0 : ℝ)).mul_const v).exp.const_mul (weight x))
  simpa using this

theorem wsum_deriv {l : Fin n → XR} (h : LegalLogits l) (v : Fin n → ℝ) :
    HasDerivAt (fun t : ℝ => ∑ j, weight (along l v t j)) (∑ j, weight (l j) * v j) 0 :=
  HasDerivAt.fun_sum fun j _ => weight_deriv (h.entry j) (v j)

theorem along_zero {l : Fin n → XR} (v : Fin n → ℝ) : along l v 0 = l := by
  funext i
  show l i + fin (0 * v i) = l i
  rw [zero_mul]; exact add_zero _

theorem softP_deriv {l : Fin n → XR} (h : LegalLogits l) (v : Fin n → ℝ) (i : Fin n) :
    HasDerivAt (fun t : ℝ => softP (along l v t) i) (softP l i * (v i - ∑ j, softP l j * v j)) 0 := by
  have hS := h.weight_sum_pos
  have h1 := (weight_deriv (h.entry i) (v i)).div (wsum_deriv h v) (by rw [along_zero]; exact hS.ne')
  refine h1.congr_deriv ?_
  rw [along_zero]
  have e0 : weight (l i + fin (0 * v i)) = weight (l i) := by
    rw [weight_add (h.entry i)]; simp
  have e1 : ∑ j, softP l j * v j = (∑ j, weight (l j) * v j) / ∑ j, weight (l j) := by
    rw [Finset.sum_div]
    exact Finset.sum_congr rfl fun j _ => by rw [softP]; ring
  rw [e0, e1, softP]
  generalize (∑ j, weight (l j)) = S at *
  generalize (∑ j, weight (l j) * v j) = T at *
  field_simp

theorem log_softP_deriv {l : Fin n → XR} (h : LegalLogits l) (v : Fin n → ℝ) (i : Fin n) (hi : softP l i ≠ 0) :
    HasDerivAt (fun t : ℝ => Real.log (softP (along l v t) i)) (v i - ∑ j, softP l j * v j) 0 := by
  have h1 := (softP_deriv h v i).log (by rw [along_zero]; exact hi)
  refine h1.congr_deriv ?_
  rw [along_zero]
  field_simp

theorem softP_along_zero {l : Fin n → XR} (h : LegalLogits l) (v : Fin n → ℝ) (i : Fin n) (hi : softP l i = 0) (t : ℝ) :
    softP (along l v t) i = 0 := by
  have hS := h.weight_sum_pos
  have : weight (l i) = 0 := by
    rcases div_eq_zero_iff.1 hi with e | e
    · exact e
    · exact absurd e hS.ne'
  rw [softP, along, weight_add (h.entry i), this]; simp

theorem plogp_deriv {l : Fin n → XR} (h : LegalLogits l) (v : Fin n → ℝ) (i : Fin n) :
    HasDerivAt (fun t : ℝ => softP (along l v t) i * Real.log (softP (along l v t) i))
      (softP l i * (v i - ∑ j, softP l j * v j) * (Real.log (softP l i) + 1)) 0 := by
  by_cases hi : softP l i = 0
  · have e : (fun t : ℝ => softP (along l v t) i * Real.log (softP (along l v t) i)) = fun _ => 0 :=
      funext fun t => by rw [softP_along_zero h v i hi]; simp
    rw [e, hi]; simpa using hasDerivAt_const (0 : ℝ) (0 : ℝ)
  · refine ((softP_deriv h v i).mul (log_softP_deriv h v i hi)).congr_deriv ?_
    rw [along_zero]; ring

/-- The pullback of `log_softmax` on a legal row. -/
theorem logSoftmaxV_pull {l : Fin n → XR} (h : LegalLogits l) (r : Fin n → ℝ) (i : Fin n) :
    (logSoftmaxV l).2 (fun j => fin (r j)) i = fin (r i - (∑ j, r j) * softP l i) := by
  obtain ⟨m, hm⟩ := h.rowMax
  have hS := h.weight_sum_pos
  simp only [logSoftmaxV, hm, neg_fin, sum_fin]
  have e : ∑ j, XR.exp (l j - fin m) = fin ((∑ j, weight (l j)) * Real.exp (-m)) := by
    rw [Finset.sum_mul, ← sum_fin]
    exact Finset.sum_congr rfl fun j _ => weight_sub (h.entry j) m
  rw [e, div_fin (by positivity), weight_sub (h.entry i), fin_mul, fin_add, fin_inj, softP, Finset.sum_neg_distrib]
  have := (Real.exp_pos (-m)).ne'
  generalize (∑ j, weight (l j)) = S at *
  generalize (∑ j, r j) = R at *
  field_simp
  ring

theorem logSoftmaxV_val (l : Fin n → XR) : (logSoftmaxV l).1 = logSoftmax l := rfl

/-- Applying `log_softmax` twice: the second pullback removes nothing more. -/
theorem twice_pull {l : Fin n → XR} (h : LegalLogits l) (r : Fin n → ℝ) (i : Fin n) :
    ((logSoftmaxV.comp logSoftmaxV) l).2 (fun j => fin (r j)) i = fin (r i - (∑ j, r j) * softP l i) := by
  simp only [RevV.comp, logSoftmaxV_val]
  have e : ((logSoftmaxV (logSoftmax l)).2 fun j => fin (r j)) =
      fun j => fin (r j - (∑ k, r k) * softP l j) := by
    funext j
    rw [logSoftmaxV_pull (legal_logSoftmax h), softP_logSoftmax h]
  rw [e, logSoftmaxV_pull h]
  have : ∑ j, (r j - (∑ k, r k) * softP l j) = 0 := by
    rw [Finset.sum_sub_distrib, ← Finset.mul_sum, (softP_pmf h).sum_one]; ring
  rw [this]; simp

theorem twice_val {l : Fin n → XR} (h : LegalLogits l) (i : Fin n) :
    ((logSoftmaxV.comp logSoftmaxV) l).1 i = xlog (softP l i) := by
  simp only [RevV.comp, logSoftmaxV_val]
  rw [logSoftmax_softP (legal_logSoftmax h), softP_logSoftmax h]

theorem mnnX_fin (x : XR) (y g : ℝ) : mnnX x (fin y) (fin g) = fin (g * y) := by
  simp [mnnX, multiplyNoNanJvp, scaleMaybeSymbolic, addMaybeSymbolic]

theorem mnnX_eq (x y g : XR) : mnnX x y g = g * y := by
  simp [mnnX, multiplyNoNanJvp, scaleMaybeSymbolic, addMaybeSymbolic]

theorem mnnY_eq (x y g : XR) : mnnY x y g = g * x := by
  simp [mnnY, multiplyNoNanJvp, scaleMaybeSymbolic, addMaybeSymbolic]

theorem mulExpPull_pos (x l g : ℝ) :
    mulExpPull (fin x) (fin l) (fin g) = (fin (g * Real.exp l), fin (g * x * Real.exp l)) := by
  have : ¬ eqB (fin (Real.exp l)) 0 := by rw [XR.eqB_zero]; simp [(Real.exp_pos l).ne']
  simp only [mulExpPull, exp_fin, XR.sel_neg this, fin_mul]

theorem mulExpPull_zero (x : XR) (g : ℝ) : mulExpPull x ninf (fin g) = (fin 0, fin 0) := by
  have : eqB (fin 0) 0 := by rw [XR.eqB_zero]
  simp only [mulExpPull, exp_ninf, XR.sel_pos this]
  simp [zero_def]

/-- Both pullbacks of `mul_exp(x, log p)` at a probability `p`, the first argument finite where `p > 0`. -/
theorem mulExpPull_xlog {x : XR} {x0 p : ℝ} (hp : 0 ≤ p) (hx : p ≠ 0 → x = fin x0) (g : ℝ) :
    mulExpPull x (xlog p) (fin g) = (fin (g * p), fin (g * (p * x0))) := by
  by_cases h : p = 0
  · subst h
    rw [show xlog 0 = ninf by simp [xlog], mulExpPull_zero]; simp
  · have hp' : 0 < p := lt_of_le_of_ne hp (Ne.symm h)
    rw [hx h, show xlog p = fin (Real.log p) by simp [xlog, h], mulExpPull_pos, Real.exp_log hp']
    simp only [Prod.mk.injEq, fin_inj, true_and]; ring

end Distrax
