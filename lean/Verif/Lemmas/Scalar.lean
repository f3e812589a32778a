import Verif.Model.Bijector
import Mathlib.Analysis.SpecialFunctions.Sigmoid
import Mathlib.Analysis.SpecialFunctions.Trigonometric.DerivHyp
import Mathlib.Analysis.SpecialFunctions.Log.Deriv
import Mathlib.Analysis.SpecialFunctions.ExpDeriv
import Mathlib.Tactic.Ring
import Mathlib.Tactic.Linarith
import Mathlib.Tactic.FieldSimp
import Mathlib.Tactic.Positivity

namespace Distrax
open Real

theorem one_add_exp_pos (x : ℝ) : 0 < 1 + exp x := by positivity

theorem moreStableSoftplus_eq (x : ℝ) : moreStableSoftplus x = softplus x := by
  simp [moreStableSoftplus, softplus]

theorem jaxSigmoid_eq (x : ℝ) : jaxSigmoid x = Real.sigmoid x := by
  simp [jaxSigmoid, Real.sigmoid_def]

theorem sigmoidFldj_eq (x : ℝ) :
    sigmoidFldj x = log (Real.sigmoid x * (1 - Real.sigmoid x)) := by
  have h1 : Real.sigmoid x * (1 - Real.sigmoid x) = (1 + exp (-x))⁻¹ * (1 + exp x)⁻¹ := by
    rw [← Real.sigmoid_neg, Real.sigmoid_def, Real.sigmoid_def, neg_neg]
  rw [h1, log_mul (inv_ne_zero (one_add_exp_pos _).ne') (inv_ne_zero (one_add_exp_pos _).ne'),
    log_inv, log_inv]
  simp only [sigmoidFldj, moreStableSoftplus_eq, softplus]
  ring

theorem sigmoidInv_sigmoid (x : ℝ) : sigmoidInv (Real.sigmoid x) = x := by
  have h1 : 1 + -Real.sigmoid x = Real.sigmoid x * exp (-x) := by
    rw [Real.sigmoid_mul_rexp_neg, Real.sigmoid_neg]; ring
  rw [sigmoidInv, h1, log_mul (Real.sigmoid_pos x).ne' (exp_pos _).ne', log_exp]
  ring

theorem sigmoid_sigmoidInv {y : ℝ} (h0 : 0 < y) (h1 : y < 1) : Real.sigmoid (sigmoidInv y) = y := by
  have : y ∈ Set.range Real.sigmoid := by rw [Real.range_sigmoid]; exact ⟨h0, h1⟩
  obtain ⟨x, rfl⟩ := this
  rw [sigmoidInv_sigmoid]

theorem moreStableSigmoid_of_ge {x : ℝ} (h : -9 ≤ x) : moreStableSigmoid x = Real.sigmoid x := by
  rw [moreStableSigmoid, if_neg (not_lt.2 h), jaxSigmoid_eq]

theorem hasDerivAt_moreStableSigmoid {x : ℝ} (h : -9 < x) :
    HasDerivAt moreStableSigmoid (Real.sigmoid x * (1 - Real.sigmoid x)) x := by
  refine (Real.hasDerivAt_sigmoid x).congr_of_eventuallyEq ?_
  filter_upwards [eventually_gt_nhds h] with z hz
  exact moreStableSigmoid_of_ge hz.le

theorem hasDerivAt_sigmoidInv {y : ℝ} (h0 : 0 < y) (h1 : y < 1) :
    HasDerivAt sigmoidInv (1 / (y * (1 - y))) y := by
  have e1 : HasDerivAt (fun y : ℝ => log y) (1 / y) y := by
    simpa using Real.hasDerivAt_log h0.ne'
  have e2 : HasDerivAt (fun y : ℝ => log (1 + -y)) (-1 / (1 + -y)) y := by
    have : HasDerivAt (fun y : ℝ => 1 + -y) (-1) y := by
      simpa using (hasDerivAt_id y).neg.const_add 1
    exact this.log (by linarith)
  have e3 : HasDerivAt sigmoidInv _ y := e1.sub e2
  refine e3.congr_deriv ?_
  have : (1:ℝ) - y ≠ 0 := by linarith
  have h2 : (1:ℝ) + -y ≠ 0 := by linarith
  have e : (1:ℝ) + -y = 1 - y := by ring
  rw [e]
  field_simp
  ring

theorem tanhFldj_eq (x : ℝ) : tanhFldj x = log (1 / cosh x ^ 2) := by
  have hc : cosh x = exp x * (1 + exp (-2 * x)) / 2 := by
    rw [Real.cosh_eq, mul_add, ← exp_add]; ring_nf
  have hpos := one_add_exp_pos (-2 * x)
  rw [one_div, log_inv, log_pow, hc, log_div (by positivity) (by norm_num),
    log_mul (exp_pos _).ne' hpos.ne', log_exp]
  simp only [tanhFldj, softplus]
  push_cast; ring

theorem hasDerivAt_tanh (x : ℝ) : HasDerivAt tanh (1 / cosh x ^ 2) x := by
  have h : HasDerivAt (fun x => sinh x / cosh x)
      ((cosh x * cosh x - sinh x * sinh x) / cosh x ^ 2) x :=
    (Real.hasDerivAt_sinh x).div (Real.hasDerivAt_cosh x) (Real.cosh_pos x).ne'
  have e : (cosh x * cosh x - sinh x * sinh x) = 1 := by
    have := Real.cosh_sq x; nlinarith
  rw [e] at h
  exact h.congr_of_eventuallyEq (Filter.Eventually.of_forall fun z => Real.tanh_eq_sinh_div_cosh z)

theorem hasDerivAt_artanh {y : ℝ} (h0 : -1 < y) (h1 : y < 1) :
    HasDerivAt artanh (1 / (1 - y ^ 2)) y := by
  have e1 : HasDerivAt (fun y : ℝ => log (1 + y)) (1 / (1 + y)) y := by
    have : HasDerivAt (fun y : ℝ => 1 + y) 1 y := by simpa using (hasDerivAt_id y).const_add 1
    exact this.log (by linarith)
  have e2 : HasDerivAt (fun y : ℝ => log (1 - y)) (-1 / (1 - y)) y := by
    have : HasDerivAt (fun y : ℝ => 1 - y) (-1) y := by simpa using (hasDerivAt_id y).const_sub 1
    exact this.log (by linarith)
  have e3 : HasDerivAt (fun y => 1 / 2 * (log (1 + y) - log (1 - y))) _ y :=
    (e1.sub e2).const_mul (1 / 2 : ℝ)
  have hev : artanh =ᶠ[nhds y] (fun y => 1 / 2 * (log (1 + y) - log (1 - y))) := by
    filter_upwards [Ioo_mem_nhds h0 h1] with z hz
    rw [artanh_eq_half_log ⟨hz.1.le, hz.2.le⟩, log_div (by linarith [hz.1]) (by linarith [hz.2])]
  refine HasDerivAt.congr_of_eventuallyEq ?_ hev
  refine e3.congr_deriv ?_
  have : (1:ℝ) - y ≠ 0 := by linarith
  have h2 : (1:ℝ) + y ≠ 0 := by linarith
  have h3 : (1:ℝ) - y ^ 2 = (1 - y) * (1 + y) := by ring
  rw [h3]
  field_simp
  ring

theorem gumbelInv_fwd (x : ℝ) : gumbelCdfInv (gumbelCdfFwd x) = x := by
  simp [gumbelCdfInv, gumbelCdfFwd]

theorem gumbel_fwd_inv {y : ℝ} (h0 : 0 < y) (h1 : y < 1) : gumbelCdfFwd (gumbelCdfInv y) = y := by
  have : 0 < -log y := by linarith [Real.log_neg h0 h1]
  simp only [gumbelCdfInv, gumbelCdfFwd, neg_neg]
  rw [exp_log this, neg_neg, exp_log h0]

theorem gumbelIldj_fwd (x : ℝ) : gumbelCdfIldj (gumbelCdfFwd x) = -gumbelCdfFldj x := by
  rw [gumbelCdfIldj, gumbelInv_fwd, gumbelCdfFwd, log_exp, gumbelCdfFldj]; ring

theorem gumbelFldj_inv {y : ℝ} (h0 : 0 < y) (h1 : y < 1) :
    gumbelCdfFldj (gumbelCdfInv y) = -gumbelCdfIldj y := by
  have h := gumbelIldj_fwd (gumbelCdfInv y)
  rw [gumbel_fwd_inv h0 h1] at h
  linarith

theorem hasDerivAt_gumbelFwd (x : ℝ) :
    HasDerivAt gumbelCdfFwd (exp (-exp (-x)) * exp (-x)) x := by
  have h1 : HasDerivAt (fun x : ℝ => exp (-x)) (-exp (-x)) x := by
    simpa using (hasDerivAt_neg x).exp
  have h2 : HasDerivAt (fun x : ℝ => -exp (-x)) (exp (-x)) x :=
    (HasDerivAt.neg h1).congr_deriv (by ring)
  exact h2.exp

theorem gumbelFldj_eq (x : ℝ) : gumbelCdfFldj x = log (exp (-exp (-x)) * exp (-x)) := by
  rw [log_mul (exp_pos _).ne' (exp_pos _).ne', log_exp, log_exp, gumbelCdfFldj]; ring

theorem hasDerivAt_gumbelInv {y : ℝ} (h0 : 0 < y) (h1 : y < 1) :
    HasDerivAt gumbelCdfInv (1 / (y * -log y)) y := by
  have hl : 0 < -log y := by linarith [Real.log_neg h0 h1]
  have e1 : HasDerivAt (fun y : ℝ => -log y) (-(y⁻¹)) y := (Real.hasDerivAt_log h0.ne').neg
  have e2 : HasDerivAt gumbelCdfInv _ y := (e1.log hl.ne').neg
  refine e2.congr_deriv ?_
  have := hl.ne'
  field_simp

theorem gumbelIldj_eq {y : ℝ} (h0 : 0 < y) (h1 : y < 1) :
    gumbelCdfIldj y = log (1 / (y * -log y)) := by
  have hl : 0 < -log y := by linarith [Real.log_neg h0 h1]
  rw [one_div, log_inv, log_mul h0.ne' hl.ne', gumbelCdfIldj, gumbelCdfInv]; ring

theorem gumbelFwd_mem (x : ℝ) : 0 < gumbelCdfFwd x ∧ gumbelCdfFwd x < 1 := by
  refine ⟨exp_pos _, ?_⟩
  rw [gumbelCdfFwd]
  rw [Real.exp_lt_one_iff]; linarith [exp_pos (-x)]

end Distrax
