import Verif.Lemmas.FloatSpline7
import Mathlib.Analysis.Complex.ExponentialBounds
import Mathlib.Tactic

/-!
Lemmas for C79: the constructed slopes in floating point.
-/

namespace Distrax.FSpline

open XR FX

variable {F : Fmt} {u η : ℝ}

theorem three_val : (lit 3 : FX F).1 = fin 3 := by
  have := F.small 3 (by norm_num)
  exact_mod_cast lit_val (F := F) (by exact_mod_cast this)

/-- The offset that makes a zero parameter a unit slope: at most 1, possibly `-inf`, never `nan`. -/
theorem offset_le {ms : ℝ} (h0 : 0 < ms) (h1 : ms < 1) :
    FX.log (FX.exp (lit 1 - lit ms) - lit 1 : FX F) ≤ lit 1 := by
  have l0 : (lit 0 : FX F) ≤ lit ms := lit_le h0.le
  have l1 : (lit ms : FX F) ≤ lit 1 := lit_le h1.le
  have fm : (lit ms : FX F).finite := lit_finite (by have := F.top_ge; rw [abs_of_pos h0]; linarith)
  have f1 : (lit 1 : FX F).finite := ⟨1, lit_one⟩
  have fs : (lit 1 - lit ms : FX F).Num := sub_num_fin f1 fm.num
  have d0 : (lit 0 : FX F) ≤ lit 1 - lit ms := by
    obtain ⟨x, hx⟩ := fm
    have hx1 : x ≤ 1 := by rw [le_def, hx, lit_one, leB_fin] at l1; exact l1
    rw [le_def, lit_zero, sub_val, lit_one, hx, fin_sub, ← F.rd_zero]
    exact F.mono (by linarith)
  have d1 : (lit 1 - lit ms : FX F) ≤ lit 1 := by
    obtain ⟨x, hx⟩ := fm
    have hx1 : 0 ≤ x := by rw [le_def, hx, lit_zero, leB_fin] at l0; exact l0
    rw [le_def, lit_one, sub_val, lit_one, hx, fin_sub, ← F.rd_one]
    exact F.mono (by linarith)
  have e0 : (lit 1 : FX F) ≤ FX.exp (lit 1 - lit ms) := by have := exp_mono d0; rwa [FX.exp_zero] at this
  have e1 : FX.exp (lit 1 - lit ms : FX F) ≤ lit 3 := by
    refine (exp_mono d1).tr ?_
    have : (FX.exp (lit 1 : FX F)).1 = F.rd (Real.exp 1) := by rw [FX.exp, fn_val lit_one]; rfl
    rw [le_def, this]
    exact F.mono Real.exp_one_lt_three.le
  have g : ∃ y, (FX.exp (lit 1 - lit ms : FX F)).1 = fin y ∧ 1 ≤ y ∧ y ≤ 3 := by
    rw [le_def, lit_one] at e0
    rw [le_def, three_val] at e1
    cases e' : (FX.exp (lit 1 - lit ms : FX F)).1 with
    | fin y => rw [e', leB_fin] at e0 e1; exact ⟨y, rfl, e0, e1⟩
    | _ => rw [e'] at e0 e1; simp [leB, ltB, eqB] at e0 e1
  obtain ⟨y, hy, y1, y3⟩ := g
  have k0 : (lit 0 : FX F) ≤ FX.exp (lit 1 - lit ms) - lit 1 := by
    rw [le_def, lit_zero, sub_val, hy, lit_one, fin_sub, ← F.rd_zero]; exact F.mono (by linarith)
  have k1 : (FX.exp (lit 1 - lit ms) - lit 1 : FX F) ≤ lit 2 := by
    rw [le_def, lit_two, sub_val, hy, lit_one, fin_sub, ← F.rd_two]; exact F.mono (by linarith)
  refine (log_mono k0 k1).tr ?_
  have : (FX.log (lit 2 : FX F)).1 = F.rd (Real.log 2) := by rw [FX.log, fn_val lit_two, XR.log_fin_pos two_pos]; rfl
  rw [le_def, this]
  exact F.mono (by have := Real.log_two_lt_d9; linarith)

/-- A slope: at least the rounded `min_knot_slope`, and not much above the parameter. -/
theorem slope_spec (A : F.Acc u η) {w : ℕ → FX F} {ms v V : ℝ} (h0 : 0 < ms) {s : ℕ → FX F} (h : normalizeKnotSlopes w ms = .ok s) {i : ℕ}
    (hw : (w i).1 = fin v) (hv : v ≤ V) (V0 : 0 ≤ V) (hV : 2 * V + 3 ≤ F.top) :
    lit ms ≤ s i ∧ ∃ z, (s i).1 = fin z ∧ z ≤ 2 * V + 3 := by
  unfold normalizeKnotSlopes at h
  split_ifs at h with hc
  have hc : ms < 1 := not_le.1 hc
  have e : (fun i => FX.softplus (w i + FX.log (FX.exp (lit 1 - lit ms) - lit 1)) + lit ms) = s := by injection h
  rw [← e]
  clear e h
  have of := offset_le (F := F) h0 hc
  set o : FX F := FX.log (FX.exp (lit 1 - lit ms) - lit 1)
  have u0 := A.u0
  have ul := A.u_le
  have tg := F.top_ge
  obtain ⟨x, hx⟩ := F.fits (x := ms) (by rw [abs_of_pos h0]; linarith)
  have x0 : 0 ≤ x := le_rd hx F.rd_zero h0.le
  have x1 : x ≤ 1 := rd_le hx F.rd_one hc.le
  have nz : (w i + o).Num := add_num_fin ⟨v, hw⟩ of.numL
  have nn := softplus_nonneg nz
  have sp : ∃ q, (FX.softplus (w i + o)).1 = fin q ∧ 0 ≤ q ∧ q ≤ 51 / 50 * V + 7 / 4 := by
    have fin_case : ∀ z, (w i + o).1 = fin z → z ≤ 101 / 100 * (V + 1) →
        ∃ q, (FX.softplus (w i + o)).1 = fin q ∧ 0 ≤ q ∧ q ≤ 51 / 50 * V + 7 / 4 := by
      intro z hz bz
      obtain ⟨q, hq, bq⟩ := within_softplus A hz
      refine ⟨q, hq, by rw [le_def, hq, lit_zero, leB_fin] at nn; exact nn, ?_⟩
      have r1 : rsoftplus z ≤ 101 / 100 * (V + 1) + 7 / 10 := by
        rw [rsoftplus_max]
        have := Real.log_le_log (by have := Real.exp_pos (-|z|); linarith) (show 1 + Real.exp (-|z|) ≤ 2 by
          have := Real.exp_le_one_iff.2 (show -|z| ≤ 0 by simp); linarith)
        have l2 := Real.log_two_lt_d9
        have : Max.max z 0 ≤ 101 / 100 * (V + 1) := max_le bz (by linarith)
        linarith
      have := (abs_le.1 bq).2
      have r0 : u * (rsoftplus z + 2) ≤ 1 / 256 * (101 / 100 * (V + 1) + 7 / 10 + 2) :=
        mul_le_mul ul (by linarith) (by
          rw [rsoftplus_max]
          have := Real.log_nonneg (show 1 ≤ 1 + Real.exp (-|z|) by have := Real.exp_pos (-|z|); linarith)
          have := le_max_right z 0
          linarith) (by norm_num)
      linarith
    rw [le_def, lit_one] at of
    cases eo : o.1 with
    | fin y =>
      rw [eo, leB_fin] at of
      have le : w i + o ≤ lit (V + 1) := by
        rw [le_def, add_val, hw, eo, fin_add]; exact F.mono (by linarith)
      cases ez : (w i + o).1 with
      | fin z =>
        rw [add_val, hw, eo, fin_add] at ez
        refine fin_case z (by rw [add_val, hw, eo, fin_add]; exact ez) ?_
        obtain ⟨c, hcc⟩ := F.fits (x := V + 1) (by rw [abs_of_nonneg (by linarith)]; linarith)
        have ec := A.err hcc
        rw [abs_of_nonneg (show 0 ≤ V + 1 by linarith)] at ec
        have hm := F.mono (show v + y ≤ V + 1 by linarith)
        have ez' : F.rd (v + y) = fin z := ez
        rw [ez', hcc, leB_fin] at hm
        have := (abs_le.1 ec).2
        have η1 := A.η_le
        nlinarith
      | ninf => rw [softplus_ninf ez]; exact ⟨0, lit_zero, le_rfl, by linarith⟩
      | pinf =>
        exact absurd ez (ne_pinf_of_le le (by rw [abs_of_nonneg (by linarith)]; linarith))
      | nan => exact absurd ez nz
    | ninf =>
      have : (w i + o).1 = ninf := by rw [add_val, hw, eo]; rfl
      rw [softplus_ninf this]; exact ⟨0, lit_zero, le_rfl, by linarith⟩
    | pinf => rw [eo] at of; simp [leB, ltB, eqB] at of
    | nan => rw [eo] at of; simp [leB, ltB, eqB] at of
  obtain ⟨q, hq, q0, q1⟩ := sp
  obtain ⟨z, hz, bz, rz⟩ := op_add A hq (lit_val hx) (by rw [abs_of_nonneg (by linarith)]; linarith)
  rw [abs_of_nonneg (show 0 ≤ q + x by linarith)] at bz
  refine ⟨?_, z, hz, ?_⟩
  · show lit ms ≤ FX.softplus (w i + o) + lit ms
    rw [le_def, hz, lit_val hx, leB_fin]
    exact le_rd rz (F.idem hx) (by linarith)
  · have := (abs_le.1 bz).2
    nlinarith

end Distrax.FSpline
