import Verif.Lemmas.MVNGrad2

/-! Lemmas for C74: the scale bijectors of the four classes are one matrix each, on values and on tangents. -/

namespace Distrax

open Matrix MeasureTheory Filter Topology Spec

variable {n : ℕ} {t : ℝ}

/-- The bijector `S` is multiplication by `A`, with tangents. -/
structure ScaleFacts (S : ScaleD n) (A : ℝ → Matrix (Fin n) (Fin n) ℝ) (Ad : Fin n → Fin n → Dual) (t : ℝ) : Prop where
  entries : ∀ i j, CA (fun s => A s i j) (Ad i j) t
  det : (A t).det ≠ 0
  forward : ∀ x, S.forward x = Dual.matVec Ad x
  inverse : ∀ y, S.inverse y = Dual.solve Ad y
  logDet : S.logDet = Dual.slogdet Ad

theorem CA.matVec {m : ℕ} {A : ℝ → Matrix (Fin m) (Fin n) ℝ} {Ad : Fin m → Fin n → Dual}
    (h : ∀ i j, CA (fun s => A s i j) (Ad i j) t) {x : Fin n → ℝ → ℝ} {xd : Fin n → Dual} (hx : ∀ i, CA (x i) (xd i) t) (i : Fin m) :
    CA (fun s => (A s *ᵥ fun j => x j s) i) (Dual.matVec Ad xd i) t :=
  CA.sum fun j => (h i j).mul (hx j)

theorem CA.matMul {m k : ℕ} {A : ℝ → Matrix (Fin m) (Fin k) ℝ} {Ad : Fin m → Fin k → Dual} {B : ℝ → Matrix (Fin k) (Fin n) ℝ}
    {Bd : Fin k → Fin n → Dual} (h : ∀ i j, CA (fun s => A s i j) (Ad i j) t) (hB : ∀ i j, CA (fun s => B s i j) (Bd i j) t)
    (i : Fin m) (j : Fin n) : CA (fun s => (A s * B s) i j) (Dual.matMul Ad Bd i j) t :=
  (CA.sum fun l => (h i l).mul (hB l j)).congr (Eventually.of_forall fun s => Matrix.mul_apply)

section diag
variable {d : Fin n → ℝ → ℝ} {dd : Fin n → Dual} (h : ∀ i, CA (d i) (dd i) t) (h0 : ∀ i, d i t ≠ 0)
include h

theorem diag_entries (i j : Fin n) :
    CA (fun s => Matrix.diagonal (fun i => d i s) i j) (if i = j then dd i else Dual.const 0) t := by
  by_cases hij : i = j
  · subst hij; simpa using h i
  · simpa [hij, Matrix.diagonal_apply_ne _ hij] using CA.const 0 t

include h0

theorem diag_near : ∀ᶠ s in 𝓝 t, ∀ i, d i s ≠ 0 := eventually_all.2 fun i => (h i).near (h0 i)

theorem diagInverse_ca {y : Fin n → ℝ → ℝ} {yd : Fin n → Dual} (hy : ∀ i, CA (y i) (yd i) t) (i : Fin n) :
    CA (fun s => y i s / d i s) (ScaleD.diagInverse dd yd i) t :=
  (((CA.const 1 t).div (h i) (h0 i)).mul ((hy i).sub (CA.const 0 t))).congr (Eventually.of_forall fun s => by
    show _ = 1 / d i s * (y i s - 0); rw [sub_zero]; ring)

theorem diagLogDet_ca : CA (fun s => ∑ i, Real.log |d i s|) (ScaleD.diagLogDet dd) t := CA.sum fun i => (h i).logAbs (h0 i)

theorem diag_facts' : ScaleFacts (.diag dd) (fun s => Matrix.diagonal fun i => d i s) (fun i j => if i = j then dd i else Dual.const 0) t := by
  have hdet : (Matrix.diagonal fun i => d i t).det ≠ 0 := by
    rw [Matrix.det_diagonal]; exact Finset.prod_ne_zero_iff.2 fun i _ => h0 i
  refine ⟨diag_entries h, hdet, fun x => ?_, fun y => ?_, ?_⟩
  · funext i
    refine CA.unique (((h i).mul (CA.line (x i) t)).add (CA.const 0 t))
      (CA.matVec (diag_entries h) (fun j => CA.line (x j) t) i) (Eventually.of_forall fun s => ?_)
    simp [Matrix.mulVec_diagonal]
  · funext i
    refine CA.unique (diagInverse_ca h h0 (fun j => CA.line (y j) t) i)
      (CA.solve (diag_entries h) hdet (fun j => CA.line (y j) t) i) ?_
    filter_upwards [diag_near h h0] with s hs
    have : (Matrix.diagonal fun i => d i s)⁻¹ = Matrix.diagonal fun i => (d i s)⁻¹ := by
      refine Matrix.inv_eq_right_inv ?_
      rw [Matrix.diagonal_mul_diagonal, ← Matrix.diagonal_one]
      congr 1; funext i; exact mul_inv_cancel₀ (hs i)
    rw [this, Matrix.mulVec_diagonal, div_eq_mul_inv, mul_comm]
  · refine CA.unique (diagLogDet_ca h h0) (CA.slogdet (diag_entries h) hdet) ?_
    filter_upwards [diag_near h h0] with s hs
    rw [Matrix.det_diagonal, Finset.abs_prod, Real.log_prod fun i _ => abs_ne_zero.2 (hs i)]

end diag

theorem triangle_twice (b : Bool) (a : Fin n → Fin n → Dual) :
    Dual.triangle b (Dual.triangle b a) = Dual.triangle b a := by
  funext i j; simp only [Dual.triangle]; split_ifs <;> rfl

/-- The triangle of a matrix. -/
def triangleOf (b : Bool) (M : Matrix (Fin n) (Fin n) ℝ) : Matrix (Fin n) (Fin n) ℝ :=
  Matrix.of fun i j => if (if b then j ≤ i else i ≤ j) then M i j else 0

theorem triangleOf_det (b : Bool) (M : Matrix (Fin n) (Fin n) ℝ) : (triangleOf b M).det = ∏ i, M i i := by
  have hd : ∀ i, triangleOf b M i i = M i i := fun i => by cases b <;> simp [triangleOf]
  cases b
  · rw [Matrix.det_of_isUpperTriangular]
    · simp only [hd]
    · intro i j hij
      have : ¬ i ≤ j := not_le.2 hij
      simp [triangleOf, this]
  · rw [Matrix.det_of_isLowerTriangular]
    · simp only [hd]
    · intro i j hij
      have : ¬ j ≤ i := not_le.2 (OrderDual.toDual_lt_toDual.1 hij)
      simp [triangleOf, this]

theorem tri_facts (b : Bool) {a : ℝ → Matrix (Fin n) (Fin n) ℝ} {ad : Fin n → Fin n → Dual}
    (h : ∀ i j, CA (fun s => a s i j) (ad i j) t) (h0 : ∀ i, a t i i ≠ 0) :
    ScaleFacts (.tri (Dual.triangle b (Dual.triangle b ad))) (fun s => triangleOf b (a s)) (Dual.triangle b ad) t := by
  rw [triangle_twice]
  have he : ∀ i j, CA (fun s => triangleOf b (a s) i j) (Dual.triangle b ad i j) t := fun i j => by
    simp only [triangleOf, Dual.triangle, Matrix.of_apply]
    split_ifs with h1 <;> first | exact h i j | exact CA.const 0 t
  have hdet : (triangleOf b (a t)).det ≠ 0 := by rw [triangleOf_det]; exact Finset.prod_ne_zero_iff.2 fun i _ => h0 i
  refine ⟨he, hdet, fun x => rfl, fun y => rfl, ?_⟩
  have hd : ∀ i, Dual.triangle b ad i i = ad i i := fun i => by cases b <;> simp [Dual.triangle]
  have : (ScaleD.tri (Dual.triangle b ad)).logDet = Dual.sum fun i => Dual.log (Dual.abs (ad i i)) := by
    simp only [ScaleD.logDet, hd]
  rw [this]
  refine CA.unique (CA.sum fun i => (h i i).logAbs (h0 i)) (CA.slogdet he hdet) ?_
  filter_upwards [eventually_all.2 fun i => (h i i).near (h0 i)] with s hs
  rw [triangleOf_det, Finset.abs_prod, Real.log_prod fun i _ => abs_ne_zero.2 (hs i)]

section lowRank
variable {k : ℕ}

/-- Woodbury. -/
theorem lowRank_inv (d : Fin n → ℝ) (hd : ∀ i, d i ≠ 0) (U V : Matrix (Fin n) (Fin k) ℝ) (W : Matrix (Fin n) (Fin k) ℝ)
    (hW : ∀ i j, W i j = U i j / d i) :
    Matrix.diagonal d + U * Vᵀ = Matrix.diagonal d * (1 + W * Vᵀ) ∧
    (Matrix.diagonal d + U * Vᵀ).det = (∏ i, d i) * (1 + Vᵀ * W).det ∧
    ((Matrix.diagonal d + U * Vᵀ).det ≠ 0 → ∀ y, (Matrix.diagonal d + U * Vᵀ)⁻¹ *ᵥ y =
      (fun i => y i / d i) - W *ᵥ ((1 + Vᵀ * W)⁻¹ *ᵥ (Vᵀ *ᵥ fun i => y i / d i))) := by
  have e1 : Matrix.diagonal d + U * Vᵀ = Matrix.diagonal d * (1 + W * Vᵀ) := by
    rw [Matrix.mul_add, Matrix.mul_one, ← Matrix.mul_assoc]
    congr 2
    ext i j
    rw [Matrix.diagonal_mul, hW]
    have := hd i
    field_simp
  have e2 : (Matrix.diagonal d + U * Vᵀ).det = (∏ i, d i) * (1 + Vᵀ * W).det := by
    rw [e1, Matrix.det_mul, Matrix.det_diagonal, Matrix.det_one_add_mul_comm]
  refine ⟨e1, e2, fun h0 y => ?_⟩
  have hS : (1 + Vᵀ * W).det ≠ 0 := fun h => h0 (by rw [e2, h, mul_zero])
  have hu : IsUnit (Matrix.diagonal d + U * Vᵀ).det := isUnit_iff_ne_zero.2 h0
  set p : Fin n → ℝ := fun i => y i / d i
  have hp : Matrix.diagonal d *ᵥ p = y := by
    funext i; rw [Matrix.mulVec_diagonal]; exact mul_div_cancel₀ _ (hd i)
  set q := Vᵀ *ᵥ p
  set r := (1 + Vᵀ * W)⁻¹ *ᵥ q
  have hr : r + Vᵀ *ᵥ (W *ᵥ r) = q := by
    have : (1 + Vᵀ * W) *ᵥ r = q := by
      rw [Matrix.mulVec_mulVec, Matrix.mul_nonsing_inv _ (isUnit_iff_ne_zero.2 hS), Matrix.one_mulVec]
    rwa [Matrix.add_mulVec, Matrix.one_mulVec, ← Matrix.mulVec_mulVec] at this
  have key : (Matrix.diagonal d + U * Vᵀ) *ᵥ (p - W *ᵥ r) = y := by
    rw [e1, ← Matrix.mulVec_mulVec, Matrix.add_mulVec, Matrix.one_mulVec, ← Matrix.mulVec_mulVec]
    have : p - W *ᵥ r + W *ᵥ (Vᵀ *ᵥ (p - W *ᵥ r)) = p := by
      rw [Matrix.mulVec_sub Vᵀ]
      have : Vᵀ *ᵥ p - Vᵀ *ᵥ (W *ᵥ r) = r := by
        show q - _ = r; rw [← hr]; abel
      rw [this]; abel
    rw [this, hp]
  rw [← key, Matrix.mulVec_mulVec, Matrix.nonsing_inv_mul _ hu, Matrix.one_mulVec]

variable {d : Fin n → ℝ → ℝ} {dd : Fin n → Dual} {U V : ℝ → Matrix (Fin n) (Fin k) ℝ} {ud vd : Fin n → Fin k → Dual}
  (hd : ∀ i, CA (d i) (dd i) t) (h0 : ∀ i, d i t ≠ 0) (hu : ∀ i j, CA (fun s => U s i j) (ud i j) t)
  (hv : ∀ i j, CA (fun s => V s i j) (vd i j) t)
include hd h0 hu hv

theorem lowRank_facts' (hdet : (Matrix.diagonal (fun i => d i t) + U t * (V t)ᵀ).det ≠ 0) :
    ScaleFacts (.diagPlusLowRank k dd ud vd) (fun s => Matrix.diagonal (fun i => d i s) + U s * (V s)ᵀ)
      (fun i j => (if i = j then dd i else Dual.const 0) + Dual.matMul ud (Dual.matT vd) i j) t := by
  have he : ∀ i j, CA (fun s => (Matrix.diagonal (fun i => d i s) + U s * (V s)ᵀ) i j)
      ((if i = j then dd i else Dual.const 0) + Dual.matMul ud (Dual.matT vd) i j) t := fun i j =>
    (diag_entries hd i j).add (CA.matMul (B := fun s => (V s)ᵀ) hu (fun i j => hv j i) i j)
  set W : ℝ → Matrix (Fin n) (Fin k) ℝ := fun s => Matrix.of fun i j => U s i j / d i s with hWd
  have hW : ∀ i j, CA (fun s => W s i j) (ScaleD.scaledU dd ud i j) t := fun i j => (hu i j).div (hd i) (h0 i)
  have hWe : ∀ s i j, W s i j = U s i j / d i s := fun s i j => rfl
  have hsm : ∀ i j, CA (fun s => (1 + (V s)ᵀ * W s : Matrix (Fin k) (Fin k) ℝ) i j) (ScaleD.smallMatrix (ScaleD.scaledU dd ud) vd i j) t := fun i j =>
    ((CA.const (if i = j then 1 else 0) t).add (CA.matMul (A := fun s => (V s)ᵀ) (fun i j => hv j i) hW i j)).congr
      (Eventually.of_forall fun s => by simp [Matrix.add_apply, Matrix.one_apply])
  have hsdet : (1 + (V t)ᵀ * W t).det ≠ 0 := fun h => hdet (by
    rw [(lowRank_inv (fun i => d i t) h0 (U t) (V t) (W t) (hWe t)).2.1, h, mul_zero])
  have hnear := diag_near hd h0
  refine ⟨he, hdet, fun x => ?_, fun y => ?_, ?_⟩
  · funext i
    have hx : ∀ i, CA _ (x i) t := fun i => CA.line (x i) t
    have hVx := CA.matVec (A := fun s => (V s)ᵀ) (Ad := Dual.matT vd) (fun i j => hv j i) hx
    have hWx := CA.matVec hW hVx
    have hid : ∀ i, CA _ (ScaleD.idForward (ScaleD.scaledU dd ud) vd x i) t := fun i => (hx i).add (hWx i)
    refine CA.unique (((hd i).mul (hid i)).add (CA.const 0 t)) (CA.matVec he hx i) ?_
    filter_upwards [hnear] with s hs
    have e := (lowRank_inv (fun i => d i s) hs (U s) (V s) (W s) (hWe s)).1
    rw [e, ← Matrix.mulVec_mulVec, Matrix.mulVec_diagonal, Matrix.add_mulVec, Matrix.one_mulVec, ← Matrix.mulVec_mulVec, add_zero]
    rfl
  · funext i
    have hy : ∀ i, CA _ (y i) t := fun i => CA.line (y i) t
    have hp := diagInverse_ca hd h0 hy
    have hVp := CA.matVec (A := fun s => (V s)ᵀ) (Ad := Dual.matT vd) (fun i j => hv j i) hp
    have hs := CA.solve hsm hsdet hVp
    have hWs := CA.matVec hW hs i
    refine CA.unique ((hp i).sub hWs) (CA.solve he hdet hy i) ?_
    filter_upwards [hnear, det_near he hdet] with s hs h1
    rw [(lowRank_inv (fun i => d i s) hs (U s) (V s) (W s) (hWe s)).2.2 h1]
    rfl
  · refine CA.unique ((CA.slogdet hsm hsdet).add (diagLogDet_ca hd h0)) (CA.slogdet he hdet) ?_
    filter_upwards [hnear, det_near hsm hsdet] with s hs h1
    rw [(lowRank_inv (fun i => d i s) hs (U s) (V s) (W s) (hWe s)).2.1, abs_mul, Finset.abs_prod,
      Real.log_mul (Finset.prod_ne_zero_iff.2 fun i _ => abs_ne_zero.2 (hs i)) (abs_ne_zero.2 h1),
      Real.log_prod fun i _ => abs_ne_zero.2 (hs i), add_comm]

end lowRank

end Distrax
