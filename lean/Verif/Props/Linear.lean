import Verif.Lemmas.Linear
import Mathlib.Analysis.Calculus.FDeriv.Add
import Mathlib.Analysis.Calculus.FDeriv.Linear
import Mathlib.Analysis.Normed.Module.FiniteDimension

/-!
C09 (linear and affine bijectors) and C10 (diagonal plus low rank).
-/

namespace Distrax

open Matrix

/-- The contracts of the external solvers can be met (by the matrix inverse). -/
noncomputable def exactLinAlg : LinAlg where
  solve A b := A⁻¹ *ᵥ b
  solveTri lower A b := (if lower then tril A else triu A)⁻¹ *ᵥ b
  solve_spec A b h := by
    rw [Matrix.mulVec_mulVec, Matrix.mul_nonsing_inv _ (isUnit_iff_ne_zero.2 h), Matrix.one_mulVec]
  solveTri_spec lower A b h := by
    have hd : (if lower then tril A else triu A).det ≠ 0 := by
      cases lower
      · simp only [Bool.false_eq_true, if_false, triu_det]
        exact Finset.prod_ne_zero_iff.2 fun i _ => h i
      · simp only [if_true, tril_det]
        exact Finset.prod_ne_zero_iff.2 fun i _ => h i
    rw [Matrix.mulVec_mulVec, Matrix.mul_nonsing_inv _ (isUnit_iff_ne_zero.2 hd), Matrix.one_mulVec]

/-- `inverse` undoes `forward` on every input (up to broadcasting of the input's batch axes), and the
inverse log-det is minus the forward log-det. -/
def RoundTrips (f : ArrBij) (n : ℕ) (p : List ℕ) : Prop :=
  ∀ (x : Arr) (bx t : List ℕ), x.shape = bx ++ [n] → broadcastShapes p bx = some t →
    ∃ y l x' l', f.fwdLd x = .ok (y, l) ∧ f.invLd y = .ok (x', l') ∧ x'.shape = t ++ [n] ∧
      l'.shape = l.shape ∧
      ∀ i, InRange t i → x'.vec n i = x.vec n (proj bx i) ∧ l'.data i = -l.data i

/-- The log-det reported for the map `x ↦ A x + c` is the log of the absolute determinant of its
Jacobian. -/
theorem C09_log_det_is_log_det_of_jacobian {n : ℕ} (A : Matrix (Fin n) (Fin n) ℝ) (c x : Fin n → ℝ) :
    ∃ J : (Fin n → ℝ) →L[ℝ] (Fin n → ℝ), HasFDerivAt (fun v => A *ᵥ v + c) J x ∧
      Real.log |LinearMap.det (J : (Fin n → ℝ) →ₗ[ℝ] (Fin n → ℝ))| = Real.log |A.det| := by
  refine ⟨LinearMap.toContinuousLinearMap (Matrix.toLin' A), ?_, ?_⟩
  · have h := (LinearMap.toContinuousLinearMap (Matrix.toLin' A)).hasFDerivAt (x := x)
    have h2 := h.add_const c
    exact h2
  · simp

/-- **C09** DiagLinear: multiplication by the diagonal matrix; two-sided solve; log-det. -/
theorem C09_diag_linear (d : Arr) (bd : List ℕ) (n : ℕ) (hd : d.shape = bd ++ [n]) :
    ∃ M f, DiagLinear.mk? d = .ok ⟨n, bd, M, f⟩ ∧ (∀ i, M i = Matrix.diagonal (d.vec n i)) ∧
      IsAffine f n bd M (fun _ => 0) ∧ SolvesAffine f n bd M (fun _ => 0) ∧
      ((∀ j, InRange bd j → ∀ k, d.vec n j k ≠ 0) → RoundTrips f n bd) := by
  obtain ⟨M, f, h1, h2, h3, h4⟩ := diag_facts d bd n hd
  refine ⟨M, f, h1, h2, h3, h4, fun hne x bx t hx ht => roundtrip h3 h4 ?_ x bx t hx ht⟩
  intro j hj
  rw [h2, Matrix.det_diagonal]
  exact Finset.prod_ne_zero_iff.2 fun k _ => hne j hj k

/-- **C09** TriangularLinear: the matrix is the named triangle of the given one (nothing else of it is
used), forward multiplies by it, inverse solves, and the log-det is `log |det|`. -/
theorem C09_triangular_linear (la : LinAlg) (a : Arr) (isLower : Bool) (ba : List ℕ) (n : ℕ)
    (ha : a.shape = ba ++ [n, n]) :
    ∃ M f, TriangularLinear.mk? la a isLower = .ok ⟨n, ba, M, f⟩ ∧
      (∀ i r c, M i r c = if (if isLower then c ≤ r else r ≤ c) then a.data (i ++ [r.val, c.val]) else 0) ∧
      IsAffine f n ba M (fun _ => 0) ∧ SolvesAffine f n ba M (fun _ => 0) ∧
      ((∀ j, InRange ba j → ∀ k : Fin n, a.data (j ++ [k.val, k.val]) ≠ 0) → RoundTrips f n ba) := by
  obtain ⟨M, f, h1, h2, h3, h4⟩ := triangular_facts la a isLower ba n ha
  refine ⟨M, f, h1, ?_, h3, h4, fun hne x bx t hx ht => roundtrip h3 h4 ?_ x bx t hx ht⟩
  · intro i r c
    rw [h2]; cases isLower <;> simp [tril, triu, Arr.mat]
  · intro j hj
    rw [h2]
    cases isLower
    · simp only [Bool.false_eq_true, if_false, triu_det]
      exact Finset.prod_ne_zero_iff.2 fun k _ => hne j hj k
    · simp only [if_true, tril_det]
      exact Finset.prod_ne_zero_iff.2 fun k _ => hne j hj k

/-- **C09** TriangularLinear ignores the other triangle: two matrices agreeing on the named triangle give
objects with the same matrix and the same methods. -/
theorem C09_triangular_uses_only_its_triangle (la : LinAlg) (a a' : Arr) (isLower : Bool) (ba : List ℕ)
    (n : ℕ) (ha : a.shape = ba ++ [n, n]) (ha' : a'.shape = ba ++ [n, n])
    (h : ∀ i (r c : Fin n), (if isLower then c ≤ r else r ≤ c) →
      a.data (i ++ [r.val, c.val]) = a'.data (i ++ [r.val, c.val])) :
    TriangularLinear.mk? la a isLower = TriangularLinear.mk? la a' isLower := by
  obtain ⟨s, d⟩ := a
  obtain ⟨s', d'⟩ := a'
  simp only at ha ha' h
  have hss : s' = s := by rw [ha, ha']
  subst hss
  have e2 : s'.getLastD 0 = n := by rw [ha, getLastD_two]
  unfold TriangularLinear.mk?
  simp only
  generalize s'.getLastD 0 = m at e2
  subst e2
  have hm : ∀ i, (if isLower then tril ((⟨s', d⟩ : Arr).mat m m i) else triu ((⟨s', d⟩ : Arr).mat m m i)) =
      (if isLower then tril ((⟨s', d'⟩ : Arr).mat m m i) else triu ((⟨s', d'⟩ : Arr).mat m m i)) := by
    intro i
    cases isLower
    · ext r c
      simp only [Bool.false_eq_true, if_false, triu, Arr.mat]
      split_ifs with hrc
      · exact h i r c (by simpa using hrc)
      · rfl
    · ext r c
      simp only [if_true, tril, Arr.mat]
      split_ifs with hrc
      · exact h i r c (by simpa using hrc)
      · rfl
  simp only [hm]

/-- **C09** UnconstrainedAffine. -/
theorem C09_unconstrained_affine (la : LinAlg) (a b : Arr) (ba bb p : List ℕ) (n : ℕ)
    (ha : a.shape = ba ++ [n, n]) (hb : b.shape = bb ++ [n]) (hp : broadcastShapes ba bb = some p) :
    ∃ M f c, UnconstrainedAffine.mk? la a b = .ok ⟨⟨n, p, M, f⟩, c⟩ ∧
      (∀ i, M i = a.mat n n (proj ba i)) ∧ (∀ i, c i = b.vec n (proj bb i)) ∧
      IsAffine f n p M c ∧ SolvesAffine f n p M c ∧
      ((∀ j, InRange ba j → (a.mat n n j).det ≠ 0) → RoundTrips f n p) := by
  obtain ⟨M, f, c, h1, h2, h2', h3, h4⟩ := unconstrained_facts la a b ba bb p n ha hb hp
  refine ⟨M, f, c, h1, h2, h2', h3, h4, fun hne x bx t hx ht => roundtrip h3 h4 ?_ x bx t hx ht⟩
  intro j hj
  rw [h2]
  exact hne _ (proj_inRange (broadcast_absorb_left hp) hj)

/-- **C09** LowerUpperTriangularAffine: `A = L U` with `L` unit lower triangular built from the strictly
lower part and `U` the upper part of the given matrix; forward is `A x + b`; inverse solves; the log-det
is `log |det (L U)|` which is the sum of `log |diag U|`. -/
theorem C09_lower_upper_affine (la : LinAlg) (a b : Arr) (ba bb p : List ℕ) (n : ℕ)
    (ha : a.shape = ba ++ [n, n]) (hb : b.shape = bb ++ [n]) (hp : broadcastShapes bb ba = some p) :
    ∃ M f c, LowerUpperTriangularAffine.mk? la a b = .ok ⟨⟨n, p, M, f⟩, c⟩ ∧
      (∀ i, ∃ L U : Matrix (Fin n) (Fin n) ℝ, M i = L * U ∧
        (∀ r c, L r c = if r = c then 1 else if c < r then a.data (proj ba i ++ [r.val, c.val]) else 0) ∧
        (∀ r c, U r c = if r ≤ c then a.data (proj ba i ++ [r.val, c.val]) else 0) ∧
        (M i).det = ∏ k : Fin n, a.data (proj ba i ++ [k.val, k.val])) ∧
      (∀ i, c i = b.vec n (proj bb i)) ∧
      IsAffine f n p M c ∧ SolvesAffine f n p M c ∧
      ((∀ j, InRange ba j → ∀ k : Fin n, a.data (j ++ [k.val, k.val]) ≠ 0) → RoundTrips f n p) := by
  obtain ⟨M, f, c, h1, h2, h2', h3, h4⟩ := lu_facts la a b ba bb p n ha hb hp
  have hdet : ∀ i, (M i).det = ∏ k : Fin n, a.data (proj ba i ++ [k.val, k.val]) := by
    intro i
    rw [h2, Matrix.det_mul, tril_det, triu_det]
    have : ∏ k : Fin n, (unitLower a).mat n n (proj ba i) k k = 1 := by
      apply Finset.prod_eq_one
      intro k _
      simp [Arr.mat, unitLower, List.getLastD_eq_getLast?, dropLast_two]
    rw [this, one_mul]
    rfl
  refine ⟨M, f, c, h1, ?_, h2', h3, h4, fun hne x bx t hx ht => roundtrip h3 h4 ?_ x bx t hx ht⟩
  · intro i
    refine ⟨_, _, h2 i, ?_, fun r c => rfl, hdet i⟩
    intro r c
    simp only [tril, Arr.mat, unitLower, dropLast_two, getLastD_two, getLastD_one]
    rcases lt_trichotomy r c with h | h | h
    · have h' : ¬ c ≤ r := not_le.2 h
      simp [h', h.ne, not_lt.2 h.le]
    · subst h; simp
    · have h' : (r : ℕ) ≠ c := fun e => h.ne' (Fin.ext e)
      simp [h, h.le, h.ne', h']
  · intro j hj
    rw [hdet]
    exact Finset.prod_ne_zero_iff.2 fun k _ => hne _ (proj_inRange (broadcast_absorb_right hp) hj) k

/-- **C09** LowerUpperTriangularAffine built from identity matrices and zero biases is the identity map
with log-det zero. -/
theorem C09_lower_upper_identity (la : LinAlg) (a b : Arr) (ba bb p : List ℕ) (n : ℕ)
    (ha : a.shape = ba ++ [n, n]) (hb : b.shape = bb ++ [n]) (hp : broadcastShapes bb ba = some p)
    (hI : ∀ j, InRange ba j → ∀ r c : Fin n, a.data (j ++ [r.val, c.val]) = if r = c then 1 else 0)
    (h0 : ∀ j, InRange bb j → ∀ k : Fin n, b.data (j ++ [k.val]) = 0) :
    ∃ o, LowerUpperTriangularAffine.mk? la a b = .ok o ∧
      ∀ (x : Arr) (bx t : List ℕ), x.shape = bx ++ [n] → broadcastShapes p bx = some t →
        ∃ y l, o.bij.fwdLd x = .ok (y, l) ∧ y.shape = t ++ [n] ∧ l.shape = t ∧
          ∀ i, InRange t i → y.vec n i = x.vec n (proj bx i) ∧ l.data i = 0 := by
  obtain ⟨M, f, c, h1, h2, h2', h3, -, -⟩ := C09_lower_upper_affine la a b ba bb p n ha hb hp
  refine ⟨_, h1, fun x bx t hx ht => ?_⟩
  obtain ⟨y, l, e1, -, -, sy, sl, hy⟩ := h3 bx t x hx ht
  refine ⟨y, l, e1, sy, sl, fun i hi => ?_⟩
  have hr : InRange p (proj p i) := proj_inRange (broadcast_absorb_left ht) hi
  have hra : InRange ba (proj ba (proj p i)) := proj_inRange (broadcast_absorb_right hp) hr
  have hrb : InRange bb (proj bb (proj p i)) := proj_inRange (broadcast_absorb_left hp) hr
  have hM : M (proj p i) = 1 := by
    obtain ⟨L, U, e, hL, hU, -⟩ := h2 (proj p i)
    have l1 : L = 1 := by
      ext r c; rw [hL, hI _ hra, Matrix.one_apply]
      split_ifs <;> rfl
    have u1 : U = 1 := by
      ext r c; rw [hU, hI _ hra, Matrix.one_apply]
      split_ifs with h h' h' <;> try rfl
      subst h'; exact absurd le_rfl h
    rw [e, l1, u1, one_mul]
  have hc : c (proj p i) = 0 := by
    rw [h2']; funext k; exact h0 _ hrb k
  obtain ⟨v, d⟩ := hy i hi
  rw [hM] at v d
  refine ⟨by rw [v, hc]; simp, by rw [d (by simp)]; simp⟩

/-- **C09** Constructor checks: wrong ranks or non-square matrices or mismatching bias raise. -/
theorem C09_constructor_checks (la : LinAlg) (a b : Arr) (isLower : Bool) :
    (b.shape.length < 1 → DiagLinear.mk? b = .error .valueError) ∧
    (a.shape.length < 2 → TriangularLinear.mk? la a isLower = .error .valueError) ∧
    (∀ ba m n, a.shape = ba ++ [m, n] → m ≠ n →
      TriangularLinear.mk? la a isLower = .error .valueError ∧
      UnconstrainedAffine.mk? la a b = .error .valueError ∧
      LowerUpperTriangularAffine.mk? la a b = .error .valueError) ∧
    ((a.shape.length < 2 ∨ b.shape.length < 1) → UnconstrainedAffine.mk? la a b = .error .valueError ∧
      LowerUpperTriangularAffine.mk? la a b = .error .valueError) ∧
    (∀ ba bb n m, a.shape = ba ++ [n, n] → b.shape = bb ++ [m] → n ≠ m →
      UnconstrainedAffine.mk? la a b = .error .valueError ∧
      LowerUpperTriangularAffine.mk? la a b = .error .valueError) := by
  have hAff : checkAffine a.shape b.shape = .error .valueError →
      UnconstrainedAffine.mk? la a b = .error .valueError ∧
      LowerUpperTriangularAffine.mk? la a b = .error .valueError := by
    intro h
    simp [UnconstrainedAffine.mk?, LowerUpperTriangularAffine.mk?, h, bind, Except.bind]
  refine ⟨fun h => by rw [DiagLinear.mk?, if_pos h], fun h => by simp [TriangularLinear.mk?, h], ?_, ?_, ?_⟩
  · intro ba m n hs hmn
    refine ⟨?_, hAff ?_⟩
    · simp only [TriangularLinear.mk?, hs, getLastD_two, dropLast_two, getLastD_one]
      simp [hmn]
    · simp only [checkAffine, hs, getLastD_two, dropLast_two, getLastD_one]
      split_ifs <;> simp_all
  · intro h
    apply hAff
    simp only [checkAffine]
    split_ifs <;> simp_all
  · intro ba bb n m hs hb hnm
    apply hAff
    simp only [checkAffine, hs, hb, getLastD_two, dropLast_two, getLastD_one]
    split_ifs <;> simp_all

/-- **C10** DiagPlusLowRankLinear: acts as multiplication by `diag(d) + U Vᵀ`; the log-det computed from the
`k × k` matrix is `log |det|` of the dense one; the inverse (Woodbury) solves the dense system. -/
theorem C10_diag_plus_low_rank (la : LinAlg) (d u v : Arr) (bd bu bv b1 p : List ℕ) (n k : ℕ)
    (hd : d.shape = bd ++ [n]) (hu : u.shape = bu ++ [n, k]) (hv : v.shape = bv ++ [n, k])
    (h1 : broadcastShapes bd bu = some b1) (hp : broadcastShapes b1 bv = some p)
    (hne : ∀ j, InRange bd j → ∀ r, d.vec n j r ≠ 0) :
    ∃ M f, DiagPlusLowRankLinear.mk? la d u v = .ok ⟨n, p, M, f⟩ ∧
      (∀ i, M i = Matrix.diagonal (d.vec n (proj bd i)) +
        u.mat n k (proj bu i) * (v.mat n k (proj bv i))ᵀ) ∧
      IsAffine f n p M (fun _ => 0) ∧ SolvesAffine f n p M (fun _ => 0) ∧
      ((∀ j, InRange p j → (M j).det ≠ 0) → RoundTrips f n p) := by
  obtain ⟨M, f, q1, q2, q3, q4⟩ := lowRank_facts la d u v bd bu bv b1 p n k hd hu hv h1 hp hne
  exact ⟨M, f, q1, q2, q3, q4, fun h x bx t hx ht => roundtrip q3 q4 h x bx t hx ht⟩

/-- **C10** The dense matrix is invertible exactly when the small capacitance matrix is. -/
theorem C10_invertible_iff_capacitance {n k : ℕ} (d : Fin n → ℝ) (U V : Matrix (Fin n) (Fin k) ℝ)
    (hd : ∀ i, d i ≠ 0) :
    (Matrix.diagonal d + U * Vᵀ).det =
      (∏ i, d i) * (1 + Vᵀ * (Matrix.of fun i j => U i j / d i)).det ∧
    ((Matrix.diagonal d + U * Vᵀ).det ≠ 0 ↔
      (1 + Vᵀ * (Matrix.of fun i j => U i j / d i)).det ≠ 0) := by
  have h : Matrix.diagonal d + U * Vᵀ =
      Matrix.diagonal d * (1 + (Matrix.of fun i j => U i j / d i) * Vᵀ) := by
    rw [Matrix.mul_add, Matrix.mul_one, ← Matrix.mul_assoc]
    congr 2
    ext i j
    rw [Matrix.diagonal_mul]
    simp [mul_div_cancel₀ _ (hd i)]
  have hdet : (Matrix.diagonal d + U * Vᵀ).det =
      (∏ i, d i) * (1 + Vᵀ * (Matrix.of fun i j => U i j / d i)).det := by
    rw [h, Matrix.det_mul, Matrix.det_diagonal, Matrix.det_one_add_mul_comm]
  refine ⟨hdet, ?_⟩
  rw [hdet]
  have : (∏ i, d i) ≠ 0 := Finset.prod_ne_zero_iff.2 fun i _ => hd i
  simp [this]

/-- **C10** Constructor checks of DiagPlusLowRankLinear. -/
theorem C10_constructor_checks (la : LinAlg) (d u v : Arr) :
    ((d.shape.length < 1 ∨ u.shape.length < 2 ∨ v.shape.length < 2) →
      DiagPlusLowRankLinear.mk? la d u v = .error .valueError) ∧
    (∀ bd bu bv n m k m' k', d.shape = bd ++ [n] → u.shape = bu ++ [m, k] → v.shape = bv ++ [m', k'] →
      (m ≠ n ∨ m ≠ m' ∨ k ≠ k') → DiagPlusLowRankLinear.mk? la d u v = .error .valueError) := by
  have h : checkLowRank d.shape u.shape v.shape = .error .valueError →
      DiagPlusLowRankLinear.mk? la d u v = .error .valueError := by
    intro h; simp [DiagPlusLowRankLinear.mk?, h, bind, Except.bind]
  constructor
  · intro hh
    apply h
    simp only [checkLowRank]
    split_ifs <;> simp_all
  · intro bd bu bv n m k m' k' e1 e2 e3 hh
    apply h
    simp only [checkLowRank, e1, e2, e3, getLastD_two, dropLast_two, getLastD_one]
    split_ifs <;> simp_all

/-! ### The hypotheses are met by concrete objects -/

/-- A batch of two 2×2 matrices, `[[1, 2], [3, 4]]` and `[[2, 2], [3, 4]]`. -/
def exMat : Arr := ⟨[2, 2, 2], fun i => match i with
  | [b, 0, 0] => 1 + b
  | [_, 0, 1] => 2
  | [_, 1, 0] => 3
  | [_, 1, 1] => 4
  | _ => 0⟩

/-- Bias `[5, 6]`. -/
def exBias : Arr := ⟨[2], fun i => match i with
  | [0] => 5
  | [1] => 6
  | _ => 0⟩

example : ∃ M f c, UnconstrainedAffine.mk? exactLinAlg exMat exBias = .ok ⟨⟨2, [2], M, f⟩, c⟩ ∧
    ∃ y l, f.fwdLd ⟨[2], fun i => if i = [0] then 1 else -1⟩ = .ok (y, l) ∧ y.shape = [2, 2] ∧
      y.vec 2 [1] = ![5, 5] ∧ l.data [1] = Real.log 2 := by
  obtain ⟨M, f, c, h1, h2, h3, h4, h5, h6⟩ :=
    C09_unconstrained_affine exactLinAlg exMat exBias [2] [] [2] 2 rfl rfl (by decide)
  refine ⟨M, f, c, h1, ?_⟩
  obtain ⟨y, l, e1, -, -, sy, sl, hy⟩ := h4 [] [2] ⟨[2], fun i => if i = [0] then 1 else -1⟩ rfl (by decide)
  refine ⟨y, l, e1, sy, ?_⟩
  have hi : InRange [2] [1] := by simp [InRange]
  obtain ⟨v, d⟩ := hy [1] hi
  have hp : proj [2] [1] = [1] := by decide
  have hM : M [1] = !![2, 2; 3, 4] := by
    rw [h2, hp]; ext r c; fin_cases r <;> fin_cases c <;> simp [Arr.mat, exMat]
    norm_num
  have hdet : (M [1]).det = 2 := by rw [hM, Matrix.det_fin_two_of]; norm_num
  rw [hp] at v d
  constructor
  · rw [v, hM, h3]
    ext k
    fin_cases k <;> simp [Arr.vec, exBias, Matrix.mulVec, dotProduct, Fin.sum_univ_two, proj]
    norm_num
  · rw [d (by rw [hdet]; norm_num), hdet]; norm_num

/-- Low-rank example: `diag(2,2) + u vᵀ` with `u = v = (1, 0)ᵀ`. -/
example : ∃ M f, DiagPlusLowRankLinear.mk? exactLinAlg ⟨[2], fun _ => 2⟩
      ⟨[2, 1], fun i => if i = [0, 0] then 1 else 0⟩ ⟨[2, 1], fun i => if i = [0, 0] then 1 else 0⟩ =
      .ok ⟨2, [], M, f⟩ ∧ (M []).det = 6 ∧ RoundTrips f 2 [] := by
  obtain ⟨M, f, h1, h2, -, -, h3⟩ := C10_diag_plus_low_rank exactLinAlg ⟨[2], fun _ => 2⟩
    ⟨[2, 1], fun i => if i = [0, 0] then 1 else 0⟩ ⟨[2, 1], fun i => if i = [0, 0] then 1 else 0⟩
    [] [] [] [] [] 2 1 rfl rfl rfl (by decide) (by decide) (by intro j _ r; simp [Arr.vec])
  have hM : M [] = !![3, 0; 0, 2] := by
    rw [h2]; ext r c
    fin_cases r <;> fin_cases c <;>
      simp [Arr.mat, Arr.vec, proj, Matrix.mul_apply]
    norm_num
  have hdet : (M []).det = 6 := by rw [hM, Matrix.det_fin_two_of]; norm_num
  refine ⟨M, f, h1, hdet, h3 ?_⟩
  intro j hj
  have : j = [] := by cases hj; rfl
  subst this; rw [hdet]; norm_num

end Distrax
