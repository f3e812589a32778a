import Verif.Lemmas.MVN

/-! The KL divergence of the multivariate normal model. -/

namespace Distrax

open Matrix Spec

theorem bin_gen (f : ℝ → ℝ → ℝ) {a b : Arr} {t : List ℕ} (h : broadcastShapes a.shape b.shape = some t) :
    ∃ z, Arr.bin f a b = .ok z ∧ z.shape = t ∧ ∀ i, z.data i = f (a.data (proj a.shape i)) (b.data (proj b.shape i)) :=
  ⟨⟨t, fun i => f (a.data (proj a.shape i)) (b.data (proj b.shape i))⟩, by simp [Arr.bin, h], rfl, fun _ => rfl⟩

theorem expandLast_col (a : Arr) : a.expandLast.col 0 = a := by
  simp [Arr.expandLast, Arr.col]

section
variable {d : MVN} {n : ℕ} {bl p : List ℕ} {M : List ℕ → Matrix (Fin n) (Fin n) ℝ} {f : ArrBij}

theorem MVN.Sound.logAbsDet (h : d.Sound n bl p M f) :
    ∃ l, d.logAbsDet = .ok l ∧ l.shape = p ∧ ∀ i, InRange p i → l.data i = Real.log |(M i).det| := by
  obtain ⟨y, l, -, -, e3, -, sl, hl⟩ := h.good.aff [] p (Arr.zeros [n]) rfl (broadcast_nil_right _)
  refine ⟨l, ?_, sl, fun i hi => ?_⟩
  · rw [MVN.logAbsDet, h.dim, h.good.lin]; exact e3
  · rw [(hl i hi).2 (by rw [proj_self hi]; exact h.good.det i hi), proj_self hi]

/-- `A⁻¹` applied to every column. -/
theorem MVN.Sound.invScale (h : d.Sound n bl p M f) {x : Arr} {b u : List ℕ} {m : ℕ} (hx : x.shape = b ++ [n, m])
    (hu : broadcastShapes p b = some u) :
    ∃ z, d.invScale x = .ok z ∧ z.shape = u ++ [n, m] ∧ ∀ i, InRange u i →
      z.mat n m i = (M (proj p i))⁻¹ * x.mat n m (proj b i) := by
  have hf : ∀ c, ∃ y, f.inverse (x.col c) = .ok y ∧ y.shape = u ++ [n] ∧ ∀ i, InRange u i →
      y.vec n i = (M (proj p i))⁻¹ *ᵥ (x.col c).vec n (proj b i) := by
    intro c
    obtain ⟨y, l, -, e2, -, sy, -, hy⟩ := h.good.sol b u (x.col c) (by simp [Arr.col, hx, dropLast_two]) hu
    refine ⟨y, e2, sy, fun i hi => ?_⟩
    have hd := h.good.det _ (proj_inRange (broadcast_absorb_left hu) hi)
    rw [← (hy i hi hd).1, add_zero, Matrix.mulVec_mulVec, Matrix.nonsing_inv_mul _ (isUnit_iff_ne_zero.2 hd), Matrix.one_mulVec]
  obtain ⟨z, z1, z2, z3⟩ := vmapLast_ok (f := f.inverse) (a := x) (s := b ++ [n]) (m := m) (by simp [hx]) fun c =>
    let ⟨y, y1, y2, _⟩ := hf c; ⟨y, y1, y2⟩
  refine ⟨z, ?_, by simp [z2], fun i hi => ?_⟩
  · rw [MVN.invScale, h.good.lin]; exact z1
  · ext r c
    obtain ⟨y, y1, y2, y3⟩ := hf c
    have e1 := z3 (i ++ [r.val]) c y y1
    have e2 : z.mat n m i r c = z.data (i ++ [r.val] ++ [c.val]) := by simp [Arr.mat]
    rw [e2, e1]
    have e3 := congrFun (y3 i hi) r
    simp only [Arr.vec] at e3
    rw [e3, Matrix.mul_apply, mulVec, dotProduct]
    refine Finset.sum_congr rfl fun k _ => ?_
    simp [Arr.col, Arr.mat, Arr.vec]

end

theorem diag_ratio {n : ℕ} (v w : Fin n → ℝ) :
    ∑ i, ∑ j, ((Matrix.diagonal w)⁻¹ * Matrix.diagonal v) i j ^ 2 = ∑ i, (v i * (Ring.inverse w) i) ^ 2 := by
  rw [Matrix.inv_diagonal, Matrix.diagonal_mul_diagonal]
  refine Finset.sum_congr rfl fun i _ => ?_
  rw [Finset.sum_eq_single i]
  · simp [mul_comm]
  · intro j _ hj; simp [Matrix.diagonal_apply_ne _ hj.symm]
  · simp

variable {d1 d2 : MVN} {n : ℕ} {bl1 p1 bl2 p2 : List ℕ} {M1 M2 : List ℕ → Matrix (Fin n) (Fin n) ℝ} {f1 f2 : ArrBij}

theorem MVN.Sound.kl (h1 : d1.Sound n bl1 p1 M1 f1) (h2 : d2.Sound n bl2 p2 M2 f2) {t : List ℕ}
    (ht : broadcastShapes d1.batch d2.batch = some t) :
    ∃ k, MVN.kl d1 d2 = .ok k ∧ k.shape = t ∧ ∀ i, InRange t i → k.data i =
      gaussKL (d1.loc0.vec n (proj bl1 (proj d1.batch i)))
        (M1 (proj p1 (proj d1.batch i)) * (M1 (proj p1 (proj d1.batch i)))ᵀ)
        (d2.loc0.vec n (proj bl2 (proj d2.batch i)))
        (M2 (proj p2 (proj d2.batch i)) * (M2 (proj p2 (proj d2.batch i)))ᵀ) := by
  have b1t := broadcast_absorb_left ht
  have b2t := broadcast_absorb_right ht
  have p1t := broadcast_trans h1.pIn b1t
  have p2t := broadcast_trans h2.pIn b2t
  obtain ⟨u, hu, hut⟩ := broadcastShapes_join p2 p1 t p2t p1t
  obtain ⟨L1, a1, a2, a3⟩ := h1.logAbsDet
  obtain ⟨L2, c1, c2, c3⟩ := h2.logAbsDet
  obtain ⟨X, hdiff, X2, X3⟩ := bin_gen (· - ·) (a := L2) (b := L1) (by rw [a2, c2]; exact hu)
  -- the first Frobenius norm
  have hF : ∃ B F s, MVN.scaleRatio d1 d2 = .ok B ∧ MVN.sqFrob B = .ok F ∧ F.shape = s ∧ broadcastShapes s t = some t ∧
      ∀ i, InRange t i → F.data (proj s i) = ∑ r, ∑ c, ((M2 (proj p2 i))⁻¹ * M1 (proj p1 i)) r c ^ 2 := by
    unfold MVN.scaleRatio
    by_cases hd : (d1.hasDiag && d2.hasDiag) = true
    · rw [if_pos hd]
      simp only [MVN.hasDiag, Bool.and_eq_true, Option.isSome_iff_exists] at hd
      obtain ⟨⟨g1, hg1⟩, ⟨g2, hg2⟩⟩ := hd
      obtain ⟨q1, q1'⟩ := h1.good.diag g1 hg1
      obtain ⟨q2, q2'⟩ := h2.good.diag g2 hg2
      obtain ⟨s1, s11, s12, s13⟩ := h1.stddev
      obtain ⟨s2, s21, s22, s23⟩ := h2.stddev
      obtain ⟨q, r1, r2, r3⟩ := bin_vec (· / ·) s12 s22 ht
      obtain ⟨F, F1, F2, F3⟩ := sqFrob_ok (x := q.expandLast) (t := t) (m := n) (n := 1) (by simp [Arr.expandLast, r2])
      refine ⟨q.expandLast, F, t, ?_, F1, F2, broadcastShapes_self t, fun i hi => ?_⟩
      · rw [s11, ok_bind, s21, ok_bind, r1, ok_bind]; rfl
      · have i1 := proj_inRange b1t hi
        have i2 := proj_inRange b2t hi
        have e1 : proj p1 (proj d1.batch i) = proj p1 i := proj_proj h1.batch (by rw [hi.length]; exact broadcast_length_le b1t)
        have e2 : proj p2 (proj d2.batch i) = proj p2 i := proj_proj h2.batch (by rw [hi.length]; exact broadcast_length_le b2t)
        have hdet := h2.good.det _ (proj_inRange p2t hi)
        rw [proj_self hi, F3, q1' _ (proj_inRange p1t hi), q2' _ (proj_inRange p2t hi), diag_ratio]
        rw [q2' _ (proj_inRange p2t hi), Matrix.det_diagonal] at hdet
        have hw : ∀ k, g2.vec n (proj p2 i) k ≠ 0 := fun k => Finset.prod_ne_zero_iff.1 hdet k (Finset.mem_univ k)
        refine Finset.sum_congr rfl fun r _ => ?_
        have hr := r3 i hi r
        have v1 := s13 _ i1 r
        have v2 := s23 _ i2 r
        rw [e1, q1' _ (proj_inRange p1t hi), diag_gram, Matrix.diagonal_apply_eq, Real.sqrt_sq_eq_abs] at v1
        rw [e2, q2' _ (proj_inRange p2t hi), diag_gram, Matrix.diagonal_apply_eq, Real.sqrt_sq_eq_abs] at v2
        simp only [Arr.vec] at v1 v2
        have hinv : (Ring.inverse (g2.vec n (proj p2 i))) r = (g2.vec n (proj p2 i) r)⁻¹ := by
          have hun : IsUnit (g2.vec n (proj p2 i)) := Pi.isUnit_iff.2 fun k => isUnit_iff_ne_zero.2 (hw k)
          have := congrFun (Ring.mul_inverse_cancel _ hun) r
          exact eq_inv_of_mul_eq_one_right (by simpa using this)
        rw [hinv]
        simp only [Fin.sum_univ_one, Fin.isValue, Fin.val_zero, Arr.expandLast]
        rw [show (i ++ [r.val, 0]).dropLast = i ++ [r.val] from dropLast_two _ _ _, hr, v1, v2, div_pow, sq_abs, sq_abs,
          mul_pow, inv_pow, div_eq_mul_inv]
        rfl
    · rw [if_neg hd]
      obtain ⟨m1, m2⟩ := h1.matrixArr
      obtain ⟨z, z1, z2, z3⟩ := h2.invScale m1 hu
      obtain ⟨F, F1, F2, F3⟩ := sqFrob_ok z2
      refine ⟨z, F, u, z1, F1, F2, hut, fun i hi => ?_⟩
      have iu := proj_inRange hut hi
      have hl : u.length ≤ i.length := by rw [hi.length]; exact broadcast_length_le hut
      have := z3 _ iu
      rw [m2, proj_proj hu hl, proj_proj (by rw [broadcastShapes_comm]; exact hu) hl] at this
      rw [F3, ← this]
      rfl
  obtain ⟨B, F, s, B1, F1, F2, F3, F4⟩ := hF
  obtain ⟨m1, k1, k2, k3⟩ := h1.locOk
  obtain ⟨m2, l1, l2, l3⟩ := h2.locOk
  obtain ⟨D, D1, D2, D3⟩ := bin_vec (· - ·) l2 k2 (t := t) (by rw [broadcastShapes_comm]; exact ht)
  obtain ⟨z, z1, z2, z3⟩ := h2.invScale (x := D.expandLast) (b := t) (m := 1) (by simp [Arr.expandLast, D2]) p2t
  obtain ⟨G, G1, G2, G3⟩ := sqFrob_ok z2
  obtain ⟨Y, hs, Y2, Y3⟩ := bin_gen (· + ·) (a := F.map fun v => -(n : ℝ) + v) (b := G) (t := t)
    (by rw [G2]; show broadcastShapes F.shape t = _; rw [F2, F3])
  obtain ⟨K, K1, K2, K3⟩ := bin_gen (· + ·) (a := X) (b := Y.map fun v => 0.5 * v) (t := t)
    (by rw [X2]; show broadcastShapes u Y.shape = _; rw [Y2, hut])
  refine ⟨K, ?_, K2, fun i hi => ?_⟩
  · rw [MVN.kl]
    simp only [h1.dim, h2.dim, ne_eq, not_true_eq_false, if_false]
    rw [c1, ok_bind, a1, ok_bind, hdiff, ok_bind, B1, ok_bind, show d2.mean = .ok m2 from l1, ok_bind,
      show d1.mean = .ok m1 from k1, ok_bind, D1, ok_bind, z1, ok_bind, F1, ok_bind, G1, ok_bind, hs, ok_bind]
    exact K1
  · have hl1 : d1.batch.length ≤ i.length := by rw [hi.length]; exact broadcast_length_le b1t
    have hl2 : d2.batch.length ≤ i.length := by rw [hi.length]; exact broadcast_length_le b2t
    have hlu : u.length ≤ i.length := by rw [hi.length]; exact broadcast_length_le hut
    have e1 : proj p1 (proj d1.batch i) = proj p1 i := proj_proj h1.batch hl1
    have e2 : proj p2 (proj d2.batch i) = proj p2 i := proj_proj h2.batch hl2
    have i1 := proj_inRange p1t hi
    have i2 := proj_inRange p2t hi
    rw [e1, e2, gaussKL_scale _ _ _ _ (h1.good.det _ i1) (h2.good.det _ i2)]
    rw [K3, X3]
    simp only [Arr.map]
    rw [Y3, Y2, X2]
    simp only [Arr.map]
    rw [a2, c2, proj_proj hu hlu, proj_proj (b := p2) (by rw [broadcastShapes_comm]; exact hu) hlu, a3 _ i1, c3 _ i2, F2,
      G2]
    have pt : proj t (proj t i) = i := by rw [proj_self hi, proj_self hi]
    rw [pt, proj_self hi, F4 i hi, G3]
    have hz := z3 i hi
    have hsum : ∑ r : Fin n, ∑ c : Fin 1, z.data (i ++ [r.val, c.val]) ^ 2 =
        ∑ r, ((M2 (proj p2 i))⁻¹ *ᵥ (d2.loc0.vec n (proj bl2 (proj d2.batch i)) -
          d1.loc0.vec n (proj bl1 (proj d1.batch i)))) r ^ 2 := by
      refine Finset.sum_congr rfl fun r _ => ?_
      rw [Fin.sum_univ_one]
      have := congrFun (congrFun hz r) 0
      have e3 : z.data (i ++ [r.val, (0 : Fin 1).val]) = z.mat n 1 i r 0 := rfl
      rw [e3, this, Matrix.mul_apply, mulVec, dotProduct]
      congr 1
      refine Finset.sum_congr rfl fun k _ => ?_
      congr 1
      have hD := D3 i hi k
      rw [proj_self hi]
      simp only [Arr.mat, Arr.expandLast]
      rw [show (i ++ [k.val, (0 : Fin 1).val]).dropLast = i ++ [k.val] from dropLast_two _ _ _, hD]
      have q1 := congrFun (l3 _ (proj_inRange b2t hi)) k
      have q2 := congrFun (k3 _ (proj_inRange b1t hi)) k
      simp only [Arr.vec] at q1 q2
      rw [q1, q2]
      rfl
    rw [hsum]
    norm_num

end Distrax
