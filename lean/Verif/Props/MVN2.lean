import Verif.Props.MVN
import Verif.Props.Clipped
import Verif.Spec.Cholesky
import Mathlib.Analysis.Matrix.LDL
import Mathlib.MeasureTheory.Integral.Pi

/-! **C37** Multivariate normals: full covariance, diagonal plus low rank, rejection, agreement, CDF. -/

namespace Distrax

open Matrix Spec MeasureTheory

variable {d d1 d2 : MVN} {n : ℕ} {batch : List ℕ}

/-- A Cholesky factor exists for every positive definite matrix. -/
theorem cholesky_exists (A : Matrix (Fin n) (Fin n) ℝ) (h : A.PosDef) :
    ∃ L : Matrix (Fin n) (Fin n) ℝ, (∀ r k, r < k → L r k = 0) ∧ (∀ k, 0 < L k k) ∧ L * Lᵀ = A := by
  have hinv := LDL.invertibleLowerInv h
  have hbt : BlockTriangular (LDL.lowerInv h) OrderDual.toDual := fun i j hij => LDL.lowerInv_triangular h (by simpa using hij)
  have hlow : BlockTriangular (LDL.lower h) OrderDual.toDual := blockTriangular_inv_of_blockTriangular hbt
  have hz : ∀ r k, r < k → LDL.lower h r k = 0 := fun r k hk => hlow (by simpa using hk)
  have hdet : (LDL.lower h).det ≠ 0 := by
    have : IsUnit (LDL.lowerInv h).det := (Matrix.isUnit_iff_isUnit_det _).1 (isUnit_of_invertible _)
    rw [LDL.lower]; exact (Matrix.isUnit_nonsing_inv_det _ this).ne_zero
  have hdiag : ∀ k, LDL.lower h k k ≠ 0 := by
    rw [Matrix.det_of_lowerTriangular _ hlow] at hdet
    exact fun k => Finset.prod_ne_zero_iff.1 hdet k (Finset.mem_univ _)
  have hpos : ∀ k, 0 < LDL.diagEntries h k := by
    intro k
    have hne : LDL.lowerInv h k ≠ 0 := by
      intro h0
      have : IsUnit (LDL.lowerInv h).det := (Matrix.isUnit_iff_isUnit_det _).1 (isUnit_of_invertible _)
      exact this.ne_zero (Matrix.det_eq_zero_of_row_eq_zero k fun j => congrFun h0 j)
    have h1 := h.dotProduct_mulVec_pos hne
    have h2 : LDL.diag h k k = LDL.diagEntries h k := by simp [LDL.diag]
    rw [← h2, LDL.diag_eq_lowerInv_conj, Matrix.mul_assoc, Matrix.mul_apply']
    have h3 : (LDL.lowerInv h k ⬝ᵥ fun j => (A * (LDL.lowerInv h)ᴴ) j k) =
        star (LDL.lowerInv h k) ⬝ᵥ A *ᵥ LDL.lowerInv h k := by
      simp [dotProduct, mulVec, Matrix.mul_apply]
    exact h3 ▸ h1
  refine ⟨LDL.lower h * diagonal fun k => Real.sqrt (LDL.diagEntries h k) * SignType.sign (LDL.lower h k k), ?_, ?_, ?_⟩
  · intro r k hk
    rw [Matrix.mul_diagonal, hz r k hk, zero_mul]
  · intro k
    rw [Matrix.mul_diagonal]
    have : 0 < LDL.lower h k k * (SignType.sign (LDL.lower h k k) : ℝ) := by
      rw [self_mul_sign]; exact abs_pos.2 (hdiag k)
    have h3 := Real.sqrt_pos.2 (hpos k)
    calc 0 < Real.sqrt (LDL.diagEntries h k) * (LDL.lower h k k * (SignType.sign (LDL.lower h k k) : ℝ)) := mul_pos h3 this
      _ = _ := by ring
  · rw [Matrix.transpose_mul, Matrix.diagonal_transpose, Matrix.mul_assoc, ← Matrix.mul_assoc (diagonal _),
      Matrix.diagonal_mul_diagonal, ← Matrix.mul_assoc]
    have : (fun k => Real.sqrt (LDL.diagEntries h k) * (SignType.sign (LDL.lower h k k) : ℝ) *
        (Real.sqrt (LDL.diagEntries h k) * (SignType.sign (LDL.lower h k k) : ℝ))) = LDL.diagEntries h := by
      funext k
      have h4 : (SignType.sign (LDL.lower h k k) : ℝ) * (SignType.sign (LDL.lower h k k) : ℝ) = 1 := by
        rcases lt_or_gt_of_ne (hdiag k) with hk | hk
        · rw [sign_neg hk]; simp
        · rw [sign_pos hk]; simp
      have h5 := Real.mul_self_sqrt (hpos k).le
      calc _ = (Real.sqrt (LDL.diagEntries h k) * Real.sqrt (LDL.diagEntries h k)) *
          ((SignType.sign (LDL.lower h k k) : ℝ) * (SignType.sign (LDL.lower h k k) : ℝ)) := by ring
        _ = _ := by rw [h4, h5, mul_one]
    rw [this]
    exact LDL.lower_conj_diag h

open Classical in
/-- So the contract of `jnp.linalg.cholesky` can be met. -/
theorem choleskyContract_inhabited : ∃ chol, CholeskyContract chol := by
  let F : ∀ (n : ℕ) (A : Matrix (Fin n) (Fin n) ℝ), Matrix (Fin n) (Fin n) ℝ := fun n A =>
    if h : A.PosDef then (cholesky_exists A h).choose else 0
  refine ⟨fun c => Arr.ofMat (c.shape.getLastD 0) (c.shape.getLastD 0) c.shape.dropLast.dropLast
    fun i => F _ (c.mat _ _ i), fun c bs n hc => ?_⟩
  beta_reduce
  have e1 : c.shape.getLastD 0 = n := by rw [hc]; exact getLastD_two ..
  have e2 : c.shape.dropLast.dropLast = bs := by rw [hc, dropLast_two, List.dropLast_concat]
  generalize c.shape.getLastD 0 = m at e1 ⊢
  generalize c.shape.dropLast.dropLast = bs' at e2 ⊢
  subst e1; subst e2
  refine ⟨rfl, fun j hj hp => ?_⟩
  rw [ofMat_mat]
  have : F m (c.mat m m j) = (cholesky_exists _ hp).choose := dif_pos hp
  rw [this]
  exact (cholesky_exists _ hp).choose_spec

/-- **Full covariance variant.**  For positive definite `C` (identity by default): `N(loc, C)`; in particular
`covariance()` returns the given matrix. -/
theorem C37_full_covariance (la : LinAlg) (chol : Arr → Arr) (hch : CholeskyContract chol) (loc cov : Option Arr)
    (bl bs t : List ℕ) (hsome : loc.isSome ∨ cov.isSome) (hl : OptShape loc bl [n]) (hs : OptShape cov bs [n, n])
    (ht : broadcastShapes bl bs = some t) (hpd : ∀ c, cov = some c → ∀ j, InRange bs j → (c.mat n n j).PosDef) :
    ∃ d, MVNFullCov.mk? la chol loc cov = .ok d ∧
      Represents d n t (optVec n bl loc 0) (fun i => match cov with
        | some c => c.mat n n (proj bs i)
        | none => 1) := by
  have blt := broadcast_absorb_left ht
  have bst := broadcast_absorb_right ht
  cases cov with
  | some c =>
    have hc : c.shape = bs ++ [n, n] := hs
    obtain ⟨k1, k2⟩ := hch c bs n hc
    obtain ⟨l, hll, hL, hoL⟩ : ∃ l : Arr, l.shape = bl ++ [n] ∧
        (MVNFullCov.mk? la chol loc (some c) = (do
          MVNTri.check loc (some c)
          let d ← MVNTri.mk? la (some l) (some (chol c)) true
          pure { d with covM := some c })) ∧ ∀ i, l.vec n (proj bl i) = optVec n bl loc 0 i := by
      cases loc with
      | some l => exact ⟨l, hl, rfl, fun i => rfl⟩
      | none =>
        have hl' : bl = [] := hl
        subst hl'
        refine ⟨Arr.zeros [n], rfl, ?_, fun i => rfl⟩
        rw [MVNFullCov.mk?]
        simp only [pure, Except.pure, hc, getLastD_two]
        rfl
    obtain ⟨d, h1, h2, h3, h4, f, h5⟩ := tri_core la l (chol c) true bl bs t hll k1 ht
      (fun j hj k => ((k2 j hj (hpd c rfl j hj)).2.1 k).ne')
    have htri : ∀ j, InRange bs j → triPart true ((chol c).mat n n j) = (chol c).mat n n j := by
      intro j hj
      ext r k
      simp only [triPart, if_true]
      by_cases hk : k ≤ r
      · rw [if_pos hk]
      · rw [if_neg hk, (k2 j hj (hpd c rfl j hj)).1 r k (lt_of_not_ge hk)]
    have hgram : ∀ i, InRange t i → triPart true ((chol c).mat n n (proj bs i)) *
        (triPart true ((chol c).mat n n (proj bs i)))ᵀ = c.mat n n (proj bs i) := by
      intro i hi
      have hj := proj_inRange bst hi
      rw [htri _ hj, (k2 _ hj (hpd c rfl _ hj)).2.2]
    refine ⟨{ d with covM := some c }, ?_, bl, bs, _, f, ⟨h5.loc, h5.good, h5.batch, h5.bij, ?_⟩, h3, fun i hi => ⟨?_, ?_⟩⟩
    · have hck : MVNTri.check loc (some c) = .ok () := by
        cases loc with
        | none => simp [MVNTri.check, hc]
        | some l' =>
          have hl' : l'.shape = bl ++ [n] := hl
          simp [MVNTri.check, hc, hl']
      rw [hL, hck, ok_bind, h1, ok_bind]; rfl
    · intro c' hc'
      injection hc' with hc'
      subst hc'
      refine ⟨bs, hc, by show broadcastShapes bs d.batch = some d.batch; rw [h3]; exact bst, fun i hi => ?_⟩
      exact (hgram i (by rw [← h3]; exact hi)).symm
    · show _ = d.loc0.vec n (proj bl i)
      rw [h4, hoL]
    · exact (hgram i hi).symm
  | none =>
    have hs' : bs = [] := hs
    subst hs'
    cases loc with
    | none => simp at hsome
    | some l =>
      have hll : l.shape = bl ++ [n] := hl
      obtain ⟨d, h1, h2, bl', p, M, f, h5, h6, h7⟩ := C37_tri la (some l) none true bl [] t (Or.inl rfl) hl rfl ht (by intro s hs; cases hs)
      refine ⟨{ d with covM := some (Arr.eye n) }, ?_, bl', p, M, f, ⟨h5.loc, h5.good, h5.batch, h5.bij, ?_⟩, h6, h7⟩
      · have hck : MVNTri.check (some l) none = .ok () := by simp [MVNTri.check, hll]
        rw [MVNFullCov.mk?, hck, ok_bind]
        simp only [pure, Except.pure]
        rw [ok_bind, h1, ok_bind, hll, getLastD_snoc]
      · intro c hc
        injection hc with hc
        subst hc
        refine ⟨[], rfl, by rw [broadcastShapes_comm]; exact broadcast_nil_right _, fun i hi => ?_⟩
        have := (h7 i (by rw [← h6]; exact hi)).2
        rw [← this]
        ext r k
        have e : proj [] i = [] := by simp [proj]
        simp only [Arr.mat, Arr.eye, e, List.nil_append, List.getD_cons_zero, List.getD_cons_succ, Matrix.one_apply, Fin.ext_iff]

/-- **Diagonal plus low rank variant.**  `S = diag(D) + U Vᵀ` with `D` ones, `U` zeros, `V = U` by default; `N(loc, S Sᵀ)`. -/
theorem C37_low_rank (la : LinAlg) (loc sd su sv : Option Arr) (k : ℕ) (bl bd bu bv b1 p t : List ℕ) (hk : 0 < k)
    (hsome : loc.isSome ∨ sd.isSome ∨ su.isSome) (huv : sv.isSome → su.isSome)
    (hl : OptShape loc bl [n]) (hd : OptShape sd bd [n]) (hu : OptShape su bu [n, k])
    (hv : OptShape (sv.or su) bv [n, k])
    (h1 : broadcastShapes bd bu = some b1) (hp : broadcastShapes b1 bv = some p) (ht : broadcastShapes p bl = some t)
    (hnz : ∀ i, InRange bd i → ∀ r, optVec n bd sd 1 i r ≠ 0)
    (S : List ℕ → Matrix (Fin n) (Fin n) ℝ)
    (hS : ∀ i, S i = diagonal (optVec n bd sd 1 i) + match su, sv.or su with
      | some u, some v => u.mat n k (proj bu i) * (v.mat n k (proj bv i))ᵀ
      | _, _ => 0)
    (hdet : ∀ i, InRange p i → (S i).det ≠ 0) :
    ∃ d, MVNLowRank.mk? la loc sd su sv = .ok d ∧ Represents d n t (optVec n bl loc 0) (fun i => S i * (S i)ᵀ) := by
  have hcheck : MVNLowRank.check loc sd su sv = .ok () := by
    clear hS hdet hnz h1 hp ht
    cases loc <;> cases sd <;> cases su <;> cases sv <;>
      simp only [OptShape, Option.isSome_none, Option.isSome_some, Option.none_or, Option.some_or, Bool.false_eq_true,
        or_self, or_false, false_or, or_true, true_or, imp_false, not_true_eq_false, false_implies, implies_true] at * <;>
      simp [MVNLowRank.check, *] <;> omega
  obtain ⟨l, hll, hlv, hlD⟩ : ∃ l : Arr, l.shape = bl ++ [n] ∧ (∀ i, l.vec n (proj bl i) = optVec n bl loc 0 i) ∧
      l = loc.getD (Arr.zeros [n]) := by
    cases loc with
    | some l => exact ⟨l, hl, fun i => rfl, rfl⟩
    | none =>
      have hl' : bl = [] := hl
      subst hl'
      exact ⟨Arr.zeros [n], rfl, fun i => rfl, rfl⟩
  obtain ⟨dg, hdd, hdv, hdD⟩ : ∃ l : Arr, l.shape = bd ++ [n] ∧ (∀ i, l.vec n (proj bd i) = optVec n bd sd 1 i) ∧
      l = sd.getD (Arr.ones [n]) := by
    cases sd with
    | some l => exact ⟨l, hd, fun i => rfl, rfl⟩
    | none =>
      have hl' : bd = [] := hd
      subst hl'
      exact ⟨Arr.ones [n], rfl, fun i => rfl, rfl⟩
  have hnum : MVNLowRank.numDims loc sd su = .ok n := by
    cases loc with
    | some l => have : l.shape = bl ++ [n] := hl; simp [MVNLowRank.numDims, this]
    | none =>
      cases sd with
      | some l => have : l.shape = bd ++ [n] := hd; simp [MVNLowRank.numDims, this]
      | none =>
        cases su with
        | some l => have : l.shape = bu ++ [n, k] := hu; simp [MVNLowRank.numDims, this]
        | none => simp at hsome
  have hnz' : ∀ j, InRange bd j → ∀ r, dg.vec n j r ≠ 0 := by
    intro j hj r
    have := hnz j hj r
    rwa [← hdv, proj_self hj] at this
  have hgood : ∃ sc M f, MVNLowRank.scale la dg su sv = .ok sc ∧ GoodScale sc n p M f ∧ ∀ i, InRange p i → M i = S i := by
    cases su with
    | none =>
      have hbu : bu = [] := hu
      have hsv : sv = none := by
        cases sv with
        | none => rfl
        | some v => exact absurd (huv rfl) (by simp)
      subst hbu; subst hsv
      have hbv : bv = [] := hv
      subst hbv
      rw [broadcast_nil_right] at h1; cases h1
      rw [broadcast_nil_right] at hp; cases hp
      obtain ⟨s, f, g1, g2⟩ := ofDiag_good hdd hnz'
      refine ⟨s, _, f, g1, g2, fun i hi => ?_⟩
      rw [hS, ← hdv, proj_self hi]; simp
    | some u =>
      have hu' : u.shape = bu ++ [n, k] := hu
      obtain ⟨v, hv1, hv2, hv3⟩ : ∃ v, sv.getD u = v ∧ v.shape = bv ++ [n, k] ∧ sv.or (some u) = some v := by
        cases sv with
        | none => exact ⟨u, rfl, hv, rfl⟩
        | some v => exact ⟨v, rfl, hv, rfl⟩
      obtain ⟨M, f, g1, g2, g3, g4⟩ := lowRank_facts la dg u v bd bu bv b1 p n k hdd hu' hv2 h1 hp hnz'
      have hMS : ∀ i, M i = S i := by
        intro i
        rw [g2, hS, hdv, hv3]
      refine ⟨⟨⟨n, p, M, f⟩, none⟩, M, f, ?_, ⟨rfl, g3, g4, fun d hd => (by cases hd), fun j hj => ?_⟩, fun i _ => hMS i⟩
      · show (DiagPlusLowRankLinear.mk? la dg u (sv.getD u) >>= _) = _
        rw [hv1, g1, ok_bind]; rfl
      · rw [hMS]; exact hdet j hj
  obtain ⟨sc, M, f, g1, g2, g3⟩ := hgood
  obtain ⟨d, d1, d2, d3, -, d5⟩ := mk_sound hll g2 ht
  refine ⟨d, ?_, _, _, _, _, d5, d2, fun i hi => ⟨?_, ?_⟩⟩
  · rw [MVNLowRank.mk?, hcheck, ok_bind, hnum, ok_bind]
    rw [← hlD, ← hdD, g1, ok_bind]
    exact d1
  · rw [d3, hlv]
  · have hj := proj_inRange (broadcast_absorb_left ht) hi
    rw [g3 _ hj]
    have hSp : S (proj p i) = S i := by
      have hb1p := broadcast_absorb_left hp
      have hbd := broadcast_trans (broadcast_absorb_left h1) hb1p
      have hbu := broadcast_trans (broadcast_absorb_right h1) hb1p
      have hbv := broadcast_absorb_right hp
      have hle : p.length ≤ i.length := by
        rw [hi.length]; exact broadcast_length_le (broadcast_absorb_left ht)
      have hov : optVec n bd sd 1 (proj p i) = optVec n bd sd 1 i := by
        funext r; simp only [optVec, proj_proj hbd hle]
      rw [hS, hS, hov, proj_proj hbu hle, proj_proj hbv hle]
    rw [hSp]

/-- **Variants agree.**  Two objects, however they were built, that represent the same means and covariances give the same
`log_prob`, `mean`, `covariance`, `variance`, `stddev` and `entropy` at every batch entry. -/
theorem C37_variants_agree {b : List ℕ → Fin n → ℝ} {C : List ℕ → Matrix (Fin n) (Fin n) ℝ}
    (h1 : Represents d1 n batch b C) (h2 : Represents d2 n batch b C) :
    (∀ (x : Arr) (bx t : List ℕ), x.shape = bx ++ [n] → broadcastShapes batch bx = some t →
      ∃ l1 l2, d1.logProb x = .ok l1 ∧ d2.logProb x = .ok l2 ∧ l1.shape = l2.shape ∧
        ∀ i, InRange t i → l1.data i = l2.data i) ∧
    (∃ c1 c2, d1.covariance = .ok c1 ∧ d2.covariance = .ok c2 ∧ c1.shape = c2.shape ∧
        ∀ i, InRange batch i → c1.mat n n i = c2.mat n n i) ∧
    (∃ c1 c2, d1.mean = .ok c1 ∧ d2.mean = .ok c2 ∧ c1.shape = c2.shape ∧
        ∀ i, InRange batch i → c1.vec n i = c2.vec n i) ∧
    (∃ c1 c2, d1.variance = .ok c1 ∧ d2.variance = .ok c2 ∧ c1.shape = c2.shape ∧
        ∀ i, InRange batch i → c1.vec n i = c2.vec n i) ∧
    (∃ c1 c2, d1.stddev = .ok c1 ∧ d2.stddev = .ok c2 ∧ c1.shape = c2.shape ∧
        ∀ i, InRange batch i → c1.vec n i = c2.vec n i) ∧
    (∃ c1 c2, d1.entropy = .ok c1 ∧ d2.entropy = .ok c2 ∧ c1.shape = c2.shape ∧
        ∀ i, InRange batch i → c1.data i = c2.data i) := by
  have m1 := C37_methods h1
  have m2 := C37_methods h2
  refine ⟨fun x bx t hx ht => ?_, ?_, ?_, ?_, ?_, ?_⟩
  · obtain ⟨a, a1, a2, a3⟩ := m1.log_prob x bx t hx ht
    obtain ⟨c, c1, c2, c3⟩ := m2.log_prob x bx t hx ht
    exact ⟨a, c, a1, c1, by rw [a2, c2], fun i hi => by rw [a3 i hi, c3 i hi]⟩
  · obtain ⟨a, a1, a2, a3⟩ := m1.covariance
    obtain ⟨c, c1, c2, c3⟩ := m2.covariance
    exact ⟨a, c, a1, c1, by rw [a2, c2], fun i hi => by rw [a3 i hi, c3 i hi]⟩
  · obtain ⟨a, a1, a2, a3⟩ := m1.mean
    obtain ⟨c, c1, c2, c3⟩ := m2.mean
    exact ⟨a, c, a1, c1, by rw [a2, c2], fun i hi => by rw [a3 i hi, c3 i hi]⟩
  · obtain ⟨a, a1, a2, a3⟩ := m1.variance
    obtain ⟨c, c1, c2, c3⟩ := m2.variance
    exact ⟨a, c, a1, c1, by rw [a2, c2], fun i hi => funext fun k => by rw [a3 i hi, c3 i hi]⟩
  · obtain ⟨a, a1, a2, a3⟩ := m1.stddev
    obtain ⟨c, c1, c2, c3⟩ := m2.stddev
    exact ⟨a, c, a1, c1, by rw [a2, c2], fun i hi => funext fun k => by rw [a3 i hi, c3 i hi]⟩
  · obtain ⟨a, a1, a2, a3⟩ := m1.entropy
    obtain ⟨c, c1, c2, c3⟩ := m2.entropy
    exact ⟨a, c, a1, c1, by rw [a2, c2], fun i hi => by rw [a3 i hi, c3 i hi]⟩

/-- For instance the diagonal variant, the triangular variant with the same diagonal and the full-covariance variant with
the squared diagonal are the same distribution. -/
theorem C37_diag_tri_full_agree (la : LinAlg) (chol : Arr → Arr) (hch : CholeskyContract chol) (l s a c : Arr)
    (bl bs t : List ℕ) (hl : l.shape = bl ++ [n]) (hs : s.shape = bs ++ [n]) (ha : a.shape = bs ++ [n, n])
    (hc : c.shape = bs ++ [n, n]) (ht : broadcastShapes bl bs = some t)
    (hnz : ∀ j, InRange bs j → ∀ k : Fin n, s.data (j ++ [k.val]) ≠ 0)
    (hA : ∀ j, InRange bs j → a.mat n n j = diagonal (s.vec n j))
    (hC : ∀ j, InRange bs j → c.mat n n j = diagonal fun k => s.vec n j k ^ 2) :
    ∃ d1 d2 d3, MVNDiag.mk? (some l) (some s) = .ok d1 ∧ MVNTri.mk? la (some l) (some a) true = .ok d2 ∧
      MVNFullCov.mk? la chol (some l) (some c) = .ok d3 ∧
      ∃ b C, Represents d1 n t b C ∧ Represents d2 n t b C ∧ Represents d3 n t b C := by
  have bst := broadcast_absorb_right ht
  obtain ⟨d1, e1, r1⟩ := diag_core l s bl bs t hl hs ht hnz
  obtain ⟨d2, e2, -, r2⟩ := C37_tri (n := n) la (some l) (some a) true bl bs t (Or.inl rfl) hl ha ht (by
    intro a' ha' j hj k
    injection ha' with ha'
    subst ha'
    have := congrFun (congrFun (hA j hj) k) k
    rw [Matrix.diagonal_apply_eq] at this
    show a.mat n n j k k ≠ 0
    rw [this]; exact hnz j hj k)
  obtain ⟨d3, e3, r3⟩ := C37_full_covariance (n := n) la chol hch (some l) (some c) bl bs t (Or.inl rfl) hl hc ht (by
    intro c' hc' j hj
    injection hc' with hc'
    subst hc'
    rw [hC j hj]
    exact Matrix.PosDef.diagonal fun k => by have := hnz j hj k; positivity)
  refine ⟨d1, d2, d3, e1, e2, e3, _, _, r1, ?_, ?_⟩
  · obtain ⟨a1, a2, a3, a4, a5, a6, a7⟩ := r2
    refine ⟨a1, a2, a3, a4, a5, a6, fun i hi => ⟨(a7 i hi).1, ?_⟩⟩
    rw [← (a7 i hi).2]
    have hj := proj_inRange bst hi
    have htri : triPart true (a.mat n n (proj bs i)) = diagonal (s.vec n (proj bs i)) := by
      rw [hA _ hj]
      ext r k
      simp only [triPart, if_true]
      split_ifs with hk
      · rfl
      · rw [Matrix.diagonal_apply_ne]; intro h; exact hk (le_of_eq h.symm)
    show diagonal _ = triPart true (a.mat n n (proj bs i)) * (triPart true (a.mat n n (proj bs i)))ᵀ
    rw [htri, diag_gram]
  · obtain ⟨a1, a2, a3, a4, a5, a6, a7⟩ := r3
    refine ⟨a1, a2, a3, a4, a5, a6, fun i hi => ⟨(a7 i hi).1, ?_⟩⟩
    rw [← (a7 i hi).2]
    exact (hC _ (proj_inRange bst hi)).symm

/-! ### rejected parameters -/

theorem shape_one {s : List ℕ} (h : ¬ s.length < 1) : s = s.dropLast ++ [s.getLastD 0] := by
  have hne : s ≠ [] := by rintro rfl; simp at h
  conv_lhs => rw [← List.dropLast_append_getLast hne]
  congr 2
  rw [List.getLastD_eq_getLast?, List.getLast?_eq_getLast_of_ne_nil hne]; rfl

theorem shape_two {s : List ℕ} (h : ¬ s.length < 2) :
    s = s.dropLast.dropLast ++ [s.dropLast.getLastD 0, s.getLastD 0] := by
  have h1 := shape_one (s := s) (by omega)
  have h2 := shape_one (s := s.dropLast) (by simp; omega)
  conv_lhs => rw [h1, h2]
  simp

theorem mk_ok_shapes {loc : Arr} {s : Scale} (h : MVN.mk? loc s = .ok d) :
    ∃ bl t, loc.shape = bl ++ [s.lin.n] ∧ broadcastShapes s.lin.batch bl = some t := by
  rcases C37_from_bijector_rejects loc s with ⟨-, h1⟩ | ⟨h1, -⟩
  · exact h1
  · rw [h1] at h; cases h

theorem triCheck_ok {loc m : Option Arr} (h : MVNTri.check loc m = .ok ()) :
    (loc.isSome ∨ m.isSome) ∧ ∃ n bl bs, OptShape loc bl [n] ∧ OptShape m bs [n, n] := by
  unfold MVNTri.check at h
  split_ifs at h with a b c e
  cases loc with
  | none =>
    cases m with
    | none => simp at a
    | some m =>
      simp only [Option.any_some, decide_eq_true_eq, not_not] at c e
      have := shape_two c
      rw [← e] at this
      exact ⟨Or.inr rfl, _, [], _, rfl, this⟩
  | some l =>
    simp only [Option.any_some, decide_eq_true_eq] at b
    have hl := shape_one b
    cases m with
    | none => exact ⟨Or.inl rfl, _, _, [], hl, rfl⟩
    | some m =>
      simp only [Option.any_some, decide_eq_true_eq, not_not] at c e
      have hm := shape_two c
      rw [← e] at hm
      simp only at h
      split_ifs at h with g
      rw [← not_not.1 g] at hl
      exact ⟨Or.inl rfl, _, _, _, hl, hm⟩

theorem triCheck_err {loc m : Option Arr} {e : Err} (h : MVNTri.check loc m = .error e) : e = .valueError := by
  unfold MVNTri.check at h
  split_ifs at h <;> first | (injection h with h; exact h.symm) | skip
  cases loc with
  | none => cases h
  | some l =>
    cases m with
    | none => cases h
    | some m =>
      simp only at h
      split_ifs at h
      injection h with h; exact h.symm

theorem mk_err {loc : Arr} {s : Scale} {e : Err} (h : MVN.mk? loc s = .error e) : e = .valueError := by
  rcases C37_from_bijector_rejects loc s with ⟨⟨d, h1⟩, -⟩ | ⟨h1, -⟩
  · rw [h1] at h; cases h
  · rw [h1] at h; injection h with h; exact h.symm

theorem optShape_inj {a : Option Arr} {bl bl' e : List ℕ} (h1 : OptShape a bl e) (h2 : OptShape a bl' e) : bl = bl' := by
  cases a with
  | none => exact Eq.trans h1 (Eq.symm h2)
  | some l => exact List.append_cancel_right (Eq.trans (Eq.symm h1) h2)

/-- After the shape checks, what the triangular constructor still needs is exactly that the batch shapes broadcast. -/
theorem tri_after_check (la : LinAlg) (loc st : Option Arr) (isLower : Bool) {bl bs : List ℕ}
    (hsome : loc.isSome ∨ st.isSome) (hl : OptShape loc bl [n]) (hs : OptShape st bs [n, n]) :
    (∃ d t, MVNTri.mk? la loc st isLower = .ok d ∧ broadcastShapes bl bs = some t) ∨
    (MVNTri.mk? la loc st isLower = .error .valueError ∧ broadcastShapes bl bs = none) := by
  have key : ∃ (l : Arr) (s : Scale), MVNTri.mk? la loc st isLower = MVN.mk? l s ∧ l.shape = bl ++ [n] ∧
      s.lin.n = n ∧ s.lin.batch = bs := by
    cases st with
    | some s =>
      have hs' : s.shape = bs ++ [n, n] := hs
      obtain ⟨M, f, t1, -, -, -⟩ := triangular_facts la (s.tri isLower) isLower bs n hs'
      cases loc with
      | some l =>
        have hl' : l.shape = bl ++ [n] := hl
        refine ⟨l, ⟨⟨n, bs, M, f⟩, none⟩, ?_, hl', rfl, rfl⟩
        have hc : MVNTri.check (some l) (some s) = .ok () := by simp [MVNTri.check, hl', hs']
        rw [MVNTri.mk?, hc, ok_bind]
        simp only [pure, Except.pure]
        rw [ok_bind, t1, ok_bind]; rfl
      | none =>
        have hl' : bl = [] := hl
        subst hl'
        refine ⟨Arr.zeros [n], ⟨⟨n, bs, M, f⟩, none⟩, ?_, rfl, rfl, rfl⟩
        have hc : MVNTri.check none (some s) = .ok () := by simp [MVNTri.check, hs']
        rw [MVNTri.mk?, hc, ok_bind]
        simp only [pure, Except.pure]
        rw [ok_bind, t1, ok_bind, hs', getLastD_two]; rfl
    | none =>
      have hs' : bs = [] := hs
      subst hs'
      cases loc with
      | none => simp at hsome
      | some l =>
        have hl' : l.shape = bl ++ [n] := hl
        obtain ⟨sc, f, g1, g2⟩ := ofDiag_good (n := n) (dg := Arr.ones [n]) (bd := []) rfl (fun _ _ _ => one_ne_zero)
        refine ⟨l, sc, ?_, hl', by rw [g2.lin], by rw [g2.lin]⟩
        have hc : MVNTri.check (some l) none = .ok () := by simp [MVNTri.check, hl']
        rw [MVNTri.mk?, hc, ok_bind]
        simp only [pure, Except.pure]
        rw [ok_bind, hl', getLastD_snoc, g1, ok_bind]
  obtain ⟨l, s, e, h1, h2, h3⟩ := key
  rw [e]
  rcases C37_from_bijector_rejects l s with ⟨⟨d, hd⟩, bl', t, e1, e2⟩ | ⟨hd, hn⟩
  · refine Or.inl ⟨d, t, hd, ?_⟩
    rw [h1, h2] at e1
    have : bl = bl' := List.append_cancel_right e1
    rw [broadcastShapes_comm, this, ← h3]; exact e2
  · refine Or.inr ⟨hd, ?_⟩
    cases hb : broadcastShapes bl bs with
    | none => rfl
    | some t =>
      exact absurd ⟨bl, t, by rw [h2]; exact h1, by rw [h3, broadcastShapes_comm]; exact hb⟩ hn

/-- **Triangular variant, rejection.**  The constructor accepts exactly when at least one parameter is given, the trailing
dimensions match (vector of length `n`, square `n × n` matrix) and the batch shapes broadcast; otherwise ValueError. -/
theorem C37_tri_rejects (la : LinAlg) (loc st : Option Arr) (isLower : Bool) :
    let valid := (loc.isSome ∨ st.isSome) ∧
      ∃ n bl bs t, OptShape loc bl [n] ∧ OptShape st bs [n, n] ∧ broadcastShapes bl bs = some t
    ((∃ d, MVNTri.mk? la loc st isLower = .ok d) ∧ valid) ∨ (MVNTri.mk? la loc st isLower = .error .valueError ∧ ¬ valid) := by
  intro valid
  cases hc : MVNTri.check loc st with
  | ok u =>
    obtain ⟨hsome, n, bl, bs, h1, h2⟩ := triCheck_ok hc
    rcases tri_after_check la loc st isLower hsome h1 h2 with ⟨d, t, g1, g2⟩ | ⟨g1, g2⟩
    · exact Or.inl ⟨⟨d, g1⟩, hsome, n, bl, bs, t, h1, h2, g2⟩
    · refine Or.inr ⟨g1, ?_⟩
      rintro ⟨-, n', bl', bs', t', h1', h2', g⟩
      rcases tri_after_check la loc st isLower hsome h1' h2' with ⟨d, t, k1, k2⟩ | ⟨k1, k2⟩
      · rw [g1] at k1; cases k1
      · rw [k2] at g; cases g
  | error e =>
    have := triCheck_err hc
    subst this
    refine Or.inr ⟨by rw [MVNTri.mk?, hc]; rfl, ?_⟩
    rintro ⟨hsome, n', bl', bs', t', h1', h2', g⟩
    rcases tri_after_check la loc st isLower hsome h1' h2' with ⟨d, t, k1, k2⟩ | ⟨k1, k2⟩
    · rw [MVNTri.mk?, hc] at k1; cases k1
    · rw [k2] at g; cases g

/-- **Full covariance, rejection**: the same rule. -/
theorem C37_full_covariance_rejects (la : LinAlg) (chol : Arr → Arr) (hch : CholeskyContract chol) (loc cov : Option Arr) :
    let valid := (loc.isSome ∨ cov.isSome) ∧
      ∃ n bl bs t, OptShape loc bl [n] ∧ OptShape cov bs [n, n] ∧ broadcastShapes bl bs = some t
    ((∃ d, MVNFullCov.mk? la chol loc cov = .ok d) ∧ valid) ∨
      (MVNFullCov.mk? la chol loc cov = .error .valueError ∧ ¬ valid) := by
  intro valid
  have reject : ∀ {n bl bs}, (loc.isSome ∨ cov.isSome) → OptShape loc bl [n] → OptShape cov bs [n, n] →
      MVNTri.check loc cov = .ok () →
      (∃ d t, MVNFullCov.mk? la chol loc cov = .ok d ∧ broadcastShapes bl bs = some t) ∨
      (MVNFullCov.mk? la chol loc cov = .error .valueError ∧ broadcastShapes bl bs = none) := by
    intro n bl bs hsome h1 h2 hc
    obtain ⟨l, hll, hL⟩ : ∃ l : Arr, l.shape = bl ++ [n] ∧
        (MVNFullCov.mk? la chol loc cov = match cov with
          | none => do
            let d ← MVNTri.mk? la (some l) none true
            pure { d with covM := some (Arr.eye (l.shape.getLastD 0)) }
          | some c => do
            let d ← MVNTri.mk? la (some l) (some (chol c)) true
            pure { d with covM := some c }) := by
      cases loc with
      | some l =>
        refine ⟨l, h1, ?_⟩
        rw [MVNFullCov.mk?, hc, ok_bind]
        clear * -
        cases cov <;> rfl
      | none =>
        have hl' : bl = [] := h1
        subst hl'
        cases cov with
        | none => simp at hsome
        | some c =>
          refine ⟨Arr.zeros [n], rfl, ?_⟩
          have hc' : c.shape = bs ++ [n, n] := h2
          rw [MVNFullCov.mk?, hc, ok_bind]
          simp only [pure, Except.pure, hc', getLastD_two]; rfl
    rw [hL]
    cases cov with
    | none =>
      rcases tri_after_check la (some l) none true (Or.inl rfl) hll h2 with ⟨d, t, k1, k2⟩ | ⟨k1, k2⟩
      · exact Or.inl ⟨_, t, by simp only [k1]; rfl, k2⟩
      · exact Or.inr ⟨by simp only [k1]; rfl, k2⟩
    | some c =>
      rcases tri_after_check la (some l) (some (chol c)) true (Or.inl rfl) hll (hch c bs n h2).1 with ⟨d, t, k1, k2⟩ | ⟨k1, k2⟩
      · exact Or.inl ⟨_, t, by simp only [k1]; rfl, k2⟩
      · exact Or.inr ⟨by simp only [k1]; rfl, k2⟩
  cases hc : MVNTri.check loc cov with
  | ok u =>
    obtain ⟨hsome, n, bl, bs, h1, h2⟩ := triCheck_ok hc
    rcases reject hsome h1 h2 hc with ⟨d, t, g1, g2⟩ | ⟨g1, g2⟩
    · exact Or.inl ⟨⟨d, g1⟩, hsome, n, bl, bs, t, h1, h2, g2⟩
    · refine Or.inr ⟨g1, ?_⟩
      rintro ⟨-, n', bl', bs', t', h1', h2', g⟩
      rcases reject hsome h1' h2' hc with ⟨d, t, k1, k2⟩ | ⟨k1, k2⟩
      · rw [g1] at k1; cases k1
      · rw [k2] at g; cases g
  | error e =>
    have := triCheck_err hc
    subst this
    refine Or.inr ⟨by rw [MVNFullCov.mk?, hc]; rfl, ?_⟩
    rintro ⟨hsome, n', bl', bs', t', h1', h2', g⟩
    rcases tri_after_check la loc cov true hsome h1' h2' with ⟨d, t, k1, k2⟩ | ⟨k1, k2⟩
    · rw [MVNTri.mk?, hc] at k1; cases k1
    · rw [k2] at g; cases g

theorem ofDiag_shape {dg : Arr} {bd : List ℕ} (hd : dg.shape = bd ++ [n]) :
    ∃ s, Scale.ofDiag dg = .ok s ∧ s.lin.n = n ∧ s.lin.batch = bd := by
  obtain ⟨M, f, h1, -, -, -⟩ := diag_facts dg bd n hd
  exact ⟨⟨_, some dg⟩, by rw [Scale.ofDiag, h1, ok_bind]; rfl, rfl, rfl⟩

theorem diag_after_check (l s : Arr) {bl bs : List ℕ} (hl : l.shape = bl ++ [n]) (hs : s.shape = bs ++ [n]) :
    (∃ d t, MVNDiag.mk? (some l) (some s) = .ok d ∧ broadcastShapes bl bs = some t) ∨
    (MVNDiag.mk? (some l) (some s) = .error .valueError ∧ broadcastShapes bl bs = none) := by
  have hc : MVNDiag.check (some l) (some s) = .ok () := by simp [MVNDiag.check, hl, hs]
  have e : MVNDiag.mk? (some l) (some s) = match broadcastShapes l.shape s.shape with
      | none => .error .valueError
      | some t => Scale.ofDiag (s.expandLeading t.length) >>= fun sc => MVN.mk? (l.expandLeading t.length) sc := by
    rw [MVNDiag.mk?, hc, ok_bind]; rfl
  have hb : broadcastShapes l.shape s.shape = (broadcastShapes bl bs).map (· ++ [n]) := by rw [hl, hs, broadcast_append]
  rw [e, hb]
  cases ht : broadcastShapes bl bs with
  | none => exact Or.inr ⟨rfl, rfl⟩
  | some t =>
    refine Or.inl ?_
    have hexp : ∀ (a : Arr) (ba : List ℕ), a.shape = ba ++ [n] →
        (a.expandLeading (t ++ [n]).length).shape = (List.replicate (t.length - ba.length) 1 ++ ba) ++ [n] := by
      intro a ba ha
      simp [Arr.expandLeading, ha]
    obtain ⟨sc, g1, g2, g3⟩ := ofDiag_shape (hexp s bs hs)
    rcases C37_from_bijector_rejects (l.expandLeading (t ++ [n]).length) sc with ⟨⟨d, hd⟩, -⟩ | ⟨-, hn⟩
    · exact ⟨d, t, by show (Scale.ofDiag (s.expandLeading (t ++ [n]).length) >>= _) = _; rw [g1, ok_bind]; exact hd, rfl⟩
    · exact absurd ⟨_, t, by rw [g2]; exact hexp l bl hl, by rw [g3]; exact broadcast_expanded ht⟩ hn

/-- **Diagonal variant, rejection.**  No parameter at all: AssertionError.  Otherwise accepted exactly when the given vectors
have the same trailing length and their batch shapes broadcast; ValueError if not. -/
theorem C37_diag_rejects (loc sd : Option Arr) :
    let valid := ∃ n bl bs t, OptShape loc bl [n] ∧ OptShape sd bs [n] ∧ broadcastShapes bl bs = some t
    (MVNDiag.mk? loc sd = .error .assertionError ∧ loc = none ∧ sd = none) ∨
    ((loc.isSome ∨ sd.isSome) ∧ (((∃ d, MVNDiag.mk? loc sd = .ok d) ∧ valid) ∨
      (MVNDiag.mk? loc sd = .error .valueError ∧ ¬ valid))) := by
  intro valid
  have nonempty : ∀ {s : List ℕ}, s ≠ [] → s = s.dropLast ++ [s.getLastD 0] := fun {s} h =>
    shape_one (by cases s <;> simp_all)
  cases loc with
  | none =>
    cases sd with
    | none => exact Or.inl ⟨rfl, rfl, rfl⟩
    | some s =>
      refine Or.inr ⟨Or.inr rfl, ?_⟩
      by_cases h0 : s.shape = []
      · refine Or.inr ⟨by simp [MVNDiag.mk?, MVNDiag.check, h0, bind, Except.bind], ?_⟩
        rintro ⟨n, bl, bs, t, -, h2, -⟩
        have h2' : s.shape = bs ++ [n] := h2
        rw [h0] at h2'; simp at h2'
      · have hs := nonempty h0
        have e : MVNDiag.mk? none (some s) = MVNDiag.mk? (some (Arr.zeros [s.shape.getLastD 0])) (some s) := by
          simp [MVNDiag.mk?, MVNDiag.check, h0, Arr.zeros]
        rcases diag_after_check (n := s.shape.getLastD 0) (Arr.zeros [s.shape.getLastD 0]) s (bl := []) rfl hs with ⟨d, t, h1, h2⟩ | ⟨h1, h2⟩
        · exact Or.inl ⟨⟨d, by rw [e]; exact h1⟩, _, [], _, t, rfl, hs, h2⟩
        · rw [broadcastShapes_nil] at h2; cases h2
  | some l =>
    refine Or.inr ⟨Or.inl rfl, ?_⟩
    by_cases hl0 : l.shape = []
    · have : MVNDiag.mk? (some l) sd = .error .valueError := by
        have hc : MVNDiag.check (some l) sd = .error .valueError := by
          cases sd with
          | none => simp [MVNDiag.check, hl0]
          | some s => simp [MVNDiag.check, hl0]
        rw [MVNDiag.mk?, hc]; rfl
      refine Or.inr ⟨this, ?_⟩
      rintro ⟨n, bl, bs, t, h2, -, -⟩
      have h2' : l.shape = bl ++ [n] := h2
      rw [hl0] at h2'; simp at h2'
    have hl := nonempty hl0
    cases sd with
    | none =>
      have e : MVNDiag.mk? (some l) none = MVNDiag.mk? (some l) (some (Arr.ones [l.shape.getLastD 0])) := by
        simp [MVNDiag.mk?, MVNDiag.check, hl0, Arr.ones]
      rcases diag_after_check (n := l.shape.getLastD 0) l (Arr.ones [l.shape.getLastD 0]) (bs := []) hl rfl with ⟨d, t, h1, h2⟩ | ⟨h1, h2⟩
      · exact Or.inl ⟨⟨d, by rw [e]; exact h1⟩, _, _, [], t, hl, rfl, h2⟩
      · rw [broadcast_nil_right] at h2; cases h2
    | some s =>
      by_cases hs0 : s.shape = []
      · refine Or.inr ⟨by simp [MVNDiag.mk?, MVNDiag.check, hs0, bind, Except.bind], ?_⟩
        rintro ⟨n, bl, bs, t, -, h2, -⟩
        have h2' : s.shape = bs ++ [n] := h2
        rw [hs0] at h2'; simp at h2'
      have hs := nonempty hs0
      by_cases hn : l.shape.getLastD 0 = s.shape.getLastD 0
      · rw [← hn] at hs
        rcases diag_after_check l s hl hs with ⟨d, t, h1, h2⟩ | ⟨h1, h2⟩
        · exact Or.inl ⟨⟨d, h1⟩, _, _, _, t, hl, hs, h2⟩
        · refine Or.inr ⟨h1, ?_⟩
          rintro ⟨n, bl, bs, t, k1, k2, k3⟩
          rcases diag_after_check l s k1 k2 with ⟨d, t, h3, h4⟩ | ⟨h3, h4⟩
          · rw [h1] at h3; cases h3
          · rw [h4] at k3; cases k3
      · refine Or.inr ⟨?_, ?_⟩
        · have hc : MVNDiag.check (some l) (some s) = .error .valueError := by
            have hn' : ¬ l.shape.getLast?.getD 0 = s.shape.getLast?.getD 0 := by simpa using hn
            simp [MVNDiag.check, hl0, hs0, hn']
          rw [MVNDiag.mk?, hc]; rfl
        · rintro ⟨n, bl, bs, t, k1, k2, k3⟩
          have k1' : l.shape = bl ++ [n] := k1
          have k2' : s.shape = bs ++ [n] := k2
          exact hn (by rw [k1', k2', getLastD_snoc, getLastD_snoc])

set_option maxHeartbeats 1000000 in
/-- **Diagonal plus low rank, rejection** (parameter checks): `scale_v_matrix` without `scale_u_matrix`, no parameter at all,
too few axes, unequal trailing dimensions and a zero-rank `U` are all ValueErrors. -/
theorem C37_low_rank_rejects (la : LinAlg) (loc sd su sv : Option Arr)
    (hbad : ¬ ((loc.isSome ∨ sd.isSome ∨ su.isSome) ∧ (sv.isSome → su.isSome) ∧ ∃ n k bl bd bu bv, 0 < k ∧
      OptShape loc bl [n] ∧ OptShape sd bd [n] ∧ OptShape su bu [n, k] ∧ OptShape sv bv [n, k])) :
    MVNLowRank.mk? la loc sd su sv = .error .valueError := by
  have herr : MVNLowRank.check loc sd su sv = .ok () ∨ MVNLowRank.check loc sd su sv = .error .valueError := by
    unfold MVNLowRank.check
    split_ifs <;> simp
  rcases herr with h | h
  · refine absurd ?_ hbad
    unfold MVNLowRank.check at h
    split_ifs at h with a1 a2 a3 a4 a5 a6 a7 a8
    simp only at h
    split_ifs at h with a9
    rw [List.all_eq_true] at a9
    generalize ((loc.map fun x => x.shape.getLastD 0).or (sd.map fun x => x.shape.getLastD 0)).or
      (su.map fun x => x.shape.dropLast.getLastD 0) = N at a9
    have hN : ∀ o ∈ [loc.map fun x => x.shape.getLastD 0, sd.map fun x => x.shape.getLastD 0,
        su.map fun x => x.shape.dropLast.getLastD 0, sv.map fun x => x.shape.dropLast.getLastD 0],
        ∀ x, o = some x → x = N.getD 0 := by
      intro o ho x hx
      have := a9 x (List.mem_filterMap.2 ⟨o, ho, hx⟩)
      rw [decide_eq_true_eq] at this
      rw [← this]; rfl
    simp only [List.mem_cons, List.not_mem_nil, or_false, forall_eq_or_imp, forall_eq] at hN
    obtain ⟨n1, n2, n3, n4⟩ := hN
    have g1 : ∃ bl, OptShape loc bl [N.getD 0] := by
      cases loc with
      | none => exact ⟨[], rfl⟩
      | some l =>
        refine ⟨l.shape.dropLast, ?_⟩
        rw [← n1 _ rfl]
        exact shape_one (by simpa using a3)
    have g2 : ∃ bl, OptShape sd bl [N.getD 0] := by
      cases sd with
      | none => exact ⟨[], rfl⟩
      | some l =>
        refine ⟨l.shape.dropLast, ?_⟩
        rw [← n2 _ rfl]
        exact shape_one (by simpa using a4)
    obtain ⟨bl, g1⟩ := g1
    obtain ⟨bd, g2⟩ := g2
    refine ⟨?_, ?_, ?_⟩
    · clear * - a1
      revert a1; cases loc <;> cases sd <;> cases su <;> simp
    · clear * - a2
      revert a2; cases sv <;> cases su <;> simp
    · cases su with
      | none =>
        have hsv : sv = none := by clear * - a2; revert a2; cases sv <;> simp
        subst hsv
        exact ⟨_, 1, bl, bd, [], [], one_pos, g1, g2, rfl, rfl⟩
      | some u =>
        have hu : u.shape = u.shape.dropLast.dropLast ++ [N.getD 0, u.shape.getLastD 0] := by
          rw [← n3 _ rfl]
          exact shape_two (by simpa using a5)
        have hk : 0 < u.shape.getLastD 0 := by
          have : ¬ u.shape.getLastD 0 < 1 := by
            intro hlt; exact a8 (by simpa using hlt)
          omega
        cases sv with
        | none => exact ⟨_, _, bl, bd, _, [], hk, g1, g2, hu, rfl⟩
        | some v =>
          have hv : v.shape = v.shape.dropLast.dropLast ++ [N.getD 0, v.shape.getLastD 0] := by
            rw [← n4 _ rfl]
            exact shape_two (by simpa using a6)
          have he : u.shape.getLastD 0 = v.shape.getLastD 0 := by
            by_contra hne; exact a7 (by simpa using hne)
          rw [← he] at hv
          exact ⟨_, _, bl, bd, _, _, hk, g1, g2, hu, hv⟩
  · rw [MVNLowRank.mk?, h]; rfl

/-! ### diagonal CDF -/

theorem ndtr_add_neg (x : ℝ) : ndtr x + ndtr (-x) = 1 := by
  have h := C28_normal_law ⟨0, 1⟩ one_pos
  have h1 := h.1.survival h.2.2.1 x
  rw [h.2.2.2.1 x] at h1
  have e1 : (Normal.mk 0 1).survival x = ndtr (-x) := by simp [Normal.survival, Normal.standardize]
  have e2 : (Normal.mk 0 1).cdf x = ndtr x := by simp [Normal.cdf, Normal.standardize]
  rw [e1] at h1
  beta_reduce at h1
  rw [e2] at h1
  linarith

/-- **Joint distribution function.**  For positive `scale_diag`, `cdf(v) = P(X₁ ≤ v₁, …, Xₙ ≤ vₙ)` and `log_cdf` is its log. -/
theorem C37_diag_cdf (l s v : Fin n → ℝ) (hs : ∀ k, 0 < s k) :
    ∫ x in Set.univ.pi fun k => Set.Iic (v k), gaussPdf l (diagonal fun k => s k ^ 2) x = MVNDiag.cdf l s v ∧
    MVNDiag.logCdf l s v = Real.log (MVNDiag.cdf l s v) := by
  have hdet : (diagonal s).det ≠ 0 := by
    rw [Matrix.det_diagonal]; exact Finset.prod_ne_zero_iff.2 fun k _ => (hs k).ne'
  have hpdf : ∀ x, gaussPdf l (diagonal fun k => s k ^ 2) x = ∏ k, (Normal.mk (l k) (s k)).prob (x k) := by
    intro x
    rw [← diag_gram, gaussPdf_affine _ _ _ hdet]
    have hinv : (diagonal s)⁻¹ *ᵥ (x - l) = fun k => (x k - l k) / s k := by
      have : (diagonal s)⁻¹ = diagonal fun k => (s k)⁻¹ := by
        apply Matrix.inv_eq_right_inv
        rw [Matrix.diagonal_mul_diagonal]
        rw [← Matrix.diagonal_one]
        congr 1
        funext k; exact mul_inv_cancel₀ (hs k).ne'
      rw [this]
      funext k
      rw [Matrix.mulVec_diagonal, Pi.sub_apply, div_eq_inv_mul]
    rw [hinv, Matrix.det_diagonal, abs_of_pos (Finset.prod_pos fun k _ => hs k), Real.exp_neg,
      Real.exp_log (Finset.prod_pos fun k _ => hs k), stdPhi, ← Finset.prod_inv_distrib, ← Finset.prod_mul_distrib]
    refine Finset.prod_congr rfl fun k _ => ?_
    rw [Normal.prob_affine (d := ⟨l k, s k⟩) (hs k)]
    exact (div_eq_mul_inv _ _).symm
  constructor
  · simp only [hpdf]
    rw [volume_pi, Measure.restrict_pi_pi]
    rw [integral_fintype_prod_eq_prod (μ := fun k => volume.restrict (Set.Iic (v k)))
      (fun k y => (Normal.mk (l k) (s k)).prob y)]
    refine Finset.prod_congr rfl fun k _ => ?_
    have hc : IsCdf (ProbabilityTheory.gaussianPDFReal 0 1) ndtr := fun x => rfl
    rw [Normal.prob_affine (d := ⟨l k, s k⟩) (hs k)]
    exact hc.affine (l k) (hs k) (v k)
  · rw [MVNDiag.logCdf, MVNDiag.cdf, Real.log_prod]
    intro k _ h0
    have hpos := ndtr_pos ((v k - l k) / s k)
    exact hpos.ne' h0

/-- A negative entry of `scale_diag` is accepted and means the same distribution as its absolute value, but `cdf` then
reports `P(X > v)` instead of `P(X ≤ v)`. -/
theorem C37_negative_scale_cdf (l s v : ℝ) (hs : s < 0) :
    MVNDiag.cdf (n := 1) (fun _ => l) (fun _ => s) (fun _ => v) = 1 - MVNDiag.cdf (n := 1) (fun _ => l) (fun _ => |s|) (fun _ => v) := by
  simp only [MVNDiag.cdf, Finset.univ_unique, Finset.prod_singleton, abs_of_neg hs, div_neg]
  exact eq_sub_of_add_eq (ndtr_add_neg _)

/-! ### concrete instances -/

/-- A batch of two 2-dimensional diagonal normals sharing one `loc`, given with a batch of scales. -/
example : ∃ d, MVNDiag.mk? (some ⟨[2], fun i => i.getD 0 0⟩) (some ⟨[2, 2], fun i => 1 + i.getD 0 0 + i.getD 1 0⟩) = .ok d ∧
    ∃ b C, Represents d 2 [2] b C ∧ C [1] 0 0 = 4 ∧ b [1] 1 = 1 := by
  obtain ⟨d, h1, h2⟩ := diag_core (n := 2) ⟨[2], fun i => i.getD 0 0⟩ ⟨[2, 2], fun i => 1 + i.getD 0 0 + i.getD 1 0⟩
    [] [2] [2] rfl rfl (by decide) (by
      intro j _ k
      show (1 + ((j ++ [k.val]).getD 0 0 : ℝ) + ((j ++ [k.val]).getD 1 0 : ℝ)) ≠ 0
      positivity)
  refine ⟨d, h1, _, _, h2, ?_, ?_⟩
  · simp [Arr.vec, proj]; norm_num
  · simp [Arr.vec, proj]

/-- A correlated 2-dimensional full-covariance normal: hypotheses of `C37_full_covariance` hold. -/
example (la : LinAlg) : ∃ chol, ∃ d, MVNFullCov.mk? la chol none (some ⟨[2, 2], fun i => if i.getD 0 0 = i.getD 1 0 then 2 else 1⟩) = .ok d ∧
    ∃ C, Represents d 2 [] (fun _ _ => 0) C ∧ C [] 0 1 = 1 := by
  obtain ⟨chol, hch⟩ := choleskyContract_inhabited
  obtain ⟨d, h1, h2⟩ := C37_full_covariance (n := 2) la chol hch none
    (some ⟨[2, 2], fun i => if i.getD 0 0 = i.getD 1 0 then 2 else 1⟩) [] [] [] (Or.inr rfl) rfl rfl rfl (by
      intro c hc j hj
      injection hc with hc
      subst hc
      have hj' : j = [] := by cases hj; rfl
      subst hj'
      refine Matrix.PosDef.of_dotProduct_mulVec_pos ?_ ?_
      · ext r k; fin_cases r <;> fin_cases k <;> simp [Arr.mat]
      · intro x hx
        have hx2 : x 0 ≠ 0 ∨ x 1 ≠ 0 := by
          by_contra h
          push Not at h
          exact hx (by ext k; fin_cases k <;> simp [h.1, h.2])
        simp only [dotProduct, mulVec, Fin.sum_univ_two, Arr.mat, star_trivial]
        simp
        rcases hx2 with h | h
        · nlinarith [sq_nonneg (x 0 + x 1), sq_pos_of_ne_zero h, sq_nonneg (x 1)]
        · nlinarith [sq_nonneg (x 0 + x 1), sq_pos_of_ne_zero h, sq_nonneg (x 0)])
  refine ⟨chol, d, h1, _, h2, ?_⟩
  simp [Arr.mat, proj]

/-- A 2-dimensional `I + u uᵀ` scale. -/
example (la : LinAlg) : ∃ d, MVNLowRank.mk? la none none (some ⟨[2, 1], fun _ => 1⟩) none = .ok d ∧
    ∃ C, Represents d 2 [] (fun _ _ => 0) C ∧ C [] 0 0 = 5 := by
  let S : Matrix (Fin 2) (Fin 2) ℝ := !![2, 1; 1, 2]
  obtain ⟨d, h1, h2⟩ := C37_low_rank (n := 2) la none none (some ⟨[2, 1], fun _ => 1⟩) none 1 [] [] [] [] [] [] []
    one_pos (Or.inr (Or.inr rfl)) (by simp) rfl rfl rfl rfl rfl rfl rfl (by intro i _ r; exact one_ne_zero) (fun _ => S)
    (by
      intro i
      ext r k
      fin_cases r <;> fin_cases k <;> simp [S, optVec, Arr.mat, Matrix.mul_apply] <;> norm_num)
    (by intro i _; simp [S, Matrix.det_fin_two]; norm_num)
  refine ⟨d, h1, _, h2, ?_⟩
  simp [S, Matrix.mul_apply, Fin.sum_univ_two]; norm_num

end Distrax
