import Verif.Model.MVN
import Verif.Lemmas.Linear
import Verif.Lemmas.Gauss

/-! Array-level facts about the multivariate normal model. -/

namespace Distrax

open Matrix Spec

theorem ok_bind {α β : Type} (a : α) (f : α → Except Err β) : ((Except.ok a : Except Err α) >>= f) = f a := rfl

theorem mapM_fun_ok {α : Type} (l : List α) (f : α → Except Err Arr) (R : α → Arr) (h : ∀ a, f a = .ok (R a)) :
    l.mapM f = .ok (l.map R) := by
  induction l with
  | nil => rfl
  | cons a l ih => rw [List.mapM_cons, h, ok_bind, ih, ok_bind]; rfl

theorem getLastD_snoc (s : List ℕ) (n : ℕ) : (s ++ [n]).getLastD 0 = n := by simp [List.getLastD_eq_getLast?]

theorem vmapLast_ok {f : Arr → Except Err Arr} {a : Arr} {s s' : List ℕ} {m : ℕ} (ha : a.shape = s ++ [m])
    (hf : ∀ c, ∃ r, f (a.col c) = .ok r ∧ r.shape = s') :
    ∃ z, vmapLast f a = .ok z ∧ z.shape = s' ++ [m] ∧ ∀ i (c : Fin m) r, f (a.col c) = .ok r →
      z.data (i ++ [c.val]) = r.data i := by
  choose R hR hs using hf
  refine ⟨⟨s' ++ [m], fun i => (((List.range m).map R).getD (i.getLastD 0) (R 0)).data i.dropLast⟩, ?_, rfl, ?_⟩
  · have h1 : ¬ a.shape.length < 1 := by rw [ha]; simp
    rw [vmapLast, if_neg h1]
    simp only [ha, getLastD_snoc]
    rw [hR, ok_bind, mapM_fun_ok _ _ R hR, ok_bind, hs]
    rfl
  · intro i c r hr
    rw [hR] at hr
    injection hr with hr
    subst hr
    simp [List.getD]

theorem vmapRows_ok {f : Arr → Except Err Arr} {a : Arr} {s s' : List ℕ} {m k n : ℕ} (ha : a.shape = s ++ [m, k])
    (hf : ∀ c, ∃ r, f (a.row c) = .ok r ∧ r.shape = s' ++ [n]) :
    ∃ z, vmapRows f a = .ok z ∧ z.shape = s' ++ [m, n] ∧ ∀ i (r : Fin m) (c : ℕ) y, f (a.row r) = .ok y →
      z.data (i ++ [r.val, c]) = y.data (i ++ [c]) := by
  choose R hR hs using hf
  refine ⟨⟨s' ++ [m, n], fun i => (((List.range m).map R).getD (i.dropLast.getLastD 0) (R 0)).data
    (i.dropLast.dropLast ++ [i.getLastD 0])⟩, ?_, rfl, ?_⟩
  · have h1 : ¬ a.shape.length < 2 := by rw [ha]; simp
    rw [vmapRows, if_neg h1]
    simp only [ha, dropLast_two, getLastD_snoc]
    rw [hR, ok_bind, mapM_fun_ok _ _ R hR, ok_bind, hs, getLastD_snoc]
    simp [pure, Except.pure]
  · intro i r c y hr
    rw [hR] at hr
    injection hr with hr
    subst hr
    simp only [dropLast_two, getLastD_snoc, getLastD_two, List.dropLast_concat]
    simp [List.getD]

theorem inRange_two {m n : ℕ} (r : Fin m) (c : Fin n) : InRange [m, n] [r.val, c.val] :=
  List.Forall₂.cons r.2 (List.Forall₂.cons c.2 List.Forall₂.nil)

theorem broadcastTo_mat {a : Arr} {ba t : List ℕ} {m n : ℕ} (ha : a.shape = ba ++ [m, n])
    (h : broadcastShapes ba t = some t) :
    ∃ z, a.broadcastTo (t ++ [m, n]) = .ok z ∧ z.shape = t ++ [m, n] ∧ ∀ i, InRange t i →
      z.mat m n i = a.mat m n (proj ba i) := by
  have h' : broadcastShapes a.shape (t ++ [m, n]) = some (t ++ [m, n]) := by
    rw [ha, broadcast_append, h]; rfl
  refine ⟨⟨t ++ [m, n], fun i => a.data (proj a.shape i)⟩, by simp [Arr.broadcastTo, h'], rfl, fun i hi => ?_⟩
  ext r c
  simp only [Arr.mat, ha]
  rw [proj_append (inRange_two r c) (by rw [hi.length]; exact broadcast_length_le h)]

theorem ofMat_mat (m n : ℕ) (b : List ℕ) (f : List ℕ → Matrix (Fin m) (Fin n) ℝ) (i : List ℕ) :
    (Arr.ofMat m n b f).mat m n i = f i := by
  ext r c
  simp [Arr.mat, Arr.ofMat, dropLast_two]

theorem sumLast_two {l : Arr} {t : List ℕ} {m n : ℕ} (hl : l.shape = t ++ [m, n]) :
    ∃ l', l.sumLast 2 = .ok l' ∧ l'.shape = t ∧ ∀ i, l'.data i = ∑ r : Fin m, ∑ c : Fin n, l.data (i ++ [r.val, c.val]) := by
  refine ⟨⟨t, fun i => ((allIdx [m, n]).map (fun j => l.data (i ++ j))).sum⟩, ?_, rfl, ?_⟩
  · simp [Arr.sumLast, hl]
  · intro i
    show ((allIdx ([m] ++ [n])).map (fun j => l.data (i ++ j))).sum = _
    rw [sum_allIdx_append, sum_allIdx_one]
    refine Finset.sum_congr rfl fun r _ => ?_
    rw [sum_allIdx_one]
    rfl

theorem sqFrob_ok {x : Arr} {t : List ℕ} {m n : ℕ} (hx : x.shape = t ++ [m, n]) :
    ∃ z, MVN.sqFrob x = .ok z ∧ z.shape = t ∧ ∀ i, z.data i = ∑ r : Fin m, ∑ c : Fin n, x.data (i ++ [r.val, c.val]) ^ 2 :=
  sumLast_two (l := x.map fun v => v ^ 2) hx

/-- A scale object that really is the batched linear map `M`, invertible. -/
structure GoodScale (s : Scale) (n : ℕ) (p : List ℕ) (M : List ℕ → Matrix (Fin n) (Fin n) ℝ) (f : ArrBij) : Prop where
  lin : s.lin = ⟨n, p, M, f⟩
  aff : IsAffine f n p M (fun _ => 0)
  sol : SolvesAffine f n p M (fun _ => 0)
  diag : ∀ d, s.diag = some d → d.shape = p ++ [n] ∧ ∀ i, InRange p i → M i = Matrix.diagonal (d.vec n i)
  det : ∀ j, InRange p j → (M j).det ≠ 0

/-- A multivariate normal object built on such a scale. -/
structure MVN.Sound (d : MVN) (n : ℕ) (bl p : List ℕ) (M : List ℕ → Matrix (Fin n) (Fin n) ℝ) (f : ArrBij) : Prop where
  loc : d.loc0.shape = bl ++ [n]
  good : GoodScale d.scale n p M f
  batch : broadcastShapes p bl = some d.batch
  bij : d.bij = ArrBij.chain [ArrBij.ofBij (Bij.block (Bij.shift ⟨0, d.loc0⟩) 1), f]
  cov : ∀ c, d.covM = some c → ∃ pc, c.shape = pc ++ [n, n] ∧ broadcastShapes pc d.batch = some d.batch ∧
    ∀ i, InRange d.batch i → c.mat n n (proj pc i) = M (proj p i) * (M (proj p i))ᵀ

theorem mk_sound {loc : Arr} {s : Scale} {n : ℕ} {bl p t : List ℕ} {M : List ℕ → Matrix (Fin n) (Fin n) ℝ} {f : ArrBij}
    (hl : loc.shape = bl ++ [n]) (hg : GoodScale s n p M f) (ht : broadcastShapes p bl = some t) :
    ∃ d, MVN.mk? loc s = .ok d ∧ d.batch = t ∧ d.loc0 = loc ∧ d.covM = none ∧ d.Sound n bl p M f := by
  have hlin := hg.lin
  refine ⟨⟨loc, s, t, ArrBij.chain [ArrBij.ofBij (Bij.block (Bij.shift ⟨0, loc⟩) 1), s.lin.bij], none⟩, ?_, rfl, rfl, rfl, ?_⟩
  · have h1 : ¬ loc.shape.length < 1 := by rw [hl]; simp
    have h2 : ¬ s.lin.n ≠ loc.shape.getLastD 0 := by rw [hl, getLastD_snoc, hlin]; simp
    have h3 : broadcastShapes s.lin.batch loc.shape.dropLast = some t := by rw [hl, hlin]; simpa using ht
    rw [MVN.mk?, if_neg h1, if_neg h2, h3]
    simp [Bij.mkBlock, bind, Except.bind, pure, Except.pure]
  · exact ⟨hl, hg, ht, by rw [hlin], fun c hc => by cases hc⟩

section sound
variable {d : MVN} {n : ℕ} {bl p : List ℕ} {M : List ℕ → Matrix (Fin n) (Fin n) ℝ} {f : ArrBij}

theorem MVN.Sound.dim (h : d.Sound n bl p M f) : d.dim = n := by rw [MVN.dim, h.loc, getLastD_snoc]

theorem MVN.Sound.pIn (h : d.Sound n bl p M f) : broadcastShapes p d.batch = some d.batch := broadcast_absorb_left h.batch
theorem MVN.Sound.lIn (h : d.Sound n bl p M f) : broadcastShapes bl d.batch = some d.batch := broadcast_absorb_right h.batch

theorem MVN.Sound.affine (h : d.Sound n bl p M f) :
    IsAffine d.bij n d.batch (fun i => M (proj p i)) (fun i => d.loc0.vec n (proj bl i)) ∧
    SolvesAffine d.bij n d.batch (fun i => M (proj p i)) (fun i => d.loc0.vec n (proj bl i)) := by
  obtain ⟨s1, s2⟩ := shiftBlock_facts d.loc0 bl n h.loc
  have hc : broadcastShapes bl p = some d.batch := by rw [broadcastShapes_comm]; exact h.batch
  rw [h.bij]
  constructor
  · refine (chain_isAffine_cons (by simp) s1 (chain_isAffine_single h.good.aff) hc).congr fun j _ => ?_
    simp
  · refine (chain_solves_snoc (bs := [_]) (by simp) (chain_solves_single s2) h.good.sol hc).congr fun j _ => ?_
    simp

theorem MVN.Sound.detB (h : d.Sound n bl p M f) {i : List ℕ} (hi : InRange d.batch i) : (M (proj p i)).det ≠ 0 :=
  h.good.det _ (proj_inRange h.pIn hi)

theorem normal01 (v : ℝ) : (Normal.mk 0 1).logProb v = -(1 / 2) * (Real.log (2 * Real.pi) + v * v) := by
  simp [Normal.logProb, Normal.standardize, halfLog2pi]; ring

theorem MVN.Sound.stdLogProb (h : d.Sound n bl p M f) {x : Arr} {t : List ℕ} (hx : x.shape = t ++ [n])
    (ht : broadcastShapes d.batch t = some t) :
    ∃ l, d.stdLogProb x = .ok l ∧ l.shape = t ∧ ∀ i, InRange t i → l.data i = Real.log (stdPhi (x.vec n i)) := by
  have e1 : broadcastShapes (d.batch ++ [n]) [] = some (d.batch ++ [n]) := broadcast_nil_right _
  have e2 : broadcastShapes (d.batch ++ [n]) x.shape = some (t ++ [n]) := by rw [hx, broadcast_append, ht]; rfl
  have hm : Fam2.method (fun m s v => (Normal.mk m s).logProb v)
      ⟨Arr.zeros (d.batch ++ [d.dim]), Arr.scalar 1, d.batch ++ [d.dim]⟩ x =
      .ok ⟨t ++ [n], fun i => (Normal.mk 0 1).logProb (x.data (proj x.shape i))⟩ := by
    simp only [Fam2.method, Arr.zeros, Arr.scalar, h.dim, e1, e2]
  obtain ⟨l, h1, h2, h3⟩ := sumLast_one (l := ⟨t ++ [n], fun i => (Normal.mk 0 1).logProb (x.data (proj x.shape i))⟩) rfl
  refine ⟨l, ?_, h2, fun i hi => ?_⟩
  · rw [MVN.stdLogProb, hm, ok_bind, reduceSum, h1]
  · rw [h3, log_stdPhi]
    have : ∀ k : Fin n, proj x.shape (i ++ [k.val]) = i ++ [k.val] := fun k => by
      rw [hx]; exact proj_self (inRange_snoc hi k)
    simp only [this, normal01, ← Finset.mul_sum, Finset.sum_add_distrib, dotProduct, Arr.vec]
    simp

theorem MVN.Sound.logProb (h : d.Sound n bl p M f) {x : Arr} {bx t : List ℕ} (hx : x.shape = bx ++ [n])
    (ht : broadcastShapes d.batch bx = some t) :
    ∃ l, d.logProb x = .ok l ∧ l.shape = t ∧ ∀ i, InRange t i → l.data i =
      gaussLogPdf (d.loc0.vec n (proj bl (proj d.batch i)))
        (M (proj p (proj d.batch i)) * (M (proj p (proj d.batch i)))ᵀ) (x.vec n (proj bx i)) := by
  obtain ⟨z, l, e1, -, -, sz, sl, hz⟩ := h.affine.2 bx t x hx ht
  have hbt := broadcast_absorb_left ht
  obtain ⟨s, q1, q2, q3⟩ := h.stdLogProb sz hbt
  obtain ⟨r, r1, r2, r3⟩ := bin_same (· + ·) s l t q2 sl
  refine ⟨r, ?_, r2, fun i hi => ?_⟩
  · rw [MVN.logProb, e1, ok_bind]; simp only; rw [q1, ok_bind, r1]
  · have hd := h.detB (proj_inRange hbt hi)
    obtain ⟨k1, k2⟩ := hz i hi hd
    rw [r3 i hi, q3 i hi, k2, gaussLogPdf_affine _ _ _ hd, ← k1, add_sub_cancel_right, Matrix.mulVec_mulVec,
      Matrix.nonsing_inv_mul _ (isUnit_iff_ne_zero.2 hd), Matrix.one_mulVec, sub_eq_add_neg]

theorem MVN.Sound.sample (h : d.Sound n bl p M f) {z : Arr} (hz : z.shape = d.batch ++ [n]) :
    ∃ x, d.sample z = .ok x ∧ x.shape = d.batch ++ [n] ∧ ∀ i, InRange d.batch i →
      x.vec n i = M (proj p i) *ᵥ z.vec n i + d.loc0.vec n (proj bl i) := by
  obtain ⟨y, l, -, e2, -, sy, -, hy⟩ := h.affine.1 d.batch d.batch (z.map fun z => 1 * z + 0) hz (broadcastShapes_self _)
  refine ⟨y, e2, sy, fun i hi => ?_⟩
  rw [(hy i hi).1, proj_self hi]
  congr 2
  funext k
  simp [Arr.vec, Arr.map]

theorem MVN.Sound.locOk (h : d.Sound n bl p M f) :
    ∃ m, d.loc = .ok m ∧ m.shape = d.batch ++ [n] ∧ ∀ i, InRange d.batch i → m.vec n i = d.loc0.vec n (proj bl i) := by
  obtain ⟨m, h1, h2, h3⟩ := broadcastTo_vec h.loc h.lIn
  exact ⟨m, by rw [MVN.loc, h.dim, h1], h2, fun i hi => funext fun k => h3 i hi k⟩

theorem MVN.Sound.entropy (h : d.Sound n bl p M f) :
    ∃ e, d.entropy = .ok e ∧ e.shape = d.batch ∧ ∀ i, InRange d.batch i → e.data i =
      n * (1 / 2 + 1 / 2 * Real.log (2 * Real.pi)) + Real.log |(M (proj p i)).det| := by
  obtain ⟨y, l, -, -, e3, -, sl, hl⟩ := h.affine.1 d.batch d.batch (Arr.zeros (d.batch ++ [n])) rfl (broadcastShapes_self _)
  obtain ⟨s, h1, h2, h3⟩ := sumLast_one
    (l := (⟨d.batch ++ [n], fun _ => 0.5 + (halfLog2pi + Real.log 1)⟩ : Arr)) rfl
  obtain ⟨r, r1, r2, r3⟩ := bin_same (· + ·) s l d.batch h2 sl
  refine ⟨r, ?_, r2, fun i hi => ?_⟩
  · have : d.stdEntropy = .ok s := by
      rw [MVN.stdEntropy, broadcastTo_scalar, ok_bind, reduceSum, h.dim]
      exact h1
    rw [MVN.entropy, this, ok_bind, h.dim, e3, ok_bind, r1]
  · rw [r3 i hi, h3, (hl i hi).2 (by rw [proj_self hi]; exact h.detB hi), proj_self hi]
    simp [halfLog2pi]
    ring_nf

theorem MVN.Sound.matrixArr (h : d.Sound n bl p M f) :
    d.matrixArr.shape = p ++ [n, n] ∧ (∀ i, d.matrixArr.mat n n i = M i) := by
  have e : d.matrixArr = Arr.ofMat n n p M := by rw [MVN.matrixArr, h.good.lin]
  rw [e]
  exact ⟨rfl, ofMat_mat n n p M⟩

theorem diag_gram {n : ℕ} (v : Fin n → ℝ) : Matrix.diagonal v * (Matrix.diagonal v)ᵀ = Matrix.diagonal fun k => v k ^ 2 := by
  rw [Matrix.diagonal_transpose, Matrix.diagonal_mul_diagonal]; simp [sq]

theorem MVN.Sound.variance (h : d.Sound n bl p M f) :
    ∃ v, d.variance = .ok v ∧ v.shape = d.batch ++ [n] ∧ ∀ i, InRange d.batch i → ∀ k,
      v.vec n i k = (M (proj p i) * (M (proj p i))ᵀ) k k := by
  rw [MVN.variance]
  cases hc : d.covM with
  | some c =>
    obtain ⟨pc, c1, c2, c3⟩ := h.cov c hc
    obtain ⟨z, z1, z2, z3⟩ := broadcastTo_mat c1 c2
    refine ⟨⟨d.batch ++ [n], fun i => z.data (i ++ [i.getLastD 0])⟩, ?_, rfl, fun i hi k => ?_⟩
    · simp only [MVN.covMatrix, h.dim, z1, ok_bind]; rfl
    · have := congrFun (congrFun (z3 i hi) k) k
      rw [c3 i hi] at this
      rw [← this]
      simp [Arr.vec, Arr.mat]
  | none =>
    simp only
    cases hd : d.scale.diag with
    | some dg =>
      obtain ⟨g1, g2⟩ := h.good.diag dg hd
      obtain ⟨z, z1, z2, z3⟩ := broadcastTo_vec (a := dg.map fun x => x ^ 2) g1 h.pIn
      refine ⟨z, ?_, z2, fun i hi k => ?_⟩
      · simp only [h.dim]; exact z1
      · rw [Arr.vec, z3 i hi k, g2 _ (proj_inRange h.pIn hi), diag_gram, Matrix.diagonal_apply_eq]
        rfl
    | none =>
      obtain ⟨m1, m2⟩ := h.matrixArr
      obtain ⟨q, q1, q2, q3⟩ := bin_same (· * ·) d.matrixArr d.matrixArr _ m1 m1
      obtain ⟨l, l1, l2, l3⟩ := sumLast_one (t := p ++ [n]) (n := n) (l := q) (by rw [q2]; simp)
      obtain ⟨z, z1, z2, z3⟩ := broadcastTo_vec l2 h.pIn
      refine ⟨z, ?_, z2, fun i hi k => ?_⟩
      · simp only [q1, ok_bind, h.dim, l1]; exact z1
      · have hp := proj_inRange h.pIn hi
        rw [Arr.vec, z3 i hi k, l3, Matrix.mul_apply]
        refine Finset.sum_congr rfl fun c _ => ?_
        have hr : InRange (p ++ [n, n]) (proj p i ++ [k.val] ++ [c.val]) := by
          have := hp.append (inRange_two k c)
          simpa using this
        rw [q3 _ hr, ← m2 (proj p i)]
        simp [Arr.mat]

theorem MVN.Sound.stddev (h : d.Sound n bl p M f) :
    ∃ v, d.stddev = .ok v ∧ v.shape = d.batch ++ [n] ∧ ∀ i, InRange d.batch i → ∀ k,
      v.vec n i k = Real.sqrt ((M (proj p i) * (M (proj p i))ᵀ) k k) := by
  rw [MVN.stddev]
  cases hd : d.scale.diag with
  | some dg =>
    obtain ⟨g1, g2⟩ := h.good.diag dg hd
    obtain ⟨z, z1, z2, z3⟩ := broadcastTo_vec (a := dg.map fun x => |x|) g1 h.pIn
    refine ⟨z, ?_, z2, fun i hi k => ?_⟩
    · simp only [h.dim]; exact z1
    · rw [Arr.vec, z3 i hi k, g2 _ (proj_inRange h.pIn hi), diag_gram, Matrix.diagonal_apply_eq, Real.sqrt_sq_eq_abs]
      rfl
  | none =>
    obtain ⟨v, v1, v2, v3⟩ := h.variance
    obtain ⟨z, z1, z2, z3⟩ := broadcastTo_vec (a := v.map Real.sqrt) (t := d.batch) v2 (broadcastShapes_self _)
    refine ⟨z, ?_, z2, fun i hi k => ?_⟩
    · simp only [v1, ok_bind, h.dim]; exact z1
    · rw [Arr.vec, z3 i hi k, proj_self hi]
      exact congrArg Real.sqrt (v3 i hi k)

theorem MVN.Sound.covariance (h : d.Sound n bl p M f) :
    ∃ c, d.covariance = .ok c ∧ c.shape = d.batch ++ [n, n] ∧ ∀ i, InRange d.batch i →
      c.mat n n i = M (proj p i) * (M (proj p i))ᵀ := by
  rw [MVN.covariance]
  cases hc : d.covM with
  | some c =>
    obtain ⟨pc, c1, c2, c3⟩ := h.cov c hc
    obtain ⟨z, z1, z2, z3⟩ := broadcastTo_mat c1 c2
    exact ⟨z, by simp only [MVN.covMatrix, h.dim]; exact z1, z2, fun i hi => by rw [z3 i hi, c3 i hi]⟩
  | none =>
    simp only
    cases hd : d.scale.diag with
    | some dg =>
      obtain ⟨g1, g2⟩ := h.good.diag dg hd
      obtain ⟨v, v1, v2, v3⟩ := h.variance
      obtain ⟨z, z1, z2, z3⟩ := broadcastTo_mat (t := d.batch) (m := n) (n := n) (ba := d.batch)
        (a := ⟨v.shape ++ [v.shape.getLastD 0], fun i =>
          if i.dropLast.getLastD 0 = i.getLastD 0 then v.data i.dropLast else 0⟩) (by simp [v2])
        (broadcastShapes_self _)
      refine ⟨z, ?_, z2, fun i hi => ?_⟩
      · simp only [v1, ok_bind, h.dim]; exact z1
      · rw [z3 i hi, proj_self hi]
        ext r c
        have hv := v3 i hi r
        rw [g2 _ (proj_inRange h.pIn hi), diag_gram] at hv ⊢
        simp only [Arr.mat, dropLast_two, getLastD_two, getLastD_snoc]
        by_cases hrc : r = c
        · subst hrc
          rw [if_pos rfl, ← hv]; rfl
        · rw [if_neg (fun h => hrc (Fin.ext h)), Matrix.diagonal_apply_ne _ hrc]
    | none =>
      obtain ⟨m1, m2⟩ := h.matrixArr
      have hf : ∀ r, ∃ y, f.forward (d.matrixArr.row r) = .ok y ∧ y.shape = p ++ [n] ∧ ∀ i, InRange p i →
          y.vec n i = M i *ᵥ (d.matrixArr.row r).vec n i := by
        intro r
        obtain ⟨y, l, -, e2, -, sy, -, hy⟩ := h.good.aff p p (d.matrixArr.row r)
          (by simp [Arr.row, m1, dropLast_two, getLastD_two]) (broadcastShapes_self _)
        exact ⟨y, e2, sy, fun i hi => by rw [(hy i hi).1, proj_self hi, add_zero]⟩
      obtain ⟨w, w1, w2, w3⟩ := vmapRows_ok (f := f.forward) (n := n) m1 fun r =>
        let ⟨y, y1, y2, _⟩ := hf r; ⟨y, y1, y2⟩
      obtain ⟨z, z1, z2, z3⟩ := broadcastTo_mat w2 h.pIn
      refine ⟨z, ?_, z2, fun i hi => ?_⟩
      · have : d.scale.lin.bij = f := by rw [h.good.lin]
        simp only [this, w1, ok_bind, h.dim]; exact z1
      · have hp := proj_inRange h.pIn hi
        rw [z3 i hi]
        ext r c
        obtain ⟨y, y1, y2, y3⟩ := hf r
        have e1 : w.mat n n (proj p i) r c = y.vec n (proj p i) c := w3 (proj p i) r c y y1
        rw [e1, y3 _ hp, Matrix.mul_apply, mulVec, dotProduct]
        refine Finset.sum_congr rfl fun k _ => ?_
        have : (d.matrixArr.row r).vec n (proj p i) k = M (proj p i) r k := by
          rw [← m2 (proj p i)]
          simp [Arr.vec, Arr.row, Arr.mat]
        rw [this, Matrix.transpose_apply, mul_comm]

end sound

end Distrax
