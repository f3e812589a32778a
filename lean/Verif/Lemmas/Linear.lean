import Verif.Spec.Linear
import Verif.Lemmas.Broadcast
import Verif.Lemmas.Bijector
import Mathlib.LinearAlgebra.Matrix.Block
import Mathlib.LinearAlgebra.Matrix.SchurComplement

namespace Distrax

open Matrix

theorem ofVec_vec (n : ℕ) (b : List ℕ) (f : List ℕ → Fin n → ℝ) (i : List ℕ) :
    (Arr.ofVec n b f).vec n i = f i := by
  funext k
  simp [Arr.vec, Arr.ofVec]

theorem inRange_snoc {t : List ℕ} {n : ℕ} {i : List ℕ} (hi : InRange t i) (k : Fin n) :
    InRange (t ++ [n]) (i ++ [k.val]) := hi.append (List.Forall₂.cons k.2 List.Forall₂.nil)

theorem vectorizeVec_ok {n : ℕ} {pb bx t : List ℕ} (f : List ℕ → (Fin n → ℝ) → (Fin n → ℝ)) {x : Arr}
    (hx : x.shape = bx ++ [n]) (ht : broadcastShapes pb bx = some t) :
    vectorizeVec n pb f x = .ok (Arr.ofVec n t (fun i => f (proj pb i) (x.vec n (proj bx i)))) := by
  simp [vectorizeVec, hx, ht]

theorem bcastLogdet_ok {n : ℕ} {pb bx t : List ℕ} {ld : Arr} {x : Arr}
    (hl : broadcastShapes ld.shape pb = some pb)
    (hx : x.shape = bx ++ [n]) (ht : broadcastShapes pb bx = some t) :
    bcastLogdet ld pb x = .ok ⟨t, fun i => ld.data (proj ld.shape i)⟩ := by
  have h1 : broadcastShapes ld.shape t = some t := by
    have h2 := broadcast_absorb_left ht
    obtain ⟨u, hu1, hu2⟩ := broadcast_assoc hl h2
    rw [h2] at hu1
    cases hu1
    exact hu2
  simp [bcastLogdet, checkRank1, hx, ht, Arr.broadcastTo, h1, bind, Except.bind]

theorem broadcast_length_t {pb bx t : List ℕ} (ht : broadcastShapes pb bx = some t) {i : List ℕ}
    (hi : InRange t i) : pb.length ≤ i.length := by
  rw [hi.length]; exact broadcast_length_le ht

theorem vecBij_isAffine (n : ℕ) (pb : List ℕ) (ld : Arr) (f g : List ℕ → (Fin n → ℝ) → (Fin n → ℝ))
    (A : List ℕ → Matrix (Fin n) (Fin n) ℝ) (c : List ℕ → Fin n → ℝ)
    (hf : ∀ j, InRange pb j → ∀ x, f j x = A j *ᵥ x + c j)
    (hl : broadcastShapes ld.shape pb = some pb)
    (hld : ∀ j, InRange pb j → (A j).det ≠ 0 → ld.data (proj ld.shape j) = Real.log |(A j).det|) :
    IsAffine (vecBij n pb ld f g) n pb A c := by
  intro bx t x hx ht
  have h1 := vectorizeVec_ok f hx ht
  have h2 := bcastLogdet_ok hl hx ht
  have h3 : checkRank1 x = .ok () := by simp [checkRank1, hx]
  refine ⟨Arr.ofVec n t (fun i => f (proj pb i) (x.vec n (proj bx i))),
    ⟨t, fun i => ld.data (proj ld.shape i)⟩,
    by simp [vecBij, h1, h2, h3, bind, Except.bind, pure, Except.pure],
    by simp [vecBij, h1, h3, bind, Except.bind], by simp [vecBij, h2], rfl, rfl, ?_⟩
  intro i hi
  have hr : InRange pb (proj pb i) := proj_inRange (broadcast_absorb_left ht) hi
  refine ⟨by rw [ofVec_vec, hf _ hr], fun hd => ?_⟩
  rw [← hld _ hr hd, proj_proj hl (broadcast_length_t ht hi)]

theorem vecBij_solves (n : ℕ) (pb : List ℕ) (ld : Arr) (f g : List ℕ → (Fin n → ℝ) → (Fin n → ℝ))
    (A : List ℕ → Matrix (Fin n) (Fin n) ℝ) (c : List ℕ → Fin n → ℝ)
    (hg : ∀ j, InRange pb j → (A j).det ≠ 0 → ∀ y, A j *ᵥ g j y + c j = y)
    (hl : broadcastShapes ld.shape pb = some pb)
    (hld : ∀ j, InRange pb j → (A j).det ≠ 0 → ld.data (proj ld.shape j) = Real.log |(A j).det|) :
    SolvesAffine (vecBij n pb ld f g) n pb A c := by
  intro bx t x hx ht
  have h1 := vectorizeVec_ok g hx ht
  have h2 := bcastLogdet_ok hl hx ht
  have h3 : checkRank1 x = .ok () := by simp [checkRank1, hx]
  refine ⟨Arr.ofVec n t (fun i => g (proj pb i) (x.vec n (proj bx i))),
    (⟨t, fun i => ld.data (proj ld.shape i)⟩ : Arr).map (fun r => -r),
    by simp [vecBij, h1, h2, h3, bind, Except.bind, pure, Except.pure],
    by simp [vecBij, h1, h3, bind, Except.bind],
    by simp [vecBij, h2, bind, Except.bind, pure, Except.pure], rfl, rfl, ?_⟩
  intro i hi hd
  have hr : InRange pb (proj pb i) := proj_inRange (broadcast_absorb_left ht) hi
  refine ⟨by rw [ofVec_vec, hg _ hr hd], ?_⟩
  show -ld.data (proj ld.shape i) = _
  rw [← hld _ hr hd, proj_proj hl (broadcast_length_t ht hi)]

/-! ### Composition -/

theorem log_abs_mul {a b : ℝ} (h : a * b ≠ 0) : Real.log |a * b| = Real.log |a| + Real.log |b| := by
  rw [abs_mul, Real.log_mul] <;> simp_all

theorem bin_same_ok (f : ℝ → ℝ → ℝ) (a b : Arr) (s : List ℕ) (ha : a.shape = s) (hb : b.shape = s) :
    ∃ c, Arr.bin f a b = .ok c ∧ c.shape = s ∧ ∀ i, InRange s i → c.data i = f (a.data i) (b.data i) :=
  bin_same f a b s ha hb

theorem chain_isAffine_cons {b1 : ArrBij} {bs : List ArrBij} (hne : bs ≠ []) {n : ℕ} {p1 p2 p : List ℕ}
    {A1 A2 : List ℕ → Matrix (Fin n) (Fin n) ℝ} {c1 c2 : List ℕ → Fin n → ℝ}
    (h1 : IsAffine b1 n p1 A1 c1) (h2 : IsAffine (ArrBij.chain bs) n p2 A2 c2)
    (hp : broadcastShapes p1 p2 = some p) :
    IsAffine (ArrBij.chain (b1 :: bs)) n p (fun j => A1 (proj p1 j) * A2 (proj p2 j))
      (fun j => A1 (proj p1 j) *ᵥ c2 (proj p2 j) + c1 (proj p1 j)) := by
  intro bx t x hx ht
  obtain ⟨t2, ht2, ht1⟩ := broadcast_assoc hp ht
  obtain ⟨y, l, e1, e2, e3, sy, sl, hy⟩ := h2 bx t2 x hx ht2
  obtain ⟨z, m, f1, f2, f3, sz, sm, hz⟩ := h1 t2 t y sy ht1
  -- the log-det of the first stage has the smaller shape `t2`
  have hbc : broadcastShapes l.shape m.shape = some t := by
    rw [sl, sm]; exact broadcast_absorb_right ht1
  have hbin : Arr.bin (· + ·) l m =
      .ok ⟨t, fun i => l.data (proj l.shape i) + m.data (proj m.shape i)⟩ := by
    simp [Arr.bin, hbc]
  have hF : ArrBij.chainFwdLd (b1 :: bs) x =
      .ok (z, ⟨t, fun i => l.data (proj l.shape i) + m.data (proj m.shape i)⟩) := by
    obtain ⟨c, cs, rfl⟩ := List.exists_cons_of_ne_nil hne
    have e1' : ArrBij.chainFwdLd (c :: cs) x = .ok (y, l) := e1
    simp only [ArrBij.chainFwdLd, e1', bind, Except.bind, f1, hbin]
    rfl
  refine ⟨z, _, hF, ?_, ?_, sz, rfl, ?_⟩
  · have e2' : ArrBij.chainForward bs x = .ok y := e2
    simp only [ArrBij.chain, ArrBij.chainForward, e2', bind, Except.bind, f2]
  · simp only [ArrBij.chain, hF, bind, Except.bind]; rfl
  · intro i hi
    have hr2 : InRange t2 (proj t2 i) := proj_inRange (broadcast_absorb_right ht1) hi
    have hlt : t2.length ≤ i.length := by
      rw [hi.length]; exact broadcast_length_le (broadcast_absorb_right ht1)
    have hlp : p.length ≤ i.length := broadcast_length_t ht hi
    have q1 : proj p1 (proj p i) = proj p1 i := proj_proj hp hlp
    have q2 : proj p2 (proj p i) = proj p2 i :=
      proj_proj (by rw [broadcastShapes_comm]; exact hp) hlp
    have q3 : proj p2 (proj t2 i) = proj p2 i := proj_proj ht2 hlt
    have q4 : proj bx (proj t2 i) = proj bx i :=
      proj_proj (by rw [broadcastShapes_comm]; exact ht2) hlt
    obtain ⟨v2, d2⟩ := hy _ hr2
    obtain ⟨v1, d1⟩ := hz i hi
    refine ⟨?_, fun hd => ?_⟩
    · simp only [q1, q2]
      rw [v1, v2, q3, q4, Matrix.mulVec_add, Matrix.mulVec_mulVec, add_assoc]
    · simp only [q1, q2] at hd ⊢
      rw [Matrix.det_mul] at hd ⊢
      rw [log_abs_mul hd]
      have n1 := left_ne_zero_of_mul hd
      have n2 := right_ne_zero_of_mul hd
      rw [sl, sm, proj_self hi, d1 n1, d2 (by rw [q3]; exact n2), q3]
      ring

theorem chain_isAffine_single {b : ArrBij} {n : ℕ} {p : List ℕ}
    {A : List ℕ → Matrix (Fin n) (Fin n) ℝ} {c : List ℕ → Fin n → ℝ}
    (h : IsAffine b n p A c) : IsAffine (ArrBij.chain [b]) n p A c := by
  intro bx t x hx ht
  obtain ⟨y, l, e1, e2, e3, sy, sl, hy⟩ := h bx t x hx ht
  refine ⟨y, l, e1, ?_, ?_, sy, sl, hy⟩
  · simp [ArrBij.chain, ArrBij.chainForward, bind, Except.bind, e2]
  · simp [ArrBij.chain, ArrBij.chainFwdLd, bind, Except.bind, e1]; rfl

theorem chain_solves_single {b : ArrBij} {n : ℕ} {p : List ℕ}
    {A : List ℕ → Matrix (Fin n) (Fin n) ℝ} {c : List ℕ → Fin n → ℝ}
    (h : SolvesAffine b n p A c) : SolvesAffine (ArrBij.chain [b]) n p A c := by
  intro bx t x hx ht
  obtain ⟨y, l, e1, e2, e3, sy, sl, hy⟩ := h bx t x hx ht
  have hI : ArrBij.chainInvLd [b] x = .ok (y, l) := by
    simp [ArrBij.chainInvLd, ArrBij.chainInvLoop, bind, Except.bind, e1]
  refine ⟨y, l, hI, ?_, ?_, sy, sl, hy⟩
  · simp [ArrBij.chain, ArrBij.chainInverse, bind, Except.bind, e2]
  · simp [ArrBij.chain, hI, bind, Except.bind]; rfl

theorem chainInvLoop_snoc (bs : List ArrBij) (b : ArrBij) : ∀ (y l : Arr),
    ArrBij.chainInvLoop (bs ++ [b]) y l = (do
      let (x, l1) ← ArrBij.chainInvLoop bs y l
      let (x', ld) ← b.invLd x
      let l' ← Arr.bin (· + ·) l1 ld
      pure (x', l')) := by
  induction bs with
  | nil =>
    intro y l
    simp only [List.nil_append, ArrBij.chainInvLoop, bind, Except.bind]
    cases b.invLd y with
    | error e => rfl
    | ok r => simp only; cases Arr.bin (· + ·) l r.2 <;> rfl
  | cons c bs ih =>
    intro y l
    simp only [List.cons_append, ArrBij.chainInvLoop, bind, Except.bind]
    cases c.invLd y with
    | error e => rfl
    | ok r =>
      simp only
      cases Arr.bin (· + ·) l r.2 with
      | error e => rfl
      | ok r2 => simp only; rw [ih]; rfl

theorem chainInvLd_snoc (bs : List ArrBij) (hne : bs ≠ []) (b : ArrBij) (y : Arr) :
    ArrBij.chainInvLd (bs ++ [b]) y = (do
      let (x, l1) ← ArrBij.chainInvLd bs y
      let (x', ld) ← b.invLd x
      let l' ← Arr.bin (· + ·) l1 ld
      pure (x', l')) := by
  obtain ⟨c, cs, rfl⟩ := List.exists_cons_of_ne_nil hne
  simp only [List.cons_append, ArrBij.chainInvLd, bind, Except.bind]
  cases c.invLd y with
  | error e => rfl
  | ok r => simp only; rw [chainInvLoop_snoc]; rfl

theorem chainInverse_snoc (bs : List ArrBij) (b : ArrBij) : ∀ (y : Arr),
    ArrBij.chainInverse (bs ++ [b]) y = (do
      let x ← ArrBij.chainInverse bs y
      b.inverse x) := by
  induction bs with
  | nil =>
    intro y; simp only [List.nil_append, ArrBij.chainInverse, bind, Except.bind]
    cases b.inverse y <;> rfl
  | cons c bs ih =>
    intro y
    simp only [List.cons_append, ArrBij.chainInverse, bind, Except.bind]
    cases c.inverse y with
    | error e => rfl
    | ok r => simp only; rw [ih]; rfl

theorem chain_solves_snoc {b2 : ArrBij} {bs : List ArrBij} (hne : bs ≠ []) {n : ℕ} {p1 p2 p : List ℕ}
    {A1 A2 : List ℕ → Matrix (Fin n) (Fin n) ℝ} {c1 c2 : List ℕ → Fin n → ℝ}
    (h1 : SolvesAffine (ArrBij.chain bs) n p1 A1 c1) (h2 : SolvesAffine b2 n p2 A2 c2)
    (hp : broadcastShapes p1 p2 = some p) :
    SolvesAffine (ArrBij.chain (bs ++ [b2])) n p (fun j => A1 (proj p1 j) * A2 (proj p2 j))
      (fun j => A1 (proj p1 j) *ᵥ c2 (proj p2 j) + c1 (proj p1 j)) := by
  intro bx t x hx ht
  obtain ⟨t1, ht1, ht2⟩ := broadcast_assoc (by rw [broadcastShapes_comm]; exact hp) ht
  obtain ⟨y, l, e1, e2, e3, sy, sl, hy⟩ := h1 bx t1 x hx ht1
  obtain ⟨z, m, f1, f2, f3, sz, sm, hz⟩ := h2 t1 t y sy ht2
  have hbc : broadcastShapes l.shape m.shape = some t := by
    rw [sl, sm]; exact broadcast_absorb_right ht2
  have hbin : Arr.bin (· + ·) l m =
      .ok ⟨t, fun i => l.data (proj l.shape i) + m.data (proj m.shape i)⟩ := by
    simp [Arr.bin, hbc]
  have hF : ArrBij.chainInvLd (bs ++ [b2]) x =
      .ok (z, ⟨t, fun i => l.data (proj l.shape i) + m.data (proj m.shape i)⟩) := by
    have e1' : ArrBij.chainInvLd bs x = .ok (y, l) := e1
    rw [chainInvLd_snoc bs hne]
    simp only [e1', bind, Except.bind, f1, hbin]
    rfl
  refine ⟨z, _, hF, ?_, ?_, sz, rfl, ?_⟩
  · have e2' : ArrBij.chainInverse bs x = .ok y := e2
    simp only [ArrBij.chain, chainInverse_snoc, e2', bind, Except.bind, f2]
  · simp only [ArrBij.chain, hF, bind, Except.bind]; rfl
  · intro i hi hd
    have hr : InRange t1 (proj t1 i) := proj_inRange (broadcast_absorb_right ht2) hi
    have hlt : t1.length ≤ i.length := by
      rw [hi.length]; exact broadcast_length_le (broadcast_absorb_right ht2)
    have hlp : p.length ≤ i.length := broadcast_length_t ht hi
    have q1 : proj p1 (proj p i) = proj p1 i := proj_proj hp hlp
    have q2 : proj p2 (proj p i) = proj p2 i :=
      proj_proj (by rw [broadcastShapes_comm]; exact hp) hlp
    have q3 : proj p1 (proj t1 i) = proj p1 i := proj_proj ht1 hlt
    have q4 : proj bx (proj t1 i) = proj bx i :=
      proj_proj (by rw [broadcastShapes_comm]; exact ht1) hlt
    simp only [q1, q2] at hd ⊢
    rw [Matrix.det_mul] at hd
    have n1 := left_ne_zero_of_mul hd
    have n2 := right_ne_zero_of_mul hd
    obtain ⟨v1, d1⟩ := hy _ hr (by rw [q3]; exact n1)
    obtain ⟨v2, d2⟩ := hz i hi n2
    rw [q3] at v1 d1
    refine ⟨?_, ?_⟩
    · rw [← Matrix.mulVec_mulVec, ← add_assoc, ← Matrix.mulVec_add, v2, v1, q4]
    · rw [Matrix.det_mul, log_abs_mul hd, sl, sm, proj_self hi, d1, d2]
      ring


/-! ### Triangular matrices -/

theorem tril_det {n : ℕ} (A : Matrix (Fin n) (Fin n) ℝ) : (tril A).det = ∏ i, A i i := by
  have h : (tril A).BlockTriangular OrderDual.toDual := by
    intro i j hij
    have : ¬ j ≤ i := by simpa using hij
    simp [tril, this]
  rw [Matrix.det_of_isLowerTriangular _ h]
  simp [tril]

theorem triu_det {n : ℕ} (A : Matrix (Fin n) (Fin n) ℝ) : (triu A).det = ∏ i, A i i := by
  have h : (triu A).BlockTriangular id := by
    intro i j hij
    have : ¬ i ≤ j := by simpa using hij
    simp [triu, this]
  rw [Matrix.det_of_isUpperTriangular h]
  simp [triu]

theorem log_abs_prod {n : ℕ} (d : Fin n → ℝ) (h : ∏ i, d i ≠ 0) :
    Real.log |∏ i, d i| = ∑ i, Real.log |d i| := by
  rw [Finset.abs_prod, Real.log_prod]
  intro i _
  have := Finset.prod_ne_zero_iff.1 h i (Finset.mem_univ i)
  simpa using this

theorem tril_tril {n : ℕ} (A : Matrix (Fin n) (Fin n) ℝ) : tril (tril A) = tril A := by
  ext i j; simp only [tril]; split_ifs <;> rfl
theorem triu_triu {n : ℕ} (A : Matrix (Fin n) (Fin n) ℝ) : triu (triu A) = triu A := by
  ext i j; simp only [triu]; split_ifs <;> rfl

theorem getLastD_two (ba : List ℕ) (m n : ℕ) : (ba ++ [m, n]).getLastD 0 = n := by
  simp [List.getLastD_eq_getLast?]
theorem dropLast_two (ba : List ℕ) (m n : ℕ) : (ba ++ [m, n]).dropLast = ba ++ [m] := by
  rw [show ba ++ [m, n] = (ba ++ [m]) ++ [n] by simp, List.dropLast_concat]
theorem getLastD_one (ba : List ℕ) (n : ℕ) : (ba ++ [n]).getLastD 0 = n := by
  simp [List.getLastD_eq_getLast?]

theorem triangular_facts (la : LinAlg) (a : Arr) (isLower : Bool) (ba : List ℕ) (n : ℕ)
    (ha : a.shape = ba ++ [n, n]) :
    ∃ M f, TriangularLinear.mk? la a isLower = .ok ⟨n, ba, M, f⟩ ∧
      (∀ i, M i = if isLower then tril (a.mat n n i) else triu (a.mat n n i)) ∧
      IsAffine f n ba M (fun _ => 0) ∧ SolvesAffine f n ba M (fun _ => 0) := by
  obtain ⟨s, d⟩ := a
  simp only at ha
  have e1 : (s.length < 2) = False := by simp [ha]
  have e2 : s.getLastD 0 = n := by rw [ha, getLastD_two]
  have e3 : s.dropLast.dropLast = ba := by rw [ha, dropLast_two]; simp
  have e4 : s.dropLast.getLastD 0 = n := by rw [ha, dropLast_two, getLastD_one]
  unfold TriangularLinear.mk?
  simp only [e1, e4, if_false]
  generalize s.getLastD 0 = m at e2
  subst e2
  simp only [ne_eq, not_true_eq_false, if_false, e3]
  set M : List ℕ → Matrix (Fin m) (Fin m) ℝ :=
    fun i => if isLower then tril ((⟨s, d⟩ : Arr).mat m m i) else triu ((⟨s, d⟩ : Arr).mat m m i) with hM
  have hdet : ∀ i, (M i).det = ∏ k, M i k k := by
    intro i; cases isLower
    · simp only [hM, Bool.false_eq_true, if_false, triu_det]; simp [triu]
    · simp only [hM, if_true, tril_det]; simp [tril]
  have hld : ∀ j, InRange ba j → (M j).det ≠ 0 →
      (⟨ba, fun i => ∑ k, Real.log |M i k k|⟩ : Arr).data (proj ba j) = Real.log |(M j).det| := by
    intro j hj hd
    rw [proj_self hj, hdet, log_abs_prod]
    rwa [← hdet]
  refine ⟨M, _, rfl, fun _ => rfl, ?_, ?_⟩
  · exact vecBij_isAffine m ba _ _ _ M _ (by intro j _ x; show M j *ᵥ x = M j *ᵥ x + 0; simp) (broadcastShapes_self _) hld
  · refine vecBij_solves m ba _ _ _ M _ ?_ (broadcastShapes_self _) hld
    intro j _ hd y
    have hne : ∀ i, M j i i ≠ 0 := by
      intro i
      rw [hdet] at hd
      exact Finset.prod_ne_zero_iff.1 hd i (Finset.mem_univ i)
    have := la.solveTri_spec isLower (M j) y hne
    have hm : (if isLower then tril (M j) else triu (M j)) = M j := by
      cases isLower <;> simp [hM, tril_tril, triu_triu]
    rw [hm] at this
    show M j *ᵥ la.solveTri isLower (M j) y + 0 = y
    rw [this, add_zero]

/-! ### Unconstrained affine -/

theorem unconstrained_facts (la : LinAlg) (a b : Arr) (ba bb p : List ℕ) (n : ℕ)
    (ha : a.shape = ba ++ [n, n]) (hb : b.shape = bb ++ [n]) (hp : broadcastShapes ba bb = some p) :
    ∃ M f c, UnconstrainedAffine.mk? la a b = .ok ⟨⟨n, p, M, f⟩, c⟩ ∧
      (∀ i, M i = a.mat n n (proj ba i)) ∧ (∀ i, c i = b.vec n (proj bb i)) ∧
      IsAffine f n p M c ∧ SolvesAffine f n p M c := by
  obtain ⟨s, d⟩ := a
  obtain ⟨s', d'⟩ := b
  simp only at ha hb
  have e0 : checkAffine s s' = .ok () := by
    simp only [checkAffine, ha, hb, getLastD_two, dropLast_two, getLastD_one]
    simp
  have e2 : s.getLastD 0 = n := by rw [ha, getLastD_two]
  have e3 : s.dropLast.dropLast = ba := by rw [ha, dropLast_two]; simp
  have e5 : s'.dropLast = bb := by rw [hb]; simp
  unfold UnconstrainedAffine.mk?
  simp only [e0, bind, Except.bind, e3, e5, hp]
  generalize s.getLastD 0 = m at e2
  subst e2
  have hld : ∀ j, InRange p j → (((⟨s, d⟩ : Arr).mat m m (proj ba j))).det ≠ 0 →
      (⟨ba, fun i => Real.log |(((⟨s, d⟩ : Arr).mat m m i)).det|⟩ : Arr).data (proj ba j) =
        Real.log |(((⟨s, d⟩ : Arr).mat m m (proj ba j))).det| := fun j _ _ => rfl
  refine ⟨_, _, _, rfl, fun _ => by rw [e3], fun _ => rfl, ?_, ?_⟩
  · simp only [e3, e5]
    exact vecBij_isAffine m p _ _ _ _ _ (by intro j _ x; rfl) (broadcast_absorb_left hp) hld
  · simp only [e3, e5]
    refine vecBij_solves m p _ _ _ _ _ ?_ (broadcast_absorb_left hp) hld
    intro j _ hd y
    show _ *ᵥ la.solve _ _ + _ = _
    rw [la.solve_spec _ _ hd, sub_add_cancel]

/-! ### Shift block and diagonal -/

theorem sum_allIdx_one (n : ℕ) (f : List ℕ → ℝ) :
    ((allIdx [n]).map f).sum = ∑ k : Fin n, f [k.val] := by
  have : allIdx [n] = (List.range n).map (fun k => [k]) := by
    simp [allIdx]
    induction n with
    | zero => rfl
    | succ n ih => simp [List.range_succ, List.flatMap_append, ih]
  rw [this, List.map_map, ← List.sum_ofFn, ← List.map_coe_finRange_eq_range, List.map_map,
    List.ofFn_eq_map]
  rfl

theorem sumLast_one {l : Arr} {t : List ℕ} {n : ℕ} (hl : l.shape = t ++ [n]) :
    ∃ l', l.sumLast 1 = .ok l' ∧ l'.shape = t ∧ ∀ i, l'.data i = ∑ k : Fin n, l.data (i ++ [k.val]) := by
  refine ⟨⟨t, fun i => ((allIdx [n]).map (fun j => l.data (i ++ j))).sum⟩, ?_, rfl, ?_⟩
  · simp [Arr.sumLast, hl]
  · intro i; exact sum_allIdx_one n (fun j => l.data (i ++ j))


theorem vec_ext {n : ℕ} {y : Arr} {i : List ℕ} {f : Fin n → ℝ} (h : ∀ k, y.data (i ++ [k.val]) = f k) :
    y.vec n i = f := funext h

theorem inRange_one {n : ℕ} (k : Fin n) : InRange [n] [k.val] := List.Forall₂.cons k.2 List.Forall₂.nil

/-- Entry of a broadcast batch of vectors. -/
theorem proj_vec {bs t : List ℕ} {n : ℕ} {i : List ℕ} (h : broadcastShapes bs t = some t)
    (hi : InRange t i) (k : Fin n) : proj (bs ++ [n]) (i ++ [k.val]) = proj bs i ++ [k.val] :=
  proj_append (inRange_one k) (by rw [hi.length]; exact broadcast_length_le h)

theorem bin_vec {x y : Arr} {bx b_y t : List ℕ} {n : ℕ} (f : ℝ → ℝ → ℝ) (hx : x.shape = bx ++ [n])
    (hy : y.shape = b_y ++ [n]) (ht : broadcastShapes bx b_y = some t) :
    ∃ z, Arr.bin f x y = .ok z ∧ z.shape = t ++ [n] ∧ ∀ i, InRange t i → ∀ k : Fin n,
      z.data (i ++ [k.val]) = f (x.data (proj bx i ++ [k.val])) (y.data (proj b_y i ++ [k.val])) := by
  have h : broadcastShapes x.shape y.shape = some (t ++ [n]) := by
    rw [hx, hy, broadcast_append, ht]; rfl
  refine ⟨⟨t ++ [n], fun i => f (x.data (proj x.shape i)) (y.data (proj y.shape i))⟩,
    by simp [Arr.bin, h], rfl, ?_⟩
  intro i hi k
  simp only
  rw [hx, hy, proj_vec (broadcast_absorb_left ht) hi, proj_vec (broadcast_absorb_right ht) hi]

theorem shiftBlock_facts (b : Arr) (bb : List ℕ) (n : ℕ) (hb : b.shape = bb ++ [n]) :
    IsAffine (ArrBij.ofBij (Bij.block (Bij.shift ⟨0, b⟩) 1)) n bb (fun _ => 1) (fun i => b.vec n i) ∧
    SolvesAffine (ArrBij.ofBij (Bij.block (Bij.shift ⟨0, b⟩) 1)) n bb (fun _ => 1) (fun i => b.vec n i) := by
  constructor
  · intro bx t x hx ht
    have ht' : broadcastShapes bx bb = some t := by rw [broadcastShapes_comm]; exact ht
    obtain ⟨z, hz, sz, dz⟩ := bin_vec (· + ·) hx hb ht'
    have hs : Bij.shiftFldj ⟨0, b⟩ x = .ok (Arr.zeros (t ++ [n])) := by
      simp [Bij.shiftFldj, hb, hx, broadcast_append, ht]
    obtain ⟨l, hl, sl, dl⟩ := sumLast_one (l := Arr.zeros (t ++ [n])) (t := t) (n := n) rfl
    have hc : Bij.checkFwd (1 + (Bij.shift ⟨0, b⟩).ndimsIn) x = .ok () := by
      simp [Bij.checkFwd, Bij.ndimsIn, hx]
    refine ⟨z, l, ?_, ?_, ?_, sz, sl, ?_⟩
    · simp only [ArrBij.ofBij, Bij.fwdAndLd, hc, bind, Except.bind, hz, hs, pure, Except.pure, hl]
    · simp only [ArrBij.ofBij, Bij.forward, hc, bind, Except.bind, hz]
    · simp only [ArrBij.ofBij, Bij.fldj, hc, bind, Except.bind, hs, hl]
    · intro i hi
      refine ⟨vec_ext fun k => ?_, fun _ => ?_⟩
      · rw [dz i hi k]; simp [Arr.vec]
      · rw [dl]; simp [Arr.zeros]
  · intro bx t x hx ht
    have ht' : broadcastShapes bx bb = some t := by rw [broadcastShapes_comm]; exact ht
    obtain ⟨z, hz, sz, dz⟩ := bin_vec (· - ·) hx hb ht'
    have hs : Bij.shiftFldj ⟨0, b⟩ x = .ok (Arr.zeros (t ++ [n])) := by
      simp [Bij.shiftFldj, hb, hx, broadcast_append, ht]
    obtain ⟨l, hl, sl, dl⟩ := sumLast_one (l := Arr.zeros (t ++ [n])) (t := t) (n := n) rfl
    have hc : Bij.checkFwd (1 + (Bij.shift ⟨0, b⟩).ndimsOut) x = .ok () := by
      simp [Bij.checkFwd, Bij.ndimsOut, hx]
    refine ⟨z, l, ?_, ?_, ?_, sz, sl, ?_⟩
    · simp only [ArrBij.ofBij, Bij.invAndLd, hc, bind, Except.bind, hz, hs, pure, Except.pure, hl]
    · simp only [ArrBij.ofBij, Bij.inv, hc, bind, Except.bind, hz]
    · simp only [ArrBij.ofBij, Bij.ildj, hc, bind, Except.bind, hs, hl]
    · intro i hi _
      refine ⟨?_, ?_⟩
      · rw [Matrix.one_mulVec]
        funext k
        show z.data (i ++ [k.val]) + b.data (proj bb i ++ [k.val]) = x.data (proj bx i ++ [k.val])
        rw [dz i hi k]; ring
      · rw [dl]; simp [Arr.zeros]

theorem broadcastTo_vec {a : Arr} {ba t : List ℕ} {n : ℕ} (ha : a.shape = ba ++ [n])
    (h : broadcastShapes ba t = some t) :
    ∃ z, a.broadcastTo (t ++ [n]) = .ok z ∧ z.shape = t ++ [n] ∧ ∀ i, InRange t i → ∀ k : Fin n,
      z.data (i ++ [k.val]) = a.data (proj ba i ++ [k.val]) := by
  have h' : broadcastShapes a.shape (t ++ [n]) = some (t ++ [n]) := by
    rw [ha, broadcast_append, h]; rfl
  refine ⟨⟨t ++ [n], fun i => a.data (proj a.shape i)⟩, by simp [Arr.broadcastTo, h'], rfl, ?_⟩
  intro i hi k
  simp only
  rw [ha, proj_vec h hi]

theorem broadcastTo_scalar (r : ℝ) (s : List ℕ) :
    (Arr.scalar r).broadcastTo s = .ok ⟨s, fun _ => r⟩ := by
  simp [Arr.broadcastTo, Arr.scalar, broadcastShapes_nil]

theorem diag_facts (d : Arr) (bd : List ℕ) (n : ℕ) (hd : d.shape = bd ++ [n]) :
    ∃ M f, DiagLinear.mk? d = .ok ⟨n, bd, M, f⟩ ∧ (∀ i, M i = Matrix.diagonal (d.vec n i)) ∧
      IsAffine f n bd M (fun _ => 0) ∧ SolvesAffine f n bd M (fun _ => 0) := by
  obtain ⟨s, dd⟩ := d
  simp only at hd
  have e1 : (s.length < 1) = False := by simp [hd]
  have e2 : s.getLastD 0 = n := by rw [hd, getLastD_one]
  have e3 : s.dropLast = bd := by rw [hd]; simp
  unfold DiagLinear.mk?
  simp only [e1, if_false, Bij.mkScalarAffine, Bij.mkBlock, bind, Except.bind, Arr.scalar,
    broadcastShapes_nil, pure, Except.pure]
  generalize s.getLastD 0 = m at e2
  subst e2
  rw [if_neg (by decide), e3, Int.toNat_one]
  refine ⟨_, _, rfl, fun _ => rfl, ?_, ?_⟩
  · intro bx t x hx ht
    have hall : broadcastShapes s x.shape = some (t ++ [m]) := by
      rw [hd, hx, broadcast_append, ht]; rfl
    have h1 := broadcast_absorb_left ht
    obtain ⟨bsc, hbsc, sbsc, dbsc⟩ := broadcastTo_vec (a := ⟨s, dd⟩) hd h1
    obtain ⟨bls, hbls, sbls, dbls⟩ :=
      broadcastTo_vec (a := (⟨s, dd⟩ : Arr).map (fun r => Real.log |r|)) (by exact hd) h1
    obtain ⟨p, hp, sp, dp⟩ := bin_vec (· * ·) sbsc hx (by
      rw [broadcastShapes_comm]; exact broadcast_absorb_right ht)
    obtain ⟨y, hy, sy, dy⟩ := bin_vec (y := ⟨t ++ [m], fun _ => 0⟩) (· + ·) sp rfl (broadcastShapes_self t)
    have hsa : Bij.saForward ⟨0, ⟨[], fun _ => 0⟩⟩ ⟨0, ⟨s, dd⟩⟩ x = .ok y := by
      have hz := broadcastTo_scalar 0 (t ++ [m])
      simp only [Arr.scalar] at hz
      simp only [Bij.saForward, broadcastShapes_nil, hall, bind, Except.bind, hbsc, hz, hp, hy]
    have hsl : Bij.saFldj ⟨0, ⟨[], fun _ => 0⟩⟩ ⟨0, ⟨s, dd⟩⟩
        ⟨0, (⟨s, dd⟩ : Arr).map (fun r => Real.log |r|)⟩ x = .ok bls := by
      simp only [Bij.saFldj, broadcastShapes_nil, hall, bind, Except.bind, hbls]
    obtain ⟨l, hl, sl, dl⟩ := sumLast_one sbls
    have hc : ∀ a b c d, Bij.checkFwd (1 + (Bij.scalarAffine a b c d).ndimsIn) x = .ok () := by
      simp [Bij.checkFwd, Bij.ndimsIn, hx]
    refine ⟨y, l, ?_, ?_, ?_, sy, sl, ?_⟩
    · simp only [ArrBij.ofBij, Bij.fwdAndLd, hc, bind, Except.bind, hsa, hsl, pure, Except.pure, hl]
    · simp only [ArrBij.ofBij, Bij.forward, hc, bind, Except.bind, hsa]
    · simp only [ArrBij.ofBij, Bij.fldj, hc, bind, Except.bind, hsl, hl]
    · intro i hi
      refine ⟨vec_ext fun k => ?_, fun hdet => ?_⟩
      · rw [dy i hi k, proj_self hi, dp i hi k, proj_self hi, dbsc i hi k]
        simp [Matrix.mulVec_diagonal, Arr.vec]
      · rw [dl, Matrix.det_diagonal, log_abs_prod _ (by rwa [Matrix.det_diagonal] at hdet)]
        exact Finset.sum_congr rfl fun k _ => dbls i hi k
  · intro bx t x hx ht
    have hall : broadcastShapes s x.shape = some (t ++ [m]) := by
      rw [hd, hx, broadcast_append, ht]; rfl
    have h1 := broadcast_absorb_left ht
    obtain ⟨bsc, hbsc, sbsc, dbsc⟩ := broadcastTo_vec (a := (⟨s, dd⟩ : Arr).map (fun r => 1 / r)) hd h1
    obtain ⟨bls, hbls, sbls, dbls⟩ :=
      broadcastTo_vec (a := ((⟨s, dd⟩ : Arr).map (fun r => Real.log |r|)).map (fun r => -r)) (by exact hd) h1
    obtain ⟨p, hp, sp, dp⟩ := bin_vec (y := ⟨t ++ [m], fun _ => 0⟩) (· - ·) hx rfl
      (broadcast_absorb_right ht)
    obtain ⟨y, hy, sy, dy⟩ := bin_vec (· * ·) sbsc sp (broadcastShapes_self t)
    have hsa : Bij.saInverse ⟨0, ⟨[], fun _ => 0⟩⟩ ⟨0, ⟨s, dd⟩⟩ ⟨0, (⟨s, dd⟩ : Arr).map (fun r => 1 / r)⟩ x
        = .ok y := by
      have hz := broadcastTo_scalar 0 (t ++ [m])
      simp only [Arr.scalar] at hz
      simp only [Bij.saInverse, broadcastShapes_nil, hall, bind, Except.bind, hbsc, hz, hp, hy]
    have hsl : Bij.saIldj ⟨0, ⟨[], fun _ => 0⟩⟩ ⟨0, ⟨s, dd⟩⟩
        ⟨0, (⟨s, dd⟩ : Arr).map (fun r => Real.log |r|)⟩ x = .ok bls := by
      simp only [Bij.saIldj, broadcastShapes_nil, hall, bind, Except.bind, hbls]
    obtain ⟨l, hl, sl, dl⟩ := sumLast_one sbls
    have hc : ∀ a b c d, Bij.checkFwd (1 + (Bij.scalarAffine a b c d).ndimsOut) x = .ok () := by
      simp [Bij.checkFwd, Bij.ndimsOut, hx]
    refine ⟨y, l, ?_, ?_, ?_, sy, sl, ?_⟩
    · simp only [ArrBij.ofBij, Bij.invAndLd, hc, bind, Except.bind, hsa, hsl, pure, Except.pure, hl]
    · simp only [ArrBij.ofBij, Bij.inv, hc, bind, Except.bind, hsa]
    · simp only [ArrBij.ofBij, Bij.ildj, hc, bind, Except.bind, hsl, hl]
    · intro i hi hdet
      rw [Matrix.det_diagonal] at hdet
      have hne : ∀ k : Fin m, dd (proj bd i ++ [k.val]) ≠ 0 := fun k =>
        Finset.prod_ne_zero_iff.1 hdet k (Finset.mem_univ k)
      refine ⟨?_, ?_⟩
      · funext k
        rw [add_zero, Matrix.mulVec_diagonal]
        show dd (proj bd i ++ [k.val]) * y.data (i ++ [k.val]) = x.data (proj bx i ++ [k.val])
        rw [dy i hi k, proj_self hi, dp i hi k, dbsc i hi k]
        simp only [Arr.map, sub_zero]
        rw [one_div, mul_inv_cancel_left₀ (hne k)]
      · rw [dl, Matrix.det_diagonal, log_abs_prod _ hdet, ← Finset.sum_neg_distrib]
        exact Finset.sum_congr rfl fun k _ => dbls i hi k


theorem IsAffine.congr {b : ArrBij} {n : ℕ} {pb : List ℕ} {A A' : List ℕ → Matrix (Fin n) (Fin n) ℝ}
    {c c' : List ℕ → Fin n → ℝ} (h : IsAffine b n pb A c)
    (hA : ∀ j, InRange pb j → A j = A' j ∧ c j = c' j) : IsAffine b n pb A' c' := by
  intro bx t x hx ht
  obtain ⟨y, l, e1, e2, e3, sy, sl, hy⟩ := h bx t x hx ht
  refine ⟨y, l, e1, e2, e3, sy, sl, fun i hi => ?_⟩
  obtain ⟨q1, q2⟩ := hA _ (proj_inRange (broadcast_absorb_left ht) hi)
  rw [← q1, ← q2]; exact hy i hi

theorem SolvesAffine.congr {b : ArrBij} {n : ℕ} {pb : List ℕ} {A A' : List ℕ → Matrix (Fin n) (Fin n) ℝ}
    {c c' : List ℕ → Fin n → ℝ} (h : SolvesAffine b n pb A c)
    (hA : ∀ j, InRange pb j → A j = A' j ∧ c j = c' j) : SolvesAffine b n pb A' c' := by
  intro bx t x hx ht
  obtain ⟨y, l, e1, e2, e3, sy, sl, hy⟩ := h bx t x hx ht
  refine ⟨y, l, e1, e2, e3, sy, sl, fun i hi => ?_⟩
  obtain ⟨q1, q2⟩ := hA _ (proj_inRange (broadcast_absorb_left ht) hi)
  rw [← q1, ← q2]; exact hy i hi

theorem lu_facts (la : LinAlg) (a b : Arr) (ba bb p : List ℕ) (n : ℕ)
    (ha : a.shape = ba ++ [n, n]) (hb : b.shape = bb ++ [n]) (hp : broadcastShapes bb ba = some p) :
    ∃ M f c, LowerUpperTriangularAffine.mk? la a b = .ok ⟨⟨n, p, M, f⟩, c⟩ ∧
      (∀ i, M i = tril ((unitLower a).mat n n (proj ba i)) * triu (a.mat n n (proj ba i))) ∧
      (∀ i, c i = b.vec n (proj bb i)) ∧
      IsAffine f n p M c ∧ SolvesAffine f n p M c := by
  obtain ⟨MU, fU, hU, mU, aU, sU⟩ := triangular_facts la a false ba n ha
  obtain ⟨ML, fL, hL, mL, aL, sL⟩ := triangular_facts la (unitLower a) true ba n ha
  obtain ⟨aS, sS⟩ := shiftBlock_facts b bb n hb
  have e0 : checkAffine a.shape b.shape = .ok () := by
    simp only [checkAffine, ha, hb, getLastD_two, dropLast_two, getLastD_one]
    simp
  have e2 : a.shape.getLastD 0 = n := by rw [ha, getLastD_two]
  have e3 : a.shape.dropLast.dropLast = ba := by rw [ha, dropLast_two]; simp
  have e5 : b.shape.dropLast = bb := by rw [hb]; simp
  unfold LowerUpperTriangularAffine.mk?
  simp only [e0, bind, Except.bind, hU, hL, Bij.mkBlock]
  rw [if_neg (by decide), Int.toNat_one]
  generalize a.shape.getLastD 0 = m at e2
  subst e2
  generalize a.shape.dropLast.dropLast = q at e3
  subst e3
  generalize b.shape.dropLast = q' at e5
  subst e5
  have hq : (broadcastShapes q' q).getD [] = p := by rw [hp]; rfl
  generalize (broadcastShapes q' q).getD [] = p' at hq
  subst hq
  refine ⟨_, _, _, rfl, fun i => rfl, fun i => rfl, ?_, ?_⟩
  · have h1 := chain_isAffine_cons (by simp) aL (chain_isAffine_single aU) (broadcastShapes_self _)
    have h2 := chain_isAffine_cons (by simp) aS h1 hp
    refine h2.congr fun j hj => ⟨?_, ?_⟩
    · have hr := proj_inRange (broadcast_absorb_right hp) hj
      simp [proj_self hr, mL, mU]
    · simp
  · have h1 := chain_solves_snoc (by simp) (chain_solves_single sS) sL hp
    have h2 := chain_solves_snoc (by simp) h1 sU (by
      rw [broadcastShapes_comm]; exact broadcast_absorb_right hp)
    refine SolvesAffine.congr h2 fun j hj => ⟨?_, ?_⟩
    · simp [proj_self hj, mL, mU]
    · simp [proj_self hj]

/-! ### Low rank -/

theorem broadcast_trans {a b c : List ℕ} (h1 : broadcastShapes a b = some b)
    (h2 : broadcastShapes b c = some c) : broadcastShapes a c = some c := by
  obtain ⟨u, hu1, hu2⟩ := broadcast_assoc h1 h2
  rw [h2] at hu1; cases hu1; exact hu2

theorem idPlusLowRank_facts (la : LinAlg) (n k : ℕ) (w v : Arr) (bw bv p : List ℕ)
    (hw : w.shape = bw ++ [n, k]) (hv : v.shape = bv ++ [n, k]) (hp : broadcastShapes bw bv = some p) :
    ∃ f, idPlusLowRank la n k w v = .ok f ∧
      IsAffine f n p (fun i => 1 + w.mat n k (proj bw i) * (v.mat n k (proj bv i))ᵀ) (fun _ => 0) ∧
      SolvesAffine f n p (fun i => 1 + w.mat n k (proj bw i) * (v.mat n k (proj bv i))ᵀ) (fun _ => 0) := by
  have e1 : w.shape.dropLast.dropLast = bw := by rw [hw, dropLast_two]; simp
  have e2 : v.shape.dropLast.dropLast = bv := by rw [hv, dropLast_two]; simp
  unfold idPlusLowRank
  simp only [e1, e2, hp]
  refine ⟨_, rfl, ?_, ?_⟩
  · refine vecBij_isAffine n p _ _ _ _ _ ?_ (broadcastShapes_self p) ?_
    · intro j _ x
      simp [Matrix.add_mulVec, ← Matrix.mulVec_mulVec]
    · intro j hj _
      simp only [proj_self hj]
      rw [Matrix.det_one_add_mul_comm]
  · refine vecBij_solves n p _ _ _ _ _ ?_ (broadcastShapes_self p) ?_
    · intro j _ hd y
      rw [Matrix.det_one_add_mul_comm] at hd
      set W := w.mat n k (proj bw j)
      set V := v.mat n k (proj bv j)
      have hs := la.solve_spec _ (Vᵀ *ᵥ y) hd
      set s := la.solve (1 + Vᵀ * W) (Vᵀ *ᵥ y)
      rw [add_zero, Matrix.add_mulVec, Matrix.one_mulVec, ← Matrix.mulVec_mulVec, Matrix.mulVec_sub,
        ← hs, Matrix.add_mulVec, Matrix.one_mulVec, Matrix.mulVec_mulVec, add_sub_cancel_right,
        sub_add_cancel]
    · intro j hj _
      simp only [proj_self hj]
      rw [Matrix.det_one_add_mul_comm]

theorem proj_append' {a e i k : List ℕ} (hk : k.length = e.length) (hl : a.length ≤ i.length) :
    proj (a ++ e) (i ++ k) = proj a i ++ List.zipWith (fun d k => if d = 1 then 0 else k) e k := by
  unfold proj
  have e1 : (i ++ k).length - (a ++ e).length = i.length - a.length := by simp [hk]; omega
  rw [e1, List.drop_append_of_le_length (by omega), List.zipWith_append (by simp; omega)]

theorem broadcast_expand (bu bd b1 : List ℕ) (n k : ℕ) (h : broadcastShapes bu bd = some b1) :
    broadcastShapes (bu ++ [n, k]) (bd ++ [n] ++ [1]) = some (b1 ++ [n, k]) := by
  rw [broadcastShapes_iff] at *
  have hk : bdim k 1 = some k := by simp only [bdim]; split_ifs <;> simp_all
  simp [brev, bdim_self, h, hk]

theorem divide_facts (d u : Arr) (bd bu b1 : List ℕ) (n k : ℕ) (hd : d.shape = bd ++ [n])
    (hu : u.shape = bu ++ [n, k]) (h : broadcastShapes bd bu = some b1) :
    ∃ w, Arr.bin (· / ·) u d.expandLast = .ok w ∧ w.shape = b1 ++ [n, k] ∧
      ∀ i, InRange b1 i → ∀ r c, w.mat n k i r c =
        u.mat n k (proj bu i) r c / d.vec n (proj bd i) r := by
  have h' : broadcastShapes bu bd = some b1 := by rw [broadcastShapes_comm]; exact h
  have hb := broadcast_expand bu bd b1 n k h'
  have hs : d.expandLast.shape = bd ++ [n] ++ [1] := by simp [Arr.expandLast, hd]
  refine ⟨⟨b1 ++ [n, k], fun i => u.data (proj u.shape i) / d.expandLast.data (proj d.expandLast.shape i)⟩,
    ?_, rfl, ?_⟩
  · simp only [Arr.bin]
    rw [hu, hs, hb]
  · intro i hi r c
    have l1 : bu.length ≤ i.length := by rw [hi.length]; exact broadcast_length_le h'
    have l2 : bd.length ≤ i.length := by rw [hi.length]; exact broadcast_length_le h
    simp only [Arr.mat, Arr.vec]
    rw [hu, hs]
    congr 1
    · rw [proj_append (List.Forall₂.cons r.2 (List.Forall₂.cons c.2 List.Forall₂.nil)) l1]
    · rw [List.append_assoc, proj_append' (by simp) l2]
      simp only [Arr.expandLast]
      simp only [List.cons_append, List.nil_append, List.zipWith_cons_cons, if_true,
        List.zipWith_nil_left]
      rw [dropLast_two]
      have hr : (if n = 1 then 0 else r.val) = r.val := by
        split_ifs with h
        · have := r.2; omega
        · rfl
      rw [hr]

theorem lowRank_facts (la : LinAlg) (d u v : Arr) (bd bu bv b1 p : List ℕ) (n k : ℕ)
    (hd : d.shape = bd ++ [n]) (hu : u.shape = bu ++ [n, k]) (hv : v.shape = bv ++ [n, k])
    (h1 : broadcastShapes bd bu = some b1) (hp : broadcastShapes b1 bv = some p)
    (hne : ∀ j, InRange bd j → ∀ r, d.vec n j r ≠ 0) :
    ∃ M f, DiagPlusLowRankLinear.mk? la d u v = .ok ⟨n, p, M, f⟩ ∧
      (∀ i, M i = Matrix.diagonal (d.vec n (proj bd i)) +
        u.mat n k (proj bu i) * (v.mat n k (proj bv i))ᵀ) ∧
      IsAffine f n p M (fun _ => 0) ∧ SolvesAffine f n p M (fun _ => 0) := by
  obtain ⟨w, ew, sw, dw⟩ := divide_facts d u bd bu b1 n k hd hu h1
  obtain ⟨fl, hfl, al, sl⟩ := idPlusLowRank_facts la n k w v b1 bv p sw hv hp
  obtain ⟨Md, fd, hfd, md, ad, sd⟩ := diag_facts d bd n hd
  have e0 : checkLowRank d.shape u.shape v.shape = .ok () := by
    simp only [checkLowRank, hd, hu, hv, getLastD_two, dropLast_two, getLastD_one]
    simp
  have e2 : d.shape.getLastD 0 = n := by rw [hd, getLastD_one]
  have e2' : u.shape.getLastD 0 = k := by rw [hu, getLastD_two]
  have e3 : u.shape.dropLast.dropLast = bu := by rw [hu, dropLast_two]; simp
  have e4 : v.shape.dropLast.dropLast = bv := by rw [hv, dropLast_two]; simp
  have e5 : d.shape.dropLast = bd := by rw [hd]; simp
  have hdp : broadcastShapes bd p = some p := broadcast_trans (broadcast_absorb_left h1)
    (broadcast_absorb_left hp)
  unfold DiagPlusLowRankLinear.mk?
  simp only [e0, bind, Except.bind, ew, hfd]
  generalize d.shape.getLastD 0 = m at e2
  subst e2
  generalize u.shape.getLastD 0 = k' at e2'
  subst e2'
  simp only [hfl, e3, e4, e5, h1, hp]
  have key : ∀ j, InRange p j →
      Md (proj bd j) * (1 + w.mat m k' (proj b1 (proj p j)) * (v.mat m k' (proj bv (proj p j)))ᵀ) =
        Matrix.diagonal (d.vec m (proj bd j)) + u.mat m k' (proj bu j) * (v.mat m k' (proj bv j))ᵀ := by
    intro j hj
    rw [proj_self hj, md, Matrix.mul_add, Matrix.mul_one, ← Matrix.mul_assoc]
    congr 2
    ext r c
    have hb1 : broadcastShapes b1 p = some p := broadcast_absorb_left hp
    have hr1 : InRange b1 (proj b1 j) := proj_inRange hb1 hj
    have lj : b1.length ≤ j.length := by rw [hj.length]; exact broadcast_length_le hb1
    rw [Matrix.diagonal_mul, dw _ hr1, proj_proj h1 lj,
      proj_proj (by rw [broadcastShapes_comm]; exact h1) lj,
      mul_div_cancel₀ _ (hne _ (proj_inRange hdp hj) r)]
  refine ⟨_, _, rfl, fun i => rfl, ?_, ?_⟩
  · have h2 := chain_isAffine_cons (by simp) ad (chain_isAffine_single al) hdp
    exact h2.congr fun j hj => ⟨key j hj, by simp⟩
  · have h2 := chain_solves_snoc (by simp) (chain_solves_single sd) sl hdp
    exact SolvesAffine.congr h2 fun j hj => ⟨key j hj, by simp⟩

/-! ### Round trip -/

theorem roundtrip {f : ArrBij} {n : ℕ} {p : List ℕ} {M : List ℕ → Matrix (Fin n) (Fin n) ℝ}
    {c : List ℕ → Fin n → ℝ} (ha : IsAffine f n p M c) (hs : SolvesAffine f n p M c)
    (hM : ∀ j, InRange p j → (M j).det ≠ 0) (x : Arr) (bx t : List ℕ) (hx : x.shape = bx ++ [n])
    (ht : broadcastShapes p bx = some t) :
    ∃ y l x' l', f.fwdLd x = .ok (y, l) ∧ f.invLd y = .ok (x', l') ∧ x'.shape = t ++ [n] ∧
      l'.shape = l.shape ∧
      ∀ i, InRange t i → x'.vec n i = x.vec n (proj bx i) ∧ l'.data i = -l.data i := by
  obtain ⟨y, l, e1, -, -, sy, sl, hy⟩ := ha bx t x hx ht
  have ht' := broadcast_absorb_left ht
  obtain ⟨x', l', f1, -, -, sx', sl', hx'⟩ := hs t t y sy ht'
  refine ⟨y, l, x', l', e1, f1, sx', by rw [sl, sl'], fun i hi => ?_⟩
  have hd := hM _ (proj_inRange ht' hi)
  obtain ⟨v1, d1⟩ := hy i hi
  obtain ⟨v2, d2⟩ := hx' i hi hd
  refine ⟨?_, by rw [d2, d1 hd]⟩
  rw [proj_self hi, v1] at v2
  have v3 := add_right_cancel v2
  have hu : IsUnit (M (proj p i)).det := isUnit_iff_ne_zero.2 hd
  have := congrArg (fun z => (M (proj p i))⁻¹ *ᵥ z) v3
  simpa [Matrix.mulVec_mulVec, Matrix.nonsing_inv_mul _ hu] using this

end Distrax
