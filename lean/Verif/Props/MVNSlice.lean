import Verif.Model.MVNSlice
import Verif.Props.MVN2
import Verif.Props.Shape

/-! **C54** (multivariate normals): slicing the batch of an object slices its law. -/

namespace Distrax

open Matrix Spec

variable {n : ℕ} {batch : List ℕ}

theorem Represents.congr {d : MVN} {b b' : List ℕ → Fin n → ℝ} {C C' : List ℕ → Matrix (Fin n) (Fin n) ℝ}
    (h : Represents d n batch b C) (hb : ∀ i, InRange batch i → b' i = b i) (hC : ∀ i, InRange batch i → C' i = C i) :
    Represents d n batch b' C' := by
  obtain ⟨bl, p, M, f, h1, h2, h3⟩ := h
  exact ⟨bl, p, M, f, h1, h2, fun i hi => ⟨(hb i hi).trans (h3 i hi).1, (hC i hi).trans (h3 i hi).2⟩⟩

theorem Represents.batch_eq {d : MVN} {b : List ℕ → Fin n → ℝ} {C : List ℕ → Matrix (Fin n) (Fin n) ℝ}
    (h : Represents d n batch b C) : d.batch = batch := by
  obtain ⟨_, _, _, _, _, h2, _⟩ := h; exact h2

theorem Represents.dim {d : MVN} {b : List ℕ → Fin n → ℝ} {C : List ℕ → Matrix (Fin n) (Fin n) ℝ}
    (h : Represents d n batch b C) : d.dim = n := by
  obtain ⟨_, _, _, _, h1, _, _⟩ := h; exact h1.dim

theorem broadcastTo_rest {a : Arr} {ba t rest : List ℕ} (ha : a.shape = ba ++ rest) (h : broadcastShapes ba t = some t) :
    ∃ z, a.broadcastTo (t ++ rest) = .ok z ∧ z.shape = t ++ rest ∧ ∀ i e, InRange t i → InRange rest e →
      z.data (i ++ e) = a.data (proj ba i ++ e) := by
  refine ⟨_, if_pos (by rw [ha, broadcast_append, h]; rfl), rfl, fun i e hi he => ?_⟩
  show a.data (proj a.shape (i ++ e)) = _
  rw [ha, proj_append he (by rw [hi.length]; exact broadcast_length_le h)]

/-- Reading one parameter of a sliced object. -/
theorem slice_rest {a : Arr} {rest : List ℕ} (hb : batch ≠ []) {idx : Index} (hok : idx.Ok batch) {r : Sel}
    (hr : npSelect batch idx = .ok r) {i : Index} (hi : toBatchShapeIndex batch idx = .ok i) (ha : a.shape = batch ++ rest) :
    ∃ out, a.index i = .ok out ∧ out.shape = r.shape ++ rest ∧ ∀ j e, InRange r.shape j → InRange rest e →
      InRange batch (r.sel j) ∧ out.data (j ++ e) = a.data (r.sel j ++ e) := by
  obtain ⟨i', out, h1, h2, h3, h4⟩ := C19_index_batch_axes batch rest hb idx hok r hr a ha
  rw [hi] at h1; cases h1
  exact ⟨out, h2, h3, h4⟩

theorem inRange_one' (k : Fin n) : InRange [n] [k.val] := List.Forall₂.cons k.2 List.Forall₂.nil

theorem represents_loc {d : MVN} {b : List ℕ → Fin n → ℝ} {C : List ℕ → Matrix (Fin n) (Fin n) ℝ}
    (h : Represents d n batch b C) (hb : batch ≠ []) {idx : Index} (hok : idx.Ok batch) {r : Sel}
    (hr : npSelect batch idx = .ok r) {i : Index} (hi : toBatchShapeIndex batch idx = .ok i) :
    ∃ m out, d.loc = .ok m ∧ m.index i = .ok out ∧ out.shape = r.shape ++ [n] ∧
      ∀ j, InRange r.shape j → out.vec n j = b (r.sel j) := by
  obtain ⟨m, h1, h2, h3⟩ := (C37_methods h).mean
  obtain ⟨out, o1, o2, o3⟩ := slice_rest hb hok hr hi h2
  refine ⟨m, out, h1, o1, o2, fun j hj => ?_⟩
  funext k
  obtain ⟨k1, k2⟩ := o3 j [k.val] hj (inRange_one' k)
  rw [← h3 _ k1]; exact k2

theorem toIdx {idx : Index} (hb : batch ≠ []) {r : Sel} (hr : npSelect batch idx = .ok r) :
    ∃ i, toBatchShapeIndex batch idx = .ok i := ⟨_, by rw [toBatchShapeIndex, if_neg hb, hr]⟩

theorem sel_inRange {idx : Index} (hok : idx.Ok batch) {r : Sel} (hr : npSelect batch idx = .ok r) {j : List ℕ}
    (hj : InRange r.shape j) : InRange batch (r.sel j) := npSelect_inRange hok hr hj

/-- What slicing must achieve: both objects are batches of Gaussians, and entry `j` of the slice `d'` has the mean and covariance
of the entry of `d` that numpy indexing selects.  (By `IsMVN` every method then agrees as well.) -/
def SlicesMVN (d d' : MVN) (n : ℕ) (batch : List ℕ) (r : Sel) : Prop :=
  ∃ b C, IsMVN d n batch b C ∧ IsMVN d' n r.shape (fun j => b (r.sel j)) (fun j => C (r.sel j))

/-- **Diagonal variant.** -/
theorem C54_mvn_diag (loc sd : Option Arr) (bl bs t : List ℕ) (hsome : loc.isSome ∨ sd.isSome) (hl : OptShape loc bl [n])
    (hs : OptShape sd bs [n]) (ht : broadcastShapes bl bs = some t)
    (hnz : ∀ s, sd = some s → ∀ j, InRange bs j → ∀ k : Fin n, s.data (j ++ [k.val]) ≠ 0)
    (hb : t ≠ []) (idx : Index) (hok : idx.Ok t) (r : Sel) (hr : npSelect t idx = .ok r) :
    ∃ o o', MVNDiagObj.mk? loc sd = .ok o ∧ o.getItem idx = .ok o' ∧ SlicesMVN o.mvn o'.mvn n t r := by
  obtain ⟨d, d1, d2⟩ := C37_diag loc sd bl bs t hsome hl hs ht hnz
  have hdim := d2.dim
  have hbat := d2.batch_eq
  have lt := broadcast_absorb_left ht
  have st := broadcast_absorb_right ht
  have hlen : bs.length ≤ t.length := broadcast_length_le st
  -- the stored attribute
  obtain ⟨s, hs1, hs2, hs3⟩ : ∃ s : Arr, sd.getD (Arr.ones [n]) = s ∧ s.shape = bs ++ [n] ∧
      ∀ i k, s.data (proj bs i ++ [k]) = (match sd with
        | some l => l.data (proj bs i ++ [k])
        | none => 1) := by
    cases sd with
    | some s => exact ⟨s, rfl, hs, fun _ _ => rfl⟩
    | none => exact ⟨_, rfl, by rw [show bs = [] from hs]; rfl, fun _ _ => rfl⟩
  have hl2 : (loc.getD (Arr.zeros [n])).shape = bl ++ [n] := by
    cases loc with
    | some l => exact hl
    | none => rw [show bl = [] from hl]; rfl
  have hmk : MVNDiagObj.mk? loc sd = .ok ⟨d, s.expandLeading (t ++ [n]).length⟩ := by
    rw [MVNDiagObj.mk?, d1, ok_bind, hdim]
    simp only [hs1]
    rw [hl2, hs2, broadcast_append, ht]; rfl
  obtain ⟨i, hi⟩ := toIdx hb hr
  obtain ⟨m, l', a1, a2, a3, a4⟩ := represents_loc d2 hb hok hr hi
  -- the scale parameter
  have e1 : (t ++ [n]).length - s.shape.length = t.length - bs.length := by rw [hs2]; simp
  have hes : (s.expandLeading (t ++ [n]).length).shape = (List.replicate (t.length - bs.length) 1 ++ bs) ++ [n] := by
    show List.replicate _ 1 ++ s.shape = _
    rw [e1, hs2, List.append_assoc]
  have heb : broadcastShapes (List.replicate (t.length - bs.length) 1 ++ bs) t = some t :=
    broadcast_ones_lead st (by omega)
  obtain ⟨z, z1, z2, z3⟩ := broadcastTo_rest hes heb
  obtain ⟨s', s1, s2, s3⟩ := slice_rest hb hok hr hi z2
  have hsd : ∀ j, InRange r.shape j → s'.vec n j = optVec n bs sd 1 (r.sel j) := by
    intro j hj; funext k
    obtain ⟨k1, k2⟩ := s3 j [k.val] hj (inRange_one' k)
    show s'.data _ = _
    rw [k2, z3 _ _ k1 (inRange_one' k)]
    show s.data (List.drop _ _) = _
    rw [e1, expand_proj k1 hlen, hs3]; rfl
  obtain ⟨d', g1, g2⟩ := diag_core l' s' r.shape r.shape r.shape a3 s2 (broadcastShapes_self _) (by
    intro j hj k
    have := congrFun (hsd j hj) k
    rw [show s'.data (j ++ [k.val]) = _ from this]
    cases sd with
    | some s0 => exact hnz s0 rfl _ (proj_inRange st (sel_inRange hok hr hj)) k
    | none => exact one_ne_zero)
  have g3 : Represents d' n r.shape (fun j => optVec n bl loc 0 (r.sel j))
      (fun j => Matrix.diagonal fun k => optVec n bs sd 1 (r.sel j) k ^ 2) :=
    g2.congr (fun j hj => by rw [proj_self hj, a4 j hj]) (fun j hj => by rw [proj_self hj, hsd j hj])
  have hgi : ∃ o', MVNDiagObj.getItem ⟨d, s.expandLeading (t ++ [n]).length⟩ idx = .ok o' ∧ o'.mvn = d' := by
    refine ⟨⟨d', s'.expandLeading (r.shape ++ [n]).length⟩, ?_, rfl⟩
    rw [MVNDiagObj.getItem, hbat, hi, ok_bind, a1, ok_bind, a2, ok_bind, MVNDiagObj.scaleDiag, hbat, hdim, z1, ok_bind, s1,
      ok_bind, MVNDiagObj.mk?, g1, ok_bind]
    simp only [Option.getD_some]
    rw [a3, s2, broadcastShapes_self]
  obtain ⟨o', u1, u2⟩ := hgi
  exact ⟨_, o', hmk, u1, _, _, C37_methods d2, by rw [u2]; exact C37_methods g3⟩

theorem inRange_two' {m k : ℕ} (r : Fin m) (c : Fin k) : InRange [m, k] [r.val, c.val] := inRange_two r c

theorem tri_triPart (lower : Bool) (s : Arr) (i : List ℕ) : (s.tri lower).mat n n i = triPart lower (s.mat n n i) := by
  ext r c
  simp only [Arr.mat, Arr.tri, triPart]
  have e1 : (i ++ [r.val, c.val]).getLastD 0 = c.val := by simp [List.getLastD_eq_getLast?]
  have e2 : (i ++ [r.val, c.val]).dropLast.getLastD 0 = r.val := by
    rw [show i ++ [r.val, c.val] = (i ++ [r.val]) ++ [c.val] by simp, List.dropLast_concat]
    simp [List.getLastD_eq_getLast?]
  rw [e1, e2]
  cases lower <;> simp

/-- The covariance of the triangular variant. -/
def triCov (n : ℕ) (isLower : Bool) (bs : List ℕ) (st : Option Arr) (i : List ℕ) : Matrix (Fin n) (Fin n) ℝ :=
  match st with
  | some s => triPart isLower (s.mat n n (proj bs i)) * (triPart isLower (s.mat n n (proj bs i)))ᵀ
  | none => 1

/-- The covariance of the full-covariance variant. -/
def fullCov (n : ℕ) (bs : List ℕ) (cov : Option Arr) (i : List ℕ) : Matrix (Fin n) (Fin n) ℝ :=
  match cov with
  | some c => c.mat n n (proj bs i)
  | none => 1

/-- The attribute `_scale_tri`. -/
def triAttr (n : ℕ) (isLower : Bool) (st : Option Arr) : Arr :=
  match st with
  | none => Arr.eye n
  | some s => s.tri isLower

/-- **Triangular variant.** -/
theorem C54_mvn_tri (la : LinAlg) (loc st : Option Arr) (isLower : Bool) (bl bs t : List ℕ) (hsome : loc.isSome ∨ st.isSome)
    (hl : OptShape loc bl [n]) (hs : OptShape st bs [n, n]) (ht : broadcastShapes bl bs = some t)
    (hnz : ∀ s, st = some s → ∀ j, InRange bs j → ∀ k : Fin n, s.data (j ++ [k.val, k.val]) ≠ 0)
    (hb : t ≠ []) (idx : Index) (hok : idx.Ok t) (r : Sel) (hr : npSelect t idx = .ok r) :
    ∃ o o', MVNTriObj.mk? la loc st isLower = .ok o ∧ o.getItem la idx = .ok o' ∧ o'.isLower = o.isLower ∧
      SlicesMVN o.mvn o'.mvn n t r := by
  obtain ⟨d, d1, d2⟩ : ∃ d, MVNTri.mk? la loc st isLower = .ok d ∧
      Represents d n t (optVec n bl loc 0) (triCov n isLower bs st) := by
    obtain ⟨d, d1, -, d2⟩ := C37_tri la loc st isLower bl bs t hsome hl hs ht hnz
    exact ⟨d, d1, by cases st <;> exact d2⟩
  have hdim := d2.dim
  have hbat := d2.batch_eq
  have sti := broadcast_absorb_right ht
  -- the stored attribute
  set a : Arr := triAttr n isLower st with ha
  have hash : a.shape = bs ++ [n, n] := by
    cases st with
    | some s => exact hs
    | none => rw [show bs = [] from hs]; rfl
  have hmk : MVNTriObj.mk? la loc st isLower = .ok ⟨d, a, isLower⟩ := by
    rw [MVNTriObj.mk?, d1, ok_bind, hdim]; cases st <;> rfl
  obtain ⟨i, hi⟩ := toIdx hb hr
  obtain ⟨m, l', a1, a2, a3, a4⟩ := represents_loc d2 hb hok hr hi
  obtain ⟨z, z1, z2, z3⟩ := broadcastTo_rest hash sti
  obtain ⟨s', s1, s2, s3⟩ := slice_rest hb hok hr hi z2
  have hsd : ∀ j, InRange r.shape j → s'.mat n n j = a.mat n n (proj bs (r.sel j)) := by
    intro j hj; ext k c
    obtain ⟨k1, k2⟩ := s3 j [k.val, c.val] hj (inRange_two k c)
    show s'.data _ = _
    rw [k2, z3 _ _ k1 (inRange_two k c)]; rfl
  -- its own triangle is itself
  have htri : ∀ s, st = some s → ∀ j, triPart isLower (a.mat n n j) = triPart isLower (s.mat n n j) := by
    intro s h0 j
    subst h0
    show triPart isLower ((s.tri isLower).mat n n j) = _
    rw [tri_triPart]
    ext r c
    simp only [triPart]
    split_ifs <;> rfl
  have hdiag : ∀ j, InRange bs j → ∀ k : Fin n, a.data (j ++ [k.val, k.val]) ≠ 0 := by
    intro j hj k
    cases st with
    | none =>
      have hj' : j = [] := by rw [show bs = [] from hs] at hj; cases hj; rfl
      subst hj'
      show (if _ then (1 : ℝ) else 0) ≠ 0
      simp
    | some s =>
      have := congrFun (congrFun (tri_triPart isLower s j) k) k
      show (s.tri isLower).mat n n j k k ≠ 0
      rw [this]
      have h0 := hnz s rfl j hj k
      simp only [triPart]
      cases isLower <;> simpa [Arr.mat] using h0
  obtain ⟨d', g1, -, g2⟩ := C37_tri la (some l') (some s') isLower r.shape r.shape r.shape (Or.inl rfl) a3 s2
    (broadcastShapes_self _) (by
      intro s0 h0 j hj k
      cases h0
      have := congrFun (congrFun (hsd j hj) k) k
      rw [show s'.data (j ++ [k.val, k.val]) = _ from this]
      exact hdiag _ (proj_inRange sti (sel_inRange hok hr hj)) k)
  refine ⟨_, ⟨d', s'.tri isLower, isLower⟩, hmk, ?_, rfl, _, _, C37_methods d2, C37_methods (g2.congr ?_ ?_)⟩
  · rw [MVNTriObj.getItem, hbat, hi, ok_bind, a1, ok_bind, a2, ok_bind, MVNTriObj.scaleTri, hbat, hdim, List.append_assoc]
    rw [show ([n] : List ℕ) ++ [n] = [n, n] from rfl, z1, ok_bind, s1, ok_bind, MVNTriObj.mk?, g1, ok_bind]; rfl
  · intro j hj
    funext k
    show _ = l'.data (proj r.shape j ++ [k.val])
    rw [proj_self hj]
    exact (congrFun (a4 j hj) k).symm
  · intro j hj
    show triCov n isLower bs st (r.sel j) = triPart isLower (s'.mat n n (proj r.shape j)) *
      (triPart isLower (s'.mat n n (proj r.shape j)))ᵀ
    rw [proj_self hj, hsd j hj]
    cases st with
    | some s => rw [htri s rfl]; rfl
    | none =>
      have hj' : proj bs (r.sel j) = [] := by rw [show bs = [] from hs]; simp [proj]
      rw [hj']
      have : triPart isLower ((Arr.eye n).mat n n []) = 1 := by
        ext p q
        simp only [triPart, Arr.mat, Arr.eye, Matrix.one_apply]
        by_cases h : p = q
        · subst h; cases isLower <;> simp
        · have h' : (p : ℕ) ≠ q := fun e => h (Fin.ext e)
          simp [h, h']
      show (1 : Matrix (Fin n) (Fin n) ℝ) = triPart isLower ((Arr.eye n).mat n n []) * _
      simp [this, ha, triAttr]

/-- **Full-covariance variant.** -/
theorem C54_mvn_full_covariance (la : LinAlg) (chol : Arr → Arr) (hch : CholeskyContract chol) (loc cov : Option Arr)
    (bl bs t : List ℕ) (hsome : loc.isSome ∨ cov.isSome) (hl : OptShape loc bl [n]) (hs : OptShape cov bs [n, n])
    (ht : broadcastShapes bl bs = some t) (hpd : ∀ c, cov = some c → ∀ j, InRange bs j → (c.mat n n j).PosDef)
    (hb : t ≠ []) (idx : Index) (hok : idx.Ok t) (r : Sel) (hr : npSelect t idx = .ok r) :
    ∃ d d', MVNFullCov.mk? la chol loc cov = .ok d ∧ MVNFullCov.getItem la chol d idx = .ok d' ∧ SlicesMVN d d' n t r := by
  obtain ⟨d, d1, d2⟩ : ∃ d, MVNFullCov.mk? la chol loc cov = .ok d ∧
      Represents d n t (optVec n bl loc 0) (fullCov n bs cov) := by
    obtain ⟨d, d1, d2⟩ := C37_full_covariance la chol hch loc cov bl bs t hsome hl hs ht hpd
    exact ⟨d, d1, by cases cov <;> exact d2⟩
  have hdim := d2.dim
  have hbat := d2.batch_eq
  have hcov : ∃ c, d.covM = some c := by
    unfold MVNFullCov.mk? at d1
    cases h1 : MVNTri.check loc cov with
    | error e => rw [h1] at d1; cases d1
    | ok u =>
      rw [h1, ok_bind] at d1
      cases loc <;> cases cov <;> simp only [pure, Except.pure, ok_bind] at d1 <;>
        first
        | (cases d1; done)
        | (rename_i l; generalize hx : MVNTri.mk? la _ _ _ = x at d1; cases x with
            | error e => cases d1
            | ok x => cases d1; exact ⟨_, rfl⟩)
        | (generalize hx : MVNTri.mk? la _ _ _ = x at d1; cases x with
            | error e => cases d1
            | ok x => cases d1; exact ⟨_, rfl⟩)
  obtain ⟨c, hc⟩ := hcov
  obtain ⟨i, hi⟩ := toIdx hb hr
  obtain ⟨m, l', a1, a2, a3, a4⟩ := represents_loc d2 hb hok hr hi
  obtain ⟨z, z1, z2, z3⟩ := (C37_methods d2).covariance
  have z1' : d.covMatrix c = .ok z := by rw [MVN.covariance, hc] at z1; exact z1
  obtain ⟨s', s1, s2, s3⟩ := slice_rest hb hok hr hi z2
  have hsd : ∀ j, InRange r.shape j → s'.mat n n j = fullCov n bs cov (r.sel j) := by
    intro j hj
    rw [← z3 _ (sel_inRange hok hr hj)]
    ext k c
    exact (s3 j [k.val, c.val] hj (inRange_two k c)).2
  obtain ⟨d', g1, g2⟩ := C37_full_covariance la chol hch (some l') (some s') r.shape r.shape r.shape (Or.inl rfl) a3 s2
    (broadcastShapes_self _) (by
      intro s0 h0 j hj
      cases h0
      rw [hsd j hj]
      cases cov with
      | some c => exact hpd c rfl _ (proj_inRange (broadcast_absorb_right ht) (sel_inRange hok hr hj))
      | none => exact Matrix.PosDef.one)
  refine ⟨d, d', d1, ?_, _, _, C37_methods d2, C37_methods (g2.congr ?_ ?_)⟩
  · rw [MVNFullCov.getItem, hc]
    simp only
    rw [hbat, hi, ok_bind, a1, ok_bind, a2, ok_bind, z1', ok_bind, s1, ok_bind, g1]
  · intro j hj
    funext k
    show _ = l'.data (proj r.shape j ++ [k.val])
    rw [proj_self hj]
    exact (congrFun (a4 j hj) k).symm
  · intro j hj
    show _ = s'.mat n n (proj r.shape j)
    rw [proj_self hj, hsd j hj]

/-- The scale matrix of the low-rank variant. -/
noncomputable def lowRankScale (n k : ℕ) (bd bu bv : List ℕ) (sd su sv : Option Arr) (i : List ℕ) : Matrix (Fin n) (Fin n) ℝ :=
  diagonal (optVec n bd sd 1 i) + match su, sv.or su with
    | some u, some v => u.mat n k (proj bu i) * (v.mat n k (proj bv i))ᵀ
    | _, _ => 0

set_option maxHeartbeats 1000000 in
/-- **Diagonal-plus-low-rank variant.** -/
theorem C54_mvn_low_rank (la : LinAlg) (loc sd su sv : Option Arr) (k : ℕ) (bl bd bu bv b1 p t : List ℕ) (hk : 0 < k)
    (hsome : loc.isSome ∨ sd.isSome ∨ su.isSome) (huv : sv.isSome → su.isSome)
    (hl : OptShape loc bl [n]) (hd : OptShape sd bd [n]) (hu : OptShape su bu [n, k]) (hv : OptShape (sv.or su) bv [n, k])
    (h1 : broadcastShapes bd bu = some b1) (hp : broadcastShapes b1 bv = some p) (ht : broadcastShapes p bl = some t)
    (hnz : ∀ i, InRange bd i → ∀ r, optVec n bd sd 1 i r ≠ 0)
    (hdet : ∀ i, InRange p i → (lowRankScale n k bd bu bv sd su sv i).det ≠ 0)
    (hb : t ≠ []) (idx : Index) (hok : idx.Ok t) (r : Sel) (hr : npSelect t idx = .ok r) :
    ∃ o o', MVNLowRankObj.mk? la loc sd su sv = .ok o ∧ o.getItem la idx = .ok o' ∧ SlicesMVN o.mvn o'.mvn n t r := by
  obtain ⟨d, d1, d2⟩ := C37_low_rank la loc sd su sv k bl bd bu bv b1 p t hk hsome huv hl hd hu hv h1 hp ht hnz
    (lowRankScale n k bd bu bv sd su sv) (fun i => by
      unfold lowRankScale
      cases su <;> cases sv <;> rfl) hdet
  have hdim := d2.dim
  have hbat := d2.batch_eq
  have pt := broadcast_absorb_left ht
  have b1t := broadcast_trans (broadcast_absorb_left hp) pt
  have bdt := broadcast_trans (broadcast_absorb_left h1) b1t
  have but := broadcast_trans (broadcast_absorb_right h1) b1t
  have bvt := broadcast_trans (broadcast_absorb_right hp) pt
  have hnum : MVNLowRank.numDims loc sd su = .ok n := by
    cases loc with
    | some l => show Except.ok _ = _; rw [show l.shape = bl ++ [n] from hl, getLastD_snoc]
    | none =>
      cases sd with
      | some s => show Except.ok _ = _; rw [show s.shape = bd ++ [n] from hd, getLastD_snoc]
      | none =>
        cases su with
        | some u =>
          show Except.ok _ = _
          rw [show u.shape = bu ++ [n, k] from hu, show bu ++ [n, k] = (bu ++ [n]) ++ [k] by simp, List.dropLast_concat,
            getLastD_snoc]
        | none => simp at hsome
  -- attributes, with their low-rank width `k'`
  obtain ⟨k', sd0, su0, sv0, hk', e1, e2, e3, f1, f2, f3, g1, g2⟩ : ∃ (k' : ℕ) (sd0 su0 sv0 : Arr), 0 < k' ∧
      sd.getD (Arr.ones [n]) = sd0 ∧ su.getD (Arr.zeros [n, 1]) = su0 ∧ sv.getD (su.getD (Arr.zeros [n, 1])) = sv0 ∧
      sd0.shape = bd ++ [n] ∧ su0.shape = bu ++ [n, k'] ∧ sv0.shape = bv ++ [n, k'] ∧
      (∀ i, sd0.vec n (proj bd i) = optVec n bd sd 1 i) ∧
      ∀ i, lowRankScale n k bd bu bv sd su sv i = diagonal (optVec n bd sd 1 i) +
        su0.mat n k' (proj bu i) * (sv0.mat n k' (proj bv i))ᵀ := by
    have hsd : ∃ sd0, sd.getD (Arr.ones [n]) = sd0 ∧ sd0.shape = bd ++ [n] ∧
        ∀ i, sd0.vec n (proj bd i) = optVec n bd sd 1 i := by
      cases sd with
      | some s => exact ⟨s, rfl, hd, fun _ => rfl⟩
      | none => exact ⟨_, rfl, by rw [show bd = [] from hd]; rfl, fun _ => rfl⟩
    obtain ⟨sd0, q1, q2, q3⟩ := hsd
    cases su with
    | none =>
      have hsv : sv = none := by cases sv with
        | none => rfl
        | some v => exact absurd (huv rfl) (by simp)
      subst hsv
      refine ⟨1, sd0, _, _, one_pos, q1, rfl, rfl, q2, ?_, ?_, q3, fun i => ?_⟩
      · rw [show bu = [] from hu]; rfl
      · rw [show bv = [] from hv]; rfl
      · have : (Arr.zeros [n, 1]).mat n 1 (proj bu i) = 0 := by ext a b; rfl
        simp only [lowRankScale, Option.getD_none]
        rw [this, Matrix.zero_mul]
    | some u =>
      cases sv with
      | none => exact ⟨k, sd0, u, u, hk, q1, rfl, rfl, q2, hu, hv, q3, fun i => rfl⟩
      | some v => exact ⟨k, sd0, u, v, hk, q1, rfl, rfl, q2, hu, hv, q3, fun i => rfl⟩
  have hmk : MVNLowRankObj.mk? la loc sd su sv = .ok ⟨d, sd0, su0, sv0⟩ := by
    rw [MVNLowRankObj.mk?, d1, ok_bind, hnum, ok_bind, e1, e3, e2]; rfl
  obtain ⟨i, hi⟩ := toIdx hb hr
  obtain ⟨m, l', a1, a2, a3, a4⟩ := represents_loc d2 hb hok hr hi
  obtain ⟨zd, zd1, zd2, zd3⟩ := broadcastTo_rest f1 bdt
  obtain ⟨zu, zu1, zu2, zu3⟩ := broadcastTo_rest f2 but
  obtain ⟨zv, zv1, zv2, zv3⟩ := broadcastTo_rest f3 bvt
  obtain ⟨s', s1, s2, s3⟩ := slice_rest hb hok hr hi zd2
  obtain ⟨u', u1, u2, u3⟩ := slice_rest hb hok hr hi zu2
  obtain ⟨v', v1, v2, v3⟩ := slice_rest hb hok hr hi zv2
  have hs' : ∀ j, InRange r.shape j → s'.vec n j = optVec n bd sd 1 (r.sel j) := by
    intro j hj; rw [← g1]; funext c
    obtain ⟨k1, k2⟩ := s3 j [c.val] hj (inRange_one' c)
    show s'.data _ = _
    rw [k2, zd3 _ _ k1 (inRange_one' c)]; rfl
  have hu' : ∀ j, InRange r.shape j → u'.mat n k' j = su0.mat n k' (proj bu (r.sel j)) := by
    intro j hj; ext a c
    obtain ⟨k1, k2⟩ := u3 j [a.val, c.val] hj (inRange_two a c)
    show u'.data _ = _
    rw [k2, zu3 _ _ k1 (inRange_two a c)]; rfl
  have hv' : ∀ j, InRange r.shape j → v'.mat n k' j = sv0.mat n k' (proj bv (r.sel j)) := by
    intro j hj; ext a c
    obtain ⟨k1, k2⟩ := v3 j [a.val, c.val] hj (inRange_two a c)
    show v'.data _ = _
    rw [k2, zv3 _ _ k1 (inRange_two a c)]; rfl
  have hS : ∀ j, InRange r.shape j → lowRankScale n k' r.shape r.shape r.shape (some s') (some u') (some v') j =
      lowRankScale n k bd bu bv sd su sv (r.sel j) := by
    intro j hj
    rw [g2, ← hs' j hj, ← hu' j hj, ← hv' j hj]
    show diagonal (fun c => s'.data (proj r.shape j ++ [c.val])) + u'.mat n k' (proj r.shape j) *
      (v'.mat n k' (proj r.shape j))ᵀ = _
    rw [proj_self hj]; rfl
  have bs := broadcastShapes_self r.shape
  have hproj : ∀ j, InRange r.shape j → (lowRankScale n k bd bu bv sd su sv (r.sel j)).det ≠ 0 := by
    intro j hj
    have hin := sel_inRange hok hr hj
    have := hdet (proj p (r.sel j)) (proj_inRange pt hin)
    have e : ∀ {b : List ℕ}, broadcastShapes b p = some p → proj b (proj p (r.sel j)) = proj b (r.sel j) := fun {b} hb' =>
      proj_proj hb' (by rw [hin.length]; exact broadcast_length_le pt)
    have bdp := broadcast_trans (broadcast_absorb_left h1) (broadcast_absorb_left hp)
    have bup := broadcast_trans (broadcast_absorb_right h1) (broadcast_absorb_left hp)
    have bvp := broadcast_absorb_right hp
    rw [g2] at this ⊢
    rw [← g1] at this ⊢
    rw [e bdp, e bup, e bvp] at this
    exact this
  obtain ⟨d', w1, w2⟩ := C37_low_rank la (some l') (some s') (some u') (some v') k' r.shape r.shape r.shape r.shape r.shape
    r.shape r.shape hk' (Or.inl rfl) (fun _ => rfl) a3 s2 u2 v2 bs bs bs
    (fun j hj c => by
      show s'.data (proj r.shape j ++ [c.val]) ≠ 0
      rw [proj_self hj]
      rw [show s'.data (j ++ [c.val]) = _ from congrFun (hs' j hj) c]
      have hin := sel_inRange hok hr hj
      have := hnz (proj bd (r.sel j)) (proj_inRange bdt hin) c
      rw [← g1] at this ⊢
      rwa [proj_self (proj_inRange bdt hin)] at this)
    (lowRankScale n k' r.shape r.shape r.shape (some s') (some u') (some v')) (fun _ => rfl)
    (fun j hj => by rw [hS j hj]; exact hproj j hj)
  refine ⟨_, ⟨d', s', u', v'⟩, hmk, ?_, _, _, C37_methods d2, C37_methods (w2.congr ?_ ?_)⟩
  · have dr : ∀ (b : List ℕ), (b ++ [n, k']).drop ((b ++ [n, k']).length - 2) = [n, k'] := fun b => by simp
    rw [MVNLowRankObj.getItem, hbat, hi, ok_bind, a1, ok_bind, a2, ok_bind, hdim, zd1, ok_bind, s1, ok_bind]
    rw [f2, dr, zu1, ok_bind, u1, ok_bind, f3, dr, zv1, ok_bind, v1, ok_bind, MVNLowRankObj.mk?, w1, ok_bind]
    show (Except.ok (l'.shape.getLastD 0) >>= _) = _
    rw [ok_bind]; rfl
  · intro j hj
    funext c
    show _ = l'.data (proj r.shape j ++ [c.val])
    rw [proj_self hj]
    exact (congrFun (a4 j hj) c).symm
  · intro j hj
    rw [hS j hj]

/-- Non-vacuity: a batch of two bivariate diagonal Gaussians, sliced by the integer `1` and by the reversing slice `::-1`. -/
example : ∃ (r r' : Sel), npSelect [2] (.basic [.int 1]) = .ok r ∧ npSelect [2] (.basic [.slice none none (some (-1))]) = .ok r' ∧
    r.shape = [] ∧ r'.shape = [2] ∧ r'.sel [0] = [1] ∧
    OptShape (some ⟨[2, 2], fun i => (i.headD 0 : ℕ)⟩) [2] [2] ∧ OptShape (some ⟨[2], fun _ => 1⟩) [] [2] ∧
    broadcastShapes [2] [] = some [2] := by
  refine ⟨_, _, rfl, rfl, rfl, rfl, rfl, rfl, rfl, rfl⟩

end Distrax
