import Verif.Spec.MVNObj
import Verif.Lemmas.MVNKL

/-! **C37** Multivariate normals. -/

namespace Distrax

open Matrix Spec MeasureTheory

/-- `d` was built on an invertible scale; batch entry `i` is `N(b i, C i)`. -/
def Represents (d : MVN) (n : ℕ) (batch : List ℕ) (b : List ℕ → Fin n → ℝ)
    (C : List ℕ → Matrix (Fin n) (Fin n) ℝ) : Prop :=
  ∃ bl p M f, d.Sound n bl p M f ∧ d.batch = batch ∧ ∀ i, InRange batch i →
    b i = d.loc0.vec n (proj bl i) ∧ C i = M (proj p i) * (M (proj p i))ᵀ

variable {d d1 d2 : MVN} {n : ℕ} {batch : List ℕ} {b : List ℕ → Fin n → ℝ} {C : List ℕ → Matrix (Fin n) (Fin n) ℝ}

/-- **All methods.**  An object built on an invertible scale reports `N(b, A Aᵀ)` everywhere: log-density, mean, median,
mode, covariance, variance, standard deviation, entropy, samples. -/
theorem C37_methods (h : Represents d n batch b C) : IsMVN d n batch b C := by
  obtain ⟨bl, p, M, f, hs, rfl, hbC⟩ := h
  have hloc : ∃ m, d.loc = .ok m ∧ m.shape = d.batch ++ [n] ∧ ∀ i, InRange d.batch i → m.vec n i = b i := by
    obtain ⟨m, h1, h2, h3⟩ := hs.locOk
    exact ⟨m, h1, h2, fun i hi => by rw [h3 i hi, (hbC i hi).1]⟩
  refine ⟨rfl, hs.dim, fun x bx t hx ht => ?_, hloc, hloc, hloc, ?_, ?_, ?_, ?_, ?_⟩
  · obtain ⟨l, h1, h2, h3⟩ := hs.logProb hx ht
    refine ⟨l, h1, h2, fun i hi => ?_⟩
    have := hbC _ (proj_inRange (broadcast_absorb_left ht) hi)
    rw [h3 i hi, this.1, this.2]
  · obtain ⟨c, h1, h2, h3⟩ := hs.covariance
    exact ⟨c, h1, h2, fun i hi => by rw [h3 i hi, (hbC i hi).2]⟩
  · obtain ⟨c, h1, h2, h3⟩ := hs.variance
    exact ⟨c, h1, h2, fun i hi k => by rw [h3 i hi, (hbC i hi).2]⟩
  · obtain ⟨c, h1, h2, h3⟩ := hs.stddev
    exact ⟨c, h1, h2, fun i hi k => by rw [h3 i hi, (hbC i hi).2]⟩
  · obtain ⟨c, h1, h2, h3⟩ := hs.entropy
    refine ⟨c, h1, h2, fun i hi => ?_⟩
    rw [h3 i hi, (hbC i hi).2, log_det_gram _ (hs.detB hi)]; ring
  · refine ⟨fun i => M (proj p i), fun i hi => ⟨hs.detB hi, (hbC i hi).2⟩, fun z hz => ?_⟩
    obtain ⟨x, h1, h2, h3⟩ := hs.sample hz
    exact ⟨x, h1, h2, fun i hi => by rw [h3 i hi, (hbC i hi).1]⟩

/-- **The formula is the Gaussian law.**  For invertible `A`: the density integrates to one, has mean `b` and covariance
`A Aᵀ`, is maximal at `b`, is the density of `A z + b` for standard normal `z`, and the reported entropy is its entropy. -/
theorem C37_gaussian (A : Matrix (Fin n) (Fin n) ℝ) (b : Fin n → ℝ) (hA : A.det ≠ 0) :
    IsDensityOn volume Set.univ (gaussPdf b (A * Aᵀ)) ∧
    MeanOn volume Set.univ (gaussPdf b (A * Aᵀ)) b ∧
    HasCovariance (gaussPdf b (A * Aᵀ)) b (A * Aᵀ) ∧
    IsModeOn Set.univ (gaussPdf b (A * Aᵀ)) b ∧
    LawHasDensity volume Set.univ (fun z => ∏ k, ProbabilityTheory.gaussianPDFReal 0 1 (z k)) (fun z => A *ᵥ z + b) Set.univ
      (gaussPdf b (A * Aᵀ)) ∧
    EntropyOn volume Set.univ (gaussPdf b (A * Aᵀ))
      (n / 2 * (1 + Real.log (2 * Real.pi)) + 1 / 2 * Real.log (A * Aᵀ).det) := by
  refine ⟨gauss_density A b hA, gauss_meanOn A b hA, gauss_cov A b hA, gauss_mode A b, gauss_law A b hA, ?_⟩
  have := gauss_entropy A b hA
  rw [log_det_gram A hA]
  convert this using 1
  ring

/-- **KL divergence.**  `kl_divergence` broadcasts the batches and returns the textbook closed form at each entry,
whichever branch (diagonal shortcut or triangular/linear solves) is taken. -/
theorem C37_kl {batch1 batch2 t : List ℕ} {b1 b2 : List ℕ → Fin n → ℝ} {C1 C2 : List ℕ → Matrix (Fin n) (Fin n) ℝ}
    (h1 : Represents d1 n batch1 b1 C1) (h2 : Represents d2 n batch2 b2 C2) (ht : broadcastShapes batch1 batch2 = some t) :
    ∃ k, MVN.kl d1 d2 = .ok k ∧ k.shape = t ∧ ∀ i, InRange t i →
      k.data i = gaussKL (b1 (proj batch1 i)) (C1 (proj batch1 i)) (b2 (proj batch2 i)) (C2 (proj batch2 i)) := by
  obtain ⟨bl1, p1, M1, f1, s1, rfl, q1⟩ := h1
  obtain ⟨bl2, p2, M2, f2, s2, rfl, q2⟩ := h2
  obtain ⟨k, k1, k2, k3⟩ := s1.kl s2 ht
  refine ⟨k, k1, k2, fun i hi => ?_⟩
  have r1 := q1 _ (proj_inRange (broadcast_absorb_left ht) hi)
  have r2 := q2 _ (proj_inRange (broadcast_absorb_right ht) hi)
  rw [k3 i hi, r1.1, r1.2, r2.1, r2.2]

/-- **The closed form is the KL divergence of the two Gaussian densities**, is nonnegative, and vanishes exactly when mean
and covariance agree. -/
theorem C37_kl_meaning (A B : Matrix (Fin n) (Fin n) ℝ) (a b : Fin n → ℝ) (hA : A.det ≠ 0) (hB : B.det ≠ 0) :
    KLOn volume Set.univ (gaussPdf a (A * Aᵀ)) (gaussPdf b (B * Bᵀ)) (gaussKL a (A * Aᵀ) b (B * Bᵀ)) ∧
    0 ≤ gaussKL a (A * Aᵀ) b (B * Bᵀ) ∧
    (gaussKL a (A * Aᵀ) b (B * Bᵀ) = 0 ↔ a = b ∧ A * Aᵀ = B * Bᵀ) :=
  ⟨gauss_kl A B a b hA hB, gaussKL_nonneg A B a b hA hB⟩

/-- Hence every entry `kl_divergence` returns is nonnegative, and zero exactly for equal parameters. -/
theorem C37_kl_nonneg {batch1 batch2 t : List ℕ} {b1 b2 : List ℕ → Fin n → ℝ} {C1 C2 : List ℕ → Matrix (Fin n) (Fin n) ℝ}
    (h1 : Represents d1 n batch1 b1 C1) (h2 : Represents d2 n batch2 b2 C2) (ht : broadcastShapes batch1 batch2 = some t) :
    ∃ k, MVN.kl d1 d2 = .ok k ∧ ∀ i, InRange t i → 0 ≤ k.data i ∧
      (k.data i = 0 ↔ b1 (proj batch1 i) = b2 (proj batch2 i) ∧ C1 (proj batch1 i) = C2 (proj batch2 i)) := by
  obtain ⟨k, k1, -, k3⟩ := C37_kl h1 h2 ht
  refine ⟨k, k1, fun i hi => ?_⟩
  obtain ⟨bl1, p1, M1, f1, s1, rfl, q1⟩ := h1
  obtain ⟨bl2, p2, M2, f2, s2, rfl, q2⟩ := h2
  have i1 := proj_inRange (broadcast_absorb_left ht) hi
  have i2 := proj_inRange (broadcast_absorb_right ht) hi
  rw [k3 i hi, (q1 _ i1).2, (q2 _ i2).2]
  exact gaussKL_nonneg _ _ _ _ (s1.detB i1) (s2.detB i2)

/-- Different numbers of dimensions are a ValueError. -/
theorem C37_kl_dims (h : d1.dim ≠ d2.dim) : MVN.kl d1 d2 = .error .valueError := by
  simp [MVN.kl, h]

/-- **Constructor from a bijector.**  Any linear bijector that really computes an invertible `x ↦ A x` (batched), with any
compatible `loc`, gives `N(loc, A Aᵀ)` on the broadcast batch shape. -/
theorem C37_from_bijector (loc : Arr) (s : Scale) (bl p t : List ℕ) (M : List ℕ → Matrix (Fin n) (Fin n) ℝ) (f : ArrBij)
    (hl : loc.shape = bl ++ [n]) (hlin : s.lin = ⟨n, p, M, f⟩) (haff : IsAffine f n p M (fun _ => 0))
    (hsol : SolvesAffine f n p M (fun _ => 0))
    (hdiag : ∀ d, s.diag = some d → d.shape = p ++ [n] ∧ ∀ i, InRange p i → M i = Matrix.diagonal (d.vec n i))
    (hdet : ∀ j, InRange p j → (M j).det ≠ 0) (ht : broadcastShapes p bl = some t) :
    ∃ d, MVN.mk? loc s = .ok d ∧
      Represents d n t (fun i => loc.vec n (proj bl i)) (fun i => M (proj p i) * (M (proj p i))ᵀ) := by
  obtain ⟨d, h1, h2, h3, -, h5⟩ := mk_sound hl ⟨hlin, haff, hsol, hdiag, hdet⟩ ht
  exact ⟨d, h1, bl, p, M, f, h5, h2, fun i _ => ⟨by rw [h3], rfl⟩⟩

/-- Every other input is rejected with a ValueError. -/
theorem C37_from_bijector_rejects (loc : Arr) (s : Scale) :
    (∃ d, MVN.mk? loc s = .ok d) ∧ (∃ bl t, loc.shape = bl ++ [s.lin.n] ∧ broadcastShapes s.lin.batch bl = some t) ∨
    MVN.mk? loc s = .error .valueError ∧ ¬ ∃ bl t, loc.shape = bl ++ [s.lin.n] ∧ broadcastShapes s.lin.batch bl = some t := by
  rw [MVN.mk?]
  by_cases h1 : loc.shape.length < 1
  · rw [if_pos h1]
    refine Or.inr ⟨rfl, ?_⟩
    rintro ⟨bl, t, h, -⟩
    rw [h] at h1; simp at h1
  · rw [if_neg h1]
    obtain ⟨bl, m, hm⟩ : ∃ bl m, loc.shape = bl ++ [m] := by
      have hne : loc.shape ≠ [] := by intro h; rw [h] at h1; simp at h1
      exact ⟨loc.shape.dropLast, loc.shape.getLast hne, (List.dropLast_append_getLast hne).symm⟩
    rw [hm, getLastD_snoc, List.dropLast_concat]
    by_cases h2 : s.lin.n ≠ m
    · rw [if_pos h2]
      refine Or.inr ⟨rfl, ?_⟩
      rintro ⟨bl', t, h, -⟩
      exact h2 (by simpa using (List.append_inj_right' h rfl).symm)
    · rw [if_neg h2]
      have h2' : s.lin.n = m := not_not.1 h2
      cases h3 : broadcastShapes s.lin.batch bl with
      | none =>
        refine Or.inr ⟨rfl, ?_⟩
        rintro ⟨bl', t, h, ht⟩
        have : bl = bl' := List.append_inj_left' h rfl
        rw [← this, h3] at ht; cases ht
      | some t =>
        exact Or.inl ⟨⟨_, rfl⟩, bl, t, by rw [h2'], h3⟩

/-! ### the variants -/

theorem ofDiag_good {dg : Arr} {bd : List ℕ} (hd : dg.shape = bd ++ [n])
    (hnz : ∀ j, InRange bd j → ∀ k : Fin n, dg.data (j ++ [k.val]) ≠ 0) :
    ∃ s f, Scale.ofDiag dg = .ok s ∧ GoodScale s n bd (fun i => Matrix.diagonal (dg.vec n i)) f := by
  obtain ⟨M, f, h1, h2, h3, h4⟩ := diag_facts dg bd n hd
  have hM : M = fun i => Matrix.diagonal (dg.vec n i) := funext h2
  subst hM
  refine ⟨⟨_, some dg⟩, f, by rw [Scale.ofDiag, h1, ok_bind]; rfl, rfl, h3, h4, fun d hd' => ?_, fun j hj => ?_⟩
  · injection hd' with hd'
    subst hd'
    exact ⟨hd, fun i _ => rfl⟩
  · rw [Matrix.det_diagonal]
    exact Finset.prod_ne_zero_iff.2 fun k _ => hnz j hj k

theorem brev_ones_lead : ∀ (s t : List ℕ) (k : ℕ), brev s t = some t → k + s.length ≤ t.length →
    brev (s ++ List.replicate k 1) t = some t
  | [], t, 0, _, _ => by simp [brev]
  | [], [], k + 1, _, h => by simp at h
  | [], d :: t, k + 1, _, h => by
    have := brev_ones_lead [] t k (by simp [brev]) (by simp at h ⊢; omega)
    simp only [List.nil_append] at this
    simp only [List.nil_append, List.replicate_succ, brev, this]
    have : bdim 1 d = some d := by simp only [bdim]; split_ifs <;> simp_all
    rw [this]
  | a :: s, [], k, h, _ => by simp [brev] at h
  | a :: s, d :: t, k, h, hk => by
    simp only [brev] at h
    have hs : brev s t = some t ∧ bdim a d = some d := by
      cases h1 : bdim a d with
      | none => simp [h1] at h
      | some x =>
        cases h2 : brev s t with
        | none => simp [h1, h2] at h
        | some r => simp [h1, h2] at h; simp [h]
    have := brev_ones_lead s t k hs.1 (by simp at hk; omega)
    simp only [List.cons_append, brev, hs.2, this]

theorem brev_prefix_lead : ∀ (s e : List ℕ), brev s (s ++ e) = some (s ++ e)
  | [], e => by simp [brev]
  | a :: s, e => by simp [brev, bdim_self, brev_prefix_lead s e]

theorem brev_antisymm_lead : ∀ (s t : List ℕ), brev s t = some t → brev t s = some s → s = t
  | s, t, h1, h2 => by rw [brev_comm, h1] at h2; injection h2 with h2; exact h2.symm

theorem broadcastShapes_antisymm {s t : List ℕ} (h1 : broadcastShapes s t = some t) (h2 : broadcastShapes t s = some s) : s = t := by
  rw [broadcastShapes_comm, h1] at h2; injection h2 with h2; exact h2.symm

theorem broadcast_ones_lead {s t : List ℕ} {k : ℕ} (h : broadcastShapes s t = some t) (hk : k + s.length ≤ t.length) :
    broadcastShapes (List.replicate k 1 ++ s) t = some t := by
  rw [broadcastShapes_iff] at *
  rw [List.reverse_append, List.reverse_replicate]
  exact brev_ones_lead _ _ _ h (by simpa using hk)

theorem expand_proj {s t i : List ℕ} (hi : InRange t i) (hs : s.length ≤ t.length) (e : List ℕ) :
    (proj (List.replicate (t.length - s.length) 1 ++ s) i ++ e).drop (t.length - s.length) = proj s i ++ e := by
  have hl := hi.length
  unfold proj
  have h0 : i.length - (List.replicate (t.length - s.length) 1 ++ s).length = 0 := by simp; omega
  rw [h0, List.drop_zero]
  obtain ⟨i1, i2, rfl, hi1⟩ : ∃ i1 i2, i = i1 ++ i2 ∧ i1.length = t.length - s.length :=
    ⟨i.take (t.length - s.length), i.drop (t.length - s.length), by simp, by simp; omega⟩
  rw [List.zipWith_append (by simp [hi1])]
  have h2 : (i1 ++ i2).length - s.length = i1.length := by rw [hl, hi1]
  rw [h2, List.drop_left, List.append_assoc, List.drop_append_of_le_length (by simp [hi1])]
  rw [List.drop_of_length_le (by simp [hi1])]
  simp

theorem broadcast_expanded {bl bs t : List ℕ} (ht : broadcastShapes bl bs = some t) :
    broadcastShapes (List.replicate (t.length - bs.length) 1 ++ bs)
      (List.replicate (t.length - bl.length) 1 ++ bl) = some t := by
  have lt := broadcast_absorb_left ht
  have st := broadcast_absorb_right ht
  have kl : bl.length ≤ t.length := broadcast_length_le lt
  have ks : bs.length ≤ t.length := broadcast_length_le st
  obtain ⟨u, u1, u2⟩ := broadcastShapes_join _ _ t (broadcast_ones_lead st (k := t.length - bs.length) (by omega))
    (broadcast_ones_lead lt (k := t.length - bl.length) (by omega))
  have e1 : broadcastShapes bl (List.replicate (t.length - bl.length) 1 ++ bl) =
      some (List.replicate (t.length - bl.length) 1 ++ bl) := by
    rw [broadcastShapes_iff]; simp [brev_prefix_lead]
  have e2 : broadcastShapes bs (List.replicate (t.length - bs.length) 1 ++ bs) =
      some (List.replicate (t.length - bs.length) 1 ++ bs) := by
    rw [broadcastShapes_iff]; simp [brev_prefix_lead]
  have f1 := broadcast_trans e1 (broadcast_absorb_right u1)
  have f2 := broadcast_trans e2 (broadcast_absorb_left u1)
  obtain ⟨v, v1, v2⟩ := broadcastShapes_join _ _ u f1 f2
  rw [ht] at v1; cases v1
  rw [u1, broadcastShapes_antisymm u2 v2]

theorem diag_core (l s : Arr) (bl bs t : List ℕ) (hl : l.shape = bl ++ [n]) (hs : s.shape = bs ++ [n])
    (ht : broadcastShapes bl bs = some t) (hnz : ∀ j, InRange bs j → ∀ k : Fin n, s.data (j ++ [k.val]) ≠ 0) :
    ∃ d, MVNDiag.mk? (some l) (some s) = .ok d ∧
      Represents d n t (fun i => l.vec n (proj bl i)) (fun i => Matrix.diagonal fun k => s.vec n (proj bs i) k ^ 2) := by
  have hb : broadcastShapes l.shape s.shape = some (t ++ [n]) := by rw [hl, hs, broadcast_append, ht]; rfl
  have lt := broadcast_absorb_left ht
  have st := broadcast_absorb_right ht
  have kl : bl.length ≤ t.length := broadcast_length_le lt
  have ks : bs.length ≤ t.length := broadcast_length_le st
  have hexp : ∀ (a : Arr) (ba : List ℕ), a.shape = ba ++ [n] →
      (a.expandLeading (t ++ [n]).length).shape = (List.replicate (t.length - ba.length) 1 ++ ba) ++ [n] := by
    intro a ba ha
    have : (t ++ [n]).length - a.shape.length = t.length - ba.length := by rw [ha]; simp
    simp [Arr.expandLeading, this, ha]
  have hdat : ∀ (a : Arr) (ba : List ℕ), a.shape = ba ++ [n] → ba.length ≤ t.length → ∀ i, InRange t i →
      (a.expandLeading (t ++ [n]).length).vec n (proj (List.replicate (t.length - ba.length) 1 ++ ba) i) =
        a.vec n (proj ba i) := by
    intro a ba ha hle i hi
    have : (t ++ [n]).length - a.shape.length = t.length - ba.length := by rw [ha]; simp
    funext k
    simp only [Arr.vec, Arr.expandLeading, this, expand_proj hi hle]
  obtain ⟨sc, f, g1, g2⟩ := ofDiag_good (n := n) (dg := s.expandLeading (t ++ [n]).length)
    (bd := List.replicate (t.length - bs.length) 1 ++ bs) (hexp s bs hs) (by
      intro j hj k
      have hk : (t ++ [n]).length - s.shape.length = t.length - bs.length := by rw [hs]; simp
      simp only [Arr.expandLeading, hk]
      obtain ⟨j1, j2, rfl, hj1, hj2⟩ : ∃ j1 j2, j = j1 ++ j2 ∧ j1.length = t.length - bs.length ∧ InRange bs j2 := by
        refine ⟨j.take (t.length - bs.length), j.drop (t.length - bs.length), by simp, ?_, ?_⟩
        · have := hj.length; simp at this; simp; omega
        · have h := List.forall₂_drop (t.length - bs.length) hj
          rwa [List.drop_left' (by simp)] at h
      rw [List.append_assoc, List.drop_left' hj1]
      exact hnz j2 hj2 k)
  have hpt := broadcast_expanded ht
  obtain ⟨d, d1, d2, d3, -, d5⟩ := mk_sound (hexp l bl hl) g2 hpt
  refine ⟨d, ?_, _, _, _, _, d5, d2, fun i hi => ⟨?_, ?_⟩⟩
  · have hc : MVNDiag.check (some l) (some s) = .ok () := by
      simp [MVNDiag.check, hl, hs]
    rw [MVNDiag.mk?, hc, ok_bind]
    show (match broadcastShapes l.shape s.shape with | none => _ | some bs => _) = _
    rw [hb]
    show (Scale.ofDiag _ >>= _) = _
    rw [g1, ok_bind]; exact d1
  · rw [d3, hdat l bl hl kl i hi]
  · rw [hdat s bs hs ks i hi, diag_gram]

/-- **Diagonal variant.**  With optional `loc` (default zeros) and `scale_diag` (default ones): `N(loc, diag(scale_diag²))`. -/
theorem C37_diag (loc sd : Option Arr) (bl bs t : List ℕ) (hsome : loc.isSome ∨ sd.isSome) (hl : OptShape loc bl [n])
    (hs : OptShape sd bs [n]) (ht : broadcastShapes bl bs = some t)
    (hnz : ∀ s, sd = some s → ∀ j, InRange bs j → ∀ k : Fin n, s.data (j ++ [k.val]) ≠ 0) :
    ∃ d, MVNDiag.mk? loc sd = .ok d ∧
      Represents d n t (optVec n bl loc 0) (fun i => Matrix.diagonal fun k => optVec n bs sd 1 i k ^ 2) := by
  cases loc with
  | some l =>
    cases sd with
    | some s => exact diag_core l s bl bs t hl hs ht (hnz s rfl)
    | none =>
      have hs' : bs = [] := hs
      subst hs'
      obtain ⟨d, h1, h2⟩ := diag_core l (Arr.ones [n]) bl [] t hl rfl ht (fun _ _ _ => one_ne_zero)
      refine ⟨d, ?_, h2⟩
      rw [← h1]
      have hl' : l.shape = bl ++ [n] := hl
      simp [MVNDiag.mk?, MVNDiag.check, hl', Arr.ones]
  | none =>
    have hl' : bl = [] := hl
    subst hl'
    cases sd with
    | none => simp at hsome
    | some s =>
      obtain ⟨d, h1, h2⟩ := diag_core (Arr.zeros [n]) s [] bs t rfl hs ht (hnz s rfl)
      refine ⟨d, ?_, h2⟩
      rw [← h1]
      have hs' : s.shape = bs ++ [n] := hs
      simp [MVNDiag.mk?, MVNDiag.check, hs', Arr.zeros]

/-- What `jnp.tril` / `jnp.triu` keep. -/
def triPart {n : ℕ} (lower : Bool) (A : Matrix (Fin n) (Fin n) ℝ) : Matrix (Fin n) (Fin n) ℝ :=
  fun r c => if (if lower then c ≤ r else r ≤ c) then A r c else 0

theorem tri_core (la : LinAlg) (l s : Arr) (isLower : Bool) (bl bs t : List ℕ) (hl : l.shape = bl ++ [n])
    (hs : s.shape = bs ++ [n, n]) (ht : broadcastShapes bl bs = some t)
    (hnz : ∀ j, InRange bs j → ∀ k : Fin n, s.data (j ++ [k.val, k.val]) ≠ 0) :
    ∃ d, MVNTri.mk? la (some l) (some s) isLower = .ok d ∧ d.covM = none ∧ d.batch = t ∧ d.loc0 = l ∧ ∃ f,
      d.Sound n bl bs (fun i => triPart isLower (s.mat n n i)) f := by
  obtain ⟨M, f, h1, h2, h3, h4⟩ := triangular_facts la (s.tri isLower) isLower bs n hs
  have hM : M = fun i => triPart isLower (s.mat n n i) := by
    funext i; ext r c
    rw [h2]
    cases isLower <;>
      simp only [tril, triu, triPart, Arr.mat, Arr.tri, getLastD_two, dropLast_two, getLastD_snoc, Bool.false_eq_true,
        if_true, if_false, Fin.le_def] <;> split_ifs <;> rfl
  subst hM
  have hg : GoodScale ⟨⟨n, bs, (fun i => triPart isLower (s.mat n n i)), f⟩, none⟩ n bs (fun i => triPart isLower (s.mat n n i)) f := by
    refine ⟨rfl, h3, h4, fun d hd => (by cases hd), fun j hj => ?_⟩
    have hdet : (triPart isLower (s.mat n n j)).det = ∏ k, s.mat n n j k k := by
      cases isLower
      · have : triPart false (s.mat n n j) = triu (s.mat n n j) := by ext r c; simp [triPart, triu]
        rw [this, triu_det]
      · have : triPart true (s.mat n n j) = tril (s.mat n n j) := by ext r c; simp [triPart, tril]
        rw [this, tril_det]
    rw [hdet]
    exact Finset.prod_ne_zero_iff.2 fun k _ => hnz j hj k
  obtain ⟨d, d1, d2, d3, d4, d5⟩ := mk_sound hl hg (by rw [broadcastShapes_comm]; exact ht)
  refine ⟨d, ?_, d4, d2, d3, f, d5⟩
  have hc : MVNTri.check (some l) (some s) = .ok () := by
    simp [MVNTri.check, hl, hs]
  rw [MVNTri.mk?, hc, ok_bind]
  simp only [pure, Except.pure]
  rw [ok_bind]
  rw [h1, ok_bind]
  exact d1

/-- **Triangular variant.**  `N(loc, S Sᵀ)` where `S` is the named triangle of `scale_tri` (the other triangle is ignored),
identity by default. -/
theorem C37_tri (la : LinAlg) (loc st : Option Arr) (isLower : Bool) (bl bs t : List ℕ) (hsome : loc.isSome ∨ st.isSome)
    (hl : OptShape loc bl [n]) (hs : OptShape st bs [n, n]) (ht : broadcastShapes bl bs = some t)
    (hnz : ∀ s, st = some s → ∀ j, InRange bs j → ∀ k : Fin n, s.data (j ++ [k.val, k.val]) ≠ 0) :
    ∃ d, MVNTri.mk? la loc st isLower = .ok d ∧ d.covM = none ∧
      Represents d n t (optVec n bl loc 0) (fun i => match st with
        | some s => triPart isLower (s.mat n n (proj bs i)) * (triPart isLower (s.mat n n (proj bs i)))ᵀ
        | none => 1) := by
  cases st with
  | some s =>
    cases loc with
    | some l =>
      obtain ⟨d, h1, h2, h3, h4, f, h5⟩ := tri_core la l s isLower bl bs t hl hs ht (hnz s rfl)
      exact ⟨d, h1, h2, _, _, _, _, h5, h3, fun i _ => ⟨by rw [h4]; rfl, rfl⟩⟩
    | none =>
      have hl' : bl = [] := hl
      subst hl'
      obtain ⟨d, h1, h2, h3, h4, f, h5⟩ := tri_core la (Arr.zeros [n]) s isLower [] bs t rfl hs ht (hnz s rfl)
      refine ⟨d, ?_, h2, _, _, _, _, h5, h3, fun i _ => ⟨by rw [h4]; rfl, rfl⟩⟩
      rw [← h1]
      have hs' : s.shape = bs ++ [n, n] := hs
      simp [MVNTri.mk?, MVNTri.check, hs', Arr.zeros]
  | none =>
    have hs' : bs = [] := hs
    subst hs'
    cases loc with
    | none => simp at hsome
    | some l =>
      have hl' : l.shape = bl ++ [n] := hl
      obtain ⟨sc, f, g1, g2⟩ := ofDiag_good (n := n) (dg := Arr.ones [n]) (bd := []) rfl (fun _ _ _ => one_ne_zero)
      obtain ⟨d, d1, d2, d3, d4, d5⟩ := mk_sound hl' g2 (by rw [broadcastShapes_comm]; exact ht)
      refine ⟨d, ?_, d4, _, _, _, _, d5, d2, fun i _ => ⟨by rw [d3]; rfl, ?_⟩⟩
      · have hc : MVNTri.check (some l) none = .ok () := by simp [MVNTri.check, hl']
        rw [MVNTri.mk?, hc, ok_bind]
        simp only [pure, Except.pure]
        rw [ok_bind, hl', getLastD_snoc, g1, ok_bind]
        exact d1
      · rw [diag_gram]
        ext r c
        by_cases h : r = c
        · subst h; simp [Arr.vec, Arr.ones]
        · simp [h]

end Distrax
