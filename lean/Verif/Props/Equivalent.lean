import Verif.Spec.Equivalent
import Verif.Props.FamArr2
import Verif.Props.Bijector
import Verif.Lemmas.Bijector
import Verif.Lemmas.MVN

/-! C60: different constructions of the same distribution agree.  Part 1: `Transformed` of the location-scale families. -/

namespace Distrax

open Spec Bij

/-! ### Entry by entry -/

theorem normal_affine (m q s c y : ℝ) (hc : c ≠ 0) (hq : 0 < q) :
    Normal.logProb ⟨m, q⟩ (1 / c * (y - s)) + -Real.log |c| = Normal.logProb ⟨c * m + s, |c| * q⟩ y := by
  have hc' := abs_pos.2 hc
  unfold Normal.logProb Normal.standardize
  simp only
  rw [Real.log_mul hc'.ne' hq.ne']
  have e : ((1 / c * (y - s) - m) / q) ^ 2 = ((y - (c * m + s)) / (|c| * q)) ^ 2 := by
    rw [div_pow, div_pow, mul_pow, sq_abs]; field_simp; ring
  rw [e]; ring

theorem laplace_affine (m q s c y : ℝ) (hc : c ≠ 0) (hq : 0 < q) :
    Laplace.logProb ⟨m, q⟩ (1 / c * (y - s)) + -Real.log |c| = Laplace.logProb ⟨c * m + s, |c| * q⟩ y := by
  have hc' := abs_pos.2 hc
  unfold Laplace.logProb Laplace.standardize
  simp only
  rw [Real.log_mul hc'.ne' hq.ne']
  have e : |(1 / c * (y - s) - m) / q| = |(y - (c * m + s)) / (|c| * q)| := by
    rw [abs_div, abs_div, abs_mul, abs_abs, show 1 / c * (y - s) - m = (y - (c * m + s)) / c by field_simp; ring, abs_div,
      div_div]
  rw [e]; ring

theorem rsoftplus_neg (z : ℝ) : rsoftplus (-z) = rsoftplus z - z := by
  unfold rsoftplus
  have h : 1 + Real.exp (-z) = (1 + Real.exp z) * Real.exp (-z) := by
    rw [add_mul, ← Real.exp_add]; simp; ring
  rw [h, Real.log_mul (by positivity) (Real.exp_pos _).ne', Real.log_exp]; ring

theorem logistic_affine (m q s c y : ℝ) (hc : c ≠ 0) (hq : 0 < q) :
    Logistic.logProb ⟨m, q⟩ (1 / c * (y - s)) + -Real.log |c| = Logistic.logProb ⟨c * m + s, |c| * q⟩ y := by
  have hc' := abs_pos.2 hc
  unfold Logistic.logProb Logistic.standardize
  simp only
  rw [Real.log_mul hc'.ne' hq.ne']
  rcases lt_or_gt_of_ne hc with h | h
  · rw [abs_of_neg h]
    have e : (y - (c * m + s)) / (-c * q) = -((1 / c * (y - s) - m) / q) := by field_simp; ring
    rw [e, neg_neg, rsoftplus_neg]; ring
  · rw [abs_of_pos h]
    have e : (y - (c * m + s)) / (c * q) = (1 / c * (y - s) - m) / q := by field_simp; ring
    rw [e]; ring

theorem gumbel_affine (m q s c y : ℝ) (hc : 0 < c) (hq : 0 < q) :
    Gumbel.logProb ⟨m, q⟩ (1 / c * (y - s)) + -Real.log |c| = Gumbel.logProb ⟨c * m + s, |c| * q⟩ y := by
  unfold Gumbel.logProb Gumbel.standardize
  simp only
  rw [abs_of_pos hc, Real.log_mul hc.ne' hq.ne']
  have e : (y - (c * m + s)) / (c * q) = (1 / c * (y - s) - m) / q := by field_simp; ring
  rw [e]; ring

/-! ### Whole arrays -/

variable {Key : Type}

/-- `Transformed.log_prob` of a scalar family under any composition of elementwise bijectors whose parameters fit into the
value's shape. -/
theorem transformed_entries {d : P2} {noise : Key → List ℕ → BArr ℝ} {sN nlp lp e lc} {g : ℝ → ℝ → ℝ → ℝ}
    (hv : OfValue d lp g) {b : Bij} (hw : b.WF) (hn : b.ndimsIn = 0) {T : List ℕ} (hf : b.Fits T) (hd : BLe d.batch T)
    (v : Arr) (hvT : v.shape = T) :
    ∃ l, TransformedA.logProb (d.dist noise sN nlp lp e lc) b v = .ok l ∧ l.shape = T ∧
      ∀ i, InRange T i → l.data i = g (bget d.p i) (bget d.q i) ((b.den i).G (v.data i)) + (b.den i).M (v.data i) := by
  obtain ⟨x, l, h1, h2, h3⟩ := (refines b T hw hf (by omega)).invLd v hvT
  obtain ⟨a, a1, a2, a3⟩ := hv ⟨x.shape, x.data⟩ T (by rw [h2.1]; exact hd)
  rw [hn] at h3
  have l1 : l.shape = T := by rw [h3.1]; simp
  have l2 : ∀ i, InRange T i → l.data i = (b.den i).M (v.data i) := by
    intro i hi
    have := h3.2 i (by simpa using hi)
    rw [this]; simp [allIdx]
  obtain ⟨r, r1, r2, r3⟩ := bin_same (· + ·) (⟨a.shape, a.data⟩ : Arr) l T a2 l1
  refine ⟨r, ?_, r2, fun i hi => ?_⟩
  · show TransformedA.logProb _ _ _ = _
    unfold TransformedA.logProb
    rw [h1, ok_bind]
    show ((P2.dist d noise sN nlp lp e lc).logProb x >>= _) = _
    rw [show (P2.dist d noise sN nlp lp e lc).logProb x = .ok ⟨a.shape, a.data⟩ from toArr_of a1, ok_bind]
    exact r1
  · rw [r3 i hi, l2 i hi]
    have e : bget (⟨x.shape, x.data⟩ : BArr ℝ) i = (b.den i).G (v.data i) :=
      (bget_full (a := ⟨x.shape, x.data⟩) h2.1 hi).trans (h2.2 i hi)
    exact congrArg (· + _) ((a3 i hi).trans (congrArg (g _ _) e))

/-- The scalar maps of a constructed `ScalarAffine`. -/
theorem scalarAffine_den {o z a1 a2 : ℕ} {sh : Ref} {sc ls : Option Ref} {b : Bij}
    (hb : mkScalarAffine o z a1 a2 sh sc ls = .ok b) (i : List ℕ) :
    b.WF ∧ b.ndimsIn = 0 ∧ b.constJac = true ∧ b.constLogDet = true ∧
    (∀ x, (b.den i).F x = scaleAt sc ls i * x + aget sh.val i) ∧
    (∀ y, (b.den i).G y = 1 / scaleAt sc ls i * (y - aget sh.val i)) ∧
    (∀ x, (b.den i).L x = Real.log |scaleAt sc ls i|) ∧ ∀ y, (b.den i).M y = -Real.log |scaleAt sc ls i| := by
  have hw := (Built.scalarAffine hb).wf
  rcases sc with _ | s <;> rcases ls with _ | l
  · obtain rfl := Except.ok.inj hb
    refine ⟨hw, rfl, rfl, rfl, ?_, ?_, ?_, ?_⟩ <;>
      simp [den, Ref.at, scaleAt, aget, Arr.scalar]
  · unfold mkScalarAffine at hb
    simp only at hb
    split at hb
    · cases hb
    · obtain rfl := Except.ok.inj hb
      refine ⟨hw, rfl, rfl, rfl, ?_, ?_, ?_, ?_⟩ <;>
        simp [den, Ref.at, scaleAt, aget, Arr.map, Real.exp_neg]
  · unfold mkScalarAffine at hb
    simp only at hb
    split at hb
    · cases hb
    · obtain rfl := Except.ok.inj hb
      refine ⟨hw, rfl, rfl, rfl, ?_, ?_, ?_, ?_⟩ <;>
        simp [den, Ref.at, scaleAt, aget, Arr.map]
  · simp [mkScalarAffine] at hb

/-- The two sides of the affine identities. -/
theorem affine_agree {p0 q0 p1 q1 : BArr ℝ} {d0 d1 : P2} {noise0 noise1 : Key → List ℕ → BArr ℝ}
    {lp0 lp1 : AE ℝ → AE ℝ} {sN0 nlp0 e0 lc0 sN1 nlp1 e1 lc1} {g : ℝ → ℝ → ℝ → ℝ}
    (h0 : d0.p = p0 ∧ d0.q = q0) (h1 : d1.p = p1 ∧ d1.q = q1)
    (hv0 : OfValue d0 lp0 g) (hv1 : OfValue d1 lp1 g) {o z a1 a2 : ℕ} {sh : Ref} {sc ls : Option Ref} {b : Bij}
    (hb : mkScalarAffine o z a1 a2 sh sc ls = .ok b) {T : List ℕ} (hf : b.Fits T) (hd0 : BLe d0.batch T) (hd1 : BLe d1.batch T)
    (hg : ∀ i, InRange T i → ∀ y, g (bget p0 i) (bget q0 i) (1 / scaleAt sc ls i * (y - aget sh.val i)) + -Real.log |scaleAt sc ls i|
      = g (bget p1 i) (bget q1 i) y) :
    AgreeOn T (TransformedA.logProb (d0.dist noise0 sN0 nlp0 lp0 e0 lc0) b) (d1.dist noise1 sN1 nlp1 lp1 e1 lc1).logProb := by
  intro v hvT
  obtain ⟨hw, hn, -⟩ := scalarAffine_den hb []
  obtain ⟨l, l1, l2, l3⟩ := transformed_entries (noise := noise0) (sN := sN0) (nlp := nlp0) (e := e0) (lc := lc0) hv0 hw hn hf hd0 v hvT
  obtain ⟨a, b1, b2, b3⟩ := hv1 ⟨v.shape, v.data⟩ T (by rw [hvT]; exact hd1)
  refine ⟨l, ⟨a.shape, a.data⟩, l1, toArr_of b1, ⟨by rw [l2]; exact b2.symm, fun i hi => ?_⟩, l2⟩
  rw [l2] at hi
  obtain ⟨-, -, -, -, -, hG, -, hM⟩ := scalarAffine_den hb i
  rw [l3 i hi, hG, hM, h0.1, h0.2, hg i hi]
  have e : bget (⟨v.shape, v.data⟩ : BArr ℝ) i = v.data i := bget_full (a := ⟨v.shape, v.data⟩) hvT hi
  refine ((b3 i hi).trans ?_).symm
  show g (bget d1.p i) (bget d1.q i) (bget (⟨v.shape, v.data⟩ : BArr ℝ) i) = _
  rw [e, h1.1, h1.2]

/-- `Transformed(Normal(loc0, scale0), ScalarAffine(shift, scale or log_scale))` has the `log_prob` of
`Normal(scale * loc0 + shift, |scale| * scale0)`, for parameter arrays of any shapes that broadcast into the value's. -/
theorem C60_affine_normal (noise : Key → List ℕ → BArr ℝ) (p0 q0 p1 q1 : BArr ℝ) (d0 d1 : P2) (h0 : P2.init p0 q0 = .ok d0)
    (h1 : P2.init p1 q1 = .ok d1) {o z a1 a2 : ℕ} {sh : Ref} {sc ls : Option Ref} {b : Bij}
    (hb : mkScalarAffine o z a1 a2 sh sc ls = .ok b) {T : List ℕ} (hf : b.Fits T)
    (hd0 : broadcastShapes d0.batch T = some T) (hd1 : broadcastShapes d1.batch T = some T)
    (hi : AffineImage T (fun i => aget sh.val i) (scaleAt sc ls) p0 q0 p1 q1) :
    AgreeOn T (TransformedA.logProb (NormalA.dist noise d0) b) (NormalA.dist noise d1).logProb := by
  have e0 := (C58_normal p0 q0 d0 h0).2.2.2.2.2.2.1
  have e1 := (C58_normal p1 q1 d1 h1).2.2.2.2.2.2.1
  refine affine_agree ⟨(P2.init_wf h0).1, (P2.init_wf h0).2.1⟩ ⟨(P2.init_wf h1).1, (P2.init_wf h1).2.1⟩ e0 e1 hb hf hd0 hd1 fun i hiT y => ?_
  obtain ⟨g1, g2, g3, g4⟩ := hi i hiT
  rw [g3, g4]
  exact normal_affine _ _ _ _ _ g1 g2

/-- Same for Laplace. -/
theorem C60_affine_laplace (noise : Key → List ℕ → BArr ℝ) (p0 q0 p1 q1 : BArr ℝ) (d0 d1 : P2) (h0 : P2.init p0 q0 = .ok d0)
    (h1 : P2.init p1 q1 = .ok d1) {o z a1 a2 : ℕ} {sh : Ref} {sc ls : Option Ref} {b : Bij}
    (hb : mkScalarAffine o z a1 a2 sh sc ls = .ok b) {T : List ℕ} (hf : b.Fits T)
    (hd0 : broadcastShapes d0.batch T = some T) (hd1 : broadcastShapes d1.batch T = some T)
    (hi : AffineImage T (fun i => aget sh.val i) (scaleAt sc ls) p0 q0 p1 q1) :
    AgreeOn T (TransformedA.logProb (LaplaceA.dist noise d0) b) (LaplaceA.dist noise d1).logProb := by
  have e0 := (C58_laplace p0 q0 d0 h0).2.2.2.2.2.2.1
  have e1 := (C58_laplace p1 q1 d1 h1).2.2.2.2.2.2.1
  refine affine_agree ⟨(P2.init_wf h0).1, (P2.init_wf h0).2.1⟩ ⟨(P2.init_wf h1).1, (P2.init_wf h1).2.1⟩ e0 e1 hb hf hd0 hd1 fun i hiT y => ?_
  obtain ⟨g1, g2, g3, g4⟩ := hi i hiT
  rw [g3, g4]
  exact laplace_affine _ _ _ _ _ g1 g2

/-- Same for Logistic. -/
theorem C60_affine_logistic (noise : Key → List ℕ → BArr ℝ) (p0 q0 p1 q1 : BArr ℝ) (d0 d1 : P2) (h0 : P2.init p0 q0 = .ok d0)
    (h1 : P2.init p1 q1 = .ok d1) {o z a1 a2 : ℕ} {sh : Ref} {sc ls : Option Ref} {b : Bij}
    (hb : mkScalarAffine o z a1 a2 sh sc ls = .ok b) {T : List ℕ} (hf : b.Fits T)
    (hd0 : broadcastShapes d0.batch T = some T) (hd1 : broadcastShapes d1.batch T = some T)
    (hi : AffineImage T (fun i => aget sh.val i) (scaleAt sc ls) p0 q0 p1 q1) :
    AgreeOn T (TransformedA.logProb (LogisticA.dist noise d0) b) (LogisticA.dist noise d1).logProb := by
  have e0 := (C58_logistic p0 q0 d0 h0).2.2.2.2.2.2.1
  have e1 := (C58_logistic p1 q1 d1 h1).2.2.2.2.2.2.1
  refine affine_agree ⟨(P2.init_wf h0).1, (P2.init_wf h0).2.1⟩ ⟨(P2.init_wf h1).1, (P2.init_wf h1).2.1⟩ e0 e1 hb hf hd0 hd1 fun i hiT y => ?_
  obtain ⟨g1, g2, g3, g4⟩ := hi i hiT
  rw [g3, g4]
  exact logistic_affine _ _ _ _ _ g1 g2

/-- Same for Gumbel, for positive scales (a reflected Gumbel is not a Gumbel). -/
theorem C60_affine_gumbel (noise : Key → List ℕ → BArr ℝ) (p0 q0 p1 q1 : BArr ℝ) (d0 d1 : P2) (h0 : P2.init p0 q0 = .ok d0)
    (h1 : P2.init p1 q1 = .ok d1) {o z a1 a2 : ℕ} {sh : Ref} {sc ls : Option Ref} {b : Bij}
    (hb : mkScalarAffine o z a1 a2 sh sc ls = .ok b) {T : List ℕ} (hf : b.Fits T)
    (hd0 : broadcastShapes d0.batch T = some T) (hd1 : broadcastShapes d1.batch T = some T)
    (hi : AffineImage T (fun i => aget sh.val i) (scaleAt sc ls) p0 q0 p1 q1) (hc : ∀ i, InRange T i → 0 < scaleAt sc ls i) :
    AgreeOn T (TransformedA.logProb (GumbelA.dist noise d0) b) (GumbelA.dist noise d1).logProb := by
  have e0 := (C58_gumbel_partial p0 q0 d0 h0).2.2.2.2.2.1
  have e1 := (C58_gumbel_partial p1 q1 d1 h1).2.2.2.2.2.1
  refine affine_agree ⟨(P2.init_wf h0).1, (P2.init_wf h0).2.1⟩ ⟨(P2.init_wf h1).1, (P2.init_wf h1).2.1⟩ e0 e1 hb hf hd0 hd1 fun i hiT y => ?_
  obtain ⟨g1, g2, g3, g4⟩ := hi i hiT
  rw [g3, g4]
  exact gumbel_affine _ _ _ _ _ (hc i hiT) g2

/-! ### The whole object -/

theorem inRange_cons_split {n : ℕ} {T i : List ℕ} (h : InRange (n :: T) i) : ∃ j k, i = j :: k ∧ j < n ∧ InRange T k := by
  cases h with
  | cons h1 h2 => exact ⟨_, _, rfl, h1, h2⟩

theorem toArrD_of {x : AE ℝ} {a : BArr ℝ} (h : x = .arr a) : x.toArrD = ⟨a.shape, a.data⟩ := by
  rw [AE.toArrD, toArr_of h]

/-- `jax.vmap` of a function that acts entry by entry on arrays of shape `T`. -/
theorem vmapArr_of {f : Arr → Except Err Arr} {T : List ℕ} {g : List ℕ → ℝ → ℝ}
    (hf : ∀ x : Arr, x.shape = T → ∃ y, f x = .ok y ∧ y.shape = T ∧ ∀ i, InRange T i → y.data i = g i (x.data i))
    {n : ℕ} (x : Arr) (hx : x.shape = n :: T) :
    ∃ y, vmapArr f x = .ok y ∧ y.shape = n :: T ∧ ∀ j i, InRange T i → y.data (j :: i) = g i (x.data (j :: i)) := by
  have hl : ∀ j, (x.lead j).shape = T := fun j => by simp [Arr.lead, hx]
  obtain ⟨y, y1, y2, y3⟩ := hf _ (hl 0)
  refine ⟨_, by rw [vmapArr, y1], by simp [hx, y2], fun j i hi => ?_⟩
  obtain ⟨z, z1, z2, z3⟩ := hf _ (hl j)
  show (match f (x.lead j) with | .ok z => z.data i | .error _ => 0) = _
  rw [z1]
  exact z3 i hi

theorem vmapSub_of {T : List ℕ} {n : ℕ} (x y : Arr) (hx : x.shape = n :: T) (hy : y.shape = n :: T) :
    ∃ z, vmapSub x y = .ok z ∧ z.shape = n :: T ∧ ∀ j i, InRange T i → z.data (j :: i) = x.data (j :: i) - y.data (j :: i) := by
  have hl : ∀ j, (x.lead j).shape = T := fun j => by simp [Arr.lead, hx]
  have hl' : ∀ j, (y.lead j).shape = T := fun j => by simp [Arr.lead, hy]
  obtain ⟨z, z1, z2, z3⟩ := bin_same (· - ·) _ _ T (hl 0) (hl' 0)
  refine ⟨_, by rw [vmapSub, z1], by simp [hx, z2], fun j i hi => ?_⟩
  obtain ⟨w, w1, w2, w3⟩ := bin_same (· - ·) _ _ T (hl j) (hl' j)
  show (match Arr.bin (· - ·) (x.lead j) (y.lead j) with | .ok z => z.data i | .error _ => 0) = _
  rw [w1]
  exact w3 i hi

theorem ld_zero_entries {T : List ℕ} {L : List ℕ → ℝ → ℝ} {x l : Arr} (h : Ld T 0 L x l) :
    l.shape = T ∧ ∀ i, InRange T i → l.data i = L i (x.data i) := by
  refine ⟨by rw [h.1]; simp, fun i hi => ?_⟩
  rw [h.2 i (by simpa using hi)]; simp [allIdx]

/-- What the constructor stores. -/
theorem scalarAffine_form {o z a1 a2 : ℕ} {sh : Ref} {sc ls : Option Ref} {b : Bij}
    (hb : mkScalarAffine o z a1 a2 sh sc ls = .ok b) :
    ∃ sc' is' ls', b = .scalarAffine sh sc' is' ls' ∧ ∀ i, scaleAt sc ls i = aget sc'.val i := by
  rcases sc with _ | s <;> rcases ls with _ | l
  · obtain rfl := Except.ok.inj hb
    exact ⟨_, _, _, rfl, fun i => by simp [scaleAt, aget, Arr.scalar]⟩
  · unfold mkScalarAffine at hb
    simp only at hb
    split at hb
    · cases hb
    · obtain rfl := Except.ok.inj hb
      exact ⟨_, _, _, rfl, fun i => by simp [scaleAt, aget, Arr.map]⟩
  · unfold mkScalarAffine at hb
    simp only at hb
    split at hb
    · cases hb
    · obtain rfl := Except.ok.inj hb
      exact ⟨_, _, _, rfl, fun i => rfl⟩
  · simp [mkScalarAffine] at hb

/-- The six components of `Indistinguishable` from entry-by-entry methods. -/
theorem indistinguishable {d0 d1 : P2} (hd0 : d0.Wf) (hd1 : d1.Wf) {noise : Key → List ℕ → BArr ℝ} (hn : NoiseShape noise)
    {lp0 lp1 : AE ℝ → AE ℝ} {sN0 nlp0 e0 lc0 sN1 nlp1 e1 lc1} {g f : ℝ → ℝ → ℝ → ℝ} {h me : ℝ → ℝ → ℝ} {m0 m1 : AE ℝ}
    (hv0 : OfValue d0 lp0 g) (hv1 : OfValue d1 lp1 g)
    (hs0 : OfNoise d0 (fun _ => sN0) f) (hs1 : OfNoise d1 (fun _ => sN1) f)
    (hn0 : OfNoise d0 (fun _ r => (nlp0 r).1) f) (hn1 : OfNoise d1 (fun _ r => (nlp1 r).1) f)
    (hl0 : OfNoise d0 (fun _ r => (nlp0 r).2) fun a b r => g a b (f a b r))
    (hl1 : OfNoise d1 (fun _ r => (nlp1 r).2) fun a b r => g a b (f a b r))
    (he0 : Summary d0 e0 h) (he1 : Summary d1 e1 h) (hm0 : Summary d0 m0 me) (hm1 : Summary d1 m1 me)
    {o z a1 a2 : ℕ} {sh : Ref} {sc ls : Option Ref} {b : Bij}
    (hb : mkScalarAffine o z a1 a2 sh sc ls = .ok b) (hf : b.Fits d0.batch) (hT : d1.batch = d0.batch)
    (hg : ∀ i, InRange d0.batch i → ∀ y, g (bget d0.p i) (bget d0.q i) (1 / scaleAt sc ls i * (y - aget sh.val i)) + -Real.log |scaleAt sc ls i|
      = g (bget d1.p i) (bget d1.q i) y)
    (hc : ∀ i, InRange d0.batch i → scaleAt sc ls i ≠ 0)
    (hfs : ∀ i, InRange d0.batch i → ∀ r, scaleAt sc ls i * f (bget d0.p i) (bget d0.q i) r + aget sh.val i = f (bget d1.p i) (bget d1.q i) r)
    (hh : ∀ i, InRange d0.batch i → h (bget d0.p i) (bget d0.q i) + Real.log |scaleAt sc ls i| = h (bget d1.p i) (bget d1.q i))
    (hme : ∀ i, InRange d0.batch i → scaleAt sc ls i * me (bget d0.p i) (bget d0.q i) + aget sh.val i = me (bget d1.p i) (bget d1.q i)) :
    Indistinguishable (d0.dist noise sN0 nlp0 lp0 e0 lc0) m0.toArr b (d1.dist noise sN1 nlp1 lp1 e1 lc1) m1.toArr := by
  obtain ⟨hw, hnd, hj, hld, -⟩ := scalarAffine_den hb []
  have R := refines b d0.batch hw hf (by omega)
  have F := fun i => (scalarAffine_den hb i).2.2.2.2.1
  have L := fun i => (scalarAffine_den hb i).2.2.2.2.2.2.1
  obtain ⟨sc', is', ls', hbf, hsc⟩ := scalarAffine_form hb
  have hfs' : BLe sh.val.shape d0.batch ∧ BLe sc'.val.shape d0.batch := by rw [hbf] at hf; exact hf
  have hl : ∀ {a : BArr ℝ} {j i}, BLe a.shape d0.batch → InRange d0.batch i → bget a (j :: i) = bget a i :=
    fun ha hi => bget_lead (i := [_]) ha hi
  have k1 : BLe d1.p.shape d0.batch := by rw [← hT]; exact hd1.le_p
  have k2 : BLe d1.q.shape d0.batch := by rw [← hT]; exact hd1.le_q
  refine ⟨?_, fun T' hT' => ?_, fun k n => ?_, fun k n => ?_, ?_, ?_⟩
  · obtain ⟨y, y1, y2, -⟩ := R.fwd (Arr.zeros d0.batch) rfl
    show (b.forward (Arr.zeros (d0.batch ++ [])) >>= _) = _
    rw [List.append_nil, y1, ok_bind, if_pos (by rw [hbf]; rfl)]
    show Except.ok (y.shape, []) = Except.ok (d1.batch, [])
    rw [y2, hT]
  · have hT' : BLe d0.batch T' := by rw [← hT]; exact hT'
    have q : ∀ {s : List ℕ} {i}, BLe s d0.batch → InRange T' i → proj s i = proj s (proj d0.batch i) :=
      fun hs hi => (BLe.proj hs (by rw [hi.length]; exact hT'.length)).symm
    refine affine_agree ⟨rfl, rfl⟩ ⟨rfl, rfl⟩ hv0 hv1 hb (T := T') ?_ hT' (by rw [hT]; exact hT') fun i hi y => ?_
    · rw [hbf]; exact ⟨hfs'.1.trans hT', hfs'.2.trans hT'⟩
    · have := hg _ (proj_inRange hT' hi) y
      simp only [hsc, aget, bget] at this ⊢
      rw [← q hd0.le_p hi, ← q hd0.le_q hi, ← q k1 hi, ← q k2 hi, ← q hfs'.1 hi, ← q hfs'.2 hi] at this
      exact this
  · obtain ⟨x, x1, x2, x3⟩ := hs0 n (noise k (n :: d0.batch)) (hn _ _)
    obtain ⟨w, w1, w2, w3⟩ := hs1 n (noise k (n :: d1.batch)) (hn _ _)
    obtain ⟨y, y1, y2, y3⟩ := vmapArr_of (g := fun i => (b.den i).F) (n := n) R.fwd ⟨x.shape, x.data⟩ x2
    refine ⟨y, ⟨w.shape, w.data⟩, ?_, ?_, ?_, ?_⟩
    · show vmapArr b.forward (sN0 _).toArrD = _
      rw [toArrD_of x1]; exact y1
    · show Except.ok (sN1 _).toArrD = _
      rw [toArrD_of w1]
    · rw [y2, ← hT]; exact w2.symm
    · intro i hi
      rw [y2] at hi
      obtain ⟨j, i, rfl, hj', hi'⟩ := inRange_cons_split hi
      rw [y3 j i hi', F]
      refine Eq.trans ?_ (w3 (j :: i) (by rw [hT]; exact hi)).symm
      rw [show (⟨x.shape, x.data⟩ : Arr).data (j :: i) = _ from x3 (j :: i) hi]
      simp only
      rw [hl hd0.le_p hi', hl hd0.le_q hi', hl k1 hi', hl k2 hi', hT]
      exact hfs i hi' _
  · obtain ⟨x, x1, x2, x3⟩ := hn0 n (noise k (n :: d0.batch)) (hn _ _)
    obtain ⟨w, w1, w2, w3⟩ := hn1 n (noise k (n :: d1.batch)) (hn _ _)
    obtain ⟨u, u1, u2, u3⟩ := hl0 n (noise k (n :: d0.batch)) (hn _ _)
    obtain ⟨v, v1, v2, v3⟩ := hl1 n (noise k (n :: d1.batch)) (hn _ _)
    have R1 : ∀ x : Arr, x.shape = d0.batch → ∃ y, (fun r => (b.fwdAndLd r).map Prod.fst) x = .ok y ∧ y.shape = d0.batch ∧
        ∀ i, InRange d0.batch i → y.data i = (b.den i).F (x.data i) := by
      intro x hx
      obtain ⟨y, l, e, h1, -⟩ := R.fwdLd x hx
      exact ⟨y, by simp only [e]; rfl, h1⟩
    have R2 : ∀ x : Arr, x.shape = d0.batch → ∃ y, (fun r => (b.fwdAndLd r).map Prod.snd) x = .ok y ∧ y.shape = d0.batch ∧
        ∀ i, InRange d0.batch i → y.data i = (b.den i).L (x.data i) := by
      intro x hx
      obtain ⟨y, l, e, -, h1⟩ := R.fwdLd x hx
      rw [hnd] at h1
      exact ⟨l, by simp only [e]; rfl, ld_zero_entries h1⟩
    obtain ⟨y, y1, y2, y3⟩ := vmapArr_of (n := n) R1 ⟨x.shape, x.data⟩ x2
    obtain ⟨l, l1, l2, l3⟩ := vmapArr_of (n := n) R2 ⟨x.shape, x.data⟩ x2
    obtain ⟨r, r1, r2, r3⟩ := vmapSub_of ⟨u.shape, u.data⟩ l u2 l2
    refine ⟨y, r, ⟨w.shape, w.data⟩, ⟨v.shape, v.data⟩, ?_, ?_, ⟨?_, ?_⟩, ⟨?_, ?_⟩⟩
    · show (AE.toArr2 (nlp0 _) >>= _) = _
      have : AE.toArr2 (nlp0 (AE.arr (noise k (n :: d0.batch)))) = .ok (⟨x.shape, x.data⟩, ⟨u.shape, u.data⟩) := by
        simp only [AE.toArr2, bind, Except.bind, pure, Except.pure]
        rw [toArr_of (show (nlp0 _).1 = _ from x1), toArr_of (show (nlp0 _).2 = _ from u1)]
      rw [this, ok_bind]
      simp only [vmapArr2]
      rw [y1, ok_bind, l1, ok_bind]
      show (vmapSub ⟨u.shape, u.data⟩ l >>= fun z => pure (y, z)) = _
      rw [r1]; rfl
    · show AE.toArr2 (nlp1 _) = _
      simp only [AE.toArr2, bind, Except.bind, pure, Except.pure]
      rw [toArr_of (show (nlp1 _).1 = _ from w1), toArr_of (show (nlp1 _).2 = _ from v1)]
    · rw [y2, ← hT]; exact w2.symm
    · intro i hi
      rw [y2] at hi
      obtain ⟨j, i, rfl, hj', hi'⟩ := inRange_cons_split hi
      rw [y3 j i hi', F]
      refine Eq.trans ?_ (w3 (j :: i) (by rw [hT]; exact hi)).symm
      rw [show (⟨x.shape, x.data⟩ : Arr).data (j :: i) = _ from x3 (j :: i) hi]
      simp only
      rw [hl hd0.le_p hi', hl hd0.le_q hi', hl k1 hi', hl k2 hi', hT]
      exact hfs i hi' _
    · rw [r2, ← hT]; exact v2.symm
    · intro i hi
      rw [r2] at hi
      obtain ⟨j, i, rfl, hj', hi'⟩ := inRange_cons_split hi
      rw [r3 j i hi', l3 j i hi', L]
      refine Eq.trans ?_ (v3 (j :: i) (by rw [hT]; exact hi)).symm
      rw [show (⟨u.shape, u.data⟩ : Arr).data (j :: i) = _ from u3 (j :: i) hi]
      simp only
      rw [hl hd0.le_p hi', hl hd0.le_q hi', hl k1 hi', hl k2 hi', hT, ← hfs i hi', ← hg i hi']
      have e : ∀ a, 1 / scaleAt sc ls i * (scaleAt sc ls i * a + aget sh.val i - aget sh.val i) = a := by
        intro a; have := hc i hi'; field_simp; ring
      rw [e]; ring
  · obtain ⟨x, x1, x2, x3⟩ := he0
    obtain ⟨w, w1, w2, w3⟩ := he1
    obtain ⟨l, l1, l2⟩ := R.fld (Arr.zeros d0.batch) rfl
    rw [hnd] at l2
    obtain ⟨l3, l4⟩ := ld_zero_entries l2
    obtain ⟨r, r1, r2, r3⟩ := bin_same (· + ·) (⟨x.shape, x.data⟩ : Arr) l d0.batch x2 l3
    refine ⟨r, ⟨w.shape, w.data⟩, ?_, toArr_of w1, by rw [r2, ← hT]; exact w2.symm, fun i hi => ?_⟩
    · unfold TransformedA.entropy
      rw [if_pos hld]
      show (e0.toArr >>= fun e => b.fldj (Arr.zeros (d0.batch ++ [])) >>= fun l => Arr.bin (· + ·) e l) = _
      rw [toArr_of x1, ok_bind, List.append_nil, l1, ok_bind, r1]
    · rw [r2] at hi
      rw [r3 i hi, l4 i hi, L]
      refine Eq.trans ?_ (w3 i (by rw [hT]; exact hi)).symm
      rw [show (⟨x.shape, x.data⟩ : Arr).data i = _ from x3 i hi]
      exact hh i hi
  · obtain ⟨x, x1, x2, x3⟩ := hm0
    obtain ⟨w, w1, w2, w3⟩ := hm1
    obtain ⟨y, y1, y2, y3⟩ := R.fwd ⟨x.shape, x.data⟩ x2
    refine ⟨y, ⟨w.shape, w.data⟩, ?_, toArr_of w1, by rw [y2, ← hT]; exact w2.symm, fun i hi => ?_⟩
    · unfold TransformedA.mean
      rw [if_pos hj, toArr_of x1, ok_bind, y1]
    · rw [y2] at hi
      refine (y3 i hi).trans ((F i _).trans ?_)
      refine Eq.trans ?_ (w3 i (by rw [hT]; exact hi)).symm
      rw [show (⟨x.shape, x.data⟩ : Arr).data i = _ from x3 i hi]
      exact hme i hi

/-- A scalar affine image of a Normal is a Normal: `Transformed(Normal(loc0, scale0), ScalarAffine(shift, scale))` cannot be told
from `Normal(scale * loc0 + shift, scale * scale0)` through any method both have, for a positive scale and parameter arrays of any
shapes whose broadcast is the batch shape of the base. -/
theorem C60_normal_object (noise : Key → List ℕ → BArr ℝ) (hn : NoiseShape noise) (p0 q0 p1 q1 : BArr ℝ) (d0 d1 : P2)
    (h0 : P2.init p0 q0 = .ok d0) (h1 : P2.init p1 q1 = .ok d1) {o z a1 a2 : ℕ} {sh : Ref} {sc ls : Option Ref} {b : Bij}
    (hb : mkScalarAffine o z a1 a2 sh sc ls = .ok b) (hf : b.Fits d0.batch) (hT : d1.batch = d0.batch)
    (hi : AffineImage d0.batch (fun i => aget sh.val i) (scaleAt sc ls) p0 q0 p1 q1)
    (hc : ∀ i, InRange d0.batch i → 0 < scaleAt sc ls i) :
    Indistinguishable (NormalA.dist noise d0) (NormalA.mean d0).toArr b (NormalA.dist noise d1) (NormalA.mean d1).toArr := by
  have E0 := C58_normal p0 q0 d0 h0
  have E1 := C58_normal p1 q1 d1 h1
  obtain ⟨rfl, rfl, w0⟩ := P2.init_wf h0
  obtain ⟨rfl, rfl, w1⟩ := P2.init_wf h1
  obtain ⟨m0, -, -, -, -, e0, lp0, -, -, -, -, -, s0, t0, u0⟩ := E0
  obtain ⟨m1, -, -, -, -, e1, lp1, -, -, -, -, -, s1, t1, u1⟩ := E1
  have pos0 : ∀ n i, InRange (n :: d0.batch) i → 0 < bget d0.q i := fun n i h => by
    obtain ⟨j, i, rfl, -, h⟩ := inRange_cons_split h
    have e : bget d0.q (j :: i) = bget d0.q i := bget_lead (i := [j]) w0.le_q h
    rw [e]; exact (hi i h).2.1
  have pos1 : ∀ n i, InRange (n :: d1.batch) i → 0 < bget d1.q i := fun n i h => by
    obtain ⟨j, i, rfl, -, h⟩ := inRange_cons_split h
    have e : bget d1.q (j :: i) = bget d1.q i := bget_lead (i := [j]) w1.le_q h
    rw [hT] at h
    rw [e, (hi i h).2.2.2]; exact mul_pos (abs_pos.2 (hi i h).1) (hi i h).2.1
  refine indistinguishable w0 w1 hn lp0 lp1 s0 s1 t0 t1
    (u0.congr fun n i h r => ((C28_normal_sample ⟨_, _⟩ (pos0 n i h)).2 r).2) (u1.congr fun n i h r => ((C28_normal_sample ⟨_, _⟩ (pos1 n i h)).2 r).2) e0 e1 m0 m1 hb hf hT ?_ (fun i h => (hi i h).1) ?_ ?_ ?_
  · intro i h y
    obtain ⟨g1, g2, g3, g4⟩ := hi i h
    rw [g3, g4]; exact normal_affine _ _ _ _ _ g1 g2
  · intro i h r
    obtain ⟨g1, g2, g3, g4⟩ := hi i h
    rw [g3, g4, abs_of_pos (hc i h)]; simp only [Normal.sample]; ring
  · intro i h
    obtain ⟨g1, g2, g3, g4⟩ := hi i h
    rw [g3, g4]; simp only [Normal.entropy]; rw [Real.log_mul (abs_pos.2 g1).ne' g2.ne']; ring
  · intro i h
    obtain ⟨g1, g2, g3, g4⟩ := hi i h
    rw [g3]; simp only [Normal.mean]

/-- A scalar affine image of a Laplace is a Laplace: `Transformed(Laplace(loc0, scale0), ScalarAffine(shift, scale))` cannot be told
from `Laplace(scale * loc0 + shift, scale * scale0)` through any method both have, for a positive scale and parameter arrays of any
shapes whose broadcast is the batch shape of the base. -/
theorem C60_laplace_object (noise : Key → List ℕ → BArr ℝ) (hn : NoiseShape noise) (p0 q0 p1 q1 : BArr ℝ) (d0 d1 : P2)
    (h0 : P2.init p0 q0 = .ok d0) (h1 : P2.init p1 q1 = .ok d1) {o z a1 a2 : ℕ} {sh : Ref} {sc ls : Option Ref} {b : Bij}
    (hb : mkScalarAffine o z a1 a2 sh sc ls = .ok b) (hf : b.Fits d0.batch) (hT : d1.batch = d0.batch)
    (hi : AffineImage d0.batch (fun i => aget sh.val i) (scaleAt sc ls) p0 q0 p1 q1)
    (hc : ∀ i, InRange d0.batch i → 0 < scaleAt sc ls i) :
    Indistinguishable (LaplaceA.dist noise d0) (LaplaceA.mean d0).toArr b (LaplaceA.dist noise d1) (LaplaceA.mean d1).toArr := by
  have E0 := C58_laplace p0 q0 d0 h0
  have E1 := C58_laplace p1 q1 d1 h1
  obtain ⟨rfl, rfl, w0⟩ := P2.init_wf h0
  obtain ⟨rfl, rfl, w1⟩ := P2.init_wf h1
  obtain ⟨m0, -, -, -, -, e0, lp0, -, -, -, -, -, s0, t0, u0⟩ := E0
  obtain ⟨m1, -, -, -, -, e1, lp1, -, -, -, -, -, s1, t1, u1⟩ := E1
  have pos0 : ∀ n i, InRange (n :: d0.batch) i → 0 < bget d0.q i := fun n i h => by
    obtain ⟨j, i, rfl, -, h⟩ := inRange_cons_split h
    have e : bget d0.q (j :: i) = bget d0.q i := bget_lead (i := [j]) w0.le_q h
    rw [e]; exact (hi i h).2.1
  have pos1 : ∀ n i, InRange (n :: d1.batch) i → 0 < bget d1.q i := fun n i h => by
    obtain ⟨j, i, rfl, -, h⟩ := inRange_cons_split h
    have e : bget d1.q (j :: i) = bget d1.q i := bget_lead (i := [j]) w1.le_q h
    rw [hT] at h
    rw [e, (hi i h).2.2.2]; exact mul_pos (abs_pos.2 (hi i h).1) (hi i h).2.1
  refine indistinguishable w0 w1 hn lp0 lp1 s0 s1 t0 t1
    (u0.congr fun n i h r => ((C29_laplace_sample ⟨_, _⟩ (pos0 n i h)).2 r).2) (u1.congr fun n i h r => ((C29_laplace_sample ⟨_, _⟩ (pos1 n i h)).2 r).2) e0 e1 m0 m1 hb hf hT ?_ (fun i h => (hi i h).1) ?_ ?_ ?_
  · intro i h y
    obtain ⟨g1, g2, g3, g4⟩ := hi i h
    rw [g3, g4]; exact laplace_affine _ _ _ _ _ g1 g2
  · intro i h r
    obtain ⟨g1, g2, g3, g4⟩ := hi i h
    rw [g3, g4, abs_of_pos (hc i h)]; simp only [Laplace.sample]; ring
  · intro i h
    obtain ⟨g1, g2, g3, g4⟩ := hi i h
    rw [g3, g4]; simp only [Laplace.entropy]; rw [Real.log_mul (abs_pos.2 g1).ne' g2.ne']; ring
  · intro i h
    obtain ⟨g1, g2, g3, g4⟩ := hi i h
    rw [g3]; simp only [Laplace.mean]

/-- Logistic inherits the default `_sample_n_and_log_prob` (distribution.py:57-79). -/
theorem logistic_nlp {d : P2} (lp : OfValue d (LogisticA.logProb d) (fun a b => Logistic.logProb ⟨a, b⟩))
    (s : OfNoise d (fun _ => LogisticA.sampleN d) (fun a b => Logistic.sample ⟨a, b⟩)) :
    OfNoise d (fun _ rnd => LogisticA.logProb d (LogisticA.sampleN d rnd))
      (fun a b r => Logistic.logProb ⟨a, b⟩ (Logistic.sample ⟨a, b⟩ r)) := by
  intro n rnd hr
  obtain ⟨x, x1, x2, x3⟩ := s n rnd hr
  obtain ⟨l, l1, l2, l3⟩ := lp x (n :: d.batch) (by rw [x2]; exact BLe.lead n _)
  have x1' : LogisticA.sampleN d (AE.arr rnd) = AE.arr x := x1
  refine ⟨l, ?_, l2, fun i hi => ?_⟩
  · show LogisticA.logProb d (LogisticA.sampleN d (AE.arr rnd)) = _
    rw [x1', l1]
  · rw [l3 i hi]
    simp only
    rw [bget_full x2 hi, x3 i hi]

/-- A scalar affine image of a Logistic is a Logistic: `Transformed(Logistic(loc0, scale0), ScalarAffine(shift, scale))` cannot be told
from `Logistic(scale * loc0 + shift, scale * scale0)` through any method both have, for a positive scale and parameter arrays of any
shapes whose broadcast is the batch shape of the base. -/
theorem C60_logistic_object (noise : Key → List ℕ → BArr ℝ) (hn : NoiseShape noise) (p0 q0 p1 q1 : BArr ℝ) (d0 d1 : P2)
    (h0 : P2.init p0 q0 = .ok d0) (h1 : P2.init p1 q1 = .ok d1) {o z a1 a2 : ℕ} {sh : Ref} {sc ls : Option Ref} {b : Bij}
    (hb : mkScalarAffine o z a1 a2 sh sc ls = .ok b) (hf : b.Fits d0.batch) (hT : d1.batch = d0.batch)
    (hi : AffineImage d0.batch (fun i => aget sh.val i) (scaleAt sc ls) p0 q0 p1 q1)
    (hc : ∀ i, InRange d0.batch i → 0 < scaleAt sc ls i) :
    Indistinguishable (LogisticA.dist noise d0) (LogisticA.mean d0).toArr b (LogisticA.dist noise d1) (LogisticA.mean d1).toArr := by
  have E0 := C58_logistic p0 q0 d0 h0
  have E1 := C58_logistic p1 q1 d1 h1
  obtain ⟨rfl, rfl, w0⟩ := P2.init_wf h0
  obtain ⟨rfl, rfl, w1⟩ := P2.init_wf h1
  obtain ⟨m0, -, -, -, -, e0, lp0, -, -, -, -, -, s0⟩ := E0
  obtain ⟨m1, -, -, -, -, e1, lp1, -, -, -, -, -, s1⟩ := E1
  have pos0 : ∀ n i, InRange (n :: d0.batch) i → 0 < bget d0.q i := fun n i h => by
    obtain ⟨j, i, rfl, -, h⟩ := inRange_cons_split h
    have e : bget d0.q (j :: i) = bget d0.q i := bget_lead (i := [j]) w0.le_q h
    rw [e]; exact (hi i h).2.1
  have pos1 : ∀ n i, InRange (n :: d1.batch) i → 0 < bget d1.q i := fun n i h => by
    obtain ⟨j, i, rfl, -, h⟩ := inRange_cons_split h
    have e : bget d1.q (j :: i) = bget d1.q i := bget_lead (i := [j]) w1.le_q h
    rw [hT] at h
    rw [e, (hi i h).2.2.2]; exact mul_pos (abs_pos.2 (hi i h).1) (hi i h).2.1
  refine indistinguishable w0 w1 hn lp0 lp1 s0 s1 s0 s1
    (logistic_nlp lp0 s0) (logistic_nlp lp1 s1) e0 e1 m0 m1 hb hf hT ?_ (fun i h => (hi i h).1) ?_ ?_ ?_
  · intro i h y
    obtain ⟨g1, g2, g3, g4⟩ := hi i h
    rw [g3, g4]; exact logistic_affine _ _ _ _ _ g1 g2
  · intro i h r
    obtain ⟨g1, g2, g3, g4⟩ := hi i h
    rw [g3, g4, abs_of_pos (hc i h)]; simp only [Logistic.sample]; ring
  · intro i h
    obtain ⟨g1, g2, g3, g4⟩ := hi i h
    rw [g3, g4]; simp only [Logistic.entropy]; rw [Real.log_mul (abs_pos.2 g1).ne' g2.ne']; ring
  · intro i h
    obtain ⟨g1, g2, g3, g4⟩ := hi i h
    rw [g3]; simp only [Logistic.mean]

/-- A scalar affine image of a Gumbel is a Gumbel: `Transformed(Gumbel(loc0, scale0), ScalarAffine(shift, scale))` cannot be told
from `Gumbel(scale * loc0 + shift, scale * scale0)` through any method both have, for a positive scale and parameter arrays of any
shapes whose broadcast is the batch shape of the base; the entropy of a Gumbel
has the shape of its `scale` array (C58), so both scale arrays are taken to have the batch shape. -/
theorem C60_gumbel_object (noise : Key → List ℕ → BArr ℝ) (hn : NoiseShape noise) (p0 q0 p1 q1 : BArr ℝ) (d0 d1 : P2)
    (h0 : P2.init p0 q0 = .ok d0) (h1 : P2.init p1 q1 = .ok d1) {o z a1 a2 : ℕ} {sh : Ref} {sc ls : Option Ref} {b : Bij}
    (hb : mkScalarAffine o z a1 a2 sh sc ls = .ok b) (hf : b.Fits d0.batch) (hT : d1.batch = d0.batch)
    (hi : AffineImage d0.batch (fun i => aget sh.val i) (scaleAt sc ls) p0 q0 p1 q1)
    (hc : ∀ i, InRange d0.batch i → 0 < scaleAt sc ls i)
    (hq0 : q0.shape = d0.batch) (hq1 : q1.shape = d1.batch) :
    Indistinguishable (GumbelA.dist noise d0) (GumbelA.mean d0).toArr b (GumbelA.dist noise d1) (GumbelA.mean d1).toArr := by
  have E0 := C58_gumbel_partial p0 q0 d0 h0
  have E1 := C58_gumbel_partial p1 q1 d1 h1
  have e0 := (C58_gumbel_entropy p0 q0 d0 h0).2.2.2 hq0
  have e1 := (C58_gumbel_entropy p1 q1 d1 h1).2.2.2 hq1
  obtain ⟨rfl, rfl, w0⟩ := P2.init_wf h0
  obtain ⟨rfl, rfl, w1⟩ := P2.init_wf h1
  obtain ⟨m0, -, -, -, -, lp0, -, -, -, -, s0, t0, u0⟩ := E0
  obtain ⟨m1, -, -, -, -, lp1, -, -, -, -, s1, t1, u1⟩ := E1
  have pos0 : ∀ n i, InRange (n :: d0.batch) i → 0 < bget d0.q i := fun n i h => by
    obtain ⟨j, i, rfl, -, h⟩ := inRange_cons_split h
    have e : bget d0.q (j :: i) = bget d0.q i := bget_lead (i := [j]) w0.le_q h
    rw [e]; exact (hi i h).2.1
  have pos1 : ∀ n i, InRange (n :: d1.batch) i → 0 < bget d1.q i := fun n i h => by
    obtain ⟨j, i, rfl, -, h⟩ := inRange_cons_split h
    have e : bget d1.q (j :: i) = bget d1.q i := bget_lead (i := [j]) w1.le_q h
    rw [hT] at h
    rw [e, (hi i h).2.2.2]; exact mul_pos (abs_pos.2 (hi i h).1) (hi i h).2.1
  refine indistinguishable w0 w1 hn lp0 lp1 s0 s1 t0 t1
    (u0.congr fun n i h r => ((C29_gumbel_sample ⟨_, _⟩ (pos0 n i h)).2 r).2) (u1.congr fun n i h r => ((C29_gumbel_sample ⟨_, _⟩ (pos1 n i h)).2 r).2) e0 e1 m0 m1 hb hf hT ?_ (fun i h => (hi i h).1) ?_ ?_ ?_
  · intro i h y
    obtain ⟨g1, g2, g3, g4⟩ := hi i h
    rw [g3, g4]; exact gumbel_affine _ _ _ _ _ (hc i h) g2
  · intro i h r
    obtain ⟨g1, g2, g3, g4⟩ := hi i h
    rw [g3, g4, abs_of_pos (hc i h)]; simp only [Gumbel.sample]; ring
  · intro i h
    obtain ⟨g1, g2, g3, g4⟩ := hi i h
    rw [g3, g4]; simp only [Gumbel.entropy]; rw [Real.log_mul (abs_pos.2 g1).ne' g2.ne']; ring
  · intro i h
    obtain ⟨g1, g2, g3, g4⟩ := hi i h
    rw [g3, g4, abs_of_pos (hc i h)]; simp only [Gumbel.mean]; ring

/-- A one-entry array under `ScalarAffine(shift)`: the entry is read for every position of `shift`. -/
theorem saForward_scalar (sh : Ref) (o : ℕ) (x : Arr) (hx : x.shape = []) :
    ∃ y, saForward sh ⟨o, Arr.scalar 1⟩ x = .ok y ∧ y.shape = sh.val.shape ∧
      ∀ i, InRange sh.val.shape i → y.data i = x.data [] + sh.val.data i := by
  have e1 : broadcastShapes sh.val.shape ([] : List ℕ) = some sh.val.shape := by
    rw [broadcastShapes_comm]; exact broadcastShapes_nil _
  refine ⟨⟨sh.val.shape, fun i => 1 * x.data [] + sh.val.data (proj sh.val.shape (proj sh.val.shape i))⟩, ?_, rfl, fun i hi => ?_⟩
  · simp only [saForward, Arr.scalar, e1, hx, Arr.broadcastTo, broadcastShapes_nil, broadcastShapes_self, if_true, bind, Except.bind,
      Arr.bin]
    rfl
  · simp only [proj_self hi, one_mul]

/-- FINDING.  The batch shape of a `Transformed` is that of the bijector's output, but one noise value is drawn per batch entry of the
*base*: with a scalar base and a `shift` array, every batch entry of a sample is the same draw, shifted — the entries are
perfectly dependent, while `Normal(loc + shift, scale)`, which has the same `batch_shape` and (`C60_affine_normal`) the same
`log_prob`, draws them independently (C59). -/
theorem C60_small_base_shares_noise (noise : Key → List ℕ → BArr ℝ) (hn : NoiseShape noise) (loc scale : ℝ) (o z a1 a2 : ℕ)
    (sh : Ref) :
    ∃ d b, P2.init ⟨[], fun _ => loc⟩ ⟨[], fun _ => scale⟩ = .ok d ∧ mkScalarAffine o z a1 a2 sh none none = .ok b ∧
      TransformedA.shapes (NormalA.dist noise d) b = .ok (sh.val.shape, []) ∧
      ∀ k n, ∃ y, TransformedA.sampleN (NormalA.dist noise d) b k n = .ok y ∧ y.shape = n :: sh.val.shape ∧
        ∀ j i i', j < n → InRange sh.val.shape i → InRange sh.val.shape i' →
          y.data (j :: i) - sh.val.data i = y.data (j :: i') - sh.val.data i' ∧
          y.data (j :: i) = Normal.sample ⟨loc, scale⟩ ((noise k [n]).data [j]) + sh.val.data i := by
  have e : P2.init ⟨[], fun _ => loc⟩ ⟨[], fun _ => scale⟩ = .ok ⟨⟨[], fun _ => loc⟩, ⟨[], fun _ => scale⟩, []⟩ := rfl
  refine ⟨_, _, e, rfl, ?_, fun k n => ?_⟩
  · obtain ⟨y, y1, y2, -⟩ := saForward_scalar sh o (Arr.zeros []) rfl
    show (saForward sh ⟨o, Arr.scalar 1⟩ (Arr.zeros []) >>= _) = _
    rw [y1, ok_bind, ← y2]
    rfl
  · obtain ⟨x, x1, x2, x3⟩ := (C58_normal _ _ _ e).2.2.2.2.2.2.2.2.2.2.2.2.1 n (noise k [n]) (hn _ _)
    have hx : (NormalA.dist noise ⟨⟨[], fun _ => loc⟩, ⟨[], fun _ => scale⟩, []⟩).sampleN k n = ⟨x.shape, x.data⟩ := toArrD_of x1
    have hl : ∀ j, ((⟨x.shape, x.data⟩ : Arr).lead j).shape = [] := fun j => by simp [Arr.lead, x2]
    obtain ⟨y, y1, y2, -⟩ := saForward_scalar sh o _ (hl 0)
    have key : ∀ j i, j < n → InRange sh.val.shape i →
        (match saForward sh ⟨o, Arr.scalar 1⟩ ((⟨x.shape, x.data⟩ : Arr).lead j) with | .ok z => z.data i | .error _ => 0)
          = Normal.sample ⟨loc, scale⟩ ((noise k [n]).data [j]) + sh.val.data i := by
      intro j i hj hi
      obtain ⟨w, w1, w2, w3⟩ := saForward_scalar sh o _ (hl j)
      rw [w1]
      refine (w3 i hi).trans (congrArg (· + _) ?_)
      exact (x3 [j] (by simp [InRange, hj])).trans rfl
    refine ⟨⟨n :: y.shape, fun i => match saForward sh ⟨o, Arr.scalar 1⟩ ((⟨x.shape, x.data⟩ : Arr).lead (i.headD 0)) with
      | .ok z => z.data i.tail | .error _ => 0⟩, ?_, by rw [y2], fun j i i' hj hi hi' => ?_⟩
    · show vmapArr _ (ADist.sampleN _ k n) = _
      rw [hx, vmapArr]
      show (match saForward sh ⟨o, Arr.scalar 1⟩ ((⟨x.shape, x.data⟩ : Arr).lead 0) with | .error e => _ | .ok y => _) = _
      rw [y1]
      simp only [x2]
      rfl
    · have k1 := key j i hj hi
      have k2 := key j i' hj hi'
      simp only [List.headD_cons, List.tail_cons] at *
      exact ⟨by rw [k1, k2]; ring, k1⟩

/-- The hypotheses are satisfiable with genuine broadcasting: a base with `loc` of shape `(2, 1)` and `scale` of shape `(3,)`, a
bijector with `shift` of shape `(3,)` and `log_scale` of shape `(1,)`. -/
example : ∃ (d0 : P2) (d1 : P2) (b : Bij) (sh l : Ref),
    P2.init ⟨[2, 1], fun _ => 1⟩ ⟨[3], fun _ => 2⟩ = .ok d0 ∧
    P2.init ⟨[2, 3], fun i => Real.exp 1 + i.getD 1 0⟩ ⟨[], fun _ => Real.exp 1 * 2⟩ = .ok d1 ∧
    mkScalarAffine 0 1 2 3 sh none (some l) = .ok b ∧ b.Fits d0.batch ∧ d1.batch = d0.batch ∧
    AffineImage d0.batch (fun i => aget sh.val i) (scaleAt none (some l))
      ⟨[2, 1], fun _ => 1⟩ ⟨[3], fun _ => 2⟩ ⟨[2, 3], fun i => Real.exp 1 + i.getD 1 0⟩ ⟨[], fun _ => Real.exp 1 * 2⟩ ∧
    ∀ i, InRange d0.batch i → 0 < scaleAt none (some l) i := by
  refine ⟨_, _, _, ⟨5, ⟨[3], fun i => i.getD 0 0⟩⟩, ⟨6, ⟨[1], fun _ => 1⟩⟩, rfl, rfl, rfl, ⟨rfl, rfl⟩, rfl, fun i hi => ?_, fun i _ => Real.exp_pos _⟩
  refine ⟨(Real.exp_pos _).ne', by norm_num [bget], ?_, ?_⟩
  · have hi : InRange [2, 3] i := hi
    have e : bget (⟨[2, 3], fun i => Real.exp 1 + i.getD 1 0⟩ : BArr ℝ) i = Real.exp 1 + i.getD 1 0 := by
      simp only [bget, proj_self hi]
    rw [e]
    cases hi with
    | @cons j _ i' _ hj h =>
      cases h with
      | @cons k _ i'' _ hk h =>
        cases h
        interval_cases k <;> simp [scaleAt, aget, bget, proj]
  · simp [scaleAt, aget, bget, abs_of_pos (Real.exp_pos _)]

end Distrax
