import Verif.Lemmas.Coupling

/-!
Properties C07 (masked coupling) and C08 (split coupling).
-/

namespace Distrax

/-! ## C07 -/

namespace MaskedCoupling
variable {P : Type}

/-- What `forward_and_log_det` and `inverse_and_log_det` compute, for any conditioner. `s = b ++ e` with `e`
the inner event axes. (helper) -/
theorem core (c : MaskedCoupling P) (b e : List ℕ) (x : Arr) (hx : x.shape = b ++ e)
    (he : e.length = c.innerEventNdims) (hm : broadcastShapes c.mask.shape b = some b)
    (h1 : c.innerEventNdims ≤ c.eventNdims) (h2 : c.eventNdims ≤ x.shape.length)
    (f : Inner → Arr → Except Err (Arr × Arr)) :
    ∃ q : Arr, q.shape = b ++ e ∧
      (∀ i j, InRange b i → InRange e j → q.data (i ++ j) = if c.mask.at i then x.data (i ++ j) else 0) ∧
      ∀ y0 ld, f (c.bijector (c.conditioner q.canon)) x = .ok (y0, ld) →
        y0.shape = b ++ e → ld.shape = b →
        (c.bijector (c.conditioner q.canon)).ndimsIn = c.innerEventNdims →
        (c.bijector (c.conditioner q.canon)).ndimsOut = c.innerEventNdims →
        ∃ y l, (do
          if x.shape.length < c.eventNdims then .error .valueError
          else
            let maskedX ← whereArr c.eventMask x (Arr.zeros x.shape)
            let params := c.conditioner maskedX.canon
            let b ← c.innerBijector params
            let (y0, logD) ← f b x
            let y ← whereArr c.eventMask x y0
            let masked ← whereArr c.mask (Arr.zeros logD.shape) logD
            let logdet ← masked.sumLast (c.eventNdims - c.innerEventNdims)
            .ok (y, logdet)) = Except.ok (y, l) ∧ y.shape = b ++ e ∧
          (∀ i j, InRange b i → InRange e j → y.data (i ++ j) =
            if c.mask.at i then x.data (i ++ j) else y0.data (i ++ j)) ∧
          ∃ w : Arr, w.shape = b ∧ (∀ i, InRange b i → w.data i = if c.mask.at i then 0 else ld.data i) ∧
            w.sumLast (c.eventNdims - c.innerEventNdims) = .ok l := by
  have hem : broadcastShapes c.eventMask.shape (b ++ e) = some (b ++ e) := by
    simp only [eventMask, ← he]
    exact broadcast_ext hm
  have hat : ∀ i j, InRange b i → InRange e j →
      c.eventMask.data (proj c.eventMask.shape (i ++ j)) = c.mask.at i := by
    intro i j hi hj
    simp only [eventMask, ← he, Mask.at]
    rw [proj_ext hm hi hj]
  obtain ⟨q, q1, q2, q3⟩ := whereArr_ok c.eventMask x (Arr.zeros x.shape) (b ++ e) hx
    (by simp [Arr.zeros, hx]) hem
  refine ⟨q, q2, fun i j hi hj => ?_, ?_⟩
  · rw [q3 _ (hi.append hj), hat i j hi hj]; rfl
  · intro y0 ld hf hy0 hld hn1 hn2
    obtain ⟨y, y1, y2, y3⟩ := whereArr_ok c.eventMask x y0 (b ++ e) hx hy0 hem
    obtain ⟨w, w1, w2, w3⟩ := whereArr_ok c.mask (Arr.zeros ld.shape) ld b (by simp [Arr.zeros, hld])
      hld hm
    have hw : c.eventNdims - c.innerEventNdims ≤ w.shape.length := by
      rw [w2]
      rw [hx, List.length_append, he] at h2
      omega
    refine ⟨y, _, ?_, y2, ?_, w, w2, ?_, sumLast_ok w _ hw⟩
    · rw [if_neg (by omega), q1]
      simp only [bind, Except.bind, innerBijector, hn1, hn2, ne_eq, not_true_eq_false, or_self, if_false,
        hf, y1, w1]
      rw [sumLast_ok w _ hw]
    · intro i j hi hj
      rw [y3 _ (hi.append hj), hat i j hi hj]
    · intro i hi
      rw [w3 i hi]
      rfl

/-- Shape data shared by the theorems: the input has shape `b ++ e`, `e` are the inner event axes, the mask
broadcasts into `b`, and the ranks are in order. -/
structure Fits (c : MaskedCoupling P) (b e : List ℕ) : Prop where
  inner : e.length = c.innerEventNdims
  mask : broadcastShapes c.mask.shape b = some b
  le : c.innerEventNdims ≤ c.eventNdims
  rank : c.eventNdims ≤ (b ++ e).length

/-- **C07 (values).** `forward_and_log_det`: there is an array `q` of conditioner inputs that equals `x` on
masked events and 0 elsewhere (so it depends on masked entries only), such that with the inner bijector for
`conditioner(q)`: masked events are copied, the others are the inner bijector's output, and the log-det sums
the inner log-dets with masked events contributing 0.  Nothing is assumed about the conditioner. -/
theorem C07_forward (c : MaskedCoupling P) (b e : List ℕ) (hc : c.Fits b e) (x : Arr)
    (hx : x.shape = b ++ e)
    (hin : ∀ p, (c.bijector p).ndimsIn = c.innerEventNdims ∧ (c.bijector p).ndimsOut = c.innerEventNdims)
    (hok : ∀ p, ∃ y l, (c.bijector p).fwd x = .ok (y, l) ∧ y.shape = b ++ e ∧ l.shape = b) :
    ∃ q y0 ld y l : Arr, (∀ i j, InRange b i → InRange e j →
        q.data (i ++ j) = if c.mask.at i then x.data (i ++ j) else 0) ∧ q.shape = x.shape ∧
      (c.bijector (c.conditioner q.canon)).fwd x = .ok (y0, ld) ∧
      c.fwdAndLd x = .ok (y, l) ∧ y.shape = x.shape ∧
      (∀ i j, InRange b i → InRange e j →
        y.data (i ++ j) = if c.mask.at i then x.data (i ++ j) else y0.data (i ++ j)) ∧
      l.shape = b.take (b.length - (c.eventNdims - c.innerEventNdims)) ∧
      ∀ i, InRange l.shape i → l.data i =
        ((allIdx (b.drop (b.length - (c.eventNdims - c.innerEventNdims)))).map fun j =>
          if c.mask.at (i ++ j) then 0 else ld.data (i ++ j)).sum := by
  obtain ⟨q, q1, q2, q3⟩ := core c b e x hx hc.inner hc.mask hc.le (by rw [hx]; exact hc.rank) (·.fwd)
  obtain ⟨y0, ld, h1, h2, h3⟩ := hok (c.conditioner q.canon)
  obtain ⟨y, l, g1, g2, g3, w, w1, w2, w3⟩ := q3 y0 ld h1 h2 h3 (hin _).1 (hin _).2
  have hw : c.eventNdims - c.innerEventNdims ≤ w.shape.length := by
    have := hc.rank
    rw [List.length_append, hc.inner] at this
    rw [w1]; omega
  rw [sumLast_ok w _ hw] at w3
  cases w3
  refine ⟨q, y0, ld, y, _, q2, q1.trans hx.symm, h1, g1, g2.trans hx.symm, g3, by rw [w1], ?_⟩
  intro i hi
  simp only [w1] at hi ⊢
  congr 1
  apply List.map_congr_left
  intro j hj
  rw [mem_allIdx] at hj
  exact w2 _ (Bij.take_drop_inRange hi hj)

/-- **C07 (invertibility).** For every conditioner whatsoever and every inner bijector family that is
invertible event by event, `inverse(forward(x)) == x` and the inverse log-det is minus the forward log-det;
masked events are unchanged. -/
theorem C07_inverse_forward (c : MaskedCoupling P) (b e : List ℕ) (hc : c.Fits b e) (x : Arr)
    (hx : x.shape = b ++ e) (D : List ℕ → Arr → Prop)
    (hin : ∀ p, (c.bijector p).ndimsIn = c.innerEventNdims ∧ (c.bijector p).ndimsOut = c.innerEventNdims)
    (hinv : ∀ p, (c.bijector p).LocallyInvertible (b ++ e) D)
    (hd : ∀ i, InRange b i → c.mask.at i = false → D i x) :
    ∃ y l x' l', c.fwdAndLd x = .ok (y, l) ∧ c.invAndLd y = .ok (x', l') ∧ x' ≈ₐ x ∧ l' ≈ₐ l.neg ∧
      y.shape = x.shape ∧
      ∀ i j, InRange b i → InRange e j → c.mask.at i = true → y.data (i ++ j) = x.data (i ++ j) := by
  have htd : ∀ p, (b ++ e).take ((b ++ e).length - (c.bijector p).ndimsIn) = b ∧
      (b ++ e).drop ((b ++ e).length - (c.bijector p).ndimsIn) = e := by
    intro p
    rw [(hin p).1, ← hc.inner, List.length_append, Nat.add_sub_cancel]
    simp
  -- forward
  obtain ⟨q, q1, q2, q3⟩ := core c b e x hx hc.inner hc.mask hc.le (by rw [hx]; exact hc.rank) (·.fwd)
  obtain ⟨y0, ld, f1, f2, f3⟩ := (hinv (c.conditioner q.canon)).fwd_ok x hx
  obtain ⟨y, l, y1, y2, y3, w, w1, w2, w3⟩ := q3 y0 ld f1 f2 (by rw [f3, (htd _).1]) (hin _).1 (hin _).2
  -- inverse
  obtain ⟨r, r1, r2, r3⟩ := core c b e y y2 hc.inner hc.mask hc.le (by rw [y2]; exact hc.rank) (·.inv)
  have hqr : r.canon = q.canon := by
    apply canon_congr
    refine ⟨r1.trans q1.symm, fun k hk => ?_⟩
    rw [r1] at hk
    obtain ⟨i, j, rfl, hi, hj⟩ : ∃ i j, k = i ++ j ∧ InRange b i ∧ InRange e j := by
      refine ⟨k.take b.length, k.drop b.length, by simp, ?_, ?_⟩
      · have := List.forall₂_take b.length hk
        unfold InRange; simpa using this
      · have := List.forall₂_drop b.length hk
        unfold InRange; simpa using this
    rw [r2 i j hi hj, q2 i j hi hj, y3 i j hi hj]
    by_cases hmi : c.mask.at i = true <;> simp [hmi]
  obtain ⟨x0, lx, g1, g2, g3⟩ := (hinv (c.conditioner q.canon)).inv_ok y y2
  rw [hqr] at r3
  obtain ⟨x', l', z1, z2, z3, v, v1, v2, v3⟩ := r3 x0 lx g1 g2 (by rw [g3, (htd _).1]) (hin _).1 (hin _).2
  have loc : ∀ i, InRange b i → c.mask.at i = false →
      (∀ j, InRange e j → x0.data (i ++ j) = x.data (i ++ j)) ∧ lx.data i = -ld.data i := by
    intro i hi hmi
    have := (hinv (c.conditioner q.canon)).inv_fwd x y0 ld y x0 lx hx f1 y2 g1 i
      (by rw [(htd _).1]; exact hi) (hd i hi hmi) (by
        rw [(htd _).2]
        intro j hj
        rw [y3 i j hi hj]; simp [hmi])
    rwa [(htd _).2] at this
  have hwl : c.eventNdims - c.innerEventNdims ≤ w.shape.length := by
    have := hc.rank
    rw [List.length_append, hc.inner] at this
    rw [w1]; omega
  have hvw : v ≈ₐ w.neg := by
    refine ⟨v1.trans w1.symm, fun i hi => ?_⟩
    rw [v1] at hi
    simp only [Arr.neg]
    rw [v2 i hi, w2 i hi]
    by_cases hmi : c.mask.at i = true
    · simp [hmi]
    · have hmi' : c.mask.at i = false := by simpa using hmi
      simp [hmi', (loc i hi hmi').2]
  obtain ⟨l1, l2, s1, s2, s3⟩ := sumLast_congr_neg hvw _ hwl
  rw [w3] at s1
  rw [v3] at s2
  cases s1; cases s2
  refine ⟨y, l, x', l', y1, z1, ⟨z2.trans hx.symm, fun k hk => ?_⟩, s3, y2.trans hx.symm, ?_⟩
  · rw [z2] at hk
    obtain ⟨i, j, rfl, hi, hj⟩ : ∃ i j, k = i ++ j ∧ InRange b i ∧ InRange e j := by
      refine ⟨k.take b.length, k.drop b.length, by simp, ?_, ?_⟩
      · have := List.forall₂_take b.length hk
        unfold InRange; simpa using this
      · have := List.forall₂_drop b.length hk
        unfold InRange; simpa using this
    rw [z3 i j hi hj]
    by_cases hmi : c.mask.at i = true
    · simp only [hmi, if_true]
      rw [y3 i j hi hj]; simp [hmi]
    · have hmi' : c.mask.at i = false := by simpa using hmi
      simp [hmi', (loc i hi hmi').1 j hj]
  · intro i j hi hj hmi
    rw [y3 i j hi hj]; simp [hmi]

/-- **C07 (constructor and rank errors).** Non-boolean masks and event ranks below the inner rank raise
ValueError; the default event rank is `mask.ndim + inner_event_ndims`; an inner bijector of the wrong rank
raises ValueError at call time whatever the input. -/
theorem C07_constructor (mask : Mask) (g : Arr → P) (f : P → Inner) (en : Option ℤ) (n : ℕ) :
    (mk? false mask g f en n = .error .valueError) ∧
    (∀ e, en = some e → e < n → mk? true mask g f en n = .error .valueError) ∧
    (∀ c, mk? true mask g f en n = .ok c → c.innerEventNdims = n ∧ n ≤ c.eventNdims ∧
      (c.eventNdims : ℤ) = en.getD (mask.shape.length + n)) ∧
    (∀ (c : MaskedCoupling P) (x : Arr), (∀ p, (c.bijector p).ndimsIn ≠ c.innerEventNdims) →
      ∃ er, c.fwdAndLd x = .error er) := by
  refine ⟨by simp [mk?], ?_, ?_, ?_⟩
  · rintro e rfl h
    simp [mk?, h]
  · intro c hc
    unfold mk? at hc
    rcases en with _ | e
    · simp at hc
      subst hc
      simp
    · simp only [Bool.not_true, Bool.false_eq_true, if_false] at hc
      split_ifs at hc with h1 h2
      cases hc
      refine ⟨rfl, ?_, ?_⟩
      · show n ≤ e.toNat
        omega
      · show (e.toNat : ℤ) = e
        omega
  · intro c x hbad
    unfold fwdAndLd
    split_ifs
    · exact ⟨_, rfl⟩
    · rcases hw : whereArr c.eventMask x (Arr.zeros x.shape) with er | q
      · exact ⟨er, by simp [bind, Except.bind]⟩
      · exact ⟨.valueError, by simp [bind, Except.bind, innerBijector, hbad]⟩

/-- **C07 (constructor, acceptance).** Every boolean mask with an admissible event rank is accepted and stored, and the
rejected calls are exactly the two documented kinds, always with ValueError. -/
theorem C07_constructor_accepts (isBool : Bool) (mask : Mask) (g : Arr → P) (f : P → Inner) (en : Option ℤ) (n : ℕ) :
    ((∃ c, mk? isBool mask g f en n = .ok c ∧ c.mask = mask ∧ c.conditioner = g ∧ c.bijector = f) ↔
      isBool = true ∧ ∀ e, en = some e → (n : ℤ) ≤ e) ∧
    (∀ er, mk? isBool mask g f en n = .error er → er = .valueError) := by
  unfold mk?
  rcases isBool with _ | _
  · simp
  · rcases en with _ | e
    · simp
    · by_cases h : e < n
      · simp [h]
      · have h0 : ¬ e < 0 := by omega
        simp [h, h0, not_lt.mp h]

/-- A concrete inner family for the non-vacuity check: scalar shift `x + p` by a conditioner-chosen `p`. -/
def shiftInner (p : ℝ) : Inner where
  ndimsIn := 0
  ndimsOut := 0
  fwd := fun x => .ok (⟨x.shape, fun i => x.data i + p⟩, ⟨x.shape, fun _ => 0⟩)
  inv := fun y => .ok (⟨y.shape, fun i => y.data i - p⟩, ⟨y.shape, fun _ => 0⟩)

theorem shiftInner_ok (p : ℝ) (s : List ℕ) : (shiftInner p).LocallyInvertible s (fun _ _ => True) where
  rank := by simp [shiftInner]
  fwd_ok := fun x hx => ⟨_, _, rfl, hx, by simp [shiftInner, hx]⟩
  inv_ok := fun x hx => ⟨_, _, rfl, hx, by simp [shiftInner, hx]⟩
  inv_fwd := by
    intro x y l y' x' l' _ h1 _ h2 i _ _ h3
    simp only [shiftInner, Except.ok.injEq, Prod.mk.injEq] at h1 h2
    obtain ⟨rfl, rfl⟩ := h1
    obtain ⟨rfl, rfl⟩ := h2
    refine ⟨fun j hj => ?_, by simp⟩
    simp only
    rw [h3 j hj]
    ring

/-- Non-vacuity of C07: a batch of 2-vectors with mask `[True, False]`, an arbitrary conditioner. -/
example (g : Arr → ℝ) : ∃ c : MaskedCoupling ℝ,
    mk? true ⟨[2], fun i => i.headD 0 == 0⟩ g shiftInner none 0 = .ok c ∧ c.Fits [5, 2] [] ∧
    (∀ p, (c.bijector p).LocallyInvertible ([5, 2] ++ []) (fun _ _ => True)) ∧
    c.mask.at [3, 0] = true ∧ c.mask.at [3, 1] = false := by
  refine ⟨⟨⟨[2], fun i => i.headD 0 == 0⟩, g, shiftInner, 1, 0⟩, by simp [mk?], ⟨rfl, ?_, ?_, ?_⟩,
    fun p => shiftInner_ok p _, ?_, ?_⟩
  · simp [broadcastShapes, brev, bdim]
  · simp
  · simp
  · simp [Mask.at, proj]
  · simp [Mask.at, proj]

end MaskedCoupling

/-! ## C08 -/

namespace SplitCoupling
variable {P : Type}

/-- Shape of the kept part and of the transformed part. -/
def keptSize (c : SplitCoupling P) (d : ℕ) : ℕ := if c.swap then d - c.splitIndex else c.splitIndex
/-- Size of the transformed part along the split axis. -/
def movedSize (c : SplitCoupling P) (d : ℕ) : ℕ := if c.swap then c.splitIndex else d - c.splitIndex
/-- Position along the split axis of entry `k` of the kept part. -/
def keptPos (c : SplitCoupling P) (k : ℕ) : ℕ := if c.swap then k + c.splitIndex else k
/-- Position along the split axis of entry `k` of the transformed part. -/
def movedPos (c : SplitCoupling P) (k : ℕ) : ℕ := if c.swap then k else k + c.splitIndex

/-- helper: split -/
theorem split_ok (c : SplitCoupling P) (s1 s2 : List ℕ) (d : ℕ) (hax : c.axisFromEnd = s2.length + 1)
    (hi : c.splitIndex ≤ d) (x : Arr) (hx : x.shape = s1 ++ d :: s2) :
    ∃ x1 x2, c.split x = .ok (x1, x2) ∧ x1.shape = s1 ++ c.keptSize d :: s2 ∧
      x2.shape = s1 ++ c.movedSize d :: s2 ∧
      (∀ i1 k i2, i1.length = s1.length →
        x1.data (i1 ++ k :: i2) = x.data (i1 ++ c.keptPos k :: i2)) ∧
      (∀ i1 k i2, i1.length = s1.length →
        x2.data (i1 ++ k :: i2) = x.data (i1 ++ c.movedPos k :: i2)) := by
  have hl : x.shape.length - c.axisFromEnd = s1.length := by rw [hx, hax]; simp
  obtain ⟨a1, a2⟩ := slice_lo x c.splitIndex hx
  obtain ⟨b1, b2⟩ := slice_hi x c.splitIndex hx
  unfold split
  rw [hl, split2_ok x _ hx hi]
  cases hs : c.swap
  · exact ⟨_, _, by simp [bind, Except.bind]; exact ⟨rfl, rfl⟩, by simpa [keptSize, hs] using a1,
      by simpa [movedSize, hs] using b1, by simpa [keptPos, hs] using a2, by simpa [movedPos, hs] using b2⟩
  · exact ⟨_, _, by simp [bind, Except.bind]; exact ⟨rfl, rfl⟩, by simpa [keptSize, hs] using b1,
      by simpa [movedSize, hs] using a1, by simpa [keptPos, hs] using b2, by simpa [movedPos, hs] using a2⟩

/-- helper: recombine -/
theorem recombine_ok (c : SplitCoupling P) (s1 s2 : List ℕ) (d : ℕ) (hax : c.axisFromEnd = s2.length + 1)
    (hi : c.splitIndex ≤ d) (x1 x2 : Arr) (h1 : x1.shape = s1 ++ c.keptSize d :: s2)
    (h2 : x2.shape = s1 ++ c.movedSize d :: s2) :
    ∃ y, c.recombine x1 x2 = .ok y ∧ y.shape = s1 ++ d :: s2 ∧
      (∀ i1 k i2, i1.length = s1.length → k < c.keptSize d →
        y.data (i1 ++ c.keptPos k :: i2) = x1.data (i1 ++ k :: i2)) ∧
      (∀ i1 k i2, i1.length = s1.length → k < c.movedSize d →
        y.data (i1 ++ c.movedPos k :: i2) = x2.data (i1 ++ k :: i2)) := by
  have l1 : x1.shape.length - c.axisFromEnd = s1.length := by rw [h1, hax]; simp
  have l2 : x2.shape.length - c.axisFromEnd = s1.length := by rw [h2, hax]; simp
  unfold recombine
  cases hs : c.swap
  · simp only [keptSize, movedSize, keptPos, movedPos, hs, Bool.false_eq_true, if_false] at *
    obtain ⟨y, y1, y2, y3, y4⟩ := concat2_ok x1 x2 _ _ h1 h2
    refine ⟨y, by rw [l1, y1], by rw [y2, Nat.add_sub_cancel' hi], y3, fun i1 k i2 h _ => y4 i1 k i2 h⟩
  · simp only [keptSize, movedSize, keptPos, movedPos, hs, if_true] at *
    obtain ⟨y, y1, y2, y3, y4⟩ := concat2_ok x2 x1 _ _ h2 h1
    refine ⟨y, by rw [l2, y1], by rw [y2, Nat.add_sub_cancel' hi], fun i1 k i2 h _ => y4 i1 k i2 h, y3⟩

/-- **C08.** For every conditioner and every inner bijector that (after blocking to the event rank) is
invertible on the transformed part: `forward` keeps the other part exactly, replaces the transformed part by
the inner bijector's output conditioned on the kept part, `inverse` undoes it, and the log-dets are those of
the inner bijector and opposite. -/
theorem C08_inverse_forward (c : SplitCoupling P) (s1 s2 : List ℕ) (d : ℕ)
    (hax : c.axisFromEnd = s2.length + 1) (hi : c.splitIndex ≤ d) (x : Arr)
    (hx : x.shape = s1 ++ d :: s2) (hr : c.eventNdims ≤ x.shape.length) (D : Arr → Prop)
    (hinv : ∀ p, ∃ b, c.innerBijector p = .ok b ∧ b.Invertible (s1 ++ c.movedSize d :: s2) D)
    (hD : ∀ x2 : Arr, (∀ i1 k i2, i1.length = s1.length →
        x2.data (i1 ++ k :: i2) = x.data (i1 ++ c.movedPos k :: i2)) → D x2) :
    ∃ y l x' l', c.fwdAndLd x = .ok (y, l) ∧ c.invAndLd y = .ok (x', l') ∧ x' ≈ₐ x ∧ l' ≈ₐ l.neg ∧
      y.shape = x.shape ∧
      (∀ i1 k i2, InRange s1 i1 → k < c.keptSize d → InRange s2 i2 →
        y.data (i1 ++ c.keptPos k :: i2) = x.data (i1 ++ c.keptPos k :: i2)) ∧
      ∃ (kept moved : Arr) (b : Inner) (y2 : Arr), (∀ i1 k i2, i1.length = s1.length →
          kept.data (i1 ++ k :: i2) = x.data (i1 ++ c.keptPos k :: i2)) ∧
        (∀ i1 k i2, i1.length = s1.length →
          moved.data (i1 ++ k :: i2) = x.data (i1 ++ c.movedPos k :: i2)) ∧
        c.innerBijector (c.conditioner kept.canon) = .ok b ∧ b.fwd moved = .ok (y2, l) ∧
        ∀ i1 k i2, InRange s1 i1 → k < c.movedSize d → InRange s2 i2 →
          y.data (i1 ++ c.movedPos k :: i2) = y2.data (i1 ++ k :: i2) := by
  obtain ⟨x1, x2, a1, a2, a3, a4, a5⟩ := split_ok c s1 s2 d hax hi x hx
  obtain ⟨b, b1, b2⟩ := hinv (c.conditioner x1.canon)
  obtain ⟨y2, l, f1, f2, f3⟩ := b2.fwd_ok x2 a3 (hD x2 a5)
  obtain ⟨y, r1, r2, r3, r4⟩ := recombine_ok c s1 s2 d hax hi x1 y2 a2 f2
  obtain ⟨z1, z2, c1, c2, c3, c4, c5⟩ := split_ok c s1 s2 d hax hi y r2
  have e1 : z1 ≈ₐ x1 := by
    refine ⟨c2.trans a2.symm, fun i hi => ?_⟩
    rw [c2] at hi
    obtain ⟨i1, k, i2, rfl, g1, g2, g3⟩ := inRange_mid hi
    rw [c4 _ _ _ g1.length, r3 _ _ _ g1.length g2]
  have e2 : z2 ≈ₐ y2 := by
    refine ⟨c3.trans f2.symm, fun i hi => ?_⟩
    rw [c3] at hi
    obtain ⟨i1, k, i2, rfl, g1, g2, g3⟩ := inRange_mid hi
    rw [c5 _ _ _ g1.length, r4 _ _ _ g1.length g2]
  obtain ⟨x2', l', v1, v2, v3⟩ := f3 z2 e2
  obtain ⟨x', u1, u2, u3, u4⟩ := recombine_ok c s1 s2 d hax hi z1 x2' c2 (v2.1.trans a3)
  refine ⟨y, l, x', l', ?_, ?_, ⟨u2.trans hx.symm, fun i hi => ?_⟩, v3, r2.trans hx.symm, ?_, x1, x2, b, y2,
    a4, a5, b1, f1, fun i1 k i2 g1 g2 _ => r4 _ _ _ g1.length g2⟩
  · unfold fwdAndLd
    rw [if_neg (by omega), a1]
    simp only [bind, Except.bind, b1, f1, r1]
  · unfold invAndLd
    have hz : c.innerBijector (c.conditioner z1.canon) = .ok b := by rw [canon_congr e1]; exact b1
    rw [if_neg (by rw [r2, ← hx]; omega), c1]
    simp only [bind, Except.bind, hz, v1, u1]
  · rw [u2] at hi
    obtain ⟨i1, k, i2, rfl, g1, g2, g3⟩ := inRange_mid hi
    have hcase : (∃ k', k = c.keptPos k' ∧ k' < c.keptSize d) ∨ ∃ k', k = c.movedPos k' ∧ k' < c.movedSize d := by
      unfold keptPos keptSize movedPos movedSize
      rcases Nat.lt_or_ge k c.splitIndex with hlt | hge <;> cases c.swap <;>
        simp only [if_true, if_false, Bool.false_eq_true]
      · exact .inl ⟨k, rfl, hlt⟩
      · exact .inr ⟨k, rfl, hlt⟩
      · exact .inr ⟨k - c.splitIndex, by omega, by omega⟩
      · exact .inl ⟨k - c.splitIndex, by omega, by omega⟩
    rcases hcase with ⟨k', rfl, hk⟩ | ⟨k', rfl, hk⟩
    · rw [u3 _ _ _ g1.length hk, e1.2 _ (by rw [c2]; exact inRange_mid' g1 hk g3), a4 _ _ _ g1.length]
    · rw [u4 _ _ _ g1.length hk, v2.2 _ (by rw [v2.1, a3]; exact inRange_mid' g1 hk g3),
        a5 _ _ _ g1.length]
  · intro i1 k i2 g1 g2 _
    rw [r3 _ _ _ g1.length g2, a4 _ _ _ g1.length]

/-- **C08 (blocking).** If the inner bijector has a smaller event rank, the layer uses `Block`: its log-det
is the inner log-det summed over the extra axes, and invertibility is preserved. -/
theorem C08_block_invertible (b : Inner) (n : ℕ) (s : List ℕ) (D : Arr → Prop)
    (hr : n + b.ndimsIn ≤ s.length) (hb : b.ndimsOut = b.ndimsIn) (h : b.Invertible s D)
    (hs : ∀ x : Arr, x.shape = s → ∀ y l, b.fwd x = .ok (y, l) → l.shape = s.take (s.length - b.ndimsIn)) :
    (b.block n).Invertible s D where
  fwd_ok := by
    intro x hx hd
    obtain ⟨y, l, h1, h2, h3⟩ := h.fwd_ok x hx hd
    have hl := hs x hx y l h1
    have hn : n ≤ l.shape.length := by rw [hl, List.length_take]; omega
    refine ⟨y, ⟨l.shape.take (l.shape.length - n), fun i =>
        ((allIdx (l.shape.drop (l.shape.length - n))).map (fun j => l.data (i ++ j))).sum⟩, ?_, h2, ?_⟩
    · simp only [Inner.block]
      rw [if_neg (by rw [hx]; omega), h1]
      simp only [bind, Except.bind, sumLast_ok l n hn]
    · intro y' hy'
      obtain ⟨x', l', h4, h5, h6⟩ := h3 y' hy'
      obtain ⟨m, m', g1, g2, g3⟩ := sumLast_congr_neg h6 n hn
      rw [sumLast_ok l n hn] at g1
      cases g1
      refine ⟨x', m', ?_, h5, g3⟩
      simp only [Inner.block]
      rw [if_neg (by rw [hy'.1, h2, hb]; omega), h4]
      simp only [bind, Except.bind, g2]

/-- **C08 (inner rank check).** An inner bijector with unequal ranks, or of larger rank than the coupling
layer, raises ValueError; otherwise it is used blocked to the layer's rank. -/
theorem C08_inner_rank (c : SplitCoupling P) (p : P) :
    ((c.bijector p).ndimsIn ≠ (c.bijector p).ndimsOut → c.innerBijector p = .error .valueError) ∧
    (c.eventNdims < (c.bijector p).ndimsIn → c.innerBijector p = .error .valueError) ∧
    (∀ b, c.innerBijector p = .ok b → b.ndimsIn = c.eventNdims ∧ b.ndimsOut = c.eventNdims) := by
  unfold innerBijector
  refine ⟨fun h => by simp [h], fun h => ?_, fun b hb => ?_⟩
  · simp only
    split_ifs <;> first | rfl | omega
  · simp only at hb
    split_ifs at hb with h1 h2 h3
    · cases hb
      simp only [Inner.block, ne_eq, not_not] at *
      omega
    · cases hb
      simp only [ne_eq, not_not] at *
      omega

/-- **C08 (constructor).** Rejects a negative split index, a non-negative split axis, a negative event rank
and a split axis outside the event, and accepts everything else. -/
theorem C08_constructor (si en : ℤ) (g : Arr → P) (f : P → Inner) (sw : Bool) (ax : ℤ) :
    (mk? si en g f sw ax = .error .valueError ↔ si < 0 ∨ 0 ≤ ax ∨ en < 0 ∨ ax < -en) ∧
    (∀ c, mk? si en g f sw ax = .ok c → (c.splitIndex : ℤ) = si ∧ (c.eventNdims : ℤ) = en ∧
      (c.axisFromEnd : ℤ) = -ax ∧ 1 ≤ c.axisFromEnd ∧ c.axisFromEnd ≤ c.eventNdims ∧ c.swap = sw) := by
  unfold mk?
  constructor
  · split_ifs <;> simp_all <;> omega
  · intro c hc
    split_ifs at hc
    cases hc
    simp only [and_true]
    omega

/-- Non-vacuity of C08: a 3×4 batch of vectors split at 1 with `swap`, arbitrary conditioner, shift inner
bijector blocked to rank 1. -/
example (g : Arr → ℝ) : ∃ c : SplitCoupling ℝ,
    mk? 1 1 g MaskedCoupling.shiftInner true (-1) = .ok c ∧ c.axisFromEnd = ([] : List ℕ).length + 1 ∧
    c.splitIndex ≤ 4 ∧
    ∀ p, ∃ b, c.innerBijector p = .ok b ∧ b.Invertible ([3] ++ c.movedSize 4 :: []) (fun _ => True) := by
  refine ⟨⟨1, 1, g, MaskedCoupling.shiftInner, true, 1⟩, by simp [mk?], rfl, by simp, fun p => ?_⟩
  refine ⟨(MaskedCoupling.shiftInner p).block 1, by simp [innerBijector, MaskedCoupling.shiftInner], ?_⟩
  apply C08_block_invertible
  · simp [MaskedCoupling.shiftInner]
  · rfl
  · refine ⟨fun x hx _ => ⟨_, _, rfl, hx, fun y' hy' => ⟨_, _, rfl, ?_, ?_⟩⟩⟩
    · refine ⟨hy'.1, fun i hi => ?_⟩
      have := hy'.2 i hi
      simp only at this ⊢
      rw [this]; ring
    · exact ⟨hy'.1, fun i _ => by simp [Arr.neg]⟩
  · intro x hx y l h
    simp only [MaskedCoupling.shiftInner, Except.ok.injEq, Prod.mk.injEq] at h
    obtain ⟨rfl, rfl⟩ := h
    simp [hx, MaskedCoupling.shiftInner]

end SplitCoupling
end Distrax
