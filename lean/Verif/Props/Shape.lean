import Verif.Lemmas.Shape
import Verif.Props.MathUtils

/-! Properties C18 (sampling layout), C19 (batch slicing), C20 (Independent). -/

namespace Distrax

open Spec

variable {Key : Type}

/-- The key actually used for a seed. -/
def usedKey (prngKey : ℤ → Key) : Seed Key → Key
  | .int z => prngKey z
  | .key k => k

theorem convert_eq (prngKey : ℤ → Key) (seed : Seed Key) (ss : List ℕ) :
    convertSeedAndSampleShape prngKey seed (.seq ss) = (usedKey prngKey seed, ss) := by
  cases seed <;> rfl

/-! ### C18 -/

/-- `sample` has shape `sample_shape + batch_shape + event_shape`, and the entry at sample position `i` is the
`k`-th of the flat draws, where `i` is the `k`-th multi-index in row-major (lexicographic) order. -/
theorem C18_sample_layout (d : ADist Key) (h : StacksDraws d) (prngKey : ℤ → Key) (seed : Seed Key) (ss : List ℕ) :
    ∃ out, d.sample prngKey seed (.seq ss) = .ok out ∧ out.shape = ss ++ d.batch ++ d.event ∧
      ∀ k i r, (allIdx ss)[k]? = some i → InRange (d.batch ++ d.event) r →
        out.data (i ++ r) = (d.sampleN (usedKey prngKey seed) ss.prod).data (k :: r) := by
  obtain ⟨out, h1, h2, h3⟩ := reshape_stack (d.sampleN (usedKey prngKey seed) ss.prod) ss (d.batch ++ d.event) (h _ _)
  refine ⟨out, ?_, by rw [h2, List.append_assoc], ?_⟩
  · simp only [ADist.sample, convert_eq, foldl_mul_eq_prod]; exact h1
  · intro k i r hk hr
    obtain ⟨hi, rfl⟩ := allIdx_get hk
    exact h3 i r hi hr

/-- An integer sample shape is the one-element tuple, and an integer seed is its PRNG key. -/
theorem C18_int_sample_shape (d : ADist Key) (prngKey : ℤ → Key) (seed : Seed Key) (n : ℕ) (z : ℤ) (ss : SampleShape) :
    d.sample prngKey seed (.int n) = d.sample prngKey seed (.seq [n]) ∧
    d.sampleAndLogProb prngKey seed (.int n) = d.sampleAndLogProb prngKey seed (.seq [n]) ∧
    d.sample prngKey (.int z) ss = d.sample prngKey (.key (prngKey z)) ss ∧
    d.sampleAndLogProb prngKey (.int z) ss = d.sampleAndLogProb prngKey (.key (prngKey z)) ss :=
  ⟨rfl, rfl, rfl, rfl⟩

/-- The empty sample shape gives the single draw. -/
theorem C18_empty_sample_shape (d : ADist Key) (h : StacksDraws d) (prngKey : ℤ → Key) (seed : Seed Key) :
    ∃ out, d.sample prngKey seed (.seq []) = .ok out ∧ out.shape = d.batch ++ d.event ∧
      ∀ r, InRange (d.batch ++ d.event) r → out.data r = (d.sampleN (usedKey prngKey seed) 1).data (0 :: r) := by
  obtain ⟨out, h1, h2, h3⟩ := C18_sample_layout d h prngKey seed []
  exact ⟨out, h1, by simpa using h2, fun r hr => by simpa using h3 0 [] r (by simp [allIdx]) hr⟩

/-- A zero in the sample shape gives an array without entries, not an error. -/
theorem C18_zero_size (d : ADist Key) (h : StacksDraws d) (prngKey : ℤ → Key) (seed : Seed Key) (ss : List ℕ)
    (h0 : 0 ∈ ss) : ∃ out, d.sample prngKey seed (.seq ss) = .ok out ∧ out.shape = ss ++ d.batch ++ d.event ∧
      ∀ i, ¬ InRange out.shape i := by
  obtain ⟨out, h1, h2, -⟩ := C18_sample_layout d h prngKey seed ss
  refine ⟨out, h1, h2, fun i hi => ?_⟩
  rw [h2, List.append_assoc] at hi
  obtain ⟨i1, i2, -, hi1, -⟩ := inRange_append_split hi
  have := ravel_lt hi1
  rw [List.prod_eq_zero h0] at this
  omega

/-- Where `_sample_n_and_log_prob` is the inherited default and `log_prob` acts per event, `sample_and_log_prob`
returns the same sample as `sample` together with the log-probability of exactly that sample, in matching layout. -/
theorem C18_sample_and_log_prob (d : ADist Key) (h : StacksDraws d) (lp : List ℕ → (List ℕ → ℝ) → ℝ)
    (hlp : ActsPerEvent d lp) (hdef : d.sampleNLP = ADist.defaultSampleNLP d.sampleN d.logProb)
    (prngKey : ℤ → Key) (seed : Seed Key) (ss : List ℕ) :
    ∃ x l l', d.sampleAndLogProb prngKey seed (.seq ss) = .ok (x, l) ∧ d.sample prngKey seed (.seq ss) = .ok x ∧
      d.logProb x = .ok l' ∧ l ≈ₐ l' ∧ l.shape = ss ++ d.batch := by
  set key := usedKey prngKey seed
  set flat := d.sampleN key ss.prod with hflat
  have hfs : flat.shape = ss.prod :: (d.batch ++ d.event) := h _ _
  obtain ⟨x, x1, x2, x3⟩ := reshape_stack flat ss _ hfs
  obtain ⟨lf, l1, l2, l3⟩ := hlp.act [ss.prod] flat (by rw [hfs]; rfl)
  obtain ⟨l, m1, m2, m3⟩ := reshape_stack lf ss d.batch (by rw [l2]; rfl)
  obtain ⟨l', k1, k2, k3⟩ := hlp.act ss x x2
  refine ⟨x, l, l', ?_, ?_, k1, ⟨by rw [m2, k2], ?_⟩, m2⟩
  · simp only [ADist.sampleAndLogProb, convert_eq, foldl_mul_eq_prod, hdef, ADist.defaultSampleNLP, bind, Except.bind,
      pure, Except.pure]
    rw [show d.logProb (d.sampleN (usedKey prngKey seed) ss.prod) = _ from l1]
    simp only
    rw [show (d.sampleN (usedKey prngKey seed) ss.prod).reshape _ = _ from x1]
    simp only [m1]
  · simp only [ADist.sample, convert_eq, foldl_mul_eq_prod]; exact x1
  · intro i hi
    rw [m2] at hi
    obtain ⟨i1, b, rfl, hi1, hb⟩ := inRange_append_split hi
    rw [m3 i1 b hi1 hb, k3 i1 b hi1 hb]
    have := l3 [ravel ss i1] b (List.Forall₂.cons (ravel_lt hi1) List.Forall₂.nil) hb
    simp only [List.singleton_append] at this
    rw [this]
    refine hlp.congr b _ _ fun e he => ?_
    rw [x3 i1 (b ++ e) hi1 (hb.append he)]

/-- Non-vacuity: a concrete distribution meeting both contracts (batch `[2]`, scalar events). -/
example : ∃ d : ADist ℕ, StacksDraws d ∧ ActsPerEvent d (fun b f => f [] + (b.headD 0 : ℕ)) ∧
    d.sampleNLP = ADist.defaultSampleNLP d.sampleN d.logProb := by
  let sn : ℕ → ℕ → Arr := fun k n => ⟨n :: [2], fun i => (k + ravel (n :: [2]) i : ℕ)⟩
  let lpf : Arr → Except Err Arr := fun v => .ok ⟨v.shape, fun i => v.data i + ((i.drop (v.shape.length - 1)).headD 0 : ℕ)⟩
  refine ⟨⟨[2], [], sn, ADist.defaultSampleNLP sn lpf, lpf, .error .notImplemented, fun _ => .error .notImplemented⟩,
    fun k n => rfl, ⟨?_, ?_⟩, rfl⟩
  · intro b f g hfg; show f [] + _ = g [] + _; rw [hfg [] List.Forall₂.nil]
  · intro s v hv
    refine ⟨_, rfl, by simpa using hv, ?_⟩
    intro i b hi hb
    simp only [List.append_nil] at hv ⊢
    have e : List.drop (v.shape.length - 1) (i ++ b) = b := by
      rw [hv, List.length_append]
      simp only [List.length_cons, List.length_nil]
      rw [show s.length + (0 + 1) - 1 = i.length by rw [hi.length]; omega, List.drop_left]
    rw [e]

/-! ### C19 -/

/-- The converted index applies the user's index to the batch axes only: from a parameter of shape
`batch_shape + rest`, position `j` of the result holds the whole `rest`-block at the batch position selected by
numpy indexing of an array of shape `batch_shape`. -/
theorem C19_index_batch_axes (batch rest : List ℕ) (hb : batch ≠ []) (idx : Index) (hok : idx.Ok batch) (r : Sel)
    (hr : npSelect batch idx = .ok r) (a : Arr) (ha : a.shape = batch ++ rest) :
    ∃ i out, toBatchShapeIndex batch idx = .ok i ∧ a.index i = .ok out ∧ out.shape = r.shape ++ rest ∧
      ∀ j e, InRange r.shape j → InRange rest e →
        InRange batch (r.sel j) ∧ out.data (j ++ e) = a.data (r.sel j ++ e) := by
  refine ⟨_, ⟨r.shape ++ (batch ++ rest).drop batch.length, fun i => a.data
      ((List.range batch.length).map (fun k => (r.sel (i.take r.shape.length)).getD k 0) ++ i.drop r.shape.length)⟩,
      by rw [toBatchShapeIndex, if_neg hb, hr], ?_, ?_, ?_⟩
  · simp only [Arr.index, npSelect, ha]
    rw [if_pos (by simp)]
    rfl
  · simp
  · intro j e hj he
    have hsel := npSelect_inRange hok hr hj
    refine ⟨hsel, ?_⟩
    show a.data _ = _
    rw [← hj.length, List.take_left, List.drop_left, map_range_getD hsel.length]

/-- Indices numpy rejects for an array of shape `batch_shape` are rejected with the same kind of error. -/
theorem C19_bad_index (batch : List ℕ) (hb : batch ≠ []) (idx : Index) (e : Err) (h : npSelect batch idx = .error e) :
    toBatchShapeIndex batch idx = .error e := by
  rw [toBatchShapeIndex, if_neg hb, h]

/-- In particular an integer outside `[-n, n)` on the first axis is an IndexError. -/
theorem C19_out_of_range (n : ℕ) (s : List ℕ) (z : ℤ) (hz : z < -n ∨ (n : ℤ) ≤ z) :
    toBatchShapeIndex (n :: s) (.basic [.int z]) = .error .indexError := by
  refine C19_bad_index _ (by simp) _ _ ?_
  have : ¬ (0 ≤ (if z < 0 then z + n else z) ∧ (if z < 0 then z + (n : ℤ) else z) < n) := by
    split <;> omega
  simp [npSelect, expandEllipsis, bind, Except.bind, basicIndex]
  intro h1 h2
  exact absurd ⟨h1, h2⟩ this

/-- Finding: a distribution with empty batch shape accepts every index and returns itself. -/
theorem C19_scalar_accepts_anything (idx : Index) (a : Arr) :
    ∃ i, toBatchShapeIndex [] idx = .ok i ∧ ∃ out, a.index i = .ok out ∧ out ≈ₐ a := by
  refine ⟨_, rfl, ⟨a.shape, fun i => a.data i⟩, ?_, rfl, fun i _ => rfl⟩
  simp [Arr.index, npSelect, bind, Except.bind, pure, Except.pure]

/-- numpy meaning of an integer index `k` on the first axis, in elementary terms. -/
theorem C19_int_index (n : ℕ) (s : List ℕ) (k : ℕ) (hk : k < n) :
    ∃ r, npSelect (n :: s) (.basic [.int k]) = .ok r ∧ r.shape = s ∧ ∀ j, InRange s j → r.sel j = k :: j := by
  have full : ∀ s : List ℕ, ∃ r, basicIndex s (List.replicate s.length IdxEl.full) = .ok r ∧ r.shape = s ∧
      ∀ j, InRange s j → r.sel j = j := by
    intro s
    induction s with
    | nil =>
      exact ⟨_, rfl, rfl, fun j hj => by cases hj; rfl⟩
    | cons m s ih =>
      obtain ⟨r, h1, h2, h3⟩ := ih
      have hs : sliceIndices m none none none = some (0, 1, m) := by
        simp [sliceIndices, sliceStart, sliceStop, sliceLower, sliceUpper, sliceLen]
        split <;> omega
      refine ⟨⟨m :: r.shape, fun i => ((0 : ℤ) + (i.headD 0 : ℕ) * 1).toNat :: r.sel i.tail⟩, ?_, by rw [h2], ?_⟩
      · simp only [List.length_cons, List.replicate_succ, IdxEl.full, basicIndex, hs]
        rw [show List.replicate s.length (IdxEl.slice none none none) = List.replicate s.length IdxEl.full from rfl, h1]
      · intro j hj
        cases hj with
        | cons hk hj' => simp [h3 _ hj']
  obtain ⟨r, h1, h2, h3⟩ := full s
  refine ⟨⟨r.shape, fun i => k :: r.sel i⟩, ?_, h2, fun j hj => by show k :: r.sel j = k :: j; rw [h3 j hj]⟩
  have hz : ¬ ((k : ℤ) < 0) := by omega
  have hlt : (0 : ℤ) ≤ k ∧ (k : ℤ) < n := by omega
  simp only [npSelect, expandEllipsis, bind, Except.bind]
  simp only [List.length_cons, List.filter_cons, List.filter_nil]
  simp [basicIndex, h1, hk, hz]

/-- Slicing a two-parameter family: the sliced object's batch shape is the indexed batch shape, and every per-entry
method (`log_prob`, `cdf`, ...) of the sliced object at the sliced values is the slice of the method's result. -/
theorem C19_slice_method (f : ℝ → ℝ → ℝ → ℝ) (p q : Arr) (d : Fam2) (hd : Fam2.init p q = .ok d) (hb : d.batch ≠ [])
    (idx : Index) (hok : idx.Ok d.batch) (r : Sel) (hr : npSelect d.batch idx = .ok r) (v : Arr)
    (hv : v.shape = d.batch) :
    ∃ d' v' l l1 l2, d.getItem idx = .ok d' ∧ d'.batch = r.shape ∧ v.index idx = .ok v' ∧ d'.method f v' = .ok l1 ∧
      d.method f v = .ok l ∧ l.index idx = .ok l2 ∧ l1 ≈ₐ l2 := by
  have hbr : broadcastShapes p.shape q.shape = some d.batch ∧ d.p = p ∧ d.q = q := by
    unfold Fam2.init at hd
    split at hd
    · rename_i b hb'
      simp only [Except.ok.injEq] at hd; subst hd; exact ⟨hb', rfl, rfl⟩
    · simp at hd
  obtain ⟨hbr, hp, hq⟩ := hbr
  have hpb := broadcast_absorb_left hbr
  have hqb := broadcast_absorb_right hbr
  -- broadcast parameters
  have e1 : d.pB = .ok ⟨d.batch, fun i => p.data (proj p.shape i)⟩ := by
    simp [Fam2.pB, hp, Arr.broadcastTo, hpb]
  have e2 : d.qB = .ok ⟨d.batch, fun i => q.data (proj q.shape i)⟩ := by
    simp [Fam2.qB, hq, Arr.broadcastTo, hqb]
  obtain ⟨i, po, t1, p1, p2, p3⟩ := C19_index_batch_axes d.batch [] hb idx hok r hr
    ⟨d.batch, fun i => p.data (proj p.shape i)⟩ (by simp)
  obtain ⟨i', qo, t1', q1, q2, q3⟩ := C19_index_batch_axes d.batch [] hb idx hok r hr
    ⟨d.batch, fun i => q.data (proj q.shape i)⟩ (by simp)
  rw [t1] at t1'; obtain rfl := Except.ok.inj t1'
  rw [List.append_nil] at p2 q2
  have hd' : d.getItem idx = .ok ⟨po, qo, r.shape⟩ := by
    simp only [Fam2.getItem, bind, Except.bind, t1, e1, e2, p1, q1, Fam2.init, p2, q2, broadcastShapes_self]
  have hvi : v.index idx = .ok ⟨r.shape, fun j => v.data (r.sel j)⟩ := by
    simp only [Arr.index, hv, hr, bind, Except.bind, pure, Except.pure]
  have hm' : ∀ v', v'.shape = r.shape → (⟨po, qo, r.shape⟩ : Fam2).method f v' = .ok ⟨r.shape, fun i =>
      f (po.data (proj po.shape i)) (qo.data (proj qo.shape i)) (v'.data (proj v'.shape i))⟩ := by
    intro v' hv'
    simp only [Fam2.method, p2, q2, broadcastShapes_self, hv']
  have hm : d.method f v = .ok ⟨d.batch, fun i =>
      f (p.data (proj p.shape i)) (q.data (proj q.shape i)) (v.data (proj v.shape i))⟩ := by
    simp only [Fam2.method, hp, hq, hbr, hv, broadcastShapes_self]
  refine ⟨_, _, _, _, ⟨r.shape, fun j => f (p.data (proj p.shape (r.sel j))) (q.data (proj q.shape (r.sel j)))
      (v.data (proj v.shape (r.sel j)))⟩, hd', rfl, hvi, hm' _ rfl, hm, ?_, ?_⟩
  · simp only [Arr.index, hr, bind, Except.bind, pure, Except.pure]
  · refine ⟨rfl, fun j hj => ?_⟩
    have hj' : InRange r.shape j := hj
    obtain ⟨hs, a1⟩ := p3 j [] hj' List.Forall₂.nil
    obtain ⟨-, a2⟩ := q3 j [] hj' List.Forall₂.nil
    simp only [List.append_nil] at a1 a2
    show f _ _ _ = f _ _ _
    rw [p2, q2]
    simp only [proj_self hj', a1, a2, hv, proj_self hs]

/-- The same for a scalar value (broadcast against the batch): `d[i].log_prob(x) = d.log_prob(x)[i]`. -/
theorem C19_slice_scalar_value (f : ℝ → ℝ → ℝ → ℝ) (p q : Arr) (d : Fam2) (hd : Fam2.init p q = .ok d)
    (hb : d.batch ≠ []) (idx : Index) (hok : idx.Ok d.batch) (r : Sel) (hr : npSelect d.batch idx = .ok r) (x : ℝ) :
    ∃ d' l l1 l2, d.getItem idx = .ok d' ∧ d'.batch = r.shape ∧ d'.method f (Arr.scalar x) = .ok l1 ∧
      d.method f (Arr.scalar x) = .ok l ∧ l.index idx = .ok l2 ∧ l1 ≈ₐ l2 := by
  obtain ⟨d', v', l, l1, l2, h1, h2, h3, h4, h5, h6, h7⟩ :=
    C19_slice_method f p q d hd hb idx hok r hr ⟨d.batch, fun _ => x⟩ rfl
  have hvi : v' = ⟨r.shape, fun _ => x⟩ := by
    simp only [Arr.index, hr, bind, Except.bind, pure, Except.pure, Except.ok.injEq] at h3
    exact h3.symm
  subst hvi
  have key : ∀ (g : Fam2) (s : List ℕ), broadcastShapes g.p.shape g.q.shape = some s →
      g.method f (Arr.scalar x) = g.method f ⟨s, fun _ => x⟩ := by
    intro g s hs
    simp only [Fam2.method, hs, Arr.scalar, broadcast_nil_right, broadcastShapes_self]
  have hdb : broadcastShapes d.p.shape d.q.shape = some d.batch := by
    unfold Fam2.init at hd
    split at hd
    · rename_i b hb'
      simp only [Except.ok.injEq] at hd; subst hd; exact hb'
    · simp at hd
  have hdb' : broadcastShapes d'.p.shape d'.q.shape = some d'.batch := by
    simp only [Fam2.getItem, bind, Except.bind] at h1
    repeat' (split at h1 <;> try simp at h1)
    unfold Fam2.init at h1
    split at h1
    · rename_i b hb'
      simp only [Except.ok.injEq] at h1; subst h1; exact hb'
    · simp at h1
  refine ⟨d', l, l1, l2, h1, h2, ?_, ?_, h6, h7⟩
  · rw [key d' r.shape (by rw [hdb', h2])]; exact h4
  · rw [key d d.batch hdb]; exact h5

/-- Non-vacuity: batch `[2, 3]` from shapes `[2, 1]` and `[3]`, indexed by `[..., -1]`. -/
example : ∃ d r, Fam2.init ⟨[2, 1], fun _ => 0⟩ ⟨[3], fun _ => 1⟩ = .ok d ∧ d.batch = [2, 3] ∧
    npSelect d.batch (.basic [.ellipsis, .int (-1)]) = .ok r ∧ r.shape = [2] ∧ r.sel [1] = [1, 2] := by
  refine ⟨⟨_, _, [2, 3]⟩, ⟨[2], fun i => [((0 : ℤ) + (i.headD 0 : ℕ) * 1).toNat, 2]⟩, rfl, rfl, ?_, rfl, rfl⟩
  rfl

/-! ### C20 -/

/-- Moving `k` axes: the split between batch and event moves by `k`, nothing else changes. -/
theorem C20_shapes (prngKey : ℤ → Key) (d d' : ADist Key) (k : ℕ) (h : independent prngKey d (some k) = .ok d') :
    k ≤ d.batch.length ∧ d'.batch ++ d'.event = d.batch ++ d.event ∧ d'.batch.length + k = d.batch.length ∧
    d'.event.length = k + d.event.length := by
  simp only [independent, independentNdims, bind, Except.bind, pure, Except.pure] at h
  by_cases hk : (d.batch.length : ℤ) < k
  · simp [hk] at h
  · rw [if_neg hk, if_neg (by omega)] at h
    simp only [Except.ok.injEq] at h
    subst h
    simp only [Int.toNat_natCast]
    have : k ≤ d.batch.length := by omega
    refine ⟨this, ?_, ?_, ?_⟩
    · rw [← List.append_assoc, List.take_append_drop]
    · simp; omega
    · simp; omega

/-- `k` negative or larger than the batch rank is rejected; anything else is accepted. -/
theorem C20_constructor (prngKey : ℤ → Key) (d : ADist Key) (k : ℤ) :
    ((∃ d', independent prngKey d (some k) = .ok d') ↔ 0 ≤ k ∧ k ≤ d.batch.length) ∧
    (¬ (0 ≤ k ∧ k ≤ d.batch.length) → independent prngKey d (some k) = .error .valueError) := by
  simp only [independent, independentNdims, bind, Except.bind, pure, Except.pure]
  by_cases h1 : (d.batch.length : ℤ) < k
  · simp [h1]
  · by_cases h2 : k < 0
    · simp [h1, h2]
    · simp [h1, h2]; omega

/-- The default keeps the first batch axis only (none if there is none). -/
theorem C20_default (prngKey : ℤ → Key) (d : ADist Key) :
    independent prngKey d none = independent prngKey d (some ((d.batch.length - 1 : ℕ) : ℤ)) ∧
    ∃ d', independent prngKey d none = .ok d' ∧ d'.batch = d.batch.take 1 := by
  have : ¬ ((d.batch.length : ℤ) < ((d.batch.length - 1 : ℕ) : ℤ)) := by omega
  constructor
  · simp only [independent, independentNdims, this, if_false]
    rw [if_neg (by omega)]; simp
  · refine ⟨_, rfl, ?_⟩
    simp only
    rcases d.batch with _ | ⟨n, s⟩
    · rfl
    · simp

/-- The unreduced log-prob array has shape `s + batch_shape`; then `Independent`'s has shape `s + new batch_shape`
and each entry is the sum over exactly the last `k` batch axes.  The same for entropy and log_cdf. -/
theorem C20_reduce (prngKey : ℤ → Key) (d d' : ADist Key) (k : ℕ) (h : independent prngKey d (some k) = .ok d')
    (s : List ℕ) (v l : Arr) (hl : l.shape = s ++ d.batch) :
    (d.logProb v = .ok l → ∃ l', d'.logProb v = .ok l' ∧ l'.shape = s ++ d'.batch ∧
      ∀ i, l'.data i = ((allIdx (d.batch.drop (d.batch.length - k))).map fun j => l.data (i ++ j)).sum) ∧
    (d.logCdf v = .ok l → ∃ l', d'.logCdf v = .ok l' ∧ l'.shape = s ++ d'.batch ∧
      ∀ i, l'.data i = ((allIdx (d.batch.drop (d.batch.length - k))).map fun j => l.data (i ++ j)).sum) ∧
    (d.entropy = .ok l → ∃ l', d'.entropy = .ok l' ∧ l'.shape = s ++ d'.batch ∧
      ∀ i, l'.data i = ((allIdx (d.batch.drop (d.batch.length - k))).map fun j => l.data (i ++ j)).sum) := by
  have hk := (C20_shapes prngKey d d' k h).1
  have hred : ∃ l', reduceSum k l = .ok l' ∧ l'.shape = s ++ d.batch.take (d.batch.length - k) ∧
      ∀ i, l'.data i = ((allIdx (d.batch.drop (d.batch.length - k))).map fun j => l.data (i ++ j)).sum := by
    have hlen : k ≤ l.shape.length := by rw [hl]; simp; omega
    have e : l.shape.length - k = s.length + (d.batch.length - k) := by rw [hl]; simp; omega
    refine ⟨_, if_pos hlen, ?_, ?_⟩
    · simp only [e]; rw [hl, List.take_length_add_append]
    · intro i; simp only [e]; rw [hl, List.drop_length_add_append]
  obtain ⟨l', r1, r2, r3⟩ := hred
  simp only [independent, independentNdims, bind, Except.bind, pure, Except.pure] at h
  rw [if_neg (by omega), if_neg (by omega)] at h
  simp only [Except.ok.injEq, Int.toNat_natCast] at h
  subst h
  refine ⟨fun hv => ⟨l', ?_, r2, r3⟩, fun hv => ⟨l', ?_, r2, r3⟩, fun hv => ⟨l', ?_, r2, r3⟩⟩
  all_goals simp only [hv, r1]

/-- `Independent` draws exactly the base distribution's draws. -/
theorem C20_sample (prngKey : ℤ → Key) (d d' : ADist Key) (hs : StacksDraws d) (k : ℕ)
    (h : independent prngKey d (some k) = .ok d') (key : Key) (n : ℕ) :
    d'.sampleN key n ≈ₐ d.sampleN key n ∧ StacksDraws d' := by
  have hsh := C20_shapes prngKey d d' k h
  simp only [independent, independentNdims, bind, Except.bind, pure, Except.pure] at h
  rw [if_neg (by omega), if_neg (by omega)] at h
  simp only [Except.ok.injEq, Int.toNat_natCast] at h
  have key' : ∀ key n, d'.sampleN key n ≈ₐ d.sampleN key n := by
    intro key n
    obtain ⟨out, h1, h2, h3⟩ := C18_sample_layout d hs prngKey (.key key) [n]
    have e : d'.sampleN key n = out := by
      subst h
      simp only
      rw [(C18_int_sample_shape d prngKey (.key key) n 0 (.int 0)).1, h1]
    rw [e]
    refine ⟨by rw [h2, hs]; rfl, fun i hi => ?_⟩
    rw [h2] at hi
    cases hi with
    | @cons a _ i' _ ha hi' =>
      have := h3 a [a] i' (by have := allIdx_ravel (s := [n]) (i := [a]) (List.Forall₂.cons ha List.Forall₂.nil); simpa [ravel] using this) hi'
      simpa [usedKey] using this
  refine ⟨key' key n, fun key n => ?_⟩
  rw [(key' key n).1, hs, hsh.2.1]

/-- `k = 0` changes nothing. -/
theorem C20_zero (prngKey : ℤ → Key) (d : ADist Key) (v l : Arr) (hl : d.logProb v = .ok l) :
    ∃ d', independent prngKey d (some 0) = .ok d' ∧ d'.batch = d.batch ∧ d'.event = d.event ∧
      ∃ l', d'.logProb v = .ok l' ∧ l' ≈ₐ l := by
  obtain ⟨b, b1, b2⟩ := C17_sum_last_zero l
  refine ⟨_, rfl, by simp, by simp, b, ?_, b2⟩
  simp only [hl, bind, Except.bind]
  exact b1

/-- Nesting: `Independent(Independent(d, j), k)` has the shapes and log-probabilities of `Independent(d, j + k)`. -/
theorem C20_nested (prngKey : ℤ → Key) (d : ADist Key) (j k : ℕ) (hjk : j + k ≤ d.batch.length) :
    ∃ d1 d2 d3, independent prngKey d (some j) = .ok d1 ∧ independent prngKey d1 (some k) = .ok d2 ∧
      independent prngKey d (some ((j + k : ℕ) : ℤ)) = .ok d3 ∧ d2.batch = d3.batch ∧ d2.event = d3.event ∧
      ∀ s v l, l.shape = s ++ d.batch → d.logProb v = .ok l → d2.logProb v = d3.logProb v := by
  obtain ⟨d1, h1⟩ := ((C20_constructor prngKey d j).1).2 (by omega)
  have s1 := C20_shapes prngKey d d1 j h1
  obtain ⟨d2, h2⟩ := ((C20_constructor prngKey d1 k).1).2 (by omega)
  have s2 := C20_shapes prngKey d1 d2 k h2
  obtain ⟨d3, h3⟩ := ((C20_constructor prngKey d ((j + k : ℕ) : ℤ)).1).2 (by omega)
  have s3 := C20_shapes prngKey d d3 (j + k) h3
  have hbe : d2.batch ++ d2.event = d3.batch ++ d3.event := by rw [s2.2.1, s1.2.1, s3.2.1]
  have hlen : d2.batch.length = d3.batch.length := by omega
  obtain ⟨hb, he⟩ := List.append_inj hbe hlen
  refine ⟨d1, d2, d3, h1, h2, h3, hb, he, ?_⟩
  intro s v l hls hlv
  obtain ⟨b, c, c1, c2, c3⟩ := C17_sum_last_add l k j (by rw [hls]; simp; omega)
  have g : ∀ (a a' : ADist Key) (m : ℕ) (w : Arr), independent prngKey a (some m) = .ok a' → a.logProb v = .ok w →
      a'.logProb v = w.sumLast m := by
    intro a a' m w ha hw
    have hm := (C20_shapes prngKey a a' m ha).1
    simp only [independent, independentNdims, bind, Except.bind, pure, Except.pure] at ha
    rw [if_neg (by omega), if_neg (by omega)] at ha
    simp only [Except.ok.injEq, Int.toNat_natCast] at ha
    subst ha
    simp only [hw]; rfl
  rw [g d1 d2 k b h2 (by rw [g d d1 j l h1 hlv, c1]), g d d3 (j + k) l h3 hlv, c2, add_comm, c3]

/-- KL of two Independents: sums the base KL over exactly the reinterpreted axes; mismatched event shapes are a
ValueError, mismatched inner event shapes are not supported. -/
theorem C20_kl (prngKey : ℤ → Key) (p q p' q' : ADist Key) (k m : ℕ) (hp : independent prngKey p (some k) = .ok p')
    (hq : independent prngKey q (some m) = .ok q') (base : Arr) :
    (p'.event = q'.event → p.event = q.event →
      independentKl p'.event q'.event p.event q.event (.ok base) = base.sumLast k ∧ k = m) ∧
    (p'.event ≠ q'.event → independentKl p'.event q'.event p.event q.event (.ok base) = .error .valueError) ∧
    (p'.event = q'.event → p.event ≠ q.event →
      independentKl p'.event q'.event p.event q.event (.ok base) = .error .notImplemented) := by
  have s1 := C20_shapes prngKey p p' k hp
  have s2 := C20_shapes prngKey q q' m hq
  refine ⟨fun h1 h2 => ⟨?_, ?_⟩, fun h => ?_, fun h1 h2 => ?_⟩
  · simp only [independentKl, if_pos h1, if_pos h2, bind, Except.bind]
    rw [s1.2.2.2, Nat.add_sub_cancel]
  · have a := s1.2.2.2
    have b := s2.2.2.2
    rw [h1, h2] at a; omega
  · simp [independentKl, h]
  · simp [independentKl, h1, h2]

/-- Slicing an Independent slices the remaining batch axes of the base: the two index conversions (first for the
outer batch shape, then for the base's) read, at outer position `j` and inner batch position `b`, the base entry at
`(selected outer position, b)`. -/
theorem C20_getitem (outer inner rest : List ℕ) (ho : outer ≠ []) (idx : Index) (hok : idx.Ok outer) (r : Sel)
    (hr : npSelect outer idx = .ok r) (a : Arr) (ha : a.shape = outer ++ inner ++ rest) :
    ∃ i1 i2 out, toBatchShapeIndex outer idx = .ok i1 ∧ toBatchShapeIndex (outer ++ inner) i1 = .ok i2 ∧
      a.index i2 = .ok out ∧ out.shape = r.shape ++ inner ++ rest ∧
      ∀ j b e, InRange r.shape j → InRange inner b → InRange rest e →
        out.data (j ++ b ++ e) = a.data (r.sel j ++ b ++ e) := by
  have h1 : toBatchShapeIndex outer idx = .ok (.coords outer.length r.shape fun j =>
      (List.range outer.length).map fun k => (r.sel j).getD k 0) := by
    rw [toBatchShapeIndex, if_neg ho, hr]
  have hsel : ∀ j, InRange r.shape j → InRange outer (r.sel j) := fun j hj => npSelect_inRange hok hr hj
  set i1 : Index := .coords outer.length r.shape fun j => (List.range outer.length).map fun k => (r.sel j).getD k 0
  have hok1 : i1.Ok (outer ++ inner) := by
    intro j hj
    show InRange ((outer ++ inner).take outer.length) ((List.range outer.length).map fun k => (r.sel j).getD k 0)
    rw [List.take_left, map_range_getD (hsel j hj).length]
    exact hsel j hj
  have hr1 : npSelect (outer ++ inner) i1 = .ok ⟨r.shape ++ (outer ++ inner).drop outer.length, fun i =>
      (List.range outer.length).map (fun k => (r.sel (i.take r.shape.length)).getD k 0) ++ i.drop r.shape.length⟩ := by
    simp only [npSelect, i1]
    rw [if_pos (by simp)]
  obtain ⟨i2, out, a1, a2, a3, a4⟩ := C19_index_batch_axes (outer ++ inner) rest (by simp [ho]) i1 hok1 _ hr1 a ha
  refine ⟨i1, i2, out, h1, a1, a2, ?_, ?_⟩
  · rw [a3]; simp
  · intro j b e hj hb he
    have := (a4 (j ++ b) e (by simp only [List.drop_left]; exact hj.append hb) he).2
    rw [this]
    simp only [← hj.length, List.take_left, List.drop_left, map_range_getD (hsel j hj).length]

/-- Non-vacuity for C20: batch `[4, 2]`, moving one axis. -/
example : ∃ d d' : ADist ℕ, independent (fun z => z.toNat) d (some 1) = .ok d' ∧ d'.batch = [4] ∧ d'.event = [2, 3] :=
  ⟨⟨[4, 2], [3], fun _ n => ⟨n :: [4, 2, 3], fun _ => 0⟩, fun _ _ => .error .notImplemented,
    fun _ => .error .notImplemented, .error .notImplemented, fun _ => .error .notImplemented⟩, _, rfl, rfl, rfl⟩

end Distrax
