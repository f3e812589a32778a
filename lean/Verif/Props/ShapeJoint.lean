import Verif.Props.Shape

/-!
C18/C20: `sample_and_log_prob` for distributions that override `_sample_n_and_log_prob`, and for `Independent`, which does.
-/

namespace Distrax

open Spec

variable {Key : Type}

/-- The contract of `_sample_n_and_log_prob(key, n)`: the draws `_sample_n(key, n)` returns, with their log-probabilities. -/
def Spec.PairsDraws (d : ADist Key) : Prop :=
  ∀ key n, ∃ x l l', d.sampleNLP key n = .ok (x, l) ∧ x ≈ₐ d.sampleN key n ∧ d.logProb x = .ok l' ∧ l ≈ₐ l'

/-- The inherited `_sample_n_and_log_prob` meets the contract. -/
theorem pairsDraws_default (d : ADist Key) (h : StacksDraws d) (lp : List ℕ → (List ℕ → ℝ) → ℝ) (hlp : ActsPerEvent d lp)
    (hdef : d.sampleNLP = ADist.defaultSampleNLP d.sampleN d.logProb) : PairsDraws d := by
  intro key n
  obtain ⟨l, l1, -⟩ := hlp.act [n] (d.sampleN key n) (by rw [h]; rfl)
  refine ⟨_, l, l, ?_, ⟨rfl, fun _ _ => rfl⟩, l1, ⟨rfl, fun _ _ => rfl⟩⟩
  rw [hdef]
  simp only [ADist.defaultSampleNLP, l1, bind, Except.bind, pure, Except.pure]

/-- Any distribution meeting the contracts: `sample_and_log_prob` returns the array `sample` returns for the same seed and
sample shape, with the log-probability of exactly those draws, in matching layout. -/
theorem C18_sample_and_log_prob_override (d : ADist Key) (h : StacksDraws d) (lp : List ℕ → (List ℕ → ℝ) → ℝ)
    (hlp : ActsPerEvent d lp) (hp : PairsDraws d) (prngKey : ℤ → Key) (seed : Seed Key) (ss : List ℕ) :
    ∃ x x' l l', d.sampleAndLogProb prngKey seed (.seq ss) = .ok (x, l) ∧ d.sample prngKey seed (.seq ss) = .ok x' ∧
      x ≈ₐ x' ∧ x.shape = ss ++ (d.batch ++ d.event) ∧ d.logProb x = .ok l' ∧ l ≈ₐ l' ∧ l.shape = ss ++ d.batch := by
  obtain ⟨fx, fl, fl', f1, f2, f3, f4⟩ := hp (usedKey prngKey seed) ss.prod
  have hfs : fx.shape = ss.prod :: (d.batch ++ d.event) := by rw [f2.1]; exact h _ _
  obtain ⟨x, x1, x2, x3⟩ := reshape_stack fx ss _ hfs
  obtain ⟨x', y1, y2, y3⟩ := reshape_stack (d.sampleN (usedKey prngKey seed) ss.prod) ss _ (h _ _)
  obtain ⟨lf, l1, l2, l3⟩ := hlp.act [ss.prod] fx (by rw [hfs]; rfl)
  rw [f3, Except.ok.injEq] at l1
  subst l1
  have hfl : fl.shape = ss.prod :: d.batch := by rw [f4.1, l2]; rfl
  obtain ⟨l, m1, m2, m3⟩ := reshape_stack fl ss d.batch hfl
  obtain ⟨l', k1, k2, k3⟩ := hlp.act ss x x2
  refine ⟨x, x', l, l', ?_, ?_, ⟨by rw [x2, y2], ?_⟩, x2, k1, ⟨by rw [m2, k2], ?_⟩, m2⟩
  · simp only [ADist.sampleAndLogProb, convert_eq, foldl_mul_eq_prod, f1, bind, Except.bind, pure, Except.pure, x1, m1]
  · simp only [ADist.sample, convert_eq, foldl_mul_eq_prod]; exact y1
  · intro i hi
    rw [x2] at hi
    obtain ⟨i1, r, rfl, hi1, hr⟩ := inRange_append_split hi
    rw [x3 i1 r hi1 hr, y3 i1 r hi1 hr]
    exact f2.2 _ (by rw [hfs]; exact List.Forall₂.cons (ravel_lt hi1) hr)
  · intro i hi
    rw [m2] at hi
    obtain ⟨i1, b, rfl, hi1, hb⟩ := inRange_append_split hi
    rw [m3 i1 b hi1 hb, k3 i1 b hi1 hb, f4.2 _ (by rw [hfl]; exact List.Forall₂.cons (ravel_lt hi1) hb)]
    have := l3 [ravel ss i1] b (List.Forall₂.cons (ravel_lt hi1) List.Forall₂.nil) hb
    simp only [List.singleton_append] at this
    rw [this]
    refine hlp.congr b _ _ fun e he => ?_
    rw [x3 i1 (b ++ e) hi1 (hb.append he)]

/-- `sum_last` of equal arrays. -/
theorem sumLast_eqv {a b : Arr} (h : a ≈ₐ b) (k : ℕ) (hk : k ≤ a.shape.length) :
    ∃ a' b', a.sumLast k = .ok a' ∧ b.sumLast k = .ok b' ∧ a' ≈ₐ b' := by
  refine ⟨_, _, if_pos hk, if_pos (by rw [← h.1]; exact hk), ⟨by simp only [h.1], ?_⟩⟩
  intro i hi
  simp only
  rw [← h.1]
  refine congrArg List.sum (List.map_congr_left fun j hj => h.2 _ ?_)
  have := InRange.append hi (mem_allIdx.1 hj)
  simpa only [List.take_append_drop] using this

/-- **`Independent`.**  It inherits all the contracts from its base distribution: its log-probability acts per (larger)
event as the sum of the base's over the reinterpreted axes, its `_sample_n_and_log_prob` pairs its own draws with their own
log-probabilities. -/
theorem C20_contracts (prngKey : ℤ → Key) (d d' : ADist Key) (hs : StacksDraws d) (lp : List ℕ → (List ℕ → ℝ) → ℝ)
    (hlp : ActsPerEvent d lp) (hp : PairsDraws d) (k : ℕ) (h : independent prngKey d (some k) = .ok d') :
    StacksDraws d' ∧ PairsDraws d' ∧ ActsPerEvent d' (fun b f =>
      ((allIdx (d.batch.drop (d.batch.length - k))).map fun j => lp (b ++ j) fun e => f (j ++ e)).sum) := by
  have hsh := C20_shapes prngKey d d' k h
  have hsam := C20_sample prngKey d d' hs k h
  have hred := C20_reduce prngKey d d' k h
  have hk := hsh.1
  have hsub := h
  simp only [independent, independentNdims, bind, Except.bind, pure, Except.pure] at hsub
  rw [if_neg (by omega), if_neg (by omega)] at hsub
  simp only [Except.ok.injEq, Int.toNat_natCast] at hsub
  have hbt : d'.batch = d.batch.take (d.batch.length - k) := by rw [← hsub]
  have hev : d'.event = d.batch.drop (d.batch.length - k) ++ d.event := by rw [← hsub]
  refine ⟨fun key n => (hsam key n).2 key n, fun key n => ?_, ⟨?_, ?_⟩⟩
  · obtain ⟨x, x', l, l', e1, e2, e3, e4, e5, e6, e7⟩ :=
      C18_sample_and_log_prob_override d hs lp hlp hp prngKey (.key key) [n]
    obtain ⟨lr, lr', r1, r2, r3⟩ := sumLast_eqv e6 k (by rw [e7]; simp; omega)
    refine ⟨x, lr, lr', ?_, ?_, ?_, r3⟩
    · rw [← hsub]
      simp only
      rw [(C18_int_sample_shape d prngKey (.key key) n 0 (.int 0)).2.1, e1]
      simp only [reduceSum, r1]
    · rw [← hsub]
      simp only
      rw [(C18_int_sample_shape d prngKey (.key key) n 0 (.int 0)).1, e2]
      exact e3
    · rw [← hsub]
      simp only [e5, reduceSum, r2]
  · intro b f g hfg
    refine congrArg List.sum (List.map_congr_left fun j hj => hlp.congr _ _ _ fun e he => hfg _ ?_)
    rw [hev]
    exact (mem_allIdx.1 hj).append he
  · intro s v hv
    obtain ⟨l, l1, l2, l3⟩ := hlp.act s v (by rw [hv, hsh.2.1])
    obtain ⟨l', m1, m2, m3⟩ := (hred s v l l2).1 l1
    refine ⟨l', m1, m2, fun i b hi hb => ?_⟩
    rw [m3]
    refine congrArg List.sum (List.map_congr_left fun j hj => ?_)
    have hbj : InRange d.batch (b ++ j) := by
      rw [hbt] at hb
      have := hb.append (mem_allIdx.1 hj)
      rwa [List.take_append_drop] at this
    rw [List.append_assoc, l3 i (b ++ j) hi hbj]
    simp only [List.append_assoc]

/-- `Independent.sample_and_log_prob` returns `Independent.sample`'s draws (which are the base distribution's draws) with
`Independent.log_prob` of exactly those draws. -/
theorem C20_sample_and_log_prob (prngKey : ℤ → Key) (d d' : ADist Key) (hs : StacksDraws d)
    (lp : List ℕ → (List ℕ → ℝ) → ℝ) (hlp : ActsPerEvent d lp) (hp : PairsDraws d) (k : ℕ)
    (h : independent prngKey d (some k) = .ok d') (seed : Seed Key) (ss : List ℕ) :
    ∃ x x' x0 l l', d'.sampleAndLogProb prngKey seed (.seq ss) = .ok (x, l) ∧ d'.sample prngKey seed (.seq ss) = .ok x' ∧
      d.sample prngKey seed (.seq ss) = .ok x0 ∧ x ≈ₐ x' ∧ x ≈ₐ x0 ∧ d'.logProb x = .ok l' ∧ l ≈ₐ l' ∧
      l.shape = ss ++ d'.batch := by
  obtain ⟨c1, c2, c3⟩ := C20_contracts prngKey d d' hs lp hlp hp k h
  obtain ⟨x, x', l, l', e1, e2, e3, e4, e5, e6, e7⟩ := C18_sample_and_log_prob_override d' c1 _ c3 c2 prngKey seed ss
  obtain ⟨x0, o1, o2, o3⟩ := reshape_stack (d.sampleN (usedKey prngKey seed) ss.prod) ss _ (hs _ _)
  obtain ⟨z, z1, z2, z3⟩ := reshape_stack (d'.sampleN (usedKey prngKey seed) ss.prod) ss _ (c1 _ _)
  have hbe := (C20_shapes prngKey d d' k h).2.1
  have hd := (C20_sample prngKey d d' hs k h (usedKey prngKey seed) ss.prod).1
  have hz : x' = z := by
    have : d'.sample prngKey seed (.seq ss) = .ok z := by
      simp only [ADist.sample, convert_eq, foldl_mul_eq_prod]; exact z1
    rw [e2] at this; exact Except.ok.inj this
  refine ⟨x, x', x0, l, l', e1, e2, by simp only [ADist.sample, convert_eq, foldl_mul_eq_prod]; exact o1, e3,
    ⟨by rw [e4, o2, hbe], fun i hi => ?_⟩, e5, e6, e7⟩
  rw [e3.2 i hi, hz]
  rw [e4] at hi
  obtain ⟨i1, r, rfl, hi1, hr⟩ := inRange_append_split hi
  rw [z3 i1 r hi1 hr, hd.2 _ (by rw [c1]; exact List.Forall₂.cons (ravel_lt hi1) hr)]
  rw [hbe] at hr
  rw [o3 i1 r hi1 hr]

/-- Non-vacuity: a batch of shape `[2, 3]` with scalar events and the inherited `_sample_n_and_log_prob`, made one event of
shape `[3]` per batch entry. -/
example : ∃ (d d' : ADist ℕ) (lp : List ℕ → (List ℕ → ℝ) → ℝ), StacksDraws d ∧ ActsPerEvent d lp ∧ PairsDraws d ∧
    independent (fun _ => 0) d (some 1) = .ok d' ∧ d'.event = [3] := by
  let sn : ℕ → ℕ → Arr := fun k n => ⟨n :: [2, 3], fun i => (k + ravel (n :: [2, 3]) i : ℕ)⟩
  let lpf : Arr → Except Err Arr := fun v => .ok ⟨v.shape, fun i => -(v.data i) ^ 2⟩
  have hs : StacksDraws (⟨[2, 3], [], sn, ADist.defaultSampleNLP sn lpf, lpf, .error .notImplemented,
      fun _ => .error .notImplemented⟩ : ADist ℕ) := fun k n => rfl
  have ha : ActsPerEvent (⟨[2, 3], [], sn, ADist.defaultSampleNLP sn lpf, lpf, .error .notImplemented,
      fun _ => .error .notImplemented⟩ : ADist ℕ) (fun _ f => -(f []) ^ 2) := by
    refine ⟨fun b f g hfg => ?_, fun s v hv => ⟨_, rfl, by simpa using hv, fun i b hi hb => by simp⟩⟩
    show -(f []) ^ 2 = -(g []) ^ 2
    rw [hfg [] List.Forall₂.nil]
  exact ⟨_, _, _, hs, ha, pairsDraws_default _ hs _ ha rfl, rfl, rfl⟩

end Distrax
