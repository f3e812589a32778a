import Verif.Spec.Conversion
import Verif.Lemmas.Shape
import Verif.Props.Wrapper
import Verif.Props.Lambda

/-! # C49: conversion helpers -/

namespace Distrax

open Spec

variable {F K : Type}

/-! ### Outcomes -/

theorem Spec.SameArr.refl (a : Except Err Arr) : SameArr a a := by
  cases a with
  | ok a => exact Arr.Eqv.refl a
  | error e => rfl

theorem Spec.SameArr.symm {a b : Except Err Arr} (h : SameArr a b) : SameArr b a := by
  cases a <;> cases b <;> first | exact Arr.Eqv.symm h | exact Eq.symm h | exact h

theorem Spec.SameArr.trans {a b c : Except Err Arr} (h : SameArr a b) (h' : SameArr b c) : SameArr a c := by
  cases a <;> cases b <;> cases c <;>
    first | exact Arr.Eqv.trans h h' | exact Eq.trans h h' | exact h.elim | exact h'.elim

theorem Spec.SamePair.refl (a : Except Err (Arr × Arr)) : SamePair a a := by
  cases a with
  | ok a => exact ⟨Arr.Eqv.refl _, Arr.Eqv.refl _⟩
  | error e => rfl

theorem Spec.SamePair.trans {a b c : Except Err (Arr × Arr)} (h : SamePair a b) (h' : SamePair b c) : SamePair a c := by
  cases a <;> cases b <;> cases c <;>
    first | exact ⟨Arr.Eqv.trans h.1 h'.1, Arr.Eqv.trans h.2 h'.2⟩ | exact Eq.trans h h' | exact h.elim | exact h'.elim

theorem reshape_congr {a b : Arr} (h : a.Eqv b) (t : List ℕ) : SameArr (a.reshape t) (b.reshape t) := by
  unfold Arr.reshape
  rw [h.1]
  by_cases hp : b.shape.prod = t.prod
  · rw [if_pos hp, if_pos hp]
    refine ⟨rfl, fun i hi => ?_⟩
    have : InRange a.shape (unravel b.shape (ravel t i)) := by
      rw [h.1]; exact unravel_inRange (by rw [hp]; exact ravel_lt hi)
    exact h.2 _ this
  · rw [if_neg hp, if_neg hp]; rfl

theorem reshape_self (a : Arr) : ∃ b, a.reshape a.shape = .ok b ∧ b.Eqv a := by
  refine ⟨⟨a.shape, fun i => a.data (unravel a.shape (ravel a.shape i))⟩, by unfold Arr.reshape; rw [if_pos rfl], rfl,
    fun i hi => ?_⟩
  show a.data _ = _
  rw [unravel_ravel hi]

theorem splitSamples_congr {a b : Arr} (h : a.Eqv b) (ss : List ℕ) :
    SameArr (DistC.splitSamples ss a) (DistC.splitSamples ss b) := by
  unfold DistC.splitSamples
  rw [show b.shape = a.shape from h.1.symm]
  exact reshape_congr h _

theorem Spec.SameArr.bind {a b : Except Err Arr} {f : Arr → Except Err Arr} (h : SameArr a b)
    (hf : ∀ x y : Arr, x.Eqv y → SameArr (f x) (f y)) : SameArr (a >>= f) (b >>= f) := by
  cases a <;> cases b
  · cases h; rfl
  · exact h.elim
  · exact h.elim
  · exact hf _ _ h

theorem bind_ok_id {ε α : Type} (a : Except ε α) : (a >>= fun x => Except.ok x) = a := by cases a <;> rfl

/-! ### as_bijector and as_distribution -/

/-- Distrax objects — including the TFP-compatible wrappers of Distrax objects, however nested — are returned unchanged. -/
theorem C49_unchanged (T : Tracer F) :
    (∀ b : BijObj, b.isDistrax = true → asBijector (K := K) T (.bij b) = .ok (.bij b)) ∧
    (∀ d : DistObj K, d.isDistrax = true → asDistribution (F := F) (.dist d) = .ok (.dist d)) := by
  refine ⟨fun b hb => ?_, fun d hd => ?_⟩
  · simp only [asBijector, if_pos hb]
  · simp only [asDistribution, if_pos hd]

/-- Whatever the conversions return is a Distrax object, so they are idempotent. -/
theorem C49_idempotent (T : Tracer F) (o r : PyObj F K) :
    (asBijector T o = .ok r → (∃ b, r = .bij b ∧ b.isDistrax = true) ∧ asBijector T r = .ok r) ∧
    (asDistribution o = .ok r → (∃ d, r = .dist d ∧ d.isDistrax = true) ∧ asDistribution r = .ok r) := by
  have kb : ∀ b : BijObj, r = .bij b → b.isDistrax = true →
      (∃ b, r = .bij b ∧ b.isDistrax = true) ∧ asBijector T r = .ok r := by
    rintro b rfl hb
    exact ⟨⟨b, rfl, hb⟩, (C49_unchanged (K := K) T).1 b hb⟩
  have kd : ∀ d : DistObj K, r = .dist d → d.isDistrax = true →
      (∃ d, r = .dist d ∧ d.isDistrax = true) ∧ asDistribution r = .ok r := by
    rintro d rfl hd
    exact ⟨⟨d, rfl, hd⟩, (C49_unchanged (K := K) T).2 d hd⟩
  refine ⟨fun h => ?_, fun h => ?_⟩
  · cases o with
    | bij b =>
      simp only [asBijector] at h
      by_cases hb : b.isDistrax = true
      · rw [if_pos hb] at h; cases h; exact kb b rfl hb
      · rw [if_neg hb] at h
        cases b with
        | tfp t => simp only [Except.ok.injEq] at h; exact kb _ h.symm rfl
        | distrax _ => exact absurd rfl hb
        | fromTfp _ => exact absurd rfl hb
        | compat _ => cases h
    | dist d => simp [asBijector] at h
    | jaxSigmoid => simp only [asBijector, Except.ok.injEq] at h; exact kb _ h.symm rfl
    | jnpTanh => simp only [asBijector, Except.ok.injEq] at h; exact kb _ h.symm rfl
    | fn f =>
      simp only [asBijector] at h
      cases hm : mkLambda T { forward := some f } with
      | error e => rw [hm] at h; cases h
      | ok s =>
        rw [hm] at h
        have h' : Except.ok (PyObj.bij (BijObj.distrax (s.methods T))) = Except.ok r := h
        rw [Except.ok.injEq] at h'
        exact kb _ h'.symm rfl
    | other => simp [asBijector] at h
  · cases o with
    | dist d =>
      simp only [asDistribution] at h
      by_cases hd : d.isDistrax = true
      · rw [if_pos hd] at h; cases h; exact kd d rfl hd
      · rw [if_neg hd] at h
        cases d with
        | tfp t => simp only [Except.ok.injEq] at h; exact kd _ h.symm rfl
        | distrax _ => exact absurd rfl hd
        | fromTfp _ => exact absurd rfl hd
        | compat _ _ => cases h
    | bij _ => simp [asDistribution] at h
    | jaxSigmoid => simp [asDistribution] at h
    | jnpTanh => simp [asDistribution] at h
    | fn _ => simp [asDistribution] at h
    | other => simp [asDistribution] at h

/-- TFP objects are wrapped; `jax.nn.sigmoid` and `jnp.tanh` become the hand-written bijectors; a callable becomes a
`Lambda` whose `forward` is that callable (of event rank 0), with an error only from the constant-Jacobian detection;
everything else raises TypeError. -/
theorem C49_wraps (T : Tracer F) :
    (∀ t : TfpM, asBijector (K := K) T (.bij (.tfp t)) = .ok (.bij (.fromTfp t))) ∧
    (∀ t : TfpD K, asDistribution (F := F) (.dist (.tfp t)) = .ok (.dist (.fromTfp t))) ∧
    asBijector (K := K) T .jaxSigmoid = .ok (.bij (.distrax Bij.sigmoid.methods)) ∧
    asBijector (K := K) T .jnpTanh = .ok (.bij (.distrax Bij.tanh.methods)) ∧
    (∀ (f : F) e, T.isConstJac f = .error e → asBijector (K := K) T (.fn f) = .error e) ∧
    (∀ (f : F) c, T.isConstJac f = .ok c → ∃ b : BijM, asBijector (K := K) T (.fn f) = .ok (.bij (.distrax b)) ∧
      b.forward = T.call f ∧ b.inverse = T.call (T.inv f) ∧ b.ndimsIn = 0 ∧ b.ndimsOut = 0 ∧ b.constJac = c ∧
      b.constLogDet = c) ∧
    asBijector (K := K) T .other = .error .typeError ∧ (∀ d : DistObj K, asBijector T (.dist d) = .error .typeError) ∧
    (∀ o : PyObj F K, (∀ d, o ≠ .dist d) → asDistribution o = .error .typeError) ∧
    (∀ (o : PyObj F K) nm, (∀ d, o ≠ .dist d) → (∀ b, o ≠ .bij b) → toTfp o nm = .error .typeError) := by
  refine ⟨fun t => rfl, fun t => rfl, rfl, rfl, fun f e h => ?_, fun f c h => ?_, rfl, fun d => rfl, fun o ho => ?_,
    fun o nm h1 h2 => ?_⟩
  · have : mkLambda T { forward := some f } = .error e := by
      unfold mkLambda
      have h1 : lambdaNdims (F := F) { forward := some f } = .ok 0 := rfl
      have h2 : lambdaConstJac T { forward := some f } = .error e := h
      rw [h1, Bij.bind_ok, h2]; rfl
    simp only [asBijector, this]; rfl
  · have hm := (C53_constructor T { forward := some f }).2.2.2.1 (Or.inl (by simp)) rfl rfl rfl rfl c h
    refine ⟨LambdaSt.methods T ⟨some f, none, none, none, ⟨0, 0, c, c⟩⟩, ?_, ?_, ?_, rfl, rfl, rfl, rfl⟩
    · simp only [asBijector, hm]; rfl
    · funext x
      simp [LambdaSt.methods, LambdaSt.forward, rankOk, LambdaSt.getForward, callOpt]
    · funext x
      simp [LambdaSt.methods, LambdaSt.inverse, rankOk, LambdaSt.getInverse, callOpt]
  · cases o with
    | dist d => exact absurd rfl (ho d)
    | _ => rfl
  · cases o with
    | dist d => exact absurd rfl (h1 d)
    | bij b => exact absurd rfl (h2 b)
    | _ => rfl

/-! ### Bijectors through any sequence of conversions -/

/-- One conversion. -/
inductive Conv where
  | toTfp (nm : Option String)
  | asBijector
  | asDistribution
  deriving DecidableEq

/-- Apply one conversion. -/
noncomputable def Conv.apply (T : Tracer F) (o : PyObj F K) : Conv → Except Err (PyObj F K)
  | .toTfp nm => Distrax.toTfp o nm
  | .asBijector => Distrax.asBijector T o
  | .asDistribution => Distrax.asDistribution o

/-- The compatible wrapper, seen as a Distrax bijector, has exactly the methods of the bijector it wraps. -/
theorem compat_eq (b : BijM) : b.compat = b := by
  have h1 : (fun x => b.tfpFldj x none) = b.fldj := by
    funext x; exact (C51_forward_log_det b x).2.1
  have h2 : (fun x => b.tfpIldj x none) = b.ildj := by
    funext x; exact (C51_inverse_log_det b x).2.1
  unfold BijM.compat
  rw [h1, h2]

theorem bobj_conv (T : Tracer F) (b : BijM) (o : BijObj) (h : o.bijM = some b) (hd : o.isDistrax = true)
    (ht : o.isTfp = false) (cs : List Conv) (hc : ∀ c ∈ cs, c ≠ .asDistribution) :
    ∃ o' : BijObj, cs.foldlM (fun o c => c.apply T o) (PyObj.bij o : PyObj F K) = .ok (.bij o') ∧ o'.bijM = some b ∧
      o'.isDistrax = true ∧ o'.isTfp = false := by
  induction cs generalizing o with
  | nil => exact ⟨o, rfl, h, hd, ht⟩
  | cons c cs ih =>
    have hc' : ∀ c ∈ cs, c ≠ .asDistribution := fun c hm => hc c (by simp [hm])
    have step : ∃ o1 : BijObj, c.apply T (PyObj.bij o : PyObj F K) = .ok (.bij o1) ∧ o1.bijM = some b ∧
        o1.isDistrax = true ∧ o1.isTfp = false := by
      cases c with
      | toTfp nm =>
        refine ⟨.compat o, ?_, ?_, hd, ht⟩
        · simp only [Conv.apply, toTfp, ht, hd, Bool.false_eq_true, if_false, if_true]
        · show o.bijM.map BijM.compat = _
          rw [h]; simp only [Option.map_some, compat_eq]
      | asBijector => exact ⟨o, (C49_unchanged (K := K) T).1 o hd, h, hd, ht⟩
      | asDistribution => exact absurd rfl (hc _ (by simp))
    obtain ⟨o1, e1, e2, e3, e4⟩ := step
    obtain ⟨o', e⟩ := ih o1 e2 e3 e4 hc'
    refine ⟨o', ?_, e.2⟩
    rw [List.foldlM_cons, e1]
    exact e.1

/-- **Bijectors.** Any sequence of `to_tfp` and `as_bijector` applied to a Distrax bijector succeeds and gives an object
with exactly the same Distrax methods, ranks and flags. -/
theorem C49_bijector_conversions (T : Tracer F) (b : BijM) (cs : List Conv) (hc : ∀ c ∈ cs, c ≠ .asDistribution) :
    ∃ o' : BijObj, cs.foldlM (fun o c => c.apply T o) (PyObj.bij (.distrax b) : PyObj F K) = .ok (.bij o') ∧
      o'.bijM = some b := by
  obtain ⟨o', h1, h2, _⟩ := bobj_conv (K := K) T b (.distrax b) rfl rfl rfl cs hc
  exact ⟨o', h1, h2⟩

/-- A TFP bijector is returned unchanged by `to_tfp`; the first `as_bijector` wraps it, after which any further
conversions leave its Distrax methods alone. -/
theorem C49_tfp_bijector_conversions (T : Tracer F) (t : TfpM) (cs : List Conv) (hc : ∀ c ∈ cs, c ≠ .asDistribution) :
    (∀ nm, toTfp (PyObj.bij (.tfp t) : PyObj F K) nm = .ok (.bij (.tfp t))) ∧
    ∃ o' : BijObj, (Conv.asBijector :: cs).foldlM (fun o c => c.apply T o) (PyObj.bij (.tfp t) : PyObj F K) = .ok (.bij o') ∧
      o'.bijM = some t.fromTfp := by
  refine ⟨fun nm => rfl, ?_⟩
  obtain ⟨o', h1, h2, _⟩ := bobj_conv (K := K) T t.fromTfp (.fromTfp t) rfl rfl rfl cs hc
  exact ⟨o', h1, h2⟩

theorem ensure_same (c : Bool) (l y x : Arr) (B E : List ℕ) (f : Arr → Except Err Arr) (hf : f x = .ok y)
    (hs : y.shape = B ++ E) (hl : l.shape = B) :
    ∃ r, ensureBatchShape c l E.length f x = .ok r ∧ l.Eqv r := by
  cases c with
  | false => exact ⟨l, rfl, Arr.Eqv.refl l⟩
  | true =>
    refine ⟨⟨B, fun i => l.data (proj l.shape i)⟩, ?_, hl, fun i hi => ?_⟩
    · simp only [ensureBatchShape, if_true, hf, Bij.bind_ok, hs, dropEvent_append]
      unfold Arr.broadcastTo
      rw [if_pos (by rw [hl]; exact broadcastShapes_self B)]
    · show _ = l.data (proj l.shape i)
      rw [proj_self hi]

/-- **There and back.** Wrapping a Distrax bijector for TFP and wrapping the result again for Distrax (`BijectorFromTFP`)
gives a bijector that cannot be told from the original, wherever the original keeps the library's conventions (the log-det
has the batch shape of the output). -/
theorem C49_bijector_round_trip (b : BijM) :
    SameBij (FwdShaped b) (InvShaped b) b b.compatTfp.fromTfp := by
  have key : ∀ c : BijM, ∀ x, FwdShaped c x → SameArr (c.fldj x) (c.compatTfp.fromTfp.fldj x) ∧
      SamePair (c.fwdAndLd x) (c.compatTfp.fromTfp.fwdAndLd x) := by
    rintro c x ⟨y, l, y', l', B, E, hy, hl, hp, hyy, hll, hs, hE, hB⟩
    obtain ⟨r, hr, hlr⟩ := ensure_same c.constJac l y x B E c.forward hy hs hB
    have h0 : c.compatTfp.fldj x (some (c.compatTfp.fMin : ℤ)) = .ok l := by
      show c.tfpFldj x (some (c.ndimsIn : ℤ)) = _
      simp only [BijM.tfpFldj, checkNdims, lt_irrefl, if_false, Bij.bind_ok, hl, sub_self, Int.toNat_zero, sumLast_zero]
    have h1 : ensureBatchShape c.compatTfp.constJac l c.compatTfp.iMin c.compatTfp.forward x = .ok r := by
      show ensureBatchShape c.constJac l c.ndimsOut c.forward x = _
      rw [← hE]; exact hr
    have h2 : c.compatTfp.forward x = .ok y := hy
    constructor
    · rw [hl]
      simp only [TfpM.fromTfp, TfpM.fromFldj, h0, Bij.bind_ok, h1]
      exact hlr
    · rw [hp]
      simp only [TfpM.fromTfp, TfpM.fromFwdAndLd, h2, h0, Bij.bind_ok, h1]
      exact ⟨hyy, hll.trans hlr⟩
  refine ⟨rfl, rfl, rfl, fun x _ => SameArr.refl _, fun x hx => (key b x hx).1, fun x hx => (key b x hx).2,
    fun x _ => SameArr.refl _, ?_, ?_⟩
  · intro y hy
    exact (key ⟨b.inverse, b.forward, b.ildj, b.fldj, b.invAndLd, b.fwdAndLd, b.ndimsOut, b.ndimsIn, b.constJac,
      b.constLogDet⟩ y hy).1
  · intro y hy
    exact (key ⟨b.inverse, b.forward, b.ildj, b.fldj, b.invAndLd, b.fwdAndLd, b.ndimsOut, b.ndimsIn, b.constJac,
      b.constLogDet⟩ y hy).2

/-- The one property that does not survive: `is_constant_log_det` is forgotten and replaced by `is_constant_jacobian`. -/
theorem C49_const_log_det_forgotten (b : BijM) :
    b.compatTfp.fromTfp.constLogDet = b.constJac ∧ b.compatTfp.constJac = b.constJac := ⟨rfl, rfl⟩

theorem Ld.eqv {s : List ℕ} {n : ℕ} {L : List ℕ → ℝ → ℝ} {x l l' : Arr} (h : Bij.Ld s n L x l) (h' : Bij.Ld s n L x l') :
    l'.Eqv l := ⟨h'.1.trans h.1.symm, fun i hi => by rw [h.2 i (by rw [← h'.1]; exact hi), h'.2 i (by rw [← h'.1]; exact hi)]⟩

theorem Elem.eqv {s : List ℕ} {f : List ℕ → ℝ → ℝ} {x y y' : Arr} (h : Bij.Elem s f x y) (h' : Bij.Elem s f x y') :
    y'.Eqv y := ⟨h'.1.trans h.1.symm, fun i hi => by rw [h.2 i (by rw [← h'.1]; exact hi), h'.2 i (by rw [← h'.1]; exact hi)]⟩

/-- The conventions hold for every bijector the library composes, on every input its parameters fit. -/
theorem C49_convention_holds (b : Bij) (hb : Bij.Built b) (x : Arr) (hx : b.ndimsIn ≤ x.shape.length)
    (hf : b.Fits x.shape) : FwdShaped b.methods x ∧ InvShaped b.methods x := by
  have r := Bij.refines b x.shape hb.wf hf hx
  have hn := Bij.ndims_eq b hb.wf
  have split : x.shape = x.shape.take (x.shape.length - b.ndimsIn) ++ x.shape.drop (x.shape.length - b.ndimsIn) :=
    (List.take_append_drop _ _).symm
  have hlen : (x.shape.drop (x.shape.length - b.ndimsIn)).length = b.ndimsIn := by
    rw [List.length_drop]; omega
  constructor
  · obtain ⟨y, hy, hys⟩ := r.fwd x rfl
    obtain ⟨l, hl, hls⟩ := r.fld x rfl
    obtain ⟨y', l', h3, h4, h5⟩ := r.fwdLd x rfl
    exact ⟨y, l, y', l', _, _, hy, hl, h3, Elem.eqv hys h4, Ld.eqv hls h5, hys.1.trans split,
      hlen.trans hn, hls.1⟩
  · obtain ⟨y, hy, hys⟩ := r.inv x rfl
    obtain ⟨l, hl, hls⟩ := r.ild x rfl
    obtain ⟨y', l', h3, h4, h5⟩ := r.invLd x rfl
    exact ⟨y, l, y', l', _, _, hy, hl, h3, Elem.eqv hys h4, Ld.eqv hls h5, hys.1.trans split, hlen, hls.1⟩

/-! ### Distributions -/

theorem splitSamples_shape {a b : Arr} {n : ℕ} {r ss : List ℕ} (ha : a.shape = n :: r) (hn : n = ss.prod)
    (h : DistC.splitSamples ss a = .ok b) : b.shape = ss ++ r := by
  obtain ⟨o, h1, h2, _⟩ := reshape_stack a ss r (by rw [ha, hn])
  unfold DistC.splitSamples at h
  rw [h1, Except.ok.injEq] at h
  rw [← h, h2]

/-- `_sample_n(key, n)` of the compatible wrapper is `_sample_n(key, n)` of what it wraps. -/
theorem compat_sampleN (prngKey : ℤ → K) (d : DistC K) (hd : Coherent prngKey d) (k : K) (n : ℕ) :
    SameArr (d.sample prngKey (.key k) (.seq [n])) (d.sampleN k n) := by
  refine (hd.sample _ _).trans ?_
  simp only [DistC.sample, convertSeedAndSampleShape, List.foldl_cons, List.foldl_nil, one_mul]
  cases h : d.sampleN k n with
  | error e => rfl
  | ok a =>
    have hs := hd.shape k n a h
    rw [Bij.bind_ok]
    unfold DistC.splitSamples
    have : [n] ++ a.shape.drop 1 = a.shape := by rw [hs]; rfl
    rw [this]
    obtain ⟨b, h1, h2⟩ := reshape_self a
    rw [h1]; exact h2

theorem compat_coherent (truthy : List ℕ → Bool) (prngKey : ℤ → K) (nm : Option String) (d : DistC K)
    (hd : Coherent prngKey d) : Coherent prngKey (d.compat truthy prngKey nm) := by
  refine ⟨fun k n a h => ?_, fun seed ss => ?_, hd.logProb⟩
  · have h1 := compat_sampleN prngKey d hd k n
    have h2 : d.sample prngKey (.key k) (.seq [n]) = .ok a := h
    rw [h2] at h1
    cases h3 : d.sampleN k n with
    | error e => rw [h3] at h1; exact h1.elim
    | ok b => rw [h3] at h1; exact h1.1.trans (hd.shape k n b h3)
  · refine (hd.sample seed ss).trans ?_
    simp only [DistC.sample, DistC.compat]
    exact SameArr.bind (compat_sampleN prngKey d hd _ _).symm fun x y hxy => splitSamples_congr hxy _

theorem compat_sampleNLP (truthy : List ℕ → Bool) (prngKey : ℤ → K) (nm : Option String) (d : DistC K)
    (hd : Coherent prngKey d) (k : K) (n : ℕ) :
    SamePair (d.sampleNLP k n) ((d.compat truthy prngKey nm).sampleNLP k n) := by
  unfold DistC.sampleNLP
  show SamePair _ (match d.sampleNLP? with | some f => f k n | none => _)
  cases d.sampleNLP? with
  | some f => exact SamePair.refl _
  | none =>
    show SamePair (d.sampleN k n >>= _) (d.sample prngKey (.key k) (.seq [n]) >>= _)
    have h := (compat_sampleN prngKey d hd k n).symm
    cases h1 : d.sampleN k n with
    | error e =>
      rw [h1] at h
      cases h2 : d.sample prngKey (.key k) (.seq [n]) with
      | error e' => rw [h2] at h; cases h; rfl
      | ok b => rw [h2] at h; exact h.elim
    | ok a =>
      rw [h1] at h
      cases h2 : d.sample prngKey (.key k) (.seq [n]) with
      | error e' => rw [h2] at h; exact h.elim
      | ok b =>
        rw [h2] at h
        have hl := hd.logProb a b h
        show SamePair (d.logProb a >>= _) (d.logProb b >>= _)
        cases h3 : d.logProb a with
        | error e =>
          rw [h3] at hl
          cases h4 : d.logProb b with
          | error e' => rw [h4] at hl; cases hl; rfl
          | ok l => rw [h4] at hl; exact hl.elim
        | ok l =>
          rw [h3] at hl
          cases h4 : d.logProb b with
          | error e' => rw [h4] at hl; exact hl.elim
          | ok l' => rw [h4] at hl; exact ⟨h, hl⟩

theorem sampleAndLogProb_congr (prngKey : ℤ → K) (d e : DistC K) (h : ∀ k n, SamePair (d.sampleNLP k n) (e.sampleNLP k n))
    (seed : Seed K) (ss : SampleShape) :
    SamePair (d.sampleAndLogProb prngKey seed ss) (e.sampleAndLogProb prngKey seed ss) := by
  unfold DistC.sampleAndLogProb
  generalize (convertSeedAndSampleShape prngKey seed ss).1 = k
  generalize (convertSeedAndSampleShape prngKey seed ss).2 = S
  have h0 := h k (S.foldl (· * ·) 1)
  cases h1 : d.sampleNLP k (S.foldl (· * ·) 1) with
  | error er =>
    rw [h1] at h0
    cases h2 : e.sampleNLP k (S.foldl (· * ·) 1) with
    | error er' => rw [h2] at h0; cases h0; rfl
    | ok q => rw [h2] at h0; exact h0.elim
  | ok p =>
    rw [h1] at h0
    cases h2 : e.sampleNLP k (S.foldl (· * ·) 1) with
    | error er' => rw [h2] at h0; exact h0.elim
    | ok q =>
      rw [h2] at h0
      rw [Bij.bind_ok, Bij.bind_ok]
      have e1 := splitSamples_congr h0.1 S
      have e2 := splitSamples_congr h0.2 S
      cases h3 : DistC.splitSamples S p.1 with
      | error x =>
        rw [h3] at e1
        cases h4 : DistC.splitSamples S q.1 with
        | error x' => rw [h4] at e1; cases e1; rfl
        | ok _ => rw [h4] at e1; exact e1.elim
      | ok a =>
        rw [h3] at e1
        cases h4 : DistC.splitSamples S q.1 with
        | error x' => rw [h4] at e1; exact e1.elim
        | ok a' =>
          rw [h4] at e1
          rw [Bij.bind_ok, Bij.bind_ok]
          cases h5 : DistC.splitSamples S p.2 with
          | error x =>
            rw [h5] at e2
            cases h6 : DistC.splitSamples S q.2 with
            | error x' => rw [h6] at e2; cases e2; rfl
            | ok _ => rw [h6] at e2; exact e2.elim
          | ok l =>
            rw [h5] at e2
            cases h6 : DistC.splitSamples S q.2 with
            | error x' => rw [h6] at e2; exact e2.elim
            | ok l' => rw [h6] at e2; exact ⟨e1, e2⟩

theorem Spec.SameDist.refl (prngKey : ℤ → K) (d : DistC K) : SameDist prngKey d d :=
  ⟨rfl, rfl, fun _ _ => SameArr.refl _, fun _ _ => SamePair.refl _, fun _ => rfl, fun _ => rfl, fun _ => rfl, fun _ => rfl,
    rfl, rfl, rfl, rfl, rfl, rfl⟩

theorem Spec.SameDist.trans {prngKey : ℤ → K} {d e f : DistC K} (h : SameDist prngKey d e) (h' : SameDist prngKey e f) :
    SameDist prngKey d f :=
  ⟨h.batch.trans h'.batch, h.event.trans h'.event, fun s t => (h.sample s t).trans (h'.sample s t),
    fun s t => (h.sampleAndLogProb s t).trans (h'.sampleAndLogProb s t), fun v => (h.logProb v).trans (h'.logProb v),
    fun v => (h.prob v).trans (h'.prob v), fun v => (h.logCdf v).trans (h'.logCdf v), fun v => (h.cdf v).trans (h'.cdf v),
    h.entropy.trans h'.entropy, h.mean.trans h'.mean, h.median.trans h'.median, h.variance.trans h'.variance,
    h.stddev.trans h'.stddev, h.mode.trans h'.mode⟩

theorem compat_same (truthy : List ℕ → Bool) (prngKey : ℤ → K) (nm : Option String) (d : DistC K)
    (hd : Coherent prngKey d) : SameDist prngKey d (d.compat truthy prngKey nm) :=
  ⟨rfl, rfl, fun _ _ => SameArr.refl _,
    fun s t => sampleAndLogProb_congr prngKey d _ (compat_sampleNLP truthy prngKey nm d hd) s t,
    fun _ => rfl, fun _ => rfl, fun _ => rfl, fun _ => rfl, rfl, rfl, rfl, rfl, rfl, rfl⟩

theorem dobj_conv (T : Tracer F) (truthy : List ℕ → Bool) (prngKey : ℤ → K) (d e : DistC K) (o : DistObj K)
    (h : o.dist truthy prngKey = some e) (hs : SameDist prngKey d e) (hco : Coherent prngKey e) (hd : o.isDistrax = true)
    (ht : o.isTfp = false) (cs : List Conv) (hc : ∀ c ∈ cs, c ≠ .asBijector) :
    ∃ (o' : DistObj K) (e' : DistC K), cs.foldlM (fun o c => c.apply T o) (PyObj.dist o : PyObj F K) = .ok (.dist o') ∧
      o'.dist truthy prngKey = some e' ∧ SameDist prngKey d e' ∧ o'.isDistrax = true := by
  induction cs generalizing o e with
  | nil => exact ⟨o, e, rfl, h, hs, hd⟩
  | cons c cs ih =>
    have hc' : ∀ c ∈ cs, c ≠ .asBijector := fun c hm => hc c (by simp [hm])
    cases c with
    | toTfp nm =>
      have e1 : Conv.apply T (PyObj.dist o : PyObj F K) (.toTfp nm) = .ok (.dist (.compat o nm)) := by
        simp only [Conv.apply, toTfp, ht, hd, Bool.false_eq_true, if_false, if_true]
      obtain ⟨o', e', k⟩ := ih (e.compat truthy prngKey nm) (.compat o nm)
        (by show (o.dist truthy prngKey).map _ = _; rw [h]; rfl)
        (hs.trans (compat_same truthy prngKey nm e hco)) (compat_coherent truthy prngKey nm e hco) hd ht hc'
      exact ⟨o', e', by rw [List.foldlM_cons, e1]; exact k.1, k.2⟩
    | asDistribution =>
      have e1 : Conv.apply T (PyObj.dist o : PyObj F K) .asDistribution = .ok (.dist o) :=
        (C49_unchanged (K := K) T).2 o hd
      obtain ⟨o', e', k⟩ := ih e o h hs hco hd ht hc'
      exact ⟨o', e', by rw [List.foldlM_cons, e1]; exact k.1, k.2⟩
    | asBijector => exact absurd rfl (hc _ (by simp))

/-- **Distributions.** Any sequence of `to_tfp` (with any names) and `as_distribution` applied to a Distrax distribution
succeeds and gives a Distrax distribution with the same shapes, samples, log-probabilities, probabilities, cdfs and
statistics. -/
theorem C49_distribution_conversions (T : Tracer F) (truthy : List ℕ → Bool) (prngKey : ℤ → K) (d : DistC K)
    (hd : Coherent prngKey d) (cs : List Conv) (hc : ∀ c ∈ cs, c ≠ .asBijector) :
    ∃ (o' : DistObj K) (e' : DistC K),
      cs.foldlM (fun o c => c.apply T o) (PyObj.dist (.distrax d) : PyObj F K) = .ok (.dist o') ∧
      o'.dist truthy prngKey = some e' ∧ SameDist prngKey d e' ∧ o'.isDistrax = true :=
  dobj_conv T truthy prngKey d d (.distrax d) rfl (SameDist.refl _ d) hd rfl rfl cs hc

/-- A TFP distribution is unchanged by `to_tfp`; once wrapped by `as_distribution`, every further conversion (in either
direction) returns the wrapper itself, which is an instance of both libraries' classes. -/
theorem C49_tfp_distribution_conversions (T : Tracer F) (t : TfpD K) (cs : List Conv) (hc : ∀ c ∈ cs, c ≠ .asBijector) :
    cs.foldlM (fun o c => c.apply T o) (PyObj.dist (.tfp t) : PyObj F K) =
      .ok (.dist (if Conv.asDistribution ∈ cs then .fromTfp t else .tfp t)) := by
  have hw : ∀ cs : List Conv, (∀ c ∈ cs, c ≠ .asBijector) →
      cs.foldlM (fun o c => c.apply T o) (PyObj.dist (.fromTfp t) : PyObj F K) = .ok (.dist (.fromTfp t)) := by
    intro cs hc
    induction cs with
    | nil => rfl
    | cons c cs ih =>
      have h1 : c.apply T (PyObj.dist (.fromTfp t) : PyObj F K) = .ok (.dist (.fromTfp t)) := by
        cases c with
        | toTfp nm => rfl
        | asDistribution => rfl
        | asBijector => exact absurd rfl (hc _ (by simp))
      rw [List.foldlM_cons, h1]
      exact ih fun c hm => hc c (by simp [hm])
  induction cs with
  | nil => rfl
  | cons c cs ih =>
    have hc' : ∀ c ∈ cs, c ≠ .asBijector := fun c hm => hc c (by simp [hm])
    cases c with
    | toTfp nm =>
      rw [List.foldlM_cons]
      have := ih hc'
      rw [show Conv.apply T (PyObj.dist (.tfp t) : PyObj F K) (.toTfp nm) = .ok (.dist (.tfp t)) from rfl, Bij.bind_ok, this]
      have : (Conv.asDistribution ∈ Conv.toTfp nm :: cs) ↔ Conv.asDistribution ∈ cs := by simp
      simp only [this]
    | asDistribution =>
      rw [List.foldlM_cons,
        show Conv.apply T (PyObj.dist (.tfp t) : PyObj F K) .asDistribution = .ok (.dist (.fromTfp t)) from rfl, Bij.bind_ok,
        hw cs hc', if_pos (by simp)]
    | asBijector => exact absurd rfl (hc _ (by simp))

/-- The wrapper of a TFP distribution answers with the TFP methods; its samples are the TFP samples for every sample shape;
`sample_and_log_prob`, which TFP may not have, returns the sample and its log-probability; survival functions are
`1 - cdf` for scalar events. -/
theorem C49_from_tfp (prngKey : ℤ → K) (t : TfpD K) (ht : TfpSamples t) :
    (∀ k S, SameArr (t.toDist.sample prngKey (.key k) (.seq S)) (t.sample k S)) ∧
    (∀ v, t.toDist.logProb v = t.logProb v ∧ t.toDist.prob v = t.prob v ∧ t.toDist.cdf v = t.cdf v ∧
      t.toDist.logCdf v = t.logCdf v) ∧
    (t.toDist.entropy = t.entropy ∧ t.toDist.mean = t.mean ∧ t.toDist.median = t.median ∧ t.toDist.variance = t.variance ∧
      t.toDist.stddev = t.stddev ∧ t.toDist.mode = t.mode) ∧
    (t.toDist.batch = t.batch ∧ t.toDist.event = t.event ∧ t.toDist.name = t.name) ∧
    (∀ k n a l, t.sample k [n] = .ok a → t.logProb a = .ok l → t.toDist.sampleNLP k n = .ok (a, l)) ∧
    (∀ v c, t.event = [] → t.cdf v = .ok c → t.toDist.survival v = .ok (c.map fun p => 1 - p) ∧
      t.toDist.logSurvival v = .ok (c.map fun p => Real.log (1 - p))) ∧
    (∀ v, t.event ≠ [] → t.toDist.survival v = .error .notImplemented ∧
      t.toDist.logSurvival v = .error .notImplemented) := by
  refine ⟨fun k S => ?_, fun v => ⟨rfl, rfl, rfl, rfl⟩, ⟨rfl, rfl, rfl, rfl, rfl, rfl⟩, ⟨rfl, rfl, rfl⟩, ?_, ?_, ?_⟩
  · have h := ht k S
    refine SameArr.trans ?_ h.symm
    simp only [DistC.sample, TfpD.toDist, convertSeedAndSampleShape, foldl_mul_eq_prod]
    exact SameArr.refl _
  · intro k n a l h1 h2
    simp only [DistC.sampleNLP, TfpD.toDist, h1, Bij.bind_ok, h2]; rfl
  · intro v c he hc
    simp only [DistC.survival, DistC.logSurvival, DistC.cdf, TfpD.toDist, tupleTruthy, he, List.isEmpty_nil, Bool.not_true,
      Bool.false_eq_true, if_false, hc, Bij.bind_ok]
    refine ⟨rfl, ?_⟩
    simp only [sub_eq_add_neg]; rfl
  · intro v he
    have : (!t.event.isEmpty) = true := by
      cases h : t.event with
      | nil => exact absurd h he
      | cons _ _ => rfl
    simp only [DistC.survival, DistC.logSurvival, TfpD.toDist, tupleTruthy, this, if_true]
    exact ⟨trivial, trivial⟩

/-- **Names.**  The given name if non-empty, else `TFPCompatible` prepended, once per wrapping. -/
theorem C49_names (truthy : List ℕ → Bool) (prngKey : ℤ → K) (d : DistC K) :
    (d.compat truthy prngKey none).name = "TFPCompatible" ++ d.name ∧
    (d.compat truthy prngKey (some "")).name = "TFPCompatible" ++ d.name ∧
    (∀ s, s ≠ "" → (d.compat truthy prngKey (some s)).name = s) ∧
    ((d.compat truthy prngKey none).compat truthy prngKey none).name = "TFPCompatible" ++ ("TFPCompatible" ++ d.name) :=
  ⟨rfl, by simp [DistC.compat], fun s hs => by simp [DistC.compat, hs], rfl⟩

/-- **Survival functions of the wrapper.**  A class with its own survival function keeps it.  The inherited default asks
for the truth value of `event_shape`, which is a `TensorShape` on the wrapper: it is the base's answer when empty shapes
are falsy, as for tuples. -/
theorem C49_survival_partial (truthy : List ℕ → Bool) (prngKey : ℤ → K) (nm : Option String) (d : DistC K) (v : Arr)
    (h : d.survival? ≠ none ∨ truthy d.event = d.eventTruthy) :
    (d.compat truthy prngKey nm).survival v = d.survival v := by
  unfold DistC.survival
  show (match d.survival? with | some f => f v | none => _) = _
  cases hs : d.survival? with
  | some f => rfl
  | none =>
    have h' : truthy d.event = d.eventTruthy := by
      rcases h with h | h
      · exact absurd hs h
      · exact h
    show (if truthy d.event then _ else _) = _
    rw [h']; rfl

/-- **…but TensorFlow's `TensorShape` is truthy for every known rank, even rank 0**: then the wrapper of a distribution with
scalar events and no survival function of its own refuses, where the distribution itself answers `1 - cdf`. -/
theorem C49_survival_lost (truthy : List ℕ → Bool) (htf : ∀ s, truthy s = true) (prngKey : ℤ → K) (nm : Option String)
    (d : DistC K) (hs : d.survival? = none) (he : d.eventTruthy = false) (v c : Arr) (hc : d.cdf v = .ok c) :
    d.survival v = .ok (c.map fun p => 1 - p) ∧
      (d.compat truthy prngKey nm).survival v = .error .notImplemented := by
  constructor
  · simp only [DistC.survival, hs, he, Bool.false_eq_true, if_false, hc, Bij.bind_ok]; rfl
  · simp only [DistC.survival, DistC.compat, hs, htf, if_true]

/-- A standard example of a Distrax distribution object: a point mass at 0 with batch shape `b`. -/
noncomputable def exDist (b : List ℕ) : DistC ℕ :=
  { batch := b, event := [], eventTruthy := false, name := "Point"
    sampleN := fun _ n => .ok (Arr.zeros (n :: b))
    logProb := fun v => .ok (v.map fun x => if x = 0 then 0 else -1)
    logCdf? := some fun v => .ok (v.map fun _ => 0) }

theorem exDist_coherent (b : List ℕ) : Coherent (fun _ => 0) (exDist b) := by
  refine ⟨?_, fun seed ss => SameArr.refl _, ?_⟩
  · intro k n a h
    simp only [exDist, Except.ok.injEq] at h
    rw [← h]; simp [Arr.zeros, exDist]
  · intro a b h
    exact ⟨h.1, fun i hi => by
      show (if a.data i = 0 then (0 : ℝ) else -1) = if b.data i = 0 then 0 else -1
      rw [h.2 i hi]⟩

/-- Non-vacuity: converting twice and back still samples zeros of the right shape. -/
example (T : Tracer F) (b : List ℕ) : ∃ (o' : DistObj ℕ) (e' : DistC ℕ),
    [Conv.toTfp none, .asDistribution, .toTfp (some "x")].foldlM (fun o c => c.apply T o)
      (PyObj.dist (.distrax (exDist b)) : PyObj F ℕ) = .ok (.dist o') ∧
      o'.dist (fun _ => true) (fun _ => 0) = some e' ∧ e'.batch = b ∧ SameDist (fun _ => 0) (exDist b) e' := by
  obtain ⟨o', e', h1, h2, h3, _⟩ := C49_distribution_conversions T (fun _ => true) (fun _ => 0) (exDist b)
    (exDist_coherent b) [Conv.toTfp none, .asDistribution, .toTfp (some "x")] (by simp)
  exact ⟨o', e', h1, h2, h3.batch.symm, h3⟩

/-- Non-vacuity of the survival finding. -/
example (v : Arr) : ((exDist []).compat (fun _ => true) (fun _ => 0) none).survival v = .error .notImplemented :=
  (C49_survival_lost _ (fun _ => rfl) _ none (exDist []) rfl rfl v (v.map fun _ => Real.exp 0) rfl).2

/-! ### The base class's derived methods -/

/-- `prob` and `cdf` default to the exponential of `log_prob` and `log_cdf`, `stddev` to the square root of `variance`;
what is not overridden and has no default raises NotImplementedError. -/
theorem C49_base_defaults (d : DistC K) (v l : Arr) :
    (d.prob? = none → d.logProb v = .ok l → d.prob v = .ok (l.map Real.exp)) ∧
    (d.cdf? = none → d.logCdf v = .ok l → d.cdf v = .ok (l.map Real.exp)) ∧
    (d.cdf? = none → d.logCdf? = none → d.cdf v = .error .notImplemented) ∧
    (d.stddev? = none → d.variance = .ok l → d.stddev = .ok (l.map Real.sqrt)) ∧
    (d.mean? = none → d.mean = .error .notImplemented) ∧ (d.mode? = none → d.mode = .error .notImplemented) ∧
    (d.median? = none → d.median = .error .notImplemented) ∧ (d.entropy? = none → d.entropy = .error .notImplemented) := by
  refine ⟨fun h h' => ?_, fun h h' => ?_, fun h h' => ?_, fun h h' => ?_, fun h => ?_, fun h => ?_, fun h => ?_,
    fun h => ?_⟩
  · simp only [DistC.prob, h, h', Bij.bind_ok]; rfl
  · simp only [DistC.cdf, h, h', Bij.bind_ok]; rfl
  · simp only [DistC.cdf, h, DistC.logCdf, h']; rfl
  · simp only [DistC.stddev, h, h', Bij.bind_ok]; rfl
  · simp only [DistC.mean, h]; rfl
  · simp only [DistC.mode, h]; rfl
  · simp only [DistC.median, h]; rfl
  · simp only [DistC.entropy, h]; rfl

/-! ### as_float_array -/

/-- `as_float_array`: floating arrays are returned as the same object; integers become floating with the same entries;
booleans, complex numbers and the rest raise ValueError; python numbers become arrays; the result is a floating array and
converting it again returns the same object. -/
theorem C49_as_float_array (x : PyNum) :
    (x.isArray = true → x.dtype = .floating → asFloatArray x = .ok x) ∧
    (x.dtype = .integer → ∃ y, asFloatArray x = .ok y ∧ y.isArray = true ∧ y.dtype = .floating ∧ y.val = x.val) ∧
    (x.dtype = .floating → ∃ y, asFloatArray x = .ok y ∧ y.isArray = true ∧ y.dtype = .floating ∧ y.val = x.val) ∧
    (x.dtype = .other → asFloatArray x = .error .valueError) ∧
    (∀ y, asFloatArray x = .ok y → y.isArray = true ∧ y.dtype = .floating ∧ asFloatArray y = .ok y) := by
  obtain ⟨a, t, i, v⟩ := x
  refine ⟨?_, ?_, ?_, ?_, ?_⟩
  · rintro rfl rfl; rfl
  · rintro rfl; cases a <;> exact ⟨_, rfl, rfl, rfl, rfl⟩
  · rintro rfl; cases a <;> exact ⟨_, rfl, rfl, rfl, rfl⟩
  · rintro rfl; cases a <;> rfl
  · intro y h
    cases a <;> cases t <;> simp only [asFloatArray, Bool.false_eq_true, if_false, if_true, Except.ok.injEq, reduceCtorEq] at h <;>
      (subst h; exact ⟨rfl, rfl, rfl⟩)

end Distrax
