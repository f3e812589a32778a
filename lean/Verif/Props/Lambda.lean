import Verif.Spec.Lambda
import Verif.Lemmas.Arr
import Verif.Lemmas.Bijector
import Verif.Props.Jaxpr
import Mathlib.Analysis.Calculus.Deriv.Inverse
import Mathlib.Analysis.SpecialFunctions.Log.Deriv

/-! # C53: the Lambda bijector -/

namespace Distrax

open Spec

variable {F : Type}

/-! ### Constructor -/

/-- Exactly which arguments are rejected: neither function given; log-dets given without `event_ndims_in`; ranks given
without log-dets; negative ranks; otherwise an error of the constant-Jacobian detection is passed on. -/
theorem C53_constructor (T : Tracer F) (a : LambdaArgs F) :
    (a.forward = none → a.inverse = none → mkLambda T a = .error .valueError) ∧
    ((a.fldj ≠ none ∨ a.ildj ≠ none) → a.ndimsIn = none → mkLambda T a = .error .valueError) ∧
    (a.fldj = none → a.ildj = none → (a.ndimsIn ≠ none ∨ a.ndimsOut ≠ none) → mkLambda T a = .error .valueError) ∧
    ((a.forward ≠ none ∨ a.inverse ≠ none) → a.fldj = none → a.ildj = none → a.ndimsIn = none → a.ndimsOut = none →
      ∀ c, lambdaConstJac T a = .ok c →
        mkLambda T a = .ok ⟨a.forward, a.inverse, none, none, ⟨0, 0, c, c⟩⟩) ∧
    ((a.forward ≠ none ∨ a.inverse ≠ none) → (a.fldj ≠ none ∨ a.ildj ≠ none) → ∀ n c, a.ndimsIn = some n →
      lambdaConstJac T a = .ok c → 0 ≤ n → 0 ≤ a.ndimsOut.getD n →
        mkLambda T a = .ok ⟨a.forward, a.inverse, a.fldj, a.ildj, ⟨n, a.ndimsOut.getD n, c, c⟩⟩) := by
  obtain ⟨fw, iv, fl, il, ni, no, cj⟩ := a
  refine ⟨?_, ?_, ?_, ?_, ?_⟩
  · rintro rfl rfl; rfl
  · rintro h rfl
    have : lambdaNdims (F := F) ⟨fw, iv, fl, il, none, no, cj⟩ = .error .valueError := by
      unfold lambdaNdims
      cases fw <;> cases iv <;> cases fl <;> cases il <;> simp_all
    unfold mkLambda; rw [this]; rfl
  · rintro rfl rfl h
    have : lambdaNdims (F := F) ⟨fw, iv, none, none, ni, no, cj⟩ = .error .valueError := by
      unfold lambdaNdims
      cases fw <;> cases iv <;> cases ni <;> cases no <;> simp_all
    unfold mkLambda; rw [this]; rfl
  · rintro h rfl rfl rfl rfl c hc
    have : lambdaNdims (F := F) ⟨fw, iv, none, none, none, none, cj⟩ = .ok 0 := by
      unfold lambdaNdims
      cases fw <;> cases iv <;> simp_all
    unfold mkLambda; rw [this, Bij.bind_ok, hc, Bij.bind_ok]
    cases c <;> rfl
  · rintro h h2 n c rfl hc h3 h4
    have : lambdaNdims (F := F) ⟨fw, iv, fl, il, some n, no, cj⟩ = .ok n := by
      unfold lambdaNdims
      cases fw <;> cases iv <;> cases fl <;> cases il <;> simp_all
    unfold mkLambda; rw [this, Bij.bind_ok, hc, Bij.bind_ok]
    have hm : Meta.init n no c none = .ok ⟨n, no.getD n, c, c⟩ := by
      unfold Meta.init
      have h3' : ¬ n < 0 := not_lt.mpr h3
      cases no with
      | none => cases c <;> simp [h3']
      | some o =>
        have h4' : ¬ o < 0 := not_lt.mpr h4
        cases c <;> simp [h3', h4']
    rw [show (⟨fw, iv, fl, il, some n, no, cj⟩ : LambdaArgs F).ndimsOut = no from rfl, hm]; rfl

/-- A given flag is used as it is; otherwise it is detected on `forward` when present, else on `inverse`. -/
theorem C53_flag (T : Tracer F) (a : LambdaArgs F) :
    (∀ c, a.constJac = some c → lambdaConstJac T a = .ok c) ∧
    (∀ f, a.constJac = none → a.forward = some f → lambdaConstJac T a = T.isConstJac f) ∧
    (∀ g, a.constJac = none → a.forward = none → a.inverse = some g → lambdaConstJac T a = T.isConstJac g) := by
  obtain ⟨fw, iv, fl, il, ni, no, cj⟩ := a
  refine ⟨?_, ?_, ?_⟩
  · rintro c rfl; rfl
  · rintro f rfl rfl; rfl
  · rintro g rfl rfl rfl; rfl

/-! ### Histories -/

/-- What a fresh object would use as its forward function. -/
def LambdaSt.effFwd (T : Tracer F) (s : LambdaSt F) : Option F := (s.getForward T).1
/-- What a fresh object would use as its inverse function. -/
def LambdaSt.effInv (T : Tracer F) (s : LambdaSt F) : Option F := (s.getInverse T).1

/-- `s` is `s0` with some caches filled. -/
structure Filled (T : Tracer F) (s0 s : LambdaSt F) : Prop where
  info : s.info = s0.info
  fwd : s.effFwd T = s0.effFwd T
  inv : s.effInv T = s0.effInv T
  fldj : s.fldj = s0.fldj ∨ (s0.fldj = none ∧ ∃ g, s.fldj = some g ∧ deriveLogDet T s0.info.ndimsIn (s0.effFwd T) = .ok g)
  ildj : s.ildj = s0.ildj ∨ (s0.ildj = none ∧ ∃ g, s.ildj = some g ∧ deriveLogDet T s0.info.ndimsOut (s0.effInv T) = .ok g)
  some_fwd : s.fwd = none ∨ s.fwd = s0.effFwd T
  some_inv : s.inv = none ∨ s.inv = s0.effInv T

theorem Filled.refl (T : Tracer F) (s : LambdaSt F) : Filled T s s := by
  refine ⟨rfl, rfl, rfl, Or.inl rfl, Or.inl rfl, ?_, ?_⟩
  · obtain ⟨fw, iv, fl, il, m⟩ := s
    cases fw <;> simp [LambdaSt.effFwd, LambdaSt.getForward]
  · obtain ⟨fw, iv, fl, il, m⟩ := s
    cases iv <;> simp [LambdaSt.effInv, LambdaSt.getInverse]

theorem Filled.getForward {T : Tracer F} {s0 s : LambdaSt F} (h : Filled T s0 s) : Filled T s0 (s.getForward T).2 := by
  obtain ⟨fw, iv, fl, il, m⟩ := s
  cases fw with
  | some f => exact h
  | none =>
    cases iv with
    | none => exact h
    | some g =>
      have h1 := h.fwd
      have h2 := h.inv
      refine ⟨h.info, ?_, ?_, h.fldj, h.ildj, Or.inr ?_, h.some_inv⟩
      · rw [← h1]; rfl
      · rw [← h2]; rfl
      · rw [← h1]; rfl

theorem Filled.getInverse {T : Tracer F} {s0 s : LambdaSt F} (h : Filled T s0 s) : Filled T s0 (s.getInverse T).2 := by
  obtain ⟨fw, iv, fl, il, m⟩ := s
  cases iv with
  | some f => exact h
  | none =>
    cases fw with
    | none => exact h
    | some g =>
      have h1 := h.fwd
      have h2 := h.inv
      refine ⟨h.info, ?_, ?_, h.fldj, h.ildj, h.some_fwd, Or.inr ?_⟩
      · rw [← h1]; rfl
      · rw [← h2]; rfl
      · rw [← h2]; rfl

theorem effFwd_congr (T : Tracer F) {s t : LambdaSt F} (h1 : s.fwd = t.fwd) (h2 : s.inv = t.inv) :
    s.effFwd T = t.effFwd T := by
  obtain ⟨fw, iv, fl, il, m⟩ := s
  obtain ⟨fw', iv', fl', il', m'⟩ := t
  simp only at h1 h2
  subst h1 h2
  cases fw <;> cases iv <;> rfl

theorem effInv_congr (T : Tracer F) {s t : LambdaSt F} (h1 : s.fwd = t.fwd) (h2 : s.inv = t.inv) :
    s.effInv T = t.effInv T := by
  obtain ⟨fw, iv, fl, il, m⟩ := s
  obtain ⟨fw', iv', fl', il', m'⟩ := t
  simp only at h1 h2
  subst h1 h2
  cases fw <;> cases iv <;> rfl

theorem Filled.setFldj {T : Tracer F} {s0 s : LambdaSt F} (h : Filled T s0 s) (h0 : s0.fldj = none) {g : F}
    (hg : deriveLogDet T s0.info.ndimsIn (s0.effFwd T) = .ok g) : Filled T s0 { s with fldj := some g } :=
  ⟨h.info, (effFwd_congr T (s := { s with fldj := some g }) (t := s) rfl rfl).trans h.fwd,
    (effInv_congr T (s := { s with fldj := some g }) (t := s) rfl rfl).trans h.inv, Or.inr ⟨h0, g, rfl, hg⟩, h.ildj, h.some_fwd, h.some_inv⟩

theorem Filled.setIldj {T : Tracer F} {s0 s : LambdaSt F} (h : Filled T s0 s) (h0 : s0.ildj = none) {g : F}
    (hg : deriveLogDet T s0.info.ndimsOut (s0.effInv T) = .ok g) : Filled T s0 { s with ildj := some g } :=
  ⟨h.info, (effFwd_congr T (s := { s with ildj := some g }) (t := s) rfl rfl).trans h.fwd,
    (effInv_congr T (s := { s with ildj := some g }) (t := s) rfl rfl).trans h.inv, h.fldj, Or.inr ⟨h0, g, rfl, hg⟩, h.some_fwd, h.some_inv⟩

/-- `forward` from a filled state returns what the fresh object returns, and stays filled. -/
theorem Filled.forward {T : Tracer F} {s0 s : LambdaSt F} (h : Filled T s0 s) (x : Arr) :
    (s.forward T x).1 = (s0.forward T x).1 ∧ Filled T s0 (s.forward T x).2 := by
  unfold LambdaSt.forward
  rw [h.info]
  by_cases hr : rankOk s0.info.ndimsIn x.shape.length = true
  · simp only [hr, if_true]
    refine ⟨?_, h.getForward⟩
    have := h.fwd
    unfold LambdaSt.effFwd at this
    rw [this]
  · simp only [hr, if_false, Bool.false_eq_true]
    exact ⟨trivial, h⟩

theorem Filled.inverse {T : Tracer F} {s0 s : LambdaSt F} (h : Filled T s0 s) (y : Arr) :
    (s.inverse T y).1 = (s0.inverse T y).1 ∧ Filled T s0 (s.inverse T y).2 := by
  unfold LambdaSt.inverse
  rw [h.info]
  by_cases hr : rankOk s0.info.ndimsOut y.shape.length = true
  · simp only [hr, if_true]
    refine ⟨?_, h.getInverse⟩
    have := h.inv
    unfold LambdaSt.effInv at this
    rw [this]
  · simp only [hr, if_false, Bool.false_eq_true]
    exact ⟨trivial, h⟩

theorem Filled.fwdLogDet {T : Tracer F} {s0 s : LambdaSt F} (h : Filled T s0 s) (x : Arr) :
    (s.fwdLogDet T x).1 = (s0.fwdLogDet T x).1 ∧ Filled T s0 (s.fwdLogDet T x).2 := by
  have hf : (s.getForward T).1 = s0.effFwd T := h.fwd
  have hf0 : (s0.getForward T).1 = s0.effFwd T := rfl
  unfold LambdaSt.fwdLogDet
  rw [h.info]
  by_cases hr : rankOk s0.info.ndimsIn x.shape.length = true
  swap
  · simp only [hr, if_false, Bool.false_eq_true]; exact ⟨trivial, h⟩
  simp only [hr, if_true]
  rcases h.fldj with h1 | ⟨h0, g, hg, hd⟩
  · rw [h1]
    cases h0 : s0.fldj with
    | some g => exact ⟨rfl, h⟩
    | none =>
      simp only [hf, hf0]
      have hs' : Filled T s0 (if rankOk s0.info.ndimsIn 0 = true then (s.getForward T).2 else s) := by
        split
        · exact h.getForward
        · exact h
      cases hd : deriveLogDet T s0.info.ndimsIn (s0.effFwd T) with
      | error e => exact ⟨rfl, hs'⟩
      | ok g => exact ⟨rfl, hs'.setFldj h0 hd⟩
  · rw [hg, h0]
    simp only [hf0, hd]
    exact ⟨trivial, h⟩

theorem Filled.invLogDet {T : Tracer F} {s0 s : LambdaSt F} (h : Filled T s0 s) (x : Arr) :
    (s.invLogDet T x).1 = (s0.invLogDet T x).1 ∧ Filled T s0 (s.invLogDet T x).2 := by
  have hf : (s.getInverse T).1 = s0.effInv T := h.inv
  have hf0 : (s0.getInverse T).1 = s0.effInv T := rfl
  unfold LambdaSt.invLogDet
  rw [h.info]
  by_cases hr : rankOk s0.info.ndimsOut x.shape.length = true
  swap
  · simp only [hr, if_false, Bool.false_eq_true]; exact ⟨trivial, h⟩
  simp only [hr, if_true]
  rcases h.ildj with h1 | ⟨h0, g, hg, hd⟩
  · rw [h1]
    cases h0 : s0.ildj with
    | some g => exact ⟨rfl, h⟩
    | none =>
      simp only [hf, hf0]
      have hs' : Filled T s0 (if rankOk s0.info.ndimsOut 0 = true then (s.getInverse T).2 else s) := by
        split
        · exact h.getInverse
        · exact h
      cases hd : deriveLogDet T s0.info.ndimsOut (s0.effInv T) with
      | error e => exact ⟨rfl, hs'⟩
      | ok g => exact ⟨rfl, hs'.setIldj h0 hd⟩
  · rw [hg, h0]
    simp only [hf0, hd]
    exact ⟨trivial, h⟩

theorem Filled.fwdAndLogDet {T : Tracer F} {s0 s : LambdaSt F} (h : Filled T s0 s) (x : Arr) :
    (s.fwdAndLogDet T x).1 = (s0.fwdAndLogDet T x).1 ∧ Filled T s0 (s.fwdAndLogDet T x).2 := by
  obtain ⟨h1, h2⟩ := h.forward x
  have h2' := ((Filled.refl T s0).forward x).2
  unfold LambdaSt.fwdAndLogDet
  cases hs : s.forward T x with
  | mk r s1 =>
    cases hs0 : s0.forward T x with
    | mk r0 s01 =>
      rw [hs, hs0] at h1
      rw [hs] at h2
      rw [hs0] at h2'
      simp only at h1 h2 h2'
      subst h1
      cases r with
      | error e => exact ⟨rfl, h2⟩
      | ok y =>
        obtain ⟨h3, h4⟩ := h2.fwdLogDet x
        obtain ⟨h3', -⟩ := h2'.fwdLogDet x
        have heq : (s1.fwdLogDet T x).1 = (s01.fwdLogDet T x).1 := h3.trans h3'.symm
        simp only
        cases ha : s1.fwdLogDet T x with
        | mk q s2 =>
          cases hb : s01.fwdLogDet T x with
          | mk q0 s02 =>
            rw [ha, hb] at heq
            rw [ha] at h4
            simp only at heq h4
            subst heq
            cases q <;> exact ⟨rfl, h4⟩

theorem Filled.invAndLogDet {T : Tracer F} {s0 s : LambdaSt F} (h : Filled T s0 s) (x : Arr) :
    (s.invAndLogDet T x).1 = (s0.invAndLogDet T x).1 ∧ Filled T s0 (s.invAndLogDet T x).2 := by
  obtain ⟨h1, h2⟩ := h.inverse x
  have h2' := ((Filled.refl T s0).inverse x).2
  unfold LambdaSt.invAndLogDet
  cases hs : s.inverse T x with
  | mk r s1 =>
    cases hs0 : s0.inverse T x with
    | mk r0 s01 =>
      rw [hs, hs0] at h1
      rw [hs] at h2
      rw [hs0] at h2'
      simp only at h1 h2 h2'
      subst h1
      cases r with
      | error e => exact ⟨rfl, h2⟩
      | ok y =>
        obtain ⟨h3, h4⟩ := h2.invLogDet x
        obtain ⟨h3', -⟩ := h2'.invLogDet x
        have heq : (s1.invLogDet T x).1 = (s01.invLogDet T x).1 := h3.trans h3'.symm
        simp only
        cases ha : s1.invLogDet T x with
        | mk q s2 =>
          cases hb : s01.invLogDet T x with
          | mk q0 s02 =>
            rw [ha, hb] at heq
            rw [ha] at h4
            simp only at heq h4
            subst heq
            cases q <;> exact ⟨rfl, h4⟩

theorem Filled.step {T : Tracer F} {s0 s : LambdaSt F} (h : Filled T s0 s) (c : LCall) :
    (s.step T c).1 = (s0.step T c).1 ∧ Filled T s0 (s.step T c).2 := by
  cases c with
  | forward x => obtain ⟨h1, h2⟩ := h.forward x; exact ⟨by simp only [LambdaSt.step, h1], h2⟩
  | inverse x => obtain ⟨h1, h2⟩ := h.inverse x; exact ⟨by simp only [LambdaSt.step, h1], h2⟩
  | fldj x => obtain ⟨h1, h2⟩ := h.fwdLogDet x; exact ⟨by simp only [LambdaSt.step, h1], h2⟩
  | ildj x => obtain ⟨h1, h2⟩ := h.invLogDet x; exact ⟨by simp only [LambdaSt.step, h1], h2⟩
  | fwdAndLd x => obtain ⟨h1, h2⟩ := h.fwdAndLogDet x; exact ⟨by simp only [LambdaSt.step, h1], h2⟩
  | invAndLd x => obtain ⟨h1, h2⟩ := h.invAndLogDet x; exact ⟨by simp only [LambdaSt.step, h1], h2⟩

theorem Filled.after {T : Tracer F} {s0 s : LambdaSt F} (h : Filled T s0 s) (cs : List LCall) : Filled T s0 (s.after T cs) := by
  induction cs generalizing s with
  | nil => exact h
  | cons c cs ih => exact ih (h.step c).2

/-- **Histories do not matter.**  After any sequence of method calls - in any order, including calls that raised - every
method of a `Lambda` returns (or raises) what it would on a freshly constructed object, and its metadata is unchanged. -/
theorem C53_history_independent (T : Tracer F) (s : LambdaSt F) (history : List LCall) (c : LCall) :
    ((s.after T history).step T c).1 = (s.step T c).1 ∧ (s.after T history).info = s.info := by
  have h := (Filled.refl T s).after history
  exact ⟨(h.step c).1, h.info⟩

/-- User-supplied functions are used as they are: never replaced by a derived one, whatever the history. -/
theorem C53_supplied_kept (T : Tracer F) (s : LambdaSt F) (history : List LCall) :
    (∀ f, s.fwd = some f → (s.after T history).fwd = some f ∨ (s.after T history).fwd = none) ∧
    (∀ x f, s.fwd = some f → rankOk s.info.ndimsIn x.shape.length = true →
      ((s.after T history).forward T x).1 = T.call f x) ∧
    (∀ y g, s.inv = some g → rankOk s.info.ndimsOut y.shape.length = true →
      ((s.after T history).inverse T y).1 = T.call g y) ∧
    (∀ x g, s.fldj = some g → rankOk s.info.ndimsIn x.shape.length = true →
      ((s.after T history).fwdLogDet T x).1 = T.call g x) ∧
    (∀ y g, s.ildj = some g → rankOk s.info.ndimsOut y.shape.length = true →
      ((s.after T history).invLogDet T y).1 = T.call g y) := by
  have h := (Filled.refl T s).after history
  refine ⟨fun f hf => ?_, fun x f hf hr => ?_, fun y g hg hr => ?_, fun x g hg hr => ?_, fun y g hg hr => ?_⟩
  · rcases h.some_fwd with h1 | h1
    · exact Or.inr h1
    · left; rw [h1]; simp [LambdaSt.effFwd, LambdaSt.getForward, hf]
  · rw [(h.forward x).1]; simp [LambdaSt.forward, hr, LambdaSt.getForward, hf, callOpt]
  · rw [(h.inverse y).1]; simp [LambdaSt.inverse, hr, LambdaSt.getInverse, hg, callOpt]
  · rw [(h.fwdLogDet x).1]; simp [LambdaSt.fwdLogDet, hr, hg]
  · rw [(h.invLogDet y).1]; simp [LambdaSt.invLogDet, hr, hg]

/-- **Paired methods.**  After any history, `forward_and_log_det(x)` is the pair of what `forward(x)` and
`forward_log_det_jacobian(x)` would return (in this order), raising the first error of the two; likewise for the inverse. -/
theorem C53_paired_methods (T : Tracer F) (s : LambdaSt F) (history : List LCall) (x : Arr) :
    let t := s.after T history
    (t.fwdAndLogDet T x).1 = (do let y ← (t.forward T x).1; let l ← (t.fwdLogDet T x).1; .ok (y, l)) ∧
    (t.invAndLogDet T x).1 = (do let y ← (t.inverse T x).1; let l ← (t.invLogDet T x).1; .ok (y, l)) := by
  intro t
  constructor
  · have h2 := ((Filled.refl T t).forward x).2
    unfold LambdaSt.fwdAndLogDet
    cases hs : t.forward T x with
    | mk r s1 =>
      rw [hs] at h2
      cases r with
      | error e => rfl
      | ok y =>
        rw [← (h2.fwdLogDet x).1]
        show (match s1.fwdLogDet T x with
          | (.error e, s2) => (.error e, s2)
          | (.ok l, s2) => (.ok (y, l), s2) : Except Err (Arr × Arr) × LambdaSt F).1 = _
        cases ha : s1.fwdLogDet T x with
        | mk q s2 => cases q <;> rfl
  · have h2 := ((Filled.refl T t).inverse x).2
    unfold LambdaSt.invAndLogDet
    cases hs : t.inverse T x with
    | mk r s1 =>
      rw [hs] at h2
      cases r with
      | error e => rfl
      | ok y =>
        rw [← (h2.invLogDet x).1]
        show (match s1.invLogDet T x with
          | (.error e, s2) => (.error e, s2)
          | (.ok l, s2) => (.ok (y, l), s2) : Except Err (Arr × Arr) × LambdaSt F).1 = _
        cases ha : s1.invLogDet T x with
        | mk q s2 => cases q <;> rfl

/-! ### Derived functions -/

/-- Missing functions are derived from the given one. -/
theorem C53_derived (T : Tracer F) (f : F) (m : Meta) (x : Arr) (hi : m.ndimsIn = 0) (ho : m.ndimsOut = 0) :
    let s : LambdaSt F := ⟨some f, none, none, none, m⟩
    (s.forward T x).1 = T.call f x ∧ (s.inverse T x).1 = T.call (T.inv f) x ∧
    (∀ g, T.logDetScalar f = .ok g → (s.fwdLogDet T x).1 = T.call g x) ∧
    (∀ g, T.logDetScalar (T.inv f) = .ok g → (s.invLogDet T x).1 = T.call g x) := by
  intro s
  have r0 : ∀ n : ℕ, rankOk 0 n = true := fun n => by simp [rankOk]
  refine ⟨?_, ?_, fun g hg => ?_, fun g hg => ?_⟩
  · simp [s, LambdaSt.forward, LambdaSt.getForward, callOpt, hi, r0]
  · simp [s, LambdaSt.inverse, LambdaSt.getInverse, callOpt, ho, r0]
  · simp [s, LambdaSt.fwdLogDet, LambdaSt.getForward, deriveLogDet, hi, r0, hg]
  · simp [s, LambdaSt.invLogDet, LambdaSt.getInverse, deriveLogDet, ho, r0, hg]

/-- The same when only `inverse` is given. -/
theorem C53_derived_from_inverse (T : Tracer F) (g : F) (m : Meta) (x : Arr) (hi : m.ndimsIn = 0) (ho : m.ndimsOut = 0) :
    let s : LambdaSt F := ⟨none, some g, none, none, m⟩
    (s.inverse T x).1 = T.call g x ∧ (s.forward T x).1 = T.call (T.inv g) x ∧
    (∀ h, T.logDetScalar g = .ok h → (s.invLogDet T x).1 = T.call h x) ∧
    (∀ h, T.logDetScalar (T.inv g) = .ok h → (s.fwdLogDet T x).1 = T.call h x) := by
  intro s
  have r0 : ∀ n : ℕ, rankOk 0 n = true := fun n => by simp [rankOk]
  refine ⟨?_, ?_, fun h hh => ?_, fun h hh => ?_⟩
  · simp [s, LambdaSt.inverse, LambdaSt.getInverse, callOpt, ho, r0]
  · simp [s, LambdaSt.forward, LambdaSt.getForward, callOpt, hi, r0]
  · simp [s, LambdaSt.invLogDet, LambdaSt.getInverse, deriveLogDet, ho, r0, hh]
  · simp [s, LambdaSt.fwdLogDet, LambdaSt.getForward, deriveLogDet, hi, r0, hh]

/-- A missing log-det of a bijector with event rank above 0 cannot be derived: ValueError at the first use. -/
theorem C53_no_scalar_log_det (T : Tracer F) (s : LambdaSt F) (x : Arr) (hn : 0 < s.info.ndimsIn) (hf : s.fldj = none) :
    (s.fwdLogDet T x).1 = .error .valueError := by
  have r0 : rankOk s.info.ndimsIn 0 = false := by simp [rankOk, hn]
  unfold LambdaSt.fwdLogDet
  rw [hf]
  simp only [deriveLogDet, r0]
  split <;> rfl

/-- **Derived round trip and log-dets.**  Let `φ` be applied elementwise by the given `forward`, with the derived inverse
applying `γ`; `γ` undoes `φ` on the open domain `D`, is continuous at the images and inverts `φ` near them; `φ` has a non-zero
derivative on `D`.  Then for every input with entries in `D` and every history: inverting the output gives back the
input, the forward log-det is `log |φ'|` entry by entry, and the inverse log-det at the output is its negation. -/
theorem C53_round_trip (T : Tracer F) (hT : DifferentiatesScalars T) (f : F) (m : Meta) (hi : m.ndimsIn = 0)
    (ho : m.ndimsOut = 0) (D : ℝ → Prop) (hD : IsOpen {v | D v}) (φ γ : ℝ → ℝ) (hφ : Elementwise T f D φ)
    (hγ : Elementwise T (T.inv f) (fun w => ∃ v, D v ∧ φ v = w) γ) (hgf : ∀ v, D v → γ (φ v) = v)
    (hd : ∀ v, D v → DifferentiableAt ℝ φ v ∧ deriv φ v ≠ 0)
    (hc : ∀ v, D v → ContinuousAt γ (φ v) ∧ ∀ᶠ w in nhds (φ v), φ (γ w) = w)
    (history : List LCall) (x : Arr) (hx : ∀ i, InRange x.shape i → D (x.data i)) :
    let s := (⟨some f, none, none, none, m⟩ : LambdaSt F).after T history
    ∃ y x' l l', (s.forward T x).1 = .ok y ∧ (s.inverse T y).1 = .ok x' ∧ (s.fwdLogDet T x).1 = .ok l ∧
      (s.invLogDet T y).1 = .ok l' ∧ y ≈ₐ x.map φ ∧ x' ≈ₐ x ∧ l ≈ₐ x.map (fun v => Real.log |deriv φ v|) ∧
      l'.shape = x.shape ∧ ∀ i, InRange x.shape i → l'.data i = -l.data i := by
  intro s
  set s0 : LambdaSt F := ⟨some f, none, none, none, m⟩
  have h := (Filled.refl T s0).after history
  obtain ⟨y, hy, hye⟩ := hφ x hx
  have hyD : ∀ i, InRange y.shape i → ∃ v, D v ∧ φ v = y.data i := by
    intro i hi'
    have hsh : y.shape = x.shape := hye.1
    exact ⟨x.data i, hx i (hsh ▸ hi'), (hye.2 i hi').symm⟩
  obtain ⟨x', hx', hx'e⟩ := hγ y hyD
  have hderiv : ∀ v, D v → HasDerivAt γ (deriv φ v)⁻¹ (φ v) := by
    intro v hv
    have hv' := hgf v hv
    refine HasDerivAt.of_local_left_inverse (hc v hv).1 ?_ (hd v hv).2 (hc v hv).2
    rw [hv']
    exact (hd v hv).1.hasDerivAt
  have hopen : IsOpen {w | ∃ v, D v ∧ φ v = w} := by
    rw [isOpen_iff_mem_nhds]
    rintro w ⟨v, hv, rfl⟩
    have h1 := (hc v hv).1
    have h2 : ∀ᶠ w in nhds (φ v), D (γ w) := by
      have : {v | D v} ∈ nhds (γ (φ v)) := hD.mem_nhds (by show D _; rw [hgf v hv]; exact hv)
      exact h1 this
    filter_upwards [h2, (hc v hv).2] with w h3 h4
    exact ⟨γ w, h3, h4⟩
  obtain ⟨G, hG, hGe⟩ := hT f D φ hD hφ fun v hv => (hd v hv).1
  obtain ⟨H, hH, hHe⟩ := hT (T.inv f) _ γ hopen hγ (by
    rintro w ⟨v, hv, rfl⟩
    exact (hderiv v hv).differentiableAt)
  obtain ⟨l, hl, hle⟩ := hGe x hx
  obtain ⟨l', hl', hl'e⟩ := hHe y hyD
  obtain ⟨d1, -, d3, -⟩ := C53_derived T f m x hi ho
  obtain ⟨-, e2, -, e4⟩ := C53_derived T f m y hi ho
  refine ⟨y, x', l, l', ?_, ?_, ?_, ?_, hye, ⟨?_, ?_⟩, hle, ?_, ?_⟩
  · rw [(h.forward x).1]; exact d1.trans hy
  · rw [(h.inverse y).1]; exact e2.trans hx'
  · rw [(h.fwdLogDet x).1]; exact (d3 G hG).trans hl
  · rw [(h.invLogDet y).1]; exact (e4 H hH).trans hl'
  · exact hx'e.1.trans hye.1
  · intro i hi'
    have hy1 : InRange y.shape i := by rw [hx'e.1] at hi'; exact hi'
    have hx1 : InRange x.shape i := by rw [hye.1] at hy1; exact hy1
    rw [hx'e.2 i hi']
    show γ (y.data i) = _
    rw [hye.2 i hy1]
    exact hgf _ (hx i hx1)
  · exact hl'e.1.trans hye.1
  · intro i hi'
    have hy1 : InRange y.shape i := by rw [hye.1]; exact hi'
    have hl1 : InRange l.shape i := by rw [hle.1]; exact hi'
    have hl'1 : InRange l'.shape i := by rw [hl'e.1]; exact hy1
    rw [hl'e.2 i hl'1, hle.2 i hl1]
    show Real.log |deriv γ (y.data i)| = -Real.log |deriv φ (x.data i)|
    rw [hye.2 i hy1]
    show Real.log |deriv γ (φ (x.data i))| = _
    rw [(hderiv _ (hx i hi')).deriv, abs_inv, Real.log_inv]


/-! ### Non-vacuity: a concrete tracer -/

/-- Scalar functions carried with their inverses. -/
noncomputable def pairTracer : Tracer ((ℝ → ℝ) × (ℝ → ℝ)) where
  call F x := .ok (x.map F.1)
  inv F := (F.2, F.1)
  logDetScalar F := .ok (fun v => Real.log |deriv F.1 v|, id)
  isConstJac _ := .ok false

theorem pairTracer_differentiates : DifferentiatesScalars pairTracer := by
  intro F D f hD hF _
  refine ⟨_, rfl, fun x hx => ⟨_, rfl, rfl, fun i hi => ?_⟩⟩
  have hag : ∀ v, D v → F.1 v = f v := by
    intro v hv
    obtain ⟨y, h1, h2⟩ := hF ⟨[], fun _ => v⟩ fun _ _ => hv
    have h1' : Arr.map F.1 ⟨[], fun _ => v⟩ = y := Except.ok.inj h1
    have h3 := h2.2 [] (by rw [← h1']; exact List.Forall₂.nil)
    rw [← h1'] at h3
    exact h3
  have hev : F.1 =ᶠ[nhds (x.data i)] f := by
    filter_upwards [hD.mem_nhds (show D (x.data i) from hx i hi)] with v hv
    exact hag v hv
  show Real.log |deriv F.1 (x.data i)| = Real.log |deriv f (x.data i)|
  rw [hev.deriv_eq]

/-- `Lambda(jnp.exp)`: on every input and after every history, `inverse(forward(x)) = x`, the log-det is `x` and the
inverse log-det is `-x`. -/
example (m : Meta) (hi : m.ndimsIn = 0) (ho : m.ndimsOut = 0) (history : List LCall) (x : Arr) :
    let s := (⟨some (Real.exp, Real.log), none, none, none, m⟩ : LambdaSt _).after pairTracer history
    ∃ y x' l l', (s.forward pairTracer x).1 = .ok y ∧ (s.inverse pairTracer y).1 = .ok x' ∧
      (s.fwdLogDet pairTracer x).1 = .ok l ∧ (s.invLogDet pairTracer y).1 = .ok l' ∧ x' ≈ₐ x ∧ l ≈ₐ x ∧
      ∀ i, InRange x.shape i → l'.data i = -x.data i := by
  intro s
  obtain ⟨y, x', l, l', h1, h2, h3, h4, -, h6, h7, -, h9⟩ := C53_round_trip pairTracer pairTracer_differentiates
    (Real.exp, Real.log) m hi ho (fun _ => True) (by simp) Real.exp Real.log
    (fun x _ => ⟨_, rfl, Arr.Eqv.refl _⟩) (fun x _ => ⟨_, rfl, Arr.Eqv.refl _⟩) (fun v _ => Real.log_exp v)
    (fun v _ => ⟨Real.differentiableAt_exp, by simp [Real.exp_ne_zero]⟩)
    (fun v _ => ⟨Real.continuousAt_log (Real.exp_ne_zero v), by
      filter_upwards [lt_mem_nhds (Real.exp_pos v)] with w hw
      exact Real.exp_log hw⟩) history x (fun _ _ => trivial)
  have h7' : l ≈ₐ x := by
    refine ⟨h7.1, fun i hi' => ?_⟩
    rw [h7.2 i hi']
    show Real.log |deriv Real.exp (x.data i)| = _
    rw [Real.deriv_exp, abs_of_pos (Real.exp_pos _), Real.log_exp]
  refine ⟨y, x', l, l', h1, h2, h3, h4, h6, h7', fun i hi' => ?_⟩
  rw [h9 i hi', h7'.2 i (by rw [h7'.1]; exact hi')]

/-! ### Traced programs: the automatic inverse of C13 inside Lambda -/

open Jaxpr

/-- A python function on arrays: a traced scalar program applied elementwise, the automatic inverse of one, or an
elementwise closure. -/
inductive TracedFn where
  | prog (cs : List (ℕ × ℝ)) (a b : ℕ) (p : Prog Prim)
  | invOf (cs : List (ℕ × ℝ)) (a b : ℕ) (p : Prog Prim)
  | scalar (φ : ℝ → ℝ)

/-- The scalar (partial) function. -/
noncomputable def TracedFn.eval (E : Erf) (o : String → ℝ → ℝ) : TracedFn → ℝ → Except Err ℝ
  | .prog cs a b p, v => match evalFn (evPrim E o) cs [a] [.var b] p [v] with
    | some [r] => .ok r
    | _ => .error .typeError
  | .invOf cs a b p, v => Jaxpr.inv (defaultRegistry E) cs [a] [.var b] p [v]
  | .scalar φ, v => .ok (φ v)

open Classical in
/-- Elementwise application of a partial scalar function; raises if it does on some entry. -/
noncomputable def Arr.mapE (f : ℝ → Except Err ℝ) (x : Arr) : Except Err Arr :=
  if h : ∃ e i, InRange x.shape i ∧ f (x.data i) = .error e then .error h.choose
  else .ok ⟨x.shape, fun i => match f (x.data i) with | .ok r => r | .error _ => 0⟩

/-- The tracer for such functions; the derived log-determinant is the elementwise `log |f'|`. -/
noncomputable def progTracer (E : Erf) (o : String → ℝ → ℝ) (cj : TracedFn → Except Err Bool) : Tracer TracedFn where
  call F x := x.mapE (F.eval E o)
  inv
    | .prog cs a b p => .invOf cs a b p
    | F => F
  logDetScalar F := .ok (.scalar fun v => Real.log |deriv (fun w => match F.eval E o w with | .ok r => r | .error _ => 0) v|)
  isConstJac := cj

theorem mapE_ok {f : ℝ → Except Err ℝ} {x : Arr} {g : List ℕ → ℝ} (h : ∀ i, InRange x.shape i → f (x.data i) = .ok (g i)) :
    ∃ y, x.mapE f = .ok y ∧ y.shape = x.shape ∧ ∀ i, InRange x.shape i → y.data i = g i := by
  unfold Arr.mapE
  rw [dif_neg]
  · exact ⟨_, rfl, rfl, fun i hi => by simp only [h i hi]⟩
  · rintro ⟨e, i, hi, he⟩
    rw [h i hi] at he; cases he

/-- **Lambda with an automatically derived inverse.**  For every straight-line program over the registered primitives (any
length, any nesting of calls), every array whose entries evaluate inside the primitives' domains, and every history of
method calls: `inverse(forward(x)) = x`. -/
theorem C53_automatic_inverse (E : Erf) (o : String → ℝ → ℝ) (cj : TracedFn → Except Err Bool) {cs : List (ℕ × ℝ)}
    {a b : ℕ} {p : Prog Prim} (hst : Straight (fun p => defaultRegistry E p ≠ none) p a b)
    (hcs : (cs.map Prod.fst ++ [a]).Nodup) (hssa : SSA p {v | v ∈ cs.map Prod.fst ++ [a]}) (m : Meta)
    (hi : m.ndimsIn = 0) (ho : m.ndimsOut = 0) (history : List LCall) (x : Arr) (v : List ℕ → ℝ)
    (hv : ∀ i, InRange x.shape i → evalFn (evPrim E o) cs [a] [.var b] p [x.data i] = some [v i])
    (hdom : ∀ i, InRange x.shape i →
      InDomain (evPrim E o) realDomain p (writes (writeConsts (fun _ => none) cs) [a] [x.data i])) :
    let T := progTracer E o cj
    let s := (⟨some (.prog cs a b p), none, none, none, m⟩ : LambdaSt TracedFn).after T history
    ∃ y x', (s.forward T x).1 = .ok y ∧ y.shape = x.shape ∧ (∀ i, InRange x.shape i → y.data i = v i) ∧
      (s.inverse T y).1 = .ok x' ∧ x' ≈ₐ x := by
  intro T s
  have h := (Filled.refl T (⟨some (.prog cs a b p), none, none, none, m⟩ : LambdaSt TracedFn)).after history
  obtain ⟨y, hy, hys, hyd⟩ := mapE_ok (f := TracedFn.eval E o (.prog cs a b p)) (x := x) (g := v) (fun i hi' => by
    simp only [TracedFn.eval, hv i hi'])
  obtain ⟨x', hx, hxs, hxd⟩ := mapE_ok (f := TracedFn.eval E o (.invOf cs a b p)) (x := y) (g := x.data) (fun i hi' => by
    rw [hys] at hi'
    simp only [TracedFn.eval]
    rw [hyd i hi']
    exact C13_inverse_of_straight (C13_default_registry_correct E o) hst hcs hssa (hv i hi') (hdom i hi'))
  refine ⟨y, x', ?_, hys, hyd, ?_, hxs.trans hys, fun i hi' => ?_⟩
  · rw [(h.forward x).1, (C53_derived T _ m x hi ho).1]; exact hy
  · rw [(h.inverse y).1, (C53_derived T _ m y hi ho).2.1]; exact hx
  · exact hxd i (by rw [hxs] at hi'; exact hi')

end Distrax
