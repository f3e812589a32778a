import Verif.Spec.Wrapper
import Verif.Lemmas.Bijector
import Verif.Lemmas.Broadcast
import Verif.Props.Bijector

/-! # C51: event-rank arithmetic of the TFP wrappers -/

namespace Distrax

open Spec

/-! ### tfp_compatible_bijector -/

theorem sumLast_trailing (l : Arr) (s e : List ℕ) (hl : l.shape = s ++ e) :
    ∃ r, l.sumLast e.length = .ok r ∧ SumsTrailing l r s e := by
  have h1 : e.length ≤ l.shape.length := by rw [hl]; simp
  have h2 : l.shape.length - e.length = s.length := by rw [hl]; simp
  refine ⟨⟨s, fun i => ((allIdx e).map fun j => l.data (i ++ j)).sum⟩, ?_, hl, rfl, fun i _ => rfl⟩
  unfold Arr.sumLast
  rw [if_pos h1, h2, hl]
  simp

theorem sumLast_zero (l : Arr) : l.sumLast 0 = .ok l := by
  unfold Arr.sumLast
  simp [allIdx]

/-- The reported minimal event ranks are the ranks of the wrapped bijector; the wrapped values are its values. -/
theorem C51_min_ranks (b : BijM) :
    b.compatTfp.fMin = b.ndimsIn ∧ b.compatTfp.iMin = b.ndimsOut ∧ b.compatTfp.constJac = b.constJac ∧
      b.compatTfp.forward = b.forward ∧ b.compatTfp.inverse = b.inverse := ⟨rfl, rfl, rfl, rfl, rfl⟩

/-- **Forward log-det.**  A smaller `event_ndims` than the minimum raises ValueError whatever the input; `None` means the
minimum; otherwise exactly the extra trailing axes of the Distrax log-det are summed out, and it is a ValueError if there
are not enough axes. -/
theorem C51_forward_log_det (b : BijM) (x : Arr) :
    (∀ n : ℤ, n < b.ndimsIn → b.compatTfp.fldj x (some n) = .error .valueError) ∧
    (b.compatTfp.fldj x none = b.fldj x) ∧
    (∀ l s e, b.fldj x = .ok l → l.shape = s ++ e →
      ∃ r, b.compatTfp.fldj x (some ((b.ndimsIn : ℤ) + e.length)) = .ok r ∧ SumsTrailing l r s e) ∧
    (∀ l (k : ℕ), b.fldj x = .ok l → l.shape.length < k →
      b.compatTfp.fldj x (some ((b.ndimsIn : ℤ) + k)) = .error .valueError) ∧
    (∀ e (k : ℕ), b.fldj x = .error e → b.compatTfp.fldj x (some ((b.ndimsIn : ℤ) + k)) = .error e) := by
  have hck : ∀ k : ℕ, checkNdims (some ((b.ndimsIn : ℤ) + k)) b.ndimsIn = .ok k := by
    intro k
    simp only [checkNdims]
    rw [if_neg (by omega)]
    congr 1
    omega
  refine ⟨fun n hn => ?_, ?_, fun l s e hl hs => ?_, fun l k hl hk => ?_, fun e k he => ?_⟩
  · simp only [BijM.compatTfp, BijM.tfpFldj, checkNdims, if_pos hn]; rfl
  · simp only [BijM.compatTfp, BijM.tfpFldj, checkNdims]
    cases h : b.fldj x with
    | error e => rfl
    | ok l => show l.sumLast 0 = _; exact sumLast_zero l
  · obtain ⟨r, hr, h⟩ := sumLast_trailing l s e hs
    exact ⟨r, by simp only [BijM.compatTfp, BijM.tfpFldj, hck, hl]; exact hr, h⟩
  · simp only [BijM.compatTfp, BijM.tfpFldj, hck, hl]
    show l.sumLast k = _
    unfold Arr.sumLast
    rw [if_neg (by omega)]
  · simp only [BijM.compatTfp, BijM.tfpFldj, hck, he]; rfl

/-- **Inverse log-det**, with the output rank as the minimum. -/
theorem C51_inverse_log_det (b : BijM) (y : Arr) :
    (∀ n : ℤ, n < b.ndimsOut → b.compatTfp.ildj y (some n) = .error .valueError) ∧
    (b.compatTfp.ildj y none = b.ildj y) ∧
    (∀ l s e, b.ildj y = .ok l → l.shape = s ++ e →
      ∃ r, b.compatTfp.ildj y (some ((b.ndimsOut : ℤ) + e.length)) = .ok r ∧ SumsTrailing l r s e) ∧
    (∀ l (k : ℕ), b.ildj y = .ok l → l.shape.length < k →
      b.compatTfp.ildj y (some ((b.ndimsOut : ℤ) + k)) = .error .valueError) ∧
    (∀ e (k : ℕ), b.ildj y = .error e → b.compatTfp.ildj y (some ((b.ndimsOut : ℤ) + k)) = .error e) := by
  have h := C51_forward_log_det ⟨b.inverse, b.forward, b.ildj, b.fldj, b.invAndLd, b.fwdAndLd, b.ndimsOut, b.ndimsIn,
    b.constJac, b.constLogDet⟩ y
  exact h

/-- `forward_event_ndims` and `inverse_event_ndims`: the extra event dimensions are carried over. -/
theorem C51_event_ndims (b : BijM) :
    (∀ n : ℤ, n < b.ndimsIn → b.tfpForwardEventNdims n = .error .valueError) ∧
    (∀ k : ℕ, b.tfpForwardEventNdims ((b.ndimsIn : ℤ) + k) = .ok (b.ndimsOut + k)) ∧
    (∀ n : ℤ, n < b.ndimsOut → b.tfpInverseEventNdims n = .error .valueError) ∧
    (∀ k : ℕ, b.tfpInverseEventNdims ((b.ndimsOut : ℤ) + k) = .ok (b.ndimsIn + k)) := by
  refine ⟨fun n hn => ?_, fun k => ?_, fun n hn => ?_, fun k => ?_⟩
  · simp only [BijM.tfpForwardEventNdims, checkNdims, if_pos hn]; rfl
  · simp only [BijM.tfpForwardEventNdims, checkNdims, if_neg (show ¬ ((b.ndimsIn : ℤ) + k < b.ndimsIn) by omega)]
    show Except.ok (b.ndimsOut + _) = _
    congr 2; omega
  · simp only [BijM.tfpInverseEventNdims, checkNdims, if_pos hn]; rfl
  · simp only [BijM.tfpInverseEventNdims, checkNdims, if_neg (show ¬ ((b.ndimsOut : ℤ) + k < b.ndimsOut) by omega)]
    show Except.ok (b.ndimsIn + _) = _
    congr 2; omega

/-- The two event-rank maps are mutually inverse. -/
theorem C51_event_ndims_inverse (b : BijM) (n : ℤ) (m : ℕ) (h : b.tfpForwardEventNdims n = .ok m) :
    b.tfpInverseEventNdims m = .ok n.toNat := by
  obtain ⟨h1, h2, h3, h4⟩ := C51_event_ndims b
  by_cases hn : n < b.ndimsIn
  · rw [h1 n hn] at h; cases h
  · obtain ⟨k, rfl⟩ : ∃ k : ℕ, n = (b.ndimsIn : ℤ) + k := ⟨(n - b.ndimsIn).toNat, by omega⟩
    rw [h2 k, Except.ok.injEq] at h
    subst h
    rw [Nat.cast_add, h4 k]
    congr 1

/-- `forward_event_shape`: too few dimensions is a ValueError; otherwise it is the shape that `forward` gives to *every*
input of that shape, for every composed bijector whose parameters fit. -/
theorem C51_event_shape (b : Bij) (hb : Bij.Built b) (s : List ℕ) :
    (s.length < b.ndimsIn → b.methods.tfpForwardEventShape s = .error .valueError) ∧
    (s.length < b.ndimsOut → b.methods.tfpInverseEventShape s = .error .valueError) ∧
    (b.ndimsIn ≤ s.length → b.Fits s → ∃ t, b.methods.tfpForwardEventShape s = .ok t ∧
      ∀ x : Arr, x.shape = s → ∃ y, b.forward x = .ok y ∧ y.shape = t) ∧
    (b.ndimsOut ≤ s.length → b.Fits s → ∃ t, b.methods.tfpInverseEventShape s = .ok t ∧
      ∀ y : Arr, y.shape = s → ∃ x, b.inv y = .ok x ∧ x.shape = t) := by
  refine ⟨fun h => ?_, fun h => ?_, fun h hf => ?_, fun h hf => ?_⟩
  · have h' : s.length < b.methods.ndimsIn := h
    simp only [BijM.tfpForwardEventShape, checkShape, if_pos h']; rfl
  · have h' : s.length < b.methods.ndimsOut := h
    simp only [BijM.tfpInverseEventShape, checkShape, if_pos h']; rfl
  · have r := Bij.refines b s hb.wf hf h
    obtain ⟨y, hy, hy'⟩ := r.fwd (Arr.zeros s) rfl
    have h' : ¬ s.length < b.methods.ndimsIn := not_lt.mpr h
    refine ⟨y.shape, ?_, fun x hx => ?_⟩
    · simp only [BijM.tfpForwardEventShape, checkShape, if_neg h']
      show (b.forward (Arr.zeros s) >>= _) = _
      rw [hy]; rfl
    · obtain ⟨y', h1, h2⟩ := r.fwd x hx
      exact ⟨y', h1, h2.1.trans hy'.1.symm⟩
  · have r := Bij.refines b s hb.wf hf (by rw [Bij.ndims_eq b hb.wf]; exact h)
    obtain ⟨y, hy, hy'⟩ := r.inv (Arr.zeros s) rfl
    have h' : ¬ s.length < b.methods.ndimsOut := not_lt.mpr h
    refine ⟨y.shape, ?_, fun x hx => ?_⟩
    · simp only [BijM.tfpInverseEventShape, checkShape, if_neg h']
      show (b.inv (Arr.zeros s) >>= _) = _
      rw [hy]; rfl
    · obtain ⟨y', h1, h2⟩ := r.inv x hx
      exact ⟨y', h1, h2.1.trans hy'.1.symm⟩

/-- Asking the wrapper for `event_ndims = min + k` is asking `Block(b, k)`: the two libraries' ways of enlarging the event
agree, for every composed bijector and every input of sufficient rank. -/
theorem C51_is_block (b : Bij) (k : ℕ) (x : Arr) (h : k + b.ndimsIn ≤ x.shape.length) :
    b.methods.compatTfp.fldj x (some ((b.ndimsIn : ℤ) + k)) = (Bij.block b k).fldj x := by
  have hck : checkNdims (some ((b.ndimsIn : ℤ) + k)) b.ndimsIn = .ok k := by
    simp only [checkNdims]
    rw [if_neg (by omega)]
    congr 1
    omega
  have h1 : b.methods.compatTfp.fldj x (some ((b.ndimsIn : ℤ) + k)) = (b.fldj x >>= fun l => l.sumLast k) := by
    show (checkNdims (some ((b.ndimsIn : ℤ) + k)) b.ndimsIn >>= _) = _
    rw [hck]; rfl
  rw [h1]
  conv_rhs => unfold Bij.fldj
  unfold Bij.checkFwd
  rw [if_neg (by omega)]
  rfl

/-- Non-vacuity: `Tanh` wrapped and used on matrices of any size sums the log-det over both axes at `event_ndims = 2`. -/
example (m n : ℕ) (f : List ℕ → ℝ) :
    ∃ r, Bij.tanh.methods.compatTfp.fldj ⟨[m, n], f⟩ (some 2) = .ok r ∧ r.shape = [] ∧
      r.data [] = ((allIdx [m, n]).map fun j => tanhFldj (f j)).sum := by
  have hn : Bij.tanh.ndimsIn = 0 := by simp [Bij.ndimsIn]
  obtain ⟨r, h1, h2⟩ := (C51_forward_log_det Bij.tanh.methods ⟨[m, n], f⟩).2.2.1 (Arr.map tanhFldj ⟨[m, n], f⟩) [] [m, n]
    (by show Bij.tanh.fldj _ = _; simp [Bij.fldj]) rfl
  refine ⟨r, ?_, h2.2.1, ?_⟩
  · have : ((Bij.tanh.methods.ndimsIn : ℤ) + ([m, n] : List ℕ).length) = 2 := by
      show ((Bij.tanh.ndimsIn : ℤ) + _) = 2
      rw [hn]; simp
    rwa [this] at h1
  · rw [h2.2.2 [] List.Forall₂.nil]; rfl

/-! ### bijector_from_tfp -/

theorem dropEvent_append (B E : List ℕ) : dropEvent (B ++ E) E.length = B := by
  unfold dropEvent
  by_cases h : E.length = 0
  · rw [if_pos h, List.length_eq_zero_iff.mp h, List.append_nil]
  · rw [if_neg h]; simp

/-- `_ensure_batch_shape` when the Jacobian is constant: the returned log-det has exactly the batch shape `B` of the
output (of shape `B ++ E` with `E` the event), including when `E` is empty, and repeats the TFP log-det along the missing
axes. -/
theorem C51_from_tfp_broadcast (t : TfpM) (x y l : Arr) (B E : List ℕ) (hc : t.constJac = true)
    (hy : t.forward x = .ok y) (hl : t.fldj x (some (t.fMin : ℤ)) = .ok l) (hs : y.shape = B ++ E)
    (hE : E.length = t.iMin) (hb : broadcastShapes l.shape B = some B) :
    ∃ r, t.fromTfp.fldj x = .ok r ∧ t.fromTfp.fwdAndLd x = .ok (y, r) ∧ r.shape = B ∧
      ∀ i, InRange B i → r.data i = l.data (proj l.shape i) := by
  have h : ensureBatchShape t.constJac l t.iMin t.forward x = .ok ⟨B, fun i => l.data (proj l.shape i)⟩ := by
    unfold ensureBatchShape
    rw [hc, if_pos rfl, hy]
    show l.broadcastTo (dropEvent y.shape t.iMin) = _
    rw [hs, ← hE, dropEvent_append]
    unfold Arr.broadcastTo
    rw [if_pos hb]
  refine ⟨⟨B, fun i => l.data (proj l.shape i)⟩, ?_, ?_, rfl, fun i _ => rfl⟩
  · simp only [TfpM.fromTfp, TfpM.fromFldj, hl]; exact h
  · simp only [TfpM.fromTfp, TfpM.fromFwdAndLd, hl, hy, Bij.bind_ok, h]; rfl

/-- The same for the inverse, with the batch shape of the inverse's output. -/
theorem C51_from_tfp_broadcast_inverse (t : TfpM) (x y l : Arr) (B E : List ℕ) (hc : t.constJac = true)
    (hx : t.inverse y = .ok x) (hl : t.ildj y (some (t.iMin : ℤ)) = .ok l) (hs : x.shape = B ++ E)
    (hE : E.length = t.fMin) (hb : broadcastShapes l.shape B = some B) :
    ∃ r, t.fromTfp.ildj y = .ok r ∧ t.fromTfp.invAndLd y = .ok (x, r) ∧ r.shape = B ∧
      ∀ i, InRange B i → r.data i = l.data (proj l.shape i) :=
  C51_from_tfp_broadcast ⟨t.inverse, t.forward, t.ildj, t.fldj, t.iMin, t.fMin, t.constJac⟩ y x l B E hc hx hl hs hE hb

/-- When the Jacobian is not constant, TFP's own log-det is returned unchanged (it is batch-shaped already); errors of TFP
are passed on; an incompatible log-det of a constant-Jacobian bijector is a ValueError, never silently misread. -/
theorem C51_from_tfp_other (t : TfpM) (x : Arr) :
    (t.constJac = false → t.fromTfp.fldj x = t.fldj x (some (t.fMin : ℤ)) ∧
      t.fromTfp.ildj x = t.ildj x (some (t.iMin : ℤ))) ∧
    (∀ e, t.fldj x (some (t.fMin : ℤ)) = .error e → t.fromTfp.fldj x = .error e) ∧
    (∀ y l B E, t.constJac = true → t.forward x = .ok y → t.fldj x (some (t.fMin : ℤ)) = .ok l →
      y.shape = B ++ E → E.length = t.iMin → broadcastShapes l.shape B ≠ some B →
      t.fromTfp.fldj x = .error .valueError) ∧
    t.fromTfp.ndimsIn = t.fMin ∧ t.fromTfp.ndimsOut = t.iMin ∧ t.fromTfp.forward = t.forward ∧
      t.fromTfp.inverse = t.inverse ∧ t.fromTfp.constJac = t.constJac := by
  refine ⟨fun hc => ⟨?_, ?_⟩, fun e he => ?_, fun y l B E hc hy hl hs hE hb => ?_, rfl, rfl, rfl, rfl, rfl⟩
  · simp only [TfpM.fromTfp, TfpM.fromFldj, ensureBatchShape, hc]
    cases t.fldj x (some (t.fMin : ℤ)) <;> rfl
  · simp only [TfpM.fromTfp, TfpM.fromIldj, ensureBatchShape, hc]
    cases t.ildj x (some (t.iMin : ℤ)) <;> rfl
  · simp only [TfpM.fromTfp, TfpM.fromFldj, he]; rfl
  · simp only [TfpM.fromTfp, TfpM.fromFldj, hl, ensureBatchShape, hc, if_true]
    show (t.forward x >>= _) = _
    rw [hy]
    show l.broadcastTo (dropEvent y.shape t.iMin) = _
    rw [hs, ← hE, dropEvent_append]
    unfold Arr.broadcastTo
    rw [if_neg hb]

/-- Non-vacuity: a TFP scalar shift whose log-det is a rank-0 zero; on any input shape the wrapper returns zeros of that
shape. -/
example (c : ℝ) (s : List ℕ) (f : List ℕ → ℝ) :
    let t : TfpM := ⟨fun x => .ok (x.map (· + c)), fun y => .ok (y.map (· - c)), fun _ _ => .ok (Arr.scalar 0),
      fun _ _ => .ok (Arr.scalar 0), 0, 0, true⟩
    ∃ r, t.fromTfp.fldj ⟨s, f⟩ = .ok r ∧ r.shape = s ∧ ∀ i, InRange s i → r.data i = 0 := by
  intro t
  obtain ⟨r, h1, _, h3, h4⟩ := C51_from_tfp_broadcast t ⟨s, f⟩ _ (Arr.scalar 0) s [] rfl rfl rfl
    (by simp [Arr.map]) rfl (by rw [broadcastShapes_comm]; exact broadcast_nil_right s)
  exact ⟨r, h1, h3, fun i hi => h4 i hi⟩

end Distrax
