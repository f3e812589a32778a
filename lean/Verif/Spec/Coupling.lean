import Verif.Model.Coupling
import Verif.Spec.Bijector

/-! Specification vocabulary for the coupling layers. -/

namespace Distrax

/-- `b` is a well-behaved bijector on arrays of shape `s` in the sense every distrax bijector is: methods
succeed and keep the shape, the log-det has one entry per event (an event is a trailing block of rank
`b.ndimsIn`), and, *event by event*, the inverse method undoes the forward method and its log-det is the
negative.  `D i x` says that event `i` of `x` is in the domain. -/
structure Inner.LocallyInvertible (b : Inner) (s : List ℕ) (D : List ℕ → Arr → Prop) : Prop where
  rank : b.ndimsIn ≤ s.length
  fwd_ok : ∀ x : Arr, x.shape = s → ∃ y l, b.fwd x = .ok (y, l) ∧ y.shape = s ∧
    l.shape = s.take (s.length - b.ndimsIn)
  inv_ok : ∀ y : Arr, y.shape = s → ∃ x l, b.inv y = .ok (x, l) ∧ x.shape = s ∧
    l.shape = s.take (s.length - b.ndimsIn)
  inv_fwd : ∀ x y l y' x' l', x.shape = s → b.fwd x = .ok (y, l) → y'.shape = s →
    b.inv y' = .ok (x', l') → ∀ i, InRange (s.take (s.length - b.ndimsIn)) i → D i x →
    (∀ j, InRange (s.drop (s.length - b.ndimsIn)) j → y'.data (i ++ j) = y.data (i ++ j)) →
    (∀ j, InRange (s.drop (s.length - b.ndimsIn)) j → x'.data (i ++ j) = x.data (i ++ j)) ∧
    l'.data i = -l.data i

/-- The mask entry that governs event `i` of an array (numpy broadcasting of the mask against the batch
shape). -/
def Mask.at (m : Mask) (i : List ℕ) : Bool := m.data (proj m.shape i)

/-- A bijector whose inverse undoes forward on arrays of shape `s` in the domain `D`, with opposite
log-dets (up to the representation of arrays). -/
structure Inner.Invertible (b : Inner) (s : List ℕ) (D : Arr → Prop) : Prop where
  fwd_ok : ∀ x : Arr, x.shape = s → D x → ∃ y l, b.fwd x = .ok (y, l) ∧ y.shape = s ∧
    ∀ y', y' ≈ₐ y → ∃ x' l', b.inv y' = .ok (x', l') ∧ x' ≈ₐ x ∧ l' ≈ₐ l.neg

end Distrax
