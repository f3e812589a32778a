import Verif.Model.TransformedArr
import Verif.Spec.FamArr

/-! What it means for two constructions of the same distribution to agree. -/

namespace Distrax.Spec

open Distrax

/-- Two array methods give the same array (no exception, same shape, same entries) for every value of shape `T`; the result
has shape `T`. -/
def AgreeOn (T : List ℕ) (f g : Arr → Except Err Arr) : Prop :=
  ∀ v : Arr, v.shape = T → ∃ a b, f v = .ok a ∧ g v = .ok b ∧ a ≈ₐ b ∧ a.shape = T

/-- The entry of `a` that broadcasting reads at position `i` of a larger array. -/
def aget (a : Arr) (i : List ℕ) : ℝ := a.data (proj a.shape i)

/-- The scale of a `ScalarAffine` at position `i`, from the constructor's arguments `scale` and `log_scale`. -/
noncomputable def scaleAt (scale logScale : Option Ref) (i : List ℕ) : ℝ :=
  match scale, logScale with
  | some s, _ => aget s.val i
  | none, some l => Real.exp (aget l.val i)
  | none, none => 1

/-- At every position of `T` the parameters `(p1, q1)` are the image of the location-scale parameters `(p0, q0)` under
`x ↦ c x + s`, where `c ≠ 0`. -/
def AffineImage (T : List ℕ) (s c : List ℕ → ℝ) (p0 q0 p1 q1 : BArr ℝ) : Prop :=
  ∀ i, InRange T i → c i ≠ 0 ∧ 0 < bget q0 i ∧ bget p1 i = c i * bget p0 i + s i ∧ bget q1 i = |c i| * bget q0 i

/-- Two evaluations return arrays of the same shape with the same entries. -/
def Agree (x y : Except Err Arr) : Prop := ∃ a b, x = .ok a ∧ y = .ok b ∧ a ≈ₐ b

/-- `Transformed(D0, b)` is indistinguishable from `D1`, a distribution with batch shape `T` and scalar events, through the
methods both have: the shapes, `log_prob` on every value whose shape `batch_shape` broadcasts into, samples and
`sample_and_log_prob` from the same key, entropy, and mean (`m0`, `m1`: the means of `D0` and `D1`). -/
def Indistinguishable {Key : Type} (D0 : ADist Key) (m0 : Except Err Arr) (b : Bij) (D1 : ADist Key) (m1 : Except Err Arr) : Prop :=
  TransformedA.shapes D0 b = .ok (D1.batch, D1.event) ∧
  (∀ T', broadcastShapes D1.batch T' = some T' → AgreeOn T' (TransformedA.logProb D0 b) D1.logProb) ∧
  (∀ k n, Agree (TransformedA.sampleN D0 b k n) (.ok (D1.sampleN k n))) ∧
  (∀ k n, ∃ y l y' l', TransformedA.sampleNLP D0 b k n = .ok (y, l) ∧ D1.sampleNLP k n = .ok (y', l') ∧ y ≈ₐ y' ∧ l ≈ₐ l') ∧
  Agree (TransformedA.entropy D0 b) D1.entropy ∧ Agree (TransformedA.mean m0 b) m1

end Distrax.Spec
