import Verif.Spec.Shape
import Verif.Model.Slice

/-! What slicing a batched distribution must achieve. -/

namespace Distrax.Spec

open Distrax

/-- The meaning of an index on a batch shape: numpy indexing, except that on a scalar batch every index selects the only entry
(the behaviour found in `C19_scalar_accepts_anything`). -/
def batchSelect (batch : List ℕ) (idx : Index) : Except Err Sel :=
  if batch = [] then .ok ⟨[], fun _ => []⟩ else npSelect batch idx

/-- `d[idx]` slices the law: the new batch shape is that of numpy indexing, entry `j` is the selected entry, and the result is
again a legal object (so that slicing may be repeated); an index that numpy rejects is rejected with the same error. -/
def SlicesLaw {D L : Type} (o : SliceOps D L) (Legal : D → Prop) : Prop :=
  ∀ d idx, Legal d → idx.Ok (o.batch d) →
    (∀ r, batchSelect (o.batch d) idx = .ok r →
      ∃ d', o.getItem d idx = .ok d' ∧ Legal d' ∧ o.batch d' = r.shape ∧
        ∀ j, InRange r.shape j → InRange (o.batch d) (r.sel j) ∧ o.entry d' j = o.entry d (r.sel j)) ∧
    (∀ e, batchSelect (o.batch d) idx = .error e → o.getItem d idx = .error e)

end Distrax.Spec
