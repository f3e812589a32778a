import Verif.Model.FloatArith

/-!
Rounding accuracy, independent of the code: what the unit roundoff of a number format is and what it means for a computed float to be
within `ε` of a real number.
-/

namespace Distrax

open XR

/-- The standard model of rounding with unit roundoff `u`: relative error at most `u`, plus at most `η` below the normal range, except for
sums and differences, which have no error there. -/
structure Fmt.Acc (F : Fmt) (u η : ℝ) : Prop where
  u0 : 0 ≤ u
  u_le : u ≤ 1 / 256
  η0 : 0 ≤ η
  η_le : η ≤ u * u
  err : ∀ {x y : ℝ}, F.rd x = fin y → |y - x| ≤ u * |x| + η
  addErr : ∀ {x y z : ℝ}, F.rd x = fin x → F.rd y = fin y → F.rd (x + y) = fin z → |z - (x + y)| ≤ u * |x + y|

/-- `a` is finite and within `ε` of the real number `x`. -/
def FX.Within {F : Fmt} (a : FX F) (x ε : ℝ) : Prop := ∃ y, a.1 = fin y ∧ |y - x| ≤ ε

/-- The real number a finite float stands for (0 for the others). -/
noncomputable def FX.val {F : Fmt} (a : FX F) : ℝ :=
  match a.1 with
  | fin x => x
  | _ => 0

end Distrax
