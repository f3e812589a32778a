import Verif.Model.Linear

/-!
What it means for a bijector object to be the batched affine map `x ↦ A x + c`.
-/

namespace Distrax

open Matrix

/-- Forward direction.  The parameters have batch shape `pb`; at batch index `i` of the result the matrix
is `A (proj pb i)` and the shift `c (proj pb i)`.  For every input whose batch axes broadcast with `pb`,
the three forward methods succeed, agree with each other, have the broadcast shape, compute `A x + c`, and
(for nonsingular `A`; otherwise the logarithm is of zero) the log-det is `log |det A|`. -/
def IsAffine (b : ArrBij) (n : ℕ) (pb : List ℕ) (A : List ℕ → Matrix (Fin n) (Fin n) ℝ)
    (c : List ℕ → Fin n → ℝ) : Prop :=
  ∀ (bx t : List ℕ) (x : Arr), x.shape = bx ++ [n] → broadcastShapes pb bx = some t →
    ∃ y l, b.fwdLd x = .ok (y, l) ∧ b.forward x = .ok y ∧ b.fldj x = .ok l ∧
      y.shape = t ++ [n] ∧ l.shape = t ∧
      ∀ i, InRange t i →
        y.vec n i = A (proj pb i) *ᵥ x.vec n (proj bx i) + c (proj pb i) ∧
        ((A (proj pb i)).det ≠ 0 → l.data i = Real.log |(A (proj pb i)).det|)

/-- Inverse direction: the three inverse methods succeed, agree, and wherever `A` is nonsingular return the
solution of `A x + c = y` and minus the forward log-det. -/
def SolvesAffine (b : ArrBij) (n : ℕ) (pb : List ℕ) (A : List ℕ → Matrix (Fin n) (Fin n) ℝ)
    (c : List ℕ → Fin n → ℝ) : Prop :=
  ∀ (b_y t : List ℕ) (y : Arr), y.shape = b_y ++ [n] → broadcastShapes pb b_y = some t →
    ∃ x l, b.invLd y = .ok (x, l) ∧ b.inverse y = .ok x ∧ b.ildj y = .ok l ∧
      x.shape = t ++ [n] ∧ l.shape = t ∧
      ∀ i, InRange t i → (A (proj pb i)).det ≠ 0 →
        A (proj pb i) *ᵥ x.vec n i + c (proj pb i) = y.vec n (proj b_y i) ∧
        l.data i = -Real.log |(A (proj pb i)).det|

end Distrax
