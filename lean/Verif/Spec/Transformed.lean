import Verif.Model.Transformed
import Verif.Spec.Density

/-! The bijector laws a base distribution's support needs, and honest constancy flags. -/

namespace Distrax

/-- The bijector's methods are consistent on the pair `x ↦ y` with log-determinant `l`. -/
structure LawPair {V L : Type} [Neg L] (b : TBij V L) (x y : V) (l : L) : Prop where
  fwd : b.forward x = .ok y
  fwdLd : b.fwdLd x = .ok (y, l)
  invLd : b.invLd y = .ok (x, -l)

namespace Spec

variable {E : Type} [NormedAddCommGroup E] [NormedSpace ℝ E] [MeasurableSpace E]

/-- On `S`, the object `b` computes the differentiable bijection `f : S → T` with inverse `g` and log-determinant `ld`. -/
structure BijLaws (b : TBij E ℝ) (S T : Set E) (f g : E → E) (ld : E → ℝ) : Prop where
  diffeo : Diffeo S T f g ld
  pair : ∀ x ∈ S, LawPair b x (f x) (ld x)

/-- A Jacobian declared constant is constant: `forward` is affine. -/
def HonestJacobian (b : TBij E ℝ) : Prop :=
  b.constJac = true → ∃ (A : E →L[ℝ] E) (c : E), ∀ x, b.forward x = .ok (A x + c)

/-- A log-determinant declared constant is constant. -/
def HonestLogDet (b : TBij E ℝ) (S : Set E) (ld : E → ℝ) : Prop :=
  b.constLogDet = true → ∃ c, (∀ x, b.fldj x = .ok c) ∧ ∀ x ∈ S, ld x = c

end Spec
end Distrax
