import Verif.Model.MVN
import Mathlib.LinearAlgebra.Matrix.PosDef

/-! Contract of `jnp.linalg.cholesky`. -/

namespace Distrax.Spec

open Matrix

/-- On a batch of positive definite matrices, `chol` returns the batch of lower triangular factors with positive diagonal. -/
def CholeskyContract (chol : Arr → Arr) : Prop :=
  ∀ (c : Arr) (bs : List ℕ) (n : ℕ), c.shape = bs ++ [n, n] → (chol c).shape = bs ++ [n, n] ∧
    ∀ j, InRange bs j → (c.mat n n j).PosDef →
      (∀ r k, r < k → (chol c).mat n n j r k = 0) ∧ (∀ k, 0 < (chol c).mat n n j k k) ∧
      (chol c).mat n n j * ((chol c).mat n n j)ᵀ = c.mat n n j

end Distrax.Spec
