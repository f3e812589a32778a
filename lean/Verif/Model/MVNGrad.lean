import Verif.Model.ScoreGrad
import Mathlib.LinearAlgebra.Matrix.NonsingularInverse
import Mathlib.LinearAlgebra.Matrix.Trace

/-!
# Forward-mode derivatives of the multivariate normal distributions

`sample`, `log_prob` and `sample_and_log_prob` of `MultivariateNormalDiag`, `MultivariateNormalTri`,
`MultivariateNormalFullCovariance` and `MultivariateNormalDiagPlusLowRank` on numbers that carry a tangent (`Dual`), one batch
entry, event dimension `n`.  Rules of jax used here, from memory of jax's source, besides those of `Model/Pathwise`,
`Model/SplineGrad` and `Model/ScoreGrad`: products are bilinear; `solve`, `solve_triangular`: from `A x = b`,
`x' = A⁻¹ (b' - A' x)`; `slogdet(A)[1]`: `trace(A⁻¹ A')`; `cholesky`: its input is symmetrised, and
`L' = L phi(L⁻¹ C' L⁻ᵀ)` where `phi` keeps the lower triangle and halves the diagonal.
-/

namespace Distrax

open Matrix

noncomputable section

namespace Dual

variable {m n k : ℕ}

/-- The values of a vector. [no line of its own; part of the model of unconstrained_affine.py:49-136] -/
def vals (v : Fin n → Dual) : Fin n → ℝ := fun i => (v i).val
/-- The tangents of a vector. [no line of its own; part of the model of unconstrained_affine.py:49-136] -/
def tans (v : Fin n → Dual) : Fin n → ℝ := fun i => (v i).tan
/-- The values of a matrix. [no line of its own; part of the model of unconstrained_affine.py:49-136] -/
def matVal (A : Fin m → Fin n → Dual) : Matrix (Fin m) (Fin n) ℝ := Matrix.of fun i j => (A i j).val
/-- The tangents of a matrix. [no line of its own; part of the model of unconstrained_affine.py:49-136] -/
def matTan (A : Fin m → Fin n → Dual) : Matrix (Fin m) (Fin n) ℝ := Matrix.of fun i j => (A i j).tan

/-- `A @ x`. [no line of its own; part of the model of unconstrained_affine.py:49-136] -/
def matVec (A : Fin m → Fin n → Dual) (x : Fin n → Dual) : Fin m → Dual := fun i => sum fun j => A i j * x j
/-- `A @ B`. [no line of its own; part of the model of unconstrained_affine.py:49-136] -/
def matMul (A : Fin m → Fin k → Dual) (B : Fin k → Fin n → Dual) : Fin m → Fin n → Dual := fun i j => sum fun l => A i l * B l j
/-- `A.T`. [no line of its own; part of the model of unconstrained_affine.py:49-136] -/
def matT (A : Fin m → Fin n → Dual) : Fin n → Fin m → Dual := fun i j => A j i
/-- `jnp.eye(n) + A`. [external; called e.g. at diag_plus_low_rank_linear.py:31] -/
def eyePlus (A : Fin n → Fin n → Dual) : Fin n → Fin n → Dual := fun i j => const (if i = j then 1 else 0) + A i j

/-- `jax.scipy.linalg.solve(A, b)` and `jax.scipy.linalg.solve_triangular(A, b, lower)` for a triangular `A`.
[external; called e.g. at unconstrained_affine.py:116] -/
def solve (A : Fin n → Fin n → Dual) (b : Fin n → Dual) : Fin n → Dual :=
  let x := (matVal A)⁻¹ *ᵥ vals b
  let dx := (matVal A)⁻¹ *ᵥ (tans b - matTan A *ᵥ x)
  fun i => ⟨x i, dx i⟩

/-- `jnp.linalg.slogdet(A)[1]`. [external; called e.g. at unconstrained_affine.py:79] -/
def slogdet (A : Fin n → Fin n → Dual) : Dual :=
  ⟨Real.log |(matVal A).det|, ((matVal A)⁻¹ * matTan A).trace⟩

/-- jax's `phi` in the derivative of the Cholesky factor. [no line of its own; part of the model of unconstrained_affine.py:49-136] -/
def phi (A : Matrix (Fin n) (Fin n) ℝ) : Matrix (Fin n) (Fin n) ℝ :=
  Matrix.of fun i j => if j < i then A i j else if i = j then A i j / 2 else 0

/-- `jnp.linalg.cholesky`, from the function `chol` that computes the factor. [external; called e.g. at mvn_full_covariance.py:110] -/
def cholesky (chol : Matrix (Fin n) (Fin n) ℝ → Matrix (Fin n) (Fin n) ℝ) (C : Fin n → Fin n → Dual) : Fin n → Fin n → Dual :=
  let symV := (1 / 2 : ℝ) • (matVal C + (matVal C)ᵀ)
  let symT := (1 / 2 : ℝ) • (matTan C + (matTan C)ᵀ)
  let L := chol symV
  let dL := L * phi (L⁻¹ * symT * (L⁻¹)ᵀ)
  fun i j => ⟨L i j, dL i j⟩

/-- `jnp.tril` / `jnp.triu`. [external; called e.g. at triangular_linear.py:78] -/
def triangle (isLower : Bool) (A : Fin n → Fin n → Dual) : Fin n → Fin n → Dual := fun i j =>
  if (if isLower then j ≤ i else i ≤ j) then A i j else const 0

end Dual

/-- The scale bijectors of the multivariate normals, one batch entry. [linear.py:26-76 and its subclasses] -/
inductive ScaleD (n : ℕ) : Type where
  | diag (d : Fin n → Dual)
  | tri (matrix : Fin n → Fin n → Dual)
  | diagPlusLowRank (k : ℕ) (d : Fin n → Dual) (u v : Fin n → Fin k → Dual)

namespace ScaleD

open Dual

variable {n : ℕ}

/-- scalar_affine.py:95-100 `forward` with shift 0, in a Block (diag_linear.py:50-51). -/
def diagForward (d x : Fin n → Dual) : Fin n → Dual := fun i => d i * x i + const 0
/-- scalar_affine.py:71 (`1. / scale`) and 112-117 `inverse` with shift 0. -/
def diagInverse (d y : Fin n → Dual) : Fin n → Dual := fun i => const 1 / d i * (y i - const 0)
/-- scalar_affine.py:72 and 102-105, summed by Block (block.py:94). -/
def diagLogDet (d : Fin n → Dual) : Dual := sum fun i => log (Dual.abs (d i))

/-- diag_plus_low_rank_linear.py:191-193, the `u_matrix` of the inner bijector. -/
def scaledU {k : ℕ} (d : Fin n → Dual) (u : Fin n → Fin k → Dual) : Fin n → Fin k → Dual := fun i j => u i j / d i
/-- diag_plus_low_rank_linear.py:29-31 `_get_small_matrix`. -/
def smallMatrix {k : ℕ} (u v : Fin n → Fin k → Dual) : Fin k → Fin k → Dual := eyePlus (matMul (matT v) u)
/-- diag_plus_low_rank_linear.py:39-40 `_forward_unbatched`. -/
def idForward {k : ℕ} (u v : Fin n → Fin k → Dual) (x : Fin n → Dual) : Fin n → Dual := fun i =>
  x i + matVec u (matVec (matT v) x) i
/-- diag_plus_low_rank_linear.py:43-45 `_inverse_unbatched`. -/
def idInverse {k : ℕ} (u v : Fin n → Fin k → Dual) (y : Fin n → Dual) : Fin n → Dual := fun i =>
  y i - matVec u (solve (smallMatrix u v) (matVec (matT v) y)) i

/-- `forward`: diag_linear.py:50-60, triangular_linear.py:34-35 and 92-96, diag_plus_low_rank_linear.py:194-195 and 204-208 (Chain). -/
def forward (x : Fin n → Dual) : ScaleD n → Fin n → Dual
  | diag d => diagForward d x
  | tri a => matVec a x
  | diagPlusLowRank _ d u v => diagForward d (idForward (scaledU d u) v x)

/-- `inverse`: diag_linear.py:50-60, triangular_linear.py:38-39 and 108-114, diag_plus_low_rank_linear.py:194-195 and 204-208 (Chain). -/
def inverse (y : Fin n → Dual) : ScaleD n → Fin n → Dual
  | diag d => diagInverse d y
  | tri a => solve a y
  | diagPlusLowRank _ d u v => idInverse (scaledU d u) v (diagInverse d y)

/-- `forward_log_det_jacobian`: diag_linear.py:50-60, triangular_linear.py:29-31 and 98-102,
diag_plus_low_rank_linear.py:34-36 and 204-208 (Chain adds the two). -/
def logDet : ScaleD n → Dual
  | diag d => diagLogDet d
  | tri a => sum fun i => log (Dual.abs (a i i))
  | diagPlusLowRank _ d u v => slogdet (smallMatrix (scaledU d u) v) + diagLogDet d

end ScaleD

namespace Dual

variable {n : ℕ}

/-- mvn_from_bijector.py:83-91 with transformed.py:161-166 `log_prob`, chain.py:103-109 (shift first, then the scale),
independent.py:109-112 and normal.py:92-96 (`Normal(0, 1)`). -/
def mvnLogProb (loc : Fin n → Dual) (scale : ScaleD n) (v : Fin n → Dual) : Dual :=
  let shifted := fun i => v i - loc i
  let x := scale.inverse shifted
  let ildj := const 0 + -scale.logDet
  let lpX := sum fun i => normalLogProb (const 0) (const 1) (x i)
  lpX + ildj

/-- transformed.py:168-172 `_sample_n` with chain.py:83-87 (the scale, then the shift) and normal.py:78-83 (`Normal(0, 1)`). -/
def mvnSample (loc : Fin n → Dual) (scale : ScaleD n) (rnd : Fin n → ℝ) : Fin n → Dual :=
  let x := fun i => normalSample (const 0) (const 1) (rnd i)
  let y := scale.forward x
  fun i => y i + loc i

/-- transformed.py:174-191 `_sample_n_and_log_prob`, chain.py:95-101, independent.py:102-107. -/
def mvnSampleAndLogProb (loc : Fin n → Dual) (scale : ScaleD n) (rnd : Fin n → ℝ) : (Fin n → Dual) × Dual :=
  let xl := fun i => normalSampleAndLogProb (const 0) (const 1) (rnd i)
  let y := scale.forward fun i => (xl i).1
  let fldj := scale.logDet + const 0
  (fun i => y i + loc i, (sum fun i => (xl i).2) - fldj)

end Dual

/-- The four classes, with parameters that vary along a curve.
[mvn_from_bijector.py:51-151, mvn_tri.py:62-138, mvn_diag_plus_low_rank.py:88-205, mvn_full_covariance.py:61-135] -/
inductive MVNDist (n : ℕ) : Type where
  | diag (loc scaleDiag : Fin n → Param)
  | tri (isLower : Bool) (loc : Fin n → Param) (scaleTri : Fin n → Fin n → Param)
  | fullCovariance (loc : Fin n → Param) (covariance : Fin n → Fin n → Param)
  | diagPlusLowRank (k : ℕ) (loc scaleDiag : Fin n → Param) (u v : Fin n → Fin k → Param)

namespace MVNDist

variable {n : ℕ}

/-- The `loc` argument. [mvn_from_bijector.py:67-92] -/
def loc : MVNDist n → Fin n → Param
  | diag l _ => l
  | tri _ l _ => l
  | fullCovariance l _ => l
  | diagPlusLowRank _ l _ _ _ => l

/-- The scale bijector: mvn_diag.py:92, mvn_tri.py:113-115, mvn_full_covariance.py:110-112, mvn_diag_plus_low_rank.py:170-174.
The constructors of `MultivariateNormalTri` and of `TriangularLinear` both take the triangle. -/
def scale (chol : Matrix (Fin n) (Fin n) ℝ → Matrix (Fin n) (Fin n) ℝ) (t : ℝ) : MVNDist n → ScaleD n
  | diag _ d => .diag fun i => (d i).at t
  | tri isLower _ a => .tri (Dual.triangle isLower (Dual.triangle isLower fun i j => (a i j).at t))
  | fullCovariance _ c => .tri (Dual.triangle true (Dual.triangle true (Dual.cholesky chol fun i j => (c i j).at t)))
  | diagPlusLowRank k _ d u v => .diagPlusLowRank k (fun i => (d i).at t) (fun i j => (u i j).at t) fun i j => (v i j).at t

/-- `log_prob`. [transformed.py:161-166] -/
def logProb (chol : Matrix (Fin n) (Fin n) ℝ → Matrix (Fin n) (Fin n) ℝ) (d : MVNDist n) (t : ℝ) (v : Fin n → Dual) : Dual :=
  Dual.mvnLogProb (fun i => (d.loc i).at t) (d.scale chol t) v

/-- `sample`, from standard normal numbers. [transformed.py:168-172] -/
def sample (chol : Matrix (Fin n) (Fin n) ℝ → Matrix (Fin n) (Fin n) ℝ) (d : MVNDist n) (t : ℝ) (rnd : Fin n → ℝ) : Fin n → Dual :=
  Dual.mvnSample (fun i => (d.loc i).at t) (d.scale chol t) rnd

/-- `sample_and_log_prob`, from standard normal numbers. [transformed.py:174-191] -/
def sampleAndLogProb (chol : Matrix (Fin n) (Fin n) ℝ → Matrix (Fin n) (Fin n) ℝ) (d : MVNDist n) (t : ℝ) (rnd : Fin n → ℝ) :
    (Fin n → Dual) × Dual :=
  Dual.mvnSampleAndLogProb (fun i => (d.loc i).at t) (d.scale chol t) rnd

end MVNDist

end

end Distrax
