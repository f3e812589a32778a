import Verif.Model.MVNGrad
import Verif.Model.VonMises

/-!
# Forward-mode derivatives of the closed-form `entropy` and `kl_divergence`

The formulas of the library on numbers that carry a tangent (`Dual`).  Rules of jax used here, from memory of jax's source, besides
those of `Model/Pathwise`, `Model/SplineGrad`, `Model/ScoreGrad` and `Model/MVNGrad`: `expm1`: `g * (ans + 1)`; `digamma`:
`g * polygamma(1, x)`; `bessel_i0e`: `g * (bessel_i1e(x) - sign(x) * ans)`; `bessel_i1e`:
`g * where(abs(x) > eps, bessel_i0e(x) - ans * (sign(x) + 1 / x), 0.5)` with `eps` the machine epsilon; `where(c, a, b)`: the
tangent of the selected branch.  `polygamma(1, x)` is taken to be the derivative of `digamma`.  One batch entry.
-/

namespace Distrax

noncomputable section

/-- `jax.scipy.special.polygamma(1, x)`: the derivative of the digamma function. [no line of its own; part of the model of gamma.py:34-132] -/
def trigamma (x : ℝ) : ℝ := deriv Distrax.digamma x

namespace Dual

/-- `jnp.expm1`. [external; called e.g. at normal.py:166] -/
def expm1 (a : Dual) : Dual := ⟨Real.exp a.val - 1, a.tan * (Real.exp a.val - 1 + 1)⟩
/-- `lax.digamma`. [external; called e.g. at gamma.py:100] -/
def digamma (a : Dual) : Dual := ⟨Distrax.digamma a.val, a.tan * trigamma a.val⟩
/-- `jax.scipy.special.i0e`. [external; called e.g. at von_mises.py:128] -/
def i0e (a : Dual) : Dual := ⟨Distrax.i0e a.val, a.tan * (Distrax.i1e a.val - (SignType.sign a.val : ℝ) * Distrax.i0e a.val)⟩
open Classical in
/-- `jax.scipy.special.i1e`. [external; called e.g. at von_mises.py:128] -/
def i1e (eps : ℝ) (a : Dual) : Dual :=
  ⟨Distrax.i1e a.val, a.tan * (if eps < |a.val| then
    Distrax.i0e a.val - Distrax.i1e a.val * ((SignType.sign a.val : ℝ) + 1 / a.val) else 1 / 2)⟩

/-- normal.py:117-121 `entropy`. -/
def normalEntropy (scale : Dual) : Dual :=
  let logNormalization := const halfLog2pi + log scale
  const 0.5 + logNormalization

/-- normal.py:149-167 `_kl_divergence_normal_normal`. -/
def normalKL (loc1 scale1 loc2 scale2 : Dual) : Dual :=
  let diffLogScale := log scale1 - log scale2
  const 0.5 * square (loc1 / scale2 - loc2 / scale2) + const 0.5 * expm1 (const 2 * diffLogScale) - diffLogScale

/-- log_stddev_normal.py:61-66, the stored `log_scale`. -/
def storedLogScale (maxScale : Option ℝ) (logScale : Dual) : Dual :=
  match maxScale with
  | none => logScale
  | some m => const (Real.log m) - softplus (const (Real.log m) - logScale)

/-- log_stddev_normal.py:67-68 with normal.py:117-121 (inherited `entropy`). -/
def logStddevNormalEntropy (maxScale : Option ℝ) (logScale : Dual) : Dual :=
  normalEntropy (exp (storedLogScale maxScale logScale))

/-- log_stddev_normal.py:84-101 `_kl_logstddevnormal_logstddevnormal`, with the constructors' log_stddev_normal.py:61-68. -/
def logStddevNormalKL (max1 : Option ℝ) (loc1 ls1 : Dual) (max2 : Option ℝ) (loc2 ls2 : Dual) : Dual :=
  let logScale1 := storedLogScale max1 ls1
  let logScale2 := storedLogScale max2 ls2
  let variance1 := square (exp logScale1)
  let variance2 := square (exp logScale2)
  (variance1 + square (loc1 - loc2)) / (const 2 * variance2) + logScale2 - logScale1 - const 0.5

/-- laplace.py:103-105 `entropy`. -/
def laplaceEntropy (scale : Dual) : Dual := const (Real.log 2) + const 1 + log scale

/-- laplace.py:151-169 `_kl_divergence_laplace_laplace`. -/
def laplaceKL (loc1 scale1 loc2 scale2 : Dual) : Dual :=
  let distance := abs (loc1 - loc2)
  let diffLogScale := log scale1 - log scale2;
  -diffLogScale + distance / scale2 - const 1 + exp (-distance / scale1 + diffLogScale)

/-- logistic.py:93-95 `entropy`. -/
def logisticEntropy (scale : Dual) : Dual := const 2 + log scale

/-- gumbel.py:99-101 `entropy`. -/
def gumbelEntropy (scale : Dual) : Dual := log scale + const 1 + const Real.eulerMascheroniConstant

/-- gumbel.py:134-152 `_kl_divergence_gumbel_gumbel`. -/
def gumbelKL (loc1 scale1 loc2 scale2 : Dual) : Dual :=
  log scale2 - log scale1 + const Real.eulerMascheroniConstant * (scale1 / scale2 - const 1) +
    expm1 ((loc2 - loc1) / scale2 + lgamma (scale1 / scale2 + const 1)) + (loc1 - loc2) / scale2

/-- uniform.py:69-70 and 103-105 `entropy`. -/
def uniformEntropy (low high : Dual) : Dual := log (high - low)

open Classical in
/-- uniform.py:141-161 `_kl_divergence_uniform_uniform`: `none` stands for the constant `inf` (tangent 0). -/
def uniformKL (low1 high1 low2 high2 : Dual) : Option Dual :=
  if low2.val ≤ low1.val ∧ high1.val ≤ high2.val then some (log (high2 - low2) - log (high1 - low1)) else none

/-- gamma.py:93-101 `entropy`. -/
def gammaEntropy (concentration rate : Dual) : Dual :=
  let logRate := log rate
  concentration - logRate + lgamma concentration + (const 1 - concentration) * digamma concentration

/-- gamma.py:135-155 `_kl_divergence_gamma_gamma`. -/
def gammaKL (c1 r1 c2 r2 : Dual) : Dual :=
  let t1 := c2 * (log r1 - log r2)
  let t2 := lgamma c2 - lgamma c1
  let t3 := (c1 - c2) * digamma c1
  let t4 := (r2 - r1) * (c1 / r1)
  t1 + t2 + t3 + t4

/-- beta.py:114-122 `entropy`. -/
def betaEntropy (alpha beta : Dual) : Dual :=
  logBeta alpha beta - (alpha - const 1) * digamma alpha - (beta - const 1) * digamma beta
    + (alpha + beta - const 2) * digamma (alpha + beta)

/-- beta.py:171-192 `_kl_divergence_beta_beta`. -/
def betaKL (a1 b1 a2 b2 : Dual) : Dual :=
  let t1 := logBeta a2 b2 - logBeta a1 b1
  let t2 := (a1 - a2) * digamma a1
  let t3 := (b1 - b2) * digamma b1
  let t4 := (a2 - a1 + b2 - b1) * digamma (a1 + b1)
  t1 + t2 + t3 + t4

/-- dirichlet.py:101-110 `entropy`. -/
def dirichletEntropy {n : ℕ} (c : Fin n → Dual) : Dual :=
  let sumConcentration := sum c
  logBetaMultivariate c + (sumConcentration - const n) * digamma sumConcentration
    - sum fun i => (c i - const 1) * digamma (c i)

/-- dirichlet.py:178-206 `_kl_divergence_dirichlet_dirichlet` of equal dimensions. -/
def dirichletKL {n : ℕ} (c1 c2 : Fin n → Dual) : Dual :=
  let sumConcentration1 := sum c1
  let t1 := logBetaMultivariate c2 - logBetaMultivariate c1
  let t2 := sum fun i => (c1 i - c2 i) * (digamma (c1 i) - digamma sumConcentration1)
  t1 + t2

/-- von_mises.py:153-158 `entropy`. -/
def vonMisesEntropy (eps : ℝ) (conc : Dual) : Dual :=
  conc * (const 1 - i1e eps conc / i0e conc) + const (Real.log (2 * Real.pi)) + log (i0e conc)

/-- von_mises.py:461-485 `_kl_divergence_vonmises_vonmises`. -/
def vonMisesKL (eps : ℝ) (loc1 c1 loc2 c2 : Dual) : Dual :=
  (c2 - c1) + log (i0e c2 / i0e c1) + (i1e eps c1 / i0e c1) * (c1 - c2 * cos (loc1 - loc2))

end Dual

namespace ScaleD

open Dual

variable {n : ℕ}

/-- `matrix`: diag_linear.py:71-74, triangular_linear.py:83-86, diag_plus_low_rank_linear.py:225-231. -/
def matrix : ScaleD n → Fin n → Fin n → Dual
  | diag d => fun i j => if i = j then d i else const 0
  | tri a => a
  | diagPlusLowRank _ d u v => fun i j => (if i = j then d i else const 0) + matMul u (matT v) i j

end ScaleD

namespace Dual

variable {n : ℕ}

/-- mvn_from_bijector.py:158-160 `_squared_frobenius_norm`. -/
def sqFrobenius {m : ℕ} (x : Fin n → Fin m → Dual) : Dual := sum fun i => sum fun j => square (x i j)

/-- mvn_from_bijector.py:240-245 `b_inv_a`: for two diagonal scales the quotient of the standard deviations (mvn_from_bijector.py:145-151)
as a column; otherwise `scale2.inverse` (mvn_from_bijector.py:175-183) of each column of the matrix of `scale1`. -/
def bInvA (scale1 scale2 : ScaleD n) : Σ m, Fin n → Fin m → Dual :=
  match scale1, scale2 with
  | .diag d1, .diag d2 => ⟨1, fun i _ => abs (d1 i) / abs (d2 i)⟩
  | s1, s2 => ⟨n, fun i j => s2.inverse (fun k => s1.matrix k j) i⟩

/-- mvn_from_bijector.py:214-253 `_kl_divergence_mvn_mvn`. -/
def mvnKL (loc1 : Fin n → Dual) (scale1 : ScaleD n) (loc2 : Fin n → Dual) (scale2 : ScaleD n) : Dual :=
  let diffLogAbsDet := scale2.logDet - scale1.logDet
  let b := bInvA scale1 scale2
  let bInvDiffMean := scale2.inverse fun i => loc2 i - loc1 i
  diffLogAbsDet + const 0.5 * (-const n + sqFrobenius b.2 + sqFrobenius fun i (_ : Fin 1) => bInvDiffMean i)

/-- transformed.py:212-243 `entropy` of an MVN: independent.py:113-115 of `Normal(0, 1)` plus the log-determinant of the chain
(chain.py:95-101: the scale's, then the shift's 0). -/
def mvnEntropy (scale : ScaleD n) : Dual := (sum fun _ : Fin n => normalEntropy (const 1)) + (scale.logDet + const 0)

end Dual

namespace MVNDist

variable {n : ℕ}

/-- `entropy`. [citations at the functions used; base class distribution.py:191-194] -/
def entropy (chol : Matrix (Fin n) (Fin n) ℝ → Matrix (Fin n) (Fin n) ℝ) (d : MVNDist n) (t : ℝ) : Dual :=
  Dual.mvnEntropy (d.scale chol t)

/-- `kl_divergence`. [citations at the functions used; base class distribution.py:179-189] -/
def kl (chol : Matrix (Fin n) (Fin n) ℝ → Matrix (Fin n) (Fin n) ℝ) (d e : MVNDist n) (t : ℝ) : Dual :=
  Dual.mvnKL (fun i => (d.loc i).at t) (d.scale chol t) (fun i => (e.loc i).at t) (e.scale chol t)

end MVNDist

end

end Distrax
