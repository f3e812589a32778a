import Verif.Model.MVNGrad
import Verif.Spec.ScoreGrad
import Verif.Spec.MVN
import Mathlib.LinearAlgebra.Matrix.PosDef
import Mathlib.Analysis.Calculus.FDeriv.Basic

/-! Specification side for gradients of the multivariate normal distributions. -/

namespace Distrax.Spec

open Distrax MeasureTheory Topology Matrix

variable {n : ℕ}

/-- A Cholesky factorisation: of positive definite matrices, the lower triangular factor with positive diagonal. -/
def IsCholesky (chol : Matrix (Fin n) (Fin n) ℝ → Matrix (Fin n) (Fin n) ℝ) : Prop :=
  ∀ C, C.PosDef → (∀ i j, i < j → chol C i j = 0) ∧ (∀ i, 0 < chol C i i) ∧ chol C * (chol C)ᵀ = C

/-- The mean vector at parameter `s`. -/
def mvnMean (d : MVNDist n) (s : ℝ) : Fin n → ℝ := fun i => (d.loc i).val s

/-- The covariance matrix at parameter `s`, as documented for each class. -/
def mvnCov (s : ℝ) : MVNDist n → Matrix (Fin n) (Fin n) ℝ
  | .diag _ d => Matrix.diagonal fun i => (d i).val s ^ 2
  | .tri lower _ a =>
    let S : Matrix (Fin n) (Fin n) ℝ := Matrix.of fun i j => if (if lower then j ≤ i else i ≤ j) then (a i j).val s else 0
    S * Sᵀ
  | .fullCovariance _ c => Matrix.of fun i j => (c i j).val s
  | .diagPlusLowRank _ _ d u v =>
    let S : Matrix (Fin n) (Fin n) ℝ := Matrix.diagonal (fun i => (d i).val s) +
      (Matrix.of fun i j => (u i j).val s) * (Matrix.of fun i j => (v i j).val s)ᵀ
    S * Sᵀ

/-- The law of a sample: `N(mean, covariance)`. -/
noncomputable def mvnLaw (d : MVNDist n) (s : ℝ) : Measure (Fin n → ℝ) := densLaw volume (gaussPdf (mvnMean d s) (mvnCov s d))

/-- Continuously differentiable parameters, and an invertible scale at `t`. -/
def MVNValid (t : ℝ) : MVNDist n → Prop
  | .diag l d => (∀ i, Curve (l i).val (l i).der) ∧ (∀ i, Curve (d i).val (d i).der) ∧ ∀ i, (d i).val t ≠ 0
  | .tri _ l a => (∀ i, Curve (l i).val (l i).der) ∧ (∀ i j, Curve (a i j).val (a i j).der) ∧ ∀ i, (a i i).val t ≠ 0
  | .fullCovariance l c => (∀ i, Curve (l i).val (l i).der) ∧ (∀ i j, Curve (c i j).val (c i j).der) ∧
    (∀ i j s, (c i j).val s = (c j i).val s) ∧ (Matrix.of fun i j => (c i j).val t).PosDef
  | .diagPlusLowRank _ l d u v => (∀ i, Curve (l i).val (l i).der) ∧ (∀ i, Curve (d i).val (d i).der) ∧
    (∀ i j, Curve (u i j).val (u i j).der) ∧ (∀ i j, Curve (v i j).val (v i j).der) ∧ (∀ i, (d i).val t ≠ 0) ∧
    (Matrix.diagonal (fun i => (d i).val t) +
      (Matrix.of fun i j => (u i j).val t) * (Matrix.of fun i j => (v i j).val t)ᵀ).det ≠ 0

/-- Functions of a vector whose expectation is differentiated: differentiable, of polynomial growth with their derivative. -/
def TestFnV (f : (Fin n → ℝ) → ℝ) : Prop :=
  Differentiable ℝ f ∧ ∃ K, ∃ k : ℕ, ∀ x, ‖fderiv ℝ f x‖ ≤ K * (1 + ∑ i, |x i|) ^ k

/-- `x` is a vector-valued sample with its tangent, as functions of the noise.  The expectation of `f` exists for parameters near
`t`, and the derivative that automatic differentiation reports for `f(sample)`, averaged over the noise, is the derivative of
that expectation. -/
def PathwiseUnbiasedV {U : Type} [MeasurableSpace U] (law : ℝ → Measure (Fin n → ℝ)) (noise : Measure U) (x : U → Fin n → Dual)
    (f : (Fin n → ℝ) → ℝ) (t : ℝ) : Prop :=
  (∀ᶠ s in 𝓝 t, Integrable f (law s)) ∧
  Integrable (fun u => fderiv ℝ f (fun i => (x u i).val) fun i => (x u i).tan) noise ∧
  HasDerivAt (fun s => ∫ y, f y ∂law s) (∫ u, fderiv ℝ f (fun i => (x u i).val) (fun i => (x u i).tan) ∂noise) t

end Distrax.Spec
