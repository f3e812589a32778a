import Mathlib.MeasureTheory.Integral.Bochner.Set
import Mathlib.MeasureTheory.Measure.Lebesgue.Basic
import Mathlib.Analysis.SpecialFunctions.Log.Basic

/-! Specification side of continuous distributions on the real line: densities, distribution functions,
expectations, all in terms of Lebesgue integrals. -/

namespace Distrax.Spec

open MeasureTheory

/-- `f` is a probability density. -/
structure IsPdf (f : ℝ → ℝ) : Prop where
  nonneg : ∀ x, 0 ≤ f x
  integrable : Integrable f
  one : ∫ x, f x = 1

/-- `F` is the distribution function of the law with density `f`: `F x = P(X ≤ x)`. -/
def IsCdf (f F : ℝ → ℝ) : Prop := ∀ x, ∫ t in Set.Iic x, f t = F x

/-- `S` is the survival function: `S x = P(X > x)`. -/
def IsSurvival (f S : ℝ → ℝ) : Prop := ∀ x, ∫ t in Set.Ioi x, f t = S x

/-- `E[h(X)]` exists and equals `e`, for `X` with density `f`. -/
def HasExp (f h : ℝ → ℝ) (e : ℝ) : Prop := Integrable (fun x => f x * h x) ∧ ∫ x, f x * h x = e

/-- `E[X] = m`. -/
def HasMean (f : ℝ → ℝ) (m : ℝ) : Prop := HasExp f (fun x => x) m

/-- `Var[X] = v`. -/
def HasVariance (f : ℝ → ℝ) (v : ℝ) : Prop := ∃ m, HasMean f m ∧ HasExp f (fun x => (x - m) ^ 2) v

/-- Differential entropy `-E[log f(X)] = h`. -/
def HasEntropy (f : ℝ → ℝ) (h : ℝ) : Prop := HasExp f (fun x => -Real.log (f x)) h

/-- `KL(f ‖ g) = E_f[log f - log g] = k`. -/
def HasKL (f g : ℝ → ℝ) (k : ℝ) : Prop := HasExp f (fun x => Real.log (f x) - Real.log (g x)) k

/-- `m` maximises the density. -/
def IsMode (f : ℝ → ℝ) (m : ℝ) : Prop := ∀ x, f x ≤ f m

/-- Half of the mass lies on each side of `m`. -/
def IsMedian (f : ℝ → ℝ) (m : ℝ) : Prop := ∫ t in Set.Iic m, f t = 1 / 2 ∧ ∫ t in Set.Ioi m, f t = 1 / 2

/-- If `U` has density `noise` then `T U` has distribution function `F`: `P(T U ≤ x) = F x`. -/
def SampleLaw (noise T F : ℝ → ℝ) : Prop := ∀ x, ∫ u in {u | T u ≤ x}, noise u = F x

/-- Density of the uniform law on `(0, 1)`, the idealised `jax.random.uniform`. -/
noncomputable def unitNoise : ℝ → ℝ := Set.indicator (Set.Ioo 0 1) 1

end Distrax.Spec
