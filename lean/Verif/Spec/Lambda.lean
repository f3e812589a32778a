import Verif.Model.Lambda
import Mathlib.Analysis.Calculus.Deriv.Basic

/-! Specification side of `Lambda`: elementwise functions and what the tracing utilities promise about them. -/

namespace Distrax.Spec

open Distrax

/-- The python function `F` applies the scalar function `f` to every entry of every array whose entries satisfy `D`. -/
def Elementwise {Fn : Type} (T : Tracer Fn) (F : Fn) (D : ℝ → Prop) (f : ℝ → ℝ) : Prop :=
  ∀ x : Arr, (∀ i, InRange x.shape i → D (x.data i)) → ∃ y, T.call F x = .ok y ∧ y.Eqv (x.map f)

/-- What automatic differentiation promises: `log_det_scalar` of an elementwise function, differentiable on the open set `D`, is
elementwise `log |f'|`. -/
def DifferentiatesScalars {Fn : Type} (T : Tracer Fn) : Prop :=
  ∀ F D f, IsOpen {v | D v} → Elementwise T F D f → (∀ v, D v → DifferentiableAt ℝ f v) →
    ∃ G, T.logDetScalar F = .ok G ∧ Elementwise T G D fun v => Real.log |deriv f v|

end Distrax.Spec
