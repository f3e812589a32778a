import Verif.Lemmas.Shape
import Mathlib.Analysis.Calculus.FDeriv.Pi
import Mathlib.Analysis.SpecialFunctions.Log.Basic
import Mathlib.LinearAlgebra.Determinant

/-! What "the reported log-det is the log of the absolute Jacobian determinant" means for an array-level method. -/

namespace Distrax

/-- The positions of an array of shape `s`. -/
abbrev Idx (s : List ℕ) : Type := {i : List ℕ // InRange s i}

instance (s : List ℕ) : Finite (Idx s) := by
  have : (setOf (InRange s)).Finite := by
    refine (allIdx s).toFinset.finite_toSet.subset ?_
    intro i hi
    have hi' : InRange s i := hi
    simpa [mem_allIdx] using hi'
  exact this.to_subtype

noncomputable instance (s : List ℕ) : Fintype (Idx s) := Fintype.ofFinite _

/-- The event (trailing block of shape `e`) of `x` at batch position `i`. -/
def Arr.event (x : Arr) (e i : List ℕ) : Idx e → ℝ := fun j => x.data (i ++ j.1)

open Classical in
/-- `x` with the event at batch position `i` replaced by `v`. -/
noncomputable def Arr.withEvent (x : Arr) (e i : List ℕ) (v : Idx e → ℝ) : Arr :=
  ⟨x.shape, fun k => if h : i <+: k ∧ InRange e (k.drop i.length) then v ⟨_, h.2⟩ else x.data k⟩

/-- `φ` is what the method `fwd` does to the event at batch position `i` of `x`, everything else in `x` held fixed. -/
def EventMap (fwd : Arr → Except Err (Arr × Arr)) (x : Arr) (e i : List ℕ) (φ : (Idx e → ℝ) → (Idx e → ℝ)) : Prop :=
  ∀ v, ∃ y l, fwd (x.withEvent e i v) = .ok (y, l) ∧ y.event e i = φ v

/-- The log-det reported at batch position `i` is `log |det J|`, for the Jacobian `J` of the event map at `x`, whenever that map
is differentiable there. -/
def ReportsLogDet (fwd : Arr → Except Err (Arr × Arr)) (x : Arr) (e i : List ℕ) : Prop :=
  ∀ (φ : (Idx e → ℝ) → (Idx e → ℝ)) (J : (Idx e → ℝ) →L[ℝ] (Idx e → ℝ)), EventMap fwd x e i φ →
    HasFDerivAt φ J (x.event e i) → ∀ y l, fwd x = .ok (y, l) →
    l.data i = Real.log |LinearMap.det (J : (Idx e → ℝ) →ₗ[ℝ] (Idx e → ℝ))|

/-- A vectorised method on arrays of shape `s ++ e`: the event at batch position `i` is mapped by `φ i`, and, at the active
positions `A`, the reported log-det is the log of the nonzero Jacobian determinant of `φ i` at `x`. -/
structure ActsEventwise (fwd : Arr → Except Err (Arr × Arr)) (s e : List ℕ) (x : Arr) (A : List ℕ → Prop)
    (φ : List ℕ → (Idx e → ℝ) → (Idx e → ℝ)) (D : List ℕ → (Idx e → ℝ) →L[ℝ] (Idx e → ℝ)) : Prop where
  ok : ∀ x' : Arr, x'.shape = s ++ e → ∃ y l, fwd x' = .ok (y, l) ∧ y.shape = s ++ e ∧ l.shape = s ∧
    ∀ i, InRange s i → y.event e i = φ i (x'.event e i)
  deriv : ∀ i, InRange s i → A i → HasFDerivAt (φ i) (D i) (x.event e i) ∧
    LinearMap.det (D i : (Idx e → ℝ) →ₗ[ℝ] (Idx e → ℝ)) ≠ 0
  logdet : ∀ y l, fwd x = .ok (y, l) → ∀ i, InRange s i → A i →
    l.data i = Real.log |LinearMap.det (D i : (Idx e → ℝ) →ₗ[ℝ] (Idx e → ℝ))|

end Distrax
