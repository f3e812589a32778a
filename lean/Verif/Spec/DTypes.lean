import Verif.Model.DTypes
import Mathlib.Algebra.BigOperators.Fin

/-!
# Specification for dtypes

The narrowest floating-point dtype holding two others, the largest count a dtype can hold exactly, and the
distributions whose events are floating-point by nature.
-/

namespace Distrax.Spec

open DTypes

/-- The narrowest floating-point dtype that holds all numbers of both. -/
def common (s t : DT) : DT :=
  if s = t then s else if s = .f64 ∨ t = .f64 then .f64 else .f32

/-- The largest `N` such that all of `0, 1, ..., N` exist in the dtype. -/
def exactTo : DT → ℕ
  | .bool => 1
  | .u8 => 2 ^ 8 - 1
  | .u16 => 2 ^ 16 - 1
  | .u32 => 2 ^ 32 - 1
  | .u64 => 2 ^ 64 - 1
  | .i8 => 2 ^ 7 - 1
  | .i16 => 2 ^ 15 - 1
  | .i32 => 2 ^ 31 - 1
  | .i64 => 2 ^ 63 - 1
  | .bf16 => 2 ^ 8
  | .f16 => 2 ^ 11
  | .f32 | .c64 => 2 ^ 24
  | .f64 | .c128 => 2 ^ 53

/-- Bits of one real number of the dtype. -/
def width : DT → ℕ
  | .bool | .u8 | .i8 => 8
  | .u16 | .i16 | .bf16 | .f16 => 16
  | .u32 | .i32 | .f32 | .c64 => 32
  | .u64 | .i64 | .f64 | .c128 => 64

/-- Signed integers, unsigned integers, floating-point numbers, booleans, complex numbers. -/
def kind : DT → ℕ
  | .i8 | .i16 | .i32 | .i64 => 0
  | .u8 | .u16 | .u32 | .u64 => 1
  | .bf16 | .f16 | .f32 | .f64 => 2
  | .bool => 3
  | .c64 | .c128 => 4

/-- How often `k` occurs among the first `n` draws. -/
def tally {K : ℕ} (n : ℕ) (draw : ℕ → Fin K) (k : Fin K) : ℕ := ((List.range n).filter fun i => draw i = k).length

/-- A real-valued array or Python number. -/
def RealAV (a : AV) : Prop := a.dt.isInteger ∨ a.dt.isFloating

/-- A bijector made of the affine ones, with real parameters. -/
def AffineBij : Bij → Prop
  | .scalarAffine s h => RealAV s ∧ RealAV h
  | .shiftBy s => RealAV s
  | .linear m => RealAV m
  | .block b => AffineBij b
  | .chain o i => AffineBij o ∧ AffineBij i
  | .fn f => ∀ t : DT, t.isFloating → ∃ t' : DT, t'.isFloating ∧ f (.strong t) = .strong t'

/-- Distributions over real numbers: the continuous families and anything built from them by `Independent`,
`Transformed`, `Clipped` and the two mixtures. -/
def RealValued : Dist → Prop
  | .locScale .. | .gamma .. | .beta .. | .dirichlet .. | .uniform .. | .vonMises .. | .categoricalUniform .. => True
  | .mvn loc scale => RealAV loc ∧ RealAV (.strong scale) ∧ (loc.dt.isFloating ∨ scale.isFloating)
  | .independent d => RealValued d
  | .transformed d b => RealValued d ∧ AffineBij b
  | .clipped d lo hi => RealValued d ∧ RealAV lo ∧ RealAV hi
  | .mixtureOfTwo a b => RealValued a ∧ RealValued b
  | .mixtureSameFamily c => RealValued c
  | .deterministic _ | .bernoulli .. | .categorical .. | .multinomial .. => False

/-- Whatever a distribution is built from: wherever a `Transformed` sits on top of another distribution, that
distribution's samples are not weakly typed, and multivariate normals have a floating-point parameter. -/
def Settled (x64 : Bool) : Dist → Prop
  | .transformed d _ => Settled x64 d ∧ ∀ a, d.sample x64 = .ok a → a.weak = false
  | .mvn loc scale => RealAV loc ∧ RealAV (.strong scale) ∧ (loc.dt.isFloating ∨ scale.isFloating)
  | .independent d | .clipped d _ _ | .mixtureSameFamily d => Settled x64 d
  | .mixtureOfTwo a b => Settled x64 a ∧ Settled x64 b
  | _ => True

/-- Every leaf of a tree satisfies `P`. -/
def _root_.Distrax.DTypes.Tree.All {α : Type} (P : α → Prop) : Tree α → Prop
  | .leaf a => P a
  | .node _ kids => ∀ i, (kids i).All P

end Distrax.Spec
