import Verif.Model.ArrayLaw
import Verif.Spec.FamArr
import Verif.Spec.Jacobian
import Verif.Spec.Noise
import Verif.Spec.Categorical
import Mathlib.MeasureTheory.Constructions.Pi
import Mathlib.MeasureTheory.Measure.Lebesgue.Basic
import Mathlib.MeasureTheory.Measure.WithDensity

/-! What it means for the entries of a sample array to be independent draws. -/

namespace Distrax.Spec

open Distrax MeasureTheory

noncomputable section

/-- The law on the line with density `f`. -/
def lawOf (f : ℝ → ℝ) : Measure ℝ := volume.withDensity fun x => ENNReal.ofReal (f x)

/-- The law of a number that is 1 with probability `p` and 0 otherwise. -/
def coin (p : ℝ) : Measure ℕ := ENNReal.ofReal p • Measure.dirac 1 + ENNReal.ofReal (1 - p) • Measure.dirac 0

/-- The law of an integer that is `k` with probability `p k`. -/
def pmfLaw {n : ℕ} (p : Fin n → ℝ) : Measure ℤ := ∑ k : Fin n, ENNReal.ofReal (p k) • Measure.dirac ((k : ℕ) : ℤ)

/-- The law of a row of `n` independent Gumbel numbers, `jax.random.gumbel`. -/
def gumbelRow (n : ℕ) : Measure (Fin n → ℝ) := (unitN n).map fun u i => gumbelOf (u i)

open Classical in
/-- The array of shape `s` with the given entries. -/
def arrayOf {α : Type} [Inhabited α] (s : List ℕ) (w : Idx s → α) : BArr α :=
  ⟨s, fun i => if h : InRange s i then w ⟨i, h⟩ else default⟩

/-- `x` turns an array of shape `s` whose entries are independent with laws `ν` into an array of shape `t` whose
entries are independent with laws `μ`: it never raises, the result always has shape `t`, and the joint law of all entries
of the result is the product of the `μ i`. -/
def IndependentEntries {α β : Type} [Inhabited α] [MeasurableSpace α] [MeasurableSpace β]
    (s : List ℕ) (ν : Idx s → Measure α) (x : BArr α → Except Err (BArr β)) (t : List ℕ) (μ : Idx t → Measure β) : Prop :=
  ∃ e : (Idx s → α) → Idx t → β, Measurable e ∧
    (∀ w, ∃ a, x (arrayOf s w) = .ok a ∧ a.shape = t ∧ ∀ i : Idx t, a.data i.1 = e w i) ∧
    (Measure.pi ν).map e = Measure.pi μ

/-- A generator that answers the request for an array of the shape of `rnd` with `rnd` (and any other request with junk). -/
def answers {Key α : Type} [Inhabited α] (rnd : BArr α) : Key → List ℕ → BArr α :=
  fun _ s => if s = rnd.shape then rnd else ⟨s, fun _ => default⟩

/-- The arrays returned by `sample(seed, sample_shape)` consist of independent draws: if the generator's noise array, of shape
`(n,) + batch_shape`, has independent entries with law `ν b` at batch position `b`, then for every seed and every sample shape
`ss` the sample is an array of shape `ss + batch_shape` with independent entries, with law `μ b` at batch position `b`. -/
def SamplesIndependent {α β : Type} [Inhabited α] [MeasurableSpace α] [MeasurableSpace β] (batch : List ℕ)
    (sampleN : AE α → AE β) (ν : List ℕ → Measure α) (μ : List ℕ → Measure β) : Prop :=
  ∀ (Key : Type) (prngKey : ℤ → Key) (seed : Seed Key) (ss : List ℕ),
    IndependentEntries (ss.prod :: batch) (fun i => ν (i.1.drop 1))
      (fun rnd => famSample (answers rnd) batch sampleN prngKey seed (.seq ss)) (ss ++ batch) (fun i => μ (i.1.drop ss.length))

end

end Distrax.Spec
