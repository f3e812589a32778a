import Verif.Model.Keys
import Verif.Spec.Noise
import Mathlib.Data.List.DropRight
import Mathlib.Probability.ProductMeasure

/-! An ideal pseudo-random generator, and what it means for a sampler to draw from a law with it. -/

namespace Distrax.Spec

open Distrax Keys MeasureTheory

variable {U : Type} [MeasurableSpace U]

/-- No key is another one or derived from another one by splitting. -/
def Unrelated {I : Type} (path : I → PKey) : Prop := ∀ i j, path i <+: path j → i = j

/-- `P` is an ideal generator: the random numbers given out at any family of *unrelated* keys are independent with law `μ`.
Nothing at all is promised about a key that is used together with one derived from it (or used twice). -/
def IdealPRNG (μ : Measure U) [IsProbabilityMeasure μ] (P : Measure (PKey → U)) : Prop :=
  ∀ (I : Type) (path : I → PKey), Unrelated path → P.map (fun ω i => ω (path i)) = Measure.infinitePi fun _ : I => μ

/-- The computation `f`, given the generator `ω` and a key, only looks at random numbers of keys derived from the given key, all
unrelated; and it would have law `M` if these were independent with law `μ`. -/
def FreshDraws (μ : Measure U) [IsProbabilityMeasure μ] {X : Type} [MeasurableSpace X] (f : (PKey → U) → PKey → X)
    (M : Measure X) : Prop :=
  ∃ (I : Type) (path : I → PKey) (F : (I → U) → X), Unrelated path ∧ Measurable F ∧
    (∀ ω key, f ω key = F fun i => ω (key ++ path i)) ∧ (Measure.infinitePi fun _ : I => μ).map F = M

/-- `d.sample(seed=key, sample_shape=n)` makes `n` independent draws with law `L`, for every key and every `n`, and obeys the
key discipline (so that it can be a part of a larger sampler). -/
def Draws (μ : Measure U) [IsProbabilityMeasure μ] {X : Type} [MeasurableSpace X] (d : Sampler U X) (L : Measure X) : Prop :=
  ∀ n, FreshDraws μ (fun ω key => d.sampleN ω key n) (Measure.pi fun _ : Fin n => L)

noncomputable section

/-- The law of a flag that is true with probability `p`. -/
def flag (p : ℝ) : Measure Bool := ENNReal.ofReal p • Measure.dirac true + ENNReal.ofReal (1 - p) • Measure.dirac false

/-- The law of a number that is `k` with probability `w k`. -/
def choice {K : ℕ} (w : Fin K → ℝ) : Measure ℕ := ∑ k : Fin K, ENNReal.ofReal (w k) • Measure.dirac (k : ℕ)

/-- The mixture of the laws `M k` with weights `w k`. -/
def mixed {K : ℕ} {X : Type} [MeasurableSpace X] (w : Fin K → ℝ) (M : Fin K → Measure X) : Measure X :=
  ∑ k : Fin K, ENNReal.ofReal (w k) • M k

/-- How often each category occurs in `z`. -/
def counts {t K : ℕ} (z : Fin t → Fin K) (k : Fin K) : ℕ := (Finset.univ.filter fun i => z i = k).card

/-- The multinomial law: the counts of the categories in `t` independent draws with law `L`. -/
def multinomialLaw {K : ℕ} (t : ℕ) (L : Measure (Fin K)) : Measure (Fin K → ℕ) := (Measure.pi fun _ : Fin t => L).map counts

/-- The randomness behind one key: a stream of independent uniform numbers. -/
def stream : Measure (ℕ → ℝ) := Measure.infinitePi fun _ => unit

/-- The joint law in which the numbers given out at different keys are independent, whatever the keys. -/
def allIndependent (μ : Measure U) [IsProbabilityMeasure μ] : Measure (PKey → U) := Measure.infinitePi fun _ => μ

/-- `key` without its trailing zeros. -/
def trim (key : PKey) : PKey := key.rdropWhile (· == 0)

/-- The joint law of a generator whose child 0 of a key gives out the same numbers as the key itself, and that is otherwise independent. -/
def firstChildRepeats (μ : Measure U) [IsProbabilityMeasure μ] : Measure (PKey → U) :=
  (allIndependent μ).map fun ω key => ω (trim key)

end

end Distrax.Spec
