import Verif.Model.WrapArr
import Verif.Spec.VecArr

/-! What it means for a wrapped distribution to act entry by entry. -/

namespace Distrax.Spec

open Distrax

/-- For every value array that broadcasts with the batch shape `B`, the method `m` returns an array of the broadcast shape
whose entry at `i` is `g j x`: `j` is the batch entry and `x` the value that broadcasting assigns to `i`. -/
def ValueMethod {α : Type} (B : List ℕ) (m : AE ℝ → AE α) (g : List ℕ → ℝ → α) : Prop :=
  ∀ (v : BArr ℝ) (t : List ℕ), broadcastShapes B v.shape = some t →
    PerEntry (m (.arr v)) t fun i => g (proj B i) (bget v i)

/-- A base distribution whose methods act entry by entry: `base j` is batch entry `j`. -/
structure EntryWise (b : BaseA) (base : List ℕ → Base) : Prop where
  logProb : ValueMethod b.batch b.logProb fun j => (base j).logProb
  cdf : ValueMethod b.batch b.cdf fun j => (base j).cdf
  survival : ValueMethod b.batch b.survival fun j => (base j).survival
  logCdf : ValueMethod b.batch b.logCdf fun j => (base j).logCdf
  logSurvival : ValueMethod b.batch b.logSurvival fun j => (base j).logSurvival

/-- The optional parameter of batch entry `j` (a parameter array broadcast over the batch). -/
def optAt (a : Option (BArr ℝ)) (j : List ℕ) : Option ℝ := a.map fun a => bget a j

end Distrax.Spec
