import Verif.Model.FamArr

/-! What it means for an array method to act entry by entry. -/

namespace Distrax.Spec

open Distrax

/-- The expression evaluates to an array of shape `s` whose entry at every position `i` of that shape is `f i`. -/
def PerEntry {α : Type} (x : AE α) (s : List ℕ) (f : List ℕ → α) : Prop :=
  ∃ a : BArr α, x = AE.arr a ∧ a.shape = s ∧ ∀ i, InRange s i → a.data i = f i

/-- The entry of `a` that numpy's broadcasting reads for position `i` of a larger array. -/
def bget {α : Type} (a : BArr α) (i : List ℕ) : α := a.data (proj a.shape i)

/-- A method without a `value` argument (`mean`, `entropy`, ...): an array of the batch shape whose entry at `i` is
computed, by `f`, from the two parameters of batch entry `i`. -/
def Summary {α : Type} (d : P2) (x : AE α) (f : ℝ → ℝ → α) : Prop :=
  PerEntry x d.batch fun i => f (bget d.p i) (bget d.q i)

/-- A method with a `value` argument (`log_prob`, `cdf`, ...): for every value array whose shape broadcasts with the batch
shape, an array of the broadcast shape whose entry at `i` is computed, by `f`, from the two parameters and the value
that broadcasting assigns to `i`. -/
def OfValue {α β : Type} (d : P2) (x : AE β → AE α) (f : ℝ → ℝ → β → α) : Prop :=
  ∀ (v : BArr β) (t : List ℕ), broadcastShapes d.batch v.shape = some t →
    PerEntry (x (.arr v)) t fun i => f (bget d.p i) (bget d.q i) (bget v i)

/-- `_sample_n(key, n)` given the noise array the generator returns for shape `(n,) + batch_shape`: an array of that
shape whose entry at `i` is computed, by `f`, from the noise at the same position and the parameters of its batch entry. -/
def OfNoise {α : Type} (d : P2) (x : ℕ → AE ℝ → AE α) (f : ℝ → ℝ → ℝ → α) : Prop :=
  ∀ (n : ℕ) (rnd : BArr ℝ), rnd.shape = n :: d.batch →
    PerEntry (x n (.arr rnd)) (n :: d.batch) fun i => f (bget d.p i) (bget d.q i) (rnd.data i)

/-- A divergence: an array of the broadcast batch shape whose entries are computed, by `f`, from the parameters of the two
entries that broadcasting pairs. -/
def OfPair {α : Type} (x : P2 → P2 → AE α) (f : ℝ → ℝ → ℝ → ℝ → α) : Prop :=
  ∀ (p1 q1 p2 q2 : BArr ℝ) (d1 d2 : P2) (t : List ℕ), P2.init p1 q1 = .ok d1 → P2.init p2 q2 = .ok d2 →
    broadcastShapes d1.batch d2.batch = some t →
    PerEntry (x d1 d2) t fun i => f (bget p1 i) (bget q1 i) (bget p2 i) (bget q2 i)

/-- The weaker guarantee that remains when a method reads only one parameter: the result need not have shape `s`, but it
broadcasts to it, and then the entries are right. -/
def BroadcastsTo {α : Type} (x : AE α) (s : List ℕ) (f : List ℕ → α) : Prop :=
  ∃ a : BArr α, x = AE.arr a ∧ broadcastShapes a.shape s = some s ∧ ∀ i, InRange s i → bget a i = f i

end Distrax.Spec
