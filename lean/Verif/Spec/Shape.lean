import Verif.Model.Shape

/-! Specification side of sampling layout and batching: contracts on what a subclass supplies. -/

namespace Distrax.Spec

open Distrax

/-- A subclass's `_sample_n(key, n)` returns `n` draws stacked on a new leading axis. -/
def StacksDraws {Key : Type} (d : ADist Key) : Prop := ∀ k n, (d.sampleN k n).shape = n :: (d.batch ++ d.event)

/-- `log_prob` acts independently on every event: the entry at batch position `b` of draw `i` is a function
`lp b` of the event entries of draw `i` at `b`. -/
structure ActsPerEvent {Key : Type} (d : ADist Key) (lp : List ℕ → (List ℕ → ℝ) → ℝ) : Prop where
  congr : ∀ b f g, (∀ e, InRange d.event e → f e = g e) → lp b f = lp b g
  act : ∀ (s : List ℕ) (v : Arr), v.shape = s ++ (d.batch ++ d.event) →
    ∃ l, d.logProb v = .ok l ∧ l.shape = s ++ d.batch ∧
      ∀ i b, InRange s i → InRange d.batch b → l.data (i ++ b) = lp b fun e => v.data (i ++ (b ++ e))

end Distrax.Spec

namespace Distrax

/-- An index whose coordinate arrays (if any) lie inside shape `s`. -/
def Index.Ok (s : List ℕ) : Index → Prop
  | .basic _ => True
  | .coords r o c => ∀ i, InRange o i → InRange (s.take r) (c i)
  | .other f => ∀ r, f s = .ok r → ∀ i, InRange r.shape i → InRange s (r.sel i)

end Distrax
