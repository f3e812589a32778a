import Verif.Model.VecArr
import Verif.Spec.FamArr
import Verif.Spec.Jacobian

/-! What it means for an array method to act row by row. -/

namespace Distrax.Spec

open Distrax

/-- The row (of length `K`) of `a` that numpy's broadcasting reads for batch position `i`. -/
def brow {α : Type} (a : BArr α) (K : ℕ) (i : List ℕ) : Fin K → α := fun k => bget a (i ++ [(k : ℕ)])

/-- The event block (of shape `e`) of `a` that numpy's broadcasting reads for batch position `i`. -/
def bblock {α : Type} (a : BArr α) (e : List ℕ) (i : List ℕ) : Idx e → α := fun k => bget a (i ++ k.1)

/-- The expression evaluates to an array of shape `t + (K,)` whose row at every batch position `i` is `f i`. -/
def PerRow {α : Type} (x : AE α) (t : List ℕ) (K : ℕ) (f : List ℕ → Fin K → α) : Prop :=
  ∃ a : BArr α, x = AE.arr a ∧ a.shape = t ++ [K] ∧ ∀ i, InRange t i → ∀ k : Fin K, a.data (i ++ [(k : ℕ)]) = f i k

/-- The expression evaluates to an array of shape `t + (K, K)` whose matrix at every batch position `i` is `f i`. -/
def PerMatrix {α : Type} (x : AE α) (t : List ℕ) (K : ℕ) (f : List ℕ → Fin K → Fin K → α) : Prop :=
  ∃ a : BArr α, x = AE.arr a ∧ a.shape = t ++ [K, K] ∧
    ∀ i, InRange t i → ∀ j k : Fin K, a.data (i ++ [(j : ℕ), (k : ℕ)]) = f i j k

/-- The expression evaluates to an array of shape `t + e` whose event block at every batch position `i` is `f i`. -/
def PerEvent {α : Type} (x : AE α) (t e : List ℕ) (f : List ℕ → Idx e → α) : Prop :=
  ∃ a : BArr α, x = AE.arr a ∧ a.shape = t ++ e ∧ ∀ i, InRange t i → ∀ k : Idx e, a.data (i ++ k.1) = f i k

/-- A components distribution whose methods act entry by entry: `lp j`, `mu j`, `var j` are the log-probability, the mean
and the variance of batch entry `j`. -/
structure RowWise (c : CompA) (lp : List ℕ → (Idx c.event → ℝ) → XR) (mu var : List ℕ → Idx c.event → ℝ) : Prop where
  /-- for every value whose batch part broadcasts, each entry sees its own parameters and its own event -/
  logProb : ∀ (v : BArr ℝ) (u t : List ℕ), v.shape = u ++ c.event → broadcastShapes c.batch u = some t →
    PerEntry (c.logProb (.arr v)) t fun i => lp (proj c.batch i) (bblock v c.event i)
  mean : PerEvent c.mean c.batch c.event fun i k => .fin (mu i k)
  variance : PerEvent c.variance c.batch c.event fun i k => .fin (var i k)

/-- The mixture of one batch position: the weights of the mixture's row and the component entries of that row. -/
noncomputable def mixRow {K : ℕ} (mix : Cat K) {E : List ℕ} (lp : List ℕ → (Idx E → ℝ) → XR) (mu var : List ℕ → Idx E → ℝ)
    (i : List ℕ) : MixtureSameFamily K (Idx E → ℝ) (Idx E) :=
  MixtureSameFamily.init mix.logits (fun k => lp (i ++ [(k : ℕ)])) (fun k => mu (i ++ [(k : ℕ)]))
    fun k => var (i ++ [(k : ℕ)])

/-- Every method of a batched (one-hot) categorical distribution is, at each batch position `i`, that of the single-row
distribution `rows i` on the value that broadcasting assigns to `i`. -/
structure CatRowwise (d : CatA) (B : List ℕ) (K : ℕ) (rows : List ℕ → Cat K) : Prop where
  numCategories : d.numCategories = K
  batchShape : d.batchShape = B
  logits : PerRow d.logits B K fun i => (rows i).logits
  probs : PerRow d.probs B K fun i => (rows i).probs
  entropy : PerEntry d.entropy B fun i => (rows i).entropy
  logProb : ∀ (v : BArr XR) (t : List ℕ), broadcastShapes B v.shape = some t →
    PerEntry (d.logProb (.arr v)) t fun i => (rows i).logProb (bget v i)
  prob : ∀ (v : BArr XR) (t : List ℕ), broadcastShapes B v.shape = some t →
    PerEntry (d.prob (.arr v)) t fun i => (rows i).prob (bget v i)
  cdf : ∀ (v : BArr XR) (t : List ℕ), broadcastShapes B v.shape = some t →
    PerEntry (d.cdf (.arr v)) t fun i => (rows i).cdf (bget v i)
  logCdf : ∀ (v : BArr XR) (t : List ℕ), broadcastShapes B v.shape = some t →
    PerEntry (d.logCdf (.arr v)) t fun i => (rows i).logCdf (bget v i)
  ohLogProb : ∀ (v : BArr XR) (u t : List ℕ), v.shape = u ++ [K] → broadcastShapes B u = some t →
    PerEntry (d.ohLogProb (.arr v)) t fun i => (rows i).ohLogProb (brow v K i)
  ohProb : ∀ (v : BArr XR) (u t : List ℕ), v.shape = u ++ [K] → broadcastShapes B u = some t →
    PerEntry (d.ohProb (.arr v)) t fun i => (rows i).ohProb (brow v K i)
  ohCdf : ∀ (v : BArr XR) (u t : List ℕ), v.shape = u ++ [K] → broadcastShapes B u = some t →
    PerEntry (d.ohCdf (.arr v)) t fun i => (rows i).ohCdf (brow v K i)
  /-- `mode` and samples (from the Gumbel noise array of shape `(n,) + B + (K,)`), for at least one category -/
  mode : ∀ m (hm : K = m + 1), PerEntry d.mode B fun i => ((hm ▸ rows i : Cat (m + 1)).mode : ℕ)
  ohMode : ∀ m (hm : K = m + 1), PerRow d.ohMode B (m + 1) fun i => (hm ▸ rows i : Cat (m + 1)).ohMode
  sample : ∀ m (hm : K = m + 1) (n : ℕ) (g : BArr ℝ), g.shape = n :: (B ++ [K]) →
    PerEntry (d.sampleN ((AE.arr g).map .fin)) (n :: B) fun i => (hm ▸ rows i : Cat (m + 1)).sample (brow g (m + 1) i)
  ohSample : ∀ m (hm : K = m + 1) (n : ℕ) (g : BArr ℝ), g.shape = n :: (B ++ [K]) →
    PerRow (d.ohSampleN ((AE.arr g).map .fin)) (n :: B) (m + 1)
      fun i => (hm ▸ rows i : Cat (m + 1)).ohSample (brow g (m + 1) i)

end Distrax.Spec
