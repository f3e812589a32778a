import Verif.Model.Conversion
import Verif.Spec.Wrapper

/-! Specification side of the conversions. -/

namespace Distrax.Spec

open Distrax

variable {K : Type}

/-- Two distributions cannot be told apart by the listed methods, for any argument. -/
structure SameDist (prngKey : ℤ → K) (d e : DistC K) : Prop where
  batch : d.batch = e.batch
  event : d.event = e.event
  sample : ∀ seed ss, SameArr (d.sample prngKey seed ss) (e.sample prngKey seed ss)
  sampleAndLogProb : ∀ seed ss, SamePair (d.sampleAndLogProb prngKey seed ss) (e.sampleAndLogProb prngKey seed ss)
  logProb : ∀ v, d.logProb v = e.logProb v
  prob : ∀ v, d.prob v = e.prob v
  logCdf : ∀ v, d.logCdf v = e.logCdf v
  cdf : ∀ v, d.cdf v = e.cdf v
  entropy : d.entropy = e.entropy
  mean : d.mean = e.mean
  median : d.median = e.median
  variance : d.variance = e.variance
  stddev : d.stddev = e.stddev
  mode : d.mode = e.mode

/-- What every Distrax distribution promises about sampling: `_sample_n(key, n)` has shape `(n,) + batch + event`; an
overriding `sample` returns what the base class's would (draw `prod(sample_shape)` samples and split the leading axis);
`log_prob` depends on the entries of its argument only. -/
structure Coherent (prngKey : ℤ → K) (d : DistC K) : Prop where
  shape : ∀ k n a, d.sampleN k n = .ok a → a.shape = n :: (d.batch ++ d.event)
  sample : ∀ seed ss, SameArr (d.sample prngKey seed ss) (({ d with sample? := none } : DistC K).sample prngKey seed ss)
  logProb : ∀ a b : Arr, a.Eqv b → SameArr (d.logProb a) (d.logProb b)

/-- TFP's promise about sampling: a sample of shape `S` is `prod(S)` samples with the leading axis split. -/
def TfpSamples (t : TfpD K) : Prop :=
  ∀ k S, SameArr (t.sample k S) (t.sample k [S.prod] >>= fun a => a.reshape (S ++ a.shape.drop 1))

end Distrax.Spec
