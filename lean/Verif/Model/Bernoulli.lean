import Verif.Model.Categorical

/-! # Bernoulli (distributions/bernoulli.py), one batch element, entries in `XR`. -/

namespace Distrax

open XR

noncomputable section

/-- `jax.nn.sigmoid`. [external; called e.g. at bernoulli.py:52] -/
def XR.sigmoid : XR → XR
  | nan => nan
  | fin a => fin (1 / (1 + Real.exp (-a)))
  | pinf => fin 1
  | ninf => fin 0

/-- `jax.nn.softplus` (`logaddexp(x, 0)`). [external; called e.g. at bernoulli.py:105] -/
def XR.softplus : XR → XR
  | nan => nan
  | fin a => fin (Real.log (1 + Real.exp a))
  | pinf => pinf
  | ninf => fin 0

/-- Class of the `dtype` argument of Bernoulli. [no line of its own; part of the model of bernoulli.py:36-167] -/
inductive BDType where
  | bool
  | integer
  | floating
  | other
  deriving DecidableEq

/-- Attributes of a `Bernoulli` set at bernoulli.py:70-72. -/
structure Bern where
  probs? : Option XR
  logits? : Option XR

namespace Bern

/-- bernoulli.py:44-73 `__init__`. -/
def init (logits probs : Option XR) (dtype : BDType) : Except Err Bern :=
  if logits.isNone = probs.isNone then .error .valueError
  else if ¬(dtype = .bool ∨ dtype = .integer ∨ dtype = .floating) then .error .valueError
  else .ok ⟨probs, logits⟩

/-- bernoulli.py:88-92 `logits`.  (`none, none` is unreachable.) -/
def logits (d : Bern) : XR :=
  match d.logits?, d.probs? with
  | some l, _ => l
  | none, some p => XR.log p - XR.log (1 - p)
  | none, none => nan

/-- bernoulli.py:95-99 `probs`. -/
def probs (d : Bern) : XR :=
  match d.probs?, d.logits? with
  | some p, _ => p
  | none, some l => XR.sigmoid l
  | none, none => nan

/-- bernoulli.py:101-106 `_log_probs_parameter`. -/
def logProbsParameter (d : Bern) : XR × XR :=
  match d.logits?, d.probs? with
  | none, some p => (XR.log1p (fin (-1) * p), XR.log p)
  | some l, _ => (-XR.softplus l, -XR.softplus (fin (-1) * l))
  | none, none => (nan, nan)

open Classical in
/-- bernoulli.py:108-114 `_sample_n`, one draw from the uniform number `u`. -/
def sample (d : Bern) (u : ℝ) : ℕ := if ltB (fin u) d.probs then 1 else 0

/-- bernoulli.py:116-120 `log_prob`. -/
def logProb (d : Bern) (v : XR) : XR :=
  multiplyNoNan d.logProbsParameter.1 (1 - v) + multiplyNoNan d.logProbsParameter.2 v

/-- bernoulli.py:122-127 `prob`. -/
def prob (d : Bern) (v : XR) : XR :=
  let probs1 := d.probs
  let probs0 := 1 - probs1
  multiplyNoNan probs0 (1 - v) + multiplyNoNan probs1 v

/-- bernoulli.py:129-136 `cdf`. -/
def cdf (d : Bern) (v : XR) : XR := XR.sel (ltB v 0) (fin 0) (XR.sel (leB 1 v) (fin 1) (1 - d.probs))

/-- bernoulli.py:138-140 `log_cdf`. -/
def logCdf (d : Bern) (v : XR) : XR := XR.log (d.cdf v)

/-- bernoulli.py:170-185 `_probs_and_log_probs`: `(probs0, probs1, log_probs0, log_probs1)`. -/
def probsAndLogProbs (d : Bern) : XR × XR × XR × XR :=
  match d.logits?, d.probs? with
  | none, some p =>
    let probs0 := 1 - p
    (probs0, 1 - probs0, XR.log1p (fin (-1) * p), XR.log p)
  | some l, _ => (XR.sigmoid (fin (-1) * l), XR.sigmoid l, -XR.softplus l, -XR.softplus (fin (-1) * l))
  | none, none => (nan, nan, nan, nan)

/-- bernoulli.py:142-148 `entropy`. -/
def entropy (d : Bern) : XR :=
  let (p0, p1, l0, l1) := d.probsAndLogProbs
  fin (-1) * (multiplyNoNan l0 p0 + multiplyNoNan l1 p1)

/-- bernoulli.py:150-152 `mean`. -/
def mean (d : Bern) : XR := d.probs

/-- bernoulli.py:154-156 `variance`. -/
def variance (d : Bern) : XR := (1 - d.probs) * d.probs

open Classical in
/-- bernoulli.py:158-160 `mode`. -/
def mode (d : Bern) : ℕ := if ltB (fin (1/2)) d.probs then 1 else 0

/-- bernoulli.py:188-211 `_kl_divergence_bernoulli_bernoulli`. -/
def kl (d1 d2 : Bern) : XR :=
  let (p0, p1, l0, l1) := d1.probsAndLogProbs
  let (_, _, m0, m1) := d2.probsAndLogProbs
  multiplyNoNan l1 p1 - multiplyNoNan m1 p1 + multiplyNoNan l0 p0 - multiplyNoNan m0 p0

end Bern

end

end Distrax
