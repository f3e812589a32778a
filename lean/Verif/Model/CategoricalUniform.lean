import Verif.Model.Mixture
import Verif.Model.Continuous

/-!
# distributions/categorical_uniform.py

One batch entry with `K` bins.
-/

namespace Distrax

open XR

noncomputable section

/-- `jnp.minimum` (propagates nan) [external; called e.g. at categorical_uniform.py:138] -/
def XR.min (a b : XR) : XR :=
  match a, b with
  | nan, _ => nan
  | _, nan => nan
  | a, b => XR.sel (ltB b a) b a

/-- `jax.nn.relu`. [external; called e.g. at categorical_uniform.py:140] -/
def XR.relu (a : XR) : XR := XR.max a 0

/-- categorical_uniform.py:48-72 -/
structure CatUniform (K : ℕ) where
  low : ℝ
  high : ℝ
  logits : Fin K → XR

namespace CatUniform

/-- categorical_uniform.py:70-72: scalar logits are rejected. -/
def check (logitsShape : List ℕ) : Except Err Unit := if logitsShape.length < 1 then .error .valueError else .ok ()

variable {K : ℕ} (d : CatUniform K)

/-- categorical_uniform.py:115-117 `_get_category_limits`: `jnp.linspace(low, high, K + 1)` -/
def limits (i : ℕ) : ℝ := d.low * (1 - i / K) + d.high * (i / K)

/-- categorical_uniform.py:123-124: the component `k`, `Uniform(limits[k], limits[k+1])` -/
def comp (k : Fin K) : Uniform := ⟨d.limits k, d.limits (k + 1)⟩

/-- categorical_uniform.py:125: `Categorical(logits=self.logits)` (categorical.py:62-64 normalises) -/
def cat : Cat K := ⟨none, some (normalizeLogits d.logits)⟩

/-- categorical_uniform.py:119-126 `_get_mixture` -/
def mixture : MixtureSameFamily K ℝ Unit :=
  MixtureSameFamily.init d.cat.logits (fun k x => (d.comp k).logProb x) (fun k _ => (d.comp k).mean)
    (fun k _ => (d.comp k).variance)

/-- categorical_uniform.py:90-92 `log_prob` -/
def logProb (x : ℝ) : XR := d.mixture.logProb x

/-- categorical_uniform.py:94-99 `entropy` -/
def entropy : XR := d.cat.entropy + XR.log (fin ((d.high - d.low) / K))

/-- categorical_uniform.py:101-103 `mean` -/
def mean : XR := d.mixture.mean ()

/-- categorical_uniform.py:105-107 `variance` -/
def variance : XR := d.mixture.variance ()

/-- categorical_uniform.py:132-133 `quantile_limits` -/
def quantileLimits : Fin (K + 1) → XR := Fin.cons 0 (xcumsum (xsoftmax d.logits))

/-- categorical_uniform.py:128-142 `_inverse_cdf` -/
def inverseCdf (quantile : ℝ) : XR :=
  let domainDiff := fun k : Fin K => d.limits (k + 1) - d.limits k
  let quantileDiff := fun k : Fin K => d.quantileLimits k.succ - d.quantileLimits k.castSucc
  let slopes := fun k => fin (domainDiff k) / quantileDiff k
  let quantileContributions := fun k : Fin K =>
    XR.min (quantileDiff k) (XR.relu (fin quantile - d.quantileLimits k.castSucc))
  fin d.low + ∑ k, slopes k * quantileContributions k

/-- categorical_uniform.py:85-88 `_sample_n`, one uniform draw. -/
def sample (u : ℝ) : XR := d.inverseCdf u

/-- categorical_uniform.py:109-113 `__getitem__` on one entry. -/
def getItem : CatUniform K := ⟨d.low, d.high, d.logits⟩

end CatUniform

end

end Distrax
