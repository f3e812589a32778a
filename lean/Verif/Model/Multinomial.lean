import Verif.Model.Categorical
import Mathlib.Algebra.Order.Round

/-!
# Multinomial (multinomial.py)

One batch element: `total_count` is a natural number and the probabilities are one row of length `K`.
The conversion `jnp.asarray(total_count, dtype=dtype)` is the identity here; batching (`vmap`, `reshape`,
`jnp.vectorize`) is covered by the shape model.
-/

namespace Distrax

open XR

noncomputable section

open Classical in
/-- `lax.lgamma`: `log |Gamma(a)|`, `+inf` at the poles `0, -1, -2, ...`. [external; called e.g. at multinomial.py:145] -/
def xlgamma (a : ℝ) : XR := if ∃ k : ℕ, a = -k then pinf else fin (lgamma a)

/-- Attributes set at multinomial.py:80-92. -/
structure Mult (K : ℕ) where
  total : ℕ
  cat : Cat K

namespace Mult

variable {K : ℕ}

/-- multinomial.py:45-92 `__init__`; `K` is `shape[-1]`.  (A parameter of shape `()` is also rejected by the
same test; here parameters are rows.) -/
def init (total : ℕ) (logits probs : Option (Fin K → XR)) (dtype : DType) : Except Err (Mult K) :=
  if logits.isNone = probs.isNone then .error .valueError
  else if logits.isSome ∧ K < 2 then .error .valueError
  else if probs.isSome ∧ K < 2 then .error .valueError
  else if ¬(dtype = .integer ∨ dtype = .floating) then .error .valueError
  else .ok ⟨total, ⟨probs.map normalizeProbs, logits.map normalizeLogits⟩⟩

/-- multinomial.py:118-123 `logits` and multinomial.py:133-141 `log_of_probs` (same code). -/
def logOfProbs (d : Mult K) : Fin K → XR := d.cat.logits

/-- multinomial.py:126-131 `probs`. -/
def probs (d : Mult K) : Fin K → XR := d.cat.probs

/-- multinomial.py:112-115 `num_trials`. -/
def numTrials (d : Mult K) : ℕ := d.total

/-- multinomial.py:143-150 `log_prob`; the entries of `value` are arbitrary reals. -/
def logProb (d : Mult K) (value : Fin K → ℝ) : XR :=
  let totalPermutations := xlgamma (d.total + 1)
  let redundantPermutations := ∑ i, xlgamma (value i + 1)
  let logCombinations := totalPermutations - redundantPermutations
  logCombinations + ∑ i, multiplyNoNan (d.logOfProbs i) (fin (value i))

/-- multinomial.py:164-181 the `lax.while_loop` of `_sample_n_scalar`, one draw; `draw i` is the category
drawn in iteration `i`. -/
def sampleLoop (total : ℕ) (draw : ℕ → Fin K) (i : ℕ) (agg : Fin K → ℝ) : Fin K → ℝ :=
  if i < total then sampleLoop total draw (i + 1) (fun k => agg k + if draw i = k then 1 else 0)
  else agg
termination_by total - i

/-- multinomial.py:152-181 `_sample_n`; `g i` is the Gumbel noise of iteration `i`
(`jax.random.categorical` is `argmax(gumbel + logits)`). -/
def sample {K : ℕ} (d : Mult (K + 1)) (g : ℕ → Fin (K + 1) → ℝ) : Fin (K + 1) → ℝ :=
  sampleLoop d.total (fun i => argmaxIdx fun k => fin (g i k) + d.cat.logits k) 0 fun _ => 0

/-- `jnp.round` (only ever applied to values that are integers in exact arithmetic). [external; called e.g. at multinomial.py:207] -/
def xround : XR → XR
  | fin a => fin (round a : ℤ)
  | x => x

/-- multinomial.py:238-250 the body of the `lax.while_loop` of `_entropy_scalar_with_lax`. -/
def combTerm (total : ℕ) (probs : Fin K → XR) (xi : ℕ) : Fin K → XR :=
  let logNFactorial := xlgamma (total + 1)
  let logXiFactorial := xlgamma (xi + 1)
  let logCombNXi := logNFactorial - logXiFactorial - xlgamma (total - xi + 1)
  let combNXi := xround (XR.exp logCombNXi)
  fun k =>
    let likelihood1 := powerNoNan (probs k) (fin xi)
    let likelihood2 := powerNoNan (1 - probs k) (fin ((total : ℝ) - xi))
    let likelihood := likelihood1 * likelihood2
    combNXi * logXiFactorial * likelihood

/-- multinomial.py:234-254 the loop itself. -/
def entropyLoop (total : ℕ) (probs : Fin K → XR) (xi : ℕ) (acc : Fin K → XR) : Fin K → XR :=
  if xi ≤ total then entropyLoop total probs (xi + 1) (fun k => acc k + combTerm total probs xi k) else acc
termination_by total + 1 - xi

/-- multinomial.py:183-192, 238-273 `entropy` via `_entropy_scalar_with_lax`. -/
def entropy (d : Mult K) : XR :=
  let logNFactorial := xlgamma (d.total + 1)
  let comb := ∑ k, entropyLoop d.total d.probs 0 (fun _ => 0) k
  let nProbsFactor := ∑ k, fin d.total * multiplyNoNan (d.logOfProbs k) (d.probs k);
  -logNFactorial - nProbsFactor + comb

/-- multinomial.py:195-223 `_entropy_scalar` (the non-lax variant, with arrays over `xi`). -/
def entropyScalar (d : Mult K) : XR :=
  let n := d.total
  let logXiFactorial : Fin (n + 1) → XR := fun x => xlgamma (x + 1)
  let logNMinusXiFactorial : Fin (n + 1) → XR := fun x => logXiFactorial x.rev
  let logNFactorial := logXiFactorial (Fin.last n)
  let combNXi : Fin (n + 1) → XR := fun x =>
    xround (XR.exp (logNFactorial - logXiFactorial x - logNMinusXiFactorial x))
  let likelihood : Fin (n + 1) → XR := fun x =>
    ∑ k, powerNoNan (d.probs k) (fin (x : ℕ)) * powerNoNan (1 - d.probs k) (fin ((n : ℝ) - (x : ℕ)))
  let comb := ∑ x, combNXi x * logXiFactorial x * likelihood x
  let nProbsFactor := ∑ k, fin n * multiplyNoNan (d.logOfProbs k) (d.probs k);
  -logNFactorial - nProbsFactor + comb

/-- multinomial.py:261-263 `mean`. -/
def mean (d : Mult K) : Fin K → XR := fun k => fin d.total * d.probs k

/-- multinomial.py:265-268 `variance`. -/
def variance (d : Mult K) : Fin K → XR := fun k => fin d.total * d.probs k * (1 - d.probs k)

/-- multinomial.py:270-280 `covariance`. -/
def covariance (d : Mult K) (i j : Fin K) : XR :=
  -fin d.total * (d.probs j * d.probs i) + if i = j then fin d.total * d.probs i else 0

end Mult

end

end Distrax
