import Verif.Model.FamArr
import Verif.Model.Categorical
import Verif.Model.Multinomial
import Verif.Model.Mixture

/-!
# The vector-parameter families and the mixtures on whole arrays

The methods of categorical.py, one_hot_categorical.py, greedy.py, epsilon_greedy.py, softmax.py, multinomial.py,
dirichlet.py, mixture_same_family.py and mixture_of_two.py as the array expressions they are in the source: which axis is
reduced, where `keepdims` or `[..., None]` or `expand_dims` inserts an axis, which stored attribute is read and what is
broadcast against what.  The per-row definitions of `Model/Categorical` and the others are not used, except for
externals that act on the last axis of an array (`log_softmax`, `softmax`, `cumsum`, `argmax`, `logsumexp`).
-/

namespace Distrax

open XR

noncomputable section

namespace AE
variable {α β γ : Type}

/-- The row of an array of shape `s + (K,)` at batch index `i`. [no line of its own; part of the model of categorical.py:33-159] -/
def lastRow (a : BArr α) (K : ℕ) (i : List ℕ) : Fin K → α := fun k => a.data (i ++ [(k : ℕ)])

/-- A reduction over `axis=-1` (`sum`, `all`, `logsumexp`). jax raises for a rank-0 operand.
[no line of its own; part of the model of categorical.py:33-159] -/
def reduceLast (f : ∀ K, (Fin K → α) → β) : AE α → AE β
  | .error e => Except.error e
  | .ok a => match a.shape.getLast? with
    | none => Except.error .valueError
    | some K => Except.ok ⟨a.shape.dropLast, fun i => f K (lastRow a K i)⟩

/-- A reduction over `axis=-1` with `keepdims=True`. [no line of its own; part of the model of categorical.py:33-159] -/
def keepLast (f : ∀ K, (Fin K → α) → β) : AE α → AE β
  | .error e => Except.error e
  | .ok a => match a.shape.getLast? with
    | none => Except.error .valueError
    | some K => Except.ok ⟨a.shape.dropLast ++ [1], fun i => f K (lastRow a K i.dropLast)⟩

/-- A function of the last axis that keeps the shape (`log_softmax`, `softmax`, `cumsum`).
[no line of its own; part of the model of categorical.py:33-159] -/
def mapLast [Zero β] (f : ∀ K, (Fin K → α) → Fin K → β) : AE α → AE β
  | .error e => Except.error e
  | .ok a => match a.shape.getLast? with
    | none => Except.error .valueError
    | some K => Except.ok ⟨a.shape, fun i =>
        if h : i.getLast?.getD 0 < K then f K (lastRow a K i.dropLast) ⟨i.getLast?.getD 0, h⟩ else 0⟩

/-- `jnp.argmax(x, axis=-1)` (raises for an empty axis). [external; called e.g. at categorical.py:128] -/
def argmaxLast : AE XR → AE ℕ
  | .error e => Except.error e
  | .ok a => match a.shape.getLast? with
    | none => Except.error .valueError
    | some 0 => Except.error .valueError
    | some (K + 1) => Except.ok ⟨a.shape.dropLast, fun i => (argmaxIdx (lastRow a (K + 1) i) : ℕ)⟩

/-- `jax.nn.one_hot(x, K)`: a new last axis, compared with `arange(K)`. [external; called e.g. at categorical.py:103] -/
def oneHotLast (K : ℕ) : AE XR → AE XR
  | .error e => Except.error e
  | .ok a => Except.ok ⟨a.shape ++ [K], fun i => XR.sel (eqB (a.data i.dropLast) (fin ((i.getLast?.getD 0 : ℕ) : ℝ))) 1 0⟩

/-- `jnp.expand_dims(x, axis=-1-e)`: a new axis of size 1 in front of the last `e` axes (`x[..., None]` for `e = 0`).
[external; called e.g. at dirichlet.py:148] -/
def expandAt (e : ℕ) : AE α → AE α
  | .error e => Except.error e
  | .ok a => if e ≤ a.shape.length then
      Except.ok ⟨a.shape.take (a.shape.length - e) ++ 1 :: a.shape.drop (a.shape.length - e),
        fun i => a.data (i.take (a.shape.length - e) ++ i.drop (a.shape.length - e + 1))⟩
    else Except.error .valueError

/-- `x.reshape(x.shape + (1,) * e)`. [no line of its own; part of the model of categorical.py:33-159] -/
def padRight (e : ℕ) : AE α → AE α
  | .error e => Except.error e
  | .ok a => Except.ok ⟨a.shape ++ List.replicate e 1, fun i => a.data (i.take a.shape.length)⟩

/-- `jnp.sum(x, axis=-1-e)`. [external; called e.g. at categorical.py:109] -/
def sumAt [AddCommMonoid α] (e : ℕ) : AE α → AE α
  | .error e => Except.error e
  | .ok a => if e < a.shape.length then
      let r := a.shape.length - 1 - e
      Except.ok ⟨a.shape.take r ++ a.shape.drop (r + 1),
        fun i => ∑ k : Fin (a.shape.getD r 0), a.data (i.take r ++ (k : ℕ) :: i.drop r)⟩
    else Except.error .valueError

/-- `jnp.vectorize(jnp.diag, signature='(k)->(k,k)')`. [external; called e.g. at multinomial.py:190] -/
def diagLast [Zero α] : AE α → AE α
  | .error e => Except.error e
  | .ok a => match a.shape.getLast? with
    | none => Except.error .valueError
    | some K => Except.ok ⟨a.shape ++ [K], fun i =>
        if i.dropLast.getLast?.getD 0 = i.getLast?.getD 0 then a.data i.dropLast else 0⟩

/-- `jnp.sum(x, axis=-1)`. [external; called e.g. at categorical.py:109] -/
def sumLast [AddCommMonoid α] : AE α → AE α := reduceLast fun _ r => ∑ k, r k
/-- `jnp.sum(x, axis=-1, keepdims=True)`. [external; called e.g. at categorical.py:109] -/
def sumKeep [AddCommMonoid α] : AE α → AE α := keepLast fun _ r => ∑ k, r k
/-- `jnp.max(x, axis=-1, keepdims=True)`. [external; called e.g. at epsilon_greedy.py:30] -/
def maxKeep : AE XR → AE XR := keepLast fun _ r => rowMax r
/-- `jax.nn.log_softmax(x, axis=-1)`. [external; called e.g. at categorical.py:122] -/
def logSoftmaxA : AE XR → AE XR := mapLast fun _ r => logSoftmax r
/-- `jax.nn.softmax(x, axis=-1)`. [external; called e.g. at categorical.py:83] -/
def softmaxA : AE XR → AE XR := mapLast fun _ r => xsoftmax r
/-- `jnp.cumsum(x, axis=-1)`. [external; called e.g. at categorical.py:143] -/
def cumsumA : AE XR → AE XR := mapLast fun _ r => xcumsum r
/-- `jax.scipy.special.logsumexp(x, axis=-1)`. [external; called e.g. at mixture_same_family.py:124] -/
def logsumexpA : AE XR → AE XR := reduceLast fun _ r => logsumexp r
/-- utils/math.py:30-46 `multiply_no_nan`. -/
def mulNoNan : AE XR → AE XR → AE XR := bin multiplyNoNan
/-- utils/math.py:114-129 `mul_exp`. -/
def mulExpA : AE XR → AE XR → AE XR := bin mulExp
/-- The shape of an expression's value (`x.shape`). [no line of its own; part of the model of categorical.py:33-159] -/
def shape : AE α → List ℕ
  | .ok a => a.shape
  | .error _ => []

end AE

open AE

/-- utils/math.py:132-140 `normalize` (exactly one of the two is given). -/
def normalizeA (probs logits : Option (AE XR)) : AE XR :=
  match logits, probs with
  | some l, _ => l.logSoftmaxA
  | none, some p => p / p.sumKeep
  | none, none => Except.error .typeError

/-! ### categorical.py -/

/-- Attributes of a `Categorical` set at categorical.py:62-64. -/
structure CatA where
  probs? : Option (BArr XR)
  logits? : Option (BArr XR)

namespace CatA

/-- categorical.py:38-64 `Categorical.__init__`. -/
def init (logits probs : Option (AE XR)) (dtype : DType) : Except Err CatA :=
  if logits.isNone = probs.isNone then .error .valueError
  else if ¬(dtype = .integer ∨ dtype = .floating) then .error .valueError
  else match logits, probs with
    | _, some p => match normalizeA (some p) none with
      | .ok a => .ok ⟨some a, none⟩
      | .error e => .error e
    | some l, none => match normalizeA none (some l) with
      | .ok a => .ok ⟨none, some a⟩
      | .error e => .error e
    | none, none => .error .valueError

variable (d : CatA)

/-- categorical.py:72-76 `logits`. -/
def logits : AE XR :=
  match d.logits?, d.probs? with
  | some l, _ => arr l
  | none, some p => (arr p).map XR.log
  | none, none => Except.error .typeError

/-- categorical.py:79-83 `probs`. -/
def probs : AE XR :=
  match d.probs?, d.logits? with
  | some p, _ => arr p
  | none, some l => (arr l).softmaxA
  | none, none => Except.error .typeError

/-- categorical.py:85-90 `num_categories`. -/
def numCategories : ℕ :=
  match d.probs?, d.logits? with
  | some p, _ => p.shape.getLast?.getD 0
  | none, some l => l.shape.getLast?.getD 0
  | none, none => 0

/-- distribution.py:`batch_shape` of a Categorical: the shape of a sample without its sample axes, i.e.
`logits.shape[:-1]`. -/
def batchShape : List ℕ := d.logits.shape.dropLast

/-- categorical.py:92-99 `_sample_n`, from the Gumbel noise of shape `new_shape + (K,)`
(`jax.random.categorical(key, logits, -1, shape)` is `argmax(gumbel + logits, -1)`). -/
def sampleN (g : AE XR) : AE ℤ :=
  let isValid : AE Prop := bin And (d.probs.reduceLast fun _ r => ∀ k, isFinite (r k))
    (d.probs.reduceLast fun _ r => ∀ k, leB 0 (r k))
  let draws : AE ℤ := (g + d.logits).argmaxLast.map fun (k : ℕ) => (k : ℤ)
  whr isValid draws (draws.fullLike (-1))

/-- categorical.py:101-109 `log_prob`. -/
def logProb (value : AE XR) : AE XR :=
  let valueOneHot := value.oneHotLast d.numCategories
  let maskOutsideDomain : AE Prop := bin Or (value.map fun v => ltB v 0)
    (value.map fun v => ltB (fin ((d.numCategories : ℝ) - 1)) v)
  whr maskOutsideDomain (scalar ninf) (sumLast (mulNoNan d.logits valueOneHot))

/-- categorical.py:111-115 `prob`. -/
def prob (value : AE XR) : AE XR :=
  let valueOneHot := value.oneHotLast d.numCategories
  sumLast (mulNoNan d.probs valueOneHot)

/-- categorical.py:117-123 `entropy`. -/
def entropy : AE XR :=
  let logProbs : AE XR := match d.logits?, d.probs? with
    | none, some p => (arr p).map XR.log
    | some l, _ => (arr l).logSoftmaxA
    | none, none => Except.error .typeError;
  -sumLast (mulExpA logProbs logProbs)

/-- categorical.py:127, one_hot_categorical.py:82 -/
def parameter : AE XR :=
  match d.logits?, d.probs? with
  | none, some p => arr p
  | some l, _ => arr l
  | none, none => Except.error .typeError

/-- categorical.py:125-128 `mode`. -/
def mode : AE ℕ := d.parameter.argmaxLast

/-- categorical.py:130-144 `cdf`. -/
def cdf (value : AE XR) : AE XR :=
  let K1 : XR := fin ((d.numCategories : ℝ) - 1)
  let shouldBeZero : AE Prop := value.map fun v => ltB v 0
  let shouldBeOne : AE Prop := value.map fun v => leB K1 v
  let value := value.map fun v => Cat.xclip v 0 K1
  let valueOneHot := value.oneHotLast d.numCategories
  let cdf := sumLast (mulNoNan d.probs.cumsumA valueOneHot)
  whr shouldBeZero (scalar 0) (whr shouldBeOne (scalar 1) cdf)

/-- categorical.py:146-148 `log_cdf`. -/
def logCdf (value : AE XR) : AE XR := (d.cdf value).map XR.log

/-- categorical.py:165-200 `_kl_divergence_categorical_categorical`. -/
def kl (d1 d2 : CatA) : AE XR :=
  let logits1 := d1.logits
  let logits2 := d2.logits
  if logits1.shape.getLast?.getD 0 ≠ logits2.shape.getLast?.getD 0 then Except.error .valueError
  else
    let logProbs1 := logits1.logSoftmaxA
    let logProbs2 := logits2.logSoftmaxA
    sumLast (mulExpA (logProbs1 - logProbs2) logProbs1)

/-! ### one_hot_categorical.py -/

/-- one_hot_categorical.py:60-70 `_sample_n`, from the Gumbel noise. -/
def ohSampleN (g : AE XR) : AE XR :=
  let isValid : AE Prop := bin And (d.probs.keepLast fun _ r => ∀ k, isFinite (r k))
    (d.probs.keepLast fun _ r => ∀ k, leB 0 (r k))
  let draws : AE XR := (g + d.logits).argmaxLast.map fun (k : ℕ) => fin (k : ℝ)
  let drawsOneHot := draws.oneHotLast d.numCategories
  whr isValid drawsOneHot (drawsOneHot.fullLike (1 : XR) * scalar (fin (-1)))

/-- one_hot_categorical.py:72-74 `log_prob`. -/
def ohLogProb (value : AE XR) : AE XR := sumLast (mulNoNan d.logits value)

/-- one_hot_categorical.py:76-78 `prob`. -/
def ohProb (value : AE XR) : AE XR := sumLast (mulNoNan d.probs value)

/-- one_hot_categorical.py:80-85 `mode`. -/
def ohMode : AE XR :=
  let greedyIndex : AE XR := d.parameter.argmaxLast.map fun (k : ℕ) => fin (k : ℝ)
  greedyIndex.oneHotLast d.numCategories

/-- one_hot_categorical.py:87-90 `cdf`. -/
def ohCdf (value : AE XR) : AE XR := sumLast (mulNoNan d.probs.cumsumA value)

/-! ### greedy.py, epsilon_greedy.py, softmax.py -/

/-- greedy.py:28-31 (and epsilon_greedy.py:28-31) `_argmax_with_random_tie_breaking`. -/
def tieBreak (preferences : AE XR) : AE XR :=
  let optimalActions : AE XR := bin (fun x m => XR.sel (eqB x m) 1 0) preferences preferences.maxKeep
  optimalActions / optimalActions.sumKeep

/-- greedy.py:42-53 `Greedy.__init__`. -/
def greedy (preferences : BArr XR) (dtype : DType) : Except Err CatA :=
  init none (some (tieBreak (arr preferences))) dtype

/-- epsilon_greedy.py:34-38 `_mix_probs_with_uniform`. -/
def mixUniform (probs : AE XR) (epsilon : XR) : AE XR :=
  let numActions : XR := fin ((probs.shape.getLast?.getD 0 : ℕ) : ℝ)
  let uniformProbs := probs.fullLike (1 : XR) / scalar numActions
  scalar (1 - epsilon) * probs + scalar epsilon * uniformProbs

/-- epsilon_greedy.py:48-63 `EpsilonGreedy.__init__`. -/
def epsilonGreedy (preferences : BArr XR) (epsilon : XR) (dtype : DType) : Except Err CatA :=
  init none (some (mixUniform (tieBreak (arr preferences)) epsilon)) dtype

/-- softmax.py:37-51 `Softmax.__init__`. -/
def softmaxDist (logits : BArr XR) (temperature : XR) (dtype : DType) : Except Err CatA :=
  init (some (arr logits / scalar temperature)) none dtype

end CatA

/-! ### multinomial.py -/

/-- Attributes set at multinomial.py:80-92; `total` is `_total_count`. -/
structure MultA where
  total : BArr ℕ
  cat : CatA
  batch : List ℕ

namespace MultA

/-- multinomial.py:45-92 `__init__`. -/
def init (total : BArr ℕ) (logits probs : Option (BArr XR)) (dtype : DType) : Except Err MultA :=
  if logits.isNone = probs.isNone then .error .valueError
  else if logits.any (fun l => l.shape.getLast?.getD 0 < 2) then .error .valueError
  else if probs.any (fun p => p.shape.getLast?.getD 0 < 2) then .error .valueError
  else match CatA.init (logits.map arr) (probs.map arr) dtype with
    | .error e => .error e
    | .ok c => match broadcastShapes c.parameter.shape.dropLast total.shape with
      | some b => .ok ⟨total, c, b⟩
      | none => .error .valueError

variable (d : MultA)

/-- multinomial.py:94-100 `event_shape` (`shape[-1:]`). -/
def eventShape : List ℕ :=
  match d.cat.logits?, d.cat.probs? with
  | some l, _ => l.shape.drop (l.shape.length - 1)
  | none, some p => p.shape.drop (p.shape.length - 1)
  | none, none => []

/-- `self._total_count` as an array of extended numbers. [multinomial.py:81] -/
def totalX : AE XR := (arr d.total).map fun (n : ℕ) => fin (n : ℝ)

/-- multinomial.py:107-115 `total_count`, `num_trials`. -/
def totalCount : AE ℕ := (arr d.total).broadcastTo d.batch

/-- multinomial.py:118-123 `logits` and multinomial.py:133-141 `log_of_probs` (same code). -/
def logOfProbs : AE XR := d.cat.logits.broadcastTo (d.batch ++ d.eventShape)

/-- multinomial.py:126-131 `probs`. -/
def probs : AE XR := d.cat.probs.broadcastTo (d.batch ++ d.eventShape)

/-- multinomial.py:143-150 `log_prob`. -/
def logProb (value : AE ℝ) : AE XR :=
  let totalPermutations : AE XR := (arr d.total).map fun (n : ℕ) => xlgamma (n + 1)
  let countsFactorial : AE XR := value.map fun v => xlgamma (v + 1)
  let redundantPermutations := countsFactorial.sumLast
  let logCombinations := totalPermutations - redundantPermutations
  logCombinations + sumLast (mulNoNan d.logOfProbs value.ext)

/-- multinomial.py:261-263 `mean`. -/
def mean : AE XR := d.totalX.expandAt 0 * d.probs

/-- multinomial.py:265-268 `variance`. -/
def variance : AE XR := d.totalX.expandAt 0 * d.probs * (scalar 1 - d.probs)

/-- multinomial.py:270-282 `covariance`. -/
def covariance : AE XR :=
  let covMatrix := -((d.totalX.expandAt 0).expandAt 0) * (d.probs.expandAt 1 * d.probs.expandAt 0)
  if covMatrix.shape = d.probs.shape ++ d.eventShape then
    covMatrix + (d.totalX.expandAt 0 * d.probs).diagLast
  else Except.error .assertionError

end MultA

/-! ### dirichlet.py -/

/-- Attributes set at dirichlet.py:60-71. -/
structure DirA where
  concentration : BArr ℝ
  logNormalizationConstant : BArr ℝ

/-- utils/math.py:177-190 `log_beta_multivariate`. -/
def logBetaMultivariateA (a : AE ℝ) : AE ℝ := (a.map lgamma).sumLast - a.sumLast.map lgamma

namespace DirA

/-- dirichlet.py:53-71 `__init__`. -/
def init (concentration : BArr ℝ) : Except Err DirA :=
  if concentration.shape.length < 1 then .error .valueError
  else if concentration.shape.getLast?.getD 0 < 2 then .error .valueError
  else match logBetaMultivariateA (arr concentration) with
    | .ok z => .ok ⟨concentration, z⟩
    | .error e => .error e

variable (d : DirA)

/-- `self._concentration`. [dirichlet.py:62] -/
def c : AE ℝ := arr d.concentration
/-- `self._log_normalization_constant`. [dirichlet.py:70] -/
def z : AE ℝ := arr d.logNormalizationConstant

/-- dirichlet.py:96-99 `log_prob`. -/
def logProb (value : AE ℝ) : AE XR := sumLast ((d.c - scalar 1).ext * value.xlog) - d.z.ext

/-- dirichlet.py:101-110 `entropy`. -/
def entropy : AE ℝ :=
  let sumConcentration := d.c.sumLast
  d.z + (sumConcentration - scalar ((d.concentration.shape.getLast?.getD 0 : ℕ) : ℝ)) * sumConcentration.map digamma
    - sumLast ((d.c - scalar 1) * d.c.map digamma)

/-- dirichlet.py:112-115 `mean`. -/
def mean : AE ℝ := d.c / d.c.sumKeep

/-- dirichlet.py:117-129 `mode`. -/
def mode : AE XR :=
  let resultIfValid := (d.c - scalar 1) / (d.c - scalar 1).sumKeep
  whr (d.c.keepLast fun _ r => ∀ k, 1 < r k) resultIfValid.ext (scalar nan)

/-- dirichlet.py:131-136 `variance`. -/
def variance : AE ℝ :=
  let sumConcentration := d.c.sumKeep
  let normConcentration := d.c / sumConcentration
  normConcentration * (scalar 1 - normConcentration) / (sumConcentration + scalar 1)

/-- dirichlet.py:138-151 `covariance`. -/
def covariance : AE ℝ :=
  let sumConcentration := d.c.sumKeep
  let normConcentration := d.c / sumConcentration
  let normOverSum := normConcentration / (sumConcentration + scalar 1)
  let cov := -(normOverSum.expandAt 0) * normConcentration.expandAt 1
  cov + normOverSum.diagLast

/-- dirichlet.py:178-206 `_kl_divergence_dirichlet_dirichlet`, from the two arrays `_obtain_concentration` returns. -/
def klOf (concentration1 concentration2 : AE ℝ) : AE ℝ :=
  if concentration1.shape.getLast?.getD 0 ≠ concentration2.shape.getLast?.getD 0 then Except.error .valueError
  else
    let sumConcentration1 := concentration1.sumKeep
    let t1 := logBetaMultivariateA concentration2 - logBetaMultivariateA concentration1
    let t2 := sumLast ((concentration1 - concentration2) * (concentration1.map digamma - sumConcentration1.map digamma))
    t1 + t2

/-- dirichlet.py:178-206 for two Dirichlet distributions. -/
def kl (d1 d2 : DirA) : AE ℝ := klOf d1.c d2.c

/-- `jnp.stack((x, y), axis=-1)` (raises unless the shapes agree). [external; called e.g. at dirichlet.py:167] -/
def stack2 : AE ℝ → AE ℝ → AE ℝ
  | .error e, _ => Except.error e
  | .ok _, .error e => Except.error e
  | .ok a, .ok b => if a.shape = b.shape then
      Except.ok ⟨a.shape ++ [2], fun i => if i.getLast?.getD 0 = 0 then a.data i.dropLast else b.data i.dropLast⟩
    else Except.error .valueError

/-- dirichlet.py:162-175 `_obtain_concentration` of a Beta distribution (`alpha` and `beta` are broadcast to the batch
shape). -/
def ofBeta (b : P2) : AE ℝ := stack2 b.pB b.qB

end DirA

/-! ### mixture_same_family.py and mixture_of_two.py -/

/-- What a mixture uses of its components distribution: batch and event shape and the array methods.
[no line of its own; part of the model of categorical.py:33-159] -/
structure CompA where
  batch : List ℕ
  event : List ℕ
  logProb : AE ℝ → AE XR
  mean : AE XR
  variance : AE XR

/-- `fn(x, axis=[-1, ..., -n])` for `fn = jnp.sum` (independent.py:140-142 `_reduce`); jax rejects axes beyond the rank. -/
def AE.sumLastN (n : ℕ) : AE XR → AE XR
  | .error e => Except.error e
  | .ok a => if n ≤ a.shape.length then
      let r := a.shape.length - n
      Except.ok ⟨a.shape.take r, fun i => ((allIdx (a.shape.drop r)).map fun j => a.data (i ++ j)).sum⟩
    else Except.error .valueError

/-- independent.py:39-72 `__init__`: the number of axes moved to the event. -/
def CompA.reinterpreted (c : CompA) (n : Option ℤ) : Except Err ℕ :=
  match n with
  | some n =>
    if (c.batch.length : ℤ) < n then .error .valueError
    else if n < 0 then .error .valueError
    else .ok n.toNat
  | none => .ok (Max.max ((c.batch.length : ℤ) - 1) 0).toNat

/-- independent.py:39-72 `__init__`, and independent.py:74-142 the shapes and methods. -/
def CompA.independent (c : CompA) (n : Option ℤ) : Except Err CompA :=
  match c.reinterpreted n with
  | .error e => .error e
  | .ok k =>
    .ok { batch := c.batch.take (c.batch.length - k)
          event := c.batch.drop (c.batch.length - k) ++ c.event
          logProb := fun v => (c.logProb v).sumLastN k
          mean := c.mean
          variance := c.variance }

/-- Attributes set at mixture_same_family.py:52-62. -/
structure MixA where
  mix : CatA
  comp : CompA
  mixtureLogProbs : BArr XR

namespace MixA

/-- mixture_same_family.py:42-71 `__init__`. -/
def init (mix : CatA) (comp : CompA) : Except Err MixA :=
  match mix.logits.logSoftmaxA with
  | .error e => .error e
  | .ok w => if mix.batchShape ≠ comp.batch.dropLast then .error .valueError else .ok ⟨mix, comp, w⟩

variable (d : MixA)

/-- mixture_same_family.py:93-114 `_sample_n`, from the mixture's draws (shape `(n,) + B`) and the components' samples
(shape `(n,) + B + (K,) + E`). -/
def sampleN (mixSample : AE XR) (samplesAll : AE XR) : AE XR :=
  let numComponents := d.comp.batch.getLast?.getD 0
  let mask := mixSample.oneHotLast numComponents
  let mask := mask.padRight d.comp.event.length
  (samplesAll * mask).sumAt d.comp.event.length

/-- mixture_same_family.py:116-124 `log_prob`. -/
def logProb (value : AE ℝ) : AE XR :=
  let expanded := value.expandAt d.comp.event.length
  let lp := d.comp.logProb expanded
  logsumexpA (lp + arr d.mixtureLogProbs)

/-- mixture_same_family.py:129-131, 138-140 the weights, broadcastable over the event. -/
def weights : AE XR := ((arr d.mixtureLogProbs).map XR.exp).padRight d.comp.event.length

/-- mixture_same_family.py:126-132 `mean`. -/
def mean : AE XR := (d.comp.mean * d.weights).sumAt d.comp.event.length

/-- mixture_same_family.py:134-150 `variance`. -/
def variance : AE XR :=
  let means := d.comp.mean
  let variances := d.comp.variance
  let weights := d.weights
  let mean := (means * weights).sumAt d.comp.event.length
  let meanCondVar := (weights * variances).sumAt d.comp.event.length
  let sqDiff := (means - mean.expandAt d.comp.event.length).map fun x => x * x
  let varCondMean := (weights * sqDiff).sumAt d.comp.event.length
  meanCondVar + varCondMean

end MixA

/-- Attributes set at mixture_of_two.py:70-72. -/
structure Mix2A where
  probA : ℝ
  compA : CompA
  compB : CompA

namespace Mix2A

/-- mixture_of_two.py:56-72 `__init__` (the dtype check, which components here do not carry, is in `MixtureOfTwo.check`). -/
def init (probA : BArr ℝ) (a b : CompA) : Except Err Mix2A :=
  if probA.shape.length ≠ 0 then .error .assertionError
  else if a.event ≠ b.event then .error .valueError
  else if a.batch ≠ b.batch then .error .valueError
  else .ok ⟨probA.data [], a, b⟩

variable (d : Mix2A)

/-- mixture_of_two.py:74-81 `_sample_n`, from the mask draws (shape `[n]`) and the components' samples. -/
def sampleN (mask : AE Prop) (sampleA sampleB : AE ℝ) : AE ℝ :=
  let mask := mask.padRight (sampleA.ndim - 1)
  whr mask sampleA sampleB

/-- mixture_of_two.py:83-87 `log_prob`. -/
def logProb (value : AE ℝ) : AE XR :=
  let logp1 := scalar (XR.log (fin d.probA)) + d.compA.logProb value
  let logp2 := scalar (XR.log (fin (1 - d.probA))) + d.compB.logProb value
  bin logaddexp logp1 logp2

end Mix2A

end

end Distrax
