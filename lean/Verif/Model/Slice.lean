import Verif.Model.Shape
import Verif.Model.Multinomial
import Verif.Model.Bernoulli
import Verif.Model.CategoricalUniform
import Verif.Model.Quantized

/-!
# `__getitem__` of the batched distributions

categorical.py:154-159, one_hot_categorical.py:92-97, bernoulli.py:162-167, multinomial.py:282-290, dirichlet.py:153-156,
greedy.py:60-64, epsilon_greedy.py:75-81, softmax.py:63-69, categorical_uniform.py:109-113, independent.py:145-150,
mixture_same_family.py:152-157, mixture_of_two.py:105-111, clipped.py:117-123.

An array of shape `batch + (K,)` is seen as an array of shape `batch` whose entries are rows: the indices used here (the output
of `to_batch_shape_index`) only touch the batch axes (`C19_index_batch_axes` proves this for plain arrays).
-/

namespace Distrax

noncomputable section

/-- An array of shape `shape` with entries in `α` (`α` is a row, a scalar, ...).
[part of the model of slicing, distribution.py:302-309 and the `__getitem__` of each class] -/
structure BArr (α : Type) where
  shape : List ℕ
  data : List ℕ → α

namespace BArr
variable {α β : Type}

/-- `a[index]`, as `Arr.index`. [part of the model of slicing, distribution.py:302-309 and the `__getitem__` of each class] -/
def index (a : BArr α) (idx : Index) : Except Err (BArr α) := do
  let r ← npSelect a.shape idx
  return ⟨r.shape, fun i => a.data (r.sel i)⟩

/-- `jnp.broadcast_to` on the batch axes, as `Arr.broadcastTo`. [external; called e.g. at normal.py:66] -/
def broadcastTo (a : BArr α) (t : List ℕ) : Except Err (BArr α) :=
  if broadcastShapes a.shape t = some t then .ok ⟨t, fun i => a.data (proj a.shape i)⟩
  else .error .valueError

/-- Entrywise (or row-wise) function. [part of the model of slicing, distribution.py:302-309 and the `__getitem__` of each class] -/
def map (f : α → β) (a : BArr α) : BArr β := ⟨a.shape, fun i => f (a.data i)⟩

end BArr

/-- The methods involved in slicing: `batch_shape`, the law of each batch entry, and `__getitem__`.
[part of the model of slicing, distribution.py:302-309 and the `__getitem__` of each class] -/
structure SliceOps (D L : Type) where
  batch : D → List ℕ
  entry : D → List ℕ → L
  getItem : D → Index → Except Err D

/-! ### Categorical and OneHotCategorical -/

/-- categorical.py:62-64 the attributes `_probs`, `_logits`, `_dtype` with all batch rows. -/
structure CatB (n : ℕ) where
  probs? : Option (BArr (Fin n → XR))
  logits? : Option (BArr (Fin n → XR))
  dtype : DType

namespace CatB
variable {n : ℕ}

/-- categorical.py:38-64 `__init__` (one_hot_categorical.py inherits it). -/
def init (logits probs : Option (BArr (Fin n → XR))) (dtype : DType) : Except Err (CatB n) :=
  if logits.isNone = probs.isNone then .error .valueError
  else if ¬(dtype = .integer ∨ dtype = .floating) then .error .valueError
  else .ok ⟨probs.map (·.map normalizeProbs), logits.map (·.map normalizeLogits), dtype⟩

/-- categorical.py:85-90 `batch_shape`: inferred from a sample, i.e. the leading axes of the parameter.
(`none, none` is unreachable.) -/
def batch (d : CatB n) : List ℕ :=
  match d.logits?, d.probs? with
  | some l, _ => l.shape
  | none, some p => p.shape
  | none, none => []

/-- The law at batch position `i`: the `Categorical` with the parameters found there.
[part of the model of slicing, distribution.py:302-309 and the `__getitem__` of each class] -/
def entry (d : CatB n) (i : List ℕ) : Cat n := ⟨d.probs?.map (·.data i), d.logits?.map (·.data i)⟩

/-- categorical.py:154-159 and one_hot_categorical.py:92-97 `__getitem__`. -/
def getItem (d : CatB n) (idx : Index) : Except Err (CatB n) := do
  let i ← toBatchShapeIndex d.batch idx
  match d.logits?, d.probs? with
  | some l, _ => do
    let l ← l.index i
    init (some l) none d.dtype
  | none, some p => do
    let p ← p.index i
    init none (some p) d.dtype
  | none, none => .error .typeError

/-- The slicing interface. [part of the model of slicing, distribution.py:302-309 and the `__getitem__` of each class] -/
def ops (n : ℕ) : SliceOps (CatB n) (Cat n) := ⟨batch, entry, getItem⟩

end CatB

/-! ### Greedy, EpsilonGreedy, Softmax -/

/-- greedy.py:42-53: `_preferences` and the inherited attributes. -/
structure GreedyB (n : ℕ) where
  prefs : BArr (Fin n → XR)
  cat : CatB n

/-- greedy.py:42-53 `__init__`. -/
def GreedyB.init {n : ℕ} (prefs : BArr (Fin n → XR)) (dtype : DType) : Except Err (GreedyB n) := do
  let c ← CatB.init none (some (prefs.map Cat.tieBreak)) dtype
  return ⟨prefs, c⟩

/-- greedy.py:60-64 `__getitem__` (`self.dtype` is the class of the sample's dtype, which is that of `_dtype`). -/
def GreedyB.getItem {n : ℕ} (d : GreedyB n) (idx : Index) : Except Err (GreedyB n) := do
  let i ← toBatchShapeIndex d.cat.batch idx
  let p ← d.prefs.index i
  GreedyB.init p d.cat.dtype

/-- The slicing interface. [part of the model of slicing, distribution.py:302-309 and the `__getitem__` of each class] -/
def GreedyB.ops (n : ℕ) : SliceOps (GreedyB n) (Cat n) := ⟨fun d => d.cat.batch, fun d => d.cat.entry, GreedyB.getItem⟩

/-- epsilon_greedy.py:48-63: `_preferences`, `_epsilon` and the inherited attributes. -/
structure EpsGreedyB (n : ℕ) where
  prefs : BArr (Fin n → XR)
  eps : XR
  cat : CatB n

/-- epsilon_greedy.py:48-63 `__init__`. -/
def EpsGreedyB.init {n : ℕ} (prefs : BArr (Fin n → XR)) (eps : XR) (dtype : DType) : Except Err (EpsGreedyB n) := do
  let c ← CatB.init none (some (prefs.map fun p => Cat.mixUniform (Cat.tieBreak p) eps)) dtype
  return ⟨prefs, eps, c⟩

/-- epsilon_greedy.py:75-81 `__getitem__`: `epsilon` is a float and is passed on unsliced. -/
def EpsGreedyB.getItem {n : ℕ} (d : EpsGreedyB n) (idx : Index) : Except Err (EpsGreedyB n) := do
  let i ← toBatchShapeIndex d.cat.batch idx
  let p ← d.prefs.index i
  EpsGreedyB.init p d.eps d.cat.dtype

/-- The slicing interface. [part of the model of slicing, distribution.py:302-309 and the `__getitem__` of each class] -/
def EpsGreedyB.ops (n : ℕ) : SliceOps (EpsGreedyB n) (Cat n) :=
  ⟨fun d => d.cat.batch, fun d => d.cat.entry, EpsGreedyB.getItem⟩

/-- softmax.py:37-51: `_unscaled_logits`, `_temperature` and the inherited attributes. -/
structure SoftmaxB (n : ℕ) where
  unscaled : BArr (Fin n → XR)
  temperature : XR
  cat : CatB n

/-- softmax.py:37-51 `__init__`. -/
def SoftmaxB.init {n : ℕ} (logits : BArr (Fin n → XR)) (temperature : XR) (dtype : DType) : Except Err (SoftmaxB n) := do
  let c ← CatB.init (some (logits.map fun l i => l i / temperature)) none dtype
  return ⟨logits, temperature, c⟩

/-- softmax.py:63-69 `__getitem__`: rebuilt from the unscaled logits. -/
def SoftmaxB.getItem {n : ℕ} (d : SoftmaxB n) (idx : Index) : Except Err (SoftmaxB n) := do
  let i ← toBatchShapeIndex d.cat.batch idx
  let l ← d.unscaled.index i
  SoftmaxB.init l d.temperature d.cat.dtype

/-- The slicing interface. [part of the model of slicing, distribution.py:302-309 and the `__getitem__` of each class] -/
def SoftmaxB.ops (n : ℕ) : SliceOps (SoftmaxB n) (Cat n) :=
  ⟨fun d => d.cat.batch, fun d => d.cat.entry, SoftmaxB.getItem⟩

/-! ### Bernoulli -/

/-- bernoulli.py:70-72 the attributes with all batch entries. -/
structure BernB where
  probs? : Option (BArr XR)
  logits? : Option (BArr XR)
  dtype : BDType

namespace BernB

/-- bernoulli.py:44-73 `__init__`. -/
def init (logits probs : Option (BArr XR)) (dtype : BDType) : Except Err BernB :=
  if logits.isNone = probs.isNone then .error .valueError
  else if ¬(dtype = .bool ∨ dtype = .integer ∨ dtype = .floating) then .error .valueError
  else .ok ⟨probs, logits, dtype⟩

/-- bernoulli.py:81-85 `batch_shape`. -/
def batch (d : BernB) : List ℕ :=
  match d.logits?, d.probs? with
  | some l, _ => l.shape
  | none, some p => p.shape
  | none, none => []

/-- The law at batch position `i`. [part of the model of slicing, distribution.py:302-309 and the `__getitem__` of each class] -/
def entry (d : BernB) (i : List ℕ) : Bern := ⟨d.probs?.map (·.data i), d.logits?.map (·.data i)⟩

/-- bernoulli.py:162-167 `__getitem__`. -/
def getItem (d : BernB) (idx : Index) : Except Err BernB := do
  let i ← toBatchShapeIndex d.batch idx
  match d.logits?, d.probs? with
  | some l, _ => do
    let l ← l.index i
    init (some l) none d.dtype
  | none, some p => do
    let p ← p.index i
    init none (some p) d.dtype
  | none, none => .error .typeError

/-- The slicing interface. [part of the model of slicing, distribution.py:302-309 and the `__getitem__` of each class] -/
def ops : SliceOps BernB Bern := ⟨batch, entry, getItem⟩

end BernB

/-! ### Multinomial -/

/-- multinomial.py:80-92 the attributes with all batch entries; `total_count` may have its own (broadcastable) shape. -/
structure MultB (K : ℕ) where
  total : BArr ℕ
  probs? : Option (BArr (Fin K → XR))
  logits? : Option (BArr (Fin K → XR))
  dtype : DType
  batch : List ℕ

namespace MultB
variable {K : ℕ}

/-- multinomial.py:86-92 the shape of the parameter's batch axes. -/
def rowShape (probs? logits? : Option (BArr (Fin K → XR))) : List ℕ :=
  match probs?, logits? with
  | some p, _ => p.shape
  | none, some l => l.shape
  | none, none => []

/-- multinomial.py:45-92 `__init__`. -/
def init (total : BArr ℕ) (logits probs : Option (BArr (Fin K → XR))) (dtype : DType) : Except Err (MultB K) :=
  if logits.isNone = probs.isNone then .error .valueError
  else if logits.isSome ∧ K < 2 then .error .valueError
  else if probs.isSome ∧ K < 2 then .error .valueError
  else if ¬(dtype = .integer ∨ dtype = .floating) then .error .valueError
  else
    match broadcastShapes (rowShape probs logits) total.shape with
    | none => .error .valueError
    | some b => .ok ⟨total, probs.map (·.map normalizeProbs), logits.map (·.map normalizeLogits), dtype, b⟩

/-- The law at batch position `i`: parameters are read through numpy broadcasting (multinomial.py:107-131). -/
def entry (d : MultB K) (i : List ℕ) : Mult K :=
  ⟨d.total.data (proj d.total.shape i),
    ⟨d.probs?.map fun p => p.data (proj p.shape i), d.logits?.map fun l => l.data (proj l.shape i)⟩⟩

/-- multinomial.py:282-290 `__getitem__`; `total_count`, `logits`, `probs` are the broadcast properties
(multinomial.py:107-131). -/
def getItem (d : MultB K) (idx : Index) : Except Err (MultB K) := do
  let i ← toBatchShapeIndex d.batch idx
  let t ← d.total.broadcastTo d.batch
  let t ← t.index i
  match d.logits?, d.probs? with
  | some l, _ => do
    let l ← l.broadcastTo d.batch
    let l ← l.index i
    init t (some l) none d.dtype
  | none, some p => do
    let p ← p.broadcastTo d.batch
    let p ← p.index i
    init t none (some p) d.dtype
  | none, none => .error .typeError

/-- The slicing interface. [part of the model of slicing, distribution.py:302-309 and the `__getitem__` of each class] -/
def ops (K : ℕ) : SliceOps (MultB K) (Mult K) := ⟨batch, entry, getItem⟩

end MultB

/-! ### Dirichlet -/

/-- dirichlet.py:53-71: `_concentration`, rows of length `n`. -/
structure DirB (n : ℕ) where
  conc : BArr (Fin n → ℝ)

/-- dirichlet.py:53-71 `__init__`: the last axis must have length at least 2. -/
def DirB.init {n : ℕ} (conc : BArr (Fin n → ℝ)) : Except Err (DirB n) :=
  if n < 2 then .error .valueError else .ok ⟨conc⟩

/-- dirichlet.py:153-156 `__getitem__`. -/
def DirB.getItem {n : ℕ} (d : DirB n) (idx : Index) : Except Err (DirB n) := do
  let i ← toBatchShapeIndex d.conc.shape idx
  let c ← d.conc.index i
  DirB.init c

/-- The slicing interface; the law of an entry is given by its concentration vector.
[part of the model of slicing, distribution.py:302-309 and the `__getitem__` of each class] -/
def DirB.ops (n : ℕ) : SliceOps (DirB n) (Fin n → ℝ) := ⟨fun d => d.conc.shape, fun d => d.conc.data, DirB.getItem⟩

/-! ### CategoricalUniform -/

/-- categorical_uniform.py:66-68 the attributes with all batch entries. -/
structure CatUniformB (K : ℕ) where
  low : BArr ℝ
  high : BArr ℝ
  logits : BArr (Fin K → XR)

namespace CatUniformB
variable {K : ℕ}

/-- categorical_uniform.py:79-83 `batch_shape`: three-way broadcasting (the failure is the ValueError of
`broadcast_shapes`). -/
def batch? (d : CatUniformB K) : Except Err (List ℕ) :=
  match broadcastShapes d.low.shape d.high.shape with
  | none => .error .valueError
  | some t =>
    match broadcastShapes t d.logits.shape with
    | none => .error .valueError
    | some b => .ok b

/-- The law at batch position `i`. [part of the model of slicing, distribution.py:302-309 and the `__getitem__` of each class] -/
def entry (d : CatUniformB K) (i : List ℕ) : CatUniform K :=
  ⟨d.low.data (proj d.low.shape i), d.high.data (proj d.high.shape i), d.logits.data (proj d.logits.shape i)⟩

/-- categorical_uniform.py:109-113 `__getitem__`. -/
def getItem (d : CatUniformB K) (idx : Index) : Except Err (CatUniformB K) := do
  let b ← d.batch?
  let i ← toBatchShapeIndex b idx
  let lo ← d.low.broadcastTo b
  let lo ← lo.index i
  let hi ← d.high.broadcastTo b
  let hi ← hi.index i
  let l ← d.logits.broadcastTo b
  let l ← l.index i
  return ⟨lo, hi, l⟩

/-- The slicing interface. [part of the model of slicing, distribution.py:302-309 and the `__getitem__` of each class] -/
def ops (K : ℕ) : SliceOps (CatUniformB K) (CatUniform K) :=
  ⟨fun d => match d.batch? with
    | .ok b => b
    | .error _ => [], entry, getItem⟩

end CatUniformB

/-! ### Two-parameter families -/

/-- The slicing interface of the two-parameter families (`Normal`, `Uniform`, `Laplace`, `Logistic`, `Gumbel`, `Gamma`, `Beta`,
`VonMises`): the law of an entry is given by its two parameters.
[part of the model of slicing, distribution.py:302-309 and the `__getitem__` of each class] -/
def Fam2.ops : SliceOps Fam2 (ℝ × ℝ) :=
  ⟨Fam2.batch, fun d i => (d.p.data (proj d.p.shape i), d.q.data (proj d.q.shape i)), Fam2.getItem⟩

/-! ### Wrappers -/

/-- A block of laws: what `Independent` and `MixtureSameFamily` group into one entry.
[part of the model of slicing, distribution.py:302-309 and the `__getitem__` of each class] -/
structure Block (L : Type) where
  shape : List ℕ
  law : List ℕ → Option L

open Classical in
/-- The block of entries of `f` at positions `j ++ e`, `e` ranging over `s`.
[part of the model of slicing, distribution.py:302-309 and the `__getitem__` of each class] -/
def blockOf {L : Type} (s : List ℕ) (f : List ℕ → L) (j : List ℕ) : Block L :=
  ⟨s, fun e => if InRange s e then some (f (j ++ e)) else none⟩

/-- independent.py:66-74: the wrapped distribution and `_reinterpreted_batch_ndims`. -/
structure IndepB (D : Type) where
  inner : D
  k : ℕ

namespace IndepB
variable {D L : Type} (o : SliceOps D L)

/-- independent.py:39-74 `__init__`. -/
def init (d : D) (k : Option ℤ) : Except Err (IndepB D) := do
  let k ← independentNdims (o.batch d) k
  return ⟨d, k⟩

/-- independent.py:92-96 `batch_shape`. -/
def batch (d : IndepB D) : List ℕ := (o.batch d.inner).take ((o.batch d.inner).length - d.k)

/-- The law at batch position `j`: the product of the block of inner entries.
[part of the model of slicing, distribution.py:302-309 and the `__getitem__` of each class] -/
def entry (d : IndepB D) (j : List ℕ) : Block L :=
  blockOf ((o.batch d.inner).drop ((o.batch d.inner).length - d.k)) (o.entry d.inner) j

/-- independent.py:145-150 `__getitem__`. -/
def getItem (d : IndepB D) (idx : Index) : Except Err (IndepB D) := do
  let i ← toBatchShapeIndex (batch o d) idx
  let x ← o.getItem d.inner i
  init o x (some d.k)

/-- The slicing interface. [part of the model of slicing, distribution.py:302-309 and the `__getitem__` of each class] -/
def ops : SliceOps (IndepB D) (Block L) := ⟨batch o, entry o, getItem o⟩

end IndepB

/-- mixture_same_family.py:52-57: the two distributions. -/
structure MixB (M D : Type) where
  mixture : M
  components : D

namespace MixB
variable {M D P L : Type} (om : SliceOps M P) (oc : SliceOps D L)

/-- mixture_same_family.py:42-71 `__init__` (`MixtureSameFamily.check`). -/
def init (m : M) (c : D) : Except Err (MixB M D) := do
  let _ ← MixtureSameFamily.check (om.batch m) (oc.batch c)
  return ⟨m, c⟩

/-- mixture_same_family.py:88-91 `batch_shape`. -/
def batch (d : MixB M D) : List ℕ := om.batch d.mixture

/-- The law at batch position `j`: the weights and the block of components.
[part of the model of slicing, distribution.py:302-309 and the `__getitem__` of each class] -/
def entry (d : MixB M D) (j : List ℕ) : P × Block L :=
  (om.entry d.mixture j, blockOf ((oc.batch d.components).drop (om.batch d.mixture).length) (oc.entry d.components) j)

/-- mixture_same_family.py:152-157 `__getitem__`. -/
def getItem (d : MixB M D) (idx : Index) : Except Err (MixB M D) := do
  let i ← toBatchShapeIndex (batch om d) idx
  let m ← om.getItem d.mixture i
  let c ← oc.getItem d.components i
  init om oc m c

/-- The slicing interface. [part of the model of slicing, distribution.py:302-309 and the `__getitem__` of each class] -/
def ops : SliceOps (MixB M D) (P × Block L) := ⟨batch om, entry om oc, getItem om oc⟩

end MixB

/-- mixture_of_two.py:70-72. -/
structure Mix2B (A B : Type) where
  probA : ℝ
  a : A
  b : B

namespace Mix2B
variable {A B P Q : Type} (oa : SliceOps A P) (ob : SliceOps B Q)

/-- mixture_of_two.py:38-72 `__init__`: the batch check of `MixtureOfTwo.check`.  (`prob_a` is a scalar here; event shapes and
dtypes are those of the original object when slicing, so these checks cannot change.) -/
def init (p : ℝ) (a : A) (b : B) : Except Err (Mix2B A B) :=
  if oa.batch a ≠ ob.batch b then .error .valueError else .ok ⟨p, a, b⟩

/-- The law at batch position `j`. [part of the model of slicing, distribution.py:302-309 and the `__getitem__` of each class] -/
def entry (d : Mix2B A B) (j : List ℕ) : ℝ × P × Q := (d.probA, oa.entry d.a j, ob.entry d.b j)

/-- mixture_of_two.py:105-111 `__getitem__`: `prob_a` is passed on unsliced. -/
def getItem (d : Mix2B A B) (idx : Index) : Except Err (Mix2B A B) := do
  let i ← toBatchShapeIndex (oa.batch d.a) idx
  let a ← oa.getItem d.a i
  let b ← ob.getItem d.b i
  init oa ob d.probA a b

/-- The slicing interface; mixture_of_two.py:94-96 takes the batch shape of component a. -/
def ops : SliceOps (Mix2B A B) (ℝ × P × Q) := ⟨fun d => oa.batch d.a, entry oa ob, getItem oa ob⟩

end Mix2B

/-- clipped.py:63-65: the wrapped distribution and the broadcast bounds. -/
structure ClippedB (D : Type) where
  inner : D
  minimum : BArr ℝ
  maximum : BArr ℝ

namespace ClippedB
variable {D L : Type} (o : SliceOps D L)

/-- clipped.py:37-67 `__init__` (event shape `()`); `log_cdf(minimum)` and `log_survival_function(maximum)` are functions of
the entries. -/
def init (d : D) (mn mx : BArr ℝ) : Except Err (ClippedB D) := do
  let _ ← Clipped.checkShapes [] (o.batch d) mn.shape mx.shape
  let a ← mn.broadcastTo (o.batch d)
  let b ← mx.broadcastTo (o.batch d)
  return ⟨d, a, b⟩

/-- The law at batch position `j`: the wrapped law and its bounds.
[part of the model of slicing, distribution.py:302-309 and the `__getitem__` of each class] -/
def entry (d : ClippedB D) (j : List ℕ) : L × ℝ × ℝ := (o.entry d.inner j, d.minimum.data j, d.maximum.data j)

/-- clipped.py:117-123 `__getitem__`. -/
def getItem (d : ClippedB D) (idx : Index) : Except Err (ClippedB D) := do
  let i ← toBatchShapeIndex (o.batch d.inner) idx
  let x ← o.getItem d.inner i
  let a ← d.minimum.index i
  let b ← d.maximum.index i
  init o x a b

/-- The slicing interface. [part of the model of slicing, distribution.py:302-309 and the `__getitem__` of each class] -/
def ops : SliceOps (ClippedB D) (L × ℝ × ℝ) := ⟨fun d => o.batch d.inner, entry o, getItem o⟩

end ClippedB

end

end Distrax
