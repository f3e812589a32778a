import Verif.Model.Arr
import Mathlib.Algebra.BigOperators.Group.List.Basic
import Mathlib.Data.Int.Init

/-!
# Sampling layout, batch indexing and `Independent`

distributions/distribution.py (`sample`, `sample_and_log_prob`, `convert_seed_and_sample_shape`,
`to_batch_shape_index`) and distributions/independent.py.
-/

namespace Distrax

/-! ### Row-major reshape -/

/-- Row-major position of multi-index `i` in shape `s`. [numpy layout and indexing; no line of its own, used for distribution.py:330-358] -/
def ravel : List ℕ → List ℕ → ℕ
  | _ :: s, k :: i => k * s.prod + ravel s i
  | _, _ => 0

/-- Multi-index at row-major position `m` of shape `s`. [numpy layout and indexing; no line of its own, used for distribution.py:330-358] -/
def unravel : List ℕ → ℕ → List ℕ
  | [], _ => []
  | _ :: s, m => (m / s.prod) :: unravel s (m % s.prod)

/-- `a.reshape(t)` (row-major; the sizes must agree). [numpy layout and indexing; no line of its own, used for distribution.py:330-358] -/
def Arr.reshape (a : Arr) (t : List ℕ) : Except Err Arr :=
  if a.shape.prod = t.prod then .ok ⟨t, fun i => a.data (unravel a.shape (ravel t i))⟩
  else .error .typeError

/-! ### Distributions over arrays -/

/-- The methods of a distribution with array events that the base class and `Independent` use.
`Key` is the type of PRNG keys. [distribution.py:49-309] -/
structure ADist (Key : Type) where
  batch : List ℕ
  event : List ℕ
  /-- abstract `_sample_n`, distribution.py:53-55 -/
  sampleN : Key → ℕ → Arr
  /-- `_sample_n_and_log_prob`, distribution.py:57-79 (possibly overridden) -/
  sampleNLP : Key → ℕ → Except Err (Arr × Arr)
  logProb : Arr → Except Err Arr
  entropy : Except Err Arr
  logCdf : Arr → Except Err Arr

/-- distribution.py:77-79: the default `_sample_n_and_log_prob`. -/
def ADist.defaultSampleNLP {Key : Type} (sampleN : Key → ℕ → Arr) (logProb : Arr → Except Err Arr) (k : Key)
    (n : ℕ) : Except Err (Arr × Arr) := do
  let samples := sampleN k n
  let lp ← logProb samples
  return (samples, lp)

/-- A `sample_shape` argument: an integer or a sequence (negative entries not modelled). [distribution.py:312-327] -/
inductive SampleShape where
  | int (n : ℕ)
  | seq (l : List ℕ)

/-- A `seed` argument: an integer or a key. [distribution.py:312-327] -/
inductive Seed (Key : Type) where
  | int (z : ℤ)
  | key (k : Key)

/-- distribution.py:312-327 `convert_seed_and_sample_shape`; `prngKey` is `jax.random.PRNGKey`. -/
def convertSeedAndSampleShape {Key : Type} (prngKey : ℤ → Key) (seed : Seed Key) (ss : SampleShape) :
    Key × List ℕ :=
  let ss := match ss with
    | .int n => [n]
    | .seq l => l
  match seed with
  | .int z => (prngKey z, ss)
  | .key k => (k, ss)

/-- distribution.py:144-162 `sample`.  `reduce(mul, sample_shape, 1)` is `foldl`. -/
def ADist.sample {Key : Type} (d : ADist Key) (prngKey : ℤ → Key) (seed : Seed Key) (ss : SampleShape) :
    Except Err Arr :=
  let (rng, ss) := convertSeedAndSampleShape prngKey seed ss
  let numSamples := ss.foldl (· * ·) 1
  let samples := d.sampleN rng numSamples
  samples.reshape (ss ++ samples.shape.drop 1)

/-- distribution.py:164-177 `sample_and_log_prob`. -/
def ADist.sampleAndLogProb {Key : Type} (d : ADist Key) (prngKey : ℤ → Key) (seed : Seed Key) (ss : SampleShape) :
    Except Err (Arr × Arr) := do
  let (rng, ss) := convertSeedAndSampleShape prngKey seed ss
  let numSamples := ss.foldl (· * ·) 1
  let (samples, lp) ← d.sampleNLP rng numSamples
  let samples ← samples.reshape (ss ++ samples.shape.drop 1)
  let lp ← lp.reshape (ss ++ lp.shape.drop 1)
  return (samples, lp)

/-! ### numpy indexing -/

/-- One element of an index tuple. [numpy layout and indexing; no line of its own, used for distribution.py:330-358] -/
inductive IdxEl where
  | int (z : ℤ)
  | slice (start stop step : Option ℤ)
  | ellipsis

/-- Lower clamp of python `slice.indices(n)` for step `st`. [numpy layout and indexing; no line of its own, used for distribution.py:330-358] -/
def sliceLower (st : ℤ) : ℤ := if 0 < st then 0 else -1

/-- Upper clamp of python `slice.indices(n)` for step `st`. [numpy layout and indexing; no line of its own, used for distribution.py:330-358] -/
def sliceUpper (n : ℕ) (st : ℤ) : ℤ := if 0 < st then n else n - 1

/-- Clamping of an explicit bound: negative bounds count from the end.
[numpy layout and indexing; no line of its own, used for distribution.py:330-358] -/
def sliceClamp (n : ℕ) (st z : ℤ) : ℤ :=
  let z := if z < 0 then z + n else z
  if z < sliceLower st then sliceLower st else if sliceUpper n st < z then sliceUpper n st else z

/-- First index of a slice. [numpy layout and indexing; no line of its own, used for distribution.py:330-358] -/
def sliceStart (n : ℕ) (st : ℤ) : Option ℤ → ℤ
  | none => if 0 < st then sliceLower st else sliceUpper n st
  | some z => sliceClamp n st z

/-- End of a slice (excluded). [numpy layout and indexing; no line of its own, used for distribution.py:330-358] -/
def sliceStop (n : ℕ) (st : ℤ) : Option ℤ → ℤ
  | none => if 0 < st then sliceUpper n st else sliceLower st
  | some z => sliceClamp n st z

/-- Number of entries of a slice. [numpy layout and indexing; no line of its own, used for distribution.py:330-358] -/
def sliceLen (st a b : ℤ) : ℤ :=
  if 0 < st then (if a < b then (b - a - 1) / st + 1 else 0)
  else (if b < a then (a - b - 1) / (-st) + 1 else 0)

/-- python `slice(start, stop, step).indices(n)`: first index, step and length.  `none` for step 0.
[numpy layout and indexing; no line of its own, used for distribution.py:330-358] -/
def sliceIndices (n : ℕ) (start stop step : Option ℤ) : Option (ℤ × ℤ × ℕ) :=
  let st := step.getD 1
  if st = 0 then none
  else some (sliceStart n st start, st, (sliceLen st (sliceStart n st start) (sliceStop n st stop)).toNat)

/-- The full slice `:`. [numpy layout and indexing; no line of its own, used for distribution.py:330-358] -/
def IdxEl.full : IdxEl := .slice none none none

/-- Replaces one `Ellipsis` by as many full slices as needed to reach rank `r`; a second `Ellipsis` is an
IndexError; without one, full slices are appended.  Too many elements is an IndexError.
[numpy layout and indexing; no line of its own, used for distribution.py:330-358] -/
def expandEllipsis (r : ℕ) (idx : List IdxEl) : Except Err (List IdxEl) :=
  let isE : IdxEl → Bool := fun | .ellipsis => true | _ => false
  let n := (idx.filter fun e => !isE e).length
  if r < n then .error .indexError
  else if 1 < (idx.filter isE).length then .error .indexError
  else
    let fill := List.replicate (r - n) IdxEl.full
    if idx.any isE then .ok (idx.flatMap fun e => if isE e then fill else [e])
    else .ok (idx ++ fill)

/-- Result of indexing a shape: output shape, and the input multi-index read by each output multi-index.
[numpy layout and indexing; no line of its own, used for distribution.py:330-358] -/
structure Sel where
  shape : List ℕ
  sel : List ℕ → List ℕ

/-- numpy basic indexing of shape `s` by an expanded index (one element per axis).
[numpy layout and indexing; no line of its own, used for distribution.py:330-358] -/
def basicIndex : List ℕ → List IdxEl → Except Err Sel
  | [], [] => .ok ⟨[], fun _ => []⟩
  | n :: s, .int z :: es =>
    let z' := if z < 0 then z + n else z
    if 0 ≤ z' ∧ z' < n then
      match basicIndex s es with
      | .ok r => .ok ⟨r.shape, fun i => z'.toNat :: r.sel i⟩
      | .error e => .error e
    else .error .indexError
  | n :: s, .slice a b c :: es =>
    match sliceIndices n a b c with
    | none => .error .valueError
    | some (st, step, len) =>
      match basicIndex s es with
      | .ok r => .ok ⟨len :: r.shape, fun i => (st + (i.headD 0 : ℕ) * step).toNat :: r.sel i.tail⟩
      | .error e => .error e
  | _, _ => .error .indexError

/-- An index: a tuple of basic elements, a tuple of coordinate arrays (what `to_batch_shape_index` returns), or anything else;
the coordinate arrays are given by their common shape and the coordinates at each position. [distribution.py:330-358] -/
inductive Index where
  | basic (l : List IdxEl)
  | coords (rank : ℕ) (shape : List ℕ) (at_ : List ℕ → List ℕ)
  /-- any other index object (`None`, boolean masks, integer arrays, mixtures of these): what numpy makes of it depends
  only on the shape of the indexed array. -/
  | other (f : List ℕ → Except Err Sel)

/-- numpy indexing of an array of shape `s`: basic, or by coordinate arrays on the leading axes.
Simplification: coordinate arrays are not range-checked (here they always come from `np.indices`).
[numpy layout and indexing; no line of its own, used for distribution.py:330-358] -/
def npSelect (s : List ℕ) : Index → Except Err Sel
  | .basic l => do
    let l ← expandEllipsis s.length l
    basicIndex s l
  | .coords r o c =>
    if r ≤ s.length then
      .ok ⟨o ++ s.drop r, fun i => c (i.take o.length) ++ i.drop o.length⟩
    else .error .indexError
  | .other f => f s

/-- numpy's `None` (newaxis) as an index: a new leading axis of size 1.
[numpy layout and indexing; no line of its own, used for distribution.py:330-358] -/
def Index.newaxis : Index := .other fun s => .ok ⟨1 :: s, List.tail⟩

/-- numpy's boolean mask of shape `m` as an index: the positions of the leading axes where it is true, in row-major
order; a mask of another shape is an IndexError. [numpy layout and indexing; no line of its own, used for distribution.py:330-358] -/
def Index.mask (m : List ℕ) (b : List ℕ → Bool) : Index := .other fun s =>
  if s.take m.length = m then
    .ok ⟨((allIdx m).filter b).length :: s.drop m.length,
      fun i => ((allIdx m).filter b).getD (i.headD 0) [] ++ i.tail⟩
  else .error .indexError

/-- `a[index]` for an array. [numpy layout and indexing; no line of its own, used for distribution.py:330-358] -/
def Arr.index (a : Arr) (idx : Index) : Except Err Arr := do
  let r ← npSelect a.shape idx
  return ⟨r.shape, fun i => a.data (r.sel i)⟩

/-- distribution.py:330-358 `to_batch_shape_index`.  `np.indices(batch_shape)` stacks, for each axis `k`, an array
of shape `batch_shape` whose entry at `i` is `i[k]`; indexing each of them and collecting the results gives, for
each output position, the list of selected coordinates.  For rank 0 there is nothing to index, so any index is
accepted.  Only `IndexError` is translated (into `IndexError`); other errors pass through. -/
def toBatchShapeIndex (batch : List ℕ) (idx : Index) : Except Err Index :=
  if batch = [] then .ok (.coords 0 [] fun _ => [])
  else
    match npSelect batch idx with
    | .error e => .error e
    | .ok r => .ok (.coords batch.length r.shape fun j => (List.range batch.length).map fun k => (r.sel j).getD k 0)

/-! ### A distribution family with two broadcast parameters -/

/-- A distribution with two scalar parameters and scalar events: stored parameter arrays and batch shape, as in
normal.py:42-51, uniform.py:40-51, laplace.py, logistic.py, gumbel.py, gamma.py, beta.py, von_mises.py. -/
structure Fam2 where
  p : Arr
  q : Arr
  batch : List ℕ

/-- uniform.py:40-51 (and the other two-parameter families): `__init__`; `as_float_array` is the identity here. -/
def Fam2.init (p q : Arr) : Except Err Fam2 :=
  match broadcastShapes p.shape q.shape with
  | some b => .ok ⟨p, q, b⟩
  | none => .error .valueError

/-- The broadcast parameters (`loc`/`scale` properties, e.g. uniform.py:58-66). -/
def Fam2.pB (d : Fam2) : Except Err Arr := d.p.broadcastTo d.batch
/-- See `pB`. [numpy layout and indexing; no line of its own, used for distribution.py:330-358] -/
def Fam2.qB (d : Fam2) : Except Err Arr := d.q.broadcastTo d.batch

/-- `__getitem__` (e.g. uniform.py `__getitem__`): index both broadcast parameters and rebuild. -/
def Fam2.getItem (d : Fam2) (idx : Index) : Except Err Fam2 := do
  let i ← toBatchShapeIndex d.batch idx
  let p ← d.pB
  let p ← p.index i
  let q ← d.qB
  let q ← q.index i
  Fam2.init p q

/-- A per-entry method such as `log_prob`: `f(p, q, value)` with numpy broadcasting.
[numpy layout and indexing; no line of its own, used for distribution.py:330-358] -/
def Fam2.method (f : ℝ → ℝ → ℝ → ℝ) (d : Fam2) (value : Arr) : Except Err Arr :=
  match broadcastShapes d.p.shape d.q.shape with
  | none => .error .typeError
  | some b =>
    match broadcastShapes b value.shape with
    | none => .error .typeError
    | some t => .ok ⟨t, fun i => f (d.p.data (proj d.p.shape i)) (d.q.data (proj d.q.shape i))
        (value.data (proj value.shape i))⟩

/-! ### Independent -/

/-- independent.py:39-74 `Independent.__init__`: the number of reinterpreted axes. -/
def independentNdims (batch : List ℕ) (k : Option ℤ) : Except Err ℕ :=
  match k with
  | some k =>
    if (batch.length : ℤ) < k then .error .valueError
    else if k < 0 then .error .valueError
    else .ok k.toNat
  | none => .ok (batch.length - 1)

/-- independent.py:141-143 `_reduce(jnp.sum, value)`: sums over axes `-1, ..., -k`. -/
def reduceSum (k : ℕ) (a : Arr) : Except Err Arr := a.sumLast k

/-- independent.py:76-139 the `Independent` distribution.  `prngKey` only matters for integer seeds; `_sample_n`
passes a key. -/
def independent {Key : Type} (prngKey : ℤ → Key) (d : ADist Key) (k : Option ℤ) : Except Err (ADist Key) := do
  let k ← independentNdims d.batch k
  let m := d.batch.length - k
  return {
    batch := d.batch.take m
    event := d.batch.drop m ++ d.event
    sampleN := fun key n =>
      match d.sample prngKey (.key key) (.int n) with
      | .ok a => a
      | .error _ => ⟨[], fun _ => 0⟩
    sampleNLP := fun key n => do
      let (s, lp) ← d.sampleAndLogProb prngKey (.key key) (.int n)
      let lp ← reduceSum k lp
      return (s, lp)
    logProb := fun v => do
      let l ← d.logProb v
      reduceSum k l
    entropy := do
      let e ← d.entropy
      reduceSum k e
    logCdf := fun v => do
      let l ← d.logCdf v
      reduceSum k l }

/-- independent.py:153-186 `_kl_divergence_independent_independent`; `klBase` is `p.kl_divergence(q)`. -/
def independentKl (ev1 ev2 pEv qEv : List ℕ) (klBase : Except Err Arr) : Except Err Arr :=
  if ev1 = ev2 then
    if pEv = qEv then do
      let r ← klBase
      r.sumLast (ev1.length - pEv.length)
    else .error .notImplemented
  else .error .valueError

end Distrax
