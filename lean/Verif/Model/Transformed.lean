import Verif.Model.Chain
import Verif.Model.Bijector
import Verif.Model.Jaxpr
import Mathlib.Algebra.Group.Defs

/-!
# `Transformed` and its KL divergence

distributions/transformed.py.  The base distribution and the bijector are arbitrary objects; `V` is the type of
array values, `L` the type of log-probabilities / log-determinants.  `jax.vmap(f)(x)` over the leading sample axis
is `mapM f` over the list of draws.  Simplifications: `+`/`-` on `L` is total (broadcasting of log-probabilities
against log-dets cannot fail); dtype is not modelled.
-/

namespace Distrax

/-- What `jnp.zeros` and `.shape` do on the value type. -/
class ArrayLike (V : Type) where
  shape : V → List ℕ
  zeros : List ℕ → V

/-- A bijector together with `jax.eval_shape(self.forward, ·)` (shape part), used by transformed.py:124. -/
structure TBij (V L : Type) extends BObj V L where
  evalShape : List ℕ → Except Err (List ℕ)

/-- `Chain` (chain.py:48-109); tracing its `forward` traces the components last to first. -/
def TBij.mkChain {V L : Type} [Add L] (bs : List (TBij V L)) : Except Err (TBij V L) := do
  let b ← BObj.mkChain (bs.map (·.toBObj))
  pure { b with evalShape := fun s => bs.reverse.foldlM (fun s b => b.evalShape s) s }

/-- The event shape of a distribution: an array event, or a nested structure of arrays.
[no line of its own; part of the model of transformed.py:35-243] -/
inductive EvShape where
  | arr (s : List ℕ)
  | nested

/-- The methods of a distribution that `Transformed` uses. `sampleN k n` is `sample(seed=k, sample_shape=n)` as the
list of its `n` draws; `sampleNLP` likewise. [the calls of transformed.py:35-243] -/
structure DObj (Key V L : Type) where
  batch : Except Err (List ℕ)
  event : Except Err EvShape
  logProb : V → Except Err L
  sampleN : Key → ℕ → Except Err (List V)
  sampleNLP : Key → ℕ → Except Err (List (V × L))
  mean : Except Err V
  mode : Except Err V
  entropy : Option V → Except Err L

variable {Key V L : Type}

/-- transformed.py:120-135 `_infer_shapes_and_dtype`: the (batch, event) shapes.  `shape[-n:]` and `shape[:-n]`
with `n > 0`; python slices clamp at the start. -/
def Transformed.inferShapes (d : DObj Key V L) (b : TBij V L) : Except Err (List ℕ × List ℕ) := do
  let bs ← d.batch
  match ← d.event with
  | .nested => .error .typeError
  | .arr es =>
    let shape ← b.evalShape (bs ++ es)
    if b.ndimsOut = 0 then pure (shape, [])
    else pure (shape.take (shape.length - b.ndimsOut), shape.drop (shape.length - b.ndimsOut))

/-- transformed.py:161-166 `log_prob`. -/
def Transformed.logProb [Add L] (d : DObj Key V L) (b : TBij V L) (value : V) : Except Err L := do
  let (x, ildj_y) ← b.invLd value
  let lp_x ← d.logProb x
  let lp_y := lp_x + ildj_y
  pure lp_y

/-- transformed.py:168-172 `_sample_n`. -/
def Transformed.sampleN (d : DObj Key V L) (b : TBij V L) (key : Key) (n : ℕ) : Except Err (List V) := do
  let x ← d.sampleN key n
  x.mapM b.forward

/-- transformed.py:174-191 `_sample_n_and_log_prob`. -/
def Transformed.sampleNLP [Sub L] (d : DObj Key V L) (b : TBij V L) (key : Key) (n : ℕ) :
    Except Err (List (V × L)) := do
  let xs ← d.sampleNLP key n
  let ys ← (xs.map Prod.fst).mapM b.fwdLd
  pure (List.zipWith (fun (x : V × L) (y : V × L) => (y.1, x.2 - y.2)) xs ys)

/-- transformed.py:193-200 `mean`. -/
def Transformed.mean (d : DObj Key V L) (b : TBij V L) : Except Err V :=
  if b.constJac then do
    let m ← d.mean
    b.forward m
  else .error .notImplemented

/-- transformed.py:202-210 `mode`. -/
def Transformed.mode (d : DObj Key V L) (b : TBij V L) : Except Err V :=
  if b.constLogDet then do
    let m ← d.mode
    b.forward m
  else .error .notImplemented

/-- transformed.py:212-243 `entropy`; `hint` is `input_hint`.  The base's own `entropy` is called without one. -/
def Transformed.entropy [Add L] [ArrayLike V] (d : DObj Key V L) (b : TBij V L) (hint : Option V) : Except Err L :=
  if b.constLogDet then do
    let h ← match hint with
      | some h => pure h
      | none => do
        let bs ← d.batch
        match ← d.event with
        | .nested => .error .typeError
        | .arr es => pure (ArrayLike.zeros (bs ++ es))
    let ent ← d.entropy none
    let fldj ← b.fldj h
    pure (ent + fldj)
  else .error .notImplemented

/-- transformed.py:75-108 `Transformed.__init__` and the resulting object (`batch_shape` and `event_shape` are computed on
demand, 123-145). -/
def mkTransformed [Add L] [Sub L] [ArrayLike V] (d : DObj Key V L) (b : TBij V L) : Except Err (DObj Key V L) := do
  match ← d.event with
  | .nested => .error .valueError
  | .arr es =>
    if es.length ≠ b.ndimsIn then .error .valueError
    else
      pure { batch := do let r ← Transformed.inferShapes d b; pure r.1
             event := do let r ← Transformed.inferShapes d b; pure (.arr r.2)
             logProb := Transformed.logProb d b
             sampleN := Transformed.sampleN d b
             sampleNLP := Transformed.sampleNLP d b
             mean := Transformed.mean d b
             mode := Transformed.mode d b
             entropy := Transformed.entropy d b }

/-- A traced `forward`: `jax.make_jaxpr(bij.forward)(hint)` is a closed jaxpr, i.e. a program plus the values of the array
constants it captured (`constVars` bound to `constVals`).  Simplification: values are real scalars (one entry).
[external; called e.g. at transformed.py:297] -/
structure Traced where
  constVars : List ℕ
  constVals : List ℝ
  invar : ℕ
  prog : Jaxpr.Prog Jaxpr.Prim
  out : Jaxpr.Atom

/-- Nested closed jaxprs print without the values of their constants, too. [no line of its own; part of the model of transformed.py:35-243] -/
def Traced.hideConsts : Jaxpr.Prog Jaxpr.Prim → Jaxpr.Prog Jaxpr.Prim
  | .done => .done
  | .prim p ins outs rest => .prim p ins outs (hideConsts rest)
  | .call k cs bIn bOut body ins outs rest =>
    .call k (cs.map fun c => (c.1, 0)) bIn bOut (hideConsts body) ins outs (hideConsts rest)

/-- `str(closed_jaxpr.jaxpr)`: everything except the values of the constants (literals are printed).
[no line of its own; part of the model of transformed.py:35-243] -/
def Traced.text (t : Traced) : List ℕ × ℕ × Jaxpr.Prog Jaxpr.Prim × Jaxpr.Atom :=
  (t.constVars, t.invar, Traced.hideConsts t.prog, t.out)

/-- Meaning of the traced function. [no line of its own; part of the model of transformed.py:35-243] -/
def Traced.eval (t : Traced) (ev : Jaxpr.Prim → List ℝ → Option (List ℝ)) (x : ℝ) : Option ℝ := do
  let env ← Jaxpr.run ev t.prog (Jaxpr.write (Jaxpr.writeConsts (fun _ => none) (t.constVars.zip t.constVals)) t.invar x)
  Jaxpr.readAtom env t.out

/-- A bijector object as seen by transformed.py:289-299: identity, object, traced `forward`. -/
structure KBij where
  addr : ℕ
  obj : Bij
  traced : Traced

open Classical in
/-- transformed.py:246-306 `_kl_divergence_transformed_transformed`; `baseKL` is
`dist1.distribution.kl_divergence(dist2.distribution)`.  The bijectors are already converted (288-289); `!=` on
bijectors is identity (no `__eq__` is defined). -/
noncomputable def Transformed.kl {L : Type} (event1 event2 : List ℕ) (bij1 bij2 : KBij) (baseKL : Except Err L) :
    Except Err L :=
  if event1 ≠ event2 then .error .valueError
  else if bij1.addr ≠ bij2.addr ∧ ¬ bij1.obj.sameAs bij2.obj then
    if bij1.traced.text ≠ bij2.traced.text then .error .notImplemented
    else baseKL
  else baseKL

end Distrax
