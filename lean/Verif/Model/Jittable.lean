import Verif.Model.Arr

/-!
# utils/jittable.py

JAX's `tree_flatten` / `tree_unflatten` on nested python values, and the flattening of `Jittable` objects.

A python value is a leaf, `None` (JAX: a container without children), a standard container with its children in flattening
order (a dict's sorted by key), or a `Jittable` object with its `__dict__`.
-/

namespace Distrax

mutual
/-- Python values, with leaves of type `L`. [no line of its own; part of the model of jittable.py:21-47] -/
inductive PV (L : Type) where
  | leaf (a : L)
  | none
  /-- list, tuple, dict, …; `tag` is the container type -/
  | node (tag : ℕ) (kids : PVs L)
  /-- an instance of a registered `Jittable` class -/
  | obj (cls : ℕ) (attrs : PVs L)
/-- Children of a container, or attributes of an object, with their keys. [no line of its own; part of the model of jittable.py:21-47] -/
inductive PVs (L : Type) where
  | nil
  | cons (key : ℕ) (v : PV L) (rest : PVs L)
end

mutual
/-- JAX tree definitions (`PyTreeDef`). [no line of its own; part of the model of jittable.py:21-47] -/
inductive TD (L : Type) where
  | leaf
  | none
  | node (tag : ℕ) (kids : TDs L)
  /-- a registered class: the auxiliary data `(metadata, switch, treedef)` of jittable.py:39, and which children are leaves
  (`true`) and which are `None` (`false`) -/
  | obj (cls : ℕ) (metadata : List (Option L)) (switch : List Bool) (dict : TDs L) (kids : List Bool)
/-- Children. [no line of its own; part of the model of jittable.py:21-47] -/
inductive TDs (L : Type) where
  | nil
  | cons (key : ℕ) (t : TD L) (rest : TDs L)
end

variable {L : Type}

/-- jittable.py:37: `children = [leaf if s else None for leaf, s in zip(leaves, switch)]`. -/
def jitChildren (leaves : List L) (switch : List Bool) : List (Option L) :=
  (leaves.zip switch).map fun p => if p.2 then some p.1 else none

/-- jittable.py:38: `metadata = [None if s else leaf for leaf, s in zip(leaves, switch)]`. -/
def jitMetadata (leaves : List L) (switch : List Bool) : List (Option L) :=
  (leaves.zip switch).map fun p => if p.2 then none else some p.1

/-- jittable.py:44: `leaves = [j if s else p for j, p, s in zip(children, metadata, switch)]`. -/
def jitLeaves (children metadata : List (Option L)) (switch : List Bool) : List (Option L) :=
  (children.zip (metadata.zip switch)).map fun q => if q.2.2 then q.1 else q.2.1

mutual
/-- `jax.tree_util.tree_flatten(v)`; on a `Jittable` object JAX calls its `tree_flatten` (jittable.py:34-39), which flattens
`__dict__`, and then flattens the returned children (leaves and `None`s). -/
def PV.flatten (isData : L → Bool) : PV L → List L × TD L
  | .leaf a => ([a], .leaf)
  | .none => ([], .none)
  | .node tag kids => ((kids.flatten isData).1, .node tag (kids.flatten isData).2)
  | .obj c attrs =>
    let leaves := (attrs.flatten isData).1
    let switch := leaves.map isData
    ((jitChildren leaves switch).filterMap id,
      .obj c (jitMetadata leaves switch) switch (attrs.flatten isData).2 ((jitChildren leaves switch).map Option.isSome))
/-- On the children. [no line of its own; part of the model of jittable.py:21-47] -/
def PVs.flatten (isData : L → Bool) : PVs L → List L × TDs L
  | .nil => ([], .nil)
  | .cons k v rest =>
    ((v.flatten isData).1 ++ (rest.flatten isData).1, .cons k (v.flatten isData).2 (rest.flatten isData).2)
end

/-- The children handed to a class's `tree_unflatten`: the next leaves, and `None` where a child was `None`; also the leaves
left over.  `none` for too few leaves. [no line of its own; part of the model of jittable.py:21-47] -/
def takeKids : List Bool → List (Option L) → Option (List (Option L) × List (Option L))
  | [], ls => some ([], ls)
  | false :: bs, ls => (takeKids bs ls).map fun p => (none :: p.1, p.2)
  | true :: _, [] => none
  | true :: bs, l :: ls => (takeKids bs ls).map fun p => (l :: p.1, p.2)

mutual
/-- `jax.tree_util.tree_unflatten(td, leaves)` consuming the front of the list; a supplied leaf may be `None`.  On a `Jittable`
class JAX collects the children and calls `tree_unflatten` (jittable.py:42-47), which makes an object without running the
constructor and sets `__dict__`.  `none` is JAX's ValueError for a wrong number of leaves. -/
def TD.unflatten : TD L → List (Option L) → Option (PV L × List (Option L))
  | .leaf, [] => none
  | .leaf, none :: ls => some (.none, ls)
  | .leaf, some a :: ls => some (.leaf a, ls)
  | .none, ls => some (.none, ls)
  | .node tag kids, ls => (kids.unflatten ls).map fun p => (.node tag p.1, p.2)
  | .obj c metadata switch dict kids, ls =>
    match takeKids kids ls with
    | none => none
    | some (children, rest) =>
      match dict.unflatten (jitLeaves children metadata switch) with
      | some (attrs, []) => some (.obj c attrs, rest)
      | _ => none
/-- On the children. [no line of its own; part of the model of jittable.py:21-47] -/
def TDs.unflatten : TDs L → List (Option L) → Option (PVs L × List (Option L))
  | .nil, ls => some (.nil, ls)
  | .cons k t rest, ls =>
    match t.unflatten ls with
    | none => none
    | some (v, ls') => (rest.unflatten ls').map fun p => (.cons k v p.1, p.2)
end

/-- `tree_unflatten` at top level: all leaves must be used. [no line of its own; part of the model of jittable.py:21-47] -/
def TD.rebuild (t : TD L) (leaves : List L) : Option (PV L) :=
  match t.unflatten (leaves.map some) with
  | some (v, []) => some v
  | _ => Option.none

/-- `jax.tree_util.tree_map(f, v)`. [external; called e.g. at distribution.py:115] -/
def PV.treeMap (isData : L → Bool) (f : L → L) (v : PV L) : Option (PV L) :=
  (v.flatten isData).2.rebuild ((v.flatten isData).1.map f)

/-- The kinds of leaves that `_is_jax_data` tells apart.  `array` is anything JAX can abstractify that is not a python number
(jax and numpy arrays, numpy integer scalars); numpy's `float64` scalar is a python float. [jittable.py:50-69] -/
inductive PyLeaf where
  | tracer (i : ℕ)
  /-- an instance of exactly `object` -/
  | sentinel (i : ℕ)
  | bool (b : Bool)
  | int (z : ℤ)
  | float (i : ℕ)
  | none
  | array (i : ℕ)
  /-- strings, functions, classes, … : abstractification raises TypeError -/
  | opaque (i : ℕ)

/-- jittable.py:50-69 `_is_jax_data`. -/
def isJaxData : PyLeaf → Bool
  | .tracer _ => true
  | .sentinel _ => true
  | .bool _ => false
  | .int _ => false
  | .float _ => false
  | .none => false
  | .array _ => true
  | .opaque _ => false

end Distrax
