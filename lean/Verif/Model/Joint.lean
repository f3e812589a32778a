import Verif.Model.Arr

/-!
# `Joint`: a tree of independent distributions

distributions/joint.py and the functions of the `tree` library (dm-tree) it calls, modelled by their documentation:
`flatten`, `unflatten_as`, `map_structure`, `map_structure_up_to`, `assert_same_structure`.
-/

namespace Distrax

mutual
/-- A nested python structure: a leaf, or a container with its type (`tag`) and entries in flattening order (a dict's entries
sorted by key, a sequence's by position). [no line of its own; part of the model of joint.py:34-141] -/
inductive Tree (α : Type) where
  | leaf (a : α)
  | node (tag : ℕ) (entries : Forest α)
/-- The entries of a container: key, subtree. [no line of its own; part of the model of joint.py:34-141] -/
inductive Forest (α : Type) where
  | nil
  | cons (key : ℕ) (t : Tree α) (rest : Forest α)
end

mutual
/-- `tree.flatten`. [external; called e.g. at joint.py:72] -/
def Tree.flatten {α : Type} : Tree α → List α
  | .leaf a => [a]
  | .node _ es => Forest.flatten es
/-- Entries in order. [no line of its own; part of the model of joint.py:34-141] -/
def Forest.flatten {α : Type} : Forest α → List α
  | .nil => []
  | .cons _ t rest => Tree.flatten t ++ Forest.flatten rest
end

mutual
/-- `tree.map_structure(f, t)` with `f` raising. [external; called e.g. at joint.py:53] -/
def Tree.mapE {α β : Type} (f : α → Except Err β) : Tree α → Except Err (Tree β)
  | .leaf a => do let b ← f a; pure (.leaf b)
  | .node tag es => do let es ← Forest.mapE f es; pure (.node tag es)
/-- On entries. [no line of its own; part of the model of joint.py:34-141] -/
def Forest.mapE {α β : Type} (f : α → Except Err β) : Forest α → Except Err (Forest β)
  | .nil => pure .nil
  | .cons k t rest => do
    let t ← Tree.mapE f t
    let rest ← Forest.mapE f rest
    pure (.cons k t rest)
end

mutual
/-- `tree.assert_same_structure(a, b, check_types)`: ValueError for different nesting or keys, TypeError for different
container types. [external; called e.g. at joint.py:146] -/
def Tree.sameStructure {α β : Type} (checkTypes : Bool) : Tree α → Tree β → Except Err Unit
  | .leaf _, .leaf _ => pure ()
  | .node t es, .node t' es' =>
    if checkTypes && t != t' then .error .typeError else Forest.sameStructure checkTypes es es'
  | _, _ => .error .valueError
/-- On entries. [no line of its own; part of the model of joint.py:34-141] -/
def Forest.sameStructure {α β : Type} (checkTypes : Bool) : Forest α → Forest β → Except Err Unit
  | .nil, .nil => pure ()
  | .cons k t r, .cons k' t' r' =>
    if k ≠ k' then .error .valueError
    else do
      Tree.sameStructure checkTypes t t'
      Forest.sameStructure checkTypes r r'
  | _, _ => .error .valueError
end

mutual
/-- Rebuild a structure from the front of a list of leaves; also the leaves left over. [no line of its own; part of the model of joint.py:34-141] -/
def Tree.unflattenAux {α β : Type} : Tree α → List β → Except Err (Tree β × List β)
  | .leaf _, b :: bs => pure (.leaf b, bs)
  | .leaf _, [] => .error .valueError
  | .node tag es, bs => do
    let (es, bs) ← Forest.unflattenAux es bs
    pure (.node tag es, bs)
/-- On entries. [no line of its own; part of the model of joint.py:34-141] -/
def Forest.unflattenAux {α β : Type} : Forest α → List β → Except Err (Forest β × List β)
  | .nil, bs => pure (.nil, bs)
  | .cons k t rest, bs => do
    let (t, bs) ← Tree.unflattenAux t bs
    let (rest, bs) ← Forest.unflattenAux rest bs
    pure (.cons k t rest, bs)
end

/-- `tree.unflatten_as(structure, flat)`: ValueError if the number of leaves differs. [external; called e.g. at joint.py:73] -/
def Tree.unflattenAs {α β : Type} (t : Tree α) (bs : List β) : Except Err (Tree β) := do
  if t.flatten.length ≠ bs.length then .error .valueError
  else do
    let (r, _) ← t.unflattenAux bs
    pure r

/-- `tree.map_structure(f, a, b)`: checks the structures, then maps over paired leaves and rebuilds `a`'s structure.
[external; called e.g. at joint.py:53] -/
def Tree.map2 {α β γ : Type} (f : α → β → Except Err γ) (a : Tree α) (b : Tree β) : Except Err (Tree γ) := do
  Tree.sameStructure true a b
  let rs ← (a.flatten.zip b.flatten).mapM (fun p => f p.1 p.2)
  a.unflattenAs rs

mutual
/-- A structure whose leaves are structures is a structure (leaves of a sample may themselves be nested events).
[no line of its own; part of the model of joint.py:34-141] -/
def Tree.join {α : Type} : Tree (Tree α) → Tree α
  | .leaf t => t
  | .node tag es => .node tag (Forest.join es)
/-- On entries. [no line of its own; part of the model of joint.py:34-141] -/
def Forest.join {α : Type} : Forest (Tree α) → Forest α
  | .nil => .nil
  | .cons k t rest => .cons k (Tree.join t) (Forest.join rest)
end

/-- The methods of a component distribution that `Joint` uses.  Events are nested structures of arrays. [the calls of joint.py:34-141] -/
structure JDist (Key : Type) where
  batch : List ℕ
  logProb : Tree Arr → Except Err Arr
  /-- `sample(seed=k, sample_shape=n)` -/
  sample : Key → ℕ → Except Err (Tree Arr)
  /-- `sample_and_log_prob(seed=k, sample_shape=n)` -/
  sampleLP : Key → ℕ → Except Err (Tree Arr × Arr)
  entropy : Except Err Arr
  logCdf : Tree Arr → Except Err Arr
  mean : Except Err (Tree Arr)
  median : Except Err (Tree Arr)
  mode : Except Err (Tree Arr)

namespace Joint

variable {Key : Type}

/-- The loop of joint.py:55-66; `()` and `None` are falsy, so `batch_shape or dist.batch_shape` keeps looking while the
shape is empty. -/
def checkBatch : Option (List ℕ) → List (List ℕ) → Except Err Unit
  | _, [] => pure ()
  | acc, s :: rest =>
    let acc := match acc with
      | none => s
      | some [] => s
      | some (n :: r) => n :: r
    if s ≠ acc then .error .valueError else checkBatch (some acc) rest

/-- joint.py:46-66 `__init__` (conversion of the leaves not modelled). -/
def mk? (ds : Tree (JDist Key)) : Except Err (Tree (JDist Key)) := do
  checkBatch none (ds.flatten.map (·.batch))
  pure ds

/-- `jnp.sum(jnp.stack(xs), axis=0)` (joint.py:90-91, 98-99): `stack` needs at least one array and equal shapes. -/
def stackSum : List Arr → Except Err Arr
  | [] => .error .valueError
  | x :: xs =>
    if xs.all (fun y => y.shape == x.shape) then .ok ⟨x.shape, fun i => ((x :: xs).map (fun a => a.data i)).sum⟩
    else .error .valueError

/-- python `sum(xs)`: starts from `0`, adds with broadcasting. [used in joint.py:94-99] -/
def pySum (xs : List Arr) : Except Err Arr := xs.foldlM (fun acc x => Arr.bin (· + ·) acc x) (Arr.scalar 0)

/-- joint.py:72-75: `split` is `jax.random.split`. -/
def keys (split : Key → ℕ → List Key) (ds : Tree (JDist Key)) (key : Key) : Except Err (Tree Key) :=
  ds.unflattenAs (split key ds.flatten.length)

/-- joint.py:68-75 `_sample_n`. -/
def sampleN (split : Key → ℕ → List Key) (ds : Tree (JDist Key)) (key : Key) (n : ℕ) : Except Err (Tree Arr) := do
  let ks ← keys split ds key
  let r ← Tree.map2 (fun d k => d.sample k n) ds ks
  pure r.join

/-- joint.py:77-92 `_sample_n_and_log_prob`; `map_structure_up_to(ds, p ↦ p[i], r)` takes the components of the results. -/
def sampleNLP (split : Key → ℕ → List Key) (ds : Tree (JDist Key)) (key : Key) (n : ℕ) :
    Except Err (Tree Arr × Arr) := do
  let ks ← keys split ds key
  let r ← Tree.map2 (fun d k => d.sampleLP k n) ds ks
  let samples ← r.mapE (fun p => pure p.1)
  let logProbs ← r.mapE (fun p => pure p.2)
  let lp ← stackSum logProbs.flatten
  pure (samples.join, lp)

/-- joint.py:94-99 `log_prob`. -/
def logProb (ds : Tree (JDist Key)) (value : Tree Arr) : Except Err Arr := do
  let lps ← Tree.map2 (fun d v => d.logProb (.leaf v)) ds value
  stackSum lps.flatten

/-- joint.py:110-112 `batch_shape`. -/
def batch (ds : Tree (JDist Key)) : Except Err (List ℕ) :=
  match ds.flatten with
  | [] => .error .indexError
  | d :: _ => .ok d.batch

/-- joint.py:118-119 `entropy`. -/
def entropy (ds : Tree (JDist Key)) : Except Err Arr := do
  let es ← ds.flatten.mapM (·.entropy)
  pySum es

/-- joint.py:121-124 `log_cdf`: `zip` stops at the shorter list. -/
def logCdf (ds : Tree (JDist Key)) (value : Tree Arr) : Except Err Arr := do
  let ls ← (ds.flatten.zip value.flatten).mapM (fun p => p.1.logCdf (.leaf p.2))
  pySum ls

/-- joint.py:126-128 `mean`. -/
def mean (ds : Tree (JDist Key)) : Except Err (Tree Arr) := do
  let r ← ds.mapE (·.mean)
  pure r.join

/-- joint.py:130-132 `median`. -/
def median (ds : Tree (JDist Key)) : Except Err (Tree Arr) := do
  let r ← ds.mapE (·.median)
  pure r.join

/-- joint.py:134-136 `mode`. -/
def mode (ds : Tree (JDist Key)) : Except Err (Tree Arr) := do
  let r ← ds.mapE (·.mode)
  pure r.join

/-- joint.py:138-141 `__getitem__`; `ix` is `dist[index]`. -/
def getItem (ix : JDist Key → Except Err (JDist Key)) (ds : Tree (JDist Key)) : Except Err (Tree (JDist Key)) := do
  let r ← ds.mapE ix
  mk? r

/-- joint.py:144-150 `_kl_divergence_joint_joint`; `kl` is the components' `kl_divergence`. -/
def kl (klD : JDist Key → JDist Key → Except Err Arr) (d1 d2 : Tree (JDist Key)) : Except Err Arr := do
  Tree.sameStructure false d1 d2
  let ks ← (d1.flatten.zip d2.flatten).mapM (fun p => klD p.1 p.2)
  pySum ks

end Joint
end Distrax
