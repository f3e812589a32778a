import Verif.Model.MVN

/-!
# `__getitem__` of the multivariate normals

mvn_diag.py:114-118, mvn_tri.py:132-138, mvn_full_covariance.py:130-135, mvn_diag_plus_low_rank.py:198-205.  The objects here
also carry the attributes the constructors store besides those of `MultivariateNormalFromBijector`.
-/

namespace Distrax

/-- A `MultivariateNormalDiag`: the base object and `_scale_diag` (mvn_diag.py:94). -/
structure MVNDiagObj where
  mvn : MVN
  scaleDiag0 : Arr

/-- mvn_diag.py:56-94: `__init__`, keeping `_scale_diag` (default ones, leading axes added). -/
noncomputable def MVNDiagObj.mk? (loc scaleDiag : Option Arr) : Except Err MVNDiagObj := do
  let d ← MVNDiag.mk? loc scaleDiag
  let l := loc.getD (Arr.zeros [d.dim])
  let s := scaleDiag.getD (Arr.ones [d.dim])
  match broadcastShapes l.shape s.shape with
  | none => .error .valueError
  | some bs => .ok ⟨d, s.expandLeading bs.length⟩

/-- mvn_diag.py:97-100 `scale_diag`. -/
def MVNDiagObj.scaleDiag (o : MVNDiagObj) : Except Err Arr := o.scaleDiag0.broadcastTo (o.mvn.batch ++ [o.mvn.dim])

/-- mvn_diag.py:114-118 `__getitem__`. -/
noncomputable def MVNDiagObj.getItem (o : MVNDiagObj) (idx : Index) : Except Err MVNDiagObj := do
  let i ← toBatchShapeIndex o.mvn.batch idx
  let l ← o.mvn.loc
  let l ← l.index i
  let s ← o.scaleDiag
  let s ← s.index i
  MVNDiagObj.mk? (some l) (some s)

/-- A `MultivariateNormalTri`: the base object, `_scale_tri` and `_is_lower`. [mvn_tri.py:72-118] -/
structure MVNTriObj where
  mvn : MVN
  scaleTri0 : Arr
  isLower : Bool

/-- mvn_tri.py:71-118: `__init__`, keeping `_scale_tri` (identity by default) and `_is_lower`. -/
noncomputable def MVNTriObj.mk? (la : LinAlg) (loc scaleTri : Option Arr) (isLower : Bool) : Except Err MVNTriObj := do
  let d ← MVNTri.mk? la loc scaleTri isLower
  pure ⟨d, (match scaleTri with
    | none => Arr.eye d.dim
    | some s => s.tri isLower), isLower⟩

/-- mvn_tri.py:120-125 `scale_tri`. -/
def MVNTriObj.scaleTri (o : MVNTriObj) : Except Err Arr :=
  o.scaleTri0.broadcastTo (o.mvn.batch ++ [o.mvn.dim] ++ [o.mvn.dim])

/-- mvn_tri.py:132-138 `__getitem__`. -/
noncomputable def MVNTriObj.getItem (la : LinAlg) (o : MVNTriObj) (idx : Index) : Except Err MVNTriObj := do
  let i ← toBatchShapeIndex o.mvn.batch idx
  let l ← o.mvn.loc
  let l ← l.index i
  let s ← o.scaleTri
  let s ← s.index i
  MVNTriObj.mk? la (some l) (some s) o.isLower

/-- mvn_full_covariance.py:130-135 `__getitem__` (`covariance_matrix` is the broadcast `_covariance_matrix`; an object without
one is not a `MultivariateNormalFullCovariance`). -/
noncomputable def MVNFullCov.getItem (la : LinAlg) (chol : Arr → Arr) (d : MVN) (idx : Index) : Except Err MVN :=
  match d.covM with
  | none => .error .typeError
  | some c => do
    let i ← toBatchShapeIndex d.batch idx
    let l ← d.loc
    let l ← l.index i
    let c ← d.covMatrix c
    let c ← c.index i
    MVNFullCov.mk? la chol (some l) (some c)

/-- A `MultivariateNormalDiagPlusLowRank`: the base object, `_scale_diag`, `_scale_u_matrix`, `_scale_v_matrix`.
[mvn_diag_plus_low_rank.py:105-176] -/
structure MVNLowRankObj where
  mvn : MVN
  sd0 : Arr
  su0 : Arr
  sv0 : Arr

/-- mvn_diag_plus_low_rank.py:105-176: `__init__`, keeping the attributes (defaults: ones, zeros of shape `(n, 1)`, `U`). -/
noncomputable def MVNLowRankObj.mk? (la : LinAlg) (loc sd su sv : Option Arr) : Except Err MVNLowRankObj := do
  let d ← MVNLowRank.mk? la loc sd su sv
  let n ← MVNLowRank.numDims loc sd su
  pure ⟨d, sd.getD (Arr.ones [n]), su.getD (Arr.zeros [n, 1]), sv.getD (su.getD (Arr.zeros [n, 1]))⟩

/-- mvn_diag_plus_low_rank.py:198-205 `__getitem__`, with the properties `scale_diag`, `scale_u_matrix`, `scale_v_matrix`
(179-196). -/
noncomputable def MVNLowRankObj.getItem (la : LinAlg) (o : MVNLowRankObj) (idx : Index) : Except Err MVNLowRankObj := do
  let i ← toBatchShapeIndex o.mvn.batch idx
  let l ← o.mvn.loc
  let l ← l.index i
  let s ← o.sd0.broadcastTo (o.mvn.batch ++ [o.mvn.dim])
  let s ← s.index i
  let u ← o.su0.broadcastTo (o.mvn.batch ++ o.su0.shape.drop (o.su0.shape.length - 2))
  let u ← u.index i
  let v ← o.sv0.broadcastTo (o.mvn.batch ++ o.sv0.shape.drop (o.sv0.shape.length - 2))
  let v ← v.index i
  MVNLowRankObj.mk? la (some l) (some s) (some u) (some v)

end Distrax
