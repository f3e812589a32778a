import Verif.Model.Linear
import Verif.Model.Shape
import Verif.Model.Continuous

/-!
# Multivariate normals

distributions/mvn_from_bijector.py, mvn_diag.py, mvn_tri.py, mvn_full_covariance.py, mvn_diag_plus_low_rank.py.
Arrays with batches; exact reals; `jnp.linalg.cholesky` is a parameter.  TFP distributions (the
`tfd.MultivariateNormalLinearOperator` branches of mvn_from_bijector.py:163-211) are not modelled.
-/

namespace Distrax

open Matrix

/-- Array of shape `b ++ [m, n]` holding a batch of matrices. [no line of its own; part of the model of mvn_from_bijector.py:51-151] -/
def Arr.ofMat (m n : ℕ) (b : List ℕ) (f : List ℕ → Matrix (Fin m) (Fin n) ℝ) : Arr :=
  ⟨b ++ [m, n], fun i =>
    if h : i.dropLast.getLastD 0 < m ∧ i.getLastD 0 < n then
      f i.dropLast.dropLast ⟨i.dropLast.getLastD 0, h.1⟩ ⟨i.getLastD 0, h.2⟩ else 0⟩

/-- `a[..., c]`. [no line of its own; part of the model of mvn_from_bijector.py:51-151] -/
def Arr.col (a : Arr) (c : ℕ) : Arr := ⟨a.shape.dropLast, fun i => a.data (i ++ [c])⟩

/-- `a[..., r, :]`. [no line of its own; part of the model of mvn_from_bijector.py:51-151] -/
def Arr.row (a : Arr) (r : ℕ) : Arr :=
  ⟨a.shape.dropLast.dropLast ++ [a.shape.getLastD 0], fun i => a.data (i.dropLast ++ [r, i.getLastD 0])⟩

/-- `jax.vmap(f, in_axes=-1, out_axes=-1)(a)`.  `f` is traced once (here on slice 0) for the output shape.
[external; called e.g. at mvn_from_bijector.py:131] -/
def vmapLast (f : Arr → Except Err Arr) (a : Arr) : Except Err Arr :=
  if a.shape.length < 1 then .error .valueError
  else do
    let n := a.shape.getLastD 0
    let r0 ← f (a.col 0)
    let rs ← (List.range n).mapM fun c => f (a.col c)
    pure ⟨r0.shape ++ [n], fun i => (rs.getD (i.getLastD 0) r0).data i.dropLast⟩

/-- `jax.vmap(f, in_axes=-2, out_axes=-2)(a)`. [external; called e.g. at mvn_from_bijector.py:131] -/
def vmapRows (f : Arr → Except Err Arr) (a : Arr) : Except Err Arr :=
  if a.shape.length < 2 then .error .valueError
  else do
    let n := a.shape.dropLast.getLastD 0
    let r0 ← f (a.row 0)
    let rs ← (List.range n).mapM fun r => f (a.row r)
    pure ⟨r0.shape.dropLast ++ [n, r0.shape.getLastD 0],
      fun i => (rs.getD (i.dropLast.getLastD 0) r0).data (i.dropLast.dropLast ++ [i.getLastD 0])⟩

/-- `jnp.expand_dims(a, axis=list(range(r - a.ndim)))`: leading axes of length 1 up to rank `r`.
[external; called e.g. at mvn_from_bijector.py:243] -/
def Arr.expandLeading (a : Arr) (r : ℕ) : Arr :=
  ⟨List.replicate (r - a.shape.length) 1 ++ a.shape, fun i => a.data (i.drop (r - a.shape.length))⟩

/-- A linear scale bijector; `diag` is present exactly for instances of `DiagLinear` (its `diag` property). [linear.py:26-76 and its subclasses] -/
structure Scale where
  lin : Linear
  diag : Option Arr

/-- A multivariate normal object: `_loc`, `_scale`, `_batch_shape`, the chained bijector, and (for
`MultivariateNormalFullCovariance` only) `_covariance_matrix`. [mvn_from_bijector.py:67-92] -/
structure MVN where
  loc0 : Arr
  scale : Scale
  batch : List ℕ
  bij : ArrBij
  covM : Option Arr

namespace MVN

/-- mvn_from_bijector.py:67-92 `MultivariateNormalFromBijector.__init__` with `_check_input_parameters_are_valid`
(39-47); the bijector is `Chain([Block(Shift(loc), 1), scale])`. -/
noncomputable def mk? (loc : Arr) (scale : Scale) : Except Err MVN :=
  if loc.shape.length < 1 then .error .valueError
  else if scale.lin.n ≠ loc.shape.getLastD 0 then .error .valueError
  else
    match broadcastShapes scale.lin.batch loc.shape.dropLast with
    | none => .error .valueError
    | some batch => do
      let sh ← Bij.mkBlock (Bij.shift ⟨0, loc⟩) 1
      pure ⟨loc, scale, batch, ArrBij.chain [ArrBij.ofBij sh, scale.lin.bij], none⟩

variable (d : MVN)

/-- The number of dimensions (`event_shape = loc.shape[-1:]`). [mvn_from_bijector.py:51-151] -/
def dim : ℕ := d.loc0.shape.getLastD 0

/-- mvn_from_bijector.py:80-84: the base `Independent(Normal(zeros(batch + event), 1.), 1)`; its `log_prob`
(independent.py:109-111, normal.py:92-96). -/
noncomputable def stdLogProb (x : Arr) : Except Err Arr := do
  let l ← Fam2.method (fun m s v => (Normal.mk m s).logProb v)
    ⟨Arr.zeros (d.batch ++ [d.dim]), Arr.scalar 1, d.batch ++ [d.dim]⟩ x
  reduceSum 1 l

/-- The base's `entropy` (independent.py:113-115, normal.py:117-121). -/
noncomputable def stdEntropy : Except Err Arr := do
  let s ← (Arr.scalar 1).broadcastTo (d.batch ++ [d.dim])
  reduceSum 1 (s.map fun s => 0.5 + (halfLog2pi + Real.log s))

/-- transformed.py:161-166 `log_prob`. -/
noncomputable def logProb (value : Arr) : Except Err Arr := do
  let (x, ildj) ← d.bij.invLd value
  let lp ← d.stdLogProb x
  Arr.bin (· + ·) lp ildj

/-- transformed.py:168-172 `_sample_n`, for one draw `rnd` (shape `batch + event`) of `jax.random.normal`:
the base sample is `1. * rnd + 0.` (normal.py:78-83). -/
def sample (rnd : Arr) : Except Err Arr := d.bij.forward (rnd.map fun z => 1 * z + 0)

/-- transformed.py:212-243 `entropy` with no hint (the chain of a shift and a linear map has constant log-det). -/
noncomputable def entropy : Except Err Arr := do
  let e ← d.stdEntropy
  let l ← d.bij.fldj (Arr.zeros (d.batch ++ [d.dim]))
  Arr.bin (· + ·) e l

/-- mvn_from_bijector.py:100-103 `loc`. -/
def loc : Except Err Arr := d.loc0.broadcastTo (d.batch ++ [d.dim])
/-- mvn_from_bijector.py:105-107. -/
def mean : Except Err Arr := d.loc
/-- mvn_from_bijector.py:109-111. -/
def median : Except Err Arr := d.loc
/-- mvn_from_bijector.py:113-115. -/
def mode : Except Err Arr := d.loc

/-- The `matrix` property of the scale as an array. [linear.py:51-61] -/
def matrixArr : Arr := Arr.ofMat d.scale.lin.n d.scale.lin.n d.scale.lin.batch d.scale.lin.matrix

/-- mvn_full_covariance.py:115-119 `covariance_matrix` (broadcast). -/
def covMatrix (c : Arr) : Except Err Arr := c.broadcastTo (d.batch ++ [d.dim, d.dim])

/-- mvn_from_bijector.py:136-143 `variance`; mvn_full_covariance.py:125-128 when `covM` is present
(`vectorize(jnp.diag, '(k,k)->(k)')`). -/
noncomputable def variance : Except Err Arr :=
  match d.covM with
  | some c => do
    let c ← d.covMatrix c
    pure ⟨d.batch ++ [d.dim], fun i => c.data (i ++ [i.getLastD 0])⟩
  | none => do
    let r ← match d.scale.diag with
      | some dg => pure (dg.map fun x => x ^ 2)
      | none => do
        let sq ← Arr.bin (· * ·) d.matrixArr d.matrixArr
        sq.sumLast 1
    r.broadcastTo (d.batch ++ [d.dim])

/-- mvn_from_bijector.py:117-134 `covariance`; mvn_full_covariance.py:121-123 when `covM` is present. -/
noncomputable def covariance : Except Err Arr :=
  match d.covM with
  | some c => d.covMatrix c
  | none => do
    let r ← match d.scale.diag with
      | some _ => do
        let v ← d.variance
        pure (⟨v.shape ++ [v.shape.getLastD 0], fun i =>
          if i.dropLast.getLastD 0 = i.getLastD 0 then v.data i.dropLast else 0⟩ : Arr)
      | none => vmapRows d.scale.lin.bij.forward d.matrixArr
    r.broadcastTo (d.batch ++ [d.dim, d.dim])

/-- mvn_from_bijector.py:145-151 `stddev`. -/
noncomputable def stddev : Except Err Arr := do
  let r ← match d.scale.diag with
    | some dg => pure (dg.map fun x => |x|)
    | none => do
      let v ← d.variance
      pure (v.map Real.sqrt)
  r.broadcastTo (d.batch ++ [d.dim])

/-- mvn_from_bijector.py:158-160 `_squared_frobenius_norm`. -/
def sqFrob (x : Arr) : Except Err Arr := (x.map fun v => v ^ 2).sumLast 2

/-- mvn_from_bijector.py:163-172 `_log_abs_determinant`. -/
def logAbsDet : Except Err Arr := d.scale.lin.bij.fldj (Arr.zeros [d.dim])

/-- mvn_from_bijector.py:175-183 `_inv_scale_operator`. -/
def invScale (x : Arr) : Except Err Arr := vmapLast d.scale.lin.bij.inverse x

/-- mvn_from_bijector.py:197-211 `_has_diagonal_scale`. -/
def hasDiag : Bool := d.scale.diag.isSome

/-- mvn_from_bijector.py:240-245: `b_inv_a`, with the diagonal shortcut. -/
noncomputable def scaleRatio (d1 d2 : MVN) : Except Err Arr :=
  if d1.hasDiag && d2.hasDiag then do
    let s1 ← d1.stddev
    let s2 ← d2.stddev
    let q ← Arr.bin (· / ·) s1 s2
    pure q.expandLast
  else d2.invScale d1.matrixArr

/-- mvn_from_bijector.py:214-253 `_kl_divergence_mvn_mvn`. -/
noncomputable def kl (d1 d2 : MVN) : Except Err Arr :=
  let numDims := d1.dim
  if numDims ≠ d2.dim then .error .valueError
  else do
    let l2 ← d2.logAbsDet
    let l1 ← d1.logAbsDet
    let diffLogAbsDet ← Arr.bin (· - ·) l2 l1
    let bInvA ← scaleRatio d1 d2
    let m2 ← d2.mean
    let m1 ← d1.mean
    let diffMean ← Arr.bin (· - ·) m2 m1
    let bInvDiffMean ← d2.invScale diffMean.expandLast
    let f1 ← sqFrob bInvA
    let f2 ← sqFrob bInvDiffMean
    let s ← Arr.bin (· + ·) (f1.map fun v => -(numDims : ℝ) + v) f2
    Arr.bin (· + ·) diffLogAbsDet (s.map fun v => 0.5 * v)

end MVN

/-- Wrapping a `DiagLinear` (its `diag` property is the given array). [diag_linear.py:28-84] -/
noncomputable def Scale.ofDiag (diag : Arr) : Except Err Scale := do
  let l ← DiagLinear.mk? diag
  pure ⟨l, some diag⟩

/-- `jnp.ones(s)`. [external; called e.g. at mvn_tri.py:111] -/
def Arr.ones (s : List ℕ) : Arr := ⟨s, fun _ => 1⟩

/-- mvn_diag.py:34-48 `_check_parameters` (`chex.assert_not_both_none` raises AssertionError). -/
def MVNDiag.check (loc scaleDiag : Option Arr) : Except Err Unit :=
  match loc, scaleDiag with
  | none, none => .error .assertionError
  | l, s =>
    if s.any (fun s => s.shape.isEmpty) then .error .valueError
    else if l.any (fun l => l.shape.isEmpty) then .error .valueError
    else match l, s with
      | some l, some s => if l.shape.getLastD 0 ≠ s.shape.getLastD 0 then .error .valueError else .ok ()
      | _, _ => .ok ()

/-- mvn_diag.py:56-94 `MultivariateNormalDiag.__init__` (the unused `bias` is dropped). -/
noncomputable def MVNDiag.mk? (loc scaleDiag : Option Arr) : Except Err MVN := do
  MVNDiag.check loc scaleDiag
  let (l, s) ← match loc, scaleDiag with
    | some l, none => pure (l, Arr.ones [l.shape.getLastD 0])
    | none, some s => pure (Arr.zeros [s.shape.getLastD 0], s)
    | some l, some s => pure (l, s)
    | none, none => .error .assertionError
  match broadcastShapes l.shape s.shape with
  | none => .error .valueError
  | some bs => do
    let l := l.expandLeading bs.length
    let s := s.expandLeading bs.length
    let sc ← Scale.ofDiag s
    MVN.mk? l sc

/-- mvn_diag.py:102-103 `_standardize` on one batch entry, and 105-107 `cdf`, `log_cdf` (value of one event). -/
noncomputable def MVNDiag.cdf {n : ℕ} (loc scaleDiag value : Fin n → ℝ) : ℝ :=
  ∏ k, ndtr ((value k - loc k) / scaleDiag k)

/-- mvn_diag.py:109-112; `log_ndtr` (external) is the logarithm of `ndtr`. -/
noncomputable def MVNDiag.logCdf {n : ℕ} (loc scaleDiag value : Fin n → ℝ) : ℝ :=
  ∑ k, Real.log (ndtr ((value k - loc k) / scaleDiag k))

/-- mvn_tri.py:33-58 (and mvn_full_covariance.py:30-58, identical) `_check_parameters`. -/
def MVNTri.check (loc m : Option Arr) : Except Err Unit :=
  if loc.isNone && m.isNone then .error .valueError
  else if loc.any (fun l => l.shape.length < 1) then .error .valueError
  else if m.any (fun m => m.shape.length < 2) then .error .valueError
  else if m.any (fun m => m.shape.getLastD 0 ≠ m.shape.dropLast.getLastD 0) then .error .valueError
  else match loc, m with
    | some l, some m => if m.shape.getLastD 0 ≠ l.shape.getLastD 0 then .error .valueError else .ok ()
    | _, _ => .ok ()

/-- `jnp.tril` / `jnp.triu` on a batch of matrices. [external; called e.g. at lower_upper_triangular_affine.py:73] -/
def Arr.tri (lower : Bool) (a : Arr) : Arr :=
  ⟨a.shape, fun i => if (if lower then i.getLastD 0 ≤ i.dropLast.getLastD 0 else i.dropLast.getLastD 0 ≤ i.getLastD 0)
    then a.data i else 0⟩

/-- mvn_tri.py:72-118 `MultivariateNormalTri.__init__`. -/
noncomputable def MVNTri.mk? (la : LinAlg) (loc scaleTri : Option Arr) (isLower : Bool) : Except Err MVN := do
  MVNTri.check loc scaleTri
  let l ← match loc, scaleTri with
    | some l, _ => pure l
    | none, some s => pure (Arr.zeros [s.shape.getLastD 0])
    | none, none => .error .assertionError
  let sc ← match scaleTri with
    | none => Scale.ofDiag (Arr.ones [l.shape.getLastD 0])
    | some s => do
      let t ← TriangularLinear.mk? la (s.tri isLower) isLower
      pure (⟨t, none⟩ : Scale)
  MVN.mk? l sc

/-- `jnp.eye(n)`. [external; called e.g. at mvn_tri.py:110] -/
def Arr.eye (n : ℕ) : Arr := ⟨[n, n], fun i => if i.getD 0 0 = i.getD 1 0 then 1 else 0⟩

/-- mvn_full_covariance.py:75-112 `MultivariateNormalFullCovariance.__init__`; `chol` is `jnp.linalg.cholesky`. -/
noncomputable def MVNFullCov.mk? (la : LinAlg) (chol : Arr → Arr) (loc cov : Option Arr) : Except Err MVN := do
  MVNTri.check loc cov
  let l ← match loc, cov with
    | some l, _ => pure l
    | none, some c => pure (Arr.zeros [c.shape.getLastD 0])
    | none, none => .error .assertionError
  match cov with
  | none => do
    let d ← MVNTri.mk? la (some l) none true
    pure { d with covM := some (Arr.eye (l.shape.getLastD 0)) }
  | some c => do
    let d ← MVNTri.mk? la (some l) (some (chol c)) true
    pure { d with covM := some c }

/-- mvn_diag_plus_low_rank.py:33-85 `_check_parameters`. -/
def MVNLowRank.check (loc sd su sv : Option Arr) : Except Err Unit :=
  if loc.isNone && sd.isNone && su.isNone then .error .valueError
  else if sv.isSome && su.isNone then .error .valueError
  else if loc.any (fun x => x.shape.length < 1) then .error .valueError
  else if sd.any (fun x => x.shape.length < 1) then .error .valueError
  else if su.any (fun x => x.shape.length < 2) then .error .valueError
  else if sv.any (fun x => x.shape.length < 2) then .error .valueError
  else if (match su, sv with
    | some u, some v => decide (u.shape.getLastD 0 ≠ v.shape.getLastD 0)
    | _, _ => false) then .error .valueError
  else if su.any (fun u => u.shape.getLastD 0 < 1) then .error .valueError
  else
    let locDim := loc.map fun x => x.shape.getLastD 0
    let sdDim := sd.map fun x => x.shape.getLastD 0
    let suDim := su.map fun x => x.shape.dropLast.getLastD 0
    let svDim := sv.map fun x => x.shape.dropLast.getLastD 0
    let numDims := (locDim.or sdDim).or suDim
    if ([locDim, sdDim, suDim, svDim].filterMap id).all fun x => some x = numDims then .ok ()
    else .error .valueError

/-- mvn_diag_plus_low_rank.py:140-146: `num_dims`. -/
def MVNLowRank.numDims (loc sd su : Option Arr) : Except Err ℕ :=
  match loc, sd, su with
  | some l, _, _ => .ok (l.shape.getLastD 0)
  | none, some s, _ => .ok (s.shape.getLastD 0)
  | none, none, some u => .ok (u.shape.dropLast.getLastD 0)
  | none, none, none => .error .assertionError

/-- mvn_diag_plus_low_rank.py:168-175: the scale bijector. -/
noncomputable def MVNLowRank.scale (la : LinAlg) (dg : Arr) (su sv : Option Arr) : Except Err Scale :=
  match su with
  | none => Scale.ofDiag dg
  | some u => do
    let w ← DiagPlusLowRankLinear.mk? la dg u (sv.getD u)
    pure (⟨w, none⟩ : Scale)

/-- mvn_diag_plus_low_rank.py:105-176 `MultivariateNormalDiagPlusLowRank.__init__`. -/
noncomputable def MVNLowRank.mk? (la : LinAlg) (loc sd su sv : Option Arr) : Except Err MVN := do
  MVNLowRank.check loc sd su sv
  let n ← MVNLowRank.numDims loc sd su
  let sc ← MVNLowRank.scale la (sd.getD (Arr.ones [n])) su sv
  MVN.mk? (loc.getD (Arr.zeros [n])) sc

end Distrax
