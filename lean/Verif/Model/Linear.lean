import Verif.Model.Bijector
import Mathlib.LinearAlgebra.Matrix.NonsingularInverse

/-!
Model of the linear and affine bijectors: `bijectors/linear.py`, `diag_linear.py`,
`triangular_linear.py`, `unconstrained_affine.py`, `lower_upper_triangular_affine.py`,
`diag_plus_low_rank_linear.py`, with batches of matrices and numpy broadcasting of the batch axes.

External routines: `jax.scipy.linalg.solve_triangular`, `jax.scipy.linalg.solve` and `jnp.linalg.solve`
are a parameter (`LinAlg`) constrained only to solve the system when it is uniquely solvable;
`jnp.linalg.slogdet(A)[1]` is `log |det A|`.
-/

namespace Distrax

open Matrix

/-- The vector at batch index `i` of an array whose last axis has length `n`. [no line of its own; part of the model of linear.py:26-76] -/
def Arr.vec (n : ℕ) (x : Arr) (i : List ℕ) : Fin n → ℝ := fun k => x.data (i ++ [k.val])

/-- The matrix at batch index `i` of an array whose last two axes are `m`, `n`. [no line of its own; part of the model of linear.py:26-76] -/
def Arr.mat (m n : ℕ) (a : Arr) (i : List ℕ) : Matrix (Fin m) (Fin n) ℝ :=
  fun r c => a.data (i ++ [r.val, c.val])

/-- Array of shape `b ++ [n]` holding a batch of vectors. [no line of its own; part of the model of linear.py:26-76] -/
def Arr.ofVec (n : ℕ) (b : List ℕ) (f : List ℕ → Fin n → ℝ) : Arr :=
  ⟨b ++ [n], fun i => if h : i.getLastD 0 < n then f i.dropLast ⟨i.getLastD 0, h⟩ else 0⟩

/-- `jnp.tril`. [external; called e.g. at triangular_linear.py:78] -/
def tril {n : ℕ} (A : Matrix (Fin n) (Fin n) ℝ) : Matrix (Fin n) (Fin n) ℝ :=
  fun r c => if c ≤ r then A r c else 0

/-- `jnp.triu`. [external; called e.g. at triangular_linear.py:78] -/
def triu {n : ℕ} (A : Matrix (Fin n) (Fin n) ℝ) : Matrix (Fin n) (Fin n) ℝ :=
  fun r c => if r ≤ c then A r c else 0

/-- The linear solvers the code calls, constrained by their contracts. [no line of its own; part of the model of linear.py:26-76] -/
structure LinAlg where
  /-- `jnp.linalg.solve` / `jax.scipy.linalg.solve`. -/
  solve : ∀ {n : ℕ}, Matrix (Fin n) (Fin n) ℝ → (Fin n → ℝ) → Fin n → ℝ
  /-- `jax.scipy.linalg.solve_triangular(A, b, lower=...)`: reads only the named triangle. -/
  solveTri : ∀ {n : ℕ}, Bool → Matrix (Fin n) (Fin n) ℝ → (Fin n → ℝ) → Fin n → ℝ
  solve_spec : ∀ {n : ℕ} (A : Matrix (Fin n) (Fin n) ℝ) (b : Fin n → ℝ), A.det ≠ 0 → A *ᵥ solve A b = b
  solveTri_spec : ∀ {n : ℕ} (lower : Bool) (A : Matrix (Fin n) (Fin n) ℝ) (b : Fin n → ℝ),
    (∀ i, A i i ≠ 0) → (if lower then tril A else triu A) *ᵥ solveTri lower A b = b

/-- The six methods of a bijector on arrays (bijector.py 116-143), event rank 1. -/
structure ArrBij where
  forward : Arr → Except Err Arr
  inverse : Arr → Except Err Arr
  fldj : Arr → Except Err Arr
  ildj : Arr → Except Err Arr
  fwdLd : Arr → Except Err (Arr × Arr)
  invLd : Arr → Except Err (Arr × Arr)

namespace ArrBij

/-- A `Bij` object seen through its methods. [no line of its own; part of the model of linear.py:26-76] -/
noncomputable def ofBij (b : Bij) : ArrBij :=
  ⟨b.forward, b.inv, b.fldj, b.ildj, b.fwdAndLd, b.invAndLd⟩

/-- chain.py 83-87. -/
def chainForward : List ArrBij → Arr → Except Err Arr
  | [], x => .ok x
  | b :: bs, x => do
      let y ← chainForward bs x
      b.forward y

/-- chain.py 89-93. -/
def chainInverse : List ArrBij → Arr → Except Err Arr
  | [], y => .ok y
  | b :: bs, y => do
      let x ← b.inverse y
      chainInverse bs x

/-- chain.py 95-101. -/
def chainFwdLd : List ArrBij → Arr → Except Err (Arr × Arr)
  | [], _ => .error .indexError
  | [b], x => b.fwdLd x
  | b :: c :: bs, x => do
      let (y, l) ← chainFwdLd (c :: bs) x
      let (z, ld) ← b.fwdLd y
      let l' ← Arr.bin (· + ·) l ld
      pure (z, l')

/-- The loop of chain.py 106-109. -/
def chainInvLoop : List ArrBij → Arr → Arr → Except Err (Arr × Arr)
  | [], y, l => .ok (y, l)
  | b :: bs, y, l => do
      let (x, ld) ← b.invLd y
      let l' ← Arr.bin (· + ·) l ld
      chainInvLoop bs x l'

/-- chain.py 103-109. -/
def chainInvLd : List ArrBij → Arr → Except Err (Arr × Arr)
  | [], _ => .error .indexError
  | b :: bs, y => do
      let (x, l) ← b.invLd y
      chainInvLoop bs x l

/-- The `Chain` object (chain.py; all ranks are 1 here so the constructor's rank check passes;
`forward_log_det_jacobian` and `inverse_log_det_jacobian` are the base defaults, bijector.py 126-134). -/
def chain (bs : List ArrBij) : ArrBij :=
  { forward := chainForward bs
    inverse := chainInverse bs
    fwdLd := chainFwdLd bs
    invLd := chainInvLd bs
    fldj := fun x => do let (_, l) ← chainFwdLd bs x; pure l
    ildj := fun y => do let (_, l) ← chainInvLd bs y; pure l }

end ArrBij

/-- `_check_forward_input_shape` / `_check_inverse_input_shape` for event rank 1 (bijector.py 175-189). -/
def checkRank1 (x : Arr) : Except Err Unit := if x.shape.length < 1 then .error .valueError else .ok ()

/-- `jnp.vectorize(f, signature="(m),...->(m)")(x, params)`: core dimensions must agree, batch axes of
`x` and of the parameters (`pb`) broadcast. [external; called e.g. at triangular_linear.py:80] -/
def vectorizeVec (n : ℕ) (pb : List ℕ) (f : List ℕ → (Fin n → ℝ) → (Fin n → ℝ)) (x : Arr) :
    Except Err Arr :=
  if x.shape.getLast? = some n then
    match broadcastShapes pb x.shape.dropLast with
    | none => .error .valueError
    | some t => .ok (Arr.ofVec n t (fun i => f (proj pb i) (x.vec n (proj x.shape.dropLast i))))
  else .error .valueError

/-- `jnp.broadcast_to(self._logdet, broadcast_shapes(self._batch_shape, x.shape[:-1]))`
(triangular_linear.py 99-103, unconstrained_affine.py 101-105, diag_plus_low_rank_linear.py 99-103). -/
def bcastLogdet (logdet : Arr) (batch : List ℕ) (x : Arr) : Except Err Arr := do
  checkRank1 x
  match broadcastShapes batch x.shape.dropLast with
  | none => .error .valueError
  | some t => logdet.broadcastTo t

/-- Common method bodies: `forward_and_log_det` returns the pair, `inverse_log_det_jacobian` is minus
`forward_log_det_jacobian` (triangular_linear.py 93-123, unconstrained_affine.py 91-127,
diag_plus_low_rank_linear.py 92-122). -/
def vecBij (n : ℕ) (batch : List ℕ) (logdet : Arr) (f g : List ℕ → (Fin n → ℝ) → (Fin n → ℝ)) : ArrBij :=
  let fwd := fun x => do checkRank1 x; vectorizeVec n batch f x
  let inv := fun y => do checkRank1 y; vectorizeVec n batch g y
  let fl := bcastLogdet logdet batch
  let il := fun y => do let l ← fl y; pure (l.map (fun r => -r))
  { forward := fwd
    inverse := inv
    fldj := fl
    ildj := il
    fwdLd := fun x => do let y ← fwd x; let l ← fl x; pure (y, l)
    invLd := fun y => do let x ← inv y; let l ← il y; pure (x, l) }

/-- A `Linear` object: dimension, batch shape, the `matrix` property and the methods (linear.py). -/
structure Linear where
  n : ℕ
  batch : List ℕ
  matrix : List ℕ → Matrix (Fin n) (Fin n) ℝ
  bij : ArrBij

/-- `DiagLinear.__init__` (diag_linear.py 44-64): `Block(ScalarAffine(shift=0., scale=diag), 1)`; the
`matrix` property is diag_linear.py 72-74, `forward_and_log_det` 76-78.  Object identities play no role here and are set to 0. -/
noncomputable def DiagLinear.mk? (diag : Arr) : Except Err Linear :=
  if diag.shape.length < 1 then .error .valueError
  else do
    let s ← Bij.mkScalarAffine 0 0 0 0 ⟨0, Arr.scalar 0⟩ (some ⟨0, diag⟩) none
    let b ← Bij.mkBlock s 1
    let n := diag.shape.getLastD 0
    pure ⟨n, diag.shape.dropLast, fun i => Matrix.diagonal (diag.vec n i), ArrBij.ofBij b⟩

/-- `TriangularLinear.__init__` and methods (triangular_linear.py 28-38, 58-123). -/
noncomputable def TriangularLinear.mk? (la : LinAlg) (a : Arr) (isLower : Bool) : Except Err Linear :=
  if a.shape.length < 2 then .error .valueError
  else if a.shape.dropLast.getLastD 0 ≠ a.shape.getLastD 0 then .error .valueError
  else
    let n := a.shape.getLastD 0
    let batch := a.shape.dropLast.dropLast
    let m := fun i => if isLower then tril (a.mat n n i) else triu (a.mat n n i)
    let logdet : Arr := ⟨batch, fun i => ∑ k, Real.log |m i k k|⟩
    .ok ⟨n, batch, m,
      vecBij n batch logdet (fun j x => m j *ᵥ x) (fun j y => la.solveTri isLower (m j) y)⟩

/-- `check_affine_parameters` (unconstrained_affine.py 26-47). -/
def checkAffine (matrix bias : List ℕ) : Except Err Unit :=
  if matrix.length < 2 then .error .valueError
  else if bias.length < 1 then .error .valueError
  else if matrix.dropLast.getLastD 0 ≠ matrix.getLastD 0 then .error .valueError
  else if matrix.getLastD 0 ≠ bias.getLastD 0 then .error .valueError
  else .ok ()

/-- An affine object: `matrix`, `bias` and methods. [unconstrained_affine.py:49-136] -/
structure Affine extends Linear where
  bias : List ℕ → Fin n → ℝ

/-- `UnconstrainedAffine.__init__` and methods (unconstrained_affine.py 66-127).  The three-operand
broadcast of `vectorize` is written as broadcasting `x` against the joint batch shape of `matrix` and
`bias`. -/
noncomputable def UnconstrainedAffine.mk? (la : LinAlg) (a b : Arr) : Except Err Affine := do
  checkAffine a.shape b.shape
  let n := a.shape.getLastD 0
  let ba := a.shape.dropLast.dropLast
  let bb := b.shape.dropLast
  match broadcastShapes ba bb with
  | none => .error .valueError
  | some batch =>
    let m := fun i => a.mat n n (proj ba i)
    let c := fun i => b.vec n (proj bb i)
    let logdet : Arr := ⟨ba, fun i => Real.log |(a.mat n n i).det|⟩
    .ok ⟨⟨n, batch, m, vecBij n batch logdet (fun j x => m j *ᵥ x + c j)
      (fun j y => la.solve (m j) (y - c j))⟩, c⟩

/-- `jnp.eye(dim) + jnp.tril(matrix, -1)` (lower_upper_triangular_affine.py 73). -/
def unitLower (a : Arr) : Arr :=
  ⟨a.shape, fun i =>
    (if i.dropLast.getLastD 0 = i.getLastD 0 then 1 else 0) +
      (if i.getLastD 0 < i.dropLast.getLastD 0 then a.data i else 0)⟩

/-- `LowerUpperTriangularAffine.__init__` (lower_upper_triangular_affine.py 60-77): the chain
`[Block(Shift(bias), 1), lower, upper]`; properties `matrix` (90-92) and `bias`.  The class has no batch-shape
attribute; `batch` here is the joint one (incompatible batches fail at the first call, not here). -/
noncomputable def LowerUpperTriangularAffine.mk? (la : LinAlg) (a b : Arr) : Except Err Affine := do
  checkAffine a.shape b.shape
  let upper ← TriangularLinear.mk? la a false
  let lower ← TriangularLinear.mk? la (unitLower a) true
  let sh ← Bij.mkBlock (Bij.shift ⟨0, b⟩) 1
  let n := a.shape.getLastD 0
  let ba := a.shape.dropLast.dropLast
  let bb := b.shape.dropLast
  .ok ⟨⟨n, (broadcastShapes bb ba).getD [], fun i => tril ((unitLower a).mat n n (proj ba i)) * triu (a.mat n n (proj ba i)),
    ArrBij.chain [ArrBij.ofBij sh, lower.bij, upper.bij]⟩, fun i => b.vec n (proj bb i)⟩

/-- `_IdentityPlusLowRankLinear.__init__` and methods (diag_plus_low_rank_linear.py 29-46, 74-122); `u`, `v` have
shapes `… × n × k`. -/
noncomputable def idPlusLowRank (la : LinAlg) (n k : ℕ) (u v : Arr) : Except Err ArrBij :=
  let bu := u.shape.dropLast.dropLast
  let bv := v.shape.dropLast.dropLast
  match broadcastShapes bu bv with
  | none => .error .valueError
  | some batch =>
    let U := fun i => u.mat n k (proj bu i)
    let V := fun i => v.mat n k (proj bv i)
    let small := fun i => (1 : Matrix (Fin k) (Fin k) ℝ) + (V i)ᵀ * U i
    let logdet : Arr := ⟨batch, fun i => Real.log |(small i).det|⟩
    .ok (vecBij n batch logdet (fun j x => x + U j *ᵥ ((V j)ᵀ *ᵥ x))
      (fun j y => y - U j *ᵥ la.solve (small j) ((V j)ᵀ *ᵥ y)))

/-- `_check_shapes_are_valid` (diag_plus_low_rank_linear.py 125-146). -/
def checkLowRank (d u v : List ℕ) : Except Err Unit :=
  if d.length < 1 then .error .valueError
  else if u.length < 2 then .error .valueError
  else if v.length < 2 then .error .valueError
  else if u.dropLast.getLastD 0 ≠ d.getLastD 0 then .error .valueError
  else if ¬ (u.dropLast.getLastD 0 = v.dropLast.getLastD 0 ∧ u.getLastD 0 = v.getLastD 0) then
    .error .valueError
  else .ok ()

/-- `diag[..., None]` (diag_plus_low_rank_linear.py 192). -/
def Arr.expandLast (d : Arr) : Arr := ⟨d.shape ++ [1], fun i => d.data i.dropLast⟩

/-- `DiagPlusLowRankLinear.__init__` (diag_plus_low_rank_linear.py 177-208) and the `matrix` property
(226-231). -/
noncomputable def DiagPlusLowRankLinear.mk? (la : LinAlg) (d u v : Arr) : Except Err Linear := do
  checkLowRank d.shape u.shape v.shape
  let n := d.shape.getLastD 0
  let k := u.shape.getLastD 0
  let w ← Arr.bin (· / ·) u d.expandLast
  let low ← idPlusLowRank la n k w v
  let dl ← DiagLinear.mk? d
  let bd := d.shape.dropLast
  let bu := u.shape.dropLast.dropLast
  let bv := v.shape.dropLast.dropLast
  match broadcastShapes bd bu with
  | none => .error .valueError
  | some b1 =>
    match broadcastShapes b1 bv with
    | none => .error .valueError
    | some batch =>
      .ok ⟨n, batch, fun i => Matrix.diagonal (d.vec n (proj bd i)) +
          u.mat n k (proj bu i) * (v.mat n k (proj bv i))ᵀ,
        ArrBij.chain [dl.bij, low]⟩

end Distrax
