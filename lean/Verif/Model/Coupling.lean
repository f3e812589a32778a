import Verif.Model.Bijector

/-!
Model of `bijectors/masked_coupling.py` and `bijectors/split_coupling.py`.

The conditioner is an arbitrary function from arrays to an arbitrary parameter type, and the `bijector`
callable an arbitrary function from parameters to (abstract) bijector objects.  An array is passed to the
conditioner in canonical form (`Arr.canon`): entries outside the shape, which exist only in this model's
representation of arrays, are set to 0.
-/

namespace Distrax

/-- Forget the (meaningless) entries outside the shape: representation artefact of `Arr`.
[no line of its own; part of the model of masked_coupling.py:29-157] -/
noncomputable def Arr.canon (a : Arr) : Arr :=
  ⟨a.shape, fun i => by classical exact if InRange a.shape i then a.data i else 0⟩

/-- A bijector object as the coupling layers see it: ranks and the two combined methods.
[no line of its own; part of the model of masked_coupling.py:29-157] -/
structure Inner where
  ndimsIn : ℕ
  ndimsOut : ℕ
  fwd : Arr → Except Err (Arr × Arr)
  inv : Arr → Except Err (Arr × Arr)

/-- A boolean array. [the `mask` of masked_coupling.py:60-108] -/
structure Mask where
  shape : List ℕ
  data : List ℕ → Bool

/-- `jnp.where(mask, a, b)` for arrays `a`, `b` of one shape, with the mask broadcast against it. [external; called e.g. at masked_coupling.py:139] -/
def whereArr (m : Mask) (a b : Arr) : Except Err Arr :=
  if a.shape = b.shape then
    match broadcastShapes m.shape a.shape with
    | none => .error .valueError
    | some t => .ok ⟨t, fun i => if m.data (proj m.shape i) then a.data (proj a.shape i)
        else b.data (proj b.shape i)⟩
  else .error .valueError

/-- The object built by `MaskedCoupling.__init__`. [masked_coupling.py:60-108] -/
structure MaskedCoupling (P : Type) where
  mask : Mask
  conditioner : Arr → P
  bijector : P → Inner
  eventNdims : ℕ
  innerEventNdims : ℕ

namespace MaskedCoupling
variable {P : Type}

/-- `MaskedCoupling.__init__`, masked_coupling.py 60-108; `isBool` is `mask.dtype == bool`.  The base
constructor's nonnegativity check (bijector.py 72-114) is applied to `event_ndims`. -/
def mk? (isBool : Bool) (mask : Mask) (conditioner : Arr → P) (bijector : P → Inner)
    (eventNdims : Option ℤ) (innerEventNdims : ℕ) : Except Err (MaskedCoupling P) :=
  if !isBool then .error .valueError
  else
    match eventNdims with
    | none => .ok ⟨mask, conditioner, bijector, mask.shape.length + innerEventNdims, innerEventNdims⟩
    | some e =>
      if e < innerEventNdims then .error .valueError
      else if e < 0 then .error .valueError
      else .ok ⟨mask, conditioner, bijector, e.toNat, innerEventNdims⟩

/-- `self._event_mask`, masked_coupling.py 100: trailing axes of size one are appended. -/
def eventMask (c : MaskedCoupling P) : Mask :=
  ⟨c.mask.shape ++ List.replicate c.innerEventNdims 1, fun i => c.mask.data (i.take c.mask.shape.length)⟩

/-- `_inner_bijector`, masked_coupling.py 125-134. -/
def innerBijector (c : MaskedCoupling P) (params : P) : Except Err Inner :=
  let b := c.bijector params
  if b.ndimsIn ≠ c.innerEventNdims ∨ b.ndimsOut ≠ c.innerEventNdims then .error .valueError else .ok b

/-- `forward_and_log_det`, masked_coupling.py 136-146. -/
noncomputable def fwdAndLd (c : MaskedCoupling P) (x : Arr) : Except Err (Arr × Arr) := do
  if x.shape.length < c.eventNdims then .error .valueError
  else
    let maskedX ← whereArr c.eventMask x (Arr.zeros x.shape)
    let params := c.conditioner maskedX.canon
    let b ← c.innerBijector params
    let (y0, logD) ← b.fwd x
    let y ← whereArr c.eventMask x y0
    let masked ← whereArr c.mask (Arr.zeros logD.shape) logD
    let logdet ← masked.sumLast (c.eventNdims - c.innerEventNdims)
    .ok (y, logdet)

/-- `inverse_and_log_det`, masked_coupling.py 148-157. -/
noncomputable def invAndLd (c : MaskedCoupling P) (y : Arr) : Except Err (Arr × Arr) := do
  if y.shape.length < c.eventNdims then .error .valueError
  else
    let maskedY ← whereArr c.eventMask y (Arr.zeros y.shape)
    let params := c.conditioner maskedY.canon
    let b ← c.innerBijector params
    let (x0, logD) ← b.inv y
    let x ← whereArr c.eventMask y x0
    let masked ← whereArr c.mask (Arr.zeros logD.shape) logD
    let logdet ← masked.sumLast (c.eventNdims - c.innerEventNdims)
    .ok (x, logdet)

end MaskedCoupling

/-! ### Split coupling -/

/-- `a[..., lo:hi, ...]` along axis `p`. [inside `jnp.split`, called at split_coupling.py:153-157] -/
def Arr.sliceAxis (a : Arr) (p lo hi : ℕ) : Arr :=
  ⟨a.shape.set p (hi - lo), fun i => a.data (i.modify p (· + lo))⟩

/-- `jnp.split(x, [idx], axis)` into two parts; the axis is counted from the front here.  Simplification: an
index beyond the axis size is an error (numpy would return an empty second part). [external; called e.g. at split_coupling.py:154] -/
def Arr.split2 (a : Arr) (p idx : ℕ) : Except Err (Arr × Arr) :=
  if p < a.shape.length ∧ idx ≤ a.shape.getD p 0 then
    .ok (a.sliceAxis p 0 idx, a.sliceAxis p idx (a.shape.getD p 0))
  else .error .valueError

/-- `jnp.concatenate([a, b], axis)`; shapes must agree off the axis. [external; called e.g. at split_coupling.py:162] -/
def Arr.concat2 (a b : Arr) (p : ℕ) : Except Err Arr :=
  if p < a.shape.length ∧ a.shape.set p 0 = b.shape.set p 0 then
    .ok ⟨a.shape.set p (a.shape.getD p 0 + b.shape.getD p 0), fun i =>
      if i.getD p 0 < a.shape.getD p 0 then a.data i
      else b.data (i.modify p (· - a.shape.getD p 0))⟩
  else .error .typeError

/-- `distrax.Block(b, n)` on an abstract bijector, block.py 51-124. -/
def Inner.block (b : Inner) (n : ℕ) : Inner where
  ndimsIn := n + b.ndimsIn
  ndimsOut := n + b.ndimsOut
  fwd := fun x =>
    if x.shape.length < n + b.ndimsIn then .error .valueError
    else do
      let (y, l) ← b.fwd x
      let l ← l.sumLast n
      .ok (y, l)
  inv := fun y =>
    if y.shape.length < n + b.ndimsOut then .error .valueError
    else do
      let (x, l) ← b.inv y
      let l ← l.sumLast n
      .ok (x, l)

/-- The object built by `SplitCoupling.__init__`; `axisFromEnd = -split_axis ≥ 1`. [split_coupling.py:73-126] -/
structure SplitCoupling (P : Type) where
  splitIndex : ℕ
  eventNdims : ℕ
  conditioner : Arr → P
  bijector : P → Inner
  swap : Bool
  axisFromEnd : ℕ

namespace SplitCoupling
variable {P : Type}

/-- `SplitCoupling.__init__`, split_coupling.py 73-126. -/
def mk? (splitIndex eventNdims : ℤ) (conditioner : Arr → P) (bijector : P → Inner) (swap : Bool)
    (splitAxis : ℤ) : Except Err (SplitCoupling P) :=
  if splitIndex < 0 then .error .valueError
  else if splitAxis ≥ 0 then .error .valueError
  else if eventNdims < 0 then .error .valueError
  else if splitAxis < -eventNdims then .error .valueError
  else .ok ⟨splitIndex.toNat, eventNdims.toNat, conditioner, bijector, swap, (-splitAxis).toNat⟩

/-- `_split`, split_coupling.py 153-157. -/
def split (c : SplitCoupling P) (x : Arr) : Except Err (Arr × Arr) := do
  let (x1, x2) ← x.split2 (x.shape.length - c.axisFromEnd) c.splitIndex
  if c.swap then .ok (x2, x1) else .ok (x1, x2)

/-- `_recombine`, split_coupling.py 159-162. -/
def recombine (c : SplitCoupling P) (x1 x2 : Arr) : Except Err Arr :=
  if c.swap then x2.concat2 x1 (x2.shape.length - c.axisFromEnd)
  else x1.concat2 x2 (x1.shape.length - c.axisFromEnd)

/-- `_inner_bijector`, split_coupling.py 164-180. -/
def innerBijector (c : SplitCoupling P) (params : P) : Except Err Inner :=
  let b := c.bijector params
  if b.ndimsIn ≠ b.ndimsOut then .error .valueError
  else
    let extra : ℤ := (c.eventNdims : ℤ) - b.ndimsIn
    if extra < 0 then .error .valueError
    else if extra > 0 then .ok (b.block extra.toNat)
    else .ok b

/-- `forward_and_log_det`, split_coupling.py 182-188. -/
noncomputable def fwdAndLd (c : SplitCoupling P) (x : Arr) : Except Err (Arr × Arr) := do
  if x.shape.length < c.eventNdims then .error .valueError
  else
    let (x1, x2) ← c.split x
    let params := c.conditioner x1.canon
    let b ← c.innerBijector params
    let (y2, logdet) ← b.fwd x2
    let y ← c.recombine x1 y2
    .ok (y, logdet)

/-- `inverse_and_log_det`, split_coupling.py 190-196. -/
noncomputable def invAndLd (c : SplitCoupling P) (y : Arr) : Except Err (Arr × Arr) := do
  if y.shape.length < c.eventNdims then .error .valueError
  else
    let (y1, y2) ← c.split y
    let params := c.conditioner y1.canon
    let b ← c.innerBijector params
    let (x2, logdet) ← b.inv y2
    let x ← c.recombine y1 x2
    .ok (x, logdet)

end SplitCoupling
end Distrax
