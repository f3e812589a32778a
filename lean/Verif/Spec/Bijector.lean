import Verif.Model.Bijector
import Mathlib.Analysis.Calculus.Deriv.Basic

/-!
Vocabulary for stating the bijector properties: which objects exist, when parameters fit the input,
on which inputs every elementwise leaf is inside its documented domain.
-/

namespace Distrax
namespace Bij

/-- Objects that can be obtained by calling the distrax constructors.  The identities the constructors
allocate are arbitrary. -/
inductive Built : Bij → Prop
  | scalarAffine {oneId zeroId a1 a2 : ℕ} {sh : Ref} {sc ls : Option Ref} {b : Bij}
      (h : mkScalarAffine oneId zeroId a1 a2 sh sc ls = .ok b) : Built b
  | shift (s : Ref) : Built (shift s)
  | tanh : Built tanh
  | sigmoid : Built sigmoid
  | gumbelCDF : Built gumbelCDF
  | user (u : UserScalar) (h : Meta.init 0 none u.constJac (some u.constLogDet) =
      .ok ⟨0, 0, u.constJac, u.constLogDet⟩) : Built (user u)
  | chain {bs : List Bij} {b : Bij} (h : mkChain bs = .ok b) (hb : ∀ c ∈ bs, Built c) : Built b
  | inverse {b : Bij} (hb : Built b) : Built (inverse b)
  | block {b c : Bij} {n : ℤ} (h : mkBlock b n = .ok c) (hb : Built b) : Built c

mutual
/-- Every parameter of the object broadcasts into shape `s` (so the bijector does not enlarge inputs
of shape `s`). -/
def Fits : Bij → List ℕ → Prop
  | scalarAffine sh sc _ _, s =>
      broadcastShapes sh.val.shape s = some s ∧ broadcastShapes sc.val.shape s = some s
  | shift p, s => broadcastShapes p.val.shape s = some s
  | chain bs, s => FitsAll bs s
  | inverse b, s => b.Fits s
  | block b _, s => b.Fits s
  | _, _ => True
def FitsAll : List Bij → List ℕ → Prop
  | [], _ => True
  | b :: bs, s => b.Fits s ∧ FitsAll bs s
end

/-- All entries of `x` satisfy `P`. -/
def AllEntries (x : Arr) (P : ℝ → Prop) : Prop := ∀ i, InRange x.shape i → P (x.data i)

mutual
/-- `x` is in the domain: every elementwise leaf receives entries inside its own domain (`scale ≠ 0`; above
the `exp` branch of the sigmoid; `P u v` for a user-defined `u` receiving `v`). -/
def Dom (P Q : UserScalar → ℝ → Prop) : Bij → Arr → Prop
  | scalarAffine _ sc _ _, _ => ∀ i, sc.val.data i ≠ 0
  | shift _, _ => True
  | tanh, _ => True
  | sigmoid, x => AllEntries x (fun v => -9 < v)
  | gumbelCDF, _ => True
  | user u, x => AllEntries x (P u)
  | chain bs, x => DomAll P Q bs x
  | inverse b, x => b.Cod P Q x
  | block b _, x => b.Dom P Q x
/-- The chain applies its last bijector first. -/
def DomAll (P Q : UserScalar → ℝ → Prop) : List Bij → Arr → Prop
  | [], _ => True
  | b :: bs, x => DomAll P Q bs x ∧ ∀ y, chainForward bs x = .ok y → b.Dom P Q y
/-- `y` is in the image: every elementwise leaf's inverse receives entries inside its image. -/
def Cod (P Q : UserScalar → ℝ → Prop) : Bij → Arr → Prop
  | scalarAffine _ sc _ _, _ => ∀ i, sc.val.data i ≠ 0
  | shift _, _ => True
  | tanh, y => AllEntries y (fun v => -1 < v ∧ v < 1)
  | sigmoid, y => AllEntries y (fun v => 1 / (1 + Real.exp 9) < v ∧ v < 1)
  | gumbelCDF, y => AllEntries y (fun v => 0 < v ∧ v < 1)
  | user u, y => AllEntries y (Q u)
  | chain bs, y => CodAll P Q bs y
  | inverse b, y => b.Dom P Q y
  | block b _, y => b.Cod P Q y
/-- The inverse of a chain applies the first bijector's inverse first. -/
def CodAll (P Q : UserScalar → ℝ → Prop) : List Bij → Arr → Prop
  | [], _ => True
  | b :: bs, y => b.Cod P Q y ∧ ∀ z, b.inv y = .ok z → CodAll P Q bs z
end

/-- User-supplied scalar functions are mutually inverse at `v`, with cancelling log-dets. -/
def UserInvFwd (u : UserScalar) (v : ℝ) : Prop := u.inv (u.fwd v) = v ∧ u.ildj (u.fwd v) = -u.fldj v
/-- The same in the other direction. -/
def UserFwdInv (u : UserScalar) (v : ℝ) : Prop := u.fwd (u.inv v) = v ∧ u.fldj (u.inv v) = -u.ildj v
/-- User-supplied log-det is the log-derivative at `v`. -/
def UserFldjOk (u : UserScalar) (v : ℝ) : Prop :=
  ∃ d, d ≠ 0 ∧ HasDerivAt u.fwd d v ∧ u.fldj v = Real.log |d|
/-- The same for the inverse. -/
def UserIldjOk (u : UserScalar) (v : ℝ) : Prop :=
  ∃ d, d ≠ 0 ∧ HasDerivAt u.inv d v ∧ u.ildj v = Real.log |d|

mutual
/-- User-supplied constant flags are honest: a declared-constant log-det is constant, and a
declared-constant Jacobian means an affine map. -/
def Honest : Bij → Prop
  | user u =>
      (u.constLogDet = true → (∀ v w, u.fldj v = u.fldj w) ∧ (∀ v w, u.ildj v = u.ildj w)) ∧
      (u.constJac = true → (∃ a b, ∀ v, u.fwd v = a * v + b) ∧ (∃ a b, ∀ v, u.inv v = a * v + b))
  | chain bs => HonestAll bs
  | inverse b => b.Honest
  | block b _ => b.Honest
  | _ => True
def HonestAll : List Bij → Prop
  | [] => True
  | b :: bs => b.Honest ∧ HonestAll bs
end

mutual
/-- The parameter objects compared by `same_as`. -/
def refs : Bij → List Ref
  | scalarAffine a b _ d => [a, b, d]
  | shift s => [s]
  | chain bs => refsAll bs
  | inverse b => b.refs
  | block b _ => b.refs
  | _ => []
def refsAll : List Bij → List Ref
  | [] => []
  | b :: bs => b.refs ++ refsAll bs
end

/-- Object identity is sound: two references with one identity hold one value. -/
def Coherent (f g : Bij) : Prop :=
  ∀ r ∈ f.refs, ∀ r' ∈ g.refs, r.addr = r'.addr → r.val = r'.val

mutual
/-- No user-defined leaf (whose `same_as` is always False). -/
def NoUser : Bij → Prop
  | user _ => False
  | chain bs => NoUserAll bs
  | inverse b => b.NoUser
  | block b _ => b.NoUser
  | _ => True
def NoUserAll : List Bij → Prop
  | [] => True
  | b :: bs => b.NoUser ∧ NoUserAll bs
end

end Bij

open Classical in
/-- `x` with entry `i` replaced by `v`. -/
noncomputable def Arr.setEntry (x : Arr) (i : List ℕ) (v : ℝ) : Arr :=
  ⟨x.shape, fun j => if j = i then v else x.data j⟩

/-- Negated array. -/
def Arr.neg (a : Arr) : Arr := ⟨a.shape, fun i => -a.data i⟩

end Distrax
