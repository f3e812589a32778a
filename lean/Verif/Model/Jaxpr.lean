import Verif.Model.Arr
import Mathlib.Analysis.SpecialFunctions.Arsinh
import Mathlib.Analysis.SpecialFunctions.Arcosh
import Mathlib.Analysis.SpecialFunctions.Artanh
import Mathlib.Analysis.SpecialFunctions.Pow.Real
import Mathlib.Analysis.SpecialFunctions.Sqrt

/-!
Model of `utils/transformations.py`: jaxprs, their meaning, the inverse interpreter and the dependence
analysis.  A jaxpr is what `jax.make_jaxpr` returns (tracing itself is not modelled): a list of equations
over variables and literals, some of which call nested jaxprs.  Values are real scalars.
-/

namespace Distrax.Jaxpr

/-- An operand: `jex.core.Var` or `jex.core.Literal`. [no line of its own; part of the model of transformations.py:1-339] -/
inductive Atom where
  | var (n : ℕ)
  | lit (v : ℝ)

/-- The python dict `env` (variables to values). [no line of its own; part of the model of transformations.py:1-339] -/
abbrev Env := ℕ → Option ℝ

/-- The equations of a jaxpr, first to last.  `prim` is an ordinary primitive application.  `call` is an
equation with a nested jaxpr (constants, invars, outvars, equations); `isCall = true` for call/map
primitives (`_extract_call_jaxpr` finds the body, lines 333-338), `false` for `pjit`. -/
inductive Prog (P : Type) where
  | done
  | prim (p : P) (ins : List Atom) (outs : List ℕ) (rest : Prog P)
  | call (isCall : Bool) (consts : List (ℕ × ℝ)) (bIn : List ℕ) (bOut : List Atom) (body : Prog P)
      (ins : List Atom) (outs : List ℕ) (rest : Prog P)

/-- Read an operand (lines 262-263). -/
def readAtom (env : Env) : Atom → Option ℝ
  | .var n => env n
  | .lit v => some v

/-- Read several operands. [no line of its own; part of the model of transformations.py:1-339] -/
def readAll (env : Env) : List Atom → Option (List ℝ)
  | [] => some []
  | a :: as =>
    match readAtom env a, readAll env as with
    | some v, some vs => some (v :: vs)
    | _, _ => none

/-- `env[var] = val` (lines 264-265). -/
def write (env : Env) (n : ℕ) (v : ℝ) : Env := fun m => if m = n then some v else env m

/-- Write several variables, in order. [no line of its own; part of the model of transformations.py:1-339] -/
def writes (env : Env) : List ℕ → List ℝ → Env
  | n :: ns, v :: vs => writes (write env n v) ns vs
  | _, _ => env

/-- Write to an operand; a literal key is not a variable. [no line of its own; part of the model of transformations.py:1-339] -/
def writeAtom (env : Env) (a : Atom) (v : ℝ) : Env :=
  match a with
  | .var n => write env n v
  | .lit _ => env

/-- Write to several operands, in order. [no line of its own; part of the model of transformations.py:1-339] -/
def writeAtoms (env : Env) : List Atom → List ℝ → Env
  | a :: as, v :: vs => writeAtoms (writeAtom env a v) as vs
  | _, _ => env

/-- Bind constants. [no line of its own; part of the model of transformations.py:1-339] -/
def writeConsts (env : Env) (cs : List (ℕ × ℝ)) : Env := writes env (cs.map Prod.fst) (cs.map Prod.snd)

/-- Meaning of a jaxpr: evaluate the equations in order (jax's `eval_jaxpr`; the reference semantics).
`ev` interprets primitives. [no line of its own; part of the model of transformations.py:1-339] -/
def run {P : Type} (ev : P → List ℝ → Option (List ℝ)) : Prog P → Env → Option Env
  | .done, env => some env
  | .prim p ins outs rest, env =>
    match readAll env ins with
    | none => none
    | some vals =>
      match ev p vals with
      | none => none
      | some ys => if ys.length = outs.length then run ev rest (writes env outs ys) else none
  | .call _ cs bIn bOut body ins outs rest, env =>
    match readAll env ins with
    | none => none
    | some vals =>
      if vals.length = bIn.length then
        match run ev body (writes (writeConsts (fun _ => none) cs) bIn vals) with
        | none => none
        | some benv =>
          match readAll benv bOut with
          | none => none
          | some ys => if ys.length = outs.length then run ev rest (writes env outs ys) else none
      else none

/-! ### `inv` -/

/-- A registry value: one function, or a (variable-left, variable-right) pair (lines 68-102).  Functions take
the positional argument list. -/
inductive Rule where
  | one (f : List ℝ → Option ℝ)
  | two (left right : List ℝ → Option ℝ)

/-- Lines 299-301. -/
def Rule.pick : Rule → ℕ → List ℝ → Option ℝ
  | .one f, _ => f
  | .two l r, i => if i = 0 then l else r

/-- The value part of literal operands. [no line of its own; part of the model of transformations.py:1-339] -/
def litVals : List Atom → List ℝ
  | [] => []
  | .lit v :: as => v :: litVals as
  | .var _ :: as => litVals as

/-- `_identify_variable_in_eqn` (lines 223-255). -/
def identify : List Atom → Except Err ℕ
  | [_] => .ok 0
  | [.var _, .lit _] => .ok 0
  | [.lit _, .var _] => .ok 1
  | [.var _, .var _] => .error .notImplemented
  | [.lit _, .lit _] => .error .valueError
  | _ => .error .notImplemented

/-- Positional arguments of the inverse (lines 308-312). -/
def invArgs (idx : ℕ) (ins : List Atom) (invals : List ℝ) : List ℝ :=
  if idx = 0 then invals ++ litVals (ins.drop 1) else litVals (ins.take 1) ++ invals

/-- Final check and reads of `_interpret_inverse` (lines 326-330). -/
def finish (bIn : List ℕ) (env : Env) : Except Err (List ℝ) :=
  match readAll env (bIn.map .var) with
  | none => .error .valueError
  | some vs => .ok vs

/-- Initial environment of `_interpret_inverse` (lines 267-268). -/
def start (cs : List (ℕ × ℝ)) (bOut : List Atom) (args : List ℝ) : Except Err Env :=
  if args.length = bOut.length then .ok (writeConsts (writeAtoms (fun _ => none) bOut args) cs)
  else .error .valueError

/-- The loop of `_interpret_inverse` (lines 270-324): equations are processed last to first.  Simplification:
for nested calls the operand reads happen before the body is inverted (python traces a `pjit` body first;
only the choice between two errors can differ), and a nested call with two operands is an error of
unspecified class. -/
def interpInv {P : Type} (R : P → Option Rule) : Prog P → Env → Except Err Env
  | .done, env => .ok env
  | .prim p ins outs rest, env =>
    match interpInv R rest env with
    | .error e => .error e
    | .ok env =>
      match identify ins with
      | .error e => .error e
      | .ok idx =>
        match R p with
        | none => .error .notImplemented
        | some rule =>
          match readAll env (outs.map .var) with
          | none => .error .keyError
          | some invals =>
            match rule.pick idx (invArgs idx ins invals) with
            | none => .error .typeError
            | some v => .ok (writeAtom env (ins.getD idx (.lit 0)) v)
  | .call _ cs bIn bOut body ins outs rest, env =>
    match interpInv R rest env with
    | .error e => .error e
    | .ok env =>
      match identify ins with
      | .error e => .error e
      | .ok _ =>
        match readAll env (outs.map .var) with
        | none => .error .keyError
        | some invals =>
          if ins.length = 1 then
            match start cs bOut invals with
            | .error e => .error e
            | .ok benv =>
              match interpInv R body benv with
              | .error e => .error e
              | .ok benv =>
                match finish bIn benv with
                | .error e => .error e
                | .ok vs => .ok (writeAtoms env ins vs)
          else .error .typeError

/-- `_interpret_inverse(jaxpr, consts, *args)` (lines 258-330) followed by `out[0]` in `inv` (lines 135-137). -/
def inv {P : Type} (R : P → Option Rule) (cs : List (ℕ × ℝ)) (bIn : List ℕ) (bOut : List Atom) (body : Prog P)
    (args : List ℝ) : Except Err ℝ :=
  match start cs bOut args with
  | .error e => .error e
  | .ok env =>
    match interpInv R body env with
    | .error e => .error e
    | .ok env =>
      match finish bIn env with
      | .error e => .error e
      | .ok [] => .error .indexError
      | .ok (v :: _) => .ok v

open Classical in
/-- `register_inverse` (lines 110-126). -/
noncomputable def register {P : Type} (R : P → Option Rule) (p : P) (left : List ℝ → Option ℝ)
    (right : Option (List ℝ → Option ℝ)) : P → Option Rule :=
  Function.update R p (some (match right with
    | none => .one left
    | some r => .two left r))

/-! ### The default registry -/

/-- Real functions Mathlib does not provide: `jax.lax.erf`, `jax.lax.erf_inv`. [no line of its own; part of the model of transformations.py:1-339] -/
structure Erf where
  erf : ℝ → ℝ
  erfInv : ℝ → ℝ
  left : ∀ x, erfInv (erf x) = x
  right : ∀ y, -1 < y → y < 1 → erf (erfInv y) = y

/-- The primitives in `_inverse_registry` (lines 68-102), plus `other` for any primitive not in it.
`integer_pow` carries its static parameter `y`. -/
inductive Prim where
  | tanh | atanh | sinh | asinh | cosh | acosh | exp | log | sqrt | rsqrt | neg | log1p | expm1
  | erf | erfInv | conj | mul | div | add | sub | pow | integerPow (y : ℤ) | square
  | other (name : String)
  deriving DecidableEq

/-- Unary function on an argument list. [no line of its own; part of the model of transformations.py:1-339] -/
def un (f : ℝ → ℝ) : List ℝ → Option ℝ
  | [x] => some (f x)
  | _ => none

/-- Binary function on an argument list. [no line of its own; part of the model of transformations.py:1-339] -/
def bi (f : ℝ → ℝ → ℝ) : List ℝ → Option ℝ
  | [x, y] => some (f x y)
  | _ => none

/-- Meaning of the primitives on reals. `other` names have an arbitrary unary meaning `o`.
[no line of its own; part of the model of transformations.py:1-339] -/
noncomputable def evPrim (E : Erf) (o : String → ℝ → ℝ) (p : Prim) (vals : List ℝ) : Option (List ℝ) :=
  Option.map (fun v => [v]) <| match p with
  | .tanh => un Real.tanh vals
  | .atanh => un Real.artanh vals
  | .sinh => un Real.sinh vals
  | .asinh => un Real.arsinh vals
  | .cosh => un Real.cosh vals
  | .acosh => un Real.arcosh vals
  | .exp => un Real.exp vals
  | .log => un Real.log vals
  | .sqrt => un Real.sqrt vals
  | .rsqrt => un (fun x => 1 / Real.sqrt x) vals
  | .neg => un (fun x => -x) vals
  | .log1p => un (fun x => Real.log (1 + x)) vals
  | .expm1 => un (fun x => Real.exp x - 1) vals
  | .erf => un E.erf vals
  | .erfInv => un E.erfInv vals
  | .conj => un id vals
  | .mul => bi (fun x y => x * y) vals
  | .div => bi (fun x y => x / y) vals
  | .add => bi (fun x y => x + y) vals
  | .sub => bi (fun x y => x - y) vals
  | .pow => bi (fun x y => x ^ y) vals
  | .integerPow n => un (fun x => x ^ n) vals
  | .square => un (fun x => x ^ 2) vals
  | .other s => un (o s) vals

/-- `_inverse_registry` (lines 68-102, with the `square_p` update). -/
noncomputable def defaultRegistry (E : Erf) : Prim → Option Rule
  | .tanh => some (.one (un Real.artanh))
  | .atanh => some (.one (un Real.tanh))
  | .sinh => some (.one (un Real.arsinh))
  | .asinh => some (.one (un Real.sinh))
  | .cosh => some (.one (un Real.arcosh))
  | .acosh => some (.one (un Real.cosh))
  | .exp => some (.one (un Real.log))
  | .log => some (.one (un Real.exp))
  | .sqrt => some (.one (un (fun x => x ^ 2)))
  | .rsqrt => some (.one (un (fun x => 1 / x ^ 2)))
  | .neg => some (.one (un (fun x => -x)))
  | .log1p => some (.one (un (fun x => Real.exp x - 1)))
  | .expm1 => some (.one (un (fun x => Real.log (1 + x))))
  | .erf => some (.one (un E.erfInv))
  | .erfInv => some (.one (un E.erf))
  | .conj => some (.one (un id))
  | .mul => some (.two (bi (fun x y => x / y)) (bi (fun x y => y / x)))
  | .div => some (.two (bi (fun x y => x * y)) (bi (fun x y => x / y)))
  | .add => some (.two (bi (fun x y => x - y)) (bi (fun x y => y - x)))
  | .sub => some (.two (bi (fun x y => x + y)) (bi (fun x y => x - y)))
  | .pow => some (.one (bi (fun x y => x ^ (1 / y))))
  | .integerPow n => some (.one (un (fun x => x ^ (1 / (n : ℝ)))))
  | .square => some (.one (un Real.sqrt))
  | .other _ => none

/-! ### `is_constant_jacobian` -/

/-- `dict(zip(ks, vs))[k]`: the last pair wins. [no line of its own; part of the model of transformations.py:1-339] -/
def dictGet : List Atom → List ℕ → ℕ → Option ℕ
  | .var n :: ks, v :: vs, k =>
    match dictGet ks vs k with
    | some r => some r
    | none => if n = k then some v else none
  | .lit _ :: ks, _ :: vs, k => dictGet ks vs k
  | _, _, _ => none

/-- `_dependent_variables` (lines 189-209), `dependent` as a set. -/
def dependent {P : Type} : Prog P → Set ℕ → Set ℕ
  | .done, d => d
  | .prim _ ins outs rest, d =>
    dependent rest {v | v ∈ d ∨ (v ∈ outs ∧ ∃ a, Atom.var a ∈ ins ∧ a ∈ d)}
  | .call true _ bIn bOut body ins outs rest, d =>
    let argDep : Set ℕ := {b | ∃ a, Atom.var a ∈ ins ∧ a ∈ d ∧ dictGet ins bIn a = some b}
    let sub := dependent body argDep
    dependent rest {v | v ∈ d ∨ ∃ a, Atom.var a ∈ bOut ∧ a ∈ sub ∧ dictGet bOut outs a = some v}
  | .call false _ _ _ _ ins outs rest, d =>
    dependent rest {v | v ∈ d ∨ (v ∈ outs ∧ ∃ a, Atom.var a ∈ ins ∧ a ∈ d)}

/-- `is_constant_jacobian` (lines 141-163) on the jaxpr of the Jacobian: true iff no output variable is
dependent. -/
def isConstant {P : Type} (bIn : List ℕ) (bOut : List Atom) (body : Prog P) : Prop :=
  ¬ ∃ a, Atom.var a ∈ bOut ∧ a ∈ dependent body {v | v ∈ bIn}

/-- The function a closed jaxpr computes. [no line of its own; part of the model of transformations.py:1-339] -/
def evalFn {P : Type} (ev : P → List ℝ → Option (List ℝ)) (cs : List (ℕ × ℝ)) (bIn : List ℕ)
    (bOut : List Atom) (body : Prog P) (args : List ℝ) : Option (List ℝ) :=
  if args.length = bIn.length then
    match run ev body (writes (writeConsts (fun _ => none) cs) bIn args) with
    | none => none
    | some env => readAll env bOut
  else none

end Distrax.Jaxpr
