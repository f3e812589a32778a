import Verif.Model.Jaxpr

/-! Vocabulary for C13 and C14. -/

namespace Distrax.Jaxpr

/-- Single assignment: every equation defines fresh variables (jax guarantees this for traced jaxprs). `S` is
the set of variables already defined. -/
def SSA {P : Type} : Prog P → Set ℕ → Prop
  | .done, _ => True
  | .prim _ _ outs rest, S => outs.Nodup ∧ (∀ o ∈ outs, o ∉ S) ∧ SSA rest {v | v ∈ S ∨ v ∈ outs}
  | .call _ cs bIn _ body _ outs rest, S =>
    (cs.map Prod.fst ++ bIn).Nodup ∧ SSA body {v | v ∈ cs.map Prod.fst ++ bIn} ∧
      outs.Nodup ∧ (∀ o ∈ outs, o ∉ S) ∧ SSA rest {v | v ∈ S ∨ v ∈ outs}

/-- A straight-line program in which the value in variable `a` flows to variable `b` through equations whose
only variable operand is the previous result; unary, or binary with a literal on either side; nested calls
allowed. `known p` = the primitive has a registered inverse. -/
inductive Straight {P : Type} (known : P → Prop) : Prog P → ℕ → ℕ → Prop
  | done (a : ℕ) : Straight known .done a a
  | unary {p a o b rest} : known p → Straight known rest o b → Straight known (.prim p [.var a] [o] rest) a b
  | left {p a c o b rest} : known p → Straight known rest o b →
      Straight known (.prim p [.var a, .lit c] [o] rest) a b
  | right {p a c o b rest} : known p → Straight known rest o b →
      Straight known (.prim p [.lit c, .var a] [o] rest) a b
  | call {k cs a x y o b body rest} : Straight known body x y → Straight known rest o b →
      Straight known (.call k cs [x] [.var y] body [.var a] [o] rest) a b

/-- Every primitive application along the run from `env` satisfies `D p idx vals`, where `idx` is the operand
position of the variable and `vals` the operand values. -/
def InDomain {P : Type} (ev : P → List ℝ → Option (List ℝ)) (D : P → ℕ → List ℝ → Prop) :
    Prog P → Env → Prop
  | .done, _ => True
  | .prim p ins outs rest, env => ∀ vals, readAll env ins = some vals →
      (∀ idx, identify ins = .ok idx → D p idx vals) ∧
      ∀ ys, ev p vals = some ys → InDomain ev D rest (writes env outs ys)
  | .call _ cs bIn bOut body ins outs rest, env => ∀ vals, readAll env ins = some vals →
      InDomain ev D body (writes (writeConsts (fun _ => none) cs) bIn vals) ∧
      ∀ benv, run ev body (writes (writeConsts (fun _ => none) cs) bIn vals) = some benv →
        ∀ ys, readAll benv bOut = some ys → InDomain ev D rest (writes env outs ys)

/-- The registry's rule for `p` undoes `p` at the variable operand, wherever `D` holds. -/
def RegistryCorrect {P : Type} (ev : P → List ℝ → Option (List ℝ)) (D : P → ℕ → List ℝ → Prop)
    (R : P → Option Rule) : Prop :=
  ∀ p rule, R p = some rule →
    (∀ x y, ev p [x] = some [y] → D p 0 [x] → rule.pick 0 [y] = some x) ∧
    (∀ x c y, ev p [x, c] = some [y] → D p 0 [x, c] → rule.pick 0 [y, c] = some x) ∧
    (∀ x c y, ev p [c, x] = some [y] → D p 1 [c, x] → rule.pick 1 [c, y] = some x)

/-- Where the default registry inverts: the largest natural domain of each primitive's principal branch.
`c ** x` (variable exponent) is excluded altogether; see `C13_variable_exponent_wrong`. -/
def realDomain : Prim → ℕ → List ℝ → Prop
  | .atanh, _, [x] => -1 < x ∧ x < 1
  | .cosh, _, [x] => 0 ≤ x
  | .acosh, _, [x] => 1 ≤ x
  | .log, _, [x] => 0 < x
  | .sqrt, _, [x] => 0 ≤ x
  | .rsqrt, _, [x] => 0 < x
  | .log1p, _, [x] => -1 < x
  | .erfInv, _, [x] => -1 < x ∧ x < 1
  | .mul, 0, [_, c] => c ≠ 0
  | .mul, _, [c, _] => c ≠ 0
  | .div, 0, [_, c] => c ≠ 0
  | .div, _, [c, x] => c ≠ 0 ∧ x ≠ 0
  | .pow, 0, [x, c] => (0 < x ∧ c ≠ 0) ∨ (x = 0 ∧ 0 < c)
  | .pow, _, _ => False
  | .integerPow n, _, [x] => (0 < x ∧ n ≠ 0) ∨ (x = 0 ∧ 0 < n)
  | .square, _, [x] => 0 ≤ x
  | .other _, _, _ => False
  | _, _, _ => True

/-- Every call equation of the program binds pairwise different variables and returns pairwise different
variables. -/
def vars : List Atom → List ℕ
  | [] => []
  | .var n :: as => n :: vars as
  | .lit _ :: as => vars as

def NoRepeats {P : Type} : Prog P → Prop
  | .done => True
  | .prim _ _ _ rest => NoRepeats rest
  | .call _ _ _ bOut body ins _ rest => (vars ins).Nodup ∧ (vars bOut).Nodup ∧ NoRepeats body ∧ NoRepeats rest

end Distrax.Jaxpr
