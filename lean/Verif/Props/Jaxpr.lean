import Verif.Lemmas.Jaxpr
import Mathlib.Analysis.Calculus.MeanValue

/-!
Properties C13 (automatic inversion) and C14 (constant-Jacobian detection).
-/

namespace Distrax.Jaxpr

variable {P : Type}

/-! ## C13 -/

/-- C13: for every straight-line program over registered primitives (any length, any nesting of calls, literals on
either side, captured constants), `inv(f)` succeeds on `f(x)` and returns `x`, provided the registry's rules are
right on the values that occur. -/
theorem C13_inverse_of_straight {ev : P → List ℝ → Option (List ℝ)} {D : P → ℕ → List ℝ → Prop}
    {R : P → Option Rule} (hR : RegistryCorrect ev D R) {cs : List (ℕ × ℝ)} {a b : ℕ} {p : Prog P}
    (hst : Straight (fun p => R p ≠ none) p a b) (hcs : (cs.map Prod.fst ++ [a]).Nodup)
    (hssa : SSA p {v | v ∈ cs.map Prod.fst ++ [a]}) {x y : ℝ}
    (hf : evalFn ev cs [a] [.var b] p [x] = some [y])
    (hdom : InDomain ev D p (writes (writeConsts (fun _ => none) cs) [a] [x])) :
    inv R cs [a] [.var b] p [y] = .ok x := by
  -- wrap the program as the body of a single call
  have hw : Straight (fun p => R p ≠ none) (.call false cs [a] [.var b] p [.var 0] [1] .done) 0 1 :=
    .call hst (.done 1)
  unfold evalFn at hf
  rw [if_pos (by simp)] at hf
  split at hf
  · simp at hf
  rename_i env' hrun
  obtain ⟨e', he', -, h0⟩ := interp_straight hR hw {v | v = 0} (fun v => if v = 0 then some x else none)
    (write (fun v => if v = 0 then some x else none) 1 y) (write (fun _ => none) 1 y)
    ⟨hcs, hssa, by simp, by simp, trivial⟩ rfl (by intro v hv; by_contra hn; simp at hn; simp [hn] at hv)
    (by
      have hrd : readAll (fun v => if v = 0 then some x else none) [.var 0] = some [x] := by
        simp [readAll, readAtom]
      simp only [run, hrd, List.length_cons, List.length_nil, if_true, hrun, hf]
      rfl) (by
      intro vals hv
      simp [readAll, readAtom] at hv
      subst hv
      exact ⟨hdom, fun _ _ _ _ => trivial⟩)
    (by
      intro v w hv
      by_cases h1 : v = 1
      · subst h1; rw [write_same] at hv ⊢; exact hv
      · rw [write_ne _ _ h1] at hv; simp at hv) (by simp [write_same]) (by simp)
  simp only [if_true] at h0
  have hro : readAll (write (fun _ => none) 1 y) ([1].map .var) = some [y] := by
    simp [readAll, readAtom, write_same]
  simp only [interpInv, identify, hro, List.length_cons, List.length_nil, if_true] at he'
  have hst0 : start cs [.var b] [y] = .ok (writeConsts (writeAtoms (fun _ => none) [.var b] [y]) cs) := by
    simp [start]
  simp only [hst0] at he'
  unfold inv
  simp only [hst0]
  split at he'
  · simp at he'
  rename_i benv2 hb2
  split at he'
  · simp at he'
  rename_i vs hvs
  simp only [hvs]
  have hl : vs.length = 1 := by
    unfold finish at hvs
    split at hvs
    · simp at hvs
    · rename_i vs' h'
      obtain rfl := Except.ok.inj hvs
      simpa using readAll_length _ _ h'
  match vs, hl with
  | [v], _ =>
    obtain rfl := Except.ok.inj he'
    simp only [writeAtoms, writeAtom, write_same] at h0
    simp [Option.some.inj h0]

/-- C13: the default registry's rules are right on each primitive's principal domain (the variable on the left, on
the right, or alone). -/
theorem C13_default_registry_correct (E : Erf) (o : String → ℝ → ℝ) :
    RegistryCorrect (evPrim E o) realDomain (defaultRegistry E) := by
  intro p rule hr
  refine ⟨fun x y h hd => ?_, fun x c y h hd => ?_, fun x c y h hd => ?_⟩
  · cases p <;> simp only [defaultRegistry, Option.some.injEq, reduceCtorEq] at hr <;> subst hr <;>
      simp only [evPrim, un, bi, Option.map_some, Option.map_none, Option.some.injEq, List.cons.injEq, and_true,
        reduceCtorEq] at h <;> subst h <;> simp only [Rule.pick, un, Option.some.injEq] <;>
      simp only [realDomain] at hd
    · exact Real.artanh_tanh x
    · exact Real.tanh_artanh (Set.mem_Ioo.2 hd)
    · exact Real.arsinh_sinh x
    · exact Real.sinh_arsinh x
    · exact Real.arcosh_cosh hd
    · exact Real.cosh_arcosh hd
    · exact Real.log_exp x
    · exact Real.exp_log hd
    · exact Real.sq_sqrt hd
    · rw [div_pow, Real.sq_sqrt hd.le]; field_simp
    · exact neg_neg x
    · rw [Real.exp_log (by linarith)]; ring
    · rw [add_sub_cancel, Real.log_exp]
    · exact E.left x
    · exact E.right x hd.1 hd.2
    · rfl
    · rename_i n
      rcases hd with ⟨hx, hn⟩ | ⟨rfl, hn⟩
      · rw [← Real.rpow_intCast, ← Real.rpow_mul hx.le, mul_one_div_cancel (by exact_mod_cast hn), Real.rpow_one]
      · rw [zero_zpow _ hn.ne', Real.zero_rpow]
        have : (n : ℝ) ≠ 0 := by exact_mod_cast hn.ne'
        positivity
    · exact Real.sqrt_sq hd
  · cases p <;> simp only [defaultRegistry, Option.some.injEq, reduceCtorEq] at hr <;> subst hr <;>
      simp only [evPrim, un, bi, Option.map_some, Option.map_none, Option.some.injEq, List.cons.injEq, and_true,
        reduceCtorEq] at h <;> subst h <;> simp only [Rule.pick, bi, if_true, Option.some.injEq] <;>
      simp only [realDomain] at hd
    · field_simp
    · field_simp
    · ring
    · ring
    · rcases hd with ⟨hx, hn⟩ | ⟨rfl, hn⟩
      · rw [← Real.rpow_mul hx.le, mul_one_div_cancel hn, Real.rpow_one]
      · rw [Real.zero_rpow hn.ne', Real.zero_rpow (by positivity)]
  · cases p <;> simp only [defaultRegistry, Option.some.injEq, reduceCtorEq] at hr <;> subst hr <;>
      simp only [evPrim, un, bi, Option.map_some, Option.map_none, Option.some.injEq, List.cons.injEq, and_true,
        reduceCtorEq] at h <;> subst h <;> simp only [Rule.pick, bi, one_ne_zero, if_false, Option.some.injEq] <;>
      simp only [realDomain] at hd
    · field_simp
    · obtain ⟨h1, h2⟩ := hd; field_simp
    · ring
    · ring

/-- C13: `register_inverse` with a right rule keeps the registry right; the new rule is found for its primitive and no
other rule changes. -/
theorem C13_register {ev : P → List ℝ → Option (List ℝ)} {D : P → ℕ → List ℝ → Prop} {R : P → Option Rule}
    (hR : RegistryCorrect ev D R) (p : P) (left : List ℝ → Option ℝ) (right : Option (List ℝ → Option ℝ))
    (h1 : ∀ x y, ev p [x] = some [y] → D p 0 [x] → left [y] = some x)
    (h2 : ∀ x c y, ev p [x, c] = some [y] → D p 0 [x, c] → left [y, c] = some x)
    (h3 : ∀ x c y, ev p [c, x] = some [y] → D p 1 [c, x] → (right.getD left) [c, y] = some x) :
    RegistryCorrect ev D (register R p left right) ∧ (∀ q, q ≠ p → register R p left right q = R q) ∧
      register R p left right p ≠ none := by
  classical
  have hne : ∀ q, q ≠ p → register R p left right q = R q := fun q hq => by
    unfold register; rw [Function.update_of_ne hq]
  refine ⟨?_, hne, by simp [register]⟩
  intro q rule hq
  by_cases hqp : q = p
  · subst hqp
    simp only [register, Function.update_self, Option.some.injEq] at hq
    cases right with
    | none => subst hq; exact ⟨h1, h2, h3⟩
    | some r => subst hq; exact ⟨h1, h2, h3⟩
  · rw [hne q hqp] at hq
    exact hR q rule hq

/-- An equation the interpreter must refuse: two variable operands, two literals, no or more than two operands, or a
primitive without a registered inverse. -/
def Refused (R : P → Option Rule) (p : P) (ins : List Atom) : Prop :=
  (∀ i, identify ins ≠ .ok i) ∨ R p = none

/-- C13: exact error: when everything after the offending equation inverts, two variable operands or a missing rule
give `NotImplementedError`; two literal operands give `ValueError`. -/
theorem C13_refusals (R : P → Option Rule) (p : P) (ins : List Atom) (outs : List ℕ) (rest : Prog P)
    (env env1 : Env) (hrest : interpInv R rest env = .ok env1) :
    (∀ a b, ins = [.var a, .var b] → interpInv R (.prim p ins outs rest) env = .error .notImplemented) ∧
    (∀ a b, ins = [.lit a, .lit b] → interpInv R (.prim p ins outs rest) env = .error .valueError) ∧
    (3 ≤ ins.length → interpInv R (.prim p ins outs rest) env = .error .notImplemented) ∧
    (R p = none → (∃ i, identify ins = .ok i) → interpInv R (.prim p ins outs rest) env = .error .notImplemented) := by
  refine ⟨?_, ?_, ?_, ?_⟩
  · rintro a b rfl; simp [interpInv, hrest, identify]
  · rintro a b rfl; simp [interpInv, hrest, identify]
  · intro h
    match ins, h with
    | a :: b :: c :: t, _ => cases a <;> cases b <;> simp [interpInv, hrest, identify]
  · rintro hp ⟨i, hi⟩; simp [interpInv, hrest, hi, hp]

/-- C13: a program containing a refused equation anywhere at its top level is never inverted: every input errors. -/
theorem C13_refused_anywhere (R : P → Option Rule) (p : P) (ins : List Atom) (outs : List ℕ) (rest : Prog P)
    (hbad : Refused R p ins) (pre : List (P × List Atom × List ℕ)) (env env' : Env) :
    interpInv R (pre.foldr (fun q acc => .prim q.1 q.2.1 q.2.2 acc) (.prim p ins outs rest)) env ≠ .ok env' := by
  induction pre generalizing env' with
  | nil =>
    simp only [List.foldr_nil, interpInv]
    split
    · simp
    · split
      · simp
      · rename_i i hi
        rcases hbad with hb | hb
        · exact absurd hi (hb i)
        · simp [hb]
  | cons q pre ih =>
    simp only [List.foldr_cons, interpInv]
    split
    · simp
    · rename_i env1 h1
      exact absurd h1 (ih env1)

/-- C13: a function that ignores its input is refused with `ValueError`. -/
theorem C13_no_variable (R : P → Option Rule) (a : ℕ) (c y : ℝ) :
    inv R [] [a] [.lit c] .done [y] = .error .valueError := by
  simp [inv, start, interpInv, finish, readAll, readAtom, writeAtoms, writeAtom, writeConsts, writes]

/-- The program `c ** x` for variable `x`. -/
def powRight (c : ℝ) : Prog Prim := .prim .pow [.lit c, .var 0] [1] .done

/-- C13 fails for a variable exponent: the registry has one rule `x ** (1/y)` for both sides, so `inv(lambda x: 2 ** x)`
maps `2 = 2 ** 1` to `√2`, not `1`. -/
theorem C13_variable_exponent_wrong (E : Erf) (o : String → ℝ → ℝ) :
    evalFn (evPrim E o) [] [0] [.var 1] (powRight 2) [1] = some [2] ∧
    ∃ r, inv (defaultRegistry E) [] [0] [.var 1] (powRight 2) [2] = .ok r ∧ r ≠ 1 := by
  constructor
  · simp [evalFn, powRight, run, readAll, readAtom, writes, writeConsts, write_same, evPrim, bi]
  · refine ⟨(2 : ℝ) ^ (1 / 2 : ℝ), ?_, ?_⟩
    · simp [inv, start, powRight, interpInv, identify, defaultRegistry, readAll, readAtom, writeAtoms, writeAtom,
        writeConsts, writes, write_same, Rule.pick, invArgs, litVals, bi, finish]
    · intro h
      have : ((2 : ℝ) ^ (1 / 2 : ℝ)) ^ (2 : ℝ) = 2 := by
        rw [← Real.rpow_mul (by norm_num)]; norm_num
      rw [h] at this; norm_num at this

/-- C13 fails outside the principal branch: `inv(lambda x: x ** 2)` maps `1 = (-1) ** 2` to `1`. -/
theorem C13_square_branch (E : Erf) (o : String → ℝ → ℝ) :
    evalFn (evPrim E o) [] [0] [.var 1] (.prim .square [.var 0] [1] .done) [-1] = some [1] ∧
    inv (defaultRegistry E) [] [0] [.var 1] (.prim .square [.var 0] [1] .done) [1] = .ok 1 := by
  constructor
  · simp [evalFn, run, readAll, readAtom, writes, writeConsts, write_same, evPrim, un]
  · simp [inv, start, interpInv, identify, defaultRegistry, readAll, readAtom, writeAtoms, writeAtom, writeConsts,
      writes, write_same, Rule.pick, invArgs, litVals, un, finish]

/-- `f(x) = tanh(3 - 2 * x)`, with `2 * x` inside a nested jitted call. -/
noncomputable def exProg : Prog Prim :=
  .call false [] [0] [.var 1] (.prim .mul [.lit 2, .var 0] [1] .done) [.var 0] [5]
    (.prim .sub [.lit 3, .var 5] [6] (.prim .tanh [.var 6] [7] .done))

/-- Non-vacuity of `C13_inverse_of_straight`: all hypotheses hold for `exProg` at every input. -/
example (E : Erf) (o : String → ℝ → ℝ) (x : ℝ) :
    inv (defaultRegistry E) [] [0] [.var 7] exProg [Real.tanh (3 - 2 * x)] = .ok x := by
  refine C13_inverse_of_straight (C13_default_registry_correct E o) ?_ (by simp) ?_ ?_ ?_
  · exact .call (.right (by simp [defaultRegistry]) (.done 1))
      (.right (by simp [defaultRegistry]) (.unary (by simp [defaultRegistry]) (.done 7)))
  · simp [exProg, SSA]
  · simp [exProg, evalFn, run, readAll, readAtom, writes, writeConsts, write, evPrim, bi, un]
  · simp [exProg, InDomain, run, readAll, readAtom, writes, writeConsts, write, evPrim, bi, un, identify, realDomain]

/-! ## C14 -/

/-- C14 (partial): if the analysis reports a constant Jacobian then the Jacobian program returns the same value for all
inputs, whatever its primitives compute - provided no call equation repeats an operand or a result variable.
Missing: programs with such repetitions, for which the claim is false (`C14_repeated_operand_missed`). -/
theorem C14_constant_sound_partial (ev : P → List ℝ → Option (List ℝ)) (cs : List (ℕ × ℝ)) (bIn : List ℕ)
    (bOut : List Atom) (jac : Prog P) (hn : NoRepeats jac) (hc : isConstant bIn bOut jac)
    {x1 x2 r1 r2 : List ℝ} (h1 : evalFn ev cs bIn bOut jac x1 = some r1)
    (h2 : evalFn ev cs bIn bOut jac x2 = some r2) : r1 = r2 := by
  unfold evalFn at h1 h2
  split at h1
  swap; · simp at h1
  rename_i l1
  split at h1
  · simp at h1
  rename_i e1 he1
  split at h2
  swap; · simp at h2
  rename_i l2
  split at h2
  · simp at h2
  rename_i e2 he2
  have hag := dependent_sound ev jac hn {v | v ∈ bIn} _ _ _ _ (by
    intro v hv
    rw [writes_not_mem _ _ _ hv, writes_not_mem _ _ _ hv]) he1 he2
  have := readAll_agree hag (as := bOut) fun n hn' hd => hc ⟨n, hn', hd⟩
  rw [h1, h2] at this
  exact Option.some.inj this

/-- C14 (partial): the user-level reading. If `jac` computes the derivative of `f` and is reported constant, `f` is
affine. -/
theorem C14_constant_means_affine_partial (ev : P → List ℝ → Option (List ℝ)) (cs : List (ℕ × ℝ)) (a : ℕ)
    (out : Atom) (jac : Prog P) (hn : NoRepeats jac) (hc : isConstant [a] [out] jac) (f f' : ℝ → ℝ)
    (hf : ∀ x, HasDerivAt f (f' x) x) (hj : ∀ x, evalFn ev cs [a] [out] jac [x] = some [f' x]) :
    ∃ c, (∀ x, f' x = c) ∧ ∀ x, f x = f 0 + c * x := by
  have hconst : ∀ x, f' x = f' 0 := fun x => by
    have := C14_constant_sound_partial ev cs [a] [out] jac hn hc (hj x) (hj 0)
    simpa using this
  refine ⟨f' 0, hconst, fun x => ?_⟩
  have hg : ∀ x, HasDerivAt (fun x => f x - f' 0 * x) 0 x := fun x => by
    have := (hf x).sub ((hasDerivAt_id x).const_mul (f' 0))
    refine this.congr_deriv ?_
    rw [hconst x]; ring
  have := is_const_of_deriv_eq_zero (fun x => (hg x).differentiableAt) (fun x => (hg x).deriv) x 0
  simp only [mul_zero, sub_zero] at this
  linarith

/-- C14 fails when a call repeats an operand: `dict(zip(...))` keeps only the last pair, so the program below, which
returns its input, is reported constant. -/
theorem C14_repeated_operand_missed :
    ∃ jac : Prog Prim, isConstant [0] [.var 1] jac ∧
      ∀ (E : Erf) (o : String → ℝ → ℝ) (x : ℝ), evalFn (evPrim E o) [] [0] [.var 1] jac [x] = some [x] := by
  refine ⟨.call true [] [0, 1] [.var 0] .done [.var 0, .var 0] [1] .done, ?_, ?_⟩
  · rintro ⟨a, ha, hd⟩
    simp at ha
    subst ha
    simp [dependent, dictGet] at hd
  · intro E o x
    simp [evalFn, run, readAll, readAtom, writes, writeConsts, write]

/-- C14, the other direction where it is easy: an output variable that is an input is reported dependent. -/
theorem C14_input_is_dependent (jac : Prog P) (bIn : List ℕ) (bOut : List Atom) (a : ℕ) (ha : a ∈ bIn)
    (ho : Atom.var a ∈ bOut) : ¬ isConstant bIn bOut jac := by
  intro h
  refine h ⟨a, ho, ?_⟩
  have mono : ∀ (p : Prog P) (d : Set ℕ), ∀ v ∈ d, v ∈ dependent p d := by
    intro p
    induction p with
    | done => intro d v hv; exact hv
    | prim q ins outs rest ih => intro d v hv; exact ih _ v (Or.inl hv)
    | call k cs bI bO body ins outs rest _ ih =>
      intro d v hv
      cases k <;> exact ih _ v (Or.inl hv)
  exact mono jac _ a ha

/-- The Jacobian of `x ↦ 3 * x + 1` (a jitted constant) is reported constant; that of `x ↦ x * x` is not. -/
example : isConstant [0] [.var 2] (.call true [] [0] [.lit 3] .done [.var 0] [2] .done : Prog Prim) := by
  rintro ⟨a, ha, hd⟩
  simp at ha; subst ha
  simp [dependent] at hd

example : NoRepeats (.call true [] [0] [.lit 3] .done [.var 0] [2] .done : Prog Prim) := by
  simp [NoRepeats, vars]

example : ¬ isConstant [0] [.var 1] (.prim .mul [.lit 2, .var 0] [1] .done : Prog Prim) := by
  intro h
  exact h ⟨1, by simp, by simp [dependent]⟩

end Distrax.Jaxpr
