import Verif.Model.Chain
import Mathlib.Algebra.Group.Basic
import Mathlib.Tactic.Abel

/-!
C02: Chain over arbitrary bijector objects.
-/

namespace Distrax
namespace BObj
variable {V L : Type}

/-- Specification: `f1(f2(...fN(x)))`. -/
def nested : List (BObj V L) → V → Except Err V
  | [], x => .ok x
  | f :: fs, x => do
    let y ← nested fs x
    f.forward y

/-- Specification: value together with the sum of the log-dets each bijector reports at the value it
actually receives, innermost (last) bijector first. -/
def nestedLd [AddMonoid L] : List (BObj V L) → V → Except Err (V × L)
  | [], x => .ok (x, 0)
  | f :: fs, x => do
    let p ← nestedLd fs x
    let q ← f.fwdLd p.1
    pure (q.1, p.2 + q.2)

/-- Specification of the inverse: undo `f1` first. -/
def nestedInvLd [AddMonoid L] : List (BObj V L) → V → Except Err (V × L)
  | [], y => .ok (y, 0)
  | f :: fs, y => do
    let p ← f.invLd y
    let q ← nestedInvLd fs p.1
    pure (q.1, p.2 + q.2)

theorem chainForward_eq (bs : List (BObj V L)) (x : V) : chainForward bs x = nested bs x := by
  unfold chainForward
  induction bs generalizing x with
  | nil => rfl
  | cons b bs ih =>
    rw [List.reverse_cons, List.foldlM_append, ih]
    simp only [nested]
    cases nested bs x with
    | error e => rfl
    | ok y =>
      cases h : b.forward y <;> simp [bind, Except.bind, h, pure, Except.pure]

/-- The loop body of `forward_and_log_det`. -/
def stepF [Add L] (p : V × L) (b : BObj V L) : Except Err (V × L) := do
  let q ← b.fwdLd p.1
  pure (q.1, p.2 + q.2)

theorem chainFwdLd_eq [AddMonoid L] (bs : List (BObj V L)) (hne : bs ≠ []) (x : V) :
    chainFwdLd bs x = nestedLd bs x := by
  have key : ∀ (bs : List (BObj V L)) (b : BObj V L),
      (do let r ← b.fwdLd x; bs.reverse.foldlM stepF r) = nestedLd (bs ++ [b]) x := by
    intro bs b
    induction bs with
    | nil =>
      simp only [List.reverse_nil, List.foldlM, List.nil_append, nestedLd]
      show _ = (do let q ← b.fwdLd x; pure (q.1, 0 + q.2))
      cases b.fwdLd x with
      | error e => rfl
      | ok r => show Except.ok r = Except.ok (r.1, 0 + r.2); rw [zero_add]
    | cons c cs ih =>
      simp only [List.cons_append, nestedLd, ← ih, List.reverse_cons, List.foldlM_append]
      cases b.fwdLd x with
      | error e => rfl
      | ok r =>
        show (do let s ← List.foldlM stepF r cs.reverse; List.foldlM stepF s [c]) =
          (do let p ← List.foldlM stepF r cs.reverse; let q ← c.fwdLd p.1; pure (q.1, p.2 + q.2))
        cases List.foldlM stepF r cs.reverse with
        | error e => rfl
        | ok s =>
          cases h : c.fwdLd s.1 <;> simp [bind, Except.bind, h, pure, Except.pure, stepF]
  obtain ⟨cs, b, rfl⟩ : ∃ cs b, bs = cs ++ [b] :=
    ⟨bs.dropLast, bs.getLast hne, (List.dropLast_append_getLast hne).symm⟩
  rw [← key cs b]
  simp only [chainFwdLd, List.getLast?_append, List.getLast?_singleton, List.dropLast_concat,
    Option.some_or]
  rfl

/-- The loop body of `inverse_and_log_det`. -/
def stepI [Add L] (p : V × L) (b : BObj V L) : Except Err (V × L) := do
  let q ← b.invLd p.1
  pure (q.1, p.2 + q.2)

theorem foldI_eq [AddMonoid L] (bs : List (BObj V L)) (p : V × L) :
    bs.foldlM stepI p = (do let q ← nestedInvLd bs p.1; pure (q.1, p.2 + q.2)) := by
  induction bs generalizing p with
  | nil =>
    show Except.ok p = Except.ok (p.1, p.2 + 0)
    rw [add_zero]
  | cons b bs ih =>
    simp only [List.foldlM, nestedInvLd]
    unfold stepI
    cases h : b.invLd p.1 with
    | error e => rfl
    | ok r =>
      show bs.foldlM stepI (r.1, p.2 + r.2) = _
      rw [ih]
      show (do let q ← nestedInvLd bs r.1; pure (q.1, p.2 + r.2 + q.2)) =
        (do let q ← (do let q ← nestedInvLd bs r.1; pure (q.1, r.2 + q.2)); pure (q.1, p.2 + q.2))
      cases nestedInvLd bs r.1 with
      | error e => rfl
      | ok q =>
        show Except.ok (q.1, p.2 + r.2 + q.2) = Except.ok (q.1, p.2 + (r.2 + q.2))
        rw [add_assoc]

theorem chainInvLd_eq [AddMonoid L] (bs : List (BObj V L)) (hne : bs ≠ []) (y : V) :
    chainInvLd bs y = nestedInvLd bs y := by
  cases bs with
  | nil => exact absurd rfl hne
  | cons b bs =>
    simp only [nestedInvLd]
    show (do let r ← b.invLd y; bs.foldlM stepI r) = _
    cases b.invLd y with
    | error e => rfl
    | ok r => exact foldI_eq bs r

theorem mkChain_ok [Add L] {bs : List (BObj V L)} {c : BObj V L} (h : mkChain bs = .ok c) :
    bs ≠ [] ∧ adjacentOk bs = true ∧ c.forward = chainForward bs ∧ c.inverse = chainInverse bs ∧
    c.fwdLd = chainFwdLd bs ∧ c.invLd = chainInvLd bs ∧
    (∀ x, c.fldj x = (do let r ← c.fwdLd x; pure r.2)) ∧
    (∀ x, c.ildj x = (do let r ← c.invLd x; pure r.2)) := by
  unfold mkChain at h
  split at h
  · split_ifs at h with ha
    cases h
    refine ⟨?_, ha, rfl, rfl, rfl, rfl, fun _ => rfl, fun _ => rfl⟩
    rintro rfl
    simp at *
  · cases h

/-- **C02 (order and log-det of a chain).** Whenever `Chain(bs)` can be constructed, `forward` is
`f1(f2(...fN(x)))`, and `forward_and_log_det` returns that value with the sum of the log-dets of each
`fi` at the value `fi` receives; `inverse_and_log_det` undoes `f1` first. -/
theorem C02_chain_order [AddMonoid L] (bs : List (BObj V L)) (c : BObj V L) (h : mkChain bs = .ok c)
    (x : V) :
    c.forward x = nested bs x ∧ c.fwdLd x = nestedLd bs x ∧ c.invLd x = nestedInvLd bs x ∧
    c.inverse x = bs.foldlM (fun y b => b.inverse y) x := by
  obtain ⟨hne, _, h1, h2, h3, h4, _, _⟩ := mkChain_ok h
  exact ⟨by rw [h1, chainForward_eq], by rw [h3, chainFwdLd_eq bs hne],
    by rw [h4, chainInvLd_eq bs hne], by rw [h2]; rfl⟩

/-- The value part of an object's combined methods agrees with its plain methods. -/
def Consistent (b : BObj V L) : Prop :=
  (∀ x, b.forward x = (do let r ← b.fwdLd x; pure r.1)) ∧
  (∀ y, b.inverse y = (do let r ← b.invLd y; pure r.1)) ∧
  (∀ x, b.fldj x = (do let r ← b.fwdLd x; pure r.2)) ∧
  (∀ y, b.ildj y = (do let r ← b.invLd y; pure r.2))

/-- **C02 (methods agree).** A chain of bijectors whose methods agree has agreeing methods. -/
theorem C02_chain_consistent [AddMonoid L] (bs : List (BObj V L)) (c : BObj V L)
    (h : mkChain bs = .ok c) (hb : ∀ b ∈ bs, Consistent b) : Consistent c := by
  obtain ⟨hne, hadj, h1, h2, h3, h4, h5, h6⟩ := mkChain_ok h
  clear hadj
  refine ⟨fun x => ?_, fun y => ?_, h5, h6⟩
  · rw [h1, h3, chainForward_eq, chainFwdLd_eq bs hne]
    clear h hne h1 h2 h3 h4 h5 h6
    induction bs generalizing x with
    | nil => rfl
    | cons b bs ih =>
      have hb' := hb b (by simp)
      simp only [nested, nestedLd]
      rw [ih (fun c hc => hb c (by simp [hc]))]
      cases nestedLd bs x with
      | error e => rfl
      | ok p =>
        show b.forward p.1 = _
        rw [hb'.1]
        show (do let r ← b.fwdLd p.1; pure r.1) =
          (do let r ← (do let q ← b.fwdLd p.1; pure (q.1, p.2 + q.2)); pure r.1)
        cases b.fwdLd p.1 <;> rfl
  · rw [h2, h4, chainInvLd_eq bs hne]
    clear h hne h1 h2 h3 h4 h5 h6
    unfold chainInverse
    induction bs generalizing y with
    | nil => rfl
    | cons b bs ih =>
      have hb' := hb b (by simp)
      simp only [List.foldlM, nestedInvLd]
      rw [hb'.2.1]
      cases b.invLd y with
      | error e => rfl
      | ok r =>
        show bs.foldlM (fun y b => b.inverse y) r.1 =
          (do let q ← (do let q ← nestedInvLd bs r.1; pure (q.1, r.2 + q.2)); pure q.1)
        rw [ih (fun c hc => hb c (by simp [hc]))]
        cases nestedInvLd bs r.1 <;> rfl

/-- `b` maps `x` to `y` and back, with opposite log-dets. -/
def LawfulAt [Neg L] (b : BObj V L) (x y : V) : Prop :=
  b.forward x = .ok y ∧ b.inverse y = .ok x ∧
  ∃ l, b.fwdLd x = .ok (y, l) ∧ b.invLd y = .ok (x, -l)

/-- `y = f1(f2(...fN(x)))` with every `fi` lawful at the values it sees. -/
def LawfulPath [Neg L] : List (BObj V L) → V → V → Prop
  | [], x, y => x = y
  | f :: fs, x, y => ∃ z, LawfulPath fs x z ∧ LawfulAt f z y

/-- **C02/C01 (closure).** A chain of lawful bijectors is lawful: the inverse undoes the forward map and
the log-dets are opposite. -/
theorem C02_chain_lawful [AddCommGroup L] (bs : List (BObj V L)) (c : BObj V L)
    (h : mkChain bs = .ok c) (x y : V) (hp : LawfulPath bs x y) : LawfulAt c x y := by
  obtain ⟨hne, _, h1, h2, h3, h4, h5, h6⟩ := mkChain_ok h
  have key : ∀ (bs : List (BObj V L)) (x y : V), LawfulPath bs x y → nested bs x = .ok y ∧
      chainInverse bs y = .ok x ∧
      ∃ l, nestedLd bs x = .ok (y, l) ∧ nestedInvLd bs y = .ok (x, -l) := by
    intro bs
    induction bs with
    | nil => intro x y hxy; cases hxy; exact ⟨rfl, rfl, 0, rfl, by simp [nestedInvLd]⟩
    | cons b bs ih =>
      rintro x y ⟨z, hz, hf, hi, l, hl1, hl2⟩
      obtain ⟨i1, i2, m, i3, i4⟩ := ih x z hz
      refine ⟨by simp only [nested, i1]; exact hf, ?_, m + l, ?_, ?_⟩
      · simp only [chainInverse, List.foldlM, hi]; exact i2
      · simp only [nestedLd, i3]
        show (do let q ← b.fwdLd z; pure (q.1, m + q.2)) = _
        rw [hl1]; rfl
      · simp only [nestedInvLd, hl2]
        show (do let q ← nestedInvLd bs z; pure (q.1, -l + q.2)) = _
        rw [i4]
        show Except.ok (x, -l + -m) = Except.ok (x, -(m + l))
        rw [neg_add_rev]
  obtain ⟨k1, k2, l, k3, k4⟩ := key bs x y hp
  exact ⟨by rw [h1, chainForward_eq, k1], by rw [h2, k2], l,
    by rw [h3, chainFwdLd_eq bs hne, k3], by rw [h4, chainInvLd_eq bs hne, k4]⟩

theorem nested_append (fs gs : List (BObj V L)) (x : V) :
    nested (fs ++ gs) x = (do let y ← nested gs x; nested fs y) := by
  induction fs with
  | nil => simp only [List.nil_append, nested]; cases nested gs x <;> rfl
  | cons f fs ih =>
    simp only [List.cons_append, nested, ih]
    cases nested gs x <;> rfl

theorem nestedLd_append [AddMonoid L] (fs gs : List (BObj V L)) (x : V) :
    nestedLd (fs ++ gs) x = (do
      let p ← nestedLd gs x
      let q ← nestedLd fs p.1
      pure (q.1, p.2 + q.2)) := by
  induction fs with
  | nil =>
    simp only [List.nil_append, nestedLd]
    cases nestedLd gs x with
    | error e => rfl
    | ok p => show Except.ok p = Except.ok (p.1, p.2 + 0); rw [add_zero]
  | cons f fs ih =>
    simp only [List.cons_append, nestedLd, ih]
    cases nestedLd gs x with
    | error e => rfl
    | ok p =>
      show (do let r ← (do let q ← nestedLd fs p.1; pure (q.1, p.2 + q.2));
               let q ← f.fwdLd r.1; pure (q.1, r.2 + q.2)) =
           (do let q ← (do let r ← nestedLd fs p.1; let q ← f.fwdLd r.1; pure (q.1, r.2 + q.2));
               pure (q.1, p.2 + q.2))
      cases nestedLd fs p.1 with
      | error e => rfl
      | ok r =>
        show (do let q ← f.fwdLd r.1; pure (q.1, p.2 + r.2 + q.2)) =
           (do let q ← (do let q ← f.fwdLd r.1; pure (q.1, r.2 + q.2)); pure (q.1, p.2 + q.2))
        cases f.fwdLd r.1 with
        | error e => rfl
        | ok q =>
          show Except.ok (q.1, p.2 + r.2 + q.2) = Except.ok (q.1, p.2 + (r.2 + q.2))
          rw [add_assoc]

theorem nestedInvLd_append [AddMonoid L] (fs gs : List (BObj V L)) (y : V) :
    nestedInvLd (fs ++ gs) y = (do
      let p ← nestedInvLd fs y
      let q ← nestedInvLd gs p.1
      pure (q.1, p.2 + q.2)) := by
  induction fs generalizing y with
  | nil =>
    simp only [List.nil_append, nestedInvLd]
    show _ = (do let q ← nestedInvLd gs y; pure (q.1, 0 + q.2))
    cases nestedInvLd gs y with
    | error e => rfl
    | ok p => show Except.ok p = Except.ok (p.1, 0 + p.2); rw [zero_add]
  | cons f fs ih =>
    simp only [List.cons_append, nestedInvLd]
    cases f.invLd y with
    | error e => rfl
    | ok p =>
      show (do let q ← nestedInvLd (fs ++ gs) p.1; pure (q.1, p.2 + q.2)) =
        (do let r ← (do let q ← nestedInvLd fs p.1; pure (q.1, p.2 + q.2));
            let q ← nestedInvLd gs r.1; pure (q.1, r.2 + q.2))
      rw [ih]
      cases nestedInvLd fs p.1 with
      | error e => rfl
      | ok r =>
        show (do let q ← (do let q ← nestedInvLd gs r.1; pure (q.1, r.2 + q.2)); pure (q.1, p.2 + q.2)) =
          (do let q ← nestedInvLd gs r.1; pure (q.1, p.2 + r.2 + q.2))
        cases nestedInvLd gs r.1 with
        | error e => rfl
        | ok q =>
          show Except.ok (q.1, p.2 + (r.2 + q.2)) = Except.ok (q.1, p.2 + r.2 + q.2)
          rw [add_assoc]

/-- **C02 (nesting).** `Chain(fs + gs)` and `Chain([Chain(fs), Chain(gs)])` have the same methods. -/
theorem C02_chain_flatten [AddMonoid L] (fs gs : List (BObj V L)) (cf cg c cc : BObj V L)
    (hf : mkChain fs = .ok cf) (hg : mkChain gs = .ok cg) (h : mkChain (fs ++ gs) = .ok c)
    (hc : mkChain [cf, cg] = .ok cc) (x : V) :
    c.forward x = cc.forward x ∧ c.inverse x = cc.inverse x ∧ c.fwdLd x = cc.fwdLd x ∧
    c.invLd x = cc.invLd x ∧ c.fldj x = cc.fldj x ∧ c.ildj x = cc.ildj x := by
  have e1 := mkChain_ok h
  have e2 := mkChain_ok hc
  have k1 : c.fwdLd x = cc.fwdLd x := by
    rw [(C02_chain_order _ _ h x).2.1, (C02_chain_order _ _ hc x).2.1, nestedLd_append]
    simp only [nestedLd, (C02_chain_order _ _ hg _).2.1]
    show _ = (do let p ← (do let q ← nestedLd gs x; pure (q.1, 0 + q.2));
                 let q ← cf.fwdLd p.1; pure (q.1, p.2 + q.2))
    cases nestedLd gs x with
    | error e => rfl
    | ok p =>
      show (do let q ← nestedLd fs p.1; pure (q.1, p.2 + q.2)) =
        (do let q ← cf.fwdLd p.1; pure (q.1, 0 + p.2 + q.2))
      rw [(C02_chain_order _ _ hf _).2.1, zero_add]
  have k2 : c.invLd x = cc.invLd x := by
    rw [(C02_chain_order _ _ h x).2.2.1, (C02_chain_order _ _ hc x).2.2.1, nestedInvLd_append]
    simp only [nestedInvLd, (C02_chain_order _ _ hf _).2.2.1]
    cases nestedInvLd fs x with
    | error e => rfl
    | ok p =>
      show (do let q ← nestedInvLd gs p.1; pure (q.1, p.2 + q.2)) =
        (do let q ← (do let q ← cg.invLd p.1; pure (q.1, q.2 + 0)); pure (q.1, p.2 + q.2))
      rw [(C02_chain_order _ _ hg _).2.2.1]
      cases nestedInvLd gs p.1 with
      | error e => rfl
      | ok q => show Except.ok (q.1, p.2 + q.2) = Except.ok (q.1, p.2 + (q.2 + 0)); rw [add_zero]
  refine ⟨?_, ?_, k1, k2, ?_, ?_⟩
  · rw [(C02_chain_order _ _ h x).1, (C02_chain_order _ _ hc x).1, nested_append]
    simp only [nested]
    show _ = (do let y ← cg.forward x; cf.forward y)
    rw [(C02_chain_order _ _ hg x).1]
    cases nested gs x with
    | error e => rfl
    | ok y => exact ((C02_chain_order _ _ hf y).1).symm
  · rw [(C02_chain_order _ _ h x).2.2.2, (C02_chain_order _ _ hc x).2.2.2, List.foldlM_append]
    simp only [List.foldlM]
    rw [(C02_chain_order _ _ hf x).2.2.2]
    cases List.foldlM (fun y (b : BObj V L) => b.inverse y) x fs with
    | error e => rfl
    | ok y =>
      simp only [bind, Except.bind, pure, Except.pure]
      rw [(C02_chain_order _ _ hg y).2.2.2]
      cases List.foldlM (fun y (b : BObj V L) => b.inverse y) y gs <;> rfl
  · rw [e1.2.2.2.2.2.2.1, e2.2.2.2.2.2.2.1, k1]
  · rw [e1.2.2.2.2.2.2.2, e2.2.2.2.2.2.2.2, k2]

/-- **C02/C15 (constructor).** `Chain(bs)` raises ValueError exactly for the empty list and for a list in
which some bijector's input rank differs from the output rank of its right neighbour. -/
theorem C02_chain_constructor [Add L] (bs : List (BObj V L)) :
    (mkChain bs = .error .valueError ↔
      bs = [] ∨ ∃ pre f g post, bs = pre ++ f :: g :: post ∧ f.ndimsIn ≠ g.ndimsOut) ∧
    (mkChain bs = .error .valueError ∨ ∃ c, mkChain bs = .ok c) := by
  have hadj : ∀ bs : List (BObj V L), adjacentOk bs = false ↔
      ∃ pre f g post, bs = pre ++ f :: g :: post ∧ f.ndimsIn ≠ g.ndimsOut := by
    intro bs
    induction bs with
    | nil => simp [adjacentOk]
    | cons b bs ih =>
      cases bs with
      | nil =>
        simp only [adjacentOk, List.dropLast_singleton, List.tail_cons, List.zip_nil_left,
          List.all_nil, Bool.true_eq_false, false_iff, not_exists, not_and]
        intro pre f g post h
        have := congrArg List.length h
        simp only [List.length_cons, List.length_nil, List.length_append] at this
        omega
      | cons c cs =>
        have e : adjacentOk (b :: c :: cs) = (b.ndimsIn == c.ndimsOut && adjacentOk (c :: cs)) := by
          simp [adjacentOk, List.dropLast]
        rw [e, Bool.and_eq_false_iff]
        constructor
        · rintro (h | h)
          · exact ⟨[], b, c, cs, rfl, by simpa using h⟩
          · obtain ⟨pre, f, g, post, h1, h2⟩ := ih.1 h
            exact ⟨b :: pre, f, g, post, by rw [h1]; rfl, h2⟩
        · rintro ⟨pre, f, g, post, h1, h2⟩
          cases pre with
          | nil =>
            simp only [List.nil_append, List.cons.injEq] at h1
            left; rw [h1.1, h1.2.1]; simpa using h2
          | cons p pre =>
            simp only [List.cons_append, List.cons.injEq] at h1
            right; exact ih.2 ⟨pre, f, g, post, h1.2, h2⟩
  rw [← hadj]
  cases bs with
  | nil => simp [mkChain]
  | cons b bs =>
    obtain ⟨last, hl⟩ : ∃ last, (b :: bs).getLast? = some last :=
      ⟨_, List.getLast?_eq_some_getLast (by simp)⟩
    simp only [mkChain, List.head?_cons, hl]
    cases h : adjacentOk (b :: bs) <;> simp

/-- Example bijector on `ℤ`: add 3, log-det 5. -/
def exAdd : BObj ℤ ℤ :=
  ⟨0, 0, true, true, fun x => .ok (x + 3), fun y => .ok (y - 3), fun _ => .ok 5,
    fun _ => .ok (-5), fun x => .ok (x + 3, 5), fun y => .ok (y - 3, -5)⟩
/-- Example bijector on `ℤ`: negate, log-det 1. -/
def exNeg : BObj ℤ ℤ :=
  ⟨0, 0, true, true, fun x => .ok (-x), fun y => .ok (-y), fun _ => .ok 1,
    fun _ => .ok (-1), fun x => .ok (-x, 1), fun y => .ok (-y, -1)⟩

/-- Non-vacuity: `Chain([add3, neg])` is constructible, maps 7 to -7 + 3 and is lawful there; the
consistency hypothesis holds of its parts; nested chains exist. -/
example : ∃ c cc : BObj ℤ ℤ, mkChain [exAdd, exNeg] = .ok c ∧ c.forward 7 = .ok (-4) ∧
    LawfulAt c 7 (-4) ∧ Consistent exAdd ∧ mkChain [c, c] = .ok cc := by
  refine ⟨_, _, rfl, rfl, C02_chain_lawful [exAdd, exNeg] _ rfl 7 (-4) ?_, ?_, rfl⟩
  · exact ⟨-7, ⟨7, rfl, rfl, rfl, 1, rfl, rfl⟩, rfl, rfl, 5, rfl, rfl⟩
  · exact ⟨fun _ => rfl, fun _ => rfl, fun _ => rfl, fun _ => rfl⟩

end BObj
end Distrax
