import Verif.Lemmas.Bijector
import Mathlib.Analysis.Complex.ExponentialBounds

/-!
Properties C01, C03, C04, C05, C06, C15 (bijector expressions over shaped arrays).
-/

namespace Distrax
namespace Bij

/-! ## C01 -/

/-- **C01.** For every bijector built from the constructors (any nesting of Chain, Inverse, Block over
elementwise bijectors), every array whose shape the parameters fit and whose rank is at least the event
rank, and whose entries are in the domain of every leaf they reach: `forward` succeeds and keeps the shape,
`inverse` of the result gives `x` back, and the two log-dets are opposite, with one entry per batch
element. -/
theorem C01_inverse_forward (b : Bij) (hb : Built b) (x : Arr) (hf : b.Fits x.shape)
    (hr : b.ndimsIn ≤ x.shape.length) (hd : b.Dom UserInvFwd UserFwdInv x) :
    ∃ y x' l l', b.forward x = .ok y ∧ b.inv y = .ok x' ∧ b.fldj x = .ok l ∧ b.ildj y = .ok l' ∧
      y.shape = x.shape ∧ x' ≈ₐ x ∧ l' ≈ₐ l.neg ∧
      l.shape = x.shape.take (x.shape.length - b.ndimsIn) := by
  have r := refines b x.shape hb.wf hf hr
  have law := (scheme_den lawScheme b x.shape hb.wf hf hr x rfl).1 hd
  obtain ⟨y, h1, h2⟩ := r.fwd x rfl
  obtain ⟨x', h3, h4⟩ := r.inv y h2.1
  obtain ⟨l, h5, h6⟩ := r.fld x rfl
  obtain ⟨l', h7, h8⟩ := r.ild y h2.1
  refine ⟨y, x', l, l', h1, h3, h5, h7, h2.1, ⟨h4.1, fun i hi => ?_⟩, ⟨h8.1.trans h6.1.symm, ?_⟩, h6.1⟩
  · rw [h4.1] at hi
    rw [h4.2 i hi, h2.2 i hi]
    exact (law i hi).1
  · intro i hi
    rw [h8.1] at hi
    simp only [Arr.neg, h8.2 i hi, h6.2 i hi]
    rw [← list_sum_neg]
    congr 1
    apply List.map_congr_left
    intro j hj
    rw [mem_allIdx] at hj
    have hij := take_drop_inRange hi hj
    rw [h2.2 _ hij, (law _ hij).2]

/-- **C01 (other direction).** `forward(inverse(y)) == y` on the image, with opposite log-dets. -/
theorem C01_forward_inverse (b : Bij) (hb : Built b) (y : Arr) (hf : b.Fits y.shape)
    (hr : b.ndimsOut ≤ y.shape.length) (hd : b.Cod UserInvFwd UserFwdInv y) :
    ∃ x y' l l', b.inv y = .ok x ∧ b.forward x = .ok y' ∧ b.ildj y = .ok l ∧ b.fldj x = .ok l' ∧
      x.shape = y.shape ∧ y' ≈ₐ y ∧ l' ≈ₐ l.neg ∧
      l.shape = y.shape.take (y.shape.length - b.ndimsOut) := by
  have h := C01_inverse_forward (Bij.inverse b) (Built.inverse hb) y
    (by simpa only [Fits] using hf) (by simpa only [ndimsIn] using hr) (by simpa only [Dom] using hd)
  simpa only [forward, Bij.inv, fldj, ildj, ndimsIn] using h

/-- A concrete object used in the non-vacuity checks:
`Chain([Block(ScalarAffine(shift=1, scale=[2,3]), 1), Inverse(Chain([Block(Tanh(), 1)])),
 Block(Tanh(), 1)])`. -/
noncomputable def exChain : Bij :=
  chain [block (scalarAffine ⟨0, Arr.scalar 1⟩ ⟨1, ⟨[2], fun i => 2 + i.headD 0⟩⟩
      ⟨2, ⟨[2], fun i => 1 / (2 + i.headD 0)⟩⟩ ⟨3, ⟨[2], fun i => Real.log |2 + i.headD 0|⟩⟩) 1,
    inverse (chain [block tanh 1]), block tanh 1]

theorem exChain_built : Built exChain := by
  have h1 : Built (block tanh 1) := Built.block (n := 1) rfl Built.tanh
  refine Built.chain (b := exChain) (bs :=
    [block (scalarAffine ⟨0, Arr.scalar 1⟩ ⟨1, ⟨[2], fun i => 2 + i.headD 0⟩⟩
      ⟨2, ⟨[2], fun i => 1 / (2 + i.headD 0)⟩⟩ ⟨3, ⟨[2], fun i => Real.log |2 + i.headD 0|⟩⟩) 1,
    inverse (chain [block tanh 1]), block tanh 1]) ?_ ?_
  · simp [mkChain, exChain, adjacentOk, ndimsIn, ndimsOut, ndimsInLast, ndimsOutHead]
  · intro c hc
    simp only [List.mem_cons, List.not_mem_nil, or_false] at hc
    rcases hc with rfl | rfl | rfl
    · refine Built.block (n := 1) rfl (Built.scalarAffine (oneId := 0) (zeroId := 0) (a1 := 2) (a2 := 3)
        (sh := ⟨0, Arr.scalar 1⟩) (sc := some ⟨1, ⟨[2], fun i => 2 + i.headD 0⟩⟩) (ls := none) ?_)
      simp [mkScalarAffine, Arr.scalar, broadcastShapes, brev, Arr.map]
    · refine Built.inverse (Built.chain (bs := [block tanh 1]) ?_ ?_)
      · simp [mkChain, adjacentOk]
      · simpa using h1
    · exact h1

/-- Non-vacuity of C01: `exChain` on a 3×2 array meets all hypotheses. -/
example : ∃ x : Arr, x.shape = [3, 2] ∧ Built exChain ∧ exChain.Fits x.shape ∧
    exChain.ndimsIn ≤ x.shape.length ∧ exChain.Dom UserInvFwd UserFwdInv x := by
  refine ⟨⟨[3, 2], fun _ => 1 / 2⟩, rfl, exChain_built, ?_, ?_, ?_⟩
  · simp [exChain, Fits, FitsAll, Arr.scalar, broadcastShapes, brev, bdim]
  · simp [exChain, ndimsIn, ndimsInLast]
  · simp only [exChain, Dom, DomAll, Cod, CodAll, true_and, and_true, implies_true]
    refine ⟨?_, ?_⟩
    · intro y hy
      simp only [chainForward, forward, fwdAndLd, bind_ok, checkFwd, ndimsIn] at hy
      simp only [List.length_cons, List.length_nil, Nat.reduceAdd, Nat.reduceLT, if_false, bind_ok,
        Except.bind, bind] at hy
      cases hy
      intro i _
      exact ⟨Real.neg_one_lt_tanh _, Real.tanh_lt_one _⟩
    · intro _ _ i
      positivity

/-! ## C03 -/

/-- **C03 (flags are ordered).** A reported constant Jacobian implies a reported constant log-det. -/
theorem C03_flags_ordered (b : Bij) (hb : Built b) (h : b.constJac = true) : b.constLogDet = true :=
  flag_imp b hb.wf h

/-- **C03 (constant log-det).** If a bijector reports `is_constant_log_det` (and user-supplied leaves report
honestly), its forward and inverse log-dets are the same at any two inputs of the same shape. -/
theorem C03_constant_log_det (b : Bij) (hb : Built b) (hh : b.Honest) (h : b.constLogDet = true)
    (x x' : Arr) (hs : x.shape = x'.shape) (hf : b.Fits x.shape) (hr : b.ndimsIn ≤ x.shape.length) :
    ∃ l l' m m', b.fldj x = .ok l ∧ b.fldj x' = .ok l' ∧ l ≈ₐ l' ∧
      b.ildj x = .ok m ∧ b.ildj x' = .ok m' ∧ m ≈ₐ m' := by
  have r := refines b x.shape hb.wf hf hr
  obtain ⟨l, h1, h2⟩ := r.fld x rfl
  obtain ⟨l', h3, h4⟩ := r.fld x' hs.symm
  obtain ⟨m, h5, h6⟩ := r.ild x rfl
  obtain ⟨m', h7, h8⟩ := r.ild x' hs.symm
  refine ⟨l, l', m, m', h1, h3, ⟨h2.1.trans h4.1.symm, fun i hi => ?_⟩, h5, h7,
    ⟨h6.1.trans h8.1.symm, fun i hi => ?_⟩⟩
  · rw [h2.1] at hi
    rw [h2.2 i hi, h4.2 i hi]
    congr 1
    exact List.map_congr_left fun j _ => (const_ld b hh h _).1 _ _
  · rw [h6.1] at hi
    rw [h6.2 i hi, h8.2 i hi]
    congr 1
    exact List.map_congr_left fun j _ => (const_ld b hh h _).2 _ _

/-- **C03 (constant Jacobian).** If a bijector reports `is_constant_jacobian`, `forward` is affine entry by
entry with coefficients independent of the input (so its derivative is the same everywhere). -/
theorem C03_constant_jacobian (b : Bij) (hb : Built b) (hh : b.Honest) (h : b.constJac = true)
    (s : List ℕ) (hf : b.Fits s) (hr : b.ndimsIn ≤ s.length) :
    ∃ p q : List ℕ → ℝ, ∀ x : Arr, x.shape = s → ∃ y, b.forward x = .ok y ∧ y.shape = s ∧
      ∀ i, InRange s i → y.data i = p i * x.data i + q i := by
  have r := refines b s hb.wf hf hr
  have c := fun i => (const_jac b hh h i).1
  choose p q hpq using c
  refine ⟨p, q, fun x hx => ?_⟩
  obtain ⟨y, h1, h2⟩ := r.fwd x hx
  exact ⟨y, h1, h2.1, fun i hi => by rw [h2.2 i hi]; exact hpq i _⟩

/-- Non-vacuity: `Chain([Shift(1), Inverse(Shift(1))])` reports both flags; `Chain([Tanh()])` neither. -/
example : (chain [shift ⟨0, Arr.scalar 1⟩, inverse (shift ⟨0, Arr.scalar 1⟩)]).constJac = true ∧
    (chain [shift ⟨0, Arr.scalar 1⟩, inverse (shift ⟨0, Arr.scalar 1⟩)]).constLogDet = true ∧
    (chain [shift ⟨0, Arr.scalar 1⟩, inverse (shift ⟨0, Arr.scalar 1⟩)]).Honest ∧
    (chain [shift ⟨0, Arr.scalar 1⟩, inverse (shift ⟨0, Arr.scalar 1⟩)]).Fits [4] ∧
    (chain [tanh]).constJac = false := by
  simp [constJac, constJacAll, constLogDet, constLogDetAll, Honest, HonestAll, Fits, FitsAll, Arr.scalar,
    broadcastShapes, brev]

/-! ## C04 -/

/-- **C04.** If `f.same_as(g)` is True, `f` and `g` behave identically: `forward`, `inverse`,
`forward_and_log_det`, `inverse_and_log_det` return (or raise) exactly the same at every input, and the
log-det methods return the same arrays on every input the parameters fit. -/
theorem C04_same_as_sound (f g : Bij) (hf : Built f) (hg : Built g) (hc : Coherent f g)
    (h : f.sameAs g = true) :
    (∀ x, f.forward x = g.forward x) ∧ (∀ y, f.inv y = g.inv y) ∧
    (∀ x, f.fwdAndLd x = g.fwdAndLd x) ∧ (∀ y, f.invAndLd y = g.invAndLd y) ∧
    f.ndimsIn = g.ndimsIn ∧ f.ndimsOut = g.ndimsOut ∧
    (∀ x : Arr, f.Fits x.shape → g.Fits x.shape → f.ndimsIn ≤ x.shape.length →
      (∃ l l', f.fldj x = .ok l ∧ g.fldj x = .ok l' ∧ l ≈ₐ l') ∧
      (∃ l l', f.ildj x = .ok l ∧ g.ildj x = .ok l' ∧ l ≈ₐ l')) := by
  have r := sameAs_sound f g hf.wf hg.wf hc h
  refine ⟨r.1, r.2.1, r.2.2.1, r.2.2.2.1, r.2.2.2.2.1, r.2.2.2.2.2.1, ?_⟩
  intro x h1 h2 h3
  have rf := refines f x.shape hf.wf h1 h3
  have rg := refines g x.shape hg.wf h2 (by rw [← r.2.2.2.2.1]; exact h3)
  constructor
  · obtain ⟨l, e1, e2⟩ := rf.fld x rfl
    obtain ⟨l', e3, e4⟩ := rg.fld x rfl
    rw [← r.2.2.2.2.1] at e4
    refine ⟨l, l', e1, e3, e2.1.trans e4.1.symm, fun i hi => ?_⟩
    rw [e2.1] at hi
    rw [e2.2 i hi, e4.2 i hi]
    simp only [r.2.2.2.2.2.2]
  · obtain ⟨l, e1, e2⟩ := rf.ild x rfl
    obtain ⟨l', e3, e4⟩ := rg.ild x rfl
    rw [← r.2.2.2.2.1] at e4
    refine ⟨l, l', e1, e3, e2.1.trans e4.1.symm, fun i hi => ?_⟩
    rw [e2.1] at hi
    rw [e2.2 i hi, e4.2 i hi]
    simp only [r.2.2.2.2.2.2]

/-- **C04 (reflexive without user-defined leaves).** -/
theorem C04_same_as_refl (b : Bij) (h : b.NoUser) : b.sameAs b = true := sameAs_refl b h

/-- **C04 (not reflexive for Lambda).** A user-defined/`Lambda` bijector is never the same as itself. -/
theorem C04_lambda_never_same (u : UserScalar) (g : Bij) : (user u).sameAs g = false := by
  simp only [sameAs]

/-- **C04 (not symmetric).** `Chain([f]).same_as(f)` holds for every user-free non-chain `f`, but
`f.same_as(Chain([f]))` does not. -/
theorem C04_same_as_not_symmetric :
    (chain [tanh]).sameAs tanh = true ∧ tanh.sameAs (chain [tanh]) = false := by
  simp [sameAs]

/-- **C04 (fresh scales).** Two `ScalarAffine` objects built from the *same* `scale` object are still
reported different, because each constructor allocates its own `log_scale` (completeness gap). -/
theorem C04_scalar_affine_incomplete (sh s : Ref) (a1 a2 c1 c2 o z : ℕ) (hne : a2 ≠ c2) (f g : Bij)
    (hf : mkScalarAffine o z a1 a2 sh (some s) none = .ok f)
    (hg : mkScalarAffine o z c1 c2 sh (some s) none = .ok g) : f.sameAs g = false := by
  unfold mkScalarAffine at hf hg
  simp only at hf hg
  split at hf <;> cases hf
  split at hg <;> cases hg
  simp [sameAs, hne]

/-- Non-vacuity of C04: a built chain that is `same_as` a different object. -/
example : Built (chain [tanh]) ∧ Built tanh ∧ Coherent (chain [tanh]) tanh ∧
    (chain [tanh]).sameAs tanh = true ∧ exChain.NoUser := by
  refine ⟨Built.chain (bs := [tanh]) (by simp [mkChain, adjacentOk]) (by simpa using Built.tanh),
    Built.tanh, ?_, by simp [sameAs], ?_⟩
  · intro r hr; simp [refs, refsAll] at hr
  · simp [exChain, NoUser, NoUserAll]

/-! ## C05 -/

/-- **C05.** For every built bijector expression: each output entry depends only on the same input entry; as
a function of it, it is differentiable with nonzero derivative `D i`; and the reported log-det is
`∑ log |D|` over the event entries, i.e. the log of the absolute Jacobian determinant (the Jacobian is
diagonal). -/
theorem C05_log_det_is_log_derivative (b : Bij) (hb : Built b) (x : Arr) (hf : b.Fits x.shape)
    (hr : b.ndimsIn ≤ x.shape.length) (hd : b.Dom UserFldjOk UserIldjOk x) :
    ∃ D : List ℕ → ℝ, ∃ l, b.fldj x = .ok l ∧
      (∀ i, InRange x.shape i → D i ≠ 0 ∧
        ∃ φ : ℝ → ℝ, HasDerivAt φ (D i) (x.data i) ∧
          ∀ x' : Arr, x'.shape = x.shape → ∃ y', b.forward x' = .ok y' ∧ y'.data i = φ (x'.data i)) ∧
      l.shape = x.shape.take (x.shape.length - b.ndimsIn) ∧
      (∀ i, InRange l.shape i → l.data i =
        ((allIdx (x.shape.drop (x.shape.length - b.ndimsIn))).map
          (fun j => Real.log |D (i ++ j)|)).sum) := by
  have r := refines b x.shape hb.wf hf hr
  have der := (scheme_den derScheme b x.shape hb.wf hf hr x rfl).1 hd
  obtain ⟨l, h5, h6⟩ := r.fld x rfl
  classical
  refine ⟨fun i => if h : InRange x.shape i then (der i h).choose else 1, l, h5, ?_, h6.1, ?_⟩
  · intro i hi
    have hs := (der i hi).choose_spec
    simp only [dif_pos hi]
    refine ⟨hs.1, (b.den i).F, hs.2.1, fun x' hx' => ?_⟩
    obtain ⟨y', h1, h2⟩ := r.fwd x' hx'
    exact ⟨y', h1, h2.2 i hi⟩
  · intro i hi
    rw [h6.1] at hi
    rw [h6.2 i hi]
    congr 1
    apply List.map_congr_left
    intro j hj
    rw [mem_allIdx] at hj
    have hij := take_drop_inRange hi hj
    simp only [dif_pos hij]
    exact (der _ hij).choose_spec.2.2

/-- **C05 (inverse methods).** The same for `inverse` and `inverse_log_det_jacobian`. -/
theorem C05_inverse_log_det_is_log_derivative (b : Bij) (hb : Built b) (y : Arr) (hf : b.Fits y.shape)
    (hr : b.ndimsOut ≤ y.shape.length) (hd : b.Cod UserFldjOk UserIldjOk y) :
    ∃ D : List ℕ → ℝ, ∃ l, b.ildj y = .ok l ∧
      (∀ i, InRange y.shape i → D i ≠ 0 ∧
        ∃ φ : ℝ → ℝ, HasDerivAt φ (D i) (y.data i) ∧
          ∀ y' : Arr, y'.shape = y.shape → ∃ x', b.inv y' = .ok x' ∧ x'.data i = φ (y'.data i)) ∧
      l.shape = y.shape.take (y.shape.length - b.ndimsOut) ∧
      (∀ i, InRange l.shape i → l.data i =
        ((allIdx (y.shape.drop (y.shape.length - b.ndimsOut))).map
          (fun j => Real.log |D (i ++ j)|)).sum) := by
  have h := C05_log_det_is_log_derivative (Bij.inverse b) (Built.inverse hb) y
    (by simpa only [Fits] using hf) (by simpa only [ndimsIn] using hr) (by simpa only [Dom] using hd)
  simpa only [forward, fldj, ndimsIn] using h

/-- **C05 (one value, five presentations).** The separate methods agree with the combined ones. -/
theorem C05_methods_agree (b : Bij) (hb : Built b) (x : Arr) (hf : b.Fits x.shape)
    (hr : b.ndimsIn ≤ x.shape.length) :
    (∃ y l y' l', b.fwdAndLd x = .ok (y, l) ∧ b.forward x = .ok y' ∧ b.fldj x = .ok l' ∧
      y ≈ₐ y' ∧ l ≈ₐ l') ∧
    (∃ y l y' l', b.invAndLd x = .ok (y, l) ∧ b.inv x = .ok y' ∧ b.ildj x = .ok l' ∧
      y ≈ₐ y' ∧ l ≈ₐ l') := by
  have r := refines b x.shape hb.wf hf hr
  constructor
  · obtain ⟨y, l, h1, h2, h3⟩ := r.fwdLd x rfl
    obtain ⟨y', h4, h5⟩ := r.fwd x rfl
    obtain ⟨l', h6, h7⟩ := r.fld x rfl
    exact ⟨y, l, y', l', h1, h4, h6,
      ⟨h2.1.trans h5.1.symm, fun i hi => by rw [h2.1] at hi; rw [h2.2 i hi, h5.2 i hi]⟩,
      ⟨h3.1.trans h7.1.symm, fun i hi => by rw [h3.1] at hi; rw [h3.2 i hi, h7.2 i hi]⟩⟩
  · obtain ⟨y, l, h1, h2, h3⟩ := r.invLd x rfl
    obtain ⟨y', h4, h5⟩ := r.inv x rfl
    obtain ⟨l', h6, h7⟩ := r.ild x rfl
    exact ⟨y, l, y', l', h1, h4, h6,
      ⟨h2.1.trans h5.1.symm, fun i hi => by rw [h2.1] at hi; rw [h2.2 i hi, h5.2 i hi]⟩,
      ⟨h3.1.trans h7.1.symm, fun i hi => by rw [h3.1] at hi; rw [h3.2 i hi, h7.2 i hi]⟩⟩

/-- Non-vacuity of C05: a chain with a sigmoid and an affine map on a vector. -/
example : Built (chain [shift ⟨0, Arr.scalar 1⟩, sigmoid]) ∧
    (chain [shift ⟨0, Arr.scalar 1⟩, sigmoid]).Fits [5] ∧
    (chain [shift ⟨0, Arr.scalar 1⟩, sigmoid]).Dom UserFldjOk UserIldjOk ⟨[5], fun _ => 1⟩ := by
  refine ⟨Built.chain (bs := [shift ⟨0, Arr.scalar 1⟩, sigmoid]) ?_ ?_, ?_, ?_⟩
  · simp [mkChain, adjacentOk, ndimsIn, ndimsOut]
  · intro c hc
    simp only [List.mem_cons, List.not_mem_nil, or_false] at hc
    rcases hc with rfl | rfl
    · exact Built.shift _
    · exact Built.sigmoid
  · simp [Fits, FitsAll, Arr.scalar, broadcastShapes, brev]
  · simp only [Dom, DomAll, true_and, implies_true, and_true]
    intro y hy
    simp only [chainForward] at hy
    cases hy
    intro i _
    norm_num

/-! ## C06 -/

/-- **C06 (part that holds).** On `[-9, ∞)` the sigmoid bijector is the logistic function: values in (0,1),
strictly increasing, exactly inverted, with log-det the log-derivative of the logistic function. -/
theorem C06_sigmoid_partial (x : ℝ) (hx : -9 ≤ x) :
    0 < moreStableSigmoid x ∧ moreStableSigmoid x < 1 ∧
    moreStableSigmoid x = 1 / (1 + Real.exp (-x)) ∧
    sigmoidInv (moreStableSigmoid x) = x ∧
    (∀ x', x < x' → moreStableSigmoid x < moreStableSigmoid x') := by
  rw [moreStableSigmoid_of_ge hx]
  refine ⟨Real.sigmoid_pos x, Real.sigmoid_lt_one x, by simp [Real.sigmoid_def], sigmoidInv_sigmoid x, ?_⟩
  intro x' h
  rw [moreStableSigmoid_of_ge (hx.trans h.le)]
  exact Real.sigmoid_strictMono h

/-- **C06 (log-det everywhere).** The reported log-det is the log-derivative of the logistic function at
every real input, including below the branch threshold. -/
theorem C06_sigmoid_log_det (x : ℝ) :
    HasDerivAt (fun t => 1 / (1 + Real.exp (-t))) (Real.exp (sigmoidFldj x)) x := by
  have h := Real.hasDerivAt_sigmoid x
  have e : Real.exp (sigmoidFldj x) = Real.sigmoid x * (1 - Real.sigmoid x) := by
    rw [sigmoidFldj_eq, Real.exp_log (mul_pos (Real.sigmoid_pos x) (by linarith [Real.sigmoid_lt_one x]))]
  rw [e]
  exact h.congr_of_eventuallyEq (Filter.Eventually.of_forall fun t => by simp [Real.sigmoid_def])

/-- **C06 fails as stated (finding).** Below -9 the code returns `exp(x)`; that exceeds the logistic value,
so the implemented forward map is neither injective nor monotone: there is a point below -9 with the same
image as -9, and points between with strictly larger image. -/
theorem C06_sigmoid_not_injective :
    ∃ x : ℝ, x < -9 ∧ moreStableSigmoid x = moreStableSigmoid (-9) ∧
      ∀ t, x < t → t < -9 → moreStableSigmoid (-9) < moreStableSigmoid t := by
  have h9 : moreStableSigmoid (-9) = Real.sigmoid (-9) := moreStableSigmoid_of_ge le_rfl
  have hlt : Real.sigmoid (-9) < Real.exp (-9) := by
    rw [Real.sigmoid_def, neg_neg, Real.exp_neg]
    exact inv_strictAnti₀ (Real.exp_pos 9) (by linarith)
  have hx : Real.log (Real.sigmoid (-9)) < -9 := by
    have := Real.log_lt_log (Real.sigmoid_pos _) hlt
    rwa [Real.log_exp] at this
  refine ⟨Real.log (Real.sigmoid (-9)), hx, ?_, ?_⟩
  · rw [moreStableSigmoid, if_pos hx, Real.exp_log (Real.sigmoid_pos _), h9]
  · intro t h1 h2
    rw [h9, moreStableSigmoid, if_pos h2]
    rwa [Real.log_lt_iff_lt_exp (Real.sigmoid_pos _)] at h1

/-- **C06 (size of the defect).** Below the threshold the round trip overshoots by exactly
`-log(1 - exp x)`, which is positive and smaller than `2 exp(x)` (under `2.5e-4`). -/
theorem C06_sigmoid_roundtrip_error (x : ℝ) (hx : x < -9) :
    sigmoidInv (moreStableSigmoid x) - x = -Real.log (1 - Real.exp x) ∧
    0 < sigmoidInv (moreStableSigmoid x) - x ∧
    sigmoidInv (moreStableSigmoid x) - x < 2 * Real.exp x := by
  have hp := Real.exp_pos x
  have hhalf : Real.exp x < 1 / 2 := by
    have h1 : Real.exp x < Real.exp (-1) := Real.exp_lt_exp.2 (by linarith)
    have h2 : Real.exp (-1) < 1 / 2 := by
      rw [Real.exp_neg, inv_lt_comm₀ (Real.exp_pos 1) (by norm_num)]
      have := Real.exp_one_gt_d9
      norm_num; linarith
    linarith
  have e : sigmoidInv (moreStableSigmoid x) - x = -Real.log (1 - Real.exp x) := by
    rw [moreStableSigmoid, if_pos hx, sigmoidInv, Real.log_exp]
    ring_nf
  refine ⟨e, ?_, ?_⟩
  · rw [e]
    linarith [Real.log_neg (x := 1 - Real.exp x) (by linarith) (by linarith)]
  · rw [e, ← Real.log_inv]
    have hne : (1 - Real.exp x)⁻¹ ≠ 1 := by
      intro h
      rw [inv_eq_one] at h
      linarith
    have h3 := Real.log_lt_sub_one_of_pos (x := (1 - Real.exp x)⁻¹) (inv_pos.2 (by linarith)) hne
    have h4 : (1 - Real.exp x)⁻¹ - 1 ≤ 2 * Real.exp x := by
      rw [sub_le_iff_le_add, inv_le_iff_one_le_mul₀ (by linarith)]
      nlinarith
    linarith

/-- Non-vacuity: both regimes are inhabited. -/
example : (-9 : ℝ) ≤ -9 ∧ (-10 : ℝ) < -9 := by norm_num

/-! ## C15 -/

/-- **C15 (base constructor).** `Bijector.__init__` raises exactly for a negative rank or for "Jacobian
constant but determinant not"; the output rank defaults to the input rank and the log-det flag to the
Jacobian flag. -/
theorem C15_base_constructor (ni : ℤ) (no : Option ℤ) (cj : Bool) (cl : Option Bool) :
    Meta.init ni no cj cl =
      if ni < 0 ∨ no.getD ni < 0 ∨ (cj = true ∧ cl = some false) then .error .valueError
      else .ok ⟨ni, no.getD ni, cj, cl.getD cj⟩ := by
  unfold Meta.init
  cases no <;> cases cl <;> cases cj <;> simp <;> split_ifs <;> simp_all <;> omega

/-- **C15 (composites).** Ranks and flags computed by Chain/Inverse/Block are always accepted by the base
constructor: building a composite never trips its internal checks. -/
theorem C15_composite_meta_ok (b : Bij) (hb : Built b) :
    Meta.init b.ndimsIn (some b.ndimsOut) b.constJac (some b.constLogDet) =
      .ok ⟨b.ndimsIn, b.ndimsOut, b.constJac, b.constLogDet⟩ := by
  rw [C15_base_constructor, if_neg]
  · simp
  · rintro (h | h | ⟨h1, h2⟩)
    · omega
    · simp at h; omega
    · have := C03_flags_ordered b hb h1
      simp_all

/-- **C15 (Block).** `Block(b, n)` raises ValueError iff `n < 0`, and otherwise adds `n` to both ranks. -/
theorem C15_block (b : Bij) (n : ℤ) :
    (n < 0 → mkBlock b n = .error .valueError) ∧
    (0 ≤ n → ∃ c, mkBlock b n = .ok c ∧ (c.ndimsIn : ℤ) = n + b.ndimsIn ∧
      (c.ndimsOut : ℤ) = n + b.ndimsOut ∧ c.constJac = b.constJac ∧ c.constLogDet = b.constLogDet) := by
  constructor
  · intro h; simp [mkBlock, h]
  · intro h
    refine ⟨block b n.toNat, by simp [mkBlock, not_lt.2 h], ?_, ?_, ?_, ?_⟩
    · simp [ndimsIn, Int.toNat_of_nonneg h]
    · simp [ndimsOut, Int.toNat_of_nonneg h]
    · simp [constJac]
    · simp [constLogDet]

/-- **C15 (Inverse swaps ranks; Chain takes the outer ranks).** -/
theorem C15_inverse_chain (b c : Bij) (bs : List Bij) :
    (inverse b).ndimsIn = b.ndimsOut ∧ (inverse b).ndimsOut = b.ndimsIn ∧
    (chain (b :: bs ++ [c])).ndimsIn = c.ndimsIn ∧ (chain (b :: bs ++ [c])).ndimsOut = b.ndimsOut := by
  refine ⟨by simp [ndimsIn], by simp [ndimsOut], ?_, by simp [ndimsOut, ndimsOutHead]⟩
  have : ∀ bs : List Bij, ndimsInLast (bs ++ [c]) = c.ndimsIn := by
    intro bs
    induction bs with
    | nil => simp [ndimsInLast]
    | cons d ds ih =>
      cases ds with
      | nil => simp [ndimsInLast]
      | cons e es => simpa [ndimsInLast] using ih
  simp only [ndimsIn]
  exact this (b :: bs)

/-- **C15 (input checks).** A block given an array of too small rank raises ValueError in all methods. -/
theorem C15_block_rejects_small_rank (b : Bij) (n : ℕ) (x : Arr)
    (h : x.shape.length < n + b.ndimsIn) :
    (block b n).forward x = .error .valueError ∧ (block b n).fldj x = .error .valueError ∧
    (block b n).fwdAndLd x = .error .valueError := by
  simp [forward, fldj, fwdAndLd, checkFwd, h, bind, Except.bind]

/-- Non-vacuity of C15: rank-2 block of a scalar bijector. -/
example : ∃ c, mkBlock tanh 2 = .ok c ∧ c.ndimsIn = 2 ∧ Built c ∧
    ((⟨[4], fun _ => 0⟩ : Arr).shape.length < 2 + tanh.ndimsIn) :=
  ⟨block tanh 2, rfl, by simp [ndimsIn], Built.block (n := 2) rfl Built.tanh, by simp [ndimsIn]⟩

end Bij
end Distrax
