import Verif.Props.Transformed
import Verif.Props.Bijector

/-! C22: the KL divergence between transformed distributions. -/

namespace Distrax

open MeasureTheory Spec Jaxpr

/-- When the divergence is declined: different base event shapes (ValueError); bijectors that are neither identical, nor
`same_as`, nor print alike (NotImplementedError).  Otherwise the base divergence is returned. -/
theorem C22_outcomes {L : Type} (e1 e2 : List ℕ) (b1 b2 : KBij) (base : Except Err L) :
    (e1 ≠ e2 → Transformed.kl e1 e2 b1 b2 base = .error .valueError) ∧
    (e1 = e2 → b1.addr ≠ b2.addr → b1.obj.sameAs b2.obj = false → b1.traced.text ≠ b2.traced.text →
      Transformed.kl e1 e2 b1 b2 base = .error .notImplemented) ∧
    (e1 = e2 → b1.addr = b2.addr ∨ b1.obj.sameAs b2.obj = true ∨ b1.traced.text = b2.traced.text →
      Transformed.kl e1 e2 b1 b2 base = base) := by
  classical
  unfold Transformed.kl
  refine ⟨fun h => if_pos h, fun h h1 h2 h3 => ?_, fun h h1 => ?_⟩
  · rw [if_neg (not_not.2 h), if_pos ⟨h1, by simp [h2]⟩, if_pos h3]
  · rw [if_neg (not_not.2 h)]
    split
    · rename_i h2
      rcases h1 with h1 | h1 | h1
      · exact absurd h1 h2.1
      · exact absurd h1 (by simpa using h2.2)
      · rw [if_neg (not_not.2 h1)]
    · rfl

/-- **The returned value is right when the bijectors are equal**: pushing two densities through one differentiable bijection
does not change their KL divergence. -/
theorem C22_kl_invariant {Key E : Type} [NormedAddCommGroup E] [NormedSpace ℝ E] [FiniteDimensional ℝ E] [MeasurableSpace E]
    [BorelSpace E] [ArrayLike E] {μ : Measure E} [μ.IsAddHaarMeasure] {S T : Set E} {f g : E → E} {ld : E → ℝ}
    (d1 d2 t1 t2 : DObj Key E ℝ) (b1 b2 : TBij E ℝ) (h1 : mkTransformed d1 b1 = .ok t1) (h2 : mkTransformed d2 b2 = .ok t2)
    (hb1 : BijLaws b1 S T f g ld) (hb2 : BijLaws b2 S T f g ld) (lp1 lp2 : E → ℝ)
    (hp1 : ∀ x ∈ S, d1.logProb x = .ok (lp1 x)) (hp2 : ∀ x ∈ S, d2.logProb x = .ok (lp2 x)) (lq1 lq2 : E → ℝ)
    (hq1 : ∀ y ∈ T, t1.logProb y = .ok (lq1 y)) (hq2 : ∀ y ∈ T, t2.logProb y = .ok (lq2 y)) (k : ℝ)
    (hk : KLOn μ S (fun x => Real.exp (lp1 x)) (fun x => Real.exp (lp2 x)) k) :
    KLOn μ T (fun y => Real.exp (lq1 y)) (fun y => Real.exp (lq2 y)) k := by
  have e1 : ∀ y ∈ T, lq1 y = lp1 (g y) - ld (g y) := fun y hy => by
    have := logProb_on h1 hb1 hp1 hy
    rw [hq1 y hy] at this; injection this
  have e2 : ∀ y ∈ T, lq2 y = lp2 (g y) - ld (g y) := fun y hy => by
    have := logProb_on h2 hb2 hp2 hy
    rw [hq2 y hy] at this; injection this
  refine hb1.diffeo.expOn hk (fun y hy => ?_) fun y hy => ?_
  · rw [e1 y hy, exp_split]
  · simp only [Real.log_exp, e1 y hy, e2 y hy]; ring

/-- **Identity and `same_as` are sound**: if the divergence is returned on account of identity or `same_as`, the two objects
are the same transformation (for objects built by the constructors, with sound object identities). -/
theorem C22_same_object_sound (b1 b2 : KBij) (h1 : b1.obj.Built) (h2 : b2.obj.Built)
    (hid : b1.addr = b2.addr → b1.obj = b2.obj) (hc : b1.obj.Coherent b2.obj)
    (h : b1.addr = b2.addr ∨ b1.obj.sameAs b2.obj = true) : ∀ x, b1.obj.forward x = b2.obj.forward x := by
  rcases h with h | h
  · rw [hid h]; exact fun x => rfl
  · exact (Bij.C04_same_as_sound _ _ h1 h2 hc h).1

/-- The constants of nested calls in a program. -/
def nestedConsts : Prog Prim → List ℝ
  | .done => []
  | .prim _ _ _ rest => nestedConsts rest
  | .call _ cs _ _ body _ _ rest => cs.map Prod.snd ++ nestedConsts body ++ nestedConsts rest

theorem hideConsts_inj : ∀ p q : Prog Prim, Traced.hideConsts p = Traced.hideConsts q → nestedConsts p = nestedConsts q → p = q
  | .done, .done, _, _ => rfl
  | .done, .prim .., h, _ => by simp [Traced.hideConsts] at h
  | .done, .call .., h, _ => by simp [Traced.hideConsts] at h
  | .prim .., .done, h, _ => by simp [Traced.hideConsts] at h
  | .call .., .done, h, _ => by simp [Traced.hideConsts] at h
  | .prim .., .call .., h, _ => by simp [Traced.hideConsts] at h
  | .call .., .prim .., h, _ => by simp [Traced.hideConsts] at h
  | .prim p ins outs rest, .prim p' ins' outs' rest', h, hc => by
    simp only [Traced.hideConsts, Prog.prim.injEq] at h
    obtain ⟨rfl, rfl, rfl, h⟩ := h
    rw [hideConsts_inj rest rest' h hc]
  | .call k cs bi bo body ins outs rest, .call k' cs' bi' bo' body' ins' outs' rest', h, hc => by
    simp only [Traced.hideConsts, Prog.call.injEq] at h
    obtain ⟨rfl, h1, rfl, rfl, h2, rfl, rfl, h3⟩ := h
    have hl : cs.length = cs'.length := by simpa using congrArg List.length h1
    have hb : (nestedConsts body).length = (nestedConsts body').length := by
      have : ∀ p q : Prog Prim, Traced.hideConsts p = Traced.hideConsts q → (nestedConsts p).length = (nestedConsts q).length := by
        intro p
        have e : ∀ p : Prog Prim, (nestedConsts (Traced.hideConsts p)).length = (nestedConsts p).length := by
          intro p
          induction p with
          | done => rfl
          | prim _ _ _ _ ih => simpa [Traced.hideConsts, nestedConsts] using ih
          | call _ _ _ _ _ _ _ _ ih1 ih2 => simp [Traced.hideConsts, nestedConsts, ih1, ih2]
        intro q h
        rw [← e p, ← e q, h]
      exact this _ _ h2
    simp only [nestedConsts, List.append_assoc] at hc
    obtain ⟨c1, c2⟩ := List.append_inj hc (by simp [hl])
    obtain ⟨c2, c3⟩ := List.append_inj c2 hb
    have hcs : cs = cs' := by
      apply List.ext_getElem hl
      intro i i1 i2
      have a1 : (cs.map fun c => (c.1, (0 : ℝ)))[i]'(by simpa using i1) = (cs'.map fun c => (c.1, (0 : ℝ)))[i]'(by simpa using i2) := by
        simp only [h1]
      have a2 : (cs.map Prod.snd)[i]'(by simpa using i1) = (cs'.map Prod.snd)[i]'(by simpa using i2) := by simp only [c1]
      simp only [List.getElem_map, Prod.mk.injEq, and_true] at a1 a2
      exact Prod.ext a1 a2
    rw [hcs, hideConsts_inj body body' h2 c2, hideConsts_inj rest rest' h3 c3]

/-- **Printed programs, partial.** If the printed programs agree *and* the captured constants agree, the two traced
functions agree.  What is missing for the full claim: the code does not compare the captured constants. -/
theorem C22_printed_sound_partial (t1 t2 : Traced) (h : t1.text = t2.text) (hc : t1.constVals = t2.constVals)
    (hn : nestedConsts t1.prog = nestedConsts t2.prog) (ev : Prim → List ℝ → Option (List ℝ)) :
    ∀ x, t1.eval ev x = t2.eval ev x := by
  obtain ⟨v1, c1, i1, p1, o1⟩ := t1
  obtain ⟨v2, c2, i2, p2, o2⟩ := t2
  simp only [Traced.text, Prod.mk.injEq] at h
  obtain ⟨rfl, rfl, h3, rfl⟩ := h
  simp only at hc hn
  rw [hideConsts_inj p1 p2 h3 hn, hc]
  exact fun x => rfl

/-- `Shift` by a captured array constant `s`: `{ lambda a; b. let c = add b a in (c,) }` with `a = s`. -/
def shiftTrace (s : ℝ) : Traced := ⟨[0], [s], 1, .prim .add [.var 1, .var 0] [2] .done, .var 2⟩

/-- `Shift(jnp.array([s]))` as the KL code sees it. -/
def shiftK (addr : ℕ) (s : ℝ) : KBij := ⟨addr, .shift ⟨addr, ⟨[1], fun _ => s⟩⟩, shiftTrace s⟩

/-- **The full claim is false of the code.** `Shift([1.])` and `Shift([2.])` are different transformations that are neither
identical nor `same_as`, but their traces print alike, so the divergence between `Transformed(p, Shift([1.]))` and
`Transformed(q, Shift([2.]))` is returned as `KL(p ‖ q)` instead of raising NotImplementedError.  More generally any two
different captured shifts collide. -/
theorem C22_captured_constants_collide {L : Type} (e : List ℕ) (s s' : ℝ) (hs : s ≠ s') (base : Except Err L) :
    let b1 := shiftK 1 s
    let b2 := shiftK 2 s'
    b1.obj.sameAs b2.obj = false ∧ (∀ x, b1.traced.eval (fun | .add, [a, b] => some [a + b] | _, _ => none) x = some (x + s)) ∧
    (∀ x, b2.traced.eval (fun | .add, [a, b] => some [a + b] | _, _ => none) x = some (x + s')) ∧
    (∃ x y1 y2, b1.obj.forward x = .ok y1 ∧ b2.obj.forward x = .ok y2 ∧ ¬ y1 ≈ₐ y2) ∧
    Transformed.kl e e b1 b2 base = base := by
  refine ⟨?_, fun x => ?_, fun x => ?_, ?_, ?_⟩
  · simp [shiftK, Bij.sameAs]
  · simp [shiftK, shiftTrace, Traced.eval, writeConsts, writes, write, run, readAll, readAtom]
  · simp [shiftK, shiftTrace, Traced.eval, writeConsts, writes, write, run, readAll, readAtom]
  · refine ⟨Arr.zeros [1], ⟨[1], fun i => (0 : ℝ) + s⟩, ⟨[1], fun i => (0 : ℝ) + s'⟩, ?_, ?_, ?_⟩
    · rfl
    · rfl
    · rintro ⟨-, h⟩
      have := h [0] (List.Forall₂.cons (by norm_num) List.Forall₂.nil)
      simp at this
      exact hs this
  · exact (C22_outcomes e e (shiftK 1 s) (shiftK 2 s') base).2.2 rfl (Or.inr (Or.inr rfl))

/-- `C22_printed_sound_partial`'s hypotheses are met by two traces of one shift. -/
example : (shiftTrace 3).text = (shiftTrace 3).text ∧ (shiftTrace 3).constVals = [3] ∧
    (shiftTrace 3).text = (shiftTrace 4).text := ⟨rfl, rfl, rfl⟩

end Distrax
