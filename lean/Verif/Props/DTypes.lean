import Verif.Lemmas.DTypes
import Verif.Props.Multinomial
import Mathlib.Data.Fin.VecNotation

/-!
# C68: dtypes

The `dtype` property is the dtype of the samples, requested dtypes are honoured, samples of the continuous families
have the common floating-point dtype of the parameters; and which samples survive the cast to the requested dtype.
-/

namespace Distrax.DTypes

open Spec AV Dist

/-! ## The `dtype` property and the samples -/

/-- **C68.** For every nesting of distributions (wherever a `Transformed` sits on a distribution whose samples are
not weakly typed, and multivariate normals have a floating-point parameter) the `dtype` property is the dtype of
what `sample` returns, and it raises exactly when sampling raises. -/
theorem C68_dtype_is_sample_dtype (x64 : Bool) (d : Dist) (h : Settled x64 d) :
    d.dtype x64 = (d.sample x64).map AV.dt := by
  have key : ∀ a t, both x64 d = .ok (a, t) → t = a.dt := by
    induction d with
    | transformed d b ih =>
      intro a t e
      obtain ⟨⟨a', t'⟩, e', e⟩ := bind_ok e
      cases e
      have h1 := ih h.1 a' t' e'
      have h2 : a'.weak = false := h.2 a' (by simp only [sample, e']; rfl)
      subst h1
      have : strong a'.dt = a' := by rw [strong, ← h2]
      rw [this]
    | mvn loc scale =>
      intro a t e
      obtain ⟨h1, h2, h3⟩ := h
      have := (mvn_agree x64 scale loc.dt loc.weak h1 h2 h3).1
      rw [show (⟨loc.dt, loc.weak⟩ : AV) = loc from rfl, e] at this
      cases this; rfl
    | locScale l s => intro a t e; obtain ⟨_, _, e⟩ := bind_ok e; cases e; rfl
    | gamma l s =>
      intro a t e; obtain ⟨_, _, e⟩ := bind_ok e; obtain ⟨_, _, e⟩ := bind_ok e; cases e; rfl
    | beta l s =>
      intro a t e; obtain ⟨_, _, e⟩ := bind_ok e; obtain ⟨_, _, e⟩ := bind_ok e; cases e; rfl
    | dirichlet c => intro a t e; obtain ⟨_, _, e⟩ := bind_ok e; cases e; rfl
    | uniform l s =>
      intro a t e; obtain ⟨_, _, e⟩ := bind_ok e; obtain ⟨_, _, e⟩ := bind_ok e; cases e; rfl
    | vonMises l s =>
      intro a t e; obtain ⟨_, _, e⟩ := bind_ok e; obtain ⟨_, _, e⟩ := bind_ok e
      simp only at e
      split at e
      · cases e; rfl
      · cases e
    | deterministic loc => intro a t e; cases e; rfl
    | bernoulli p r =>
      intro a t e
      simp only [both] at e
      split at e
      · cases e
      · obtain ⟨_, _, e⟩ := bind_ok e; cases e; rfl
    | categorical r =>
      intro a t e
      simp only [both] at e
      split at e
      · cases e
      · cases e; rfl
    | multinomial p r =>
      intro a t e
      obtain ⟨_, _, e⟩ := bind_ok e
      simp only at e
      split at e
      · cases e
      · cases e; rfl
    | categoricalUniform l u g =>
      intro a t e
      obtain ⟨_, _, e⟩ := bind_ok e; obtain ⟨_, _, e⟩ := bind_ok e; obtain ⟨_, _, e⟩ := bind_ok e
      cases e; rfl
    | independent d ih => intro a t e; obtain ⟨⟨_, _⟩, _, e⟩ := bind_ok e; cases e; rfl
    | clipped d lo hi ih => intro a t e; obtain ⟨⟨_, _⟩, _, e⟩ := bind_ok e; cases e; rfl
    | mixtureSameFamily d ih => intro a t e; obtain ⟨⟨_, _⟩, _, e⟩ := bind_ok e; cases e; rfl
    | mixtureOfTwo p q ihp ihq =>
      intro a t e
      obtain ⟨⟨x, s⟩, _, e⟩ := bind_ok e; obtain ⟨⟨y, t'⟩, _, e⟩ := bind_ok e
      simp only at e
      split at e
      · cases e
      · cases e; rfl
  unfold Dist.dtype sample
  cases hb : both x64 d with
  | error e => rfl
  | ok p =>
    obtain ⟨a, t⟩ := p
    rw [key a t hb]; rfl

/-- A transformed Bernoulli inside a clipped, independent one meets the hypotheses. -/
example : Settled false (.independent (.clipped (.transformed (.bernoulli (pyFloat false) .i8) (.shiftBy (strong .f16)))
    (pyFloat false) (pyFloat false))) ∧
    sample false (.independent (.clipped (.transformed (.bernoulli (pyFloat false) .i8) (.shiftBy (strong .f16)))
    (pyFloat false) (pyFloat false))) = .ok (strong .f16) :=
  ⟨⟨trivial, fun a h => by
    have : sample false (.bernoulli (pyFloat false) .i8) = .ok (strong .i8) := by decide +kernel
    rw [this] at h; cases h; rfl⟩, by decide +kernel⟩

/-- **C68.** The hypothesis on `Transformed` is needed: `Transformed(Transformed(Categorical, x -> 1.5 * x), x -> x + s)`
with a bfloat16 array `s`.  The inner samples are weakly typed (an integer array times a Python float), so the
samples are bfloat16, while the `dtype` property, which traces a strongly typed dummy, says float32. -/
theorem C68_weak_samples :
    let d : Dist := .transformed (.transformed (.categorical .i64) (.scalarAffine (pyFloat false) (pyFloat false)))
      (.shiftBy (strong .bf16))
    d.sample false = .ok (strong .bf16) ∧ d.dtype false = .ok .f32 := by
  decide +kernel

/-- **C68.** So is the one on multivariate normals: `MultivariateNormalFromBijector` with an integer `loc` and an
integer scale returns float samples and reports an integer dtype. -/
theorem C68_integer_mvn (x64 : Bool) :
    (Dist.mvn (strong .i32) .i32).sample x64 = .ok (strong (DT.canon x64 .f64)) ∧
    (Dist.mvn (strong .i32) .i32).dtype x64 = .ok .i32 := by
  revert x64; decide +kernel

/-- **C68.** `Joint`: the tree of dtypes is the tree of the dtypes of the samples, for every pytree of
distributions. -/
theorem C68_joint (x64 : Bool) (t : Tree Dist) (h : t.All (Settled x64)) :
    jointDtype x64 t = (jointSample x64 t).map (Except.map AV.dt) := by
  induction t with
  | leaf d => exact congrArg Tree.leaf (C68_dtype_is_sample_dtype x64 d h)
  | node n kids ih => exact congrArg (Tree.node n) (funext fun i => ih i (h i))

example : (Tree.node 2 ![.leaf (.bernoulli (pyFloat false) .bool), .leaf (.mvn (strong .f32) .f16)]).All
    (Settled false) := by
  intro i
  match i with
  | 0 => exact trivial
  | 1 => exact ⟨.inr rfl, .inr rfl, .inl rfl⟩

/-! ## Real-valued distributions -/

/-- **C68.** Samples of every real-valued distribution, however nested, are strongly typed floating-point arrays of
exactly the dtype the `dtype` property reports. -/
theorem C68_real_valued (x64 : Bool) (d : Dist) (h : RealValued d) :
    (∃ t : DT, t.isFloating ∧ d.sample x64 = .ok (strong t) ∧ d.dtype x64 = .ok t) ∨
    (∃ e, d.sample x64 = .error e ∧ d.dtype x64 = .error e) := by
  have key : ∀ a t, both x64 d = .ok (a, t) → SF a ∧ t = a.dt := by
    induction d with
    | transformed d b ih =>
      intro a t e
      obtain ⟨⟨a', t'⟩, e', e⟩ := bind_ok e
      cases e
      obtain ⟨h1, rfl⟩ := ih h.1 a' t' e'
      exact ⟨forward_sf h.2 h1, by rw [← h1.1]⟩
    | mvn loc scale =>
      intro a t e
      obtain ⟨h1, h2, h3⟩ := h
      have := mvn_agree x64 scale loc.dt loc.weak h1 h2 h3
      rw [show (⟨loc.dt, loc.weak⟩ : AV) = loc from rfl, e] at this
      obtain ⟨h4, h5⟩ := this
      cases h4; exact ⟨.mk' h5, rfl⟩
    | locScale l s =>
      intro a t e; obtain ⟨_, h1, e⟩ := bind_ok e; cases e; exact ⟨locScaleSample_sf h1, rfl⟩
    | gamma l s =>
      intro a t e
      obtain ⟨c, hc, e⟩ := bind_ok e; obtain ⟨r, hr, e⟩ := bind_ok e; cases e
      have fc := asFloat_floating hc
      have fr := asFloat_floating hr
      exact ⟨(SF.mk' (promote_floats x64 c.dt r.dt c.weak r.weak fc fr)).left (.inr fr), rfl⟩
    | beta l s =>
      intro a t e
      obtain ⟨c, hc, e⟩ := bind_ok e; obtain ⟨r, hr, e⟩ := bind_ok e; cases e
      exact ⟨.mk' (promote_floats x64 c.dt r.dt c.weak r.weak (asFloat_floating hc) (asFloat_floating hr)), rfl⟩
    | dirichlet c =>
      intro a t e; obtain ⟨c, hc, e⟩ := bind_ok e; cases e; exact ⟨.mk' (asFloat_floating hc), rfl⟩
    | uniform l s =>
      intro a t e
      obtain ⟨l, hl, e⟩ := bind_ok e; obtain ⟨u, hu, e⟩ := bind_ok e; cases e
      have fl := asFloat_floating hl
      have fr := promote_floats x64 u.dt l.dt u.weak l.weak (asFloat_floating hu) fl
      exact ⟨((SF.mk' fr).right (.inr fr)).right (.inr fl), rfl⟩
    | vonMises l s =>
      intro a t e
      obtain ⟨l, hl, e⟩ := bind_ok e; obtain ⟨c, hc, e⟩ := bind_ok e
      have fl := asFloat_floating hl
      have fc := asFloat_floating hc
      simp only at e
      split at e
      · cases e; exact ⟨(SF.mk' (promote_floats x64 l.dt c.dt l.weak c.weak fl fc)).left (.inr fl), rfl⟩
      · cases e
    | categoricalUniform l u g =>
      intro a t e
      obtain ⟨l, hl, e⟩ := bind_ok e; obtain ⟨u, hu, e⟩ := bind_ok e; obtain ⟨g, hg, e⟩ := bind_ok e
      cases e
      have fl := asFloat_floating hl
      have fg := asFloat_floating hg
      have fs := promote_floats x64 (promote x64 l u).dt g.dt (promote x64 l u).weak g.weak
        (promote_floats x64 l.dt u.dt l.weak u.weak fl (asFloat_floating hu)) fg
      have q : SF (strong (DT.canon x64 .f64)) := .mk' (canon_floating x64 _ rfl)
      exact ⟨((((q.left (.inr fg)).right (.inr fg)).right (.inr fs)).right (.inr fl)), rfl⟩
    | independent d ih =>
      intro a t e; obtain ⟨⟨x, s⟩, hx, e⟩ := bind_ok e; cases e; exact ⟨(ih h _ _ hx).1, rfl⟩
    | clipped d lo hi ih =>
      intro a t e; obtain ⟨⟨x, s⟩, hx, e⟩ := bind_ok e; cases e
      exact ⟨((ih h.1 _ _ hx).1.left h.2.1).left h.2.2, rfl⟩
    | mixtureSameFamily d ih =>
      intro a t e; obtain ⟨⟨x, s⟩, hx, e⟩ := bind_ok e; cases e
      exact ⟨(ih h _ _ hx).1.left (.inr (canon_floating x64 .f64 rfl)), rfl⟩
    | mixtureOfTwo p q ihp ihq =>
      intro a t e
      obtain ⟨⟨x, s⟩, hx, e⟩ := bind_ok e; obtain ⟨⟨y, t'⟩, hy, e⟩ := bind_ok e
      simp only at e
      split at e
      · cases e
      · cases e; exact ⟨(ihp h.1 _ _ hx).1.left (ihq h.2 _ _ hy).1.real, rfl⟩
    | deterministic _ => cases h
    | bernoulli _ _ => cases h
    | categorical _ => cases h
    | multinomial _ _ => cases h
  unfold Dist.dtype sample
  cases hb : both x64 d with
  | error e => exact .inr ⟨e, rfl, rfl⟩
  | ok p =>
    obtain ⟨a, t⟩ := p
    obtain ⟨h1, rfl⟩ := key a t hb
    exact .inl ⟨a.dt, h1.2, by show Except.ok a = _; rw [← h1.1], rfl⟩

example : RealValued (.mixtureSameFamily (.independent (.transformed (.locScale (strong .bf16) (pyInt false))
    (.chain (.scalarAffine (pyFloat false) (strong .f16)) (.linear (strong .i32)))))) :=
  ⟨trivial, ⟨.inr (by decide), .inr (by decide)⟩, .inl (by decide)⟩

/-- **C68.** Two-parameter families with floating-point array parameters: samples have the narrowest dtype that
holds both parameters (64-bit arrays exist only in x64 mode). -/
theorem C68_common_dtype (x64 : Bool) (s t : DT) (hs : s.isFloating) (ht : t.isFloating)
    (h64 : x64 = true ∨ s ≠ .f64 ∧ t ≠ .f64) :
    (locScale (strong s) (strong t)).sample x64 = .ok (strong (common s t)) ∧
    (gamma (strong s) (strong t)).sample x64 = .ok (strong (common s t)) ∧
    (beta (strong s) (strong t)).sample x64 = .ok (strong (common s t)) ∧
    (uniform (strong s) (strong t)).sample x64 = .ok (strong (common s t)) := by
  revert x64 s t; decide +kernel

/-- **C68.** A Python number as the other parameter does not widen the samples. -/
theorem C68_python_scalars (x64 : Bool) (t : DT) (ht : t.isFloating) (h64 : x64 = true ∨ t ≠ .f64) :
    (locScale (strong t) (pyFloat x64)).sample x64 = .ok (strong t) ∧
    (locScale (pyFloat x64) (strong t)).sample x64 = .ok (strong t) ∧
    (gamma (strong t) (pyFloat x64)).sample x64 = .ok (strong t) ∧
    (gamma (pyFloat x64) (strong t)).sample x64 = .ok (strong t) ∧
    (beta (strong t) (pyFloat x64)).sample x64 = .ok (strong t) ∧
    (uniform (pyFloat x64) (strong t)).sample x64 = .ok (strong t) ∧
    (uniform (strong t) (pyFloat x64)).sample x64 = .ok (strong t) ∧
    (dirichlet (strong t)).sample x64 = .ok (strong t) := by
  revert x64 t; decide +kernel

/-- **C68.** Integer parameters give samples in the default float dtype; boolean and complex ones are rejected. -/
theorem C68_other_parameters (x64 : Bool) (t : DT) (w : Bool) :
    (t.isInteger → (locScale ⟨t, w⟩ (pyFloat x64)).sample x64 = .ok (strong (DT.canon x64 .f64))) ∧
    (t.isInteger = false → t.isFloating = false →
      (locScale ⟨t, w⟩ (pyFloat x64)).sample x64 = .error .valueError) := by
  revert x64 t w; decide +kernel

/-- **C68.** The von Mises sampler has no cutoff for bfloat16: parameters of that dtype make `sample` (and `dtype`)
raise a `KeyError`, while the other floating-point dtypes are kept. -/
theorem C68_von_mises (x64 : Bool) (s t : DT) (hs : s.isFloating) (ht : t.isFloating) (h64 : x64 = true ∨ s ≠ .f64 ∧ t ≠ .f64) :
    (vonMises (strong s) (strong t)).sample x64 =
      if common s t = .bf16 then .error .keyError else .ok (strong (common s t)) := by
  revert x64 s t; decide +kernel

/-- **C68.** `MixtureSameFamily` samples have the components' dtype exactly when that is the default float dtype or
wider: the samples are multiplied by a mask of the default float dtype. -/
theorem C68_mixture_same_family (x64 : Bool) (c : Dist) (t : DT) (hc : c.sample x64 = .ok (strong t))
    (ht : t.isInteger ∨ t.isFloating) (h64 : x64 = true ∨ DT.canon false t = t) :
    (mixtureSameFamily c).sample x64 = .ok (strong (if t.isFloating then common t (DT.canon x64 .f64) else DT.canon x64 .f64)) := by
  have hb : ∃ u, both x64 c = .ok (strong t, u) := by
    unfold sample at hc
    obtain ⟨⟨a, u⟩, e, hc⟩ := bind_ok hc
    cases hc; exact ⟨u, e⟩
  obtain ⟨u, hb⟩ := hb
  have hr : ∀ (x64 : Bool) (t : DT), (t.isInteger ∨ t.isFloating) → (x64 = true ∨ DT.canon false t = t) →
      promote x64 (strong t) (strong (DT.canon x64 .f64)) =
        strong (if t.isFloating then common t (DT.canon x64 .f64) else DT.canon x64 .f64) := by decide +kernel
  rw [← hr x64 t ht h64]
  simp only [sample, both, hb]; rfl

/-- **C68.** `MixtureOfTwo` rejects components of different dtypes and keeps the common one. -/
theorem C68_mixture_of_two (x64 : Bool) (a b : Dist) (s t : DT) (ha : both x64 a = .ok (strong s, s))
    (hb : both x64 b = .ok (strong t, t)) (h64 : x64 = true ∨ DT.canon false s = s) :
    (mixtureOfTwo a b).sample x64 = if s = t then .ok (strong s) else .error .valueError := by
  have hr : ∀ (x64 : Bool) (s : DT), (x64 = true ∨ DT.canon false s = s) →
    promote x64 (strong s) (strong s) = strong s := by decide +kernel
  by_cases h : s = t
  · subst h
    rw [if_pos rfl, ← hr x64 s h64]
    simp only [sample, both, ha, hb]
    simp [bind, Except.bind]
  · rw [if_neg h]
    simp only [sample, both, ha, hb]
    simp [bind, Except.bind, h]

/-! ## Requested dtypes -/

/-- **C68.** Discrete distributions accept exactly the documented dtypes and return samples of the requested one (in
32-bit mode, of its 32-bit version). -/
theorem C68_requested_dtype (x64 : Bool) (p : AV) (hp : p.dt.isInteger ∨ p.dt.isFloating) (t : DT) :
    (bernoulli p t).sample x64 =
      (if t.isBool ∨ t.isInteger ∨ t.isFloating then .ok (strong (DT.canon x64 t)) else .error .valueError) ∧
    (categorical t).sample x64 =
      (if t.isInteger ∨ t.isFloating then .ok (strong (DT.canon x64 t)) else .error .valueError) ∧
    (multinomial p t).sample x64 =
      (if t.isInteger ∨ t.isFloating then .ok (strong (DT.canon x64 t)) else .error .valueError) := by
  obtain ⟨q, w⟩ := p
  revert x64 q w t; decide +kernel

/-- **C68.** What the requested dtype becomes: itself if jax allows its width, otherwise the 32-bit dtype of the same kind. -/
theorem C68_requested_width (x64 : Bool) (p : AV) (hp : p.dt.isInteger ∨ p.dt.isFloating) (t u : DT)
    (hu : (bernoulli p t).sample x64 = .ok (strong u) ∨ (categorical t).sample x64 = .ok (strong u) ∨
      (multinomial p t).sample x64 = .ok (strong u)) :
    kind u = kind t ∧ width u = min (width t) (if x64 then 64 else 32) ∧ (width t ≤ 32 ∨ x64 = true → u = t) := by
  have hc : ∀ (x64 : Bool) (t : DT), kind (DT.canon x64 t) = kind t ∧
      width (DT.canon x64 t) = min (width t) (if x64 then 64 else 32) ∧ (width t ≤ 32 ∨ x64 = true → DT.canon x64 t = t) := by
    decide +kernel
  have hu' : u = DT.canon x64 t := by
    obtain ⟨h1, h2, h3⟩ := C68_requested_dtype x64 p hp t
    rw [h1, h2, h3] at hu
    rcases hu with hu | hu | hu <;> split at hu <;> first | cases hu; rfl | cases hu
  rw [hu']
  exact hc x64 t

example : (categorical .i64).sample false = .ok (strong .i32) ∧ (categorical .i64).sample true = .ok (strong .i64) ∧
    (bernoulli (strong .f32) .f16).sample false = .ok (strong .f16) := by decide +kernel

/-! ## Which samples survive the cast -/

/-- **C68.** `Categorical` with `K` categories returns the drawn category, whatever it is, exactly when the requested
dtype holds `0, ..., K - 1`. -/
theorem C68_category_survives (x64 : Bool) (t : DT) (K : ℕ) :
    (∀ i < K, categoricalSample x64 t true i = some (i : ℤ)) ↔ K ≤ exactTo (DT.canon x64 t) + 1 := by
  simp only [categoricalSample, if_true]
  constructor
  · intro h
    by_contra hk
    have := h (exactTo (DT.canon x64 t) + 1) (by omega)
    exact cast_beyond _ (by exact_mod_cast this)
  · exact fun h i hi => cast_exact _ i (by omega)

/-- int8 with 129 categories, float16 with 2050: the last category is returned as another number. -/
example : categoricalSample false .i8 true 128 = some (-128) ∧ categoricalSample false .f16 true 2049 = some 2048 := by
  decide +kernel

/-- **C68.** Bits and one-hot vectors survive every legal dtype. -/
theorem C68_bits_survive (x64 : Bool) (t : DT) (hit : Bool) {K : ℕ} (draw k : Fin K) :
    bernoulliSample x64 t hit = some (if hit then 1 else 0) ∧
    oneHotSample x64 t draw k = some (if draw = k then 1 else 0) := by
  have h0 : ∀ t : DT, cast t 0 = some 0 ∧ cast t 1 = some 1 := by decide +kernel
  unfold bernoulliSample oneHotSample
  constructor
  · cases hit
    · exact (h0 _).1
    · exact (h0 _).2
  · split
    · exact (h0 _).2
    · exact (h0 _).1

/-- **C68.** The marker `-1` for invalid parameters survives every signed and floating-point dtype; in an unsigned
dtype it is the largest number instead, which is a legal category when there are that many. -/
theorem C68_invalid_marker (x64 : Bool) (t : DT) (i : ℕ) (ht : t.isInteger ∨ t.isFloating) :
    categoricalSample x64 t false i =
      if t = .u8 ∨ t = .u16 ∨ t = .u32 ∨ t = .u64 then some (exactTo (DT.canon x64 t) : ℤ) else some (-1) := by
  have : ∀ (x64 : Bool) (t : DT), (t.isInteger ∨ t.isFloating) → cast (DT.canon x64 t) (-1) =
    if t = .u8 ∨ t = .u16 ∨ t = .u32 ∨ t = .u64 then some (exactTo (DT.canon x64 t) : ℤ) else some (-1) := by
    decide +kernel
  exact this x64 t ht

/-- **C68.** A multinomial sampler whose dtype holds `total_count` returns the exact counts of its first
`total_count` draws, whatever they are. -/
theorem C68_multinomial_counts (x64 : Bool) (t : DT) {K : ℕ} (total : ℕ) (h : total ≤ exactTo (DT.canon x64 t))
    (draw : ℕ → Fin K) (counts : Fin K → Option ℤ) :
    MultinomialSample x64 t total draw counts ↔ ∀ k, counts k = some (tally total draw k : ℤ) := by
  have run := loop_ends (DT.canon x64 t) draw total h total 0 (by omega)
  have h0 : (fun k => some (tally 0 draw k : ℤ)) = fun _ : Fin K => cast (DT.canon x64 t) 0 := by
    funext k
    have := cast_exact (DT.canon x64 t) 0 (by omega)
    simpa [tally] using this.symm
  rw [h0] at run
  simp only [MultinomialSample, totalCount, cast_exact _ total h]
  constructor
  · rintro ⟨i, hi⟩ k
    have := hi.unique run
    rw [(Prod.mk.inj this).2]
  · intro hc
    exact ⟨total, by rwa [show counts = fun k => some (tally total draw k : ℤ) from funext hc]⟩

/-- **C68.** So the exact model of the sampler (`Model/Multinomial.lean`, C36: the multinomial law) is what runs in
every such dtype. -/
theorem C68_multinomial_refines (x64 : Bool) (t : DT) {K : ℕ} (total : ℕ) (h : total ≤ exactTo (DT.canon x64 t))
    (draw : ℕ → Fin K) {counts : Fin K → Option ℤ} (hc : MultinomialSample x64 t total draw counts) (k : Fin K) :
    ∃ c : ℤ, counts k = some c ∧ (c : ℝ) = Mult.sampleLoop total draw 0 (fun _ => 0) k := by
  refine ⟨tally total draw k, (C68_multinomial_counts x64 t total h draw counts).1 hc k, ?_⟩
  have e : ∀ m i (agg : Fin K → ℝ), i + m = total → (∀ k, agg k = tally i draw k) →
      Mult.sampleLoop total draw i agg k = tally total draw k := by
    intro m
    induction m with
    | zero =>
      intro i agg hi ha
      rw [Mult.sampleLoop, if_neg (by omega), ha]
      rw [show i = total by omega]
    | succ m ih =>
      intro i agg hi ha
      rw [Mult.sampleLoop, if_pos (by omega)]
      refine ih (i + 1) _ (by omega) fun k => ?_
      rw [tally_succ, ha]; push_cast; rfl
  rw [e total 0 _ (by omega) fun k => by simp [tally]]
  push_cast; rfl

example : (100 : ℕ) ≤ exactTo (DT.canon false .i8) ∧ (2048 : ℕ) ≤ exactTo (DT.canon false .f16) := by
  decide +kernel

/-- **C68.** One more trial than the dtype holds, and the counts no longer add up to `total_count`, whatever is
drawn: `total_count` itself has been changed by the cast. -/
theorem C68_multinomial_overflow (x64 : Bool) (t : DT) (ht : t.isInteger ∨ t.isFloating) {K : ℕ} (draw : ℕ → Fin K) :
    ∃ c : Fin K → ℕ, MultinomialSample x64 t (exactTo (DT.canon x64 t) + 1) draw (fun k => some (c k : ℤ)) ∧
      ∑ k, c k < exactTo (DT.canon x64 t) + 1 := by
  have h1 : ∀ (x64 : Bool) (t : DT), t.isFloating →
      cast (DT.canon x64 t) (exactTo (DT.canon x64 t) + 1) = cast (DT.canon x64 t) (exactTo (DT.canon x64 t)) := by
    decide +kernel
  have h2 : ∀ (x64 : Bool) (t : DT), t.isInteger →
      less (cast (DT.canon x64 t) 0) (cast (DT.canon x64 t) (exactTo (DT.canon x64 t) + 1)) = false ∧
      cast (DT.canon x64 t) 0 = some 0 := by decide +kernel
  rcases ht with ht | ht
  · refine ⟨fun _ => 0, ⟨0, ?_⟩, by simp⟩
    obtain ⟨h3, h4⟩ := h2 x64 t ht
    have : (fun _ : Fin K => cast (DT.canon x64 t) 0) = fun _ => some ((0 : ℕ) : ℤ) := by funext k; rw [h4]; rfl
    rw [this]
    refine .stop ?_
    simp only [multinomialCond, totalCount]
    exact_mod_cast h3
  · refine ⟨tally (exactTo (DT.canon x64 t)) draw, ?_, by rw [sum_tally]; omega⟩
    have := (C68_multinomial_counts x64 t (exactTo (DT.canon x64 t)) le_rfl draw _).2 fun _ => rfl
    unfold MultinomialSample totalCount at this ⊢
    have e := h1 x64 t ht
    push_cast
    rw [e]
    exact this

/-- **C68.** Integer component samples of a `MixtureSameFamily` come back unchanged (as floats) when they are at most
`2 ^ 24` in magnitude; beyond that they need not. -/
theorem C68_mixture_values (x64 : Bool) {K : ℕ} (samples : Fin K → ℤ) (pick : Fin K)
    (h : (samples pick).natAbs ≤ 2 ^ 24) : mixtureSample x64 samples pick = some (samples pick) := by
  have hz : ∀ (l : List (Fin K)), pick ∉ l → ∀ a : ℤ, a.natAbs ≤ 2 ^ 24 →
      l.foldl (fun acc k => add (DT.canon x64 .f64) acc
        (if pick = k then cast (DT.canon x64 .f64) (samples k) else some 0)) (some a) = some a := by
    intro l
    induction l with
    | nil => intro _ a _; rfl
    | cons k l ih =>
      intro hk a ha
      have hk' : pick ≠ k ∧ pick ∉ l := by simpa using hk
      simp only [List.foldl_cons, if_neg hk'.1]
      have : add (DT.canon x64 .f64) (some a) (some 0) = some a := by
        simp [add, cast_float_exact x64 a ha]
      rw [this]; exact ih hk'.2 a ha
  have hp : ∀ (l : List (Fin K)), l.Nodup → pick ∈ l →
      l.foldl (fun acc k => add (DT.canon x64 .f64) acc
        (if pick = k then cast (DT.canon x64 .f64) (samples k) else some 0)) (some 0) = some (samples pick) := by
    intro l
    induction l with
    | nil => intro _ hm; cases hm
    | cons k l ih =>
      intro hn hm
      rw [List.nodup_cons] at hn
      by_cases hk : pick = k
      · subst hk
        simp only [List.foldl_cons, if_true]
        have : add (DT.canon x64 .f64) (some 0) (cast (DT.canon x64 .f64) (samples pick)) = some (samples pick) := by
          simp [add, cast_float_exact x64 _ h]
        rw [this]; exact hz l hn.1 _ h
      · simp only [List.foldl_cons, if_neg hk]
        have : add (DT.canon x64 .f64) (some 0) (some 0) = some 0 := by
          simp [add, cast_float_exact x64 0 (by simp)]
        rw [this]
        exact ih hn.2 (by simpa [hk] using hm)
  exact hp _ (List.nodup_finRange K) (List.mem_finRange pick)

theorem C68_mixture_values_rounded : mixtureSample false (fun _ : Fin 1 => 2 ^ 24 + 1) 0 = some (2 ^ 24) := by
  decide +kernel

/-- **C68.** `Deterministic` with an integer `loc`: `log_prob` is floating-point, but the log-probability returned by
`sample_and_log_prob` is an integer array. -/
theorem C68_deterministic_log_prob (x64 : Bool) (loc : AV) :
    (deterministicLogProb x64 loc).dt.isFloating ∧ (deterministicSampleAndLogProb x64 loc).2.dt = loc.dt := by
  refine ⟨?_, rfl⟩
  show (promote x64 (pyFloat x64) (pyFloat x64)).dt.isFloating
  cases x64 <;> decide +kernel

end Distrax.DTypes
