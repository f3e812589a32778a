import Verif.Model.Transformed
import Verif.Lemmas.Transformed
import Verif.Spec.Transformed
import Verif.Props.Chain
import Mathlib.MeasureTheory.Measure.Lebesgue.Basic

/-! C21 (and the constructor part of C15): `Transformed` is the pushforward of its base distribution. -/

namespace Distrax

open MeasureTheory Spec

section object

variable {Key V L : Type}

/-- What the constructor of a transformed distribution builds, when it succeeds. -/
theorem mkTransformed_ok [Add L] [Sub L] [ArrayLike V] {d t : DObj Key V L} {b : TBij V L} (h : mkTransformed d b = .ok t) :
    t.batch = (do let r ← Transformed.inferShapes d b; pure r.1) ∧
    t.event = (do let r ← Transformed.inferShapes d b; pure (.arr r.2)) ∧
    t.logProb = Transformed.logProb d b ∧ t.sampleN = Transformed.sampleN d b ∧
    t.sampleNLP = Transformed.sampleNLP d b ∧ t.mean = Transformed.mean d b ∧ t.mode = Transformed.mode d b ∧
    t.entropy = Transformed.entropy d b ∧ ∃ es, d.event = .ok (.arr es) ∧ es.length = b.ndimsIn := by
  unfold mkTransformed at h
  cases he : d.event with
  | error e => rw [he] at h; cases h
  | ok ev =>
    rw [he] at h
    cases ev with
    | nested => cases h
    | arr es =>
      simp only [bind, Except.bind, pure, Except.pure] at h
      split at h
      · cases h
      · rename_i hl
        injection h with h
        subst h
        exact ⟨rfl, rfl, rfl, rfl, rfl, rfl, rfl, rfl, es, rfl, not_not.1 hl⟩

/-- **C15** The constructor of a transformed distribution succeeds exactly when the base event is a single array whose rank is
the bijector's input rank; otherwise it raises ValueError (given that the base reports an event shape). -/
theorem C15_transformed_ctor [Add L] [Sub L] [ArrayLike V] (d : DObj Key V L) (b : TBij V L) (ev : EvShape)
    (he : d.event = .ok ev) :
    ((∃ t, mkTransformed d b = .ok t) ↔ ∃ es, ev = .arr es ∧ es.length = b.ndimsIn) ∧
    ((∃ t, mkTransformed d b = .ok t) ∨ mkTransformed d b = .error .valueError) := by
  unfold mkTransformed
  rw [he]
  cases ev with
  | nested => simp [bind, Except.bind]
  | arr es =>
    simp only [bind, Except.bind, pure, Except.pure]
    by_cases hl : es.length = b.ndimsIn
    · simp [hl]
    · simp [hl]

/-- `Transformed(d, f).log_prob(f(x)) = d.log_prob(x) - log|det J(f)(x)|`. -/
theorem C21_log_prob [AddGroup L] [ArrayLike V] (d t : DObj Key V L) (b : TBij V L) (h : mkTransformed d b = .ok t)
    (x y : V) (l p : L) (hb : LawPair b x y l) (hp : d.logProb x = .ok p) : t.logProb y = .ok (p - l) := by
  rw [(mkTransformed_ok h).2.2.1]
  simp [Transformed.logProb, hb.invLd, hp, bind, Except.bind, pure, Except.pure, sub_eq_add_neg]

theorem mapM_ok {α β : Type} {f : α → Except Err β} {xs : List α} {ys : List β} :
    xs.mapM f = .ok ys ↔ List.Forall₂ (fun x y => f x = .ok y) xs ys := by
  induction xs generalizing ys with
  | nil =>
    simp only [List.mapM_nil, pure, Except.pure]
    constructor
    · intro h; injection h with h; subst h; exact List.Forall₂.nil
    · intro h; cases h; rfl
  | cons x xs ih =>
    rw [List.mapM_cons]
    simp only [bind, Except.bind, pure, Except.pure]
    cases hx : f x with
    | error e =>
      simp only
      constructor
      · intro h; cases h
      · intro h; cases h with | cons h1 _ => rw [hx] at h1; cases h1
    | ok y =>
      simp only
      cases hxs : xs.mapM f with
      | error e =>
        simp only
        constructor
        · intro h; cases h
        · intro h
          cases h with | cons _ h2 => rw [ih.2 h2] at hxs; cases hxs
      | ok zs =>
        simp only
        constructor
        · intro h; injection h with h; subst h; exact List.Forall₂.cons hx (ih.1 hxs)
        · intro h
          cases h with | cons h1 h2 =>
          rw [hx] at h1; injection h1 with h1
          have := ih.2 h2; rw [hxs] at this; injection this with this
          rw [h1, this]

/-- Joint sampling: if the base's draws come with their own log-probabilities, the transformed draws are the images of
the base draws, they are the draws `sample` returns for the same key, and each comes with exactly what `log_prob`
reports for it. -/
theorem C21_sample_and_log_prob [AddGroup L] [ArrayLike V] (d t : DObj Key V L) (b : TBij V L)
    (h : mkTransformed d b = .ok t) (k : Key) (n : ℕ) (xs : List (V × L)) (f : V → V) (ld : V → L)
    (hb : ∀ x ∈ xs, LawPair b x.1 (f x.1) (ld x.1))
    (h1 : d.sampleNLP k n = .ok xs) (h2 : d.sampleN k n = .ok (xs.map Prod.fst))
    (h3 : ∀ x ∈ xs, d.logProb x.1 = .ok x.2) :
    ∃ ys, t.sampleNLP k n = .ok ys ∧ t.sampleN k n = .ok (ys.map Prod.fst) ∧
      ys.map Prod.fst = xs.map (fun x => f x.1) ∧ ∀ y ∈ ys, t.logProb y.1 = .ok y.2 := by
  obtain ⟨-, -, e1, e2, e3, -⟩ := mkTransformed_ok h
  have m1 : (xs.map Prod.fst).mapM b.forward = .ok (xs.map fun x => f x.1) := by
    rw [mapM_ok, List.forall₂_map_left_iff, List.forall₂_map_right_iff, List.forall₂_same]
    exact fun x hx => (hb x hx).fwd
  have m2 : (xs.map Prod.fst).mapM b.fwdLd = .ok (xs.map fun x => (f x.1, ld x.1)) := by
    rw [mapM_ok, List.forall₂_map_left_iff, List.forall₂_map_right_iff, List.forall₂_same]
    exact fun x hx => (hb x hx).fwdLd
  have hz : List.zipWith (fun (x : V × L) (y : V × L) => (y.1, x.2 - y.2)) xs (xs.map fun x => (f x.1, ld x.1)) =
      xs.map fun x => (f x.1, x.2 - ld x.1) := by
    rw [List.zipWith_map_right, List.zipWith_self]
  refine ⟨xs.map fun x => (f x.1, x.2 - ld x.1), ?_, ?_, ?_, ?_⟩
  · rw [e3]
    simp only [Transformed.sampleNLP, h1, m2, bind, Except.bind, pure, Except.pure, hz]
  · rw [e2]
    simp only [Transformed.sampleN, h2, bind, Except.bind, m1, List.map_map]
    rfl
  · simp [List.map_map]
  · intro y hy
    obtain ⟨x, hx, rfl⟩ := List.mem_map.1 hy
    exact C21_log_prob d t b h x.1 (f x.1) (ld x.1) x.2 (hb x hx) (h3 x hx)

/-- The shapes are those of the samples: if tracing predicts the output shape of `forward`, and base draws have shape
batch + event, then every transformed draw has shape batch + event of the transformed distribution, and the event has the
bijector's output rank. -/
theorem C21_sample_shape [AddGroup L] [ArrayLike V] (d t : DObj Key V L) (b : TBij V L)
    (h : mkTransformed d b = .ok t) (k : Key) (n : ℕ) (xs ys : List V) (bs es : List ℕ)
    (hb : d.batch = .ok bs) (he : d.event = .ok (.arr es))
    (hx : d.sampleN k n = .ok xs) (hs : ∀ x ∈ xs, ArrayLike.shape x = bs ++ es)
    (htr : ∀ x y, b.forward x = .ok y → b.evalShape (ArrayLike.shape x) = .ok (ArrayLike.shape y))
    (hrank : ∀ s s', b.evalShape s = .ok s' → b.ndimsOut ≤ s'.length)
    (hy : t.sampleN k n = .ok ys) (hne : ys ≠ []) :
    ys.length = xs.length ∧ ∃ bt et, t.batch = .ok bt ∧ t.event = .ok (.arr et) ∧ et.length = b.ndimsOut ∧
      ∀ y ∈ ys, ArrayLike.shape y = bt ++ et := by
  obtain ⟨e1, e2, -, e4, -⟩ := mkTransformed_ok h
  rw [e4] at hy
  simp only [Transformed.sampleN, hx, bind, Except.bind] at hy
  rw [mapM_ok] at hy
  refine ⟨hy.length_eq.symm, ?_⟩
  have hall : ∀ y ∈ ys, b.evalShape (bs ++ es) = .ok (ArrayLike.shape y) := by
    intro y hy'
    obtain ⟨i, hi, rfl⟩ := List.mem_iff_getElem.1 hy'
    have hl := hy.length_eq
    have h1 := (List.forall₂_iff_get.1 hy).2 i (by omega) hi
    have h2 := htr _ _ h1
    rw [hs _ (List.get_mem _ _)] at h2
    exact h2
  obtain ⟨y0, hy0⟩ := List.exists_mem_of_ne_nil ys hne
  have hy0e := hall y0 hy0
  have hr := hrank _ _ hy0e
  have hinf : Transformed.inferShapes d b = .ok (((ArrayLike.shape y0).take ((ArrayLike.shape y0).length - b.ndimsOut)),
      ((ArrayLike.shape y0).drop ((ArrayLike.shape y0).length - b.ndimsOut))) := by
    simp only [Transformed.inferShapes, hb, he, bind, Except.bind, hy0e, pure, Except.pure]
    split
    · rename_i h0; simp [h0]
    · rfl
  rw [e1, e2, hinf]
  refine ⟨_, _, rfl, rfl, ?_, ?_⟩
  · rw [List.length_drop]; omega
  · intro y hy'
    have := hall y hy'
    rw [hy0e] at this
    injection this with this
    rw [← this, List.take_append_drop]

/-- `mean` needs a Jacobian declared constant, `mode` and `entropy` a log-determinant declared constant; otherwise they raise
NotImplementedError. -/
theorem C21_not_implemented [AddGroup L] [ArrayLike V] (d t : DObj Key V L) (b : TBij V L)
    (h : mkTransformed d b = .ok t) :
    (b.constJac = false → t.mean = .error .notImplemented) ∧ (b.constLogDet = false → t.mode = .error .notImplemented) ∧
    (b.constLogDet = false → ∀ hint, t.entropy hint = .error .notImplemented) := by
  obtain ⟨-, -, -, -, -, e1, e2, e3, -⟩ := mkTransformed_ok h
  rw [e1, e2, e3]
  exact ⟨fun h => by simp [Transformed.mean, h], fun h => by simp [Transformed.mode, h],
    fun h => by simp [Transformed.entropy, h]⟩

/-- A chain of two. -/
theorem mkChain_two [AddCommGroup L] {g f c : TBij V L} (hc : TBij.mkChain [g, f] = .ok c) :
    c.ndimsIn = f.ndimsIn ∧ c.ndimsOut = g.ndimsOut ∧ f.ndimsOut = g.ndimsIn ∧
    (c.constJac = (g.constJac && f.constJac)) ∧ (c.constLogDet = (g.constLogDet && f.constLogDet)) ∧
    (∀ x, c.forward x = (do let y ← f.forward x; g.forward y)) ∧
    (∀ x, c.fwdLd x = (do let r ← f.fwdLd x; let q ← g.fwdLd r.1; pure (q.1, r.2 + q.2))) ∧
    (∀ y, c.invLd y = (do let r ← g.invLd y; let q ← f.invLd r.1; pure (q.1, r.2 + q.2))) ∧
    (∀ x, c.fldj x = (do let r ← c.fwdLd x; pure r.2)) ∧
    (∀ s, c.evalShape s = (do let s ← f.evalShape s; g.evalShape s)) := by
  have hm : BObj.mkChain [g.toBObj, f.toBObj] = .ok c.toBObj ∧
      c.evalShape = fun s => [g, f].reverse.foldlM (fun s b => b.evalShape s) s := by
    unfold TBij.mkChain at hc
    simp only [List.map_cons, List.map_nil, bind, Except.bind] at hc
    split at hc
    · cases hc
    · rename_i v hv
      injection hc with hc
      subst hc
      exact ⟨hv, rfl⟩
  obtain ⟨hm, hs⟩ := hm
  unfold BObj.mkChain at hm
  simp only [List.head?_cons, List.getLast?_cons_cons, List.getLast?_singleton] at hm
  split at hm
  · rename_i hadj
    simp only [BObj.adjacentOk, List.dropLast, List.tail_cons, List.zip_cons_cons, List.zip_nil_right, List.all_cons,
      List.all_nil, Bool.and_true, beq_iff_eq] at hadj
    injection hm with hm
    rw [← hm]
    refine ⟨rfl, rfl, hadj.symm, by simp, by simp, fun x => ?_, fun x => ?_, fun y => ?_, fun x => rfl, fun s => ?_⟩
    · simp [BObj.chainForward]
    · simp [BObj.chainFwdLd, List.foldlM_cons]
    · simp [BObj.chainInvLd, List.foldlM_cons]
    · rw [hs]; simp [List.foldlM_cons]
  · cases hm

/-- **Nesting.** `Transformed(Transformed(d, f), g)` and `Transformed(d, Chain([g, f]))` are the same distribution: same
log-probabilities, same draws, same means and modes, same shapes.  The only side condition is on the two ranks agreeing
(which the chain's constructor checks). -/
theorem C21_nested [AddCommGroup L] [ArrayLike V] (d t1 t2 tc : DObj Key V L) (f g c : TBij V L)
    (h1 : mkTransformed d f = .ok t1) (h2 : mkTransformed t1 g = .ok t2) (hc : TBij.mkChain [g, f] = .ok c)
    (h3 : mkTransformed d c = .ok tc) :
    (∀ y, t2.logProb y = tc.logProb y) ∧ (∀ k n ys, t2.sampleN k n = .ok ys ↔ tc.sampleN k n = .ok ys) ∧
    (∀ k n ys, t2.sampleNLP k n = .ok ys ↔ tc.sampleNLP k n = .ok ys) ∧
    t2.mean = tc.mean ∧ t2.mode = tc.mode ∧ t2.batch = tc.batch ∧ t2.event = tc.event := by
  obtain ⟨a1, a2, a3, a4, a5, a6, a7, a8, es, aes, -⟩ := mkTransformed_ok h1
  obtain ⟨b1, b2, b3, b4, b5, b6, b7, b8, -⟩ := mkTransformed_ok h2
  obtain ⟨c1, c2, c3, c4, c5, c6, c7, c8, -⟩ := mkTransformed_ok h3
  obtain ⟨k1, k2, k3, k4, k5, k6, k7, k8, k9, k10⟩ := mkChain_two hc
  refine ⟨fun y => ?_, fun k n ys => ?_, fun k n ys => ?_, ?_, ?_, ?_⟩
  · rw [b3, c3]
    simp only [Transformed.logProb, a3, k8, bind, Except.bind, pure, Except.pure]
    cases g.invLd y with
    | error e => rfl
    | ok r =>
      simp only
      cases f.invLd r.1 with
      | error e => rfl
      | ok q =>
        simp only
        cases d.logProb q.1 with
        | error e => rfl
        | ok p => simp only; rw [add_assoc, add_comm q.2]
  · rw [b4, c4]
    simp only [Transformed.sampleN, a4, bind, Except.bind]
    cases d.sampleN k n with
    | error e => simp
    | ok xs =>
      simp only
      rw [mapM_ok]
      constructor
      · intro h
        split at h
        · cases h
        · rename_i zs hz
          rw [mapM_ok] at hz h
          have := List.forall₂_iff_get.1 hz
          have h' := List.forall₂_iff_get.1 h
          refine List.forall₂_iff_get.2 ⟨this.1.trans h'.1, fun i i1 i2 => ?_⟩
          rw [k6, this.2 i i1 (by omega)]
          exact h'.2 i (by omega) i2
      · intro h
        have h' := List.forall₂_iff_get.1 h
        have hz : ∀ x ∈ xs, ∃ z, f.forward x = .ok z := by
          intro x hx
          obtain ⟨i, hi, rfl⟩ := List.mem_iff_getElem.1 hx
          have h4 := h'.2 i hi (by omega)
          rw [k6] at h4
          cases hf : f.forward (xs.get ⟨i, hi⟩) with
          | error e => rw [hf] at h4; cases h4
          | ok z => exact ⟨z, rfl⟩
        choose! F hF using hz
        have hm : xs.mapM f.forward = .ok (xs.map F) := by
          rw [mapM_ok, List.forall₂_map_right_iff, List.forall₂_same]; exact hF
        rw [hm]
        simp only
        rw [mapM_ok, List.forall₂_map_left_iff]
        refine List.forall₂_iff_get.2 ⟨h'.1, fun i i1 i2 => ?_⟩
        have h4 := h'.2 i i1 i2
        rw [k6, hF _ (List.get_mem _ _)] at h4
        exact h4
  · rw [b5, c5]
    simp only [Transformed.sampleNLP, a5, bind, Except.bind, pure, Except.pure]
    cases d.sampleNLP k n with
    | error e => simp
    | ok xs =>
      simp only
      constructor
      · intro h
        cases hz : (xs.map Prod.fst).mapM f.fwdLd with
        | error e => rw [hz] at h; cases h
        | ok zs =>
          rw [hz] at h
          simp only at h
          have hz' := mapM_ok.1 hz
          have hl : zs.length = xs.length := by rw [← hz'.length_eq]; simp
          have e1 : (List.zipWith (fun (x : V × L) (y : V × L) => (y.1, x.2 - y.2)) xs zs).map Prod.fst = zs.map Prod.fst := by
            rw [List.map_zipWith]
            simp only
            apply List.ext_getElem
            · simp [hl]
            · intro i i1 i2; simp
          rw [e1] at h
          cases hw : (zs.map Prod.fst).mapM g.fwdLd with
          | error e => rw [hw] at h; cases h
          | ok ws =>
            rw [hw] at h
            simp only at h
            injection h with h
            have hw' := mapM_ok.1 hw
            have hlw : ws.length = xs.length := by rw [← hw'.length_eq]; simp [hl]
            have hcc : (xs.map Prod.fst).mapM c.fwdLd = .ok (List.zipWith (fun (z w : V × L) => (w.1, z.2 + w.2)) zs ws) := by
              rw [mapM_ok]
              refine List.forall₂_iff_get.2 ⟨by simp [hl, hlw], fun i i1 i2 => ?_⟩
              have hi : i < xs.length := by simpa using i1
              have p1 := (List.forall₂_iff_get.1 hz').2 i i1 (by omega)
              have p2 := (List.forall₂_iff_get.1 hw').2 i (by simp; omega) (by omega)
              simp only [List.get_eq_getElem, List.getElem_map] at p1 p2
              simp only [List.get_eq_getElem, List.getElem_map, List.getElem_zipWith, k7, p1, p2, bind, Except.bind, pure,
                Except.pure]
            rw [hcc]
            simp only
            rw [← h]
            congr 1
            apply List.ext_getElem
            · simp [hl, hlw]
            · intro i i1 i2; simp [sub_sub]
      · intro h
        cases hcc : (xs.map Prod.fst).mapM c.fwdLd with
        | error e => rw [hcc] at h; cases h
        | ok ws =>
          rw [hcc] at h
          simp only at h
          injection h with h
          have hc' := mapM_ok.1 hcc
          have hlw : ws.length = xs.length := by rw [← hc'.length_eq]; simp
          have hz : ∀ x ∈ xs, ∃ z w, f.fwdLd x.1 = .ok z ∧ g.fwdLd z.1 = .ok w := by
            intro x hx
            obtain ⟨i, hi, rfl⟩ := List.mem_iff_getElem.1 hx
            have h4 := (List.forall₂_iff_get.1 hc').2 i (by simpa using hi) (by omega)
            simp only [List.get_eq_getElem, List.getElem_map, k7, bind, Except.bind] at h4
            cases hf : f.fwdLd (xs[i]).1 with
            | error e => rw [hf] at h4; cases h4
            | ok z =>
              rw [hf] at h4
              simp only at h4
              cases hg : g.fwdLd z.1 with
              | error e => rw [hg] at h4; cases h4
              | ok w => exact ⟨z, w, rfl, hg⟩
          choose! Z W hZW using hz
          have m1 : (xs.map Prod.fst).mapM f.fwdLd = .ok (xs.map Z) := by
            rw [mapM_ok, List.forall₂_map_left_iff, List.forall₂_map_right_iff, List.forall₂_same]
            exact fun x hx => (hZW x hx).1
          have m2 : ((List.zipWith (fun (x : V × L) (y : V × L) => (y.1, x.2 - y.2)) xs (xs.map Z)).map Prod.fst).mapM g.fwdLd =
              .ok (xs.map W) := by
            rw [List.zipWith_map_right, List.zipWith_self, List.map_map, mapM_ok, List.forall₂_map_left_iff,
              List.forall₂_map_right_iff, List.forall₂_same]
            exact fun x hx => (hZW x hx).2
          have m3 : ws = xs.map fun x => ((W x).1, (Z x).2 + (W x).2) := by
            have : (xs.map Prod.fst).mapM c.fwdLd = .ok (xs.map fun x => ((W x).1, (Z x).2 + (W x).2)) := by
              rw [mapM_ok, List.forall₂_map_left_iff, List.forall₂_map_right_iff, List.forall₂_same]
              intro x hx
              simp [k7, (hZW x hx).1, (hZW x hx).2, bind, Except.bind, pure, Except.pure]
            rw [hcc] at this
            injection this
          rw [m1]
          simp only
          rw [m2]
          simp only
          rw [← h, m3]
          congr 1
          apply List.ext_getElem
          · simp
          · intro i i1 i2; simp [sub_sub]
  · rw [b6, c6]
    simp only [Transformed.mean, a6, k4]
    cases g.constJac <;> cases f.constJac <;> simp [bind, Except.bind]
    cases d.mean with
    | error e => rfl
    | ok m => simp [k6, bind, Except.bind]
  · rw [b7, c7]
    simp only [Transformed.mode, a7, k5]
    cases g.constLogDet <;> cases f.constLogDet <;> simp [bind, Except.bind]
    cases d.mode with
    | error e => rfl
    | ok m => simp [k6, bind, Except.bind]
  · have : Transformed.inferShapes t1 g = Transformed.inferShapes d c := by
      simp only [Transformed.inferShapes, a1, a2, aes, bind, Except.bind, pure, Except.pure, k10, k2]
      cases d.batch with
      | error e => rfl
      | ok bs =>
        simp only
        cases f.evalShape (bs ++ es) with
        | error e => rfl
        | ok s =>
          simp only
          by_cases h0 : f.ndimsOut = 0
          · simp [h0]
          · simp [h0, List.take_append_drop]
    rw [b1, c1, b2, c2, this]
    exact ⟨rfl, rfl⟩

theorem entropy_ok [Add L] [ArrayLike V] {d : DObj Key V L} {b : TBij V L} {e : L} :
    Transformed.entropy d b none = .ok e ↔ b.constLogDet = true ∧ ∃ bs es ent l, d.batch = .ok bs ∧ d.event = .ok (.arr es) ∧
      d.entropy none = .ok ent ∧ b.fldj (ArrayLike.zeros (bs ++ es)) = .ok l ∧ e = ent + l := by
  unfold Transformed.entropy
  cases b.constLogDet with
  | false => simp
  | true =>
    simp only [if_true, bind, Except.bind, pure, Except.pure, true_and]
    cases d.batch with
    | error e => simp
    | ok bs =>
      simp only
      cases d.event with
      | error e => simp
      | ok ev =>
        cases ev with
        | nested => simp
        | arr es =>
          simp only
          cases d.entropy none with
          | error e => simp
          | ok ent =>
            simp only
            cases hl : b.fldj (ArrayLike.zeros (bs ++ es)) with
            | error e => simp [hl]
            | ok l => simp [hl, eq_comm]

/-- **Nesting, entropy.** The entropies agree too, whenever `g`'s log-determinant is the constant it declares and the nested
distribution's entropy is defined. -/
theorem C21_nested_entropy [AddCommGroup L] [ArrayLike V] (d t1 t2 tc : DObj Key V L) (f g c : TBij V L)
    (h1 : mkTransformed d f = .ok t1) (h2 : mkTransformed t1 g = .ok t2) (hc : TBij.mkChain [g, f] = .ok c)
    (h3 : mkTransformed d c = .ok tc) (cg : L) (hg : ∀ x, g.fldj x = .ok cg) (hg' : ∀ x, ∃ y, g.fwdLd x = .ok (y, cg))
    (hf : ∀ x, f.fldj x = (do let r ← f.fwdLd x; pure r.2)) (e : L) (he : t2.entropy none = .ok e) :
    tc.entropy none = .ok e := by
  obtain ⟨a1, a2, a3, a4, a5, a6, a7, a8, es, aes, -⟩ := mkTransformed_ok h1
  obtain ⟨b1, b2, b3, b4, b5, b6, b7, b8, -⟩ := mkTransformed_ok h2
  obtain ⟨c1, c2, c3, c4, c5, c6, c7, c8, -⟩ := mkTransformed_ok h3
  obtain ⟨k1, k2, k3, k4, k5, k6, k7, k8, k9, k10⟩ := mkChain_two hc
  rw [b8, entropy_ok] at he
  obtain ⟨hgc, bs1, es1, ent, l, q1, q2, q3, q4, rfl⟩ := he
  rw [a8, entropy_ok] at q3
  obtain ⟨hfc, bs, es', ent0, l0, r1, r2, r3, r4, rfl⟩ := q3
  rw [hg] at q4
  injection q4 with q4
  subst q4
  rw [hf] at r4
  rw [c8, entropy_ok]
  refine ⟨by rw [k5, hgc, hfc]; rfl, bs, es', ent0, l0 + cg, r1, r2, r3, ?_, add_assoc _ _ _⟩
  rw [k9, k7]
  cases hff : f.fwdLd (ArrayLike.zeros (bs ++ es')) with
  | error e => rw [hff] at r4; cases r4
  | ok r =>
    rw [hff] at r4
    simp only [bind, Except.bind, pure, Except.pure] at r4 ⊢
    injection r4 with r4
    obtain ⟨y, hy⟩ := hg' r.1
    rw [hy, ← r4]

end object

/-! ### The law -/

section law

variable {Key E : Type} [NormedAddCommGroup E] [NormedSpace ℝ E] [FiniteDimensional ℝ E] [MeasurableSpace E] [BorelSpace E]
  [ArrayLike E] {μ : Measure E} [μ.IsAddHaarMeasure] {S T : Set E} {f g : E → E} {ld lp : E → ℝ}

/-- The log-density reported on `T`. -/
theorem logProb_on {d t : DObj Key E ℝ} {b : TBij E ℝ} (h : mkTransformed d b = .ok t) (hb : BijLaws b S T f g ld)
    (hp : ∀ x ∈ S, d.logProb x = .ok (lp x)) {y : E} (hy : y ∈ T) :
    t.logProb y = .ok (lp (g y) - ld (g y)) := by
  have hx := hb.diffeo.maps_inv y hy
  have := C21_log_prob d t b h (g y) (f (g y)) _ _ (hb.pair _ hx) (hp _ hx)
  rwa [hb.diffeo.right y hy] at this

theorem exp_split (a b : ℝ) : Real.exp (a - b) = Real.exp a * Real.exp (-b) := by
  rw [sub_eq_add_neg, Real.exp_add]

/-- **Change of variables.** If `exp(log_prob)` of the base is a density of `X` on `S` and the bijector computes a
differentiable bijection `f` of `S` onto `T` with its log-Jacobian, then `exp(log_prob)` of the transformed distribution is
a density of `f(X)` on `T`: `P(f(X) ∈ B) = ∫_B exp(log_prob)` for every measurable `B`, and its total mass is that of the base. -/
theorem C21_density (d t : DObj Key E ℝ) (b : TBij E ℝ) (h : mkTransformed d b = .ok t) (hb : BijLaws b S T f g ld)
    (hp : ∀ x ∈ S, d.logProb x = .ok (lp x)) :
    ∃ lq : E → ℝ, (∀ y ∈ T, t.logProb y = .ok (lq y)) ∧
      LawHasDensity μ S (fun x => Real.exp (lp x)) f T (fun y => Real.exp (lq y)) ∧
      ∫ y in T, Real.exp (lq y) ∂μ = ∫ x in S, Real.exp (lp x) ∂μ ∧
      (IsDensityOn μ S (fun x => Real.exp (lp x)) → IsDensityOn μ T (fun y => Real.exp (lq y))) := by
  refine ⟨fun y => lp (g y) - ld (g y), fun y hy => logProb_on h hb hp hy, fun B hB => ?_, ?_, fun hd => ⟨?_, ?_, ?_⟩⟩
  · simp only [exp_split]
    exact ((hb.diffeo.cov (μ := μ) hB fun x => Real.exp (lp x)).1).symm
  · simp only [exp_split]
    exact (hb.diffeo.cov_univ (μ := μ) fun x => Real.exp (lp x)).1
  · exact fun y _ => (Real.exp_pos _).le
  · simp only [exp_split]
    exact (hb.diffeo.cov_univ (μ := μ) fun x => Real.exp (lp x)).2.2 hd.integrable
  · simp only [exp_split]
    rw [(hb.diffeo.cov_univ (μ := μ) fun x => Real.exp (lp x)).1, hd.one]

/-- **Expectations.** `E[h(Y)]` under the transformed density is `E[h(f(X))]` under the base. -/
theorem C21_expectation (d t : DObj Key E ℝ) (b : TBij E ℝ) (h : mkTransformed d b = .ok t) (hb : BijLaws b S T f g ld)
    (hp : ∀ x ∈ S, d.logProb x = .ok (lp x)) (lq : E → ℝ) (hq : ∀ y ∈ T, t.logProb y = .ok (lq y)) (w : E → ℝ) (e : ℝ) :
    ExpOn μ S (fun x => Real.exp (lp x)) (fun x => w (f x)) e → ExpOn μ T (fun y => Real.exp (lq y)) w e := by
  intro he
  refine hb.diffeo.expOn he (fun y hy => ?_) fun y hy => by rw [hb.diffeo.right y hy]
  have := logProb_on h hb hp hy
  rw [hq y hy] at this
  injection this with this
  rw [this, exp_split]

/-- **Mean.** With an honest constant-Jacobian flag, `mean()` is `f(base mean)` and is the mean of the transformed law. -/
theorem C21_mean (d t : DObj Key E ℝ) (b : TBij E ℝ) (h : mkTransformed d b = .ok t) (hb : BijLaws b S T f g ld)
    (hp : ∀ x ∈ S, d.logProb x = .ok (lp x)) (lq : E → ℝ) (hq : ∀ y ∈ T, t.logProb y = .ok (lq y))
    (hd : IsDensityOn μ S (fun x => Real.exp (lp x))) (hJ : HonestJacobian b) (hc : b.constJac = true) (m : E)
    (hm : d.mean = .ok m) (hmean : MeanOn μ S (fun x => Real.exp (lp x)) m) :
    ∃ m', t.mean = .ok m' ∧ b.forward m = .ok m' ∧ MeanOn μ T (fun y => Real.exp (lq y)) m' := by
  obtain ⟨A, c, hA⟩ := hJ hc
  refine ⟨A m + c, ?_, hA m, fun φ => ?_⟩
  · obtain ⟨-, -, -, -, -, e, -⟩ := mkTransformed_ok h
    rw [e]; simp [Transformed.mean, hc, hm, hA, bind, Except.bind]
  · refine C21_expectation d t b h hb hp lq hq _ _ ?_
    have h1 := hmean (φ.comp A)
    have hf : ∀ x ∈ S, Real.exp (lp x) * (φ.comp A) x + Real.exp (lp x) * φ c = Real.exp (lp x) * φ (f x) := by
      intro x hx
      have := (hb.pair x hx).fwd
      rw [hA x] at this
      injection this with this
      rw [← this]; simp; ring
    refine ⟨(integrableOn_congr_fun hf hb.diffeo.meas).1 (h1.1.add (hd.integrable.mul_const _)), ?_⟩
    rw [← setIntegral_congr_fun hb.diffeo.meas hf, integral_add h1.1 (hd.integrable.mul_const _), h1.2, integral_mul_const,
      hd.one]
    simp

/-- **Mode.** With an honest constant-log-det flag, `mode()` is `f(base mode)` and maximises the transformed density. -/
theorem C21_mode (d t : DObj Key E ℝ) (b : TBij E ℝ) (h : mkTransformed d b = .ok t) (hb : BijLaws b S T f g ld)
    (hp : ∀ x ∈ S, d.logProb x = .ok (lp x)) (lq : E → ℝ) (hq : ∀ y ∈ T, t.logProb y = .ok (lq y))
    (hL : HonestLogDet b S ld) (hc : b.constLogDet = true) (m : E)
    (hm : d.mode = .ok m) (hmode : IsModeOn S (fun x => Real.exp (lp x)) m) :
    t.mode = .ok (f m) ∧ IsModeOn T (fun y => Real.exp (lq y)) (f m) := by
  obtain ⟨c, -, hc'⟩ := hL hc
  refine ⟨?_, hb.diffeo.maps m hmode.1, fun y hy => ?_⟩
  · obtain ⟨-, -, -, -, -, -, e, -⟩ := mkTransformed_ok h
    rw [e]; simp [Transformed.mode, hc, hm, (hb.pair m hmode.1).fwd, bind, Except.bind]
  · have e1 := logProb_on h hb hp hy
    have e2 := logProb_on h hb hp (hb.diffeo.maps m hmode.1)
    rw [hq y hy] at e1
    rw [hq _ (hb.diffeo.maps m hmode.1), hb.diffeo.left m hmode.1] at e2
    injection e1 with e1; injection e2 with e2
    have hx := hb.diffeo.maps_inv y hy
    have := hmode.2 _ hx
    simp only [e1, e2, hc' _ hx, hc' _ hmode.1, exp_split]
    exact mul_le_mul_of_nonneg_right this (Real.exp_pos _).le

/-- **Entropy.** With an honest constant-log-det flag, `entropy()` (with or without a hint) is the base entropy plus the
log-determinant, and is the differential entropy of the transformed density. -/
theorem C21_entropy (d t : DObj Key E ℝ) (b : TBij E ℝ) (h : mkTransformed d b = .ok t) (hb : BijLaws b S T f g ld)
    (hp : ∀ x ∈ S, d.logProb x = .ok (lp x)) (lq : E → ℝ) (hq : ∀ y ∈ T, t.logProb y = .ok (lq y))
    (hd : IsDensityOn μ S (fun x => Real.exp (lp x))) (hL : HonestLogDet b S ld) (hc : b.constLogDet = true) (e : ℝ)
    (bs : List ℕ) (hbs : d.batch = .ok bs)
    (he : d.entropy none = .ok e) (hent : EntropyOn μ S (fun x => Real.exp (lp x)) e) (hint : Option E) :
    ∃ l, (∀ x ∈ S, ld x = l) ∧ t.entropy hint = .ok (e + l) ∧ EntropyOn μ T (fun y => Real.exp (lq y)) (e + l) := by
  obtain ⟨c, hc1, hc2⟩ := hL hc
  refine ⟨c, hc2, ?_, ?_⟩
  · obtain ⟨-, -, -, -, -, -, -, e', es, hes, -⟩ := mkTransformed_ok h
    rw [e']
    cases hint with
    | some x => simp [Transformed.entropy, hc, he, hc1, bind, Except.bind, pure, Except.pure]
    | none => simp [Transformed.entropy, hc, he, hc1, hbs, hes, bind, Except.bind, pure, Except.pure]
  · have h2 : ExpOn μ S (fun x => Real.exp (lp x)) (fun x => -Real.log (Real.exp (lp x)) + c) (e + c) := by
      have hf : ∀ x ∈ S, Real.exp (lp x) * -Real.log (Real.exp (lp x)) + Real.exp (lp x) * c =
          Real.exp (lp x) * (-Real.log (Real.exp (lp x)) + c) := fun x _ => by ring
      refine ⟨(integrableOn_congr_fun hf hb.diffeo.meas).1 (hent.1.add (hd.integrable.mul_const _)), ?_⟩
      rw [← setIntegral_congr_fun hb.diffeo.meas hf, integral_add hent.1 (hd.integrable.mul_const _), hent.2,
        integral_mul_const, hd.one, one_mul]
    refine hb.diffeo.expOn h2 (fun y hy => ?_) fun y hy => ?_
    · have := logProb_on h hb hp hy
      rw [hq y hy] at this
      injection this with this
      rw [this, exp_split]
    · have := logProb_on h hb hp hy
      rw [hq y hy] at this
      injection this with this
      beta_reduce
      rw [this, Real.log_exp, Real.log_exp, hc2 _ (hb.diffeo.maps_inv y hy)]
      ring

end law

/-! ### The hypotheses are met -/

/-- `exp : ℝ → (0, ∞)` as a bijector object (non-constant Jacobian). -/
noncomputable def exExp : TBij ℝ ℝ :=
  { ndimsIn := 0, ndimsOut := 0, constJac := false, constLogDet := false
    forward := fun x => .ok (Real.exp x), inverse := fun y => .ok (Real.log y)
    fldj := fun x => .ok x, ildj := fun y => .ok (-Real.log y)
    fwdLd := fun x => .ok (Real.exp x, x), invLd := fun y => .ok (Real.log y, -Real.log y)
    evalShape := .ok }

/-- `x ↦ 2 x + 3` as a bijector object (constant Jacobian). -/
noncomputable def exAff : TBij ℝ ℝ :=
  { ndimsIn := 0, ndimsOut := 0, constJac := true, constLogDet := true
    forward := fun x => .ok (2 * x + 3), inverse := fun y => .ok ((y - 3) / 2)
    fldj := fun _ => .ok (Real.log 2), ildj := fun _ => .ok (-Real.log 2)
    fwdLd := fun x => .ok (2 * x + 3, Real.log 2), invLd := fun y => .ok ((y - 3) / 2, -Real.log 2)
    evalShape := .ok }

theorem det_smulRight_one (c : ℝ) : (ContinuousLinearMap.toSpanSingleton ℝ c : ℝ →L[ℝ] ℝ).det = c := by
  rw [ContinuousLinearMap.det, show ((ContinuousLinearMap.toSpanSingleton ℝ c : ℝ →L[ℝ] ℝ) : ℝ →ₗ[ℝ] ℝ) =
    c • LinearMap.id from by ext; simp]
  simp [LinearMap.det_smul]

example : BijLaws exExp Set.univ (Set.Ioi 0) Real.exp Real.log id ∧
    BijLaws exAff Set.univ Set.univ (fun x => 2 * x + 3) (fun y => (y - 3) / 2) (fun _ => Real.log 2) ∧
    HonestJacobian exAff ∧ HonestLogDet exAff Set.univ (fun _ => Real.log 2) := by
  refine ⟨⟨⟨MeasurableSet.univ, fun x _ => Real.exp_pos x, fun _ _ => trivial, fun x _ => Real.log_exp x,
      fun y hy => Real.exp_log hy, fun x _ => ⟨_, (Real.hasDerivAt_exp x).hasFDerivAt.hasFDerivWithinAt, ?_, ?_⟩⟩,
      fun x _ => ⟨rfl, rfl, by simp [exExp]⟩⟩,
    ⟨⟨MeasurableSet.univ, fun _ _ => trivial, fun _ _ => trivial, fun x _ => by ring, fun y _ => by ring,
      fun x _ => ⟨_, (((hasDerivAt_id x).const_mul 2).add_const 3).hasFDerivAt.hasFDerivWithinAt, ?_, ?_⟩⟩,
      fun x _ => ⟨rfl, rfl, by simp [exAff]⟩⟩,
    fun _ => ⟨(2 : ℝ) • ContinuousLinearMap.id ℝ ℝ, 3, fun x => by simp [exAff]⟩,
    fun _ => ⟨Real.log 2, fun _ => rfl, fun _ _ => rfl⟩⟩
  all_goals simp [det_smulRight_one, abs_of_pos (Real.exp_pos _)]

end Distrax
