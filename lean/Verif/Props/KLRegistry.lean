import Verif.Spec.KLRegistry
import Mathlib.Data.List.NodupEquivFin

/-! # C57: which formula `kl_divergence` uses -/

namespace Distrax

open Spec

/-! ### The loop of the dispatcher -/

/-- If one candidate is nearer than every other function among the candidates, it wins. -/
theorem klFold_least (d : ℕ) (f : KLFn) : ∀ (l : List (ℕ × Option KLFn)) (st : Option (ℕ × KLFn)),
    (∀ c ∈ l, ∀ g, c.2 = some g → (c.1 = d ∧ g = f) ∨ d < c.1) →
    (∀ x, st = some x → x = (d, f) ∨ d < x.1) → ((d, some f) ∈ l ∨ st = some (d, f)) →
    l.foldl klStep st = some (d, f) := by
  intro l
  induction l with
  | nil =>
    intro st _ _ h
    rcases h with h | h
    · simp at h
    · exact h
  | cons c l ih =>
    intro st hl hst h
    rw [List.foldl_cons]
    refine ih _ (fun c' hc' => hl c' (List.mem_cons_of_mem _ hc')) ?_ ?_
    · -- the state stays the target or farther
      intro x hx
      unfold klStep at hx
      rcases st with _ | ⟨d0, f0⟩
      · simp only at hx
        rcases hc : c.2 with _ | g
        · rw [hc] at hx; simp at hx
        · rw [hc] at hx
          simp only [Option.map_some, Option.some.injEq] at hx
          subst hx
          rcases hl c List.mem_cons_self g hc with ⟨h1, h2⟩ | h1
          · left; rw [h1, h2]
          · right; exact h1
      · simp only at hx
        have h0 := hst _ rfl
        rcases hc : c.2 with _ | g
        · rw [hc] at hx; simp only [Option.some.injEq] at hx; subst hx; exact h0
        · rw [hc] at hx
          simp only at hx
          split at hx
          · simp only [Option.some.injEq] at hx
            subst hx
            rcases hl c List.mem_cons_self g hc with ⟨h1, h2⟩ | h1
            · left; rw [h1, h2]
            · right; exact h1
          · simp only [Option.some.injEq] at hx; subst hx; exact h0
    · -- the target is still to come or has been reached
      by_cases hs : st = some (d, f)
      · right
        subst hs
        unfold klStep
        rcases hc : c.2 with _ | g
        · rfl
        · simp only
          rw [if_neg]
          rcases hl c List.mem_cons_self g hc with ⟨h1, _⟩ | h1 <;> omega
      · rcases h with h | h
        · rcases List.mem_cons.mp h with h | h
          · right
            rw [← h]
            unfold klStep
            rcases st with _ | ⟨d0, f0⟩
            · rfl
            · simp only
              rcases hst _ rfl with h0 | h0
              · rw [h0] at hs; exact absurd rfl hs
              · rw [if_pos h0]
          · left; exact h
        · exact absurd h hs

theorem klFold_none : ∀ (l : List (ℕ × Option KLFn)), (∀ c ∈ l, c.2 = none) → l.foldl klStep none = none := by
  intro l
  induction l with
  | nil => intro _; rfl
  | cons c l ih =>
    intro h
    rw [List.foldl_cons]
    have : klStep none c = none := by unfold klStep; rw [h c List.mem_cons_self]; rfl
    rw [this]
    exact ih fun c' hc' => h c' (List.mem_cons_of_mem _ hc')

theorem mem_candidates {r : KLRegistry} {ma mb : List Cls} {c : ℕ × Option KLFn} (h : c ∈ klCandidates r ma mb) :
    ∃ (i j : ℕ) (hi : i < ma.length) (hj : j < mb.length), c = (i + j, r.get ma[i] mb[j]) := by
  unfold klCandidates at h
  rw [List.mem_flatMap] at h
  obtain ⟨⟨p, i⟩, hp, h⟩ := h
  rw [List.mem_map] at h
  obtain ⟨⟨q, j⟩, hq, h⟩ := h
  rw [List.mem_zipIdx_iff_getElem?] at hp hq
  simp only at hp hq h
  obtain ⟨hi, hp⟩ := List.getElem?_eq_some_iff.mp hp
  obtain ⟨hj, hq⟩ := List.getElem?_eq_some_iff.mp hq
  refine ⟨i, j, hi, hj, ?_⟩
  subst hp hq
  exact h.symm

theorem candidates_mem (r : KLRegistry) {ma mb : List Cls} {i j : ℕ} (hi : i < ma.length) (hj : j < mb.length) :
    (i + j, r.get ma[i] mb[j]) ∈ klCandidates r ma mb := by
  unfold klCandidates
  rw [List.mem_flatMap]
  refine ⟨(ma[i], i), ?_, ?_⟩
  · rw [List.mem_zipIdx_iff_getElem?]; exact List.getElem?_eq_getElem hi
  · rw [List.mem_map]
    refine ⟨(mb[j], j), ?_, rfl⟩
    rw [List.mem_zipIdx_iff_getElem?]; exact List.getElem?_eq_getElem hj

/-- The dispatcher finds the function of a pair of ancestors that is nearest in both arguments at once. -/
theorem registeredKl_least (r : KLRegistry) {ma mb : List Cls} {i j : ℕ} (hi : i < ma.length) (hj : j < mb.length) {f : KLFn}
    (hf : r.get ma[i] mb[j] = some f)
    (hl : ∀ (i' j' : ℕ) (hi' : i' < ma.length) (hj' : j' < mb.length), r.get ma[i'] mb[j'] ≠ none → i ≤ i' ∧ j ≤ j') :
    registeredKl r ma mb = some f := by
  unfold registeredKl
  rw [klFold_least (i + j) f]
  · rfl
  · intro c hc g hg
    obtain ⟨i', j', hi', hj', rfl⟩ := mem_candidates hc
    obtain ⟨h1, h2⟩ := hl i' j' hi' hj' (by rw [show r.get ma[i'] mb[j'] = some g from hg]; simp)
    by_cases he : i' = i ∧ j' = j
    · left
      obtain ⟨rfl, rfl⟩ := he
      refine ⟨rfl, ?_⟩
      have : some g = some f := by rw [← hf]; exact hg.symm
      simpa using this
    · right
      show i + j < i' + j'
      omega
  · simp
  · left; rw [← hf]; exact candidates_mem r hi hj

theorem registeredKl_none (r : KLRegistry) {ma mb : List Cls} (h : ∀ p ∈ ma, ∀ q ∈ mb, r.get p q = none) :
    registeredKl r ma mb = none := by
  unfold registeredKl
  rw [klFold_none]
  · rfl
  · intro c hc
    obtain ⟨i', j', hi', hj', rfl⟩ := mem_candidates hc
    exact h _ (List.getElem_mem _) _ (List.getElem_mem _)

/-! ### Subclasses and wrappers -/

theorem klFold_shift : ∀ (l : List (ℕ × Option KLFn)) (st : Option (ℕ × KLFn)),
    ((l.map fun c => (c.1 + 1, c.2)).foldl klStep (st.map fun x => (x.1 + 1, x.2)))
      = (l.foldl klStep st).map fun x => (x.1 + 1, x.2) := by
  intro l
  induction l with
  | nil => intro st; rfl
  | cons c l ih =>
    intro st
    rw [List.map_cons, List.foldl_cons, List.foldl_cons, ← ih]
    congr 1
    unfold klStep
    rcases st with _ | ⟨d, f⟩
    · simp only [Option.map_none]
      rcases c.2 with _ | g <;> rfl
    · simp only [Option.map_some]
      rcases c.2 with _ | g
      · rfl
      · simp only [Nat.add_lt_add_iff_right]
        split <;> rfl

theorem klFold_skip : ∀ (l l' : List (ℕ × Option KLFn)) (st : Option (ℕ × KLFn)), (∀ c ∈ l, c.2 = none) →
    (l ++ l').foldl klStep st = l'.foldl klStep st := by
  intro l
  induction l with
  | nil => intro l' st _; rfl
  | cons c l ih =>
    intro l' st h
    rw [List.cons_append, List.foldl_cons, ih _ _ fun c' hc' => h c' (List.mem_cons_of_mem _ hc')]
    congr 1
    unfold klStep
    rw [h c List.mem_cons_self]
    rcases st with _ | ⟨d, f⟩ <;> rfl

theorem klPrefix (r : KLRegistry) (x : Cls) (ma mb : List Cls) (h : ∀ c, r.get x c = none ∧ r.get c x = none) :
    klDispatch r (x :: ma) mb = klDispatch r ma mb ∧ klDispatch r ma (x :: mb) = klDispatch r ma mb := by
  have fin : ∀ m1 m2 : List Cls, registeredKl r m1 m2 = registeredKl r ma mb → klDispatch r m1 m2 = klDispatch r ma mb := by
    intro m1 m2 e; unfold klDispatch; rw [e]
  constructor
  · apply fin
    unfold registeredKl
    have e : klCandidates r (x :: ma) mb =
        (mb.zipIdx.map fun q => (0 + q.2, r.get x q.1)) ++ (klCandidates r ma mb).map fun c => (c.1 + 1, c.2) := by
      unfold klCandidates
      rw [List.zipIdx_cons, List.flatMap_cons, List.zipIdx_succ, List.flatMap_map, List.map_flatMap]
      congr 1
      refine List.flatMap_congr fun p _ => ?_
      rw [List.map_map]
      refine List.map_congr_left fun q _ => ?_
      simp only [Function.comp]
      rw [show p.2 + 1 + q.2 = p.2 + q.2 + 1 by omega]
    rw [e, klFold_skip]
    · have := klFold_shift (klCandidates r ma mb) none
      rw [Option.map_none] at this
      rw [this, Option.map_map]
      rfl
    · intro c hc
      rw [List.mem_map] at hc
      obtain ⟨q, _, rfl⟩ := hc
      exact (h _).1
  · apply fin
    unfold registeredKl
    have key : ∀ (l : List (Cls × ℕ)) (st : Option (ℕ × KLFn)),
        (l.flatMap fun p => (x :: mb).zipIdx.map fun q => (p.2 + q.2, r.get p.1 q.1)).foldl klStep
          (st.map fun y => (y.1 + 1, y.2))
        = ((l.flatMap fun p => mb.zipIdx.map fun q => (p.2 + q.2, r.get p.1 q.1)).foldl klStep st).map
            fun y => (y.1 + 1, y.2) := by
      intro l
      induction l with
      | nil => intro st; rfl
      | cons p l ih =>
        intro st
        rw [List.flatMap_cons, List.flatMap_cons, List.foldl_append, List.foldl_append, ← ih]
        congr 1
        have e : (x :: mb).zipIdx.map (fun q => (p.2 + q.2, r.get p.1 q.1))
            = [(p.2 + 0, r.get p.1 x)] ++
              (mb.zipIdx.map fun q => (p.2 + q.2, r.get p.1 q.1)).map fun c => (c.1 + 1, c.2) := by
          rw [List.zipIdx_cons, List.map_cons, List.zipIdx_succ, List.map_map, List.map_map]
          rfl
        rw [e, klFold_skip, klFold_shift]
        intro c hc
        rw [List.mem_singleton] at hc
        subst hc
        exact (h _).2
    have := key ma.zipIdx none
    rw [Option.map_none] at this
    unfold klCandidates
    rw [this, Option.map_map]
    rfl

/-- A class without registrations of its own — a user's subclass, or the class made by `tfp_compatible_distribution` —
changes nothing: for every registry and every two types, the KL dispatches as for the base class, in either argument. -/
theorem C57_subclass (r : KLRegistry) (n : ℕ) (ma mb : List Cls) (h : ∀ c, r.get (.other n) c = none ∧ r.get c (.other n) = none) :
    klDispatch r (subclassMro n ma) mb = klDispatch r ma mb ∧ klDispatch r ma (subclassMro n mb) = klDispatch r ma mb :=
  klPrefix r _ ma mb h

example : ∀ c, distraxKLs.get (.other 7) c = none ∧ distraxKLs.get c (.other 7) = none := by
  intro c
  constructor <;>
  · unfold KLRegistry.get
    rw [Option.map_eq_none_iff, List.find?_eq_none]
    intro e he
    revert e
    simp [distraxKLs, registerTriple]

/-! ### The library's classes -/

theorem filter_idxOf (P : Cls → Bool) {p p' : Cls} (hp : P p = true) (hp' : P p' = true) : ∀ m : List Cls,
    p ∈ m → (m.filter P).idxOf p ≤ (m.filter P).idxOf p' → m.idxOf p ≤ m.idxOf p' := by
  intro m
  induction m with
  | nil => intro h; simp at h
  | cons x m ih =>
    intro hm h
    by_cases h1 : x = p
    · subst h1; simp
    · by_cases h2 : x = p'
      · subst h2
        rw [List.filter_cons_of_pos hp', List.idxOf_cons_ne _ h1, List.idxOf_cons_self] at h
        omega
      · rw [List.idxOf_cons_ne _ h1, List.idxOf_cons_ne _ h2]
        have hm' : p ∈ m := by
          rcases List.mem_cons.mp hm with h | h
          · exact absurd h.symm h1
          · exact h
        have := ih hm' (by
          by_cases hx : P x = true
          · rw [List.filter_cons_of_pos hx, List.idxOf_cons_ne _ h1, List.idxOf_cons_ne _ h2] at h
            omega
          · rw [List.filter_cons_of_neg hx] at h; exact h)
        omega

theorem get_append (r s : KLRegistry) (a b : Cls) : KLRegistry.get (r ++ s) a b = (r.get a b).or (s.get a b) := by
  unfold KLRegistry.get
  rw [List.find?_append, Option.map_or]

theorem get_tfpOnly {r : KLRegistry} (h : TfpOnly r) {a b : Cls} (hab : (∀ t, a ≠ .tf t) ∨ (∀ t, b ≠ .tf t)) :
    r.get a b = none := by
  unfold KLRegistry.get
  rw [Option.map_eq_none_iff, List.find?_eq_none]
  intro e he hc
  simp only [decide_eq_true_eq] at hc
  obtain ⟨⟨x, hx⟩, ⟨y, hy⟩⟩ := h e he
  rw [hc] at hx hy
  rcases hab with h | h
  · exact h _ hx
  · exact h _ hy

theorem get_keyed {a b : Cls} (h : distraxKLs.get a b ≠ none) : keyed a = true ∧ keyed b = true := by
  unfold KLRegistry.get at h
  have h1 : (distraxKLs.find? fun e => e.1 = (a, b)) ≠ none := by
    intro h2; rw [h2] at h; exact h rfl
  obtain ⟨e, he⟩ := Option.ne_none_iff_exists'.mp h1
  have hm := List.mem_of_find?_eq_some he
  have hp := List.find?_some he
  simp only [decide_eq_true_eq] at hp
  have hall : ∀ e ∈ distraxKLs, keyed e.1.1 = true ∧ keyed e.1.2 = true := by decide +kernel
  have := hall e hm
  rw [hp] at this
  exact this

def allDCls : List DCls :=
  [.distribution, .bernoulli, .beta, .categorical, .categoricalUniform, .clipped, .clippedNormal, .clippedLogistic, .deterministic,
   .dirichlet, .epsilonGreedy, .gamma, .greedy, .gumbel, .independent, .joint, .laplace, .logStddevNormal, .logistic,
   .mixtureOfTwo, .mixtureSameFamily, .multinomial, .mvnDiag, .mvnDiagPlusLowRank, .mvnFromBijector,
   .mvnFullCovariance, .mvnTri, .normal, .oneHotCategorical, .quantized, .softmax, .transformed, .uniform, .vonMises]

def allTKinds : List TKind :=
  [.bernoulli, .beta, .categorical, .deterministic, .dirichlet, .gamma, .gumbel, .independent, .laplace, .normal,
   .oneHotCategorical, .transformed, .uniform, .vonMises, .mvnLinearOperator,
   .mvnDiag, .mvnTriL, .mvnFullCovariance, .mvnDiagPlusLowRank, .otherTransformed, .unrelated]

def allKinds : List Kind := allDCls.map .distrax ++ allTKinds.map .tfp

theorem mem_allKinds (k : Kind) : k ∈ allKinds := by
  cases k with
  | distrax c => cases c <;> decide
  | tfp c => cases c <;> decide

/-- The prescribed formula belongs to a registered pair that is nearest in both arguments, or there is no registered
pair. -/
def tableOk (a b : Kind) : Bool :=
  match klFormula a b with
  | none => (skeleton a).all fun p => (skeleton b).all fun q => distraxKLs.get p q = none
  | some f => (skeleton a).any fun p => (skeleton b).any fun q => distraxKLs.get p q = some f &&
      (skeleton a).all fun p' => (skeleton b).all fun q' => distraxKLs.get p' q' = none ||
        ((skeleton a).idxOf p ≤ (skeleton a).idxOf p' && (skeleton b).idxOf q ≤ (skeleton b).idxOf q')

def isDistraxKind : Kind → Bool
  | .distrax _ => true
  | .tfp _ => false

theorem table_ok : (allKinds.all fun a => allKinds.all fun b =>
    !(isDistraxKind a || isDistraxKind b) || tableOk a b) = true := by decide +kernel

theorem table_ok' (a b : Kind) (h : isDistraxKind a = true ∨ isDistraxKind b = true) : tableOk a b = true := by
  have h1 := List.all_eq_true.mp table_ok a (mem_allKinds a)
  have h2 := List.all_eq_true.mp h1 b (mem_allKinds b)
  rcases h with h | h <;> simpa [h] using h2

theorem skel_mem {k : Kind} {m : List Cls} (h : IsType k m) {p : Cls} : p ∈ skeleton k ↔ p ∈ m ∧ keyed p = true := by
  rw [← h.keys, List.mem_filter]

/-- `kl_divergence` of two distributions, at least one of them Distrax's, uses the formula of their common family (for
Distrax objects and TFP objects alike, in either order), the Dirichlet formula for a Beta and a Dirichlet, the formula for
transformed distributions if both are transformed; in every other case it raises NotImplementedError.  The types may be
any types of these kinds: library classes, subclasses written by users, the wrappers' classes; TFP's own registrations do
not interfere. -/
theorem C57_dispatch (a b : Kind) (hab : isDistraxKind a = true ∨ isDistraxKind b = true) (ma mb : List Cls)
    (ha : IsType a ma) (hb : IsType b mb) (ext : KLRegistry) (hext : TfpOnly ext) :
    klDispatch (distraxKLs ++ ext) ma mb =
      match klFormula a b with
      | some f => .ok f
      | none => .error .notImplemented := by
  have hget : ∀ p ∈ ma, ∀ q ∈ mb, KLRegistry.get (distraxKLs ++ ext) p q = distraxKLs.get p q := by
    intro p hp q hq
    rw [get_append, get_tfpOnly hext, Option.or_none]
    rcases hab with h | h
    · left
      intro t ht
      cases a with
      | distrax c => exact ha.noTfp c rfl t (ht ▸ hp)
      | tfp c => simp [isDistraxKind] at h
    · right
      intro t ht
      cases b with
      | distrax c => exact hb.noTfp c rfl t (ht ▸ hq)
      | tfp c => simp [isDistraxKind] at h
  have htab := table_ok' a b hab
  unfold tableOk at htab
  unfold klDispatch
  rcases hf : klFormula a b with _ | f
  · rw [hf] at htab
    simp only [List.all_eq_true, decide_eq_true_eq] at htab
    rw [registeredKl_none]
    intro p hp q hq
    rw [hget p hp q hq]
    by_contra hne
    obtain ⟨k1, k2⟩ := get_keyed hne
    exact hne (htab p ((skel_mem ha).mpr ⟨hp, k1⟩) q ((skel_mem hb).mpr ⟨hq, k2⟩))
  · rw [hf] at htab
    simp only [List.any_eq_true, List.all_eq_true, Bool.and_eq_true, Bool.or_eq_true, decide_eq_true_eq] at htab
    obtain ⟨p, hp, q, hq, hpq, hleast⟩ := htab
    obtain ⟨hpm, hpk⟩ := (skel_mem ha).mp hp
    obtain ⟨hqm, hqk⟩ := (skel_mem hb).mp hq
    have hi := List.idxOf_lt_length_of_mem hpm
    have hj := List.idxOf_lt_length_of_mem hqm
    rw [registeredKl_least (distraxKLs ++ ext) hi hj (f := f)]
    · rw [List.getElem_idxOf, List.getElem_idxOf, hget p hpm q hqm]; exact hpq
    · intro i' j' hi' hj' hne
      have hpm' := List.getElem_mem hi'
      have hqm' := List.getElem_mem hj'
      rw [hget _ hpm' _ hqm'] at hne
      obtain ⟨k1, k2⟩ := get_keyed hne
      rcases hleast _ ((skel_mem ha).mpr ⟨hpm', k1⟩) _ ((skel_mem hb).mpr ⟨hqm', k2⟩) with h | ⟨h1, h2⟩
      · exact absurd h hne
      · rw [← ha.keys] at h1
        rw [← hb.keys] at h2
        have e1 := filter_idxOf keyed hpk k1 ma hpm h1
        have e2 := filter_idxOf keyed hqk k2 mb hqm h2
        rw [ha.nodup.idxOf_getElem] at e1
        rw [hb.nodup.idxOf_getElem] at e2
        exact ⟨e1, e2⟩

/-! ### The registry and the types that exist -/

/-- Importing the library registers every function once: no registration is refused, in particular none collides with
another one. -/
theorem C57_registration (ext : KLRegistry) (hext : TfpOnly ext) :
    distraxKLs.foldlM KLRegistry.register ext = .ok (ext ++ distraxKLs) := by
  have key : ∀ (l acc : KLRegistry), (∀ e ∈ l, acc.get e.1.1 e.1.2 = none) → (l.map (·.1)).Nodup →
      l.foldlM KLRegistry.register acc = .ok (acc ++ l) := by
    intro l
    induction l with
    | nil => intro acc _ _; simp; rfl
    | cons e l ih =>
      intro acc h hn
      rw [List.foldlM_cons]
      have h1 : acc.register e = .ok (acc ++ [e]) := by unfold KLRegistry.register; rw [h e List.mem_cons_self]
      rw [h1]
      show l.foldlM KLRegistry.register (acc ++ [e]) = _
      rw [List.map_cons, List.nodup_cons] at hn
      rw [ih _ _ hn.2, List.append_assoc, List.singleton_append]
      intro e' he'
      rw [get_append, h e' (List.mem_cons_of_mem _ he'), Option.none_or]
      unfold KLRegistry.get
      rw [List.find?_singleton]
      have : e.1 ≠ (e'.1.1, e'.1.2) := by
        intro heq
        exact hn.1 (List.mem_map.mpr ⟨e', he', heq.symm⟩)
      simp [this]
  refine key _ _ ?_ (by decide +kernel)
  intro e he
  have : ∀ e ∈ distraxKLs, (∃ c, e.1.1 = .dx c) ∨ (∃ c, e.1.2 = .dx c) := by
    have h0 : (distraxKLs.all fun e => (match e.1.1 with | .dx _ => true | _ => false) ||
      (match e.1.2 with | .dx _ => true | _ => false)) = true := by decide +kernel
    intro e he
    have := List.all_eq_true.mp h0 e he
    rw [Bool.or_eq_true] at this
    rcases this with h | h
    · left; split at h
      · exact ⟨_, by assumption⟩
      · simp at h
    · right; split at h
      · exact ⟨_, by assumption⟩
      · simp at h
  refine get_tfpOnly hext ?_
  rcases this e he with ⟨c, hc⟩ | ⟨c, hc⟩
  · left; intro t ht; rw [ht] at hc; simp at hc
  · right; intro t ht; rw [ht] at hc; simp at hc

example : TfpOnly [((.tf .normal, .tf .normal), .tfp 0)] := by
  intro e he; rw [List.mem_singleton] at he; subst he; exact ⟨⟨_, rfl⟩, ⟨_, rfl⟩⟩

/-- The order of registration is immaterial to the result. -/
theorem get_comm {ext : KLRegistry} (hext : TfpOnly ext) (a b : Cls) :
    KLRegistry.get (ext ++ distraxKLs) a b = KLRegistry.get (distraxKLs ++ ext) a b := by
  rw [get_append, get_append]
  by_cases h : ext.get a b = none
  · rw [h, Option.none_or, Option.or_none]
  · have h2 : distraxKLs.get a b = none := by
      by_contra h3
      have hd : (∃ c, a = .dx c) ∨ (∃ c, b = .dx c) := by
        have h0 : (distraxKLs.all fun e => (match e.1.1 with | .dx _ => true | _ => false) ||
          (match e.1.2 with | .dx _ => true | _ => false)) = true := by decide +kernel
        unfold KLRegistry.get at h3
        have h1 : (distraxKLs.find? fun e => e.1 = (a, b)) ≠ none := by
          intro h2; rw [h2] at h3; exact h3 rfl
        obtain ⟨e, he⟩ := Option.ne_none_iff_exists'.mp h1
        have hp := List.find?_some he
        simp only [decide_eq_true_eq] at hp
        have := List.all_eq_true.mp h0 e (List.mem_of_find?_eq_some he)
        rw [hp, Bool.or_eq_true] at this
        cases a <;> cases b <;> simp_all
      refine h (get_tfpOnly hext ?_)
      rcases hd with ⟨c, rfl⟩ | ⟨c, rfl⟩
      · left; intro t; simp
      · right; intro t; simp
    rw [h2, Option.none_or, Option.or_none]

/-- The types that occur: the library's classes; subclasses of a type (by users, or by `tfp_compatible_distribution`); and
the classes made by `distribution_from_tfp` from a TFP type. -/
theorem C57_types : (∀ c : DCls, IsType (.distrax c) c.mro) ∧
    (∀ k m n, IsType k m → Cls.other n ∉ m → IsType k (subclassMro n m)) ∧
    (∀ c base n, IsType (.tfp c) base → (∀ x, base ≠ [] → Cls.other x ∈ base → 3 ≤ x ∧ x ≠ n) → 3 ≤ n →
      (∀ d, Cls.dx d ∉ base) → IsType (.tfp c) (fromTfpMro n base)) := by
  refine ⟨fun c => ?_, fun k m n h hn => ?_, fun c base n h ho h3 hd => ?_⟩
  · refine ⟨?_, ?_, ?_, ?_⟩
    · cases c <;> decide
    · cases c <;> decide
    · intro _ _ t ht
      cases c <;> simp [DCls.mro, DCls.ancestors, rootMro] at ht
    · intro _ h; simp at h
  · refine ⟨List.nodup_cons.mpr ⟨hn, h.nodup⟩, ?_, fun c hc t ht => ?_, fun c hc d hd => ?_⟩
    · rw [subclassMro, List.filter_cons_of_neg (by simp [keyed])]; exact h.keys
    · rcases List.mem_cons.mp ht with h' | h'
      · simp at h'
      · exact h.noTfp c hc t h'
    · rcases List.mem_cons.mp hd with h' | h'
      · simp at h'
      · exact h.noDx c hc d h'
  · have ho' : ∀ x, Cls.other x ∈ base → 3 ≤ x ∧ x ≠ n := fun x hx => ho x (List.ne_nil_of_mem hx) hx
    have n0 : Cls.other 0 ∉ base := fun hx => by have := (ho' 0 hx).1; omega
    have n1 : Cls.other 1 ∉ base := fun hx => by have := (ho' 1 hx).1; omega
    have n2 : Cls.other 2 ∉ base := fun hx => by have := (ho' 2 hx).1; omega
    have nn : Cls.other n ∉ base := fun hx => (ho' n hx).2 rfl
    refine ⟨?_, ?_, fun c' hc => by simp at hc, fun c' _ d hd' => ?_⟩
    · unfold fromTfpMro
      simp only [List.nodup_cons, List.mem_cons, List.mem_append, Cls.other.injEq, reduceCtorEq,
        List.nodup_append, List.not_mem_nil, hd, n0, n1, nn, not_false_eq_true, false_or, or_false, true_and]
      refine ⟨by omega, by omega, h.nodup, List.nodup_nil, ?_⟩
      intro a ha b hb
      rw [hb]
      intro he
      rw [he] at ha
      exact n2 ha
    · unfold fromTfpMro
      rw [List.filter_cons_of_neg (by simp [keyed]), List.filter_cons_of_neg (by decide), List.filter_cons_of_neg (by simp [keyed]),
        List.filter_cons_of_neg (by simp [keyed]), List.filter_append, h.keys]
      simp [keyed]
    · unfold fromTfpMro at hd'
      simp only [List.mem_cons, List.mem_append, List.not_mem_nil, Cls.dx.injEq, reduceCtorEq, false_or, or_false, hd] at hd'
      exact hd'

/-- A wrapped TFP distribution (`distribution_from_tfp`) has the KL of the TFP distribution it wraps, whatever TFP
registers, against anything, in either argument. -/
theorem C57_wrapped_tfp (ext : KLRegistry) (hext : TfpOnly ext) (n : ℕ) (base other : List Cls) :
    klDispatch (distraxKLs ++ ext) (fromTfpMro n base) other = klDispatch (distraxKLs ++ ext) (base ++ [.other 2]) other ∧
      klDispatch (distraxKLs ++ ext) other (fromTfpMro n base) = klDispatch (distraxKLs ++ ext) other (base ++ [.other 2]) := by
  have hun : ∀ x : Cls, keyed x = false → (∀ t, x ≠ .tf t) → ∀ c,
      KLRegistry.get (distraxKLs ++ ext) x c = none ∧ KLRegistry.get (distraxKLs ++ ext) c x = none := by
    intro x hx hxt c
    rw [get_append, get_append, get_tfpOnly hext (Or.inl hxt), get_tfpOnly hext (Or.inr hxt), Option.or_none, Option.or_none]
    constructor
    · by_contra h; have := (get_keyed h).1; rw [hx] at this; simp at this
    · by_contra h; have := (get_keyed h).2; rw [hx] at this; simp at this
  have ho : ∀ k, ∀ c, KLRegistry.get (distraxKLs ++ ext) (.other k) c = none ∧
      KLRegistry.get (distraxKLs ++ ext) c (.other k) = none := fun k => hun _ rfl (by simp)
  have hd := hun (.dx .distribution) (by decide) (by simp)
  unfold fromTfpMro
  constructor
  · rw [(klPrefix _ _ _ _ (ho n)).1, (klPrefix _ _ _ _ hd).1, (klPrefix _ _ _ _ (ho 0)).1, (klPrefix _ _ _ _ (ho 1)).1]
  · rw [(klPrefix _ _ _ _ (ho n)).2, (klPrefix _ _ _ _ hd).2, (klPrefix _ _ _ _ (ho 0)).2, (klPrefix _ _ _ _ (ho 1)).2]

/-- Some entries of the table, for the reader: a user's subclass of `Softmax` against TFP's one-hot categorical; a
multivariate normal against a general transformed distribution; a `LogStddevNormal` against TFP's normal; a clipped normal
has no KL, not even with itself. -/
example : klDispatch distraxKLs (subclassMro 9 DCls.softmax.mro) [.tf .oneHotCategorical, .tf (.misc 0), .other 2] = .ok .categorical ∧
    klDispatch distraxKLs DCls.mvnFullCovariance.mro DCls.transformed.mro = .ok .transformed ∧
    klDispatch distraxKLs DCls.logStddevNormal.mro [.tf .normal, .tf (.misc 0), .other 2] = .ok .normal ∧
    klDispatch distraxKLs DCls.clippedNormal.mro DCls.clippedNormal.mro = .error .notImplemented :=
  ⟨rfl, rfl, rfl, rfl⟩

example : IsType (.tfp .mvnDiag) [.tf .mvnDiag, .tf .mvnLinearOperator, .tf .transformed, .tf (.misc 0), .other 2] :=
  ⟨by decide, by decide, by simp, by simp⟩

/-- A formula can only be registered once: registering a pair of classes again is refused and never replaces the first
formula; a new pair is added without disturbing what any other pair is dispatched to. -/
theorem C57_register_once (r : KLRegistry) (a b : Cls) (f : KLFn) :
    (∀ g, r.get a b = some g → r.register ((a, b), f) = .error .valueError) ∧
    (r.get a b = none → ∃ r', r.register ((a, b), f) = .ok r' ∧ r'.get a b = some f ∧
      ∀ a' b', (a', b') ≠ (a, b) → r'.get a' b' = r.get a' b') := by
  constructor
  · intro g hg
    simp only [KLRegistry.register, hg]
  · intro hn
    refine ⟨r ++ [((a, b), f)], by simp only [KLRegistry.register, hn], ?_, ?_⟩
    · rw [get_append, hn]; simp [KLRegistry.get]
    · intro a' b' hne
      rw [get_append]
      have : KLRegistry.get [((a, b), f)] a' b' = none := by
        unfold KLRegistry.get
        rw [Option.map_eq_none_iff, List.find?_eq_none]
        intro e he hc
        rw [List.mem_singleton] at he
        subst he
        simp only [decide_eq_true_eq] at hc
        exact hne (by simp_all)
      rw [this]; cases r.get a' b' <;> rfl

example : distraxKLs.get (.dx .normal) (.dx .normal) = some .normal ∧ distraxKLs.get (.dx .clipped) (.dx .clipped) = none := by
  decide +kernel

end Distrax
