import Verif.Lemmas.Joint
import Mathlib.Analysis.SpecialFunctions.Exp

/-! C23: `Joint` factorises over its leaves. -/

namespace Distrax

variable {Key : Type}

/-- `stack` then `sum` of arrays of one shape. -/
theorem stackSum_ok {ls : List Arr} {s : List ℕ} (hne : ls ≠ []) (hs : ∀ l ∈ ls, l.shape = s) :
    Joint.stackSum ls = .ok ⟨s, fun i => (ls.map fun l => l.data i).sum⟩ := by
  cases ls with
  | nil => exact absurd rfl hne
  | cons x xs =>
    have hx := hs x (by simp)
    have : xs.all (fun y => y.shape == x.shape) = true := by
      rw [List.all_eq_true]; intro y hy; simp [hs y (by simp [hy]), hx]
    simp only [Joint.stackSum, this, if_true]
    rw [hx]

theorem stackSum_mixed {ls : List Arr} {a b : Arr} (ha : a ∈ ls) (hb : b ∈ ls) (h : a.shape ≠ b.shape) :
    Joint.stackSum ls = .error .valueError := by
  cases ls with
  | nil => cases ha
  | cons x xs =>
    simp only [Joint.stackSum]
    rw [if_neg]
    intro hall
    rw [List.all_eq_true] at hall
    have h1 : ∀ y ∈ x :: xs, y.shape = x.shape := by
      intro y hy
      rcases List.mem_cons.1 hy with rfl | hy
      · rfl
      · simpa using hall y hy
    exact h (by rw [h1 a ha, h1 b hb])

theorem pySum_ok {ls : List Arr} {s : List ℕ} (hne : ls ≠ []) (hs : ∀ l ∈ ls, l.shape = s) :
    ∃ r, Joint.pySum ls = .ok r ∧ r.shape = s ∧ ∀ i, InRange s i → r.data i = (ls.map fun l => l.data i).sum := by
  have key : ∀ (ls : List Arr) (acc : Arr), (∀ l ∈ ls, l.shape = s) → acc.shape = s →
      ∃ r, ls.foldlM (fun acc x => Arr.bin (· + ·) acc x) acc = .ok r ∧ r.shape = s ∧
        ∀ i, InRange s i → r.data i = acc.data i + (ls.map fun l => l.data i).sum := by
    intro ls
    induction ls with
    | nil => intro acc _ ha; exact ⟨acc, rfl, ha, fun i _ => by simp⟩
    | cons l ls ih =>
      intro acc hl ha
      obtain ⟨r0, h0, h1, h2⟩ : ∃ r0, Arr.bin (· + ·) acc l = .ok r0 ∧ r0.shape = s ∧
          ∀ i, InRange s i → r0.data i = acc.data i + l.data i := by
        exact bin_same (· + ·) acc l s ha (hl l (by simp))
      obtain ⟨r, k1, k2, k3⟩ := ih r0 (fun l' h => hl l' (by simp [h])) h1
      refine ⟨r, ?_, k2, fun i hi => ?_⟩
      · rw [List.foldlM_cons, h0]; exact k1
      · rw [k3 i hi, h2 i hi, List.map_cons, List.sum_cons, add_assoc]
  cases ls with
  | nil => exact absurd rfl hne
  | cons x xs =>
    have hx := hs x (by simp)
    obtain ⟨r, k1, k2, k3⟩ := key xs ⟨s, fun i => 0 + x.data (proj s i)⟩ (fun l h => hs l (by simp [h])) rfl
    refine ⟨r, ?_, k2, fun i hi => ?_⟩
    · rw [Joint.pySum, List.foldlM_cons]
      have : Arr.bin (· + ·) (Arr.scalar 0) x = .ok ⟨s, fun i => 0 + x.data (proj s i)⟩ := by
        simp [Arr.bin, Arr.scalar, hx, broadcastShapes, brev]
      rw [this]; exact k1
    · rw [k3 i hi, List.map_cons, List.sum_cons]; simp [proj_self hi]

/-- **Constructor.**  The batch shapes of the leaves, in order, are accepted exactly when they are some (possibly zero) empty
shapes followed by copies of one shape.  In particular equal batch shapes are always accepted; rejected means two leaves
differ. -/
theorem C23_ctor (ds : Tree (JDist Key)) :
    ((∃ j, Joint.mk? ds = .ok j) ↔ ∃ (k : ℕ) (s : List ℕ), ∀ i (h : i < ds.flatten.length),
      (ds.flatten[i]).batch = if i < k then [] else s) ∧
    ((∀ j, Joint.mk? ds = .ok j → j = ds) ∧ ((∃ j, Joint.mk? ds = .ok j) ∨ Joint.mk? ds = .error .valueError)) := by
  have hmk : Joint.mk? ds = (do Joint.checkBatch none (ds.flatten.map (·.batch)); pure ds) := rfl
  have hcases : ∀ (l : List (List ℕ)) acc, Joint.checkBatch acc l = .ok () ∨ Joint.checkBatch acc l = .error .valueError := by
    intro l
    induction l with
    | nil => intro acc; exact Or.inl rfl
    | cons s l ih =>
      intro acc
      rcases acc with _ | _ | ⟨n, r⟩ <;> simp only [Joint.checkBatch] <;> split <;>
        first | exact ih _ | exact Or.inr rfl
  have hsome : ∀ (l : List (List ℕ)) (s : List ℕ), s ≠ [] →
      (Joint.checkBatch (some s) l = .ok () ↔ ∀ x ∈ l, x = s) := by
    intro l
    induction l with
    | nil => intro s _; simp [Joint.checkBatch, pure, Except.pure]
    | cons x l ih =>
      intro s hs
      obtain ⟨n, r, rfl⟩ := List.exists_cons_of_ne_nil hs
      simp only [Joint.checkBatch]
      by_cases hx : x = n :: r
      · simp [hx, ih _ hs]
      · simp [hx]
  have hnone : ∀ (l : List (List ℕ)) (acc : Option (List ℕ)), acc = none ∨ acc = some [] →
      (Joint.checkBatch acc l = .ok () ↔ ∃ (k : ℕ) (s : List ℕ), ∀ i (h : i < l.length), l[i] = if i < k then [] else s) := by
    intro l
    induction l with
    | nil => intro acc _; simp [Joint.checkBatch, pure, Except.pure]
    | cons x l ih =>
      intro acc hacc
      have e : Joint.checkBatch acc (x :: l) = Joint.checkBatch (some x) l := by
        rcases hacc with rfl | rfl <;> simp [Joint.checkBatch]
      rw [e]
      by_cases hx : x = []
      · subst hx
        rw [ih (some []) (Or.inr rfl)]
        constructor
        · rintro ⟨k, s, h⟩
          refine ⟨k + 1, s, fun i hi => ?_⟩
          cases i with
          | zero => simp
          | succ i => simpa using h i (by simpa using hi)
        · rintro ⟨k, s, h⟩
          cases k with
          | zero =>
            refine ⟨0, s, fun i hi => ?_⟩
            have := h (i + 1) (by simpa using hi)
            simpa using this
          | succ k =>
            refine ⟨k, s, fun i hi => ?_⟩
            have := h (i + 1) (by simpa using hi)
            simpa using this
      · rw [hsome l x hx]
        constructor
        · intro h
          refine ⟨0, x, fun i hi => ?_⟩
          cases i with
          | zero => simp
          | succ i => simpa using h _ (List.getElem_mem (by simpa using hi))
        · rintro ⟨k, s, h⟩ y hy
          have h0 := h 0 (by simp)
          obtain ⟨i, hi, rfl⟩ := List.mem_iff_getElem.1 hy
          have h1 := h (i + 1) (by simpa using hi)
          simp only [List.getElem_cons_zero, List.getElem_cons_succ] at h0 h1
          have hk : k = 0 := by
            by_contra hk
            rw [if_pos (Nat.pos_of_ne_zero hk)] at h0
            exact hx h0
          subst hk
          simp at h0 h1
          rw [h1, h0]
  have hiff : (∃ j, Joint.mk? ds = .ok j) ↔ Joint.checkBatch none (ds.flatten.map (·.batch)) = .ok () := by
    rw [hmk]
    rcases hcases (ds.flatten.map (·.batch)) none with h | h <;> simp [h, bind, Except.bind, pure, Except.pure]
  refine ⟨?_, ?_, ?_⟩
  · rw [hiff, hnone _ none (Or.inl rfl)]
    constructor
    · rintro ⟨k, s, h⟩
      refine ⟨k, s, fun i hi => ?_⟩
      have := h i (by rw [List.length_map]; exact hi)
      rwa [List.getElem_map] at this
    · rintro ⟨k, s, h⟩
      exact ⟨k, s, fun i hi => by simpa using h i (by simpa using hi)⟩
  · intro j hj
    rw [hmk] at hj
    rcases hcases (ds.flatten.map (·.batch)) none with h | h <;>
      simp [h, bind, Except.bind, pure, Except.pure] at hj
    exact hj.symm
  · rw [hmk]
    rcases hcases (ds.flatten.map (·.batch)) none with h | h <;> simp [h, bind, Except.bind, pure, Except.pure]

/-- If the first leaf has a nonempty batch shape, the constructor accepts only equal batch shapes; `batch_shape` is then the
common one.  (Partial: with a leading `()` leaf mixed shapes slip through, see `C23_mixed_batch_accepted`.) -/
theorem C23_common_batch_partial (ds j : Tree (JDist Key)) (h : Joint.mk? ds = .ok j) (hne : ds.flatten ≠ [])
    (h0 : (ds.flatten[0]'(List.length_pos_iff.2 hne)).batch ≠ []) :
    ∃ s, Joint.batch j = .ok s ∧ ∀ d ∈ ds.flatten, d.batch = s := by
  obtain ⟨k, s, hk⟩ := (C23_ctor ds).1.1 ⟨j, h⟩
  have hj := (C23_ctor ds).2.1 j h
  subst hj
  have hz := hk 0 (List.length_pos_iff.2 hne)
  have k0 : k = 0 := by
    by_contra hk0
    rw [if_pos (Nat.pos_of_ne_zero hk0)] at hz
    exact h0 hz
  subst k0
  have hall : ∀ d ∈ j.flatten, d.batch = s := by
    intro d hd
    obtain ⟨i, hi, rfl⟩ := List.mem_iff_getElem.1 hd
    simpa using hk i hi
  refine ⟨s, ?_, hall⟩
  unfold Joint.batch
  cases hf : j.flatten with
  | nil => exact absurd hf hne
  | cons d l => simp only; rw [hall d (by rw [hf]; simp)]

/-- **log_prob** is the sum over the leaves: for a value with the structure of the tree whose leaf log-probabilities `ls` have
one shape, `exp(log_prob)` is the product of the leaf densities, entry by entry. -/
theorem C23_log_prob (ds : Tree (JDist Key)) (value : Tree Arr) (hs : value.skel = ds.skel) (ls : List Arr) (s : List ℕ)
    (hl : List.Forall₂ (fun (p : JDist Key × Arr) l => p.1.logProb (.leaf p.2) = .ok l) (ds.flatten.zip value.flatten) ls)
    (hsh : ∀ l ∈ ls, l.shape = s) (hne : ds.flatten ≠ []) :
    ∃ r, Joint.logProb ds value = .ok r ∧ r.shape = s ∧ ∀ i, r.data i = (ls.map fun l => l.data i).sum ∧
      Real.exp (r.data i) = (ls.map fun l => Real.exp (l.data i)).prod := by
  have hlen : ls.length = ds.flatten.length := by
    rw [← hl.length_eq, List.length_zip, Tree.length_of_skel hs, min_self]
  have hne' : ls ≠ [] := by
    intro h; rw [h] at hlen; exact hne (List.length_eq_zero_iff.1 hlen.symm)
  obtain ⟨t, h1, h2, h3⟩ := ds.unflattenAs_ok ls hlen
  have hm : Tree.map2 (fun (d : JDist Key) v => d.logProb (.leaf v)) ds value = .ok t :=
    Tree.map2_ok.2 ⟨hs.symm, h3, by rw [h2]; exact hl⟩
  refine ⟨⟨s, fun i => (ls.map fun l => l.data i).sum⟩, ?_, rfl, fun i => ⟨rfl, ?_⟩⟩
  · simp only [Joint.logProb, hm, bind, Except.bind, h2, stackSum_ok hne' hsh]
  · show Real.exp ((ls.map fun l => l.data i).sum) = _
    clear hl hsh hlen hne' h1 h2 h3 hm
    induction ls with
    | nil => simp
    | cons l ls ih => simp only [List.map_cons, List.sum_cons, List.prod_cons, Real.exp_add, ih]

/-- A value of another structure is rejected. -/
theorem C23_log_prob_structure (ds : Tree (JDist Key)) (value : Tree Arr) (hs : value.skel ≠ ds.skel) :
    ∃ e, Joint.logProb ds value = .error e := by
  cases h : Joint.logProb ds value with
  | error e => exact ⟨e, rfl⟩
  | ok r =>
    simp only [Joint.logProb, bind, Except.bind] at h
    split at h
    · cases h
    · rename_i t ht
      exact absurd (Tree.map2_ok.1 ht).1.symm hs

/-- A component with array events whose joint sampling agrees with its own `sample` and `log_prob` at key `k`. -/
structure LeafCoherent (d : JDist Key) (n : ℕ) (s : List ℕ) (v : Arr) (l : Arr) (k : Key) : Prop where
  lp : d.sampleLP k n = .ok (.leaf v, l)
  sample : d.sample k n = .ok (.leaf v)
  logProb : d.logProb (.leaf v) = .ok l
  shape : l.shape = n :: s

theorem keys_ok (split : Key → ℕ → List Key) (hsplit : ∀ k n, (split k n).length = n) (ds : Tree (JDist Key)) (key : Key) :
    ∃ ks, Joint.keys split ds key = .ok ks ∧ ks.flatten = split key ds.flatten.length ∧ ks.skel = ds.skel :=
  ds.unflattenAs_ok _ (hsplit _ _)

/-- **Sampling** returns the structure of the tree; leaf `i` is drawn with the `i`-th split key. -/
theorem C23_sample (split : Key → ℕ → List Key) (hsplit : ∀ k n, (split k n).length = n) (ds : Tree (JDist Key)) (key : Key)
    (n : ℕ) (vs : List Arr) (hv : List.Forall₂ (fun (p : JDist Key × Key) v => p.1.sample p.2 n = .ok (.leaf v))
      (ds.flatten.zip (split key ds.flatten.length)) vs) :
    ∃ r, Joint.sampleN split ds key n = .ok r ∧ r.skel = ds.skel ∧ r.flatten = vs := by
  obtain ⟨ks, h1, h2, h3⟩ := keys_ok split hsplit ds key
  have hlen : (vs.map Tree.leaf).length = ds.flatten.length := by
    rw [List.length_map, ← hv.length_eq, List.length_zip, hsplit, min_self]
  obtain ⟨t, k1, k2, k3⟩ := ds.unflattenAs_ok (vs.map Tree.leaf) hlen
  have hm : Tree.map2 (fun (d : JDist Key) k => d.sample k n) ds ks = .ok t := by
    refine Tree.map2_ok.2 ⟨h3.symm, k3, ?_⟩
    rw [k2, h2, List.forall₂_map_right_iff]; exact hv
  obtain ⟨j1, j2⟩ := t.join_leaf vs k2
  exact ⟨t.join, by simp [Joint.sampleN, h1, hm, bind, Except.bind, pure, Except.pure], by rw [j1, k3], j2⟩

/-- **Joint sampling agrees**: `sample_and_log_prob` returns the draws of `sample` for the same key, with exactly the
`log_prob` of those draws. -/
theorem C23_sample_and_log_prob (split : Key → ℕ → List Key) (hsplit : ∀ k n, (split k n).length = n)
    (ds : Tree (JDist Key)) (key : Key) (n : ℕ) (s : List ℕ) (hne : ds.flatten ≠ []) (vls : List (Arr × Arr))
    (hv : List.Forall₂ (fun (p : JDist Key × Key) v => LeafCoherent p.1 n s v.1 v.2 p.2)
      (ds.flatten.zip (split key ds.flatten.length)) vls) :
    ∃ r lp, Joint.sampleNLP split ds key n = .ok (r, lp) ∧ Joint.sampleN split ds key n = .ok r ∧
      Joint.logProb ds r = .ok lp ∧ lp.shape = n :: s ∧ r.skel = ds.skel := by
  obtain ⟨ks, h1, h2, h3⟩ := keys_ok split hsplit ds key
  have hl0 : vls.length = ds.flatten.length := by
    rw [← hv.length_eq, List.length_zip, hsplit, min_self]
  obtain ⟨t, k1, k2, k3⟩ := ds.unflattenAs_ok (vls.map fun v => (Tree.leaf v.1, v.2)) (by simp only [List.length_map]; exact hl0)
  obtain ⟨ts, a1, a2, a3⟩ := ds.unflattenAs_ok ((vls.map Prod.fst).map Tree.leaf) (by simp only [List.length_map]; exact hl0)
  obtain ⟨tl, b1, b2, b3⟩ := ds.unflattenAs_ok (vls.map Prod.snd) (by simp only [List.length_map]; exact hl0)
  have hm : Tree.map2 (fun (d : JDist Key) k => d.sampleLP k n) ds ks = .ok t := by
    refine Tree.map2_ok.2 ⟨h3.symm, k3, ?_⟩
    rw [k2, h2, List.forall₂_map_right_iff]
    exact hv.imp fun _ _ h => h.lp
  have e1 : t.mapE (fun p => pure p.1) = .ok ts := by
    rw [Tree.mapE_ok]
    refine ⟨by rw [a3, k3], ?_⟩
    rw [a2, k2, List.forall₂_map_left_iff, List.map_map, List.forall₂_map_right_iff, List.forall₂_same]
    exact fun _ _ => rfl
  have e2 : t.mapE (fun p => pure p.2) = .ok tl := by
    rw [Tree.mapE_ok]
    refine ⟨by rw [b3, k3], ?_⟩
    rw [b2, k2, List.forall₂_map_left_iff, List.forall₂_map_right_iff, List.forall₂_same]
    exact fun _ _ => rfl
  have hsh : ∀ l ∈ vls.map Prod.snd, l.shape = n :: s := by
    intro l hl
    obtain ⟨v, hv', rfl⟩ := List.mem_map.1 hl
    obtain ⟨i, hi, rfl⟩ := List.mem_iff_getElem.1 hv'
    exact ((List.forall₂_iff_get.1 hv).2 i (by rw [hv.length_eq]; exact hi) hi).shape
  have hne' : vls.map Prod.snd ≠ [] := by
    intro h
    have : vls = [] := by simpa using h
    rw [this] at hl0
    exact hne (List.length_eq_zero_iff.1 hl0.symm)
  obtain ⟨j1, j2⟩ := ts.join_leaf (vls.map Prod.fst) a2
  obtain ⟨r, r1, r2, r3⟩ := C23_sample split hsplit ds key n (vls.map Prod.fst)
    (by rw [List.forall₂_map_right_iff]; exact hv.imp fun _ _ h => h.sample)
  have hr : r = ts.join := Tree.ext_flat _ _ (by rw [r2, j1, a3]) (by rw [r3, j2])
  subst hr
  have hz : List.Forall₂ (fun (p : JDist Key × Arr) l => p.1.logProb (.leaf p.2) = .ok l)
      (ds.flatten.zip ts.join.flatten) (vls.map Prod.snd) := by
    rw [j2, List.forall₂_map_right_iff]
    refine List.forall₂_iff_get.2 ⟨by simp [hl0], fun i i1 i2 => ?_⟩
    have := ((List.forall₂_iff_get.1 hv).2 i (by rw [hv.length_eq]; exact i2) i2).logProb
    simpa using this
  obtain ⟨lp, l1, l2, l3⟩ := C23_log_prob ds ts.join r2 (vls.map Prod.snd) (n :: s) hz hsh hne
  refine ⟨ts.join, lp, ?_, r1, l1, l2, r2⟩
  have hst := stackSum_ok hne' hsh
  have hlp : lp = ⟨n :: s, fun i => ((vls.map Prod.snd).map fun l => l.data i).sum⟩ := by
    cases lp with
    | mk sh dt =>
      simp only at l2
      subst l2
      congr 1
      funext i
      exact (l3 i).1
  have hb : ∀ {α β : Type} (a : α) (f : α → Except Err β), ((Except.ok a : Except Err α) >>= f) = f a := fun _ _ => rfl
  rw [Joint.sampleNLP, h1, hb, hm, hb, e1, hb, e2, hb, b2, hst, hb, hlp]
  rfl

/-- **Entropy** is the sum over the leaves. -/
theorem C23_entropy (ds : Tree (JDist Key)) (es : List Arr) (s : List ℕ)
    (he : List.Forall₂ (fun (d : JDist Key) e => d.entropy = .ok e) ds.flatten es) (hs : ∀ e ∈ es, e.shape = s)
    (hne : ds.flatten ≠ []) :
    ∃ r, Joint.entropy ds = .ok r ∧ r.shape = s ∧ ∀ i, InRange s i → r.data i = (es.map fun e => e.data i).sum := by
  have hne' : es ≠ [] := by
    intro h; rw [h] at he; exact hne (List.length_eq_zero_iff.1 he.length_eq)
  obtain ⟨r, h1, h2, h3⟩ := pySum_ok hne' hs
  exact ⟨r, by simp only [Joint.entropy, mapM_ok.2 he, bind, Except.bind, h1], h2, h3⟩

/-- **KL divergence** is the sum over paired leaves when nesting and keys agree (container types may differ); otherwise it is
an error. -/
theorem C23_kl (klD : JDist Key → JDist Key → Except Err Arr) (d1 d2 : Tree (JDist Key)) :
    (d1.keys ≠ d2.keys → ∃ e, Joint.kl klD d1 d2 = .error e) ∧
    ∀ (ks : List Arr) (s : List ℕ), d1.keys = d2.keys → d1.flatten ≠ [] →
      List.Forall₂ (fun (p : JDist Key × JDist Key) k => klD p.1 p.2 = .ok k) (d1.flatten.zip d2.flatten) ks →
      (∀ k ∈ ks, k.shape = s) →
      ∃ r, Joint.kl klD d1 d2 = .ok r ∧ r.shape = s ∧ ks.length = d1.flatten.length ∧
        ∀ i, InRange s i → r.data i = (ks.map fun k => k.data i).sum := by
  constructor
  · intro h
    have := Tree.sameStructure_keys d1 d2
    cases hs : Tree.sameStructure false d1 d2 with
    | ok u => exact absurd (this.1 (by rw [hs])) h
    | error e => exact ⟨e, by simp [Joint.kl, hs, bind, Except.bind]⟩
  · intro ks s h hne hk hsh
    have hl : ks.length = d1.flatten.length := by
      rw [← hk.length_eq, List.length_zip, Tree.length_of_keys h, min_self]
    have hne' : ks ≠ [] := by
      intro h; rw [h] at hl; exact hne (List.length_eq_zero_iff.1 hl.symm)
    obtain ⟨r, h1, h2, h3⟩ := pySum_ok hne' hsh
    refine ⟨r, ?_, h2, hl, h3⟩
    simp only [Joint.kl, (Tree.sameStructure_keys d1 d2).2 h, mapM_ok.2 hk, bind, Except.bind, h1]

/-- **Mode.** If every leaf's mode (an array) maximises that leaf's log-probability, the tree of modes maximises the joint
log-probability, entry by entry. -/
theorem C23_mode (ds : Tree (JDist Key)) (s : List ℕ) (hne : ds.flatten ≠ []) (ms : List (Arr × Arr))
    (hm : List.Forall₂ (fun (d : JDist Key) (m : Arr × Arr) => d.mode = .ok (.leaf m.1) ∧ d.logProb (.leaf m.1) = .ok m.2 ∧
      m.2.shape = s ∧ ∀ v l, d.logProb (.leaf v) = .ok l → l.shape = s → ∀ i, l.data i ≤ m.2.data i) ds.flatten ms) :
    ∃ M L, Joint.mode ds = .ok M ∧ M.skel = ds.skel ∧ Joint.logProb ds M = .ok L ∧
      ∀ (value : Tree Arr) (r : Arr), value.skel = ds.skel →
        (∀ p ∈ ds.flatten.zip value.flatten, ∃ l, p.1.logProb (.leaf p.2) = .ok l ∧ l.shape = s) →
        Joint.logProb ds value = .ok r → ∀ i, r.data i ≤ L.data i := by
  obtain ⟨t, k1, k2, k3⟩ := ds.unflattenAs_ok ((ms.map Prod.fst).map Tree.leaf) (by simp [hm.length_eq])
  have e1 : ds.mapE (·.mode) = .ok t := by
    rw [Tree.mapE_ok]
    refine ⟨k3, ?_⟩
    rw [k2, List.map_map, List.forall₂_map_right_iff]
    exact hm.imp fun _ _ h => h.1
  obtain ⟨j1, j2⟩ := t.join_leaf _ k2
  have hsk : t.join.skel = ds.skel := by rw [j1, k3]
  have hz : List.Forall₂ (fun (p : JDist Key × Arr) l => p.1.logProb (.leaf p.2) = .ok l)
      (ds.flatten.zip t.join.flatten) (ms.map Prod.snd) := by
    rw [j2, List.forall₂_map_right_iff]
    refine List.forall₂_iff_get.2 ⟨by simp [hm.length_eq], fun i i1 i2 => ?_⟩
    have := ((List.forall₂_iff_get.1 hm).2 i (by rw [hm.length_eq]; exact i2) i2).2.1
    simpa using this
  have hsh : ∀ l ∈ ms.map Prod.snd, l.shape = s := by
    intro l hl
    obtain ⟨v, hv', rfl⟩ := List.mem_map.1 hl
    obtain ⟨i, hi, rfl⟩ := List.mem_iff_getElem.1 hv'
    exact ((List.forall₂_iff_get.1 hm).2 i (by rw [hm.length_eq]; exact hi) hi).2.2.1
  obtain ⟨L, l1, l2, l3⟩ := C23_log_prob ds t.join hsk _ s hz hsh hne
  refine ⟨t.join, L, by simp [Joint.mode, e1, bind, Except.bind, pure, Except.pure], hsk, l1, ?_⟩
  intro value r hval hlv hr i
  haveI : Nonempty Arr := ⟨Arr.scalar 0⟩
  choose! lf hlf using hlv
  have hz2 : List.Forall₂ (fun (p : JDist Key × Arr) l => p.1.logProb (.leaf p.2) = .ok l)
      (ds.flatten.zip value.flatten) ((ds.flatten.zip value.flatten).map lf) := by
    rw [List.forall₂_map_right_iff, List.forall₂_same]
    exact fun p hp => (hlf p hp).1
  obtain ⟨r', q1, q2, q3⟩ := C23_log_prob ds value hval _ s hz2 (by
    intro l hl
    obtain ⟨p, hp, rfl⟩ := List.mem_map.1 hl
    exact (hlf p hp).2) hne
  rw [hr] at q1
  injection q1 with q1
  subst q1
  rw [(q3 i).1, (l3 i).1, List.map_map, List.map_map]
  have hlen := Tree.length_of_skel hval
  refine List.Forall₂.sum_le_sum ?_
  rw [List.forall₂_map_left_iff, List.forall₂_map_right_iff]
  refine List.forall₂_iff_get.2 ⟨by simp [hlen, hm.length_eq], fun a a1 a2 => ?_⟩
  have hp := hlf _ (List.get_mem (ds.flatten.zip value.flatten) ⟨a, a1⟩)
  have := ((List.forall₂_iff_get.1 hm).2 a (by rw [hm.length_eq]; exact a2) a2).2.2.2
  exact this _ _ (by simpa using hp.1) hp.2 i

/-- **Mean, median and mode are componentwise**: if every leaf has one (an array), the joint's has the structure of the
distributions, with each leaf's own mean (median, mode) in its place. -/
theorem C23_summaries (ds : Tree (JDist Key)) (ms : List Arr) :
    (List.Forall₂ (fun (d : JDist Key) m => d.mean = .ok (.leaf m)) ds.flatten ms →
      ∃ M, Joint.mean ds = .ok M ∧ M.skel = ds.skel ∧ M.flatten = ms) ∧
    (List.Forall₂ (fun (d : JDist Key) m => d.median = .ok (.leaf m)) ds.flatten ms →
      ∃ M, Joint.median ds = .ok M ∧ M.skel = ds.skel ∧ M.flatten = ms) ∧
    (List.Forall₂ (fun (d : JDist Key) m => d.mode = .ok (.leaf m)) ds.flatten ms →
      ∃ M, Joint.mode ds = .ok M ∧ M.skel = ds.skel ∧ M.flatten = ms) := by
  have key : ∀ f : JDist Key → Except Err (Tree Arr),
      List.Forall₂ (fun (d : JDist Key) m => f d = .ok (.leaf m)) ds.flatten ms →
      ∃ t, ds.mapE f = .ok t ∧ t.join.skel = ds.skel ∧ t.join.flatten = ms := by
    intro f hm
    obtain ⟨t, k1, k2, k3⟩ := ds.unflattenAs_ok (ms.map Tree.leaf) (by simp [hm.length_eq])
    have e1 : ds.mapE f = .ok t := by
      rw [Tree.mapE_ok]
      refine ⟨k3, ?_⟩
      rw [k2, List.forall₂_map_right_iff]
      exact hm
    obtain ⟨j1, j2⟩ := t.join_leaf _ k2
    exact ⟨t, e1, by rw [j1, k3], j2⟩
  refine ⟨fun h => ?_, fun h => ?_, fun h => ?_⟩
  · obtain ⟨t, h1, h2, h3⟩ := key _ h
    exact ⟨t.join, by simp [Joint.mean, h1, bind, Except.bind, pure, Except.pure], h2, h3⟩
  · obtain ⟨t, h1, h2, h3⟩ := key _ h
    exact ⟨t.join, by simp [Joint.median, h1, bind, Except.bind, pure, Except.pure], h2, h3⟩
  · obtain ⟨t, h1, h2, h3⟩ := key _ h
    exact ⟨t.join, by simp [Joint.mode, h1, bind, Except.bind, pure, Except.pure], h2, h3⟩

/-- **Slicing** slices every leaf, and re-runs the constructor. -/
theorem C23_slice (ix : JDist Key → Except Err (JDist Key)) (ds r : Tree (JDist Key)) (h : Joint.getItem ix ds = .ok r) :
    r.skel = ds.skel ∧ List.Forall₂ (fun d d' => ix d = .ok d') ds.flatten r.flatten := by
  simp only [Joint.getItem, bind, Except.bind] at h
  split at h
  · cases h
  · rename_i t ht
    rw [(C23_ctor t).2.1 r h]
    exact (Tree.mapE_ok ds t).1 ht

/-! ### Where the code is weaker than its documentation -/

/-- A constant component with the given batch shape; every method returns zeros of that shape. -/
def exLeaf (b : List ℕ) : JDist ℕ :=
  { batch := b, logProb := fun _ => .ok (Arr.zeros b), sample := fun _ n => .ok (.leaf (Arr.zeros (n :: b)))
    sampleLP := fun _ n => .ok (.leaf (Arr.zeros (n :: b)), Arr.zeros (n :: b)), entropy := .ok ⟨b, fun _ => 1⟩
    logCdf := fun _ => .ok (Arr.zeros b), mean := .ok (.leaf (Arr.zeros b)), median := .ok (.leaf (Arr.zeros b)), mode := .ok (.leaf (Arr.zeros b)) }

/-- A list of components as a tree. -/
def exList {α : Type} (a b : α) : Tree α := .node 0 (.cons 0 (.leaf a) (.cons 1 (.leaf b) .nil))

/-- **Mixed batch shapes slip through.** The documentation demands one batch shape, but a leading leaf with batch shape `()` is
not compared: the joint of batch shapes `()` and `(3,)` is built, reports batch shape `()`, has an entropy of shape `(3,)`, and
its `log_prob` raises for every value of the right structure; in the other order it is rejected. -/
theorem C23_mixed_batch_accepted :
    let ds := exList (exLeaf []) (exLeaf [3])
    Joint.mk? ds = .ok ds ∧ Joint.batch ds = .ok [] ∧ (∃ r, Joint.entropy ds = .ok r ∧ r.shape = [3]) ∧
    (∀ v w, Joint.logProb ds (exList v w) = .error .valueError) ∧
    Joint.mk? (exList (exLeaf [3]) (exLeaf [])) = .error .valueError := by
  refine ⟨rfl, rfl, ⟨_, rfl, rfl⟩, fun v w => ?_, rfl⟩
  rfl

/-- **`log_cdf` ignores missing leaves.** With a value holding only the first leaf, `log_cdf` silently returns the sum over the
leaves present instead of raising. -/
theorem C23_log_cdf_truncates (d1 d2 : JDist Key) (v l : Arr) (s : List ℕ) (h : d1.logCdf (.leaf v) = .ok l) (hs : l.shape = s) :
    ∃ r, Joint.logCdf (exList d1 d2) (.node 0 (.cons 0 (.leaf v) .nil)) = .ok r ∧ r.shape = s ∧
      ∀ i, InRange s i → r.data i = l.data i := by
  obtain ⟨r, h1, h2, h3⟩ := pySum_ok (ls := [l]) (s := s) (by simp) (by simp [hs])
  refine ⟨r, ?_, h2, fun i hi => by simpa using h3 i hi⟩
  have : (((exList d1 d2).flatten.zip (Tree.node 0 (Forest.cons 0 (Tree.leaf v) Forest.nil)).flatten).mapM
      fun p => p.1.logCdf (.leaf p.2)) = .ok [l] := by
    rw [mapM_ok]
    simp [exList, Tree.flatten, Forest.flatten, h]
  simp only [Joint.logCdf, this, bind, Except.bind, h1]

/-- **`log_cdf`** of a value with the right structure is the sum over the leaves. -/
theorem C23_log_cdf (ds : Tree (JDist Key)) (value : Tree Arr) (hs : value.skel = ds.skel) (ls : List Arr) (s : List ℕ)
    (hl : List.Forall₂ (fun (p : JDist Key × Arr) l => p.1.logCdf (.leaf p.2) = .ok l) (ds.flatten.zip value.flatten) ls)
    (hsh : ∀ l ∈ ls, l.shape = s) (hne : ds.flatten ≠ []) :
    ∃ r, Joint.logCdf ds value = .ok r ∧ r.shape = s ∧ ls.length = ds.flatten.length ∧
      ∀ i, InRange s i → r.data i = (ls.map fun l => l.data i).sum := by
  have hlen : ls.length = ds.flatten.length := by
    rw [← hl.length_eq, List.length_zip, Tree.length_of_skel hs, min_self]
  have hne' : ls ≠ [] := by
    intro h; rw [h] at hlen; exact hne (List.length_eq_zero_iff.1 hlen.symm)
  obtain ⟨r, h1, h2, h3⟩ := pySum_ok hne' hsh
  exact ⟨r, by simp only [Joint.logCdf, mapM_ok.2 hl, bind, Except.bind, h1], h2, hlen, h3⟩

/-- **Nested joints cannot evaluate their own samples.** If some component's events are themselves nested (a `Joint` inside a
`Joint`), sampling works but `log_prob` of the sample raises, because the value's structure is compared with the tree of
distributions. -/
theorem C23_nested_log_prob_fails (d : JDist Key) (tag : ℕ) (es : Forest Arr) :
    ∃ e, Joint.logProb (Tree.leaf d) (.node tag es) = .error e :=
  C23_log_prob_structure _ _ (by simp [Tree.skel])

/-- The hypotheses of the theorems are met by a two-leaf joint with batch shape `(2,)`. -/
example : ∃ r lp, Joint.sampleNLP (fun k n => List.replicate n k) (exList (exLeaf [2]) (exLeaf [2])) 0 5 = .ok (r, lp) ∧
    lp.shape = [5, 2] := ⟨_, _, rfl, rfl⟩

example : LeafCoherent (exLeaf []) 1 [] (Arr.zeros [1]) (Arr.zeros [1]) 0 → False := fun h => by
  have := h.logProb; simp [exLeaf, Arr.zeros] at this

end Distrax
