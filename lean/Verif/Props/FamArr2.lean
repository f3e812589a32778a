import Verif.Props.FamArr
import Verif.Props.ShapeJoint
import Verif.Props.Normal
import Verif.Props.LocScale

/-!
C58, continued: the summaries that read a stored parameter instead of the broadcast one, and what follows; the remaining
families; the contracts under which `sample`, `sample_and_log_prob` and `Independent` were shown correct (C18, C20).
-/

namespace Distrax

open Spec

variable {α β : Type}

theorem EW.perEntry_shape {x : AE α} {L f} {s : List ℕ} (h : EW s x L f) (hs : s ∈ L) : PerEntry x s f :=
  h.perEntry (fun _ hu _ => hu _ hs) fun _ _ => rfl

theorem Spec.PerEntry.shape_unique {x : AE α} {s t : List ℕ} {f g : List ℕ → α} (h : PerEntry x s f) (h' : PerEntry x t g) :
    s = t := by
  obtain ⟨a, h1, h2, -⟩ := h
  obtain ⟨b, k1, k2, -⟩ := h'
  obtain rfl : a = b := Except.ok.inj (h1.symm.trans k1)
  rw [← h2, ← k2]

theorem EW.broadcasts {x : AE α} {L f} {T : List ℕ} (h : EW T x L f) : BroadcastsTo x T f := by
  obtain ⟨a, h1, h2, -, h3⟩ := h
  exact ⟨a, h1, h2, h3⟩

/-! ### Summaries with the wrong shape -/

/-- A method that reads only the second parameter has that parameter's shape. -/
theorem second_only {d : P2} (h : d.Wf) {x : AE ℝ} {g : ℝ → ℝ}
    (hx : ∀ T, BLe d.q.shape T → EW T x [d.q.shape] fun i => g (bget d.q i)) :
    PerEntry x d.q.shape (fun i => g (d.q.data i)) ∧ BroadcastsTo x d.batch (fun i => g (bget d.q i)) ∧
      (Summary d x (fun _ b => g b) ↔ d.q.shape = d.batch) := by
  have h1 : PerEntry x d.q.shape (fun i => g (d.q.data i)) :=
    (hx _ (BLe.refl _)).perEntry (fun _ hu _ => hu _ (by simp)) fun i hi => by rw [bget_full rfl hi]
  refine ⟨h1, (hx _ h.le_q).broadcasts, ⟨fun hs => h1.shape_unique hs, fun e => ?_⟩⟩
  exact (hx _ h.le_q).perEntry (fun u hu _ => e ▸ hu _ (by simp)) fun _ _ => rfl

/-- gumbel.py `entropy`: the shape is that of `scale`, not the batch shape; the entries are right after broadcasting; it is
an array of the batch shape exactly when `scale` has the batch shape. -/
theorem C58_gumbel_entropy (p q : BArr ℝ) (d : P2) (hi : P2.init p q = .ok d) :
    PerEntry (GumbelA.entropy d) q.shape (fun i => Gumbel.entropy ⟨0, q.data i⟩) ∧
    BroadcastsTo (GumbelA.entropy d) d.batch (fun i => Gumbel.entropy ⟨bget p i, bget q i⟩) ∧
    (Summary d (GumbelA.entropy d) (fun a b => Gumbel.entropy ⟨a, b⟩) ↔ q.shape = d.batch) := by
  obtain ⟨rfl, rfl, h⟩ := P2.init_wf hi
  exact second_only (g := fun b => Gumbel.entropy ⟨0, b⟩) h fun T hT =>
    EW.add (M := []) (EW.add (M := []) (EW.log (EW.arr hT)) (EW.scalar _)) (EW.scalar _)

/-- von_mises.py `variance` and `entropy`: the shape is that of `concentration`, not the batch shape. -/
theorem C58_von_mises_summaries (p q : BArr ℝ) (d : P2) (hi : P2.init p q = .ok d) :
    (PerEntry (VonMisesA.variance d) q.shape (fun i => VonMises.variance ⟨0, q.data i⟩) ∧
      BroadcastsTo (VonMisesA.variance d) d.batch (fun i => VonMises.variance ⟨bget p i, bget q i⟩) ∧
      (Summary d (VonMisesA.variance d) (fun a b => VonMises.variance ⟨a, b⟩) ↔ q.shape = d.batch)) ∧
    (PerEntry (VonMisesA.entropy d) q.shape (fun i => VonMises.entropy ⟨0, q.data i⟩) ∧
      BroadcastsTo (VonMisesA.entropy d) d.batch (fun i => VonMises.entropy ⟨bget p i, bget q i⟩) ∧
      (Summary d (VonMisesA.entropy d) (fun a b => VonMises.entropy ⟨a, b⟩) ↔ q.shape = d.batch)) := by
  obtain ⟨rfl, rfl, h⟩ := P2.init_wf hi
  have weak : ∀ {T : List ℕ} {x : AE ℝ} {L f}, EW T x L f → d.q.shape ∈ L → EW T x [d.q.shape] f := by
    rintro T x L f ⟨a, h1, h2, h3, h4⟩ hm
    exact ⟨a, h1, h2, fun l hl => by rw [List.mem_singleton.1 hl]; exact h3 _ hm, h4⟩
  constructor
  · refine second_only (g := fun b => VonMises.variance ⟨0, b⟩) h fun T hT => ?_
    have hq : EW T d.q_ [d.q.shape] (bget d.q) := EW.arr hT
    exact weak (EW.sub (EW.scalar 1) (EW.div (hq.map i1e) (hq.map i0e))) (by simp)
  · refine second_only (g := fun b => VonMises.entropy ⟨0, b⟩) h fun T hT => ?_
    have hq : EW T d.q_ [d.q.shape] (bget d.q) := EW.arr hT
    exact weak (EW.add (EW.add (EW.mul hq (EW.sub (EW.scalar 1) (EW.div (hq.map i1e) (hq.map i0e)))) (EW.scalar _))
      (EW.log (hq.map i0e))) (by simp)

/-- So the documented shape fails: three locations and one scale give an entropy (and a von Mises variance and entropy) of
shape `(1,)`, or `()` for a scalar scale, though the batch shape is `(3,)`. -/
theorem C58_summary_shape_negation :
    ∃ p q q' : BArr ℝ, ∃ d d' : P2, P2.init p q = .ok d ∧ P2.init p q' = .ok d' ∧ d.batch = [3] ∧ d'.batch = [3] ∧
      ∀ m ∈ [GumbelA.entropy, VonMisesA.variance, VonMisesA.entropy],
        (∃ a, m d = .arr a ∧ a.shape = [1]) ∧ ∃ a, m d' = .arr a ∧ a.shape = [] := by
  refine ⟨⟨[3], fun _ => 0⟩, ⟨[1], fun _ => 1⟩, ⟨[], fun _ => 1⟩, _, _, rfl, rfl, rfl, rfl, ?_⟩
  have e1 : P2.init ⟨[3], fun _ => 0⟩ ⟨[1], fun _ => 1⟩ = .ok ⟨⟨[3], fun _ => 0⟩, ⟨[1], fun _ => 1⟩, [3]⟩ := rfl
  have e2 : P2.init ⟨[3], fun _ => 0⟩ ⟨[], fun _ => 1⟩ = .ok ⟨⟨[3], fun _ => 0⟩, ⟨[], fun _ => 1⟩, [3]⟩ := rfl
  have sh : ∀ {x : AE ℝ} {s : List ℕ} {f : List ℕ → ℝ}, PerEntry x s f → ∃ a, x = .arr a ∧ a.shape = s :=
    fun ⟨a, h1, h2, _⟩ => ⟨a, h1, h2⟩
  intro m hm
  simp only [List.mem_cons, List.not_mem_nil, or_false] at hm
  rcases hm with rfl | rfl | rfl
  · exact ⟨sh (C58_gumbel_entropy _ _ _ e1).1, sh (C58_gumbel_entropy _ _ _ e2).1⟩
  · exact ⟨sh (C58_von_mises_summaries _ _ _ e1).1.1, sh (C58_von_mises_summaries _ _ _ e2).1.1⟩
  · exact ⟨sh (C58_von_mises_summaries _ _ _ e1).2.1, sh (C58_von_mises_summaries _ _ _ e2).2.1⟩

variable {Key : Type}

theorem toArr_of {x : AE ℝ} {a : BArr ℝ} (h : x = AE.arr a) : x.toArr = .ok ⟨a.shape, a.data⟩ := by rw [h]; rfl

/-- What that does to `Independent`: over `n` Gumbels with `n` locations and one scale of shape `(1,)`, the entropy of
`Independent(..., 1)` is that of a single coordinate, although `log_prob` sums all `n`; with a scalar scale `entropy()`
raises. -/
theorem C58_independent_gumbel_entropy (prngKey : ℤ → Key) (noise : Key → List ℕ → BArr ℝ) (n : ℕ) (loc : List ℕ → ℝ)
    (s : ℝ) :
    (∃ d di, P2.init ⟨[n], loc⟩ ⟨[1], fun _ => s⟩ = .ok d ∧ d.batch = [n] ∧
      independent prngKey (GumbelA.dist noise d) (some 1) = .ok di ∧ di.batch = [] ∧ di.event = [n] ∧
      (∃ a, di.entropy = .ok a ∧ a.shape = [] ∧ a.data [] = Gumbel.entropy ⟨0, s⟩) ∧
      ∀ v : Arr, v.shape = [n] → ∃ l, di.logProb v = .ok l ∧ l.shape = [] ∧
        l.data [] = ((List.range n).map fun k => Gumbel.logProb ⟨loc [k], s⟩ (v.data [k])).sum) ∧
    ∃ d di, P2.init ⟨[n], loc⟩ ⟨[], fun _ => s⟩ = .ok d ∧ d.batch = [n] ∧
      independent prngKey (GumbelA.dist noise d) (some 1) = .ok di ∧ di.entropy = .error .valueError := by
  have hb : broadcastShapes [n] [1] = some [n] := by
    simp only [broadcastShapes, List.reverse_singleton, brev, bdim]
    split_ifs with h h' <;> simp_all
  have e1 : P2.init ⟨[n], loc⟩ ⟨[1], fun _ => s⟩ = .ok ⟨⟨[n], loc⟩, ⟨[1], fun _ => s⟩, [n]⟩ :=
    (C58_init _ _).1 _ hb
  have e2 : P2.init ⟨[n], loc⟩ ⟨[], fun _ => s⟩ = .ok ⟨⟨[n], loc⟩, ⟨[], fun _ => s⟩, [n]⟩ := rfl
  constructor
  · refine ⟨_, _, e1, rfl, rfl, rfl, rfl, ?_, ?_⟩
    · obtain ⟨a, h1, h2, h3⟩ := (C58_gumbel_entropy _ _ _ e1).1
      refine ⟨⟨[], fun i => a.data (i ++ [0])⟩, ?_, rfl, ?_⟩
      · have : (GumbelA.dist noise ⟨⟨[n], loc⟩, ⟨[1], fun _ => s⟩, [n]⟩).entropy = .ok ⟨a.shape, a.data⟩ := toArr_of h1
        show (do let e ← (GumbelA.dist noise ⟨⟨[n], loc⟩, ⟨[1], fun _ => s⟩, [n]⟩).entropy; reduceSum 1 e) = _
        rw [this]
        simp only [bind, Except.bind]
        simp only [reduceSum, Arr.sumLast, h2]
        simp [allIdx, List.range_succ]
      · exact (h3 [0] (by simp [InRange])).trans rfl
    · intro v hv
      obtain ⟨a, h1, h2, h3⟩ := (C58_gumbel_partial _ _ _ e1).2.2.2.2.2.1 ⟨v.shape, v.data⟩ [n] (by
        show broadcastShapes [n] v.shape = _
        rw [hv]; exact BLe.refl _)
      refine ⟨⟨[], fun i => ((allIdx [n]).map fun j => a.data (i ++ j)).sum⟩, ?_, rfl, ?_⟩
      · have : (GumbelA.dist noise ⟨⟨[n], loc⟩, ⟨[1], fun _ => s⟩, [n]⟩).logProb v = .ok ⟨a.shape, a.data⟩ := toArr_of h1
        show (do let e ← (GumbelA.dist noise ⟨⟨[n], loc⟩, ⟨[1], fun _ => s⟩, [n]⟩).logProb v; reduceSum 1 e) = _
        rw [this]
        simp only [bind, Except.bind]
        simp only [reduceSum, Arr.sumLast, h2]
        simp
      · simp only [List.nil_append]
        have : allIdx [n] = (List.range n).map fun k => [k] := by
          rw [List.map_eq_flatMap]; rfl
        rw [this, List.map_map]
        refine congrArg List.sum (List.map_congr_left fun k hk => ?_)
        have hk' : k < n := List.mem_range.1 hk
        have hr : InRange [n] [k] := by simp [InRange, hk']
        have := h3 [k] hr
        simp only [bget, hv, proj_self hr] at this
        simpa using this
  · refine ⟨_, _, e2, rfl, rfl, ?_⟩
    obtain ⟨a, h1, h2, h3⟩ := (C58_gumbel_entropy _ _ _ e2).1
    have : (GumbelA.dist noise ⟨⟨[n], loc⟩, ⟨[], fun _ => s⟩, [n]⟩).entropy = .ok ⟨a.shape, a.data⟩ := toArr_of h1
    show (do let e ← (GumbelA.dist noise ⟨⟨[n], loc⟩, ⟨[], fun _ => s⟩, [n]⟩).entropy; reduceSum 1 e) = _
    rw [this]
    simp only [bind, Except.bind]
    simp [reduceSum, Arr.sumLast, h2]

/-! ### Contracts of C18 and C20 -/

theorem proj_lead {a i b : List ℕ} (h : a.length ≤ b.length) : proj a (i ++ b) = proj a b := by
  unfold proj
  have : (i ++ b).length - a.length = i.length + (b.length - a.length) := by simp only [List.length_append]; omega
  rw [this, List.drop_append, List.drop_eq_nil_of_le (by omega), List.nil_append]
  congr 2
  omega

theorem bget_lead {a : BArr α} {i b s : List ℕ} (h : BLe a.shape s) (hb : InRange s b) : bget a (i ++ b) = bget a b := by
  unfold bget
  rw [proj_lead (by rw [hb.length]; exact h.length)]

theorem BLe.append (s b : List ℕ) : BLe b (s ++ b) := by
  have : broadcastShapes ([] ++ b) (s ++ b) = _ := broadcast_append b _ _
  rw [broadcastShapes_nil] at this
  exact this

/-- What `jax.random` promises: an array of the requested shape. -/
def Spec.NoiseShape (noise : Key → List ℕ → BArr ℝ) : Prop := ∀ k s, (noise k s).shape = s

/-- Samples and log-probabilities that act entry by entry meet the contracts of C18. -/
theorem contracts_of {d : P2} (hd : d.Wf) {noise : Key → List ℕ → BArr ℝ} (hn : NoiseShape noise) {sN nlp lp e lc}
    {f g : ℝ → ℝ → ℝ → ℝ} (hs : OfNoise d (fun _ => sN) f) (hv : OfValue d lp g)
    (h1 : OfNoise d (fun _ r => (nlp r).1) f)
    (h2 : OfNoise d (fun _ r => (nlp r).2) fun a b r => g a b (f a b r)) :
    let D := d.dist noise sN nlp lp e lc
    StacksDraws D ∧ ActsPerEvent D (fun b x => g (bget d.p b) (bget d.q b) (x [])) ∧ PairsDraws D := by
  have act : ∀ (s : List ℕ) (v : Arr), v.shape = s ++ d.batch →
    ∃ l, (lp (.ofArr v)).toArr = .ok l ∧ l.shape = s ++ d.batch ∧
      ∀ i, InRange (s ++ d.batch) i → l.data i = g (bget d.p i) (bget d.q i) (v.data i) := by
    intro s v hvs
    obtain ⟨a, a1, a2, a3⟩ := hv ⟨v.shape, v.data⟩ (s ++ d.batch) (by
      show broadcastShapes d.batch v.shape = _; rw [hvs]; exact BLe.append s d.batch)
    refine ⟨_, toArr_of a1, a2, fun i hi => (a3 i hi).trans ?_⟩
    exact congrArg _ (bget_full (a := ⟨v.shape, v.data⟩) hvs hi)
  refine ⟨fun k n => ?_, ⟨fun b x y h => by rw [h [] List.Forall₂.nil], fun s v hvs => ?_⟩, fun k n => ?_⟩
  · obtain ⟨a, a1, a2, -⟩ := hs n (noise k (n :: d.batch)) (hn _ _)
    show (AE.toArrD (sN _)).shape = n :: (d.batch ++ [])
    have e : sN (.arr (noise k (n :: d.batch))) = AE.arr a := a1
    rw [AE.toArrD, toArr_of e, List.append_nil]
    exact a2
  · have hvs' : v.shape = s ++ d.batch := by
      have : v.shape = s ++ (d.batch ++ []) := hvs
      rwa [List.append_nil] at this
    obtain ⟨l, l1, l2, l3⟩ := act s v hvs'
    refine ⟨l, l1, l2, fun i b hi hb => ?_⟩
    rw [l3 _ (hi.append hb), bget_lead hd.le_p hb, bget_lead hd.le_q hb]
    simp only [List.append_nil]
  · obtain ⟨a, a1, a2, a3⟩ := hs n (noise k (n :: d.batch)) (hn _ _)
    obtain ⟨x, x1, x2, x3⟩ := h1 n (noise k (n :: d.batch)) (hn _ _)
    obtain ⟨l, l1, l2, l3⟩ := h2 n (noise k (n :: d.batch)) (hn _ _)
    obtain ⟨l', m1, m2, m3⟩ := act [n] ⟨x.shape, x.data⟩ x2
    refine ⟨⟨x.shape, x.data⟩, ⟨l.shape, l.data⟩, l', ?_, ?_, m1, ?_⟩
    · show AE.toArr2 (nlp _) = _
      simp only [AE.toArr2, bind, Except.bind, pure, Except.pure]
      rw [toArr_of (show (nlp (.arr (noise k (n :: d.batch)))).1 = _ from x1),
        toArr_of (show (nlp (.arr (noise k (n :: d.batch)))).2 = _ from l1)]
    · show (⟨x.shape, x.data⟩ : Arr) ≈ₐ AE.toArrD (sN _)
      have e : sN (.arr (noise k (n :: d.batch))) = AE.arr a := a1
      rw [AE.toArrD, toArr_of e]
      refine ⟨by simp only [x2, a2], fun i hi => ?_⟩
      have hi' : InRange (n :: d.batch) i := by simp only [x2] at hi; exact hi
      exact (x3 i hi').trans (a3 i hi').symm
    · refine ⟨by simp only [l2, m2]; rfl, fun i hi => ?_⟩
      have hi' : InRange (n :: d.batch) i := by simp only [l2] at hi; exact hi
      rw [m3 i hi']
      simp only
      rw [x3 i hi']
      exact l3 i hi'

/-- `OfNoise` only needs the formula at the parameters of the object. -/
theorem Spec.OfNoise.congr {d : P2} {x : ℕ → AE ℝ → AE α} {f g : ℝ → ℝ → ℝ → α} (h : OfNoise d x f)
    (hfg : ∀ n i, InRange (n :: d.batch) i → ∀ r, f (bget d.p i) (bget d.q i) r = g (bget d.p i) (bget d.q i) r) :
    OfNoise d x g := by
  intro n rnd hr
  obtain ⟨a, h1, h2, h3⟩ := h n rnd hr
  exact ⟨a, h1, h2, fun i hi => (h3 i hi).trans (hfg n i hi _)⟩

/-- Positive `scale` arrays broadcast to positive entries. -/
theorem bget_pos {d : P2} (hd : d.Wf) (hpos : ∀ i, InRange d.q.shape i → 0 < d.q.data i) (n : ℕ) (i : List ℕ)
    (hi : InRange (n :: d.batch) i) : 0 < bget d.q i :=
  hpos _ (proj_inRange (hd.le_q.trans (BLe.lead n _)) hi)

/-- Normal, Laplace, Gumbel and Logistic objects meet the contracts under which C18 (`sample`, `sample_and_log_prob`) and
C20 (`Independent`) are proved, for parameter arrays of any compatible shapes with positive scales. -/
theorem C58_contracts (noise : Key → List ℕ → BArr ℝ) (hn : NoiseShape noise) (p q : BArr ℝ) (d : P2)
    (hi : P2.init p q = .ok d) (hpos : ∀ i, InRange q.shape i → 0 < q.data i) :
    (let D := NormalA.dist noise d; StacksDraws D ∧ PairsDraws D ∧
      ActsPerEvent D fun b x => Normal.logProb ⟨bget p b, bget q b⟩ (x [])) ∧
    (let D := LaplaceA.dist noise d; StacksDraws D ∧ PairsDraws D ∧
      ActsPerEvent D fun b x => Laplace.logProb ⟨bget p b, bget q b⟩ (x [])) ∧
    (let D := GumbelA.dist noise d; StacksDraws D ∧ PairsDraws D ∧
      ActsPerEvent D fun b x => Gumbel.logProb ⟨bget p b, bget q b⟩ (x [])) ∧
    (let D := LogisticA.dist noise d; StacksDraws D ∧ PairsDraws D ∧
      ActsPerEvent D fun b x => Logistic.logProb ⟨bget p b, bget q b⟩ (x [])) := by
  have hN := C58_normal p q d hi
  have hL := C58_laplace p q d hi
  have hG := C58_gumbel_partial p q d hi
  have hO := C58_logistic p q d hi
  obtain ⟨rfl, rfl, hd⟩ := P2.init_wf hi
  have pos := bget_pos hd hpos
  refine ⟨?_, ?_, ?_, ?_⟩
  · obtain ⟨-, -, -, -, -, -, lp, -, -, -, -, -, s, s1, s2⟩ := hN
    obtain ⟨a, b, c⟩ := contracts_of (e := NormalA.entropy d) (lc := NormalA.logCdf d) hd hn s lp s1
      (s2.congr fun n i hi r => ((C28_normal_sample ⟨_, _⟩ (pos n i hi)).2 r).2)
    exact ⟨a, c, b⟩
  · obtain ⟨-, -, -, -, -, -, lp, -, -, -, -, -, s, s1, s2⟩ := hL
    obtain ⟨a, b, c⟩ := contracts_of (e := LaplaceA.entropy d) (lc := LaplaceA.logCdf d) hd hn s lp s1
      (s2.congr fun n i hi r => ((C29_laplace_sample ⟨_, _⟩ (pos n i hi)).2 r).2)
    exact ⟨a, c, b⟩
  · obtain ⟨-, -, -, -, -, lp, -, -, -, -, s, s1, s2⟩ := hG
    obtain ⟨a, b, c⟩ := contracts_of (e := GumbelA.entropy d) (lc := GumbelA.logCdf d) hd hn s lp s1
      (s2.congr fun n i hi r => ((C29_gumbel_sample ⟨_, _⟩ (pos n i hi)).2 r).2)
    exact ⟨a, c, b⟩
  · obtain ⟨-, -, -, -, -, -, lp, -, -, -, -, -, s⟩ := hO
    obtain ⟨a, b, c⟩ := contracts_of (e := LogisticA.entropy d) (lc := LogisticA.logCdf d) hd hn
      (nlp := fun rnd => (LogisticA.sampleN d rnd, LogisticA.logProb d (LogisticA.sampleN d rnd))) s lp s (by
        intro n rnd hr
        obtain ⟨x, x1, x2, x3⟩ := s n rnd hr
        obtain ⟨l, l1, l2, l3⟩ := lp x (n :: d.batch) (by rw [x2]; exact BLe.lead n _)
        have x1' : LogisticA.sampleN d (AE.arr rnd) = AE.arr x := x1
        refine ⟨l, ?_, l2, fun i hi => ?_⟩
        · show LogisticA.logProb d (LogisticA.sampleN d (AE.arr rnd)) = _
          rw [x1', l1]
        · rw [l3 i hi]
          simp only
          rw [bget_full x2 hi, x3 i hi])
    exact ⟨a, c, b⟩

end Distrax
