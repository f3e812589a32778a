import Verif.Props.FamArr

/-! C58, continued: LogStddevNormal, Deterministic and Bernoulli on whole arrays. -/

namespace Distrax

open Spec

variable {α β : Type}

/-! ### LogStddevNormal -/

/-- log_stddev_normal.py: an object is built entry by entry: the batch shape is the broadcast of `loc` and `log_scale`, and
every batch entry is the LogStddevNormal built from the entries broadcasting assigns to it.  (`Normal`'s methods, which it
inherits, are `C58_normal` for `d.base`.) -/
theorem C58_log_stddev_normal (loc ls : BArr ℝ) (m : Option ℝ) (hm : ∀ c, m = some c → 0 < c) (b : List ℕ)
    (hb : broadcastShapes loc.shape ls.shape = some b) :
    ∃ d, LSN.init loc ls m = .ok d ∧ d.base.batch = b ∧ d.maxScale = m ∧ P2.init d.base.p d.base.q = .ok d.base ∧
      (∀ i, InRange b i → LogStddevNormal.init (bget loc i) (bget ls i) m =
        .ok ⟨⟨bget d.base.p i, bget d.base.q i⟩, bget d.ls i, m⟩) ∧
      PerEntry d.logScaleB b (bget d.ls) := by
  obtain ⟨t, t1, t2, t3⟩ : ∃ t : BArr ℝ, LSN.thresholded ls m = .arr t ∧ t.shape = ls.shape ∧ ∀ i, InRange b i →
      LogStddevNormal.init (bget loc i) (bget ls i) m = .ok ⟨⟨bget loc i, Real.exp (bget t i)⟩, bget t i, m⟩ := by
    cases m with
    | none => exact ⟨ls, rfl, rfl, fun i _ => rfl⟩
    | some c =>
      have hc := hm c rfl
      have e1 : LSN.thresholded ls (some c) =
          AE.scalar (Real.log c) - (AE.scalar (Real.log c) - AE.arr ls).map rsoftplus :=
        if_neg hc.not_ge
      have h := EW.sub (EW.scalar (T := ls.shape) (Real.log c))
        ((EW.sub (EW.scalar (Real.log c)) (EW.arr (a := ls) (BLe.refl _))).map rsoftplus)
      obtain ⟨t, h1, h2, h3⟩ := h.perEntry (fun u hu _ => hu _ (by simp)) fun i _ => rfl
      refine ⟨t, e1.trans h1, h2, fun i hi => ?_⟩
      have hj : InRange ls.shape (proj ls.shape i) := proj_inRange (BLe.right hb) hi
      have : bget t i = Real.log c - rsoftplus (Real.log c - bget ls i) := by
        unfold bget
        rw [h2, h3 _ hj]
        simp only [bget, proj_self hj]
      rw [this]
      simp only [LogStddevNormal.init, if_neg hc.not_ge]
  have hb' : broadcastShapes loc.shape (t.map Real.exp).shape = some b := by
    show broadcastShapes loc.shape t.shape = _
    rw [t2]; exact hb
  have e : LSN.init loc ls m = .ok ⟨⟨loc, t.map Real.exp, b⟩, t, m⟩ := by
    unfold LSN.init
    rw [t1]
    show (match P2.init loc (t.map Real.exp) with | .error e => _ | .ok b => _) = _
    rw [(C58_init _ _).1 b hb']
  refine ⟨_, e, rfl, rfl, (C58_init _ _).1 b hb', fun i hi => t3 i hi, ?_⟩
  have ht : BLe t.shape b := by rw [t2]; exact BLe.right hb
  exact (EW.broadcastTo (BLe.refl b) rfl ht (EW.arr ht)).perEntry (fun u hu _ => hu _ (by simp)) fun i _ => rfl

/-- A nonpositive `max_scale` is rejected. -/
theorem C58_log_stddev_normal_bad (loc ls : BArr ℝ) (c : ℝ) (hc : c ≤ 0) : LSN.init loc ls (some c) = .error .valueError := by
  have e : LSN.thresholded ls (some c) = Except.error .valueError := if_pos hc
  unfold LSN.init
  rw [e]

/-- log_stddev_normal.py: the KL divergence, entry by entry. -/
theorem C58_log_stddev_normal_kl (loc1 ls1 loc2 ls2 : BArr ℝ) (m1 m2 : Option ℝ) (hm1 : ∀ c, m1 = some c → 0 < c)
    (hm2 : ∀ c, m2 = some c → 0 < c) (b1 b2 t : List ℕ) (h1 : broadcastShapes loc1.shape ls1.shape = some b1)
    (h2 : broadcastShapes loc2.shape ls2.shape = some b2) (ht : broadcastShapes b1 b2 = some t) :
    ∃ d1 d2, LSN.init loc1 ls1 m1 = .ok d1 ∧ LSN.init loc2 ls2 m2 = .ok d2 ∧
      ∃ e1 e2 : List ℕ → LogStddevNormal,
        (∀ i, InRange t i → LogStddevNormal.init (bget loc1 i) (bget ls1 i) m1 = .ok (e1 i)) ∧
        (∀ i, InRange t i → LogStddevNormal.init (bget loc2 i) (bget ls2 i) m2 = .ok (e2 i)) ∧
        PerEntry (LSN.kl d1 d2) t fun i => (e1 i).kl (e2 i) := by
  have key : ∀ (loc ls : BArr ℝ) (m : Option ℝ) (b : List ℕ), (∀ c, m = some c → 0 < c) →
      broadcastShapes loc.shape ls.shape = some b → BLe b t →
      ∃ d, LSN.init loc ls m = .ok d ∧ ∃ e : List ℕ → LogStddevNormal,
        (∀ i, InRange t i → LogStddevNormal.init (bget loc i) (bget ls i) m = .ok (e i)) ∧
        EW t d.base.pB [b] (fun i => (e i).loc) ∧ EW t d.base.qB [b] (fun i => (e i).scale) ∧
        EW t d.logScaleB [b] (fun i => (e i).logScale) := by
    intro loc ls m b hm hb hbt
    obtain ⟨d, d1, d2, d3, d4, d5, a, a1, a2, a3⟩ := C58_log_stddev_normal loc ls m hm b hb
    obtain ⟨-, -, wf⟩ := P2.init_wf d4
    have hbt' : BLe d.base.batch t := by rw [d2]; exact hbt
    have hle : ∀ i, InRange t i → b.length ≤ i.length := fun i hi => by rw [hi.length]; exact hbt.length
    have hls : BLe d.ls.shape b := by
      have : d.logScaleB = (AE.arr d.ls).broadcastTo b := by rw [LSN.logScaleB, d2]
      rw [this] at a1
      by_contra hn
      have : (AE.arr d.ls).broadcastTo b = (if broadcastShapes d.ls.shape b = some b then
        Except.ok ⟨b, fun i => d.ls.data (proj d.ls.shape i)⟩ else Except.error .valueError) := rfl
      rw [this] at a1
      have h' : ¬ broadcastShapes d.ls.shape b = some b := hn
      have e : (if broadcastShapes d.ls.shape b = some b then
        Except.ok ⟨b, fun i => d.ls.data (proj d.ls.shape i)⟩ else Except.error .valueError :
          Except Err (BArr ℝ)) = Except.error .valueError := if_neg h'
      have := e.symm.trans a1
      cases this
    refine ⟨d, d1, fun i => ⟨⟨bget d.base.p i, bget d.base.q i⟩, bget d.ls i, m⟩, fun i hi => ?_, ?_, ?_, ?_⟩
    · have hj : InRange b (proj b i) := proj_inRange hbt hi
      have h := d5 _ hj
      have pp : ∀ {a : BArr ℝ}, BLe a.shape b → bget a (proj b i) = bget a i := by
        intro a ha
        unfold bget
        rw [ha.proj (hle i hi)]
      rw [pp (BLe.left hb), pp (BLe.right hb), pp (d2 ▸ wf.le_p), pp (d2 ▸ wf.le_q), pp hls] at h
      exact h
    · have := EW.pB wf hbt'
      rwa [d2] at this
    · have := EW.qB wf hbt'
      rwa [d2] at this
    · have : EW t ((AE.arr d.ls).broadcastTo b) [b] (bget d.ls) := EW.broadcastTo hbt rfl hls (EW.arr (hls.trans hbt))
      rw [LSN.logScaleB, d2]
      exact this
  obtain ⟨d1, i1, e1, n1, p1, q1, l1⟩ := key loc1 ls1 m1 b1 hm1 h1 (BLe.left ht)
  obtain ⟨d2, i2, e2, n2, p2, q2, l2⟩ := key loc2 ls2 m2 b2 hm2 h2 (BLe.right ht)
  refine ⟨d1, d2, i1, i2, e1, e2, n1, n2, ?_⟩
  simp only [LSN.kl]
  refine EW.perEntry (by ew) (fun u hu _ => BLe.join ht (hu _ (by simp)) (hu _ (by simp))) fun i _ => ?_
  rfl

/-! ### Deterministic -/

/-- deterministic.py: when the tolerances broadcast to `loc`, every method acts entry by entry. -/
theorem C58_deterministic (loc : BArr ℝ) (atol rtol : Option (BArr ℝ)) (d : DetA) (hi : DetA.init loc atol rtol = .ok d)
    (ha : broadcastShapes d.atol_.shape loc.shape = some loc.shape)
    (hr : broadcastShapes d.rtol_.shape loc.shape = some loc.shape) :
    d.batch = loc.shape ∧ d.loc = loc ∧
    (let e : List ℕ → Deterministic := fun i => ⟨bget loc i, bget d.atol_ i, bget d.rtol_ i⟩
    PerEntry d.mean loc.shape (fun i => (e i).mean) ∧ PerEntry d.mode loc.shape (fun i => (e i).mode) ∧
    PerEntry d.variance loc.shape (fun i => (e i).variance) ∧ PerEntry d.stddev loc.shape (fun i => (e i).stddev) ∧
    PerEntry d.entropy loc.shape (fun i => (e i).entropy) ∧ PerEntry d.slack loc.shape (fun i => (e i).slack) ∧
    (∀ n, PerEntry (d.sampleN n) (n :: loc.shape) (fun i => (e i).sample) ∧
      PerEntry (d.sampleNLP n).1 (n :: loc.shape) (fun i => (e i).sampleAndLogProb.1) ∧
      PerEntry (d.sampleNLP n).2 (n :: loc.shape) (fun i => (e i).sampleAndLogProb.2)) ∧
    ∀ (v : BArr ℝ) (t : List ℕ), broadcastShapes loc.shape v.shape = some t →
      PerEntry (d.prob (.arr v)) t (fun i => (e i).prob (bget v i)) ∧
      PerEntry (d.logProb (.arr v)) t (fun i => (e i).logProb (bget v i)) ∧
      PerEntry (d.cdf (.arr v)) t (fun i => (e i).cdf (bget v i)) ∧
      PerEntry (d.logCdf (.arr v)) t (fun i => (e i).logCdf (bget v i))) := by
  have hloc : d.loc = loc := by
    simp only [DetA.init] at hi
    split_ifs at hi
    obtain rfl := Except.ok.inj hi
    rfl
  subst hloc
  have hl : ∀ T, BLe d.loc.shape T → EW T d.l [d.loc.shape] (bget d.loc) := fun T h => EW.arr h
  have hat : ∀ T, BLe d.loc.shape T → EW T d.atol [d.loc.shape] (bget d.atol_) := fun T h =>
    EW.broadcastTo h rfl ha (EW.arr (BLe.trans ha h))
  have hrt : ∀ T, BLe d.loc.shape T → EW T d.rtol [d.loc.shape] (bget d.rtol_) := fun T h =>
    EW.broadcastTo h rfl hr (EW.arr (BLe.trans hr h))
  have L := hl _ (BLe.refl _)
  have zer : PerEntry (AE.full d.loc.shape (0 : ℝ)) d.loc.shape fun _ => 0 := ⟨_, rfl, rfl, fun _ _ => rfl⟩
  have rep : ∀ n, EW (n :: d.loc.shape) (d.l.repeatLead n) [n :: d.loc.shape] fun i => bget d.loc i := by
    intro n
    obtain ⟨a, a1, a2, a3, a4⟩ := EW.repeatLead n L fun u hu _ => hu _ (by simp)
    refine ⟨a, a1, a2, a3, fun i hi => (a4 i hi).trans ?_⟩
    cases hi with
    | cons hk hi => 
      rename_i k j
      have : bget d.loc ([k] ++ j) = bget d.loc j := by
        unfold bget proj
        have h1 := hi.length_eq
        have : ([k] ++ j).length - d.loc.shape.length = (j.length - d.loc.shape.length) + 1 := by
          simp only [List.length_append, List.length_singleton]; omega
        rw [this]
        rfl
      exact this.symm
  refine ⟨rfl, rfl, L.perEntry (fun u hu _ => hu _ (by simp)) fun _ _ => rfl,
    L.perEntry (fun u hu _ => hu _ (by simp)) fun _ _ => rfl, zer, zer, zer, ?_, fun n => ⟨?_, ?_, ?_⟩, fun v t ht => ?_⟩
  · have A := hat _ (BLe.refl _)
    have R := hrt _ (BLe.refl _)
    simp only [DetA.slack]
    refine EW.perEntry (by ew) (fun u hu _ => hu _ (by simp)) fun i _ => ?_
    simp only [Deterministic.slack]
  · exact (rep n).perEntry (fun u hu _ => hu _ (by simp)) fun _ _ => rfl
  · exact (rep n).perEntry (fun u hu _ => hu _ (by simp)) fun _ _ => rfl
  · exact (EW.fullLike (rep n) _).perEntry (fun u hu _ => hu _ (by simp)) fun _ _ => rfl
  · have A := hat _ (BLe.left ht)
    have R := hrt _ (BLe.left ht)
    have L := hl _ (BLe.left ht)
    have V := EW.arr (a := v) (BLe.right ht)
    refine ⟨?_, ?_, ?_, ?_⟩ <;> simp only [DetA.logProb, DetA.prob, DetA.cdf, DetA.logCdf, DetA.slack] <;>
      refine EW.perEntry (by ew) (fun u hu _ => BLe.join ht (hu _ (by simp)) (hu _ (by simp))) fun i _ => ?_ <;>
      simp only [Deterministic.logProb, Deterministic.prob, Deterministic.cdf, Deterministic.logCdf, Deterministic.slack] <;>
      congr

/-- deterministic.py: `__init__` only compares ranks, so a tolerance of the right rank that does not broadcast to `loc` is
accepted by the constructor (and by `sample`, `mean`, `entropy`) and makes every evaluation of `prob` and `cdf` raise. -/
theorem C58_deterministic_bad_tolerance (loc : BArr ℝ) (atol rtol : Option (BArr ℝ)) (d : DetA)
    (hi : DetA.init loc atol rtol = .ok d)
    (hbad : broadcastShapes d.atol_.shape loc.shape ≠ some loc.shape ∨ broadcastShapes d.rtol_.shape loc.shape ≠ some loc.shape)
    (v : BArr ℝ) (t : List ℕ) (ht : broadcastShapes loc.shape v.shape = some t) :
    d.prob (.arr v) = Except.error .valueError ∧ d.cdf (.arr v) = Except.error .valueError ∧
    d.logProb (.arr v) = Except.error .valueError ∧ d.logCdf (.arr v) = Except.error .valueError ∧
    (∃ a, d.mean = .arr a) ∧ ∃ a, d.entropy = .arr a := by
  have hloc : d.loc = loc := by
    simp only [DetA.init] at hi
    split_ifs at hi
    obtain rfl := Except.ok.inj hi
    rfl
  subst hloc
  have bc : ∀ a : BArr ℝ, broadcastShapes a.shape d.loc.shape ≠ some d.loc.shape →
      (AE.arr a).broadcastTo d.loc.shape = Except.error .valueError := fun a h => if_neg h
  have bl : ∀ {α β γ : Type} (f : α → β → γ) (e : Err) (y : AE β), AE.bin f (Except.error e) y = Except.error e :=
    fun f e y => rfl
  have br : ∀ {α β γ : Type} (f : α → β → γ) (x : BArr α) (e : Err),
    AE.bin f (AE.arr x) (Except.error e) = Except.error e := fun f x e => rfl
  have slk : d.slack = Except.error .valueError := by
    unfold DetA.slack AE.whr AE.tern
    by_cases hr : broadcastShapes d.rtol_.shape d.loc.shape = some d.loc.shape
    · have ha : broadcastShapes d.atol_.shape d.loc.shape ≠ some d.loc.shape := hbad.resolve_right (fun h => h hr)
      obtain ⟨a, a1, -⟩ := EW.broadcastTo (BLe.refl d.loc.shape) rfl hr (EW.arr (a := d.rtol_) hr)
      have e1 : d.rtol = AE.arr a := a1
      obtain ⟨c, c1, -⟩ := EW.bin (EW.arr (a := a) (BLe.refl _)) (EW.scalar (0 : ℝ)) (fun x y => x = y)
      rw [show d.atol = Except.error .valueError from bc _ ha, e1, c1, br, bl]
    · rw [show d.rtol = Except.error .valueError from bc _ hr, bl, bl, bl]
  have V := EW.arr (a := v) (BLe.right ht)
  have L : EW t d.l [d.loc.shape] (bget d.loc) := EW.arr (BLe.left ht)
  have p1 : d.prob (.arr v) = Except.error .valueError := by
    obtain ⟨c, c1, -⟩ := (EW.sub V L).abs
    unfold DetA.prob AE.whr AE.tern
    rw [slk, c1, br, bl, bl]
  have p2 : d.cdf (.arr v) = Except.error .valueError := by
    unfold DetA.cdf AE.whr AE.tern
    have e : HSub.hSub (α := AE ℝ) (β := AE ℝ) (γ := AE ℝ) d.l (Except.error .valueError) = Except.error .valueError := rfl
    rw [slk, e, br, bl, bl]
  refine ⟨p1, p2, ?_, ?_, ⟨_, rfl⟩, ⟨_, rfl⟩⟩
  · unfold DetA.logProb; rw [p1]; rfl
  · unfold DetA.logCdf; rw [p2]; rfl

/-- Such an object exists: a location of shape `(3,)` with an absolute tolerance of shape `(2,)`. -/
example : ∃ d, DetA.init ⟨[3], fun _ => 0⟩ (some ⟨[2], fun _ => 1⟩) none = .ok d ∧
    broadcastShapes d.atol_.shape [3] ≠ some [3] := ⟨_, rfl, by decide⟩

/-! ### Bernoulli -/

/-- The Bernoulli of one entry. -/
noncomputable def Spec.bernEntry (d : BernA) (i : List ℕ) : Bern :=
  match d with
  | .probs p => ⟨some (bget p i), none⟩
  | .logits l => ⟨none, some (bget l i)⟩

set_option linter.unusedSimpArgs false in
/-- bernoulli.py: every method acts entry by entry. -/
theorem C58_bernoulli (d : BernA) :
    PerEntry d.logitsB d.batch (fun i => (bernEntry d i).logits) ∧ PerEntry d.probsB d.batch (fun i => (bernEntry d i).probs) ∧
    PerEntry d.mean d.batch (fun i => (bernEntry d i).mean) ∧ PerEntry d.variance d.batch (fun i => (bernEntry d i).variance) ∧
    PerEntry d.mode d.batch (fun i => (bernEntry d i).mode) ∧ PerEntry d.entropy d.batch (fun i => (bernEntry d i).entropy) ∧
    (∀ (n : ℕ) (u : BArr ℝ), u.shape = n :: d.batch →
      PerEntry (d.sampleN (.arr u)) (n :: d.batch) fun i => (bernEntry d i).sample (u.data i)) ∧
    (∀ (v : BArr XR) (t : List ℕ), broadcastShapes d.batch v.shape = some t →
      PerEntry (d.prob (.arr v)) t (fun i => (bernEntry d i).prob (bget v i)) ∧
      PerEntry (d.logProb (.arr v)) t (fun i => (bernEntry d i).logProb (bget v i)) ∧
      PerEntry (d.cdf (.arr v)) t (fun i => (bernEntry d i).cdf (bget v i)) ∧
      PerEntry (d.logCdf (.arr v)) t (fun i => (bernEntry d i).logCdf (bget v i))) ∧
    ∀ (d' : BernA) (t : List ℕ), broadcastShapes d.batch d'.batch = some t →
      PerEntry (d.kl d') t fun i => (bernEntry d i).kl (bernEntry d' i) := by
  have P : ∀ (p : BArr XR) T, BLe p.shape T → EW T (AE.arr p) [p.shape] (bget p) := fun p T h => EW.arr h
  have fin1 : ∀ {α : Type} {x : AE α} {b : List ℕ} {f g : List ℕ → α} {L}, EW b x L f → b ∈ L → (∀ i, f i = g i) →
      PerEntry x b g := fun h hb hfg => h.perEntry (fun u hu _ => hu _ hb) fun i _ => hfg i
  have fin2 : ∀ {α : Type} {x : AE α} {b c t : List ℕ} {f g : List ℕ → α} {L}, EW t x L f →
      broadcastShapes b c = some t → b ∈ L ∧ c ∈ L → (∀ i, f i = g i) → PerEntry x t g :=
    fun h ht hb hfg => h.perEntry (fun u hu _ => BLe.join ht (hu _ hb.1) (hu _ hb.2)) fun i _ => hfg i
  refine ⟨?_, ?_, ?_, ?_, ?_, ?_, fun n u hu => ?_, fun v t ht => ?_, fun d' t ht => ?_⟩
  iterate 6
    cases d with
    | probs p =>
      have hp := P p _ (BLe.refl _)
      simp only [BernA.logitsB, BernA.probsB, BernA.mean, BernA.variance, BernA.mode, BernA.entropy,
        BernA.probsAndLogProbs, BernA.batch]
      refine fin1 (by ew) (by simp) fun i => ?_
      first | rfl | (simp only [Bern.mode, bernEntry, Bern.probs]; congr)
    | logits p =>
      have hp := P p _ (BLe.refl _)
      simp only [BernA.logitsB, BernA.probsB, BernA.mean, BernA.variance, BernA.mode, BernA.entropy,
        BernA.probsAndLogProbs, BernA.batch]
      refine fin1 (by ew) (by simp) fun i => ?_
      first | rfl | (simp only [Bern.mode, bernEntry, Bern.probs]; congr)
  · have hU : EW (n :: d.batch) (AE.arr u) [n :: d.batch] (bget u) := by
      have := EW.arr (a := u) (T := n :: d.batch) (by rw [hu]; exact BLe.refl _)
      rwa [hu] at this
    cases d with
    | probs p =>
      have hp := P p (n :: p.shape) (BLe.lead _ _)
      simp only [BernA.sampleN, BernA.probsB, BernA.batch] at *
      refine EW.perEntry (EW.bin hU hp _) (fun w hw _ => hw _ (by simp)) fun i hi => ?_
      rw [bget_full hu hi]
      simp only [Bern.sample, bernEntry, Bern.probs]; congr
    | logits p =>
      have hp := P p (n :: p.shape) (BLe.lead _ _)
      simp only [BernA.sampleN, BernA.probsB, BernA.batch] at *
      refine EW.perEntry (EW.bin hU (hp.map _) _) (fun w hw _ => hw _ (by simp)) fun i hi => ?_
      rw [bget_full hu hi]
      simp only [Bern.sample, bernEntry, Bern.probs]; congr
  · have hv := EW.arr (a := v) (BLe.right ht)
    cases d with
    | probs p =>
      have hp := P p t (BLe.left ht)
      simp only [BernA.prob, BernA.logProb, BernA.cdf, BernA.logCdf, BernA.logProbsParameter, BernA.probsB]
      refine ⟨?_, ?_, ?_, ?_⟩ <;> refine fin2 (by ew) ht (by simp [BernA.batch]) fun i => ?_ <;> rfl
    | logits p =>
      have hp := P p t (BLe.left ht)
      simp only [BernA.prob, BernA.logProb, BernA.cdf, BernA.logCdf, BernA.logProbsParameter, BernA.probsB]
      refine ⟨?_, ?_, ?_, ?_⟩ <;> refine fin2 (by ew) ht (by simp [BernA.batch]) fun i => ?_ <;> rfl
  · rcases d with p | p <;> rcases d' with p' | p' <;>
    · have hp := P p t (BLe.left ht)
      have hp' := P p' t (BLe.right ht)
      simp only [BernA.kl, BernA.probsAndLogProbs]
      refine fin2 (by ew) ht (by simp [BernA.batch]) fun i => ?_
      rfl

end Distrax
