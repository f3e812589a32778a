import Verif.Lemmas.WrapArr

/-! # C65: Quantized and Clipped on whole arrays -/

namespace Distrax

open Spec

theorem valueMethod_of {α : Type} {B : List ℕ} {m : AE ℝ → AE α} {g : List ℕ → ℝ → α}
    (h : ∀ (T : List ℕ) (x : AE ℝ) L f, BLe B T → EW T x L f → EW T (m x) (B :: L) fun i => g (proj B i) (f i)) :
    ValueMethod B m g := fun v t ht =>
  (h t _ _ _ (BLe.left ht) (EW.arr (BLe.right ht))).perEntry
    (fun u hu _ => BLe.join ht (hu _ (by simp)) (hu _ (by simp))) fun _ _ => rfl

theorem optAt_proj {c : Option (BArr ℝ)} {B T i : List ℕ} (h : ∀ a, c = some a → BLe a.shape B) (hT : BLe B T) (hi : InRange T i) :
    optAt c (proj B i) = optAt c i := by
  rcases c with _ | a
  · rfl
  · simp only [optAt, Option.map_some]
    show some (a.data _) = some (a.data _)
    rw [(h a rfl).proj (by rw [hi.length]; exact hT.length)]

/-- The distribution of batch entry `j`: the base's entry, quantized with the cutoffs of entry `j`. -/
noncomputable def Spec.quantizedEntry (base : List ℕ → Base) (low high eps : Option (BArr ℝ)) (j : List ℕ) : Quantized :=
  Quantized.init (base j) (optAt low j) (optAt high j) (optAt eps j)

/-- **C65** (Quantized).  For a base acting entry by entry and cutoffs that broadcast to its batch shape, the constructor
succeeds and every method acts entry by entry: it is, at each position of the broadcast of batch and value shapes, the
single-entry quantized distribution built from that entry's base and cutoffs.  Samples have the shape of the base's
samples, entry by entry. -/
theorem C65_quantized (b : BaseA) (base : List ℕ → Base) (hb : EntryWise b base) (he : b.event = [])
    (low high eps : Option (BArr ℝ)) (hl : ∀ a, low = some a → broadcastShapes a.shape b.batch = some b.batch)
    (hh : ∀ a, high = some a → broadcastShapes a.shape b.batch = some b.batch)
    (hp : ∀ a, eps = some a → broadcastShapes a.shape b.batch = some b.batch) :
    ∃ d, QuantA.init b low high eps = .ok d ∧
      ValueMethod b.batch d.cdf (fun j => (quantizedEntry base low high eps j).cdf) ∧
      ValueMethod b.batch d.logCdf (fun j => (quantizedEntry base low high eps j).logCdf) ∧
      ValueMethod b.batch d.survival (fun j => (quantizedEntry base low high eps j).survival) ∧
      ValueMethod b.batch d.logSurvival (fun j => (quantizedEntry base low high eps j).logSurvival) ∧
      ValueMethod b.batch d.prob (fun j => (quantizedEntry base low high eps j).prob) ∧
      ValueMethod b.batch d.logProb (fun j => (quantizedEntry base low high eps j).logProb) ∧
      ∀ (n : ℕ) (raw : BArr ℝ), raw.shape = n :: b.batch →
        PerEntry (d.sampleN (.arr raw)) (n :: b.batch)
          (fun i => (quantizedEntry base low high eps (proj b.batch i)).sample (raw.data i)) ∧
        (d.sampleNLP (.arr raw)).1 = d.sampleN (.arr raw) ∧
        PerEntry (d.sampleNLP (.arr raw)).2 (n :: b.batch)
          fun i => ((quantizedEntry base low high eps (proj b.batch i)).sampleAndLogProb (raw.data i)).2 := by
  set d : QuantA := ⟨b, low.map fun l => ⟨l.shape, fun i => (⌈l.data i⌉ : ℤ)⟩,
    high.map fun h => ⟨h.shape, fun i => (⌊h.data i⌋ : ℤ)⟩, eps⟩ with hd
  have hi : QuantA.init b low high eps = .ok d := by
    have h1 : ¬ (low.any fun l => b.batch.length < l.shape.length) = true := by
      rcases low with _ | a
      · simp
      · simp [BLe.length (hl a rfl)]
    have h2 : ¬ (high.any fun l => b.batch.length < l.shape.length) = true := by
      rcases high with _ | a
      · simp
      · simp [BLe.length (hh a rfl)]
    unfold QuantA.init
    rw [if_neg (by simpa using he), if_neg h1, if_neg h2]
  have w : d.Wf := by
    refine ⟨he, ?_, ?_, hp⟩
    · intro a ha
      rcases low with _ | l
      · simp [hd] at ha
      · simp only [hd, Option.map_some, Option.some.injEq] at ha
        subst ha; exact hl l rfl
    · intro a ha
      rcases high with _ | l
      · simp [hd] at ha
      · simp only [hd, Option.map_some, Option.some.injEq] at ha
        subst ha; exact hh l rfl
  have hent : ∀ T i, BLe b.batch T → InRange T i → d.entry base i = quantizedEntry base low high eps (proj b.batch i) := by
    intro T i hT hi
    have e1 : optAt d.low? i = (optAt low (proj b.batch i)).map fun l => ((⌈l⌉ : ℤ) : ℝ) := by
      rw [optAt_proj hl hT hi]; rcases low with _ | l <;> rfl
    have e2 : optAt d.high? i = (optAt high (proj b.batch i)).map fun l => ((⌊l⌋ : ℤ) : ℝ) := by
      rw [optAt_proj hh hT hi]; rcases high with _ | l <;> rfl
    have e3 : optAt d.eps? i = optAt eps (proj b.batch i) := (optAt_proj hp hT hi).symm
    unfold QuantA.entry quantizedEntry Quantized.init
    rw [e1, e2, e3]
  have hb' : EntryWise d.base base := hb
  refine ⟨d, hi, ?_, ?_, ?_, ?_, ?_, ?_, fun n raw hr => ?_⟩
  · exact valueMethod_of fun T x L f hT hx => (QuantA.cdf_ew w hb' hT hx).congr fun i hi => by rw [hent T i hT hi]
  · exact valueMethod_of fun T x L f hT hx => (QuantA.logCdf_ew w hb' hT hx).congr fun i hi => by rw [hent T i hT hi]
  · exact valueMethod_of fun T x L f hT hx => (QuantA.survival_ew w hb' hT hx).congr fun i hi => by rw [hent T i hT hi]
  · exact valueMethod_of fun T x L f hT hx => (QuantA.logSurvival_ew w hb' hT hx).congr fun i hi => by rw [hent T i hT hi]
  · exact valueMethod_of fun T x L f hT hx => (QuantA.prob_ew w hb' hT hx).congr fun i hi => by rw [hent T i hT hi]
  · exact valueMethod_of fun T x L f hT hx => (QuantA.logProb_ew w hb' hT hx).congr fun i hi => by rw [hent T i hT hi]
  · have hT : BLe b.batch (n :: b.batch) := BLe.lead _ _
    have hx : EW (n :: b.batch) (AE.arr raw) [n :: b.batch] (bget raw) := by
      have := @EW.arr _ (n :: b.batch) raw (by rw [hr]; exact BLe.refl _)
      rwa [hr] at this
    refine ⟨(QuantA.sampleN_ew (base := base) w hT hx).perEntry (fun u hu _ => hu _ (by simp)) fun i hi => ?_, rfl,
      (QuantA.sampleNLP_ew w hb' hT hx).perEntry (fun u hu _ => hu _ (by simp)) fun i hi => ?_⟩
    · rw [hent _ i hT hi, bget_full hr hi]
    · rw [hent _ i hT hi, bget_full hr hi]

/-- **C65** (Quantized): a base with a non-scalar event, or a cutoff of higher rank than the batch shape, is rejected; the
constructor accepts everything else. -/
theorem C65_quantized_rejects (b : BaseA) (low high eps : Option (BArr ℝ)) :
    QuantA.init b low high eps = .error .valueError ↔
      (b.event ≠ [] ∨ (∃ a, low = some a ∧ b.batch.length < a.shape.length) ∨
        ∃ a, high = some a ∧ b.batch.length < a.shape.length) := by
  have key : ∀ o : Option (BArr ℝ), (o.any fun l => decide (b.batch.length < l.shape.length)) = true ↔
      ∃ a, o = some a ∧ b.batch.length < a.shape.length := by
    rintro (_ | a) <;> simp
  unfold QuantA.init
  rw [← key low, ← key high]
  split_ifs with h1 h2 h3
  · exact ⟨fun _ => .inl h1, fun _ => rfl⟩
  · exact ⟨fun _ => .inr (.inl h2), fun _ => rfl⟩
  · exact ⟨fun _ => .inr (.inr h3), fun _ => rfl⟩
  · refine ⟨fun h => by simp at h, fun h => ?_⟩
    rcases h with h | h | h
    · exact absurd h h1
    · exact absurd h h2
    · exact absurd h h3

/-- **C65** (Quantized, a cutoff that does not broadcast).  Only the rank of a cutoff is checked.  A `low` of acceptable rank
whose shape does not broadcast to the batch shape is accepted by the constructor; then `cdf`, `log_cdf` and samples
raise, for every value. -/
theorem C65_quantized_bad_cutoff (b : BaseA) (low : BArr ℝ) (eps : Option (BArr ℝ)) (he : b.event = [])
    (hr : low.shape.length ≤ b.batch.length) (hbad : broadcastShapes low.shape b.batch ≠ some b.batch) :
    ∃ d, QuantA.init b (some low) none eps = .ok d ∧ ∀ v : BArr ℝ,
      (∃ e, d.cdf (.arr v) = Except.error e) ∧ (∃ e, d.logCdf (.arr v) = Except.error e) ∧
      (∃ e, d.sampleN (.arr v) = Except.error e) := by
  refine ⟨⟨b, some ⟨low.shape, fun i => (⌈low.data i⌉ : ℤ)⟩, none, eps⟩, ?_, fun v => ?_⟩
  · unfold QuantA.init
    rw [if_neg (by simpa using he), if_neg (by simpa using hr), if_neg (by simp)]
    rfl
  · have hlow : (AE.arr (⟨low.shape, fun i => ((⌈low.data i⌉ : ℤ) : ℝ)⟩ : BArr ℝ)).broadcastTo (b.batch ++ b.event)
        = Except.error .valueError := by
      rw [he, List.append_nil]
      exact if_neg hbad
    have hbin : ∀ (o : ℝ → ℝ → Prop) (y : BArr ℝ), AE.bin o (.arr y) (Except.error .valueError) = Except.error .valueError :=
      fun o y => rfl
    refine ⟨⟨.valueError, ?_⟩, ⟨.valueError, ?_⟩, ⟨.valueError, ?_⟩⟩
    · show AE.whr (AE.bin _ _ ((AE.arr _).broadcastTo _)) _ _ = _
      rw [hlow]; rfl
    · show AE.whr (AE.bin _ _ ((AE.arr _).broadcastTo _)) _ _ = _
      rw [hlow]; rfl
    · show AE.whr (AE.bin _ _ ((AE.arr _).broadcastTo _)) _ _ = _
      rw [hlow]; rfl

/-- The distribution of batch entry `j` of a clipped distribution. -/
noncomputable def Spec.clippedEntry (base : List ℕ → Base) (mn mx : BArr ℝ) (j : List ℕ) : Clipped :=
  Clipped.init (base j) (bget mn j) (bget mx j)

/-- **C65** (Clipped).  For a base acting entry by entry and boundaries that broadcast to its batch shape, the constructor
succeeds and `log_prob` and the samples are, entry by entry, those of the single-entry clipped distributions. -/
theorem C65_clipped (b : BaseA) (base : List ℕ → Base) (hb : EntryWise b base) (he : b.event = []) (mn mx : BArr ℝ)
    (hn : broadcastShapes mn.shape b.batch = some b.batch) (hx : broadcastShapes mx.shape b.batch = some b.batch) :
    ∃ d, ClippedA.init b mn mx = .ok d ∧
      ValueMethod b.batch d.logProb (fun j => (clippedEntry base mn mx j).logProb) ∧
      ∀ (n : ℕ) (raw : BArr ℝ), raw.shape = n :: b.batch →
        PerEntry (d.sampleN (.arr raw)) (n :: b.batch)
          (fun i => (clippedEntry base mn mx (proj b.batch i)).sample (raw.data i)) ∧
        (d.sampleNLP (.arr raw)).1 = d.sampleN (.arr raw) ∧
        PerEntry (d.sampleNLP (.arr raw)).2 (n :: b.batch)
          fun i => ((clippedEntry base mn mx (proj b.batch i)).sampleAndLogProb (raw.data i)).2 := by
  have hB := BLe.refl b.batch
  have bn : (AE.arr mn).broadcastTo b.batch = Except.ok ⟨b.batch, fun i => mn.data (proj mn.shape i)⟩ := if_pos hn
  have bx : (AE.arr mx).broadcastTo b.batch = Except.ok ⟨b.batch, fun i => mx.data (proj mx.shape i)⟩ := if_pos hx
  have hlo := EW.method hb.logCdf hB (EW.arr (BLe.left (b := b.batch) hn))
  have hhi := EW.method hb.logSurvival hB (EW.arr (BLe.left (b := b.batch) hx))
  obtain ⟨lo, e1, l1, l2, l3⟩ := hlo
  obtain ⟨hi, e2, h1, h2, h3⟩ := hhi
  have slo : lo.shape = b.batch := BLe.antisymm l1 (l2 _ (by simp))
  have shi : hi.shape = b.batch := BLe.antisymm h1 (h2 _ (by simp))
  set d : ClippedA := ⟨b, ⟨b.batch, fun i => mn.data (proj mn.shape i)⟩, ⟨b.batch, fun i => mx.data (proj mx.shape i)⟩, lo, hi⟩ with hd
  have hi' : ClippedA.init b mn mx = .ok d := by
    unfold ClippedA.init
    rw [if_neg (by simpa using he), if_neg (by
      have := BLe.length (show BLe mn.shape b.batch from hn)
      have := BLe.length (show BLe mx.shape b.batch from hx)
      omega), bn, bx]
    have e1' : b.logCdf (AE.arr mn) = Except.ok lo := e1
    have e2' : b.logSurvival (AE.arr mx) = Except.ok hi := e2
    rw [e1', e2']
  -- the stored arrays inside a larger expression
  have getp : ∀ (a : BArr ℝ) T i, BLe a.shape b.batch → BLe b.batch T → InRange T i → bget a (proj b.batch i) = bget a i := by
    intro a T i h1 h2 hi
    show a.data _ = a.data _
    rw [h1.proj (by rw [hi.length]; exact h2.length)]
  have en : ∀ T, BLe b.batch T → EW T (AE.arr d.minimum) [b.batch] fun i => bget mn (proj b.batch i) := fun T hT =>
    (EW.arr (a := d.minimum) hT).congr fun i _ => rfl
  have ex : ∀ T, BLe b.batch T → EW T (AE.arr d.maximum) [b.batch] fun i => bget mx (proj b.batch i) := fun T hT =>
    (EW.arr (a := d.maximum) hT).congr fun i _ => rfl
  have elo : ∀ T, BLe b.batch T → EW T (AE.arr d.logProbMinimum) [lo.shape] fun i =>
      (base (proj b.batch i)).logCdf (bget mn (proj b.batch i)) := fun T hT =>
    (EW.arr (a := d.logProbMinimum) (by rw [show d.logProbMinimum = lo from rfl, slo]; exact hT)).congr fun i hi => by
      show lo.data _ = _
      have := l3 _ (proj_inRange hT hi)
      rw [slo, hB.proj (by rw [hi.length]; exact hT.length)] at this
      rw [slo, this]
      show (base (proj b.batch (proj b.batch i))).logCdf _ = _
      rw [hB.proj (by rw [hi.length]; exact hT.length)]
  have ehi : ∀ T, BLe b.batch T → EW T (AE.arr d.logProbMaximum) [hi.shape] fun i =>
      (base (proj b.batch i)).logSurvival (bget mx (proj b.batch i)) := fun T hT =>
    (EW.arr (a := d.logProbMaximum) (by rw [show d.logProbMaximum = hi from rfl, shi]; exact hT)).congr fun i hi => by
      show BArr.data _ _ = _
      have := h3 _ (proj_inRange hT hi)
      rw [shi, hB.proj (by rw [hi.length]; exact hT.length)] at this
      rw [shi, this]
      show (base (proj b.batch (proj b.batch i))).logSurvival _ = _
      rw [hB.proj (by rw [hi.length]; exact hT.length)]
  have hlp : ∀ (T : List ℕ) (x : AE ℝ) L f, BLe b.batch T → EW T x L f →
      EW T (d.logProb x) (b.batch :: L) fun i => (clippedEntry base mn mx (proj b.batch i)).logProb (f i) := by
    intro T x L f hT hv
    have hbl : EW T (d.base.logProb x) (b.batch :: L) _ := EW.method hb.logProb hT hv
    have inner := (hv.bin (en T hT) (· = ·)).whr (elo T hT) ((hv.bin (ex T hT) (· = ·)).whr (ehi T hT) hbl)
    have outer := ((hv.bin (en T hT) (· < ·)).bin (hv.bin (ex T hT) (· > ·)) (· ∨ ·)).whr (EW.scalar XR.ninf) inner
    refine (outer.weaken (M := b.batch :: L) (by simp +contextual)).congr fun i _ => ?_
    simp only [clippedEntry, Clipped.logProb, Clipped.init]
    congr
  refine ⟨d, hi', valueMethod_of hlp, fun n raw hr => ?_⟩
  have hT : BLe b.batch (n :: b.batch) := BLe.lead _ _
  have hraw : EW (n :: b.batch) (AE.arr raw) [n :: b.batch] (bget raw) := by
    have := @EW.arr _ (n :: b.batch) raw (by rw [hr]; exact BLe.refl _)
    rwa [hr] at this
  have hs := ((hraw.bin (en _ hT) Max.max).bin (ex _ hT) Min.min)
  refine ⟨hs.perEntry (fun u hu _ => hu _ (by simp)) fun i hi => ?_, rfl,
    (hlp _ _ _ _ hT hs).perEntry (fun u hu _ => hu _ (by simp)) fun i hi => ?_⟩
  · rw [bget_full hr hi]; rfl
  · rw [bget_full hr hi]; rfl

/-- **C65** (Clipped): a base with a non-scalar event, boundaries of higher rank than the batch shape, and boundaries that do
not broadcast to the batch shape are all rejected with ValueError. -/
theorem C65_clipped_rejects (b : BaseA) (mn mx : BArr ℝ)
    (h : b.event ≠ [] ∨ broadcastShapes mn.shape b.batch ≠ some b.batch ∨ broadcastShapes mx.shape b.batch ≠ some b.batch) :
    ClippedA.init b mn mx = .error .valueError := by
  unfold ClippedA.init
  split_ifs with h1 h2
  · rfl
  · rfl
  · have bc : ∀ a : BArr ℝ, (AE.arr a).broadcastTo b.batch = Except.error .valueError ∨
        ∃ c, (AE.arr a).broadcastTo b.batch = Except.ok c := by
      intro a
      by_cases hb : broadcastShapes a.shape b.batch = some b.batch
      · exact .inr ⟨_, if_pos hb⟩
      · exact .inl (if_neg hb)
    rcases h with h | h | h
    · exact absurd h h1
    · have : (AE.arr mn).broadcastTo b.batch = Except.error .valueError := if_neg h
      rw [this]
    · have hmx : (AE.arr mx).broadcastTo b.batch = Except.error .valueError := if_neg h
      rcases bc mn with hm | ⟨c, hm⟩
      · rw [hm]
      · rw [hm, hmx]

theorem PerEntry.ext {x : AE ℝ} {t : List ℕ} {f : List ℕ → ℝ} (h : PerEntry x t f) :
    PerEntry x.ext t fun i => .fin (f i) := by
  obtain ⟨a, rfl, h1, h2⟩ := h
  exact ⟨⟨a.shape, fun i => .fin (a.data i)⟩, rfl, h1, fun i hi => congrArg _ (h2 i hi)⟩

theorem OfValue.method {d : P2} (hd : d.Wf) {m : AE ℝ → AE ℝ} {f : ℝ → ℝ → ℝ → ℝ} (h : OfValue d m f) :
    ValueMethod d.batch m (fun j x => f (bget d.p j) (bget d.q j) x) ∧
    ValueMethod d.batch (fun v => (m v).ext) (fun j x => .fin (f (bget d.p j) (bget d.q j) x)) := by
  have key : ValueMethod d.batch m (fun j x => f (bget d.p j) (bget d.q j) x) := by
    intro v t ht
    obtain ⟨a, h0, h1, h2⟩ := h v t ht
    refine ⟨a, h0, h1, fun i hi => ?_⟩
    rw [h2 i hi]
    have hl : d.batch.length ≤ i.length := by rw [hi.length]; exact (BLe.left ht).length
    show f (d.p.data _) (d.q.data _) _ = f (d.p.data _) (d.q.data _) _
    rw [hd.le_p.proj hl, hd.le_q.proj hl]
  exact ⟨key, fun v t ht => PerEntry.ext (key v t ht)⟩

/-- **C65** (instances): batched Normal and Logistic distributions act entry by entry, so the theorems above apply to
quantized and clipped Normals and Logistics, in particular to `ClippedNormal` and `ClippedLogistic`. -/
theorem C65_normal_entrywise (p q : BArr ℝ) (d : P2) (h : P2.init p q = .ok d) :
    EntryWise (NormalA.base d) (fun j => Normal.toBase ⟨bget p j, bget q j⟩) ∧
    EntryWise (LogisticA.base d) (fun j => Logistic.toBase ⟨bget p j, bget q j⟩) := by
  obtain ⟨-, -, -, -, -, -, n1, -, n2, n3, n4, n5, -⟩ := C58_normal p q d h
  obtain ⟨-, -, -, -, -, -, l1, -, l2, l3, l4, l5, -⟩ := C58_logistic p q d h
  obtain ⟨rfl, rfl, hd⟩ := P2.init_wf h
  exact ⟨⟨(OfValue.method hd n1).2, (OfValue.method hd n2).1, (OfValue.method hd n4).1, (OfValue.method hd n3).2,
      (OfValue.method hd n5).2⟩,
    ⟨(OfValue.method hd l1).2, (OfValue.method hd l2).1, (OfValue.method hd l4).1, (OfValue.method hd l3).2,
      (OfValue.method hd l5).2⟩⟩

/-- **C65** (ClippedNormal, ClippedLogistic): each entry is the single-entry constructor applied to that entry's parameters. -/
theorem C65_clipped_normal (p q mn mx : BArr ℝ) (B : List ℕ) (hB : broadcastShapes p.shape q.shape = some B)
    (hn : broadcastShapes mn.shape B = some B) (hx : broadcastShapes mx.shape B = some B) :
    (∃ d, ClippedA.clippedNormal p q mn mx = .ok d ∧
      ValueMethod B d.logProb fun j => (Clipped.clippedNormal (bget p j) (bget q j) (bget mn j) (bget mx j)).logProb) ∧
    ∃ d, ClippedA.clippedLogistic p q mn mx = .ok d ∧
      ValueMethod B d.logProb fun j => (Clipped.clippedLogistic (bget p j) (bget q j) (bget mn j) (bget mx j)).logProb := by
  have hi : P2.init p q = .ok ⟨p, q, B⟩ := (C58_init p q).1 B hB
  obtain ⟨e1, e2⟩ := C65_normal_entrywise p q _ hi
  obtain ⟨d1, k1, k2, -⟩ := C65_clipped _ _ e1 rfl mn mx hn hx
  obtain ⟨d2, k3, k4, -⟩ := C65_clipped _ _ e2 rfl mn mx hn hx
  refine ⟨⟨d1, ?_, k2⟩, ⟨d2, ?_, k4⟩⟩
  · simp only [ClippedA.clippedNormal, hi]; exact k1
  · simp only [ClippedA.clippedLogistic, hi]; exact k3

/-- A batch of three Normals quantized with a scalar lower and a batched upper cutoff. -/
example : ∃ d, QuantA.init (NormalA.base ⟨⟨[3], fun _ => 0⟩, ⟨[], fun _ => 1⟩, [3]⟩) (some ⟨[], fun _ => -2⟩)
    (some ⟨[3], fun i => i.headD 0⟩) none = .ok d :=
  let ⟨d, h, _⟩ := C65_quantized _ _ (C65_normal_entrywise ⟨[3], fun _ => 0⟩ ⟨[], fun _ => 1⟩ _ rfl).1 rfl (some ⟨[], fun _ => -2⟩)
    (some ⟨[3], fun i => i.headD 0⟩) none (fun a ha => by cases ha; rfl) (fun a ha => by cases ha; rfl) (fun a ha => by cases ha)
  ⟨d, h⟩

/-- A base batch of shape `(1,)` with a `low` of shape `(3,)`: the rank is fine, the shape is not. -/
example : ∃ d, QuantA.init (NormalA.base ⟨⟨[1], fun _ => 0⟩, ⟨[], fun _ => 1⟩, [1]⟩) (some ⟨[3], fun i => i.headD 0⟩) none none
      = .ok d ∧ (∃ e, d.cdf (.arr ⟨[], fun _ => 0⟩) = Except.error e) :=
  let ⟨d, h, k⟩ := C65_quantized_bad_cutoff (NormalA.base ⟨⟨[1], fun _ => 0⟩, ⟨[], fun _ => 1⟩, [1]⟩) ⟨[3], fun i => i.headD 0⟩ none
    rfl (by decide) (by decide)
  ⟨d, h, (k _).1⟩

end Distrax
