import Verif.Lemmas.CatUniArr

/-! # C65: CategoricalUniform on whole arrays -/

namespace Distrax

open Spec XR

/-- The distribution of one batch entry: its own limits and its own row of logits. -/
noncomputable def Spec.catUniformEntry (low high : BArr ℝ) (logits : BArr XR) (K : ℕ) (i : List ℕ) : CatUniform K :=
  ⟨bget low i, bget high i, brow logits K i⟩

namespace CatUniA
variable {d : CatUniA} {B s : List ℕ} {K : ℕ}

theorem entry_proj (w : d.Wf B s K) {t i : List ℕ} (ht : BLe B t) (hi : InRange t i) : d.entry K (proj B i) = d.entry K i := by
  have hl : B.length ≤ i.length := by rw [hi.length]; exact ht.length
  have h1 : bget d.low_ (proj B i) = bget d.low_ i := by
    show d.low_.data _ = d.low_.data _
    rw [w.les.1.proj hl]
  have h2 : bget d.high_ (proj B i) = bget d.high_ i := by
    show d.high_.data _ = d.high_.data _
    rw [w.les.2.1.proj hl]
  have h3 : brow d.logits_ K (proj B i) = brow d.logits_ K i := by
    funext k
    show d.logits_.data _ = d.logits_.data _
    have hs : s.length ≤ B.length := w.les.2.2.length
    rw [w.shape, proj_append2 (by simp) (by rw [proj_length hl]; exact hs), proj_append2 (by simp) (by omega), w.les.2.2.proj hl]
  unfold entry
  rw [h1, h2, h3]

/-- The mixture the methods build. -/
theorem mixture_ok (w : d.Wf B s K) : ∃ m lp mu var, d.mixture = .ok m ∧ m.Wf B K ∧ m.comp.event = [] ∧
    ∃ hc : m.comp.event = [], RowWise m.comp lp mu var ∧
    (∀ i, InRange B i → ∀ (k : Fin K) v, lp (i ++ [(k : ℕ)]) v = ((d.entry K i).comp k).logProb (v ⟨[], hc ▸ List.Forall₂.nil⟩)) ∧
    (∀ i, InRange B i → ∀ (k : Fin K) e, mu (i ++ [(k : ℕ)]) e = ((d.entry K i).comp k).mean) ∧
    (∀ i, InRange B i → ∀ (k : Fin K) e, var (i ++ [(k : ℕ)]) e = ((d.entry K i).comp k).variance) ∧
    ∀ t i, BLe B t → InRange t i → m.mix.row K i = (d.entry K i).cat := by
  have hB := BLe.refl B
  have hlim := w.limits hB
  obtain ⟨lo, s1, e1, l2, l3, l4, l5⟩ := hlim.initLast
  obtain ⟨hi, s2, e2, h2, h3, h4, h5⟩ := hlim.tailLast
  obtain rfl : B = s1 := BLe.antisymm (l4 _ (by simp)) l3
  obtain rfl : B = s2 := BLe.antisymm (h4 _ (by simp)) h3
  obtain ⟨lg, s3, e3, g2, g3, g4, g5⟩ := w.logits hB
  obtain rfl : B = s3 := BLe.antisymm (g4 _ (by simp)) g3
  have hu : P2.init lo hi = .ok ⟨lo, hi, B ++ [K]⟩ := (C58_init lo hi).1 _ (by rw [l2, h2]; exact broadcastShapes_self _)
  have hs : ∀ a, some lg = some a ∨ (none : Option (BArr XR)) = some a → a.shape = B ++ [K] := by
    rintro a (h | h)
    · cases h; exact g2
    · cases h
  obtain ⟨c, hcat⟩ := CatA.init_logits_ok (CatA.Rows.arr g2)
  obtain ⟨wc, hr⟩ := CatA.init_rows (some lg) none .integer B K c hs hcat
  obtain ⟨a, s, q1, -⟩ := (wc.logits_ew hB).mapLast fun _ r => logSoftmax r
  have q1' : c.logits.logSoftmaxA = .ok a := q1
  have hbs : c.batchShape = (UniformA.comp ⟨lo, hi, B ++ [K]⟩).batch.dropLast := by
    rw [(CatA.rowwise wc).batchShape]
    simp [UniformA.comp]
  refine ⟨⟨c, UniformA.comp ⟨lo, hi, B ++ [K]⟩, a⟩, _, _, _, ?_, ⟨wc, rfl, q1'⟩, rfl, rfl, uniform_rowwise lo hi _ hu, ?_, ?_, ?_, ?_⟩
  · have e1' : d.limits.initLast = Except.ok lo := e1
    have e2' : d.limits.tailLast = Except.ok hi := e2
    simp only [CatUniA.mixture, e1', e2', hu, e3, hcat]
    simp [MixA.init, q1', hbs]
  · intro i hi' k v
    have a1 : bget lo (i ++ [(k : ℕ)]) = (d.entry K i).limits k := by
      show lo.data _ = _
      rw [l2, proj_append (inRange_fin k) (by rw [hi'.length])]
      exact l5 i _ hi' (inRange_fin k)
    have a2 : bget hi (i ++ [(k : ℕ)]) = (d.entry K i).limits (k + 1) := by
      show hi.data _ = _
      rw [h2, proj_append (inRange_fin k) (by rw [hi'.length])]
      exact h5 i _ hi' (inRange_fin k)
    simp only [a1, a2]
    rfl
  · intro i hi' k v
    have a1 : bget lo (i ++ [(k : ℕ)]) = (d.entry K i).limits k := by
      show lo.data _ = _
      rw [l2, proj_append (inRange_fin k) (by rw [hi'.length])]
      exact l5 i _ hi' (inRange_fin k)
    have a2 : bget hi (i ++ [(k : ℕ)]) = (d.entry K i).limits (k + 1) := by
      show hi.data _ = _
      rw [h2, proj_append (inRange_fin k) (by rw [hi'.length])]
      exact h5 i _ hi' (inRange_fin k)
    simp only [a1, a2]
    rfl
  · intro i hi' k v
    have a1 : bget lo (i ++ [(k : ℕ)]) = (d.entry K i).limits k := by
      show lo.data _ = _
      rw [l2, proj_append (inRange_fin k) (by rw [hi'.length])]
      exact l5 i _ hi' (inRange_fin k)
    have a2 : bget hi (i ++ [(k : ℕ)]) = (d.entry K i).limits (k + 1) := by
      show hi.data _ = _
      rw [h2, proj_append (inRange_fin k) (by rw [hi'.length])]
      exact h5 i _ hi' (inRange_fin k)
    simp only [a1, a2]
    rfl
  · intro t i ht hi'
    have hp := proj_inRange ht hi'
    have := hr t i ht hi'
    simp only [Cat.init, Option.map_some, Option.map_none] at this
    rw [if_neg (by simp), if_neg (by simp)] at this
    have hrow : brow lg K i = brow d.logits_ K i := by
      rw [show brow d.logits_ K i = (d.entry K i).logits from rfl, ← entry_proj w ht hi']
      funext k
      show lg.data _ = _
      rw [g2, proj_append (inRange_fin k) (by rw [hi'.length]; exact ht.length)]
      have := g5 (proj B i) [(k : ℕ)] hp (inRange_fin k)
      rw [hB.proj (by rw [hi'.length]; exact ht.length)] at this
      exact this
    rw [← Except.ok.inj this, hrow]
    rfl

theorem logProb_row (w : d.Wf B s K) : ∀ (v : BArr ℝ) (t : List ℕ), broadcastShapes B v.shape = some t →
    PerEntry (d.logProb (.arr v)) t fun i => (d.entry K i).logProb (bget v i) := by
  intro v t ht
  obtain ⟨m, lp, mu, var, hm, hw, he, hc, hr, h1, -, -, h4⟩ := mixture_ok w
  obtain ⟨a, q0, q1, q2⟩ := MixA.logProb_row hw hr v v.shape (by rw [he, List.append_nil]) ht
  refine ⟨a, ?_, q1, fun i hi => ?_⟩
  · simp only [CatUniA.logProb, viaMixture, hm]; exact q0
  · rw [q2 i hi]
    show (mixRow (m.mix.row K i) lp mu var (proj B i)).logProb _ = _
    rw [h4 t i (BLe.left ht) hi]
    have hp := proj_inRange (BLe.left ht) hi
    have ep := entry_proj w (BLe.left ht) hi
    simp only [CatUniform.logProb, CatUniform.mixture, MixtureSameFamily.logProb, mixRow, MixtureSameFamily.init]
    congr 1
    funext k
    rw [h1 _ hp k, ep]
    congr 2
    show bget v (i ++ []) = _
    rw [List.append_nil]

theorem idxNil {e : List ℕ} (he : e = []) (k : Idx e) : k.1 = [] := by
  subst he
  have := k.2
  revert this
  rcases k.1 with _ | _ <;> intro hh <;> [rfl; cases hh]

theorem mean_row (w : d.Wf B s K) : PerEntry d.mean B fun i => (d.entry K i).mean := by
  obtain ⟨m, lp, mu, var, hm, hw, he, hc, hr, -, h2, h3, h4⟩ := mixture_ok w
  obtain ⟨a, q0, q1, q2⟩ := MixA.mean_row hw hr
  refine ⟨a, ?_, by rw [q1, he, List.append_nil], fun i hi => ?_⟩
  · simp only [CatUniA.mean, viaMixture, hm]; exact q0
  · have := q2 i hi ⟨[], he ▸ List.Forall₂.nil⟩
    simp only [List.append_nil] at this
    rw [this, h4 B i (BLe.refl B) hi]
    simp only [CatUniform.mean, CatUniform.mixture, MixtureSameFamily.mean, mixRow, MixtureSameFamily.init, MixtureSameFamily.weights]
    exact Finset.sum_congr rfl fun k _ => by rw [h2 i hi k]

theorem variance_row (w : d.Wf B s K) : PerEntry d.variance B fun i => (d.entry K i).variance := by
  obtain ⟨m, lp, mu, var, hm, hw, he, hc, hr, -, h2, h3, h4⟩ := mixture_ok w
  obtain ⟨a, q0, q1, q2⟩ := MixA.variance_row hw hr
  refine ⟨a, ?_, by rw [q1, he, List.append_nil], fun i hi => ?_⟩
  · simp only [CatUniA.variance, viaMixture, hm]; exact q0
  · have := q2 i hi ⟨[], he ▸ List.Forall₂.nil⟩
    simp only [List.append_nil] at this
    rw [this, h4 B i (BLe.refl B) hi]
    simp only [CatUniform.variance, CatUniform.mixture, MixtureSameFamily.variance, mixRow, MixtureSameFamily.init, MixtureSameFamily.weights, h2 i hi, h3 i hi]

theorem entropy_row (w : d.Wf B s K) : PerEntry d.entropy B fun i => (d.entry K i).entropy := by
  obtain ⟨m, lp, mu, var, hm, hw, he, hc, hr, -, h2, h3, h4⟩ := mixture_ok w
  obtain ⟨a, q0, q1, q2⟩ := (CatA.rowwise hw.mix).entropy
  have hB := BLe.refl B
  have ha : EW B (AE.arr a) [a.shape] (bget a) := EW.arr (by rw [q1]; exact hB)
  have hd := (((EW.arr w.les.2.1).sub (EW.arr w.les.1)).div (EW.scalar (K : ℝ))).xlog
  have hf : d.entropy = AE.arr a + ((AE.arr d.high_ - AE.arr d.low_) / AE.scalar (K : ℝ)).xlog := by
    simp only [CatUniA.entropy, viaMixture, hm, q0, w.num]
  rw [hf]
  refine (ha.add hd).perEntry (fun u hu _ => by have := hu a.shape (by simp); rwa [q1] at this) fun i hi => ?_
  rw [bget_full q1 hi, q2 i hi]
  show (m.mix.row K i).entropy + _ = _
  rw [h4 B i hB hi]
  rfl

end CatUniA

/-- **C65** (CategoricalUniform).  When `low`, `high` and the leading axes of `logits` broadcast to a common shape `B` (and there
is at least one bin), the batch shape is `B` and every method acts entry by entry: `log_prob` on the broadcast of batch and
value, `mean`, `variance` and `entropy` with shape `B`, samples with shape `(n,) + B`, each entry using its own limits and
its own row of logits. -/
theorem C65_categorical_uniform (low high : BArr ℝ) (logits : BArr XR) (B0 B s : List ℕ) (K : ℕ) (hK : 0 < K)
    (hs : logits.shape = s ++ [K]) (h0 : broadcastShapes low.shape high.shape = some B0) (h1 : broadcastShapes B0 s = some B) :
    ∃ d, CatUniA.init low high logits = .ok d ∧ d.batchShape = .ok B ∧ d.numBins = K ∧
      (∀ (v : BArr ℝ) (t : List ℕ), broadcastShapes B v.shape = some t →
        PerEntry (d.logProb (.arr v)) t fun i => (catUniformEntry low high logits K i).logProb (bget v i)) ∧
      PerEntry d.mean B (fun i => (catUniformEntry low high logits K i).mean) ∧
      PerEntry d.variance B (fun i => (catUniformEntry low high logits K i).variance) ∧
      PerEntry d.entropy B (fun i => (catUniformEntry low high logits K i).entropy) ∧
      ∀ (n : ℕ) (u : BArr ℝ), u.shape = n :: B →
        PerEntry (d.sampleN (.arr u)) (n :: B) fun i => (catUniformEntry low high logits K i).sample (u.data i) := by
  have w : CatUniA.Wf ⟨low, high, logits⟩ B s K := by
    refine ⟨hs, ?_, hK⟩
    simp only [CatUniA.batchShape, h0, hs, List.dropLast_concat, h1]
  refine ⟨⟨low, high, logits⟩, ?_, w.batch, w.num, CatUniA.logProb_row w, CatUniA.mean_row w, CatUniA.variance_row w,
    CatUniA.entropy_row w, fun n u hu => ?_⟩
  · unfold CatUniA.init
    rw [if_neg (by rw [hs]; simp)]
  · have hT : BLe B (n :: B) := BLe.lead _ _
    have hraw : EW (n :: B) (AE.arr u) [n :: B] (bget u) := by
      have := @EW.arr _ (n :: B) u (by rw [hu]; exact BLe.refl _)
      rwa [hu] at this
    refine (w.inverseCdf hT hraw).perEntry (fun v hv _ => hv _ (by simp)) fun i hi => ?_
    rw [bget_full hu hi]
    rfl

/-- **C65** (CategoricalUniform): scalar `logits` are rejected, and nothing else is: when the three shapes do not broadcast, the
constructor succeeds and every method, and `batch_shape` itself, raises ValueError. -/
theorem C65_categorical_uniform_rejects (low high : BArr ℝ) (logits : BArr XR) :
    (logits.shape = [] → CatUniA.init low high logits = .error .valueError) ∧
    ∀ s K, logits.shape = s ++ [K] →
      (∀ B0 B, broadcastShapes low.shape high.shape = some B0 → broadcastShapes B0 s ≠ some B) →
      ∃ d, CatUniA.init low high logits = .ok d ∧ d.batchShape = .error .valueError ∧
        (∀ v, d.logProb v = Except.error .valueError) ∧ d.mean = Except.error .valueError ∧
        d.variance = Except.error .valueError ∧ d.entropy = Except.error .valueError ∧
        ∀ u, d.sampleN u = Except.error .valueError := by
  refine ⟨fun h => by simp [CatUniA.init, h], fun s K hs hbad => ?_⟩
  have hb : CatUniA.batchShape ⟨low, high, logits⟩ = .error .valueError := by
    simp only [CatUniA.batchShape, hs, List.dropLast_concat]
    split
    · rfl
    · next b hb =>
      split
      · rfl
      · next t ht => exact absurd ht (hbad b t hb)
  have hl : CatUniA.low ⟨low, high, logits⟩ = Except.error .valueError := by
    simp only [CatUniA.low, CatUniA.toBatch, hb]
    rfl
  have hm : CatUniA.mixture ⟨low, high, logits⟩ = .error .valueError := by
    have : CatUniA.limits ⟨low, high, logits⟩ = Except.error .valueError := by
      unfold CatUniA.limits AE.linspaceLast
      rw [hl]
      rfl
    unfold CatUniA.mixture
    rw [this]
    rfl
  refine ⟨⟨low, high, logits⟩, ?_, hb, fun v => ?_, ?_, ?_, ?_, fun u => ?_⟩
  · unfold CatUniA.init
    rw [if_neg (by rw [hs]; simp)]
  · simp only [CatUniA.logProb, CatUniA.viaMixture, hm]; rfl
  · simp only [CatUniA.mean, CatUniA.viaMixture, hm]; rfl
  · simp only [CatUniA.variance, CatUniA.viaMixture, hm]; rfl
  · simp only [CatUniA.entropy, CatUniA.viaMixture, hm]; rfl
  · unfold CatUniA.sampleN CatUniA.inverseCdf
    rw [hl]
    rfl

/-- A scalar lower limit, a batch of upper limits and three bins. -/
example : ∃ d, CatUniA.init ⟨[], fun _ => 0⟩ ⟨[2, 1], fun i => 1 + i.headD 0⟩ ⟨[4, 3], fun _ => 0⟩ = .ok d ∧ d.batchShape = .ok [2, 4] :=
  let ⟨d, h, h', _⟩ := C65_categorical_uniform ⟨[], fun _ => 0⟩ ⟨[2, 1], fun i => 1 + i.headD 0⟩ ⟨[4, 3], fun _ => 0⟩ [2, 1] [2, 4] [4] 3
    (by norm_num) rfl (by decide) (by decide)
  ⟨d, h, h'⟩

end Distrax
