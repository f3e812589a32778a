import Verif.Lemmas.VecArr

/-!
# C64: vector-parameter families act row by row (Categorical, OneHotCategorical and the policies)

For parameters of any shape `B + (K,)` and values of any shape that broadcasts with `B`, every array method equals, at
each batch position, the single-row method (`Model/Categorical`) of the distribution built from the row of parameters that
broadcasting assigns to that position.
-/

namespace Distrax

open Spec XR

noncomputable section

namespace CatA

/-- The single-row distribution at batch position `i`. -/
def row (d : CatA) (K : ℕ) (i : List ℕ) : Cat K := ⟨d.probs?.map fun a => brow a K i, d.logits?.map fun a => brow a K i⟩

/-- Exactly one parameter array, of shape `B + (K,)`. -/
def Wf (d : CatA) (B : List ℕ) (K : ℕ) : Prop :=
  (∃ a, d = ⟨none, some a⟩ ∧ a.shape = B ++ [K]) ∨ ∃ a, d = ⟨some a, none⟩ ∧ a.shape = B ++ [K]

variable {d : CatA} {B t : List ℕ} {K : ℕ}

theorem Wf.num (h : d.Wf B K) : d.numCategories = K := by
  rcases h with ⟨a, rfl, ha⟩ | ⟨a, rfl, ha⟩ <;> simp [numCategories, ha]

theorem Wf.logits_ew (h : d.Wf B K) (hB : BLe B t) :
    EWT t [K] d.logits [B] fun i k => atK (d.row K i).logits k := by
  rcases h with ⟨a, rfl, ha⟩ | ⟨a, rfl, ha⟩
  · refine (EWT.arr ha hB).congr fun i k hi hk => ?_
    obtain ⟨j, rfl⟩ := inRange_one_iff.1 hk
    rw [atK_fin]; rfl
  · refine ((EWT.arr ha hB).map XR.log).congr fun i k hi hk => ?_
    obtain ⟨j, rfl⟩ := inRange_one_iff.1 hk
    rw [atK_fin]; rfl

theorem Wf.probs_ew (h : d.Wf B K) (hB : BLe B t) :
    EWT t [K] d.probs [B] fun i k => atK (d.row K i).probs k := by
  rcases h with ⟨a, rfl, ha⟩ | ⟨a, rfl, ha⟩
  · refine ((EWT.arr ha hB).mapLast fun _ r => xsoftmax r).congr fun i k hi hk => ?_
    obtain ⟨j, rfl⟩ := inRange_one_iff.1 hk
    rw [atK_fin, atK_fin]; rfl
  · refine (EWT.arr ha hB).congr fun i k hi hk => ?_
    obtain ⟨j, rfl⟩ := inRange_one_iff.1 hk
    rw [atK_fin]; rfl

/-- The row read by `mode`. -/
def _root_.Distrax.Cat.par {K : ℕ} (d : Cat K) : Fin K → XR :=
  match d.logits?, d.probs? with
  | none, some p => p
  | some l, _ => l
  | none, none => fun _ => nan

theorem Wf.parameter_ew (h : d.Wf B K) (hB : BLe B t) :
    EWT t [K] d.parameter [B] fun i k => atK (d.row K i).par k := by
  rcases h with ⟨a, rfl, ha⟩ | ⟨a, rfl, ha⟩ <;>
  · refine (EWT.arr ha hB).congr fun i k hi hk => ?_
    obtain ⟨j, rfl⟩ := inRange_one_iff.1 hk
    rw [atK_fin]; rfl

theorem ew_entry {α : Type} {x : AE α} {L : List (List ℕ)} {f g : List ℕ → α} {v : List ℕ} (h : EW t x L f)
    (ht : broadcastShapes B v = some t) (hB : B ∈ L) (hv : v ∈ L) (hfg : ∀ i, InRange t i → f i = g i) : PerEntry x t g :=
  h.perEntry (fun _ hu _ => BLe.join ht (hu B hB) (hu v hv)) hfg

theorem ew_batch {α : Type} {x : AE α} {L : List (List ℕ)} {f g : List ℕ → α} (h : EW B x L f)
    (hB : B ∈ L) (hfg : ∀ i, InRange B i → f i = g i) : PerEntry x B g :=
  h.perEntry (fun _ hu _ => hu B hB) hfg

theorem logProb_row (h : d.Wf B K) (v : BArr XR) (ht : broadcastShapes B v.shape = some t) :
    PerEntry (d.logProb (.arr v)) t fun i => (d.row K i).logProb (bget v i) := by
  have hB := BLe.left ht
  have hv : EW t (AE.arr v) [v.shape] (bget v) := EW.arr (BLe.right ht)
  have hs := ((h.logits_ew hB).bin (hv.oneHotLast K) multiplyNoNan).reduceLast0 fun _ r => ∑ k, r k
  have hm : EW t _ _ _ := (hv.map fun v => ltB v 0).bin (hv.map fun v => ltB (fin ((K : ℝ) - 1)) v) Or
  have := (hm.whr (EW.scalar ninf) hs)
  rw [show d.logProb (.arr v) = _ from by rw [logProb, h.num]]
  refine ew_entry this ht (by simp) (by simp) fun i hi => ?_
  simp only [Cat.logProb, atK_fin]
  congr

theorem prob_row (h : d.Wf B K) (v : BArr XR) (ht : broadcastShapes B v.shape = some t) :
    PerEntry (d.prob (.arr v)) t fun i => (d.row K i).prob (bget v i) := by
  have hB := BLe.left ht
  have hv : EW t (AE.arr v) [v.shape] (bget v) := EW.arr (BLe.right ht)
  have hs := ((h.probs_ew hB).bin (hv.oneHotLast K) multiplyNoNan).reduceLast0 fun _ r => ∑ k, r k
  rw [show d.prob (.arr v) = _ from by rw [prob, h.num]]
  refine ew_entry hs ht (by simp) (by simp) fun i hi => ?_
  simp only [Cat.prob, atK_fin]

theorem cdf_row (h : d.Wf B K) (v : BArr XR) (ht : broadcastShapes B v.shape = some t) :
    PerEntry (d.cdf (.arr v)) t fun i => (d.row K i).cdf (bget v i) := by
  have hB := BLe.left ht
  have hv : EW t (AE.arr v) [v.shape] (bget v) := EW.arr (BLe.right ht)
  have hc := hv.map fun v => Cat.xclip v 0 (fin ((K : ℝ) - 1))
  have hs := (((h.probs_ew hB).mapLast fun _ r => xcumsum r).bin (hc.oneHotLast K) multiplyNoNan).reduceLast0
    fun _ r => ∑ k, r k
  have := (hv.map fun v => ltB v 0).whr (EW.scalar 0)
    ((hv.map fun v => leB (fin ((K : ℝ) - 1)) v).whr (EW.scalar 1) hs)
  rw [show d.cdf (.arr v) = _ from by rw [cdf, h.num]]
  refine ew_entry this ht (by simp) (by simp) fun i hi => ?_
  simp only [Cat.cdf, atK_fin]

theorem logCdf_row (h : d.Wf B K) (v : BArr XR) (ht : broadcastShapes B v.shape = some t) :
    PerEntry (d.logCdf (.arr v)) t fun i => (d.row K i).logCdf (bget v i) := by
  obtain ⟨a, h1, h2, h3⟩ := cdf_row h v ht
  refine ⟨⟨a.shape, fun i => XR.log (a.data i)⟩, ?_, h2, fun i hi => ?_⟩
  · rw [logCdf, h1]; rfl
  · exact congrArg XR.log (h3 i hi)

theorem entropy_row (h : d.Wf B K) : PerEntry d.entropy B fun i => (d.row K i).entropy := by
  rcases h with ⟨a, rfl, ha⟩ | ⟨a, rfl, ha⟩
  · have hl := (EWT.arr ha (BLe.refl B)).mapLast fun _ r => logSoftmax r
    refine ew_batch ((hl.bin hl mulExp).reduceLast0 fun _ r => ∑ k, r k).neg (by simp) fun i hi => ?_
    simp only [atK_fin]; rfl
  · have hl := (EWT.arr ha (BLe.refl B)).map XR.log
    refine ew_batch ((hl.bin hl mulExp).reduceLast0 fun _ r => ∑ k, r k).neg (by simp) fun i hi => ?_
    rfl

theorem mode_row (h : d.Wf B (K + 1)) : PerEntry d.mode B fun i => ((d.row (K + 1) i).mode : ℕ) := by
  refine ew_batch (h.parameter_ew (BLe.refl B)).argmaxLast (by simp) fun i hi => ?_
  simp only [atK_fin]
  rcases h with ⟨a, rfl, ha⟩ | ⟨a, rfl, ha⟩ <;> rfl

theorem kl_row {d1 d2 : CatA} {B1 B2 : List ℕ} (h1 : d1.Wf B1 K) (h2 : d2.Wf B2 K)
    (ht : broadcastShapes B1 B2 = some t) :
    ∃ f : List ℕ → XR, PerEntry (kl d1 d2) t f ∧
      ∀ i, InRange t i → Cat.kl (d1.row K i) (d2.row K i) = .ok (f i) := by
  have e1 := (h1.logits_ew (BLe.left ht)).mapLast fun _ r => logSoftmax r
  have e2 := (h2.logits_ew (BLe.right ht)).mapLast fun _ r => logSoftmax r
  have hs := ((e1.bin e2 (· - ·)).bin e1 mulExp).reduceLast0 fun _ r => ∑ k, r k
  have hK : d1.logits.shape.getLast?.getD 0 = d2.logits.shape.getLast?.getD 0 := by
    obtain ⟨a, s, q1, q2, -⟩ := h1.logits_ew (BLe.refl _)
    obtain ⟨a', s', q1', q2', -⟩ := h2.logits_ew (BLe.refl _)
    rw [q1, q1']
    show a.shape.getLast?.getD 0 = a'.shape.getLast?.getD 0
    rw [q2, q2']
    simp
  have hk : kl d1 d2 = AE.sumLast (AE.mulExpA (d1.logits.logSoftmaxA - d2.logits.logSoftmaxA) d1.logits.logSoftmaxA) :=
    if_neg (not_not.2 hK)
  refine ⟨_, ew_entry (x := kl d1 d2) (by rw [hk]; exact hs) ht (by simp) (by simp) fun i hi => rfl, fun i hi => ?_⟩
  simp only [Cat.kl, atK_fin]
  simp

theorem sample_row (h : d.Wf B (K + 1)) (n : ℕ) (g : BArr ℝ) (hg : g.shape = n :: (B ++ [K + 1])) :
    PerEntry (d.sampleN ((AE.arr g).map fin)) (n :: B) fun i => (d.row (K + 1) i).sample (brow g (K + 1) i) := by
  have hB : BLe B (n :: B) := by
    have := (BLe.nil [n]).appendRight B
    simpa using this
  have hgw := (EWT.arr (t := n :: B) (e := [K + 1]) (s := n :: B) (a := g) (by simpa using hg) (BLe.refl _)).map fin
  have hd := ((hgw.bin (h.logits_ew hB) (· + ·)).argmaxLast).map fun k : ℕ => (k : ℤ)
  have hp := h.probs_ew hB
  have hv := (hp.reduceLast0 fun _ r => ∀ k, isFinite (r k)).bin (hp.reduceLast0 fun _ r => ∀ k, leB 0 (r k)) And
  refine (hv.whr hd (hd.fullLike (-1))).perEntry (fun u hu _ => hu _ (by simp)) fun i hi => ?_
  have hiff : ((∀ k : Fin (K + 1), isFinite (atK (d.row (K + 1) i).probs [(k : ℕ)])) ∧
      ∀ k : Fin (K + 1), leB 0 (atK (d.row (K + 1) i).probs [(k : ℕ)])) ↔ (d.row (K + 1) i).isValid := by
    simp only [atK_fin]; rfl
  simp only [atK_fin]
  by_cases hq : (d.row (K + 1) i).isValid
  · rw [Cat.sample, if_pos hq]
    exact if_pos (hiff.2 hq)
  · rw [Cat.sample, if_neg hq]
    exact if_neg fun h => hq (hiff.1 h)

/-! one-hot -/

theorem ohLogProb_row (h : d.Wf B K) (v : BArr XR) (u : List ℕ) (hv : v.shape = u ++ [K])
    (ht : broadcastShapes B u = some t) :
    PerEntry (d.ohLogProb (.arr v)) t fun i => (d.row K i).ohLogProb (brow v K i) := by
  have hs := ((h.logits_ew (BLe.left ht)).bin (EWT.arr hv (BLe.right ht)) multiplyNoNan).reduceLast0 fun _ r => ∑ k, r k
  refine ew_entry hs ht (by simp) (by simp) fun i hi => ?_
  simp only [Cat.ohLogProb, atK_fin]; rfl

theorem ohProb_row (h : d.Wf B K) (v : BArr XR) (u : List ℕ) (hv : v.shape = u ++ [K])
    (ht : broadcastShapes B u = some t) :
    PerEntry (d.ohProb (.arr v)) t fun i => (d.row K i).ohProb (brow v K i) := by
  have hs := ((h.probs_ew (BLe.left ht)).bin (EWT.arr hv (BLe.right ht)) multiplyNoNan).reduceLast0 fun _ r => ∑ k, r k
  refine ew_entry hs ht (by simp) (by simp) fun i hi => ?_
  simp only [Cat.ohProb, atK_fin]; rfl

theorem ohCdf_row (h : d.Wf B K) (v : BArr XR) (u : List ℕ) (hv : v.shape = u ++ [K])
    (ht : broadcastShapes B u = some t) :
    PerEntry (d.ohCdf (.arr v)) t fun i => (d.row K i).ohCdf (brow v K i) := by
  have hs := (((h.probs_ew (BLe.left ht)).mapLast fun _ r => xcumsum r).bin (EWT.arr hv (BLe.right ht))
    multiplyNoNan).reduceLast0 fun _ r => ∑ k, r k
  refine ew_entry hs ht (by simp) (by simp) fun i hi => ?_
  simp only [Cat.ohCdf, atK_fin]; rfl

theorem ohMode_row (h : d.Wf B (K + 1)) : PerRow d.ohMode B (K + 1) fun i => (d.row (K + 1) i).ohMode := by
  have hm := ((h.parameter_ew (BLe.refl B)).argmaxLast.map fun (k : ℕ) => fin (k : ℝ)).oneHotLast (K + 1)
  rw [show d.ohMode = _ from by rw [ohMode, h.num]]
  refine hm.perRow (fun u hu _ => hu _ (by simp)) fun i hi k => ?_
  simp only [atK_fin]
  rcases h with ⟨a, rfl, ha⟩ | ⟨a, rfl, ha⟩ <;> rfl

theorem ohSample_row (h : d.Wf B (K + 1)) (n : ℕ) (g : BArr ℝ) (hg : g.shape = n :: (B ++ [K + 1])) :
    PerRow (d.ohSampleN ((AE.arr g).map fin)) (n :: B) (K + 1)
      fun i => (d.row (K + 1) i).ohSample (brow g (K + 1) i) := by
  have hB : BLe B (n :: B) := by
    have := (BLe.nil [n]).appendRight B
    simpa using this
  have hgw := (EWT.arr (t := n :: B) (e := [K + 1]) (s := n :: B) (a := g) (by simpa using hg) (BLe.refl _)).map fin
  have hd := (((hgw.bin (h.logits_ew hB) (· + ·)).argmaxLast).map fun (k : ℕ) => fin (k : ℝ)).oneHotLast (K + 1)
  have hp := h.probs_ew hB
  have hv := (hp.keepLast fun _ r => ∀ k, isFinite (r k)).bin (hp.keepLast fun _ r => ∀ k, leB 0 (r k)) And
  have hw := hv.whr_keep hd ((hd.map fun _ => (1 : XR)).bin_scalar (fin (-1)) (· * ·))
  rw [show d.ohSampleN ((AE.arr g).map fin) = _ from by rw [ohSampleN, h.num]]
  refine hw.perRow (fun u hu _ => hu _ (by simp)) fun i hi k => ?_
  have hiff : ((∀ k : Fin (K + 1), isFinite (atK (d.row (K + 1) i).probs [(k : ℕ)])) ∧
      ∀ k : Fin (K + 1), leB 0 (atK (d.row (K + 1) i).probs [(k : ℕ)])) ↔ (d.row (K + 1) i).isValid := by
    simp only [atK_fin]; rfl
  simp only [atK_fin, Cat.ohSample]
  have e1 : (1 : XR) * fin (-1) = fin (-1) := by
    show fin (1 * -1) = fin (-1)
    norm_num
  rw [e1]
  by_cases hq : (d.row (K + 1) i).isValid
  · rw [if_pos hq]
    exact if_pos (hiff.2 hq)
  · rw [if_neg hq]
    exact if_neg fun h => hq (hiff.1 h)

/-- All of the above. -/
theorem rowwise (h : d.Wf B K) : CatRowwise d B K (d.row K) where
  numCategories := h.num
  batchShape := by
    obtain ⟨a, s, q1, q2, q3, q4, -⟩ := h.logits_ew (BLe.refl B)
    have : s = B := BLe.antisymm q3 (q4 B (by simp))
    rw [batchShape, q1]
    show a.shape.dropLast = B
    rw [q2, this, List.dropLast_concat]
  logits := (h.logits_ew (BLe.refl B)).perRow (fun u hu _ => hu _ (by simp)) fun i _ k => atK_fin _ _
  probs := (h.probs_ew (BLe.refl B)).perRow (fun u hu _ => hu _ (by simp)) fun i _ k => atK_fin _ _
  entropy := entropy_row h
  logProb v t := logProb_row h v
  prob v t := prob_row h v
  cdf v t := cdf_row h v
  logCdf v t := logCdf_row h v
  ohLogProb v u t := ohLogProb_row h v u
  ohProb v u t := ohProb_row h v u
  ohCdf v u t := ohCdf_row h v u
  mode m hm := by subst hm; exact mode_row h
  ohMode m hm := by subst hm; exact ohMode_row h
  sample m hm n g hg := by subst hm; exact sample_row h n g hg
  ohSample m hm n g hg := by subst hm; exact ohSample_row h n g hg

/-- A parameter expression of shape `B + (K,)` whose rows are `r i`, however far it is broadcast. -/
def Rows (B : List ℕ) (K : ℕ) (x : AE XR) (r : List ℕ → Fin K → XR) : Prop :=
  ∀ t, BLe B t → ∃ L, B ∈ L ∧ EWT t [K] x L fun i k => atK (r i) k

theorem Rows.arr {a : BArr XR} (ha : a.shape = B ++ [K]) : Rows B K (AE.arr a) (brow a K) := fun t ht =>
  ⟨[B], by simp, (EWT.arr ha ht).congr fun i k hi hk => by
    obtain ⟨j, rfl⟩ := inRange_one_iff.1 hk
    rw [atK_fin]; rfl⟩

theorem Rows.ok {x : AE XR} {r} (h : Rows B K x r) :
    ∃ a, x = .ok a ∧ a.shape = B ++ [K] ∧ ∀ t i, BLe B t → InRange t i → brow a K i = r i := by
  obtain ⟨L, hL, a, s, q1, q2, q3, q4, -⟩ := h B (BLe.refl B)
  obtain rfl : s = B := BLe.antisymm q3 (q4 _ hL)
  refine ⟨a, q1, q2, fun t i ht hi => ?_⟩
  obtain ⟨L, hL, a', s', q1', q2', q3', q4', q5'⟩ := h t ht
  obtain rfl : a = a' := Except.ok.inj (q1.symm.trans q1')
  obtain rfl : s = s' := List.append_cancel_right (q2.symm.trans q2')
  funext k
  have := q5' i [(k : ℕ)] hi (inRange_fin k)
  simp only [atK_fin] at this
  rw [← this]
  show a.data (proj a.shape (i ++ [(k : ℕ)])) = _
  rw [q2, proj_append (inRange_fin k) (by rw [hi.length]; exact ht.length)]

theorem Rows.normProbs {x : AE XR} {r} (h : Rows B K x r) :
    Rows B K (normalizeA (some x) none) fun i => normalizeProbs (r i) := fun t ht => by
  obtain ⟨L, hL, hx⟩ := h t ht
  refine ⟨L ++ L, by simp [hL], ?_⟩
  refine (hx.bin_keep (hx.keepLast fun _ r => ∑ k, r k) (· / ·)).congr fun i k hi hk => ?_
  obtain ⟨j, rfl⟩ := inRange_one_iff.1 hk
  simp only [atK_fin]; rfl

theorem Rows.normLogits {x : AE XR} {r} (h : Rows B K x r) :
    Rows B K (normalizeA none (some x)) fun i => normalizeLogits (r i) := fun t ht => by
  obtain ⟨L, hL, hx⟩ := h t ht
  refine ⟨L, hL, ?_⟩
  refine (hx.mapLast fun _ r => logSoftmax r).congr fun i k hi hk => ?_
  obtain ⟨j, rfl⟩ := inRange_one_iff.1 hk
  simp only [atK_fin]; rfl

/-- The constructor with `probs`. -/
theorem init_probs {x : AE XR} {r} (h : Rows B K x r) {dt : DType} {d : CatA} (hd : init none (some x) dt = .ok d) :
    d.Wf B K ∧ ∀ t i, BLe B t → InRange t i → Cat.init none (some (r i)) dt = .ok (d.row K i) := by
  obtain ⟨a, q1, q2, q3⟩ := h.normProbs.ok
  have hdt : dt = .integer ∨ dt = .floating := by
    by_contra hc
    simp [init, hc] at hd
  have e : init none (some x) dt = .ok ⟨some a, none⟩ := by
    simp only [init, hdt, not_true, if_false, q1]
    simp
  rw [e] at hd
  obtain rfl := (Except.ok.inj hd)
  refine ⟨Or.inr ⟨a, rfl, q2⟩, fun t i ht hi => ?_⟩
  simp only [Cat.init, hdt, row]
  simp [q3 t i ht hi]

/-- The constructor with `logits`. -/
theorem init_logits {x : AE XR} {r} (h : Rows B K x r) {dt : DType} {d : CatA} (hd : init (some x) none dt = .ok d) :
    d.Wf B K ∧ ∀ t i, BLe B t → InRange t i → Cat.init (some (r i)) none dt = .ok (d.row K i) := by
  obtain ⟨a, q1, q2, q3⟩ := h.normLogits.ok
  have hdt : dt = .integer ∨ dt = .floating := by
    by_contra hc
    simp [init, hc] at hd
  have e : init (some x) none dt = .ok ⟨none, some a⟩ := by
    simp only [init, hdt, not_true, if_false, q1]
    simp
  rw [e] at hd
  obtain rfl := (Except.ok.inj hd)
  refine ⟨Or.inl ⟨a, rfl, q2⟩, fun t i ht hi => ?_⟩
  simp only [Cat.init, hdt, row]
  simp [q3 t i ht hi]

theorem init_probs_ok {x : AE XR} {r} (h : Rows B K x r) : ∃ d, init none (some x) .integer = .ok d := by
  obtain ⟨a, q1, -⟩ := h.normProbs.ok
  exact ⟨⟨some a, none⟩, by simp [init, q1]⟩

theorem init_logits_ok {x : AE XR} {r} (h : Rows B K x r) : ∃ d, init (some x) none .integer = .ok d := by
  obtain ⟨a, q1, -⟩ := h.normLogits.ok
  exact ⟨⟨none, some a⟩, by simp [init, q1]⟩

theorem Rows.tieBreak {x : AE XR} {r} (h : Rows B K x r) : Rows B K (tieBreak x) fun i => Cat.tieBreak (r i) := fun t ht => by
  obtain ⟨L, hL, hx⟩ := h t ht
  have ho := hx.bin_keep (hx.keepLast fun _ r => rowMax r) fun x m => XR.sel (eqB x m) 1 0
  refine ⟨L ++ L ++ (L ++ L), by simp [hL], ?_⟩
  refine (ho.bin_keep (ho.keepLast fun _ r => ∑ k, r k) (· / ·)).congr fun i k hi hk => ?_
  obtain ⟨j, rfl⟩ := inRange_one_iff.1 hk
  simp only [atK_fin]; rfl

theorem Rows.mixUniform {x : AE XR} {r} (h : Rows B K x r) (eps : XR) :
    Rows B K (mixUniform x eps) fun i => Cat.mixUniform (r i) eps := fun t ht => by
  obtain ⟨a, q1, q2, -⟩ := h.ok
  have hK : x.shape.getLast?.getD 0 = K := by
    rw [q1]
    show a.shape.getLast?.getD 0 = K
    simp [q2]
  obtain ⟨L, hL, hx⟩ := h t ht
  have hu := (hx.map fun _ => (1 : XR)).bin_scalar (fin (K : ℝ)) (· / ·)
  have := (hx.scalar_bin (1 - eps) (· * ·)).bin (hu.scalar_bin eps (· * ·)) (· + ·)
  refine ⟨L ++ L, by simp [hL], ?_⟩
  rw [show CatA.mixUniform x eps = _ from by rw [CatA.mixUniform, hK]]
  refine EWT.congr this fun i k hi hk => ?_
  obtain ⟨j, rfl⟩ := inRange_one_iff.1 hk
  simp only [atK_fin]; rfl

theorem Rows.divScalar {x : AE XR} {r} (h : Rows B K x r) (c : XR) :
    Rows B K (x / AE.scalar c) fun i k => r i k / c := fun t ht => by
  obtain ⟨L, hL, hx⟩ := h t ht
  refine ⟨L, hL, ?_⟩
  refine (hx.bin_scalar c (· / ·)).congr fun i k hi hk => ?_
  obtain ⟨j, rfl⟩ := inRange_one_iff.1 hk
  simp only [atK_fin]

end CatA

/-- **C64** (Categorical and OneHotCategorical). -/
theorem C64_categorical (logits probs : Option (BArr XR)) (dt : DType) (B : List ℕ) (K : ℕ) (d : CatA)
    (hs : ∀ a, logits = some a ∨ probs = some a → a.shape = B ++ [K])
    (h : CatA.init (logits.map AE.arr) (probs.map AE.arr) dt = .ok d) :
    ∃ rows : List ℕ → Cat K,
      (∀ t i, broadcastShapes B t = some t → InRange t i →
        Cat.init (logits.map fun a => brow a K i) (probs.map fun a => brow a K i) dt = .ok (rows i)) ∧
      CatRowwise d B K rows := by
  rcases logits with _ | l <;> rcases probs with _ | p
  · simp [CatA.init] at h
  · obtain ⟨h1, h2⟩ := CatA.init_probs (CatA.Rows.arr (hs p (Or.inr rfl))) h
    exact ⟨_, h2, CatA.rowwise h1⟩
  · obtain ⟨h1, h2⟩ := CatA.init_logits (CatA.Rows.arr (hs l (Or.inl rfl))) h
    exact ⟨_, h2, CatA.rowwise h1⟩
  · simp [CatA.init] at h

/-- A batch of two rows of three logits, the second with an impossible category, is accepted. -/
example : ∃ (a : BArr XR) (d : CatA), a.shape = [2] ++ [3] ∧ a.data [1, 2] = ninf ∧
    CatA.init ((some a).map AE.arr) ((none : Option (BArr XR)).map AE.arr) .integer = .ok d := by
  let a : BArr XR := ⟨[2, 3], fun i => if i = [1, 2] then ninf else fin (i.sum : ℝ)⟩
  obtain ⟨d, hd⟩ := CatA.init_logits_ok (CatA.Rows.arr (a := a) (B := [2]) (K := 3) rfl)
  exact ⟨a, d, rfl, by simp [a], hd⟩

/-- **C64** the batched constructor accepts exactly what the single-row constructor accepts. -/
theorem C64_categorical_constructor (logits probs : Option (BArr XR)) (dt : DType) (B : List ℕ) (K : ℕ)
    (hs : ∀ a, logits = some a ∨ probs = some a → a.shape = B ++ [K]) (e : Err) (i : List ℕ) :
    CatA.init (logits.map AE.arr) (probs.map AE.arr) dt = .error e ↔
      Cat.init (logits.map fun a => brow a K i) (probs.map fun a => brow a K i) dt = .error e := by
  rcases logits with _ | l <;> rcases probs with _ | p
  · simp [CatA.init, Cat.init]
  · obtain ⟨a, q1, -⟩ := (CatA.Rows.arr (hs p (Or.inr rfl))).normProbs.ok
    by_cases hdt : dt = .integer ∨ dt = .floating
    · simp only [CatA.init, Cat.init, Option.map, hdt, q1]
      simp
    · simp only [CatA.init, Cat.init, Option.map, hdt]
      simp
  · obtain ⟨a, q1, -⟩ := (CatA.Rows.arr (hs l (Or.inl rfl))).normLogits.ok
    by_cases hdt : dt = .integer ∨ dt = .floating
    · simp only [CatA.init, Cat.init, Option.map, hdt, q1]
      simp
    · simp only [CatA.init, Cat.init, Option.map, hdt]
      simp
  · simp [CatA.init, Cat.init]

/-- **C64** (Greedy). -/
theorem C64_greedy (prefs : BArr XR) (dt : DType) (B : List ℕ) (K : ℕ) (d : CatA) (hs : prefs.shape = B ++ [K])
    (h : CatA.greedy prefs dt = .ok d) :
    ∃ rows : List ℕ → Cat K,
      (∀ t i, broadcastShapes B t = some t → InRange t i → Cat.greedy (brow prefs K i) dt = .ok (rows i)) ∧
      CatRowwise d B K rows := by
  obtain ⟨h1, h2⟩ := CatA.init_probs (CatA.Rows.arr hs).tieBreak h
  exact ⟨_, h2, CatA.rowwise h1⟩

/-- Preferences with a tie are accepted. -/
example : ∃ (a : BArr XR) (d : CatA), a.shape = [2] ++ [3] ∧ CatA.greedy a .integer = .ok d := by
  let a : BArr XR := ⟨[2, 3], fun i => if i = [1, 2] then 0 else 1⟩
  obtain ⟨d, hd⟩ := CatA.init_probs_ok (CatA.Rows.arr (a := a) (B := [2]) (K := 3) rfl).tieBreak
  exact ⟨a, d, rfl, hd⟩

/-- **C64** (EpsilonGreedy). -/
theorem C64_epsilon_greedy (prefs : BArr XR) (eps : XR) (dt : DType) (B : List ℕ) (K : ℕ) (d : CatA)
    (hs : prefs.shape = B ++ [K]) (h : CatA.epsilonGreedy prefs eps dt = .ok d) :
    ∃ rows : List ℕ → Cat K,
      (∀ t i, broadcastShapes B t = some t → InRange t i → Cat.epsilonGreedy (brow prefs K i) eps dt = .ok (rows i)) ∧
      CatRowwise d B K rows := by
  obtain ⟨h1, h2⟩ := CatA.init_probs ((CatA.Rows.arr hs).tieBreak.mixUniform eps) h
  exact ⟨_, h2, CatA.rowwise h1⟩

example : ∃ (a : BArr XR) (d : CatA), a.shape = [2] ++ [3] ∧ CatA.epsilonGreedy a (fin 0.1) .integer = .ok d := by
  let a : BArr XR := ⟨[2, 3], fun i => if i = [1, 2] then 0 else 1⟩
  obtain ⟨d, hd⟩ := CatA.init_probs_ok ((CatA.Rows.arr (a := a) (B := [2]) (K := 3) rfl).tieBreak.mixUniform (fin 0.1))
  exact ⟨a, d, rfl, hd⟩

/-- **C64** (Softmax). -/
theorem C64_softmax (logits : BArr XR) (temperature : XR) (dt : DType) (B : List ℕ) (K : ℕ) (d : CatA)
    (hs : logits.shape = B ++ [K]) (h : CatA.softmaxDist logits temperature dt = .ok d) :
    ∃ rows : List ℕ → Cat K,
      (∀ t i, broadcastShapes B t = some t → InRange t i →
        Cat.softmaxDist (brow logits K i) temperature dt = .ok (rows i)) ∧
      CatRowwise d B K rows := by
  obtain ⟨h1, h2⟩ := CatA.init_logits ((CatA.Rows.arr hs).divScalar temperature) h
  exact ⟨_, h2, CatA.rowwise h1⟩

example : ∃ (a : BArr XR) (d : CatA), a.shape = [2] ++ [3] ∧ CatA.softmaxDist a (fin 2) .integer = .ok d := by
  let a : BArr XR := ⟨[2, 3], fun i => fin (i.sum : ℝ)⟩
  obtain ⟨d, hd⟩ := CatA.init_logits_ok ((CatA.Rows.arr (a := a) (B := [2]) (K := 3) rfl).divScalar (fin 2))
  exact ⟨a, d, rfl, hd⟩

theorem CatA.init_rows (l p : Option (BArr XR)) (dt : DType) (B : List ℕ) (K : ℕ) (d : CatA)
    (hs : ∀ a, l = some a ∨ p = some a → a.shape = B ++ [K]) (h : CatA.init (l.map AE.arr) (p.map AE.arr) dt = .ok d) :
    d.Wf B K ∧ ∀ t i, BLe B t → InRange t i →
      Cat.init (l.map fun a => brow a K i) (p.map fun a => brow a K i) dt = .ok (d.row K i) := by
  rcases l with _ | l <;> rcases p with _ | p
  · simp [CatA.init] at h
  · exact CatA.init_probs (CatA.Rows.arr (hs p (Or.inr rfl))) h
  · exact CatA.init_logits (CatA.Rows.arr (hs l (Or.inl rfl))) h
  · simp [CatA.init] at h

/-- **C64** (the divergence of two Categoricals): broadcast over the two batch shapes, row against row; a different number
of categories is rejected. -/
theorem C64_categorical_kl (l1 p1 l2 p2 : Option (BArr XR)) (dt1 dt2 : DType) (B1 B2 : List ℕ) (K1 K2 : ℕ) (d1 d2 : CatA)
    (hs1 : ∀ a, l1 = some a ∨ p1 = some a → a.shape = B1 ++ [K1])
    (hs2 : ∀ a, l2 = some a ∨ p2 = some a → a.shape = B2 ++ [K2])
    (h1 : CatA.init (l1.map AE.arr) (p1.map AE.arr) dt1 = .ok d1)
    (h2 : CatA.init (l2.map AE.arr) (p2.map AE.arr) dt2 = .ok d2) :
    (K1 ≠ K2 → CatA.kl d1 d2 = Except.error .valueError) ∧
    (K1 = K2 → ∀ t, broadcastShapes B1 B2 = some t → ∃ f : List ℕ → XR, PerEntry (CatA.kl d1 d2) t f ∧
      ∀ i, InRange t i → ∃ r1 r2,
        Cat.init (l1.map fun a => brow a K1 i) (p1.map fun a => brow a K1 i) dt1 = .ok r1 ∧
        Cat.init (l2.map fun a => brow a K2 i) (p2.map fun a => brow a K2 i) dt2 = .ok r2 ∧
        Cat.kl r1 r2 = .ok (f i)) := by
  obtain ⟨w1, r1⟩ := CatA.init_rows _ _ _ _ _ _ hs1 h1
  obtain ⟨w2, r2⟩ := CatA.init_rows _ _ _ _ _ _ hs2 h2
  refine ⟨fun hK => ?_, fun hK t ht => ?_⟩
  · have hK' : d1.logits.shape.getLast?.getD 0 ≠ d2.logits.shape.getLast?.getD 0 := by
      obtain ⟨a, s, q1, q2, -⟩ := w1.logits_ew (BLe.refl _)
      obtain ⟨a', s', q1', q2', -⟩ := w2.logits_ew (BLe.refl _)
      rw [q1, q1']
      show a.shape.getLast?.getD 0 ≠ a'.shape.getLast?.getD 0
      rw [q2, q2']
      simpa using hK
    exact if_pos hK'
  · subst hK
    obtain ⟨f, hf, hk⟩ := CatA.kl_row w1 w2 ht
    exact ⟨f, hf, fun i hi => ⟨_, _, r1 t i (BLe.left ht) hi, r2 t i (BLe.right ht) hi, hk i hi⟩⟩

/-- Batches `(2, 1)` and `(3,)` of three categories broadcast to `(2, 3)`. -/
example : ∃ (a b : BArr XR) (d e : CatA), a.shape = [2, 1] ++ [3] ∧ b.shape = [3] ++ [3] ∧
    CatA.init ((some a).map AE.arr) ((none : Option (BArr XR)).map AE.arr) .integer = .ok d ∧
    CatA.init ((none : Option (BArr XR)).map AE.arr) ((some b).map AE.arr) .integer = .ok e ∧
    broadcastShapes [2, 1] [3] = some [2, 3] := by
  let a : BArr XR := ⟨[2, 1, 3], fun i => fin (i.sum : ℝ)⟩
  let b : BArr XR := ⟨[3, 3], fun i => fin (i.sum : ℝ)⟩
  obtain ⟨d, hd⟩ := CatA.init_logits_ok (CatA.Rows.arr (a := a) (B := [2, 1]) (K := 3) rfl)
  obtain ⟨e, he⟩ := CatA.init_probs_ok (CatA.Rows.arr (a := b) (B := [3]) (K := 3) rfl)
  exact ⟨a, b, d, e, rfl, rfl, hd, he, by decide⟩

end

end Distrax
