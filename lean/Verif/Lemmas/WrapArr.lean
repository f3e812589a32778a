import Verif.Spec.WrapArr
import Verif.Props.FamArr

/-! The entrywise calculus extended to methods of a base distribution and to optional cutoffs. -/

namespace Distrax

open Spec

variable {α β : Type} {T : List ℕ}

theorem EW.weaken {x : AE α} {L M f} (h : EW T x L f) (hM : ∀ l ∈ M, l ∈ L) : EW T x M f := by
  obtain ⟨a, h0, h1, h2, h3⟩ := h
  exact ⟨a, h0, h1, fun l hl => h2 l (hM l hl), h3⟩

theorem EW.congr {x : AE α} {L f g} (h : EW T x L f) (hfg : ∀ i, InRange T i → f i = g i) : EW T x L g := by
  obtain ⟨a, h0, h1, h2, h3⟩ := h
  exact ⟨a, h0, h1, h2, fun i hi => (h3 i hi).trans (hfg i hi)⟩

/-- A base method inside a larger expression. -/
theorem EW.method {B : List ℕ} {m : AE ℝ → AE α} {g : List ℕ → ℝ → α} (hm : ValueMethod B m g) (hB : BLe B T) {x : AE ℝ} {L f}
    (hx : EW T x L f) : EW T (m x) (B :: L) fun i => g (proj B i) (f i) := by
  obtain ⟨a, rfl, h1, h2, h3⟩ := hx
  obtain ⟨t, t1, t2⟩ := broadcastShapes_join _ _ _ hB h1
  obtain ⟨r, e, r1, r2⟩ := hm a t t1
  refine ⟨r, e, r1 ▸ t2, ?_, fun i hi => ?_⟩
  · intro l hl
    rw [r1]
    rcases List.mem_cons.1 hl with rfl | hl
    · exact BLe.left t1
    · exact (h2 l hl).trans (BLe.right t1)
  · have hle : t.length ≤ i.length := by rw [hi.length]; exact BLe.length t2
    rw [r1, r2 _ (proj_inRange t2 hi)]
    show g (proj B (proj t i)) (bget a (proj t i)) = g (proj B i) (f i)
    rw [(BLe.left t1).proj hle]
    congr 1
    rw [← h3 i hi]
    show a.data _ = _
    rw [(BLe.right t1).proj hle]

/-- How an optional cutoff enters an expression. -/
def CutOk (T : List ℕ) (c : Option (BArr ℝ)) (cut : Option (AE ℝ)) : Prop :=
  (c = none ∧ cut = none) ∨ ∃ a l L, c = some a ∧ cut = some l ∧ EW T l L (bget a)

theorem EW.below {c : Option (BArr ℝ)} {cut : Option (AE ℝ)} (hc : CutOk T c cut) {y : AE ℝ} {r : AE α} {L M f g}
    (hy : EW T y L f) (hr : EW T r M g) (a : α) :
    EW T (QuantA.below cut y a r) M fun i => Quantized.ifBelow (optAt c i) (f i) a (g i) := by
  rcases hc with ⟨rfl, rfl⟩ | ⟨b, l, N, rfl, rfl, hl⟩
  · exact hr
  · refine (((hy.bin hl (· < ·)).whr (EW.scalar a) hr).weaken (M := M) (by simp +contextual)).congr fun i _ => ?_
    simp only [optAt, Option.map_some, Quantized.ifBelow]

theorem EW.notBelow {c : Option (BArr ℝ)} {cut : Option (AE ℝ)} (hc : CutOk T c cut) {y : AE ℝ} {r : AE α} {L M f g}
    (hy : EW T y L f) (hr : EW T r M g) (a : α) :
    EW T (QuantA.notBelow cut y a r) M fun i => Quantized.ifNotBelow (optAt c i) (f i) a (g i) := by
  rcases hc with ⟨rfl, rfl⟩ | ⟨b, l, N, rfl, rfl, hl⟩
  · exact hr
  · refine (((hy.bin hl (· < ·)).whr hr (EW.scalar a)).weaken (M := M) (by simp +contextual)).congr fun i _ => ?_
    simp only [optAt, Option.map_some, Quantized.ifNotBelow]

/-- Cutoffs that broadcast to the batch shape. -/
structure QuantA.Wf (d : QuantA) : Prop where
  event : d.base.event = []
  low : ∀ a, d.low? = some a → BLe a.shape d.base.batch
  high : ∀ a, d.high? = some a → BLe a.shape d.base.batch
  eps : ∀ a, d.eps? = some a → BLe a.shape d.base.batch

namespace QuantA
variable {d : QuantA}

/-- The single-entry distribution at `i`. -/
noncomputable def entry (d : QuantA) (base : List ℕ → Base) (i : List ℕ) : Quantized :=
  ⟨base (proj d.base.batch i), optAt d.low? i, optAt d.high? i, optAt d.eps? i⟩

theorem cut_raw {c : Option (BArr ℝ)} {B : List ℕ} (h : ∀ a, c = some a → BLe a.shape B) (hT : BLe B T) :
    CutOk T c (c.map AE.arr) := by
  rcases c with _ | a
  · exact .inl ⟨rfl, rfl⟩
  · exact .inr ⟨a, _, _, rfl, rfl, EW.arr ((h a rfl).trans hT)⟩

theorem cut_prop {c : Option (BArr ℝ)} {B : List ℕ} (h : ∀ a, c = some a → BLe a.shape B) (hT : BLe B T) :
    CutOk T c (c.map fun a => (AE.arr a).broadcastTo B) := by
  rcases c with _ | a
  · exact .inl ⟨rfl, rfl⟩
  · exact .inr ⟨a, _, _, rfl, rfl, EW.broadcastTo hT rfl (h a rfl) (EW.arr ((h a rfl).trans hT))⟩

theorem Wf.cutLow (w : d.Wf) (hT : BLe d.base.batch T) : CutOk T d.low? d.low := by
  unfold QuantA.low; rw [w.event, List.append_nil]; exact cut_prop w.low hT
theorem Wf.cutHigh (w : d.Wf) (hT : BLe d.base.batch T) : CutOk T d.high? d.high := by
  unfold QuantA.high; rw [w.event, List.append_nil]; exact cut_prop w.high hT

variable {base : List ℕ → Base} {x : AE ℝ} {L : List (List ℕ)} {f : List ℕ → ℝ}

theorem cdf_ew (w : d.Wf) (hb : EntryWise d.base base) (hT : BLe d.base.batch T) (hx : EW T x L f) :
    EW T (d.cdf x) (d.base.batch :: L) fun i => (d.entry base i).cdf (f i) :=
  EW.notBelow (w.cutHigh hT) (hx.map _) (EW.below (w.cutLow hT) (hx.map _) (EW.method hb.cdf hT (hx.map _)) 0) 1

theorem logCdf_ew (w : d.Wf) (hb : EntryWise d.base base) (hT : BLe d.base.batch T) (hx : EW T x L f) :
    EW T (d.logCdf x) (d.base.batch :: L) fun i => (d.entry base i).logCdf (f i) :=
  EW.notBelow (w.cutHigh hT) (hx.map _) (EW.below (w.cutLow hT) (hx.map _) (EW.method hb.logCdf hT (hx.map _)) _) _

theorem survival_ew (w : d.Wf) (hb : EntryWise d.base base) (hT : BLe d.base.batch T) (hx : EW T x L f) :
    EW T (d.survival x) (d.base.batch :: L) fun i => (d.entry base i).survival (f i) :=
  EW.notBelow (cut_raw w.high hT) (hx.map _)
    (EW.below (cut_raw w.low hT) (hx.map _) (EW.method hb.survival hT (hx.map _)) 1) 0

theorem logSurvival_ew (w : d.Wf) (hb : EntryWise d.base base) (hT : BLe d.base.batch T) (hx : EW T x L f) :
    EW T (d.logSurvival x) (d.base.batch :: L) fun i => (d.entry base i).logSurvival (f i) :=
  EW.notBelow (cut_raw w.high hT) (hx.map _)
    (EW.below (cut_raw w.low hT) (hx.map _) (EW.method hb.logSurvival hT (hx.map _)) _) _

theorem pick_ew {a b c e : AE XR} {A B C E fa fb fc fe} (ha : EW T a A fa) (hb : EW T b B fb) (hc : EW T c C fc)
    (he : EW T e E fe) : EW T (pick a b c e) (A ++ B ++ C ++ E) fun i => XR.sel (XR.ltB (fa i) (fb i)) (fc i) (fe i) := by
  refine ((ha.bin hb XR.ltB).whr hc he).congr fun i _ => ?_
  simp only [XR.sel]

theorem isInteger_ew (hx : EW T x L f) :
    EW T (isInteger x) (L ++ L) fun i => ¬ f i > ((⌊f i⌋ : ℤ) : ℝ) := by
  classical
  refine (((hx.bin (hx.map _) (· > ·)).whr (EW.scalar False) (EW.scalar True)).weaken (by simp)).congr fun i _ => ?_
  simp

theorem prob_ew (w : d.Wf) (hb : EntryWise d.base base) (hT : BLe d.base.batch T) (hx : EW T x L f) :
    EW T (d.prob x) (d.base.batch :: L) fun i => (d.entry base i).prob (f i) := by
  have h1 := hx.sub (EW.scalar (1 : ℝ))
  have c0 := cdf_ew w hb hT hx
  have c1 := cdf_ew w hb hT h1
  have s0 := survival_ew w hb hT hx
  have s1 := survival_ew w hb hT h1
  refine (((isInteger_ew hx).whr ((s0.bin c0 (· < ·)).whr (s1.sub s0) (c0.sub c1)) (EW.scalar 0)).weaken
    (by simp +contextual)).congr fun i _ => ?_
  simp only [Quantized.prob, ite_not]
  split_ifs <;> rfl

theorem logProb_ew (w : d.Wf) (hb : EntryWise d.base base) (hT : BLe d.base.batch T) (hx : EW T x L f) :
    EW T (d.logProb x) (d.base.batch :: L) fun i => (d.entry base i).logProb (f i) := by
  have h1 := hx.sub (EW.scalar (1 : ℝ))
  have c0 := logCdf_ew w hb hT hx
  have c1 := logCdf_ew w hb hT h1
  have s0 := logSurvival_ew w hb hT hx
  have s1 := logSurvival_ew w hb hT h1
  have big := pick_ew s0 c0 s1 c0
  have small := pick_ew s0 c0 s0 c1
  have out := (c0.map Quantized.isInf).bin (s1.map Quantized.isInf) (· ∨ ·)
  rcases he : d.eps? with _ | e
  · have h := (out.whr (EW.scalar XR.ninf) ((isInteger_ew hx).whr (big.bin small logExpbigMinusExpsmall) (EW.scalar .ninf))).weaken
      (M := d.base.batch :: L) (by simp +contextual)
    unfold QuantA.logProb
    simp only [he]
    refine h.congr fun i _ => ?_
    simp only [Quantized.logProb, ite_not, entry, he, optAt, Option.map_none]
    congr
  · have hE := (EW.arr ((w.eps e he).trans hT)).ext
    have big' := (((big.sub small).bin hE fun x e => XR.ltB e x).whr big (small.add hE))
    have h := (out.whr (EW.scalar XR.ninf) ((isInteger_ew hx).whr (big'.bin small logExpbigMinusExpsmall) (EW.scalar .ninf))).weaken
      (M := d.base.batch :: L) (by simp +contextual)
    unfold QuantA.logProb
    simp only [he]
    refine h.congr fun i _ => ?_
    simp only [Quantized.logProb, ite_not, entry, he, optAt, Option.map_some, XR.sel]
    congr

theorem sampleN_ew (w : d.Wf) (hT : BLe d.base.batch T) (hx : EW T x L f) :
    EW T (d.sampleN x) L fun i => (d.entry base i).sample (f i) := by
  have h0 := hx.map fun x => ((⌈x⌉ : ℤ) : ℝ)
  have h1 : EW T (match d.low with
      | none => x.map fun x => ((⌈x⌉ : ℤ) : ℝ)
      | some l => AE.whr (AE.bin (· < ·) (x.map fun x => ((⌈x⌉ : ℤ) : ℝ)) l) l (x.map fun x => ((⌈x⌉ : ℤ) : ℝ))) L
      fun i => match optAt d.low? i with
        | none => ((⌈f i⌉ : ℤ) : ℝ)
        | some l => if ((⌈f i⌉ : ℤ) : ℝ) < l then l else ((⌈f i⌉ : ℤ) : ℝ) := by
    rcases w.cutLow hT with ⟨e1, e2⟩ | ⟨b, l, N, e1, e2, hl⟩
    · rw [e1, e2]; exact h0
    · rw [e1, e2]
      refine (((h0.bin hl (· < ·)).whr hl h0).weaken (M := L) (by simp +contextual)).congr fun i _ => ?_
      simp only [optAt, Option.map_some]
  rcases w.cutHigh hT with ⟨e1, e2⟩ | ⟨b, l, N, e1, e2, hl⟩
  · simp only [QuantA.sampleN, e2, Quantized.sample, entry, e1]
    exact h1
  · simp only [QuantA.sampleN, e2, Quantized.sample, entry, e1]
    refine (((h1.bin hl (· > ·)).whr hl h1).weaken (M := L) (by simp +contextual)).congr fun i _ => ?_
    simp only [optAt, Option.map_some]
    congr

theorem sampleNLP_ew (w : d.Wf) (hb : EntryWise d.base base) (hT : BLe d.base.batch T) (hx : EW T x L f) :
    EW T (d.sampleNLP x).2 (d.base.batch :: L) fun i => ((d.entry base i).sampleAndLogProb (f i)).2 := by
  have h0 := sampleN_ew (base := base) w hT hx
  have h1 := h0.sub (EW.scalar (1 : ℝ))
  have c0 := EW.notBelow (w.cutHigh hT) h0 (EW.method hb.logCdf hT h0) (.fin 0)
  have s0 := EW.notBelow (w.cutHigh hT) h0 (EW.method hb.logSurvival hT h0) .ninf
  have c1 := EW.below (w.cutLow hT) h1 (EW.method hb.logCdf hT h1) .ninf
  have s1 := EW.below (w.cutLow hT) h1 (EW.method hb.logSurvival hT h1) (.fin 0)
  refine (((pick_ew s0 c0 s1 c0).bin (pick_ew s0 c0 s0 c1) logExpbigMinusExpsmall).weaken (by simp +contextual)).congr fun i _ => ?_
  rfl

end QuantA

end Distrax
