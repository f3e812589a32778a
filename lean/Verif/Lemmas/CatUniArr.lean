import Verif.Lemmas.WrapArr
import Verif.Props.VecArr3

/-! Slices, concatenations and `linspace` along the last axis, and the array CategoricalUniform. -/

namespace Distrax

open Spec XR

variable {α : Type} {t : List ℕ}

theorem EWT.initLast {x : AE α} {L g} {K : ℕ} (h : EWT t [K + 1] x L g) : EWT t [K] x.initLast L g := by
  obtain ⟨a, s, rfl, h2, h3, h4, h5⟩ := h
  refine ⟨⟨s ++ [K], a.data⟩, s, ?_, rfl, h3, h4, fun i k hi hk => ?_⟩
  · have : (AE.arr a).initLast = (match a.shape.getLast? with
      | none => Except.error .indexError
      | some K => Except.ok ⟨a.shape.dropLast ++ [K - 1], a.data⟩) := rfl
    rw [this, h2, List.getLast?_concat, List.dropLast_concat]
    rfl
  · obtain ⟨q, rfl⟩ := inRange_one_iff.1 hk
    exact h5 i _ hi (inRange_fin (Fin.castSucc q))

theorem EWT.tailLast {x : AE α} {L g} {K : ℕ} (h : EWT t [K + 1] x L g) :
    EWT t [K] x.tailLast L fun i k => g i [k.headD 0 + 1] := by
  obtain ⟨a, s, rfl, h2, h3, h4, h5⟩ := h
  refine ⟨⟨s ++ [K], fun i => a.data (i.dropLast ++ [i.getLast?.getD 0 + 1])⟩, s, ?_, rfl, h3, h4, fun i k hi hk => ?_⟩
  · have : (AE.arr a).tailLast = (match a.shape.getLast? with
      | none => Except.error .indexError
      | some K => Except.ok ⟨a.shape.dropLast ++ [K - 1], fun i => a.data (i.dropLast ++ [i.getLast?.getD 0 + 1])⟩) := rfl
    rw [this, h2, List.getLast?_concat, List.dropLast_concat]
    rfl
  · obtain ⟨q, rfl⟩ := inRange_one_iff.1 hk
    simp only [List.dropLast_concat, List.getLast?_concat, Option.getD_some, List.headD_cons]
    exact h5 i _ hi (inRange_fin q.succ)

theorem EWT.takeLast {x : AE α} {L g} {K : ℕ} (n : ℕ) (h : EWT t [K] x L g) : EWT t [Min.min n K] (x.takeLast n) L g := by
  obtain ⟨a, s, rfl, h2, h3, h4, h5⟩ := h
  refine ⟨⟨s ++ [Min.min n K], a.data⟩, s, ?_, rfl, h3, h4, fun i k hi hk => ?_⟩
  · have : (AE.arr a).takeLast n = (match a.shape.getLast? with
      | none => Except.error .indexError
      | some K => Except.ok ⟨a.shape.dropLast ++ [Min.min n K], a.data⟩) := rfl
    rw [this, h2, List.getLast?_concat, List.dropLast_concat]
    rfl
  · obtain ⟨q, rfl⟩ := inRange_one_iff.1 hk
    exact h5 i _ hi (inRange_fin ⟨q, lt_of_lt_of_le q.2 (min_le_right _ _)⟩)

/-- Concatenation along the last axis of arrays with equal batch parts. -/
theorem EWT.concatLast {x y : AE α} {g1 g2} {s : List ℕ} {K1 K2 : ℕ} (hs : BLe s t)
    (hx : EWT t [K1] x [s] g1) (hy : EWT t [K2] y [s] g2) (hx' : EWT s [K1] x [s] g1) (hy' : EWT s [K2] y [s] g2) :
    EWT t [K1 + K2] (AE.concatLast x y) [s] fun i k =>
      if k.headD 0 < K1 then g1 i k else g2 i [k.headD 0 - K1] := by
  obtain ⟨a, s1, rfl, h2, h3, h4, h5⟩ := hx
  obtain ⟨b, s2, rfl, k2, k3, k4, k5⟩ := hy
  obtain ⟨a', s1', e1, p2, p3, p4, -⟩ := hx'
  obtain ⟨b', s2', e2, q2, q3, q4, -⟩ := hy'
  obtain rfl : a = a' := Except.ok.inj e1
  obtain rfl : b = b' := Except.ok.inj e2
  obtain rfl : s1 = s1' := List.append_cancel_right (h2.symm.trans p2)
  obtain rfl : s2 = s2' := List.append_cancel_right (k2.symm.trans q2)
  obtain rfl : s = s1 := BLe.antisymm (p4 _ (by simp)) p3
  obtain rfl : s = s2 := BLe.antisymm (q4 _ (by simp)) q3
  refine ⟨⟨s ++ [K1 + K2], fun i => if i.getLast?.getD 0 < K1 then a.data i else b.data (i.dropLast ++ [i.getLast?.getD 0 - K1])⟩,
    s, ?_, rfl, hs, by simp [BLe.refl], fun i k hi hk => ?_⟩
  · have : AE.concatLast (AE.arr a) (AE.arr b) = (match a.shape.getLast?, b.shape.getLast? with
      | some K, some L =>
        if a.shape.dropLast = b.shape.dropLast then
          Except.ok ⟨a.shape.dropLast ++ [K + L], fun i =>
            if i.getLast?.getD 0 < K then a.data i else b.data (i.dropLast ++ [i.getLast?.getD 0 - K])⟩
        else Except.error .typeError
      | _, _ => Except.error .valueError) := rfl
    rw [this, h2, k2, List.getLast?_concat, List.getLast?_concat, List.dropLast_concat, List.dropLast_concat]
    exact if_pos rfl
  · obtain ⟨q, rfl⟩ := inRange_one_iff.1 hk
    simp only [List.dropLast_concat, List.getLast?_concat, Option.getD_some, List.headD_cons]
    by_cases hq : (q : ℕ) < K1
    · rw [if_pos hq]
      exact (h5 i _ hi (inRange_fin ⟨q, hq⟩)).trans (if_pos hq).symm
    · rw [if_neg hq]
      exact (k5 i _ hi (inRange_fin ⟨q - K1, by omega⟩)).trans (if_neg hq).symm

theorem EW.linspaceLast {x y : AE ℝ} {L M f g} (n : ℕ) (hx : EW t x L f) (hy : EW t y M g) :
    EWT t [n + 1] (AE.linspaceLast n x y) (L ++ M) fun i k =>
      f i * (1 - ((k.headD 0 : ℕ) : ℝ) / n) + g i * (((k.headD 0 : ℕ) : ℝ) / n) := by
  obtain ⟨a, e, h3, h4, h5⟩ := hx.bin hy Prod.mk
  refine ⟨⟨a.shape ++ [n + 1], fun i => (a.data i.dropLast).1 * (1 - ((i.getLast?.getD 0 : ℕ) : ℝ) / n)
    + (a.data i.dropLast).2 * (((i.getLast?.getD 0 : ℕ) : ℝ) / n)⟩, a.shape, ?_, rfl, h3, h4, fun i k hi hk => ?_⟩
  · unfold AE.linspaceLast
    rw [e]
    rfl
  · obtain ⟨q, rfl⟩ := inRange_one_iff.1 hk
    simp only [List.dropLast_concat, List.getLast?_concat, Option.getD_some, List.headD_cons, h5 i hi]

theorem EWT.weaken {e : List ℕ} {x : AE α} {L M g} (h : EWT t e x L g) (hM : ∀ l ∈ M, l ∈ L) : EWT t e x M g := by
  obtain ⟨a, s, h0, h1, h2, h3, h4⟩ := h
  exact ⟨a, s, h0, h1, h2, fun l hl => h3 l (hM l hl), h4⟩

/-- A batched Uniform is row-wise. -/
theorem uniform_rowwise (p q : BArr ℝ) (d : P2) (h : P2.init p q = .ok d) :
    RowWise (UniformA.comp d)
      (fun j v => Uniform.logProb ⟨bget p j, bget q j⟩ (v ⟨[], List.Forall₂.nil⟩))
      (fun j _ => Uniform.mean ⟨bget p j, bget q j⟩) (fun j _ => Uniform.variance ⟨bget p j, bget q j⟩) := by
  obtain ⟨hm, hv, -, -, -, hl, -⟩ := C58_uniform p q d h
  obtain ⟨rfl, rfl, hd⟩ := P2.init_wf h
  have hget : ∀ (x : BArr ℝ) (t i : List ℕ), BLe x.shape d.batch → BLe d.batch t → InRange t i →
      bget x (proj d.batch i) = bget x i := by
    intro x t i h1 h2 hi
    show x.data _ = x.data _
    rw [proj_proj h1 (by rw [hi.length]; exact h2.length)]
  refine ⟨fun v u t hv' ht => ?_, ?_, ?_⟩
  · obtain ⟨a, q1, q2, q3⟩ := hl v t (by simpa [UniformA.comp] using (by simpa [UniformA.comp] using hv' : v.shape = u) ▸ ht)
    refine ⟨a, q1, q2, fun i hi => ?_⟩
    rw [q3 i hi]
    have hB : BLe d.batch t := BLe.left ht
    show _ = Uniform.logProb ⟨bget d.p (proj d.batch i), bget d.q (proj d.batch i)⟩ (bget v (i ++ []))
    rw [hget d.p t i (BLe.left hd) hB hi, hget d.q t i (BLe.right hd) hB hi, List.append_nil]
  · obtain ⟨a, q1, q2, q3⟩ := hm
    refine ⟨⟨a.shape, fun i => fin (a.data i)⟩, ?_, by simp [UniformA.comp, q2], fun i hi k => ?_⟩
    · show (UniformA.mean d).map fin = _
      rw [q1]; rfl
    · have hk : k.1 = [] := by have := k.2; revert this; rcases k.1 with _ | _ <;> intro hh <;> [rfl; cases hh]
      show fin (a.data (i ++ k.1)) = _
      rw [hk, List.append_nil, q3 i hi]
  · obtain ⟨a, q1, q2, q3⟩ := hv
    refine ⟨⟨a.shape, fun i => fin (a.data i)⟩, ?_, by simp [UniformA.comp, q2], fun i hi k => ?_⟩
    · show (UniformA.variance d).map fin = _
      rw [q1]; rfl
    · have hk : k.1 = [] := by have := k.2; revert this; rcases k.1 with _ | _ <;> intro hh <;> [rfl; cases hh]
      show fin (a.data (i ++ k.1)) = _
      rw [hk, List.append_nil, q3 i hi]

namespace CatUniA

/-- Parameters whose shapes broadcast to the batch shape `B`, with at least one bin. -/
structure Wf (d : CatUniA) (B s : List ℕ) (K : ℕ) : Prop where
  shape : d.logits_.shape = s ++ [K]
  batch : d.batchShape = .ok B
  pos : 0 < K

variable {d : CatUniA} {B s : List ℕ} {K : ℕ}

theorem Wf.les (w : d.Wf B s K) : BLe d.low_.shape B ∧ BLe d.high_.shape B ∧ BLe s B := by
  have h := w.batch
  unfold batchShape at h
  rw [w.shape, List.dropLast_concat] at h
  split at h
  · simp at h
  · next b hb =>
    split at h
    · simp at h
    · next u hu =>
      obtain rfl := Except.ok.inj h
      exact ⟨(BLe.left hb).trans (BLe.left hu), (BLe.right hb).trans (BLe.left hu), BLe.right hu⟩

theorem Wf.num (w : d.Wf B s K) : d.numBins = K := by simp [numBins, w.shape]

theorem Wf.low (w : d.Wf B s K) (hT : BLe B t) : EW t d.low [B] (bget d.low_) := by
  have : d.low = (AE.arr d.low_).broadcastTo B := by
    simp only [CatUniA.low, toBatch, w.batch, List.append_nil]
  rw [this]
  exact EW.broadcastTo hT rfl w.les.1 (EW.arr (w.les.1.trans hT))

theorem Wf.high (w : d.Wf B s K) (hT : BLe B t) : EW t d.high [B] (bget d.high_) := by
  have : d.high = (AE.arr d.high_).broadcastTo B := by
    simp only [CatUniA.high, toBatch, w.batch, List.append_nil]
  rw [this]
  exact EW.broadcastTo hT rfl w.les.2.1 (EW.arr (w.les.2.1.trans hT))

theorem Wf.logits (w : d.Wf B s K) (hT : BLe B t) : EWT t [K] d.logits [B] fun i k => bget d.logits_ (i ++ k) := by
  have : d.logits = (AE.arr d.logits_).broadcastTo (B ++ [K]) := by
    simp only [CatUniA.logits, toBatch, w.batch, w.num]
  rw [this]
  exact EWT.broadcastTo (EWT.arr w.shape (w.les.2.2.trans hT)) hT (EWT.arr w.shape w.les.2.2)

/-- The single-entry distribution at `i`. -/
noncomputable def entry (d : CatUniA) (K : ℕ) (i : List ℕ) : CatUniform K :=
  ⟨bget d.low_ i, bget d.high_ i, brow d.logits_ K i⟩

theorem Wf.limits (w : d.Wf B s K) (hT : BLe B t) :
    EWT t [K + 1] d.limits [B] fun i k => (d.entry K i).limits (k.headD 0) := by
  unfold CatUniA.limits
  rw [w.num]
  exact ((EW.linspaceLast K (w.low hT) (w.high hT)).weaken (M := [B]) (by simp)).congr fun i k _ _ => rfl

theorem Wf.cum (w : d.Wf B s K) (hT : BLe B t) :
    EWT t [K] d.logits.softmaxA.cumsumA [B] fun i k => atK (xcumsum (xsoftmax (brow d.logits_ K i))) k := by
  refine (((w.logits hT).mapLast fun _ r => xsoftmax r).mapLast fun _ r => xcumsum r).congr fun i k _ _ => ?_
  simp only [atK_fin]
  rfl

theorem Wf.quantileLimits (w : d.Wf B s K) (hT : BLe B t) :
    EWT t [K + 1] (AE.concatLast ((d.logits.softmaxA.cumsumA.takeLast 1).fullLike (0 : XR)) d.logits.softmaxA.cumsumA) [B]
      fun i k => atK (d.entry K i).quantileLimits k := by
  have z : ∀ u, BLe B u → EWT u [1] ((d.logits.softmaxA.cumsumA.takeLast 1).fullLike (0 : XR)) [B] fun _ _ => (0 : XR) := by
    intro u hu
    have := ((w.cum hu).takeLast 1).map fun _ => (0 : XR)
    rwa [min_eq_left w.pos] at this
  have h := EWT.concatLast hT (z t hT) (w.cum hT) (z B (BLe.refl B)) (w.cum (BLe.refl B))
  rw [Nat.add_comm 1 K] at h
  refine h.congr fun i k _ hk => ?_
  obtain ⟨q, rfl⟩ := inRange_one_iff.1 hk
  rw [atK_fin]
  simp only [List.headD_cons, CatUniform.quantileLimits]
  refine Fin.cases ?_ (fun j => ?_) q
  · simp
  · simp only [Fin.val_succ, Fin.cons_succ]
    refine (if_neg (by simp)).trans ?_
    rw [Nat.add_sub_cancel, atK_fin]
    rfl

theorem Wf.inverseCdf (w : d.Wf B s K) (hT : BLe B t) {q : AE ℝ} {L f} (hq : EW t q L f) :
    EW t (d.inverseCdf q) (B :: L) fun i => (d.entry K i).inverseCdf (f i) := by
  have hlim := w.limits hT
  have hql := w.quantileLimits hT
  have dd : EWT t [K] d.limits.diffLast _ _ := hlim.tailLast.bin hlim.initLast (· - ·)
  have qd := hql.tailLast.bin hql.initLast (· - ·)
  have sl := (dd.map fin).bin qd (· / ·)
  have qe := EWT.expandAt (e := []) (f := []) (n := 0) rfl (hq.ext.toEWT)
  have rel := (qe.keep_bin hql.initLast (· - ·)).map XR.relu
  have qc := qd.bin rel XR.min
  have sm := EWT.reduceLast0 (sl.bin qc (· * ·)) fun _ r => ∑ k, r k
  have := (w.low hT).ext.bin sm (· + ·)
  refine (this.weaken (M := B :: L) (by simp +contextual)).congr fun i _ => ?_
  simp only [CatUniform.inverseCdf]
  congr 1
  refine Finset.sum_congr rfl fun k _ => ?_
  have e1 : atK (d.entry K i).quantileLimits [(k : ℕ) + 1] = (d.entry K i).quantileLimits k.succ := atK_fin _ k.succ
  have e2 : atK (d.entry K i).quantileLimits [(k : ℕ)] = (d.entry K i).quantileLimits k.castSucc := atK_fin _ k.castSucc
  simp only [List.headD_cons, e1, e2]

end CatUniA

end Distrax
