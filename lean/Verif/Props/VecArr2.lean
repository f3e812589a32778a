import Verif.Props.VecArr

/-! # C64: Multinomial and Dirichlet act row by row -/

namespace Distrax

open Spec XR

noncomputable section

variable {t : List ℕ} {K : ℕ}

theorem ew_expand {α : Type} {x : AE α} {L f} (h : EW t x L f) : EWT t [1] (x.expandAt 0) L fun i _ => f i :=
  EWT.expandAt (e := []) (f := []) rfl h.toEWT

theorem ewt_row_congr {α : Type} {x : AE α} {L g g'} (h : EWT t [K] x L g)
    (hg : ∀ i, InRange t i → ∀ k : Fin K, g i [(k : ℕ)] = g' i [(k : ℕ)]) : EWT t [K] x L g' :=
  h.congr fun i k hi hk => by
    obtain ⟨j, rfl⟩ := inRange_one_iff.1 hk
    exact hg i hi j

namespace MultA

/-- The single-row distribution at batch position `i`. -/
def row (d : MultA) (K : ℕ) (i : List ℕ) : Mult K := ⟨bget d.total i, d.cat.row K i⟩

/-- The invariant of constructed objects. -/
structure Wf (d : MultA) (B : List ℕ) (K : ℕ) : Prop where
  cat : d.cat.Wf B K
  batch : broadcastShapes B d.total.shape = some d.batch

variable {d : MultA} {B : List ℕ}

theorem Wf.event (h : d.Wf B K) : d.eventShape = [K] := by
  obtain ⟨tot, c, b⟩ := d
  rcases h.cat with ⟨a, ha, hs⟩ | ⟨a, ha, hs⟩ <;> simp only at ha <;> subst ha <;> simp [eventShape, hs]

theorem Wf.logOfProbs_ew (h : d.Wf B K) (ht : BLe d.batch t) :
    EWT t [K] d.logOfProbs [d.batch] fun i k => atK (d.row K i).logOfProbs k := by
  rw [logOfProbs, h.event]
  exact (h.cat.logits_ew ((BLe.left h.batch).trans ht)).broadcastTo ht (h.cat.logits_ew (BLe.left h.batch))

theorem Wf.probs_ew (h : d.Wf B K) (ht : BLe d.batch t) :
    EWT t [K] d.probs [d.batch] fun i k => atK (d.row K i).probs k := by
  rw [probs, h.event]
  exact (h.cat.probs_ew ((BLe.left h.batch).trans ht)).broadcastTo ht (h.cat.probs_ew (BLe.left h.batch))

theorem Wf.total_ew (h : d.Wf B K) (ht : BLe d.batch t) : EW t (AE.arr d.total) [d.total.shape] (bget d.total) :=
  EW.arr ((BLe.right h.batch).trans ht)

theorem logProb_row (h : d.Wf B K) (v : BArr ℝ) (u : List ℕ) (hv : v.shape = u ++ [K])
    (ht : broadcastShapes d.batch u = some t) :
    PerEntry (d.logProb (.arr v)) t fun i => (d.row K i).logProb (brow v K i) := by
  have hb := BLe.left ht
  have hvw := EWT.arr (e := [K]) hv (BLe.right ht)
  have h1 := (h.total_ew hb).map fun (n : ℕ) => xlgamma (n + 1)
  have h2 := (hvw.map fun v => xlgamma (v + 1)).reduceLast0 fun _ r => ∑ k, r k
  have h3 := ((h.logOfProbs_ew hb).bin (hvw.map fin) multiplyNoNan).reduceLast0 fun _ r => ∑ k, r k
  have := (h1.sub h2).add h3
  refine CatA.ew_entry this ht (by simp) (by simp) fun i hi => ?_
  simp only [atK_fin]
  rfl

theorem total_row (h : d.Wf B K) : PerEntry d.totalCount d.batch fun i => (d.row K i).numTrials :=
  ((h.total_ew (BLe.refl _)).broadcastTo (BLe.refl _) rfl (BLe.right h.batch)).perEntry (fun _ hu _ => hu _ (by simp))
    fun _ _ => rfl

theorem mean_row (h : d.Wf B K) : PerRow d.mean d.batch K fun i => (d.row K i).mean := by
  have hb := BLe.refl d.batch
  refine ((ew_expand ((h.total_ew hb).map fun (n : ℕ) => fin (n : ℝ))).keep_bin (h.probs_ew hb) (· * ·)).perRow
    (fun _ hu _ => hu _ (by simp)) fun i _ k => ?_
  simp only [atK_fin]
  rfl

theorem variance_row (h : d.Wf B K) : PerRow d.variance d.batch K fun i => (d.row K i).variance := by
  have hb := BLe.refl d.batch
  have h1 := (ew_expand ((h.total_ew hb).map fun (n : ℕ) => fin (n : ℝ))).keep_bin (h.probs_ew hb) (· * ·)
  refine (h1.bin ((h.probs_ew hb).scalar_bin 1 (· - ·)) (· * ·)).perRow (fun _ hu _ => hu _ (by simp)) fun i _ k => ?_
  simp only [atK_fin]
  rfl

theorem bc_outer (K : ℕ) : broadcastShapes [1, K] [K, 1] = some [K, K] := by
  simp only [broadcastShapes, List.reverse_cons, List.reverse_nil, List.nil_append, List.cons_append, brev, bdim]
  split_ifs <;> simp_all

theorem bc_outer' (K : ℕ) : broadcastShapes [1, 1] [K, K] = some [K, K] := by
  simp only [broadcastShapes, List.reverse_cons, List.reverse_nil, List.nil_append, List.cons_append, brev, bdim]
  split_ifs <;> simp_all

theorem proj2 {a b p q : ℕ} : proj [a, b] [p, q] = [if a = 1 then 0 else p, if b = 1 then 0 else q] := by simp [proj]

theorem fin_ite {K : ℕ} (j : Fin K) : (if K = 1 then 0 else (j : ℕ)) = j := by
  have := j.2
  split_ifs <;> omega

theorem covariance_row (h : d.Wf B K) : PerMatrix d.covariance d.batch K fun i => (d.row K i).covariance := by
  have hb := BLe.refl d.batch
  have ht := ew_expand ((h.total_ew hb).map fun (n : ℕ) => fin (n : ℝ))
  have htt : EWT d.batch [1, 1] _ _ _ := EWT.expandAt (e := [1]) (f := []) (n := 0) rfl ht
  have hp := h.probs_ew hb
  have p1 : EWT d.batch [1, K] _ _ _ := EWT.expandAt (e := []) (f := [K]) (n := 1) rfl hp
  have p0 : EWT d.batch [K, 1] _ _ _ := EWT.expandAt (e := [K]) (f := []) (n := 0) rfl hp
  have ho := p1.bin' p0 rfl (bc_outer K) (· * ·)
  have hc := (htt.map fun x => -x).bin' ho rfl (bc_outer' K) (· * ·)
  have hd := hc.bin (ht.keep_bin hp (· * ·)).diagLast (· + ·)
  have hsh : (-((d.totalX.expandAt 0).expandAt 0) * (d.probs.expandAt 1 * d.probs.expandAt 0)).shape
      = d.probs.shape ++ d.eventShape := by
    have hc' := hc
    obtain ⟨a, s, q1, q2, q3, q4, -⟩ := hc'
    obtain ⟨a', s', q1', q2', q3', q4', -⟩ := hp
    have e1 : s = d.batch := BLe.antisymm q3 (q4 _ (by simp))
    have e2 : s' = d.batch := BLe.antisymm q3' (q4' _ (by simp))
    have : (-((d.totalX.expandAt 0).expandAt 0) * (d.probs.expandAt 1 * d.probs.expandAt 0)) = AE.arr a := q1
    rw [this, q1', h.event]
    show a.shape = a'.shape ++ [K]
    rw [q2, q2', e1, e2]
    simp
  have hcov : d.covariance = -((d.totalX.expandAt 0).expandAt 0) * (d.probs.expandAt 1 * d.probs.expandAt 0)
      + (d.totalX.expandAt 0 * d.probs).diagLast := if_pos hsh
  rw [hcov]
  refine EWT.perMatrix hd (fun _ hu _ => hu _ (by simp)) fun i _ j k => ?_
  have hz : proj [1, 1] [(j : ℕ), (k : ℕ)] = [0, 0] := by simp [proj2]
  have h1 : proj [1, K] (proj [K, K] [(j : ℕ), (k : ℕ)]) = [0, (k : ℕ)] := by
    simp only [proj2, fin_ite, if_true]
  have h2 : proj [K, 1] (proj [K, K] [(j : ℕ), (k : ℕ)]) = [(j : ℕ), 0] := by
    simp only [proj2, fin_ite, if_true]
  simp only [h1, h2]
  simp only [List.length_nil, List.take_zero, List.nil_append, List.length_singleton,
    List.take_succ_cons, zero_add, List.drop_succ_cons, List.drop_zero, List.drop_nil, List.append_nil, List.headD_cons, atK_fin, Mult.covariance]
  have hjk : ((j : ℕ) = (k : ℕ)) ↔ j = k := Fin.ext_iff.symm
  refine congrArg₂ (· + ·) rfl ?_
  by_cases hq : j = k
  · rw [if_pos hq, if_pos (by subst hq; rfl)]
    rfl
  · rw [if_neg hq]
    exact if_neg fun h => hq (hjk.1 h)

end MultA

/-- **C64** (Multinomial): `total_count` of any shape, parameters of any shape `B + (K,)`; every method is, at each
position of the broadcast batch shape, that of the single-row distribution built from the entries assigned to it. -/
theorem C64_multinomial (total : BArr ℕ) (logits probs : Option (BArr XR)) (dt : DType) (B : List ℕ) (K : ℕ) (d : MultA)
    (hs : ∀ a, logits = some a ∨ probs = some a → a.shape = B ++ [K]) (h : MultA.init total logits probs dt = .ok d) :
    broadcastShapes B total.shape = some d.batch ∧ d.eventShape = [K] ∧
    ∃ rows : List ℕ → Mult K,
      (∀ t i, broadcastShapes d.batch t = some t → InRange t i →
        Mult.init (bget total i) (logits.map fun a => brow a K i) (probs.map fun a => brow a K i) dt = .ok (rows i)) ∧
      PerEntry d.totalCount d.batch (fun i => (rows i).numTrials) ∧
      PerRow d.logOfProbs d.batch K (fun i => (rows i).logOfProbs) ∧
      PerRow d.probs d.batch K (fun i => (rows i).probs) ∧
      (∀ (v : BArr ℝ) (u t : List ℕ), v.shape = u ++ [K] → broadcastShapes d.batch u = some t →
        PerEntry (d.logProb (.arr v)) t fun i => (rows i).logProb (brow v K i)) ∧
      PerRow d.mean d.batch K (fun i => (rows i).mean) ∧
      PerRow d.variance d.batch K (fun i => (rows i).variance) ∧
      PerMatrix d.covariance d.batch K (fun i => (rows i).covariance) := by
  have key : ∃ c, CatA.init (logits.map AE.arr) (probs.map AE.arr) dt = .ok c ∧ 2 ≤ K ∧
      d.cat = c ∧ d.total = total ∧ broadcastShapes c.parameter.shape.dropLast total.shape = some d.batch ∧
      logits.isNone ≠ probs.isNone := by
    simp only [MultA.init] at h
    split_ifs at h with h1 h2 h3
    cases hc : CatA.init (logits.map AE.arr) (probs.map AE.arr) dt with
    | error e => simp [hc] at h
    | ok c =>
      simp only [hc] at h
      cases hb : broadcastShapes c.parameter.shape.dropLast total.shape with
      | none => simp [hb] at h
      | some b =>
        simp only [hb, Except.ok.injEq] at h
        subst h
        refine ⟨c, rfl, ?_, rfl, rfl, hb, h1⟩
        rcases logits with _ | l <;> rcases probs with _ | p
        · simp at h1
        · have : 1 < K := by simpa [hs p (Or.inr rfl)] using h3
          exact this
        · have : 1 < K := by simpa [hs l (Or.inl rfl)] using h2
          exact this
        · simp at h1
  obtain ⟨c, hc, hK, e1, e2, hb, hn⟩ := key
  have hw : c.Wf B K ∧ ∀ t i, BLe B t → InRange t i →
        Cat.init (logits.map fun a => brow a K i) (probs.map fun a => brow a K i) dt = .ok (c.row K i) := by
    rcases logits with _ | l <;> rcases probs with _ | p
    · simp at hn
    · exact CatA.init_probs (CatA.Rows.arr (hs p (Or.inr rfl))) hc
    · exact CatA.init_logits (CatA.Rows.arr (hs l (Or.inl rfl))) hc
    · simp at hn
  have hsh : c.parameter.shape.dropLast = B := by
    obtain ⟨a, s, q1, q2, q3, q4, -⟩ := hw.1.parameter_ew (BLe.refl B)
    rw [q1]
    show a.shape.dropLast = B
    rw [q2, BLe.antisymm q3 (q4 _ (by simp)), List.dropLast_concat]
  rw [hsh] at hb
  have w : d.Wf B K := ⟨by rw [e1]; exact hw.1, by rw [e2]; exact hb⟩
  refine ⟨hb, w.event, d.row K, fun t i ht hi => ?_, MultA.total_row w,
    (w.logOfProbs_ew (BLe.refl _)).perRow (fun _ hu _ => hu _ (by simp)) (fun i _ k => atK_fin _ _),
    (w.probs_ew (BLe.refl _)).perRow (fun _ hu _ => hu _ (by simp)) (fun i _ k => atK_fin _ _),
    fun v u t hv ht => MultA.logProb_row w v u hv ht, MultA.mean_row w, MultA.variance_row w, MultA.covariance_row w⟩
  have hr := hw.2 t i ((BLe.left hb).trans ht) hi
  have hdt : dt = .integer ∨ dt = .floating := by
    by_contra hcon
    simp only [Cat.init, hcon, not_false_eq_true, if_true] at hr
    split_ifs at hr
  simp only [Cat.init, hdt, not_true, if_false] at hr
  simp only [Option.isNone_map] at hr
  rw [if_neg hn] at hr
  have hr' := Except.ok.inj hr
  simp only [Mult.init, Option.isNone_map, Option.isSome_map, hdt, not_true, if_false]
  rw [if_neg hn, if_neg (by omega), if_neg (by omega), MultA.row, e1, e2, ← hr']

/-- Counts of shape `(2, 1)` against a batch of three rows of three logits. -/
example : ∃ (n : BArr ℕ) (a : BArr XR) (d : MultA), a.shape = [3] ++ [3] ∧ n.shape = [2, 1] ∧
    MultA.init n (some a) none .integer = .ok d ∧ d.batch = [2, 3] := by
  let n : BArr ℕ := ⟨[2, 1], fun i => i.sum + 1⟩
  let a : BArr XR := ⟨[3, 3], fun i => fin (i.sum : ℝ)⟩
  obtain ⟨b, q1, q2, -⟩ := (CatA.Rows.arr (a := a) (B := [3]) (K := 3) rfl).normLogits.ok
  have hc : CatA.init ((some a).map AE.arr) ((none : Option (BArr XR)).map AE.arr) .integer = .ok ⟨none, some b⟩ := by
    simp [CatA.init, q1]
  refine ⟨n, a, ⟨n, ⟨none, some b⟩, [2, 3]⟩, rfl, rfl, ?_, rfl⟩
  have hp : (CatA.parameter ⟨none, some b⟩).shape.dropLast = [3] := by
    show b.shape.dropLast = [3]
    simp [q2]
  have hbc : broadcastShapes [3] n.shape = some [2, 3] := by decide
  have hl : ¬ (Option.any (fun l : BArr XR => decide (l.shape.getLast?.getD 0 < 2)) (some a) = true) := by decide
  unfold MultA.init
  rw [if_neg (by simp), if_neg hl, if_neg (by simp), hc]
  simp only [hp, hbc]

/-! ### Dirichlet -/

namespace DirA

/-- A concentration expression of shape `B + (K,)` with rows `r i`, however far it is broadcast. -/
def Rows (B : List ℕ) (K : ℕ) (x : AE ℝ) (r : List ℕ → Fin K → ℝ) : Prop :=
  ∀ t, BLe B t → ∃ L, B ∈ L ∧ EWT t [K] x L fun i k => atK (r i) k

variable {B : List ℕ}

theorem Rows.arr {a : BArr ℝ} (ha : a.shape = B ++ [K]) : Rows B K (AE.arr a) (brow a K) := fun t ht =>
  ⟨[B], by simp, (EWT.arr ha ht).congr fun i k hi hk => by
    obtain ⟨j, rfl⟩ := inRange_one_iff.1 hk
    rw [atK_fin]; rfl⟩

theorem logBeta_ew {x : AE ℝ} {L} {r : List ℕ → Fin K → ℝ} (h : EWT t [K] x L fun i k => atK (r i) k) :
    EW t (logBetaMultivariateA x) (L ++ L) fun i => logBetaMultivariate (r i) := by
  have := ((h.map lgamma).reduceLast0 fun _ r => ∑ k, r k).sub ((h.reduceLast0 fun _ r => ∑ k, r k).map lgamma)
  simp only [atK_fin] at this
  exact this

theorem last_of_rows {x : AE ℝ} {r : List ℕ → Fin K → ℝ} (h : Rows B K x r) : x.shape.getLast?.getD 0 = K := by
  obtain ⟨L, hL, a, s, q1, q2, -⟩ := h B (BLe.refl B)
  rw [q1]
  show a.shape.getLast?.getD 0 = K
  simp [q2]

theorem klOf_row {B1 B2 : List ℕ} {x1 x2 : AE ℝ} {r1 r2 : List ℕ → Fin K → ℝ} (h1 : Rows B1 K x1 r1)
    (h2 : Rows B2 K x2 r2) (ht : broadcastShapes B1 B2 = some t) :
    ∃ f : List ℕ → ℝ, PerEntry (klOf x1 x2) t f ∧
      ∀ i, InRange t i → Dir.kl (⟨r1 i⟩ : Dir K) (⟨r2 i⟩ : Dir K) = .ok (f i) := by
  obtain ⟨L, hL, e1⟩ := h1 t (BLe.left ht)
  obtain ⟨M, hM, e2⟩ := h2 t (BLe.right ht)
  have hs := e1.keepLast fun _ r => ∑ k, r k
  have t1 := (logBeta_ew e2).sub (logBeta_ew e1)
  have t2 := ((e1.bin e2 (· - ·)).bin ((e1.map digamma).bin_keep (hs.map digamma) (· - ·)) (· * ·)).reduceLast0
    fun _ r => ∑ k, r k
  have hk : klOf x1 x2 = logBetaMultivariateA x2 - logBetaMultivariateA x1
      + AE.sumLast ((x1 - x2) * (x1.map digamma - (x1.sumKeep).map digamma)) :=
    if_neg (not_not.2 ((last_of_rows h1).trans (last_of_rows h2).symm))
  refine ⟨_, CatA.ew_entry (x := klOf x1 x2) (by rw [hk]; exact t1.add t2) ht (by simp [hL]) (by simp [hM]) fun i hi => rfl,
    fun i hi => ?_⟩
  simp only [Dir.kl, atK_fin]
  simp

end DirA

/-- The constructor accepts every array whose last axis has at least two entries. -/
theorem DirA.init_ok (c : BArr ℝ) (B : List ℕ) (K : ℕ) (hs : c.shape = B ++ [K]) (hK : 2 ≤ K) :
    ∃ d, DirA.init c = .ok d := by
  obtain ⟨z, q1, -⟩ := DirA.logBeta_ew (t := B) (r := fun i => brow c K i) ((EWT.arr hs (BLe.refl B)).congr fun i k hi hk => by
      obtain ⟨j, rfl⟩ := inRange_one_iff.1 hk
      rw [atK_fin]; rfl)
  have q1' : logBetaMultivariateA (AE.arr c) = .ok z := q1
  refine ⟨⟨c, z⟩, ?_⟩
  unfold DirA.init
  rw [if_neg (by simp [hs]), if_neg (by simp [hs]; omega), q1']

/-- **C64** (Dirichlet): every method is, at each batch position, that of the single-row distribution. -/
theorem C64_dirichlet (c : BArr ℝ) (B : List ℕ) (K : ℕ) (d : DirA) (hs : c.shape = B ++ [K]) (h : DirA.init c = .ok d) :
    ∃ rows : List ℕ → Dir K,
      (∀ i, Dir.init (brow c K i) = .ok (rows i)) ∧
      (∀ (v : BArr ℝ) (u t : List ℕ), v.shape = u ++ [K] → broadcastShapes B u = some t →
        PerEntry (d.logProb (.arr v)) t fun i => (rows i).logProb (brow v K i)) ∧
      PerEntry d.entropy B (fun i => (rows i).entropy) ∧
      PerRow d.mean B K (fun i => (rows i).mean) ∧
      PerRow d.mode B K (fun i => (rows i).mode) ∧
      PerRow d.variance B K (fun i => (rows i).variance) ∧
      PerMatrix d.covariance B K (fun i => (rows i).covariance) := by
  have hK : c.shape.getLast?.getD 0 = K := by simp [hs]
  have key : 2 ≤ K ∧ ∃ z, logBetaMultivariateA (AE.arr c) = .ok z ∧ d = ⟨c, z⟩ := by
    simp only [DirA.init, hK] at h
    split_ifs at h with h1 h2
    cases hz : logBetaMultivariateA (AE.arr c) with
    | error e => simp [hz] at h
    | ok z =>
      simp only [hz, Except.ok.injEq] at h
      exact ⟨by omega, z, rfl, h.symm⟩
  obtain ⟨hK2, z, hz, rfl⟩ := key
  have hc : ∀ t, BLe B t → EWT t [K] (AE.arr c) [B] fun i k => atK (brow c K i) k := fun t ht =>
    (EWT.arr hs ht).congr fun i k hi hk => by
      obtain ⟨j, rfl⟩ := inRange_one_iff.1 hk
      rw [atK_fin]; rfl
  have hzw : ∀ t, BLe B t → EW t (AE.arr z) ([B] ++ [B]) fun i => logBetaMultivariate (brow c K i) := fun t ht => by
    have := DirA.logBeta_ew (hc t ht)
    rwa [hz] at this
  have hb := hc B (BLe.refl B)
  have hsum := hb.keepLast fun _ r => ∑ k, r k
  have hnorm := hb.bin_keep hsum (· / ·)
  have hm1 := hb.bin_scalar (1 : ℝ) (· - ·)
  refine ⟨fun i => ⟨brow c K i⟩, fun i => ?_, fun v u t hv ht => ?_, ?_, ?_, ?_, ?_, ?_⟩
  · exact if_neg (by omega)
  · have e1 := (((hc t (BLe.left ht)).bin_scalar (1 : ℝ) (· - ·)).map fin).bin
      ((EWT.arr (e := [K]) hv (BLe.right ht)).map fun x => XR.log (fin x)) (· * ·)
    refine CatA.ew_entry ((e1.reduceLast0 fun _ r => ∑ k, r k).sub ((hzw t (BLe.left ht)).map fin)) ht (by simp) (by simp)
      fun i hi => ?_
    simp only [atK_fin]
    rfl
  · have hsl := hb.reduceLast0 fun _ r => ∑ k, r k
    have e1 := (hm1.bin (hb.map digamma) (· * ·)).reduceLast0 fun _ r => ∑ k, r k
    have := ((hzw B (BLe.refl B)).add ((hsl.sub (EW.scalar (K : ℝ))).mul (hsl.map digamma))).sub e1
    rw [show (DirA.mk c z).entropy = _ from by rw [DirA.entropy, hK]]
    refine CatA.ew_batch this (by simp) fun i hi => ?_
    simp only [atK_fin]
    rfl
  · refine hnorm.perRow (fun _ hu _ => hu _ (by simp)) fun i _ k => ?_
    simp only [atK_fin]
    rfl
  · have hr := hm1.bin_keep (hm1.keepLast fun _ r => ∑ k, r k) (· / ·)
    have hw := (hb.keepLast fun _ r => ∀ k, 1 < r k).whr_keep_scalar (hr.map fin) nan
    refine hw.perRow (fun _ hu _ => hu _ (by simp)) fun i _ k => ?_
    simp only [atK_fin]
    by_cases hq : ∀ k, 1 < brow c K i k
    · rw [Dir.mode, if_pos hq]
    · rw [Dir.mode, if_neg hq]
  · have := (hnorm.bin (hnorm.scalar_bin (1 : ℝ) (· - ·)) (· * ·)).bin_keep (hsum.bin_scalar (1 : ℝ) (· + ·)) (· / ·)
    refine this.perRow (fun _ hu _ => hu _ (by simp)) fun i _ k => ?_
    simp only [atK_fin]
    rfl
  · have hos := hnorm.bin_keep (hsum.bin_scalar (1 : ℝ) (· + ·)) (· / ·)
    have p0 : EWT B [K, 1] _ _ _ := EWT.expandAt (e := [K]) (f := []) (n := 0) rfl hos
    have p1 : EWT B [1, K] _ _ _ := EWT.expandAt (e := []) (f := [K]) (n := 1) rfl hnorm
    have ho := (p0.map fun x => -x).bin' p1 rfl (by rw [broadcastShapes_comm]; exact MultA.bc_outer K) (· * ·)
    refine EWT.perMatrix (ho.bin hos.diagLast (· + ·)) (fun _ hu _ => hu _ (by simp)) fun i _ j k => ?_
    have h1 : proj [1, K] [(j : ℕ), (k : ℕ)] = [0, (k : ℕ)] := by simp only [MultA.proj2, MultA.fin_ite, if_true]
    have h2 : proj [K, 1] [(j : ℕ), (k : ℕ)] = [(j : ℕ), 0] := by simp only [MultA.proj2, MultA.fin_ite, if_true]
    simp only [h1, h2]
    simp only [List.length_nil, List.take_zero, List.nil_append, List.length_singleton,
      List.take_succ_cons, zero_add, List.drop_succ_cons, List.drop_zero, List.drop_nil, List.append_nil, List.headD_cons,
      atK_fin, Dir.covariance]
    have hjk : ((j : ℕ) = (k : ℕ)) ↔ j = k := Fin.ext_iff.symm
    refine congrArg₂ (· + ·) rfl ?_
    by_cases hq : j = k
    · rw [if_pos hq, if_pos (by subst hq; rfl)]
    · rw [if_neg hq]
      exact if_neg fun h => hq (hjk.1 h)

/-- A batch of two three-dimensional Dirichlets. -/
example : ∃ (c : BArr ℝ) (d : DirA), c.shape = [2] ++ [3] ∧ DirA.init c = .ok d := by
  obtain ⟨d, hd⟩ := DirA.init_ok ⟨[2, 3], fun i => i.sum + 1⟩ [2] 3 rfl (by omega)
  exact ⟨_, d, rfl, hd⟩

/-- **C64** (the divergence of two Dirichlets): broadcast over the two batch shapes, row against row; different event sizes
are rejected. -/
theorem C64_dirichlet_kl (c1 c2 : BArr ℝ) (B1 B2 : List ℕ) (K1 K2 : ℕ) (d1 d2 : DirA) (hs1 : c1.shape = B1 ++ [K1])
    (hs2 : c2.shape = B2 ++ [K2]) (h1 : DirA.init c1 = .ok d1) (h2 : DirA.init c2 = .ok d2) :
    (K1 ≠ K2 → DirA.kl d1 d2 = Except.error .valueError) ∧
    (K1 = K2 → ∀ t, broadcastShapes B1 B2 = some t → ∃ f : List ℕ → ℝ, PerEntry (DirA.kl d1 d2) t f ∧
      ∀ i, InRange t i → ∃ r1 r2, Dir.init (brow c1 K1 i) = .ok r1 ∧ Dir.init (brow c2 K2 i) = .ok r2 ∧
        Dir.kl r1 r2 = .ok (f i)) := by
  have key : ∀ (c : BArr ℝ) (B : List ℕ) (K : ℕ) (d : DirA), c.shape = B ++ [K] → DirA.init c = .ok d →
      d.concentration = c ∧ 2 ≤ K := by
    intro c B K d hs h
    have hK : c.shape.getLast?.getD 0 = K := by simp [hs]
    simp only [DirA.init, hK] at h
    split_ifs at h with h1 h2
    cases hz : logBetaMultivariateA (AE.arr c) with
    | error e => simp [hz] at h
    | ok z =>
      simp only [hz, Except.ok.injEq] at h
      exact ⟨by rw [← h], by omega⟩
  obtain ⟨e1, k1⟩ := key _ _ _ _ hs1 h1
  obtain ⟨e2, k2⟩ := key _ _ _ _ hs2 h2
  refine ⟨fun hK => ?_, fun hK t ht => ?_⟩
  · have : (AE.arr c1).shape.getLast?.getD 0 ≠ (AE.arr c2).shape.getLast?.getD 0 := by
      show c1.shape.getLast?.getD 0 ≠ c2.shape.getLast?.getD 0
      simpa [hs1, hs2] using hK
    rw [DirA.kl, DirA.c, DirA.c, e1, e2]
    exact if_pos this
  · subst hK
    obtain ⟨f, hf, hk⟩ := DirA.klOf_row (DirA.Rows.arr hs1) (DirA.Rows.arr hs2) ht
    refine ⟨f, by rw [DirA.kl, DirA.c, DirA.c, e1, e2]; exact hf, fun i hi => ⟨⟨brow c1 K1 i⟩, ⟨brow c2 K1 i⟩, ?_, ?_, hk i hi⟩⟩
    · exact if_neg (by omega)
    · exact if_neg (by omega)

/-- Dirichlets of batch shapes `(2, 1)` and `(3,)`. -/
example : ∃ (c1 c2 : BArr ℝ) (d1 d2 : DirA), c1.shape = [2, 1] ++ [3] ∧ c2.shape = [3] ++ [3] ∧ DirA.init c1 = .ok d1 ∧
    DirA.init c2 = .ok d2 ∧ broadcastShapes [2, 1] [3] = some [2, 3] := by
  obtain ⟨d1, h1⟩ := DirA.init_ok ⟨[2, 1, 3], fun i => i.sum + 1⟩ [2, 1] 3 rfl (by omega)
  obtain ⟨d2, h2⟩ := DirA.init_ok ⟨[3, 3], fun i => i.sum + 1⟩ [3] 3 rfl (by omega)
  exact ⟨_, _, d1, d2, rfl, rfl, h1, h2, by decide⟩

/-- **C64** (the divergence of a Beta from a Dirichlet and conversely): the batched Beta parameters are stacked along a
new last axis, so that entry `i` is the Dirichlet `(alpha_i, beta_i)`. -/
theorem C64_beta_dirichlet_kl (al be : BArr ℝ) (b : P2) (c : BArr ℝ) (B : List ℕ) (hb : P2.init al be = .ok b)
    (hs : c.shape = B ++ [2]) (t : List ℕ) (ht : broadcastShapes b.batch B = some t) :
    (∃ f : List ℕ → ℝ, PerEntry (DirA.klOf (DirA.ofBeta b) (.arr c)) t f ∧ ∀ i, InRange t i →
      Dir.kl (Dir.ofBeta ⟨bget al i, bget be i⟩) (⟨brow c 2 i⟩ : Dir 2) = .ok (f i)) ∧
    (∃ f : List ℕ → ℝ, PerEntry (DirA.klOf (.arr c) (DirA.ofBeta b)) t f ∧ ∀ i, InRange t i →
      Dir.kl (⟨brow c 2 i⟩ : Dir 2) (Dir.ofBeta ⟨bget al i, bget be i⟩) = .ok (f i)) := by
  have hbs : broadcastShapes al.shape be.shape = some b.batch ∧ b.p = al ∧ b.q = be := by
    unfold P2.init at hb
    split at hb
    · next s hs' =>
      obtain rfl := (Except.ok.inj hb)
      exact ⟨hs', rfl, rfl⟩
    · simp at hb
  obtain ⟨hj, e1, e2⟩ := hbs
  have hr : DirA.Rows b.batch 2 (DirA.ofBeta b) fun i => ![bget al i, bget be i] := by
    intro t ht
    have hof : DirA.ofBeta b = AE.arr ⟨b.batch ++ [2], fun i => if i.getLast?.getD 0 = 0 then
        al.data (proj al.shape i.dropLast) else be.data (proj be.shape i.dropLast)⟩ := by
      have f1 : b.pB = AE.arr ⟨b.batch, fun i => al.data (proj al.shape i)⟩ := by
        rw [P2.pB, P2.p_, e1]; exact if_pos (BLe.left hj)
      have f2 : b.qB = AE.arr ⟨b.batch, fun i => be.data (proj be.shape i)⟩ := by
        rw [P2.qB, P2.q_, e2]; exact if_pos (BLe.right hj)
      rw [DirA.ofBeta, f1, f2]
      exact if_pos rfl
    rw [hof]
    refine ⟨[b.batch], by simp, _, b.batch, rfl, rfl, ht, by simp [BLe.refl], fun i k hi hk => ?_⟩
    have hle : b.batch.length ≤ i.length := by rw [hi.length]; exact BLe.length ht
    obtain ⟨j, rfl⟩ := inRange_one_iff.1 hk
    simp only [List.getLast?_concat, List.dropLast_concat, Option.getD_some, atK_fin, (BLe.left hj).proj hle,
      (BLe.right hj).proj hle]
    fin_cases j <;> simp [bget]
  exact ⟨DirA.klOf_row hr (DirA.Rows.arr hs) ht,
    DirA.klOf_row (DirA.Rows.arr hs) hr (by rw [broadcastShapes_comm]; exact ht)⟩

example : ∃ (al be : BArr ℝ) (b : P2) (c : BArr ℝ), P2.init al be = .ok b ∧ c.shape = [3] ++ [2] ∧
    broadcastShapes b.batch [3] = some [2, 3] :=
  ⟨⟨[2, 1], fun _ => 1⟩, ⟨[], fun _ => 2⟩, ⟨⟨[2, 1], fun _ => 1⟩, ⟨[], fun _ => 2⟩, [2, 1]⟩, ⟨[3, 2], fun _ => 1⟩, rfl, rfl,
    by decide⟩

end

end Distrax
