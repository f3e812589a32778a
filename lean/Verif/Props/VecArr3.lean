import Verif.Props.VecArr2
import Verif.Props.FamArr
import Verif.Lemmas.JacobianArr

/-! # C64: mixtures and Independent act batch entry by batch entry -/

namespace Distrax

open Spec XR

noncomputable section

variable {t : List ℕ} {K : ℕ}

theorem brev_ones_right : ∀ (e : List ℕ), brev e (List.replicate e.length 1) = some e
  | [] => by simp [brev]
  | a :: e => by
    simp only [List.length_cons, List.replicate_succ, brev, brev_ones_right e, bdim]
    split_ifs <;> simp_all

theorem bc_ones (e : List ℕ) : broadcastShapes e (List.replicate e.length 1) = some e := by
  rw [broadcastShapes_iff, List.reverse_replicate]
  simpa using brev_ones_right e.reverse

theorem bc_cons (K : ℕ) (e : List ℕ) : broadcastShapes (K :: e) ([K] ++ List.replicate e.length 1) = some (K :: e) :=
  broadcast_append2 (a := [K]) (c := [K]) (b := e) (by simp) (broadcastShapes_self _) (bc_ones e)

theorem bc_cons' (K : ℕ) (e : List ℕ) : broadcastShapes (K :: e) (1 :: e) = some (K :: e) :=
  broadcast_append2 (a := [K]) (c := [1]) (b := e) (d := e) rfl (bc_keep K) (broadcastShapes_self _)

/-- The blocks of an array of shape `(B + (K,)) + E`. -/
theorem perEvent_ewt {α : Type} {x : AE α} {B E : List ℕ} {f : List ℕ → Idx E → α} {g : List ℕ → List ℕ → α}
    (h : PerEvent x (B ++ [K]) E f)
    (hg : ∀ i, InRange B i → ∀ (k : Fin K) (j : Idx E), f (i ++ [(k : ℕ)]) j = g i ((k : ℕ) :: j.1)) :
    EWT B (K :: E) x [B] g := by
  obtain ⟨a, q1, q2, q3⟩ := h
  refine ⟨a, B, q1, by simp [q2], BLe.refl _, by simp [BLe.refl], fun i k hi hk => ?_⟩
  rw [proj_self hi]
  obtain ⟨k1, k2, hk1, hk2, rfl⟩ := inRange_split (s := [K]) (t := E) hk
  obtain ⟨p, rfl⟩ := inRange_one_iff.1 hk1
  have := q3 (i ++ [(p : ℕ)]) (hi.append (inRange_fin p)) ⟨k2, hk2⟩
  rw [hg i hi p ⟨k2, hk2⟩] at this
  simpa using this

/-- Read an event coordinate, given as a list. -/
def atE {α : Type} [Zero α] {E : List ℕ} (f : Idx E → α) (j : List ℕ) : α :=
  open Classical in if h : InRange E j then f ⟨j, h⟩ else 0

@[simp] theorem atE_val {α : Type} [Zero α] {E : List ℕ} (f : Idx E → α) (j : Idx E) : atE f j.1 = f j := by
  simp [atE, j.2]

/-- Read a component and an event coordinate. -/
def atKE {α : Type} [Zero α] {E : List ℕ} (f : Fin K → Idx E → α) : List ℕ → α
  | [] => 0
  | k :: j => if h : k < K then atE (f ⟨k, h⟩) j else 0

@[simp] theorem atKE_val {α : Type} [Zero α] {E : List ℕ} (f : Fin K → Idx E → α) (k : Fin K) (j : Idx E) :
    atKE f ((k : ℕ) :: j.1) = f k j := by simp [atKE]

theorem atKE_val' {α : Type} [Zero α] {E : List ℕ} (f : Fin K → Idx E → α) (k : Fin K) {j : List ℕ} (hj : InRange E j) :
    atKE f ((k : ℕ) :: j) = f k ⟨j, hj⟩ := atKE_val f k ⟨j, hj⟩

theorem proj_ones : ∀ (n : ℕ) (j : List ℕ), j.length = n → proj (List.replicate n 1) j = List.replicate n 0 := by
  intro n j h
  unfold proj
  apply List.ext_getElem
  · simp [h]
  · intro m h1 h2
    simp

theorem proj_mask (k : Fin K) {E j : List ℕ} (hj : InRange E j) :
    proj ([K] ++ List.replicate E.length 1) ((k : ℕ) :: j) = (k : ℕ) :: List.replicate E.length 0 := by
  have hl := hj.length
  rw [show (k : ℕ) :: j = [(k : ℕ)] ++ j from rfl, proj_append2 (by simp [hl]) (by simp), proj_self (inRange_fin k),
    proj_ones _ _ hl]
  rfl

namespace MixA

variable {d : MixA} {B : List ℕ}

/-- The invariant of constructed objects. -/
structure Wf (d : MixA) (B : List ℕ) (K : ℕ) : Prop where
  mix : d.mix.Wf B K
  comp : d.comp.batch = B ++ [K]
  weights : d.mix.logits.logSoftmaxA = .ok d.mixtureLogProbs

theorem Wf.w_ew (h : d.Wf B K) (hB : BLe B t) :
    EWT t [K] (AE.arr d.mixtureLogProbs) [B] fun i k => atK (logSoftmax (d.mix.row K i).logits) k := by
  have := (h.mix.logits_ew hB).mapLast fun _ r => logSoftmax r
  simp only [atK_fin] at this
  rw [show AE.arr d.mixtureLogProbs = d.mix.logits.logSoftmaxA from h.weights.symm]
  exact this

theorem logProb_row (h : d.Wf B K) {lp mu var} (hc : RowWise d.comp lp mu var) (v : BArr ℝ) (u : List ℕ)
    (hv : v.shape = u ++ d.comp.event) (ht : broadcastShapes B u = some t) :
    PerEntry (d.logProb (.arr v)) t fun i =>
      (mixRow (d.mix.row K i) lp mu var (proj B i)).logProb (bblock v d.comp.event i) := by
  -- the expanded value
  have hu : BLe u t := BLe.right ht
  have hex : EWT u (1 :: d.comp.event) ((AE.arr v).expandAt d.comp.event.length) [u] _ :=
    EWT.expandAt (e := []) (f := d.comp.event) rfl (EWT.arr (t := u) (e := d.comp.event) hv (BLe.refl u))
  obtain ⟨v', s, q1, q2, q3, q4, q5⟩ := hex
  obtain rfl : s = u := BLe.antisymm q3 (q4 _ (by simp))
  have hv' : v'.shape = (s ++ [1]) ++ d.comp.event := by simp [q2]
  have htK : broadcastShapes d.comp.batch (s ++ [1]) = some (t ++ [K]) := by
    rw [h.comp]
    exact broadcast_append2 rfl ht (bc_keep K)
  obtain ⟨a, r1, r2, r3⟩ := hc.logProb v' (s ++ [1]) (t ++ [K]) hv' htK
  have hlp : EWT t [K] (d.comp.logProb ((AE.arr v).expandAt d.comp.event.length)) [t]
      fun i k => atK (fun k : Fin K => lp (proj B i ++ [(k : ℕ)]) (bblock v d.comp.event i)) k := by
    rw [q1, r1]
    refine ⟨a, t, rfl, r2, BLe.refl t, by simp [BLe.refl], fun i k hi hk => ?_⟩
    obtain ⟨j, rfl⟩ := inRange_one_iff.1 hk
    have hle : B.length ≤ i.length := by rw [hi.length]; exact (BLe.left ht).length
    have hle' : s.length ≤ i.length := by rw [hi.length]; exact hu.length
    simp only [atK_fin]
    rw [proj_self hi, r3 _ (hi.append hk)]
    show lp (proj d.comp.batch (i ++ [(j : ℕ)])) (bblock v' d.comp.event (i ++ [(j : ℕ)])) = _
    rw [h.comp, proj_append hk hle]
    congr 1
    funext e
    show v'.data (proj v'.shape (i ++ [(j : ℕ)] ++ e.1)) = v.data (proj v.shape (i ++ e.1))
    have hel := InRange.length e.2
    have h01 : InRange (1 :: d.comp.event) (0 :: e.1) := List.Forall₂.cons (by omega) e.2
    have e1 : proj v'.shape (i ++ [(j : ℕ)] ++ e.1) = proj s i ++ 0 :: e.1 := by
      rw [hv', proj_append2 hel (by simp; omega), proj_self e.2, proj_append2 (e := [1]) (k := [(j : ℕ)]) rfl hle',
        proj_one_last]
      simp
    have e2 : proj v.shape (i ++ e.1) = proj s i ++ e.1 := by
      rw [hv, proj_append e.2 hle']
    have hpi : InRange s (proj s i) := proj_inRange hu hi
    have := q5 (proj s i) (0 :: e.1) hpi h01
    rw [proj_self hpi] at this
    rw [e1, e2, this]
    show v.data (proj v.shape (proj s i ++ e.1)) = _
    rw [hv, proj_append e.2 (by rw [proj_length hle']), proj_self hpi]
  have := (hlp.bin (h.w_ew (BLe.left ht)) (· + ·)).reduceLast0 fun _ r => logsumexp r
  refine this.perEntry (fun _ hu _ => hu _ (by simp)) fun i hi => ?_
  simp only [atK_fin]
  rfl

theorem weights_ew (h : d.Wf B K) : EWT B ([K] ++ List.replicate d.comp.event.length 1) d.weights [B]
    fun i k => XR.exp (atK (logSoftmax (d.mix.row K i).logits) (k.take 1)) :=
  ((h.w_ew (BLe.refl B)).map XR.exp).padRight d.comp.event.length

/-- Components times weights, summed over the component axis. -/
theorem weighted {x : AE XR} {M} (h : d.Wf B K) {f : List ℕ → Fin K → Idx d.comp.event → XR}
    (hx : EWT B (K :: d.comp.event) x M fun i k => atKE (f i) k) :
    EWT B d.comp.event ((x * d.weights).sumAt d.comp.event.length) (M ++ [B]) (fun i j =>
      ∑ k : Fin K, atE (fun j => f i k j * XR.exp (logSoftmax (d.mix.row K i).logits k)) j) ∧
    EWT B d.comp.event ((d.weights * x).sumAt d.comp.event.length) ([B] ++ M) (fun i j =>
      ∑ k : Fin K, atE (fun j => XR.exp (logSoftmax (d.mix.row K i).logits k) * f i k j) j) := by
  have hproj : ∀ (k : Fin K) (j : List ℕ), InRange d.comp.event j →
      proj ([K] ++ List.replicate d.comp.event.length 1) ((k : ℕ) :: j) = (k : ℕ) :: List.replicate d.comp.event.length 0 := by
    exact fun k j hj => proj_mask k hj
  have hin : ∀ (k : Fin K) {j : List ℕ}, InRange d.comp.event j → InRange (K :: d.comp.event) ((k : ℕ) :: j) :=
    fun k j hj => List.Forall₂.cons k.2 hj
  constructor
  · have h1 := hx.bin' (weights_ew h) (by simp) (bc_cons K d.comp.event) (· * ·)
    refine (EWT.sumAt (e := []) (f := d.comp.event) rfl h1).congr fun i j hi hj => ?_
    simp only [List.length_nil, List.take_zero, List.drop_zero, List.nil_append]
    refine Finset.sum_congr rfl fun k _ => ?_
    rw [hproj k j hj, proj_self (hin k hj), atKE_val' _ _ hj, List.take_succ_cons, List.take_zero, atK_fin]
    exact (atE_val (fun j => f i k j * XR.exp (logSoftmax (d.mix.row K i).logits k)) ⟨j, hj⟩).symm
  · have h1 := (weights_ew h).bin' hx (by simp) (by rw [broadcastShapes_comm]; exact bc_cons K d.comp.event) (· * ·)
    refine (EWT.sumAt (e := []) (f := d.comp.event) rfl h1).congr fun i j hi hj => ?_
    simp only [List.length_nil, List.take_zero, List.drop_zero, List.nil_append]
    refine Finset.sum_congr rfl fun k _ => ?_
    rw [hproj k j hj, proj_self (hin k hj), atKE_val' _ _ hj, List.take_succ_cons, List.take_zero, atK_fin]
    exact (atE_val (fun j => XR.exp (logSoftmax (d.mix.row K i).logits k) * f i k j) ⟨j, hj⟩).symm

theorem comp_mean_ew (h : d.Wf B K) {lp mu var} (hc : RowWise d.comp lp mu var) :
    EWT B (K :: d.comp.event) d.comp.mean [B] fun i k => atKE (fun k j => fin (mu (i ++ [((k : Fin K) : ℕ)]) j)) k := by
  have := hc.mean
  rw [h.comp] at this
  exact perEvent_ewt this fun i _ k j => (atKE_val (fun k j => fin (mu (i ++ [((k : Fin K) : ℕ)]) j)) k j).symm

theorem comp_var_ew (h : d.Wf B K) {lp mu var} (hc : RowWise d.comp lp mu var) :
    EWT B (K :: d.comp.event) d.comp.variance [B]
      fun i k => atKE (fun k j => fin (var (i ++ [((k : Fin K) : ℕ)]) j)) k := by
  have := hc.variance
  rw [h.comp] at this
  exact perEvent_ewt this fun i _ k j => (atKE_val (fun k j => fin (var (i ++ [((k : Fin K) : ℕ)]) j)) k j).symm

theorem mean_row (h : d.Wf B K) {lp mu var} (hc : RowWise d.comp lp mu var) :
    PerEvent d.mean B d.comp.event fun i => (mixRow (d.mix.row K i) lp mu var i).mean := by
  refine (weighted h (comp_mean_ew h hc)).1.perEvent (fun _ hu _ => hu _ (by simp)) fun i hi j => ?_
  simp only [atE_val]
  rfl

theorem variance_row (h : d.Wf B K) {lp mu var} (hc : RowWise d.comp lp mu var) :
    PerEvent d.variance B d.comp.event fun i => (mixRow (d.mix.row K i) lp mu var i).variance := by
  have hm := comp_mean_ew h hc
  have h1 := (weighted h hm).1
  have h2 := (weighted h (comp_var_ew h hc)).2
  have hex := EWT.expandAt (e := []) (f := d.comp.event) (n := d.comp.event.length) rfl h1
  have hd := (hm.bin' hex rfl (bc_cons' K d.comp.event) (· - ·)).map fun x => x * x
  have hd' := hd.congr (g' := fun i k => atKE (fun (k : Fin K) (j : Idx d.comp.event) =>
      (fin (mu (i ++ [(k : ℕ)]) j) - ∑ q : Fin K, fin (mu (i ++ [(q : ℕ)]) j) * XR.exp (logSoftmax (d.mix.row K i).logits q))
      * (fin (mu (i ++ [(k : ℕ)]) j) - ∑ q : Fin K, fin (mu (i ++ [(q : ℕ)]) j) * XR.exp (logSoftmax (d.mix.row K i).logits q)))
      k) (by
    intro i k hi hk
    obtain ⟨k1, k2, hk1, hk2, rfl⟩ := inRange_split (s := [K]) (t := d.comp.event) hk
    obtain ⟨p, rfl⟩ := inRange_one_iff.1 hk1
    have e1 : proj (1 :: d.comp.event) ([(p : ℕ)] ++ k2) = 0 :: k2 := by
      have := proj_append (a := [1]) (i := [(p : ℕ)]) hk2 (by simp)
      rw [show 1 :: d.comp.event = [1] ++ d.comp.event from rfl, this, proj_one_last]
      rfl
    have e2 : proj (K :: d.comp.event) ([(p : ℕ)] ++ k2) = (p : ℕ) :: k2 := proj_self hk
    simp only [List.nil_append]
    rw [e1, e2]
    simp only [List.length_nil, List.take_zero, List.nil_append, zero_add, List.drop_one, List.tail_cons,
      List.singleton_append, atKE_val' _ _ hk2]
    have : ∀ q : Fin K, atE (fun j : Idx d.comp.event => fin (mu (i ++ [(q : ℕ)]) j) *
        XR.exp (logSoftmax (d.mix.row K i).logits q)) k2 = fin (mu (i ++ [(q : ℕ)]) ⟨k2, hk2⟩) *
        XR.exp (logSoftmax (d.mix.row K i).logits q) := fun q => atE_val (fun j : Idx d.comp.event => fin (mu (i ++ [(q : ℕ)]) j) *
        XR.exp (logSoftmax (d.mix.row K i).logits q)) ⟨k2, hk2⟩
    simp only [this])
  have h3 := (weighted h hd').2
  refine (h2.bin h3 (· + ·)).perEvent (fun _ hu _ => hu _ (by simp)) fun i hi j => ?_
  simp only [atE_val]
  rfl

theorem sample_row (h : d.Wf B K) (n : ℕ) (m : BArr ℕ) (hm : m.shape = n :: B) (s : BArr XR)
    (hs : s.shape = n :: (B ++ K :: d.comp.event)) :
    PerEvent (d.sampleN ((AE.arr m).map fun (k : ℕ) => fin (k : ℝ)) (.arr s)) (n :: B) d.comp.event fun i =>
      MixtureSameFamily.sample (m.data i) fun (k : Fin K) j => s.data (i ++ (k : ℕ) :: j.1) := by
  have hK : d.comp.batch.getLast?.getD 0 = K := by simp [h.comp]
  have hmw : EW (n :: B) (AE.arr m) [m.shape] (bget m) := EW.arr (by rw [hm]; exact BLe.refl _)
  have hmask := ((hmw.map fun (k : ℕ) => fin (k : ℝ)).oneHotLast K).padRight d.comp.event.length
  have hsw : EWT (n :: B) (K :: d.comp.event) (AE.arr s) [n :: B] _ :=
    EWT.arr (t := n :: B) (s := n :: B) (e := K :: d.comp.event) (a := s) (by simp [hs]) (BLe.refl _)
  have h1 := hsw.bin' hmask (by simp) (bc_cons K d.comp.event) (· * ·)
  have h2 := EWT.sumAt (e := []) (f := d.comp.event) (n := d.comp.event.length) rfl h1
  rw [show d.sampleN ((AE.arr m).map fun (k : ℕ) => fin (k : ℝ)) (.arr s) = _ from by rw [sampleN, hK]]
  refine EWT.perEvent h2 (fun _ hu _ => hu _ (by simp)) fun i hi j => ?_
  simp only [List.length_nil, List.take_zero, List.drop_zero, List.nil_append]
  refine Finset.sum_congr rfl fun k _ => ?_
  have hjl := InRange.length j.2
  have e1 : proj ([K] ++ List.replicate d.comp.event.length 1) ((k : ℕ) :: j.1)
      = (k : ℕ) :: List.replicate d.comp.event.length 0 := proj_mask k j.2
  have hin : InRange (K :: d.comp.event) ((k : ℕ) :: j.1) := List.Forall₂.cons k.2 j.2
  rw [e1, proj_self hin, List.length_singleton, List.take_succ_cons, List.take_zero, atK_fin]
  show s.data (proj s.shape (i ++ (k : ℕ) :: j.1)) * oneHot K (fin (bget m i : ℕ)) k = _
  have e2 : proj s.shape (i ++ (k : ℕ) :: j.1) = i ++ (k : ℕ) :: j.1 := proj_self (by
    rw [hs]
    exact InRange.append (s := n :: B) hi hin)
  have e3 : bget m i = m.data i := by
    show m.data (proj m.shape i) = _
    rw [hm, proj_self hi]
  rw [e2, e3]

end MixA

/-- A sum over all multi-indices is a finite sum over positions. -/
theorem sum_allIdx' {α : Type} [AddCommMonoid α] (s : List ℕ) (f : List ℕ → α) :
    ((allIdx s).map f).sum = ∑ i : Idx s, f i.1 := by
  classical
  rw [← List.sum_toFinset f (allIdx_nodup' s)]
  symm
  refine Finset.sum_bij (fun (i : Idx s) _ => i.1) ?_ ?_ ?_ ?_
  · intro i _; simpa [mem_allIdx] using i.2
  · intro i _ j _ h; exact Subtype.ext h
  · intro i hi
    exact ⟨⟨i, by simpa [mem_allIdx] using hi⟩, Finset.mem_univ _, rfl⟩
  · intro i _; rfl

/-- **C64** (MixtureSameFamily): whenever the components' batch shape is that of the mixture weights with one more axis of
`K` components, `log_prob`, `mean`, `variance` and samples are, at each batch position, those of the mixture of that row's
weights and that row's `K` components. -/
theorem C64_mixture_same_family (logits probs : Option (BArr XR)) (dt : DType) (B : List ℕ) (K : ℕ) (mix : CatA) (comp : CompA)
    (hs : ∀ a, logits = some a ∨ probs = some a → a.shape = B ++ [K])
    (hm : CatA.init (logits.map AE.arr) (probs.map AE.arr) dt = .ok mix) (hb : comp.batch = B ++ [K])
    (lp : List ℕ → (Idx comp.event → ℝ) → XR) (mu var : List ℕ → Idx comp.event → ℝ) (hc : RowWise comp lp mu var) :
    ∃ (d : MixA) (rows : List ℕ → Cat K), MixA.init mix comp = .ok d ∧
      (∀ t i, broadcastShapes B t = some t → InRange t i →
        Cat.init (logits.map fun a => brow a K i) (probs.map fun a => brow a K i) dt = .ok (rows i)) ∧
      (∀ (v : BArr ℝ) (u t : List ℕ), v.shape = u ++ comp.event → broadcastShapes B u = some t →
        PerEntry (d.logProb (.arr v)) t fun i =>
          (mixRow (rows i) lp mu var (proj B i)).logProb (bblock v comp.event i)) ∧
      PerEvent d.mean B comp.event (fun i => (mixRow (rows i) lp mu var i).mean) ∧
      PerEvent d.variance B comp.event (fun i => (mixRow (rows i) lp mu var i).variance) ∧
      ∀ (n : ℕ) (m : BArr ℕ) (s : BArr XR), m.shape = n :: B → s.shape = n :: (B ++ K :: comp.event) →
        PerEvent (d.sampleN ((AE.arr m).map fun (k : ℕ) => fin (k : ℝ)) (.arr s)) (n :: B) comp.event fun i =>
          MixtureSameFamily.sample (m.data i) fun (k : Fin K) j => s.data (i ++ (k : ℕ) :: j.1) := by
  obtain ⟨w, hr⟩ := CatA.init_rows logits probs dt B K mix hs hm
  obtain ⟨a, s, q1, -⟩ := (w.logits_ew (BLe.refl B)).mapLast fun _ r => logSoftmax r
  have q1' : mix.logits.logSoftmaxA = .ok a := q1
  have hbs : mix.batchShape = comp.batch.dropLast := by
    rw [hb, (CatA.rowwise w).batchShape]
    simp
  have hi : MixA.init mix comp = .ok ⟨mix, comp, a⟩ := by
    simp [MixA.init, q1', hbs]
  have hw : MixA.Wf ⟨mix, comp, a⟩ B K := ⟨w, hb, q1'⟩
  exact ⟨⟨mix, comp, a⟩, fun i => mix.row K i, hi, hr, fun v u t hv ht => MixA.logProb_row hw hc v u hv ht,
    MixA.mean_row hw hc, MixA.variance_row hw hc, fun n m s h1 h2 => MixA.sample_row hw n m h1 s h2⟩

/-- **C64** (MixtureSameFamily): the constructor rejects components whose batch shape without its last axis differs from
that of the mixture weights. -/
theorem C64_mixture_same_family_rejects (logits probs : Option (BArr XR)) (dt : DType) (B : List ℕ) (K : ℕ) (mix : CatA)
    (comp : CompA) (hs : ∀ a, logits = some a ∨ probs = some a → a.shape = B ++ [K])
    (hm : CatA.init (logits.map AE.arr) (probs.map AE.arr) dt = .ok mix) :
    MixA.init mix comp = .error .valueError ↔ comp.batch.dropLast ≠ B := by
  obtain ⟨w, hr⟩ := CatA.init_rows logits probs dt B K mix hs hm
  obtain ⟨a, s, q1, -⟩ := (w.logits_ew (BLe.refl B)).mapLast fun _ r => logSoftmax r
  have q1' : mix.logits.logSoftmaxA = .ok a := q1
  simp only [MixA.init, q1', (CatA.rowwise w).batchShape]
  by_cases h : B = comp.batch.dropLast
  · simp [h]
  · simp [h, Ne.symm h]

open Classical in
/-- **C64** (MixtureOfTwo): `log_prob` entry by entry of the broadcast of batch and value; every position of sample `n` takes
component A or B according to the single mask draw of sample `n`. -/
theorem C64_mixture_of_two (probA : BArr ℝ) (a b : CompA) (d : Mix2A) (h : Mix2A.init probA a b = .ok d)
    (lpA : List ℕ → (Idx a.event → ℝ) → XR) (muA varA) (lpB : List ℕ → (Idx b.event → ℝ) → XR) (muB varB)
    (ha : RowWise a lpA muA varA) (hb : RowWise b lpB muB varB) :
    probA.shape = [] ∧ a.batch = b.batch ∧ a.event = b.event ∧
    (∀ (v : BArr ℝ) (u t : List ℕ), v.shape = u ++ a.event → broadcastShapes a.batch u = some t →
      PerEntry (d.logProb (.arr v)) t fun i =>
        MixtureOfTwo.logProb ⟨probA.data [], fun w : BArr ℝ => lpA (proj a.batch i) (bblock w a.event i),
          fun w => lpB (proj a.batch i) (bblock w b.event i)⟩ v) ∧
    ∀ (n : ℕ) (s : List ℕ) (m : BArr Prop) (xa xb : BArr ℝ), m.shape = [n] → xa.shape = n :: s → xb.shape = n :: s →
      PerEntry (Mix2A.sampleN (.arr m) (.arr xa) (.arr xb)) (n :: s) fun i =>
        if m.data (i.take 1) then xa.data i else xb.data i := by
  unfold Mix2A.init at h
  split_ifs at h with h1 h2 h3
  obtain rfl := Except.ok.inj h
  push Not at h1 h2 h3
  refine ⟨by simpa using h1, h3, h2, fun v u t hv ht => ?_, fun n s m xa xb hm hxa hxb => ?_⟩
  · obtain ⟨la, p1, p2, p3⟩ := ha.logProb v u t hv ht
    obtain ⟨lb, q1, q2, q3⟩ := hb.logProb v u t (by rw [← h2]; exact hv) (by rw [← h3]; exact ht)
    have ea : EWT t [] (a.logProb (.arr v)) [t] _ := p1 ▸ EWT.arr (t := t) (e := []) (a := la) (by simp [p2]) (BLe.refl t)
    have eb : EWT t [] (b.logProb (.arr v)) [t] _ := q1 ▸ EWT.arr (t := t) (e := []) (a := lb) (by simp [q2]) (BLe.refl t)
    have := ((ea.scalar_bin (XR.log (fin (probA.data []))) (· + ·)).bin
      (eb.scalar_bin (XR.log (fin (1 - probA.data []))) (· + ·)) logaddexp).toEW
    refine this.perEntry (fun _ hu _ => hu _ (by simp)) fun i hi => ?_
    have e1 : bget la (i ++ []) = lpA (proj a.batch i) (bblock v a.event i) := by
      rw [List.append_nil]
      show la.data (proj la.shape i) = _
      rw [p2, proj_self hi, p3 i hi]
    have e2 : bget lb (i ++ []) = lpB (proj a.batch i) (bblock v b.event i) := by
      rw [List.append_nil]
      show lb.data (proj lb.shape i) = _
      rw [q2, proj_self hi, q3 i hi, h3]
    rw [e1, e2]
    rfl
  · have em : EWT [n] (List.replicate s.length 1) ((AE.arr m).padRight s.length) [[n]] _ :=
      EWT.padRight (e := []) s.length (EWT.arr (t := [n]) (e := []) (a := m) (s := [n]) (by simp [hm]) (BLe.refl _))
    have ea : EWT [n] s (AE.arr xa) [[n]] _ := EWT.arr (t := [n]) (s := [n]) (e := s) (a := xa) (by simp [hxa]) (BLe.refl _)
    have eb : EWT [n] s (AE.arr xb) [[n]] _ := EWT.arr (t := [n]) (s := [n]) (e := s) (a := xb) (by simp [hxb]) (BLe.refl _)
    have hnd : (AE.arr xa).ndim - 1 = s.length := by
      show xa.shape.length - 1 = _
      simp [hxa]
    have key := (em.bin' ea (by simp) (by rw [broadcastShapes_comm]; exact bc_ones s) Prod.mk).bin eb
      fun (p : Prop × ℝ) c => if p.1 then p.2 else c
    obtain ⟨r, w, q1, q2, q3, q4, q5⟩ := key
    obtain rfl : w = [n] := BLe.antisymm q3 (q4 _ (by simp))
    refine ⟨r, ?_, q2, fun i hi => ?_⟩
    · rw [show Mix2A.sampleN (.arr m) (.arr xa) (.arr xb) = _ from by rw [Mix2A.sampleN, hnd]]
      exact q1
    · obtain ⟨i1, i2, hi1, hi2, rfl⟩ := inRange_split (s := [n]) (t := s) hi
      have := q5 i1 i2 hi1 hi2
      rw [proj_self hi1] at this
      rw [this]
      obtain ⟨k, rfl⟩ := inRange_one_iff.1 hi1
      have e1 : bget m ([(k : ℕ)] ++ []) = m.data [(k : ℕ)] := by
        show m.data (proj m.shape ([(k : ℕ)] ++ [])) = _
        rw [List.append_nil, hm, proj_self hi1]
      have e2 : ∀ x : BArr ℝ, x.shape = n :: s → bget x ([(k : ℕ)] ++ i2) = x.data ([(k : ℕ)] ++ i2) := by
        intro x hx
        show x.data (proj x.shape _) = _
        rw [hx, proj_self hi]
      have e3 : proj s i2 = i2 := proj_self hi2
      simp only [e3, List.length_nil, List.take_zero, e1, e2 xa hxa, e2 xb hxb]
      rfl

/-- **C64** (MixtureOfTwo constructor). -/
theorem C64_mixture_of_two_rejects (probA : BArr ℝ) (a b : CompA) :
    (∃ e, Mix2A.init probA a b = .error e) ↔ probA.shape ≠ [] ∨ a.event ≠ b.event ∨ a.batch ≠ b.batch := by
  unfold Mix2A.init
  split_ifs with h1 h2 h3 <;> simp_all

/-- **C64** (Independent): moving the last axes `R` of the batch into the event keeps a row-wise distribution row-wise: the
log-probability of a batch entry is the sum over the positions of `R` of the entries' log-probabilities. -/
theorem C64_independent (c : CompA) (B R : List ℕ) (hb : c.batch = B ++ R)
    (lp : List ℕ → (Idx c.event → ℝ) → XR) (mu var : List ℕ → Idx c.event → ℝ) (hc : RowWise c lp mu var) :
    ∃ d : CompA, c.independent (some R.length) = .ok d ∧ d.batch = B ∧ d.event = R ++ c.event ∧
      ∀ hE : d.event = R ++ c.event, RowWise d
        (fun j v => ∑ k : Idx R, lp (j ++ k.1) fun e => v ⟨k.1 ++ e.1, hE ▸ InRange.append k.2 e.2⟩)
        (fun j e => mu (j ++ e.1.take R.length) ((Idx.split R c.event ⟨e.1, hE ▸ e.2⟩).2))
        (fun j e => var (j ++ e.1.take R.length) ((Idx.split R c.event ⟨e.1, hE ▸ e.2⟩).2)) := by
  have hk : c.reinterpreted (some (R.length : ℤ)) = .ok R.length := by
    simp only [CompA.reinterpreted, hb]
    rw [if_neg (by simp), if_neg (by omega)]
    rfl
  have h1 : c.batch.take (c.batch.length - R.length) = B := by simp [hb]
  have h2 : c.batch.drop (c.batch.length - R.length) = R := by simp [hb]
  refine ⟨{ batch := B, event := R ++ c.event, logProb := fun v => (c.logProb v).sumLastN R.length,
            mean := c.mean, variance := c.variance }, ?_, rfl, rfl, fun hE => ⟨fun v u t hv ht => ?_, ?_, ?_⟩⟩
  · simp only [CompA.independent, hk, h1, h2]
  · have hv' : v.shape = (u ++ R) ++ c.event := by rw [hv, List.append_assoc]
    have ht' : broadcastShapes c.batch (u ++ R) = some (t ++ R) := by
      rw [hb]
      exact broadcast_append2 rfl ht (broadcastShapes_self R)
    obtain ⟨a, q1, q2, q3⟩ := hc.logProb v (u ++ R) (t ++ R) hv' ht'
    refine ⟨⟨t, fun i => ((allIdx R).map fun j => a.data (i ++ j)).sum⟩, ?_, rfl, fun i hi => ?_⟩
    · show (c.logProb (.arr v)).sumLastN R.length = _
      rw [q1]
      show (if R.length ≤ a.shape.length then (Except.ok ⟨a.shape.take (a.shape.length - R.length), fun i =>
        ((allIdx (a.shape.drop (a.shape.length - R.length))).map fun j => a.data (i ++ j)).sum⟩ : Except Err (BArr XR))
        else Except.error .valueError) = _
      rw [q2, if_pos (by simp)]
      simp
      rfl
    · show ((allIdx R).map fun j => a.data (i ++ j)).sum = _
      rw [sum_allIdx']
      refine Finset.sum_congr rfl fun k _ => ?_
      rw [q3 _ (hi.append k.2)]
      have hl : B.length ≤ i.length := by rw [hi.length]; exact (BLe.left ht).length
      show lp (proj c.batch (i ++ k.1)) (bblock v c.event (i ++ k.1)) = _
      rw [hb, proj_append k.2 hl]
      congr 1
      funext e
      show bget v (i ++ k.1 ++ e.1) = bget v (i ++ (k.1 ++ e.1))
      rw [List.append_assoc]
  · obtain ⟨a, q1, q2, q3⟩ := hc.mean
    refine ⟨a, q1, by rw [q2, hb, List.append_assoc], fun i hi k => ?_⟩
    have := q3 (i ++ k.1.take R.length) (by
      rw [hb]
      exact hi.append (Idx.split R c.event k).1.2) (Idx.split R c.event k).2
    rw [← this]
    show _ = a.data (i ++ k.1.take R.length ++ k.1.drop R.length)
    rw [List.append_assoc, List.take_append_drop]
  · obtain ⟨a, q1, q2, q3⟩ := hc.variance
    refine ⟨a, q1, by rw [q2, hb, List.append_assoc], fun i hi k => ?_⟩
    have := q3 (i ++ k.1.take R.length) (by
      rw [hb]
      exact hi.append (Idx.split R c.event k).1.2) (Idx.split R c.event k).2
    rw [← this]
    show _ = a.data (i ++ k.1.take R.length ++ k.1.drop R.length)
    rw [List.append_assoc, List.take_append_drop]

/-- **C64** (Independent): the default moves all batch axes but the first; out-of-range counts are rejected. -/
theorem C64_independent_ndims (c : CompA) :
    (∀ n : ℤ, c.independent (some n) = .error .valueError ↔ n < 0 ∨ (c.batch.length : ℤ) < n) ∧
    c.independent none = c.independent (some ((c.batch.length - 1 : ℕ) : ℤ)) := by
  constructor
  · intro n
    unfold CompA.independent CompA.reinterpreted
    by_cases h1 : (c.batch.length : ℤ) < n
    · simp [h1]
    · by_cases h2 : n < 0
      · simp [h1, h2]
      · simp [h1, h2]
  · have h1 : c.reinterpreted none = .ok (c.batch.length - 1) := by
      simp only [CompA.reinterpreted]
      congr 1
      omega
    have h2 : c.reinterpreted (some ((c.batch.length - 1 : ℕ) : ℤ)) = .ok (c.batch.length - 1) := by
      simp only [CompA.reinterpreted]
      rw [if_neg (by omega), if_neg (by omega)]
      simp
    simp only [CompA.independent, h1, h2]

/-- A `Normal` as a components distribution. -/
def NormalA.comp (d : P2) : CompA :=
  { batch := d.batch, event := [], logProb := fun v => (NormalA.logProb d v).map fin, mean := (NormalA.mean d).map fin
    variance := (NormalA.variance d).map fin }

/-- **C64** (instance): a batched Normal is row-wise, so the theorems above apply to mixtures of (Independent) Normals. -/
theorem C64_normal_rowwise (p q : BArr ℝ) (d : P2) (h : P2.init p q = .ok d) :
    RowWise (NormalA.comp d)
      (fun j v => fin (Normal.logProb ⟨bget p j, bget q j⟩ (v ⟨[], List.Forall₂.nil⟩)))
      (fun j _ => Normal.mean ⟨bget p j, bget q j⟩) (fun j _ => Normal.variance ⟨bget p j, bget q j⟩) := by
  obtain ⟨hm, hv, -, -, -, -, hl, -⟩ := C58_normal p q d h
  obtain ⟨rfl, rfl, hd⟩ := P2.init_wf h
  have hget : ∀ (x : BArr ℝ) (t i : List ℕ), BLe x.shape d.batch → BLe d.batch t → InRange t i →
      bget x (proj d.batch i) = bget x i := by
    intro x t i h1 h2 hi
    show x.data _ = x.data _
    rw [proj_proj h1 (by rw [hi.length]; exact h2.length)]
  refine ⟨fun v u t hv' ht => ?_, ?_, ?_⟩
  · obtain ⟨a, q1, q2, q3⟩ := hl v t (by simpa [NormalA.comp] using (by simpa [NormalA.comp] using hv' : v.shape = u) ▸ ht)
    refine ⟨⟨a.shape, fun i => fin (a.data i)⟩, ?_, q2, fun i hi => ?_⟩
    · show (NormalA.logProb d (.arr v)).map fin = _
      rw [q1]; rfl
    · show fin (a.data i) = _
      rw [q3 i hi]
      have hB : BLe d.batch t := BLe.left ht
      show _ = fin (Normal.logProb ⟨bget d.p (proj d.batch i), bget d.q (proj d.batch i)⟩ (bget v (i ++ [])))
      rw [hget d.p t i (BLe.left hd) hB hi, hget d.q t i (BLe.right hd) hB hi, List.append_nil]
  · obtain ⟨a, q1, q2, q3⟩ := hm
    refine ⟨⟨a.shape, fun i => fin (a.data i)⟩, ?_, by simp [NormalA.comp, q2], fun i hi k => ?_⟩
    · show (NormalA.mean d).map fin = _
      rw [q1]; rfl
    · have hk : k.1 = [] := by have := k.2; revert this; rcases k.1 with _ | _ <;> intro hh <;> [rfl; cases hh]
      show fin (a.data (i ++ k.1)) = _
      rw [hk, List.append_nil, q3 i hi]
  · obtain ⟨a, q1, q2, q3⟩ := hv
    refine ⟨⟨a.shape, fun i => fin (a.data i)⟩, ?_, by simp [NormalA.comp, q2], fun i hi k => ?_⟩
    · show (NormalA.variance d).map fin = _
      rw [q1]; rfl
    · have hk : k.1 = [] := by have := k.2; revert this; rcases k.1 with _ | _ <;> intro hh <;> [rfl; cases hh]
      show fin (a.data (i ++ k.1)) = _
      rw [hk, List.append_nil, q3 i hi]

/-- The hypotheses of the mixture theorems: a batch of two mixtures of three two-dimensional diagonal Normals, made from a
`(2, 3, 2)` Normal by `Independent`. -/
example : ∃ (p q : BArr ℝ) (d : P2) (c : CompA) (a : BArr XR) (mix : CatA) (lp : List ℕ → (Idx c.event → ℝ) → XR)
    (mu var : List ℕ → Idx c.event → ℝ), P2.init p q = .ok d ∧ (NormalA.comp d).independent (some 1) = .ok c ∧ c.batch = [2] ++ [3] ∧ c.event = [2] ∧
    RowWise c lp mu var ∧ a.shape = [2] ++ [3] ∧
    CatA.init ((some a).map AE.arr) ((none : Option (BArr XR)).map AE.arr) .integer = .ok mix := by
  let p : BArr ℝ := ⟨[2, 3, 2], fun i => i.sum⟩
  let q : BArr ℝ := ⟨[], fun _ => 1⟩
  let d : P2 := ⟨p, q, [2, 3, 2]⟩
  have hd : P2.init p q = .ok d := rfl
  obtain ⟨c, h1, h2, h3, h4⟩ := C64_independent (NormalA.comp d) [2, 3] [2] rfl _ _ _ (C64_normal_rowwise p q d hd)
  let a : BArr XR := ⟨[2, 3], fun i => fin (i.sum : ℝ)⟩
  obtain ⟨mix, hmix⟩ := CatA.init_logits_ok (CatA.Rows.arr (a := a) (B := [2]) (K := 3) rfl)
  exact ⟨p, q, d, c, a, mix, _, _, _, hd, h1, h2, by rw [h3]; rfl, h4 h3, rfl, hmix⟩

/-- Two Normals of batch shape `(2, 3)` with a scalar weight make a mixture of two. -/
example : ∃ (p q p' q' pr : BArr ℝ) (d d' : P2) (m : Mix2A), P2.init p q = .ok d ∧ P2.init p' q' = .ok d' ∧
    Mix2A.init pr (NormalA.comp d) (NormalA.comp d') = .ok m ∧ m.probA = 1 / 3 ∧ (NormalA.comp d).batch = [2, 3] :=
  ⟨⟨[2, 3], fun i => i.sum⟩, ⟨[], fun _ => 1⟩, ⟨[2, 1], fun i => i.sum⟩, ⟨[3], fun _ => 2⟩, ⟨[], fun _ => 1 / 3⟩,
    ⟨⟨[2, 3], fun i => i.sum⟩, ⟨[], fun _ => 1⟩, [2, 3]⟩, ⟨⟨[2, 1], fun i => i.sum⟩, ⟨[3], fun _ => 2⟩, [2, 3]⟩, _, rfl, rfl,
    rfl, rfl, rfl⟩

end

end Distrax
