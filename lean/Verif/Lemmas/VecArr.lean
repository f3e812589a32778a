import Verif.Spec.VecArr
import Verif.Lemmas.FamArr
import Verif.Lemmas.Linear

/-! A calculus for array expressions with trailing (row, matrix, event) axes. -/

namespace Distrax

open Spec

variable {α β γ δ : Type}

theorem brev_append2 : ∀ (a c b d x y : List ℕ), a.length = c.length → brev a c = some x → brev b d = some y →
    brev (a ++ b) (c ++ d) = some (x ++ y)
  | [], [], b, d, x, y, _, h1, h2 => by simp [brev] at h1; subst h1; simpa using h2
  | [], _ :: _, _, _, _, _, h, _, _ => by simp at h
  | _ :: _, [], _, _, _, _, h, _, _ => by simp at h
  | a :: as, c :: cs, b, d, x, y, h, h1, h2 => by
    simp only [brev] at h1
    rcases e1 : bdim a c with _ | q <;> rcases e2 : brev as cs with _ | r <;> simp [e1, e2] at h1
    subst h1
    have := brev_append2 as cs b d r y (by simpa using h) e2 h2
    simp [brev, e1, this]

/-- Broadcasting acts separately on leading blocks and on trailing blocks of equal rank. -/
theorem broadcast_append2 {a c b d x y : List ℕ} (hl : b.length = d.length) (h1 : broadcastShapes a c = some x)
    (h2 : broadcastShapes b d = some y) : broadcastShapes (a ++ b) (c ++ d) = some (x ++ y) := by
  rw [broadcastShapes_iff] at *
  simp only [List.reverse_append]
  exact brev_append2 _ _ _ _ _ _ (by simpa using hl) h2 h1

theorem BLe.appendRight {a b : List ℕ} (h : BLe a b) (e : List ℕ) : BLe (a ++ e) (b ++ e) :=
  broadcast_append2 rfl h (broadcastShapes_self e)

theorem brev_length_eq : ∀ (a b t : List ℕ), brev a b = some t → a.length = b.length → t.length = a.length
  | [], [], t, h, _ => by simp [brev] at h; subst h; rfl
  | [], _ :: _, _, _, hl => by simp at hl
  | _ :: _, [], _, _, hl => by simp at hl
  | a :: as, b :: bs, t, h, hl => by
    simp only [brev] at h
    rcases e1 : bdim a b with _ | q <;> rcases e2 : brev as bs with _ | r <;> simp [e1, e2] at h
    subst h
    have := brev_length_eq as bs r e2 (by simpa using hl)
    simpa using this

theorem broadcast_length_eq {a b t : List ℕ} (h : broadcastShapes a b = some t) (hl : a.length = b.length) :
    t.length = a.length := by
  rw [broadcastShapes_iff] at h
  have := brev_length_eq _ _ _ h (by simpa using hl)
  simpa using this

/-- The projection splits over a leading and a trailing block. -/
theorem proj_append2 {a e i k : List ℕ} (hk : k.length = e.length) (hl : a.length ≤ i.length) :
    proj (a ++ e) (i ++ k) = proj a i ++ proj e k := by
  rw [proj_append' hk hl]
  congr 1
  unfold proj
  rw [hk, Nat.sub_self, List.drop_zero]

/-- The expression has a value of shape `s ++ e` with `s` broadcasting into `t`, to whose `s` the shapes in `L` broadcast,
and whose block at batch position `i` reads as `g i`. -/
def EWT (t e : List ℕ) (x : AE α) (L : List (List ℕ)) (g : List ℕ → List ℕ → α) : Prop :=
  ∃ (a : BArr α) (s : List ℕ), x = AE.arr a ∧ a.shape = s ++ e ∧ BLe s t ∧ (∀ l ∈ L, BLe l s) ∧
    ∀ i k, InRange t i → InRange e k → a.data (proj s i ++ k) = g i k

variable {t e : List ℕ}

theorem EWT.congr {x : AE α} {L g g'} (h : EWT t e x L g) (hg : ∀ i k, InRange t i → InRange e k → g i k = g' i k) :
    EWT t e x L g' := by
  obtain ⟨a, s, h1, h2, h3, h4, h5⟩ := h
  exact ⟨a, s, h1, h2, h3, h4, fun i k hi hk => (h5 i k hi hk).trans (hg i k hi hk)⟩

theorem EWT.toEW {x : AE α} {L g} (h : EWT t [] x L g) : EW t x L fun i => g i [] := by
  obtain ⟨a, s, h1, h2, h3, h4, h5⟩ := h
  rw [List.append_nil] at h2
  subst h2
  exact ⟨a, h1, h3, h4, fun i hi => by simpa using h5 i [] hi List.Forall₂.nil⟩

theorem EW.toEWT {x : AE α} {L f} (h : EW t x L f) : EWT t [] x L fun i _ => f i := by
  obtain ⟨a, h1, h3, h4, h5⟩ := h
  refine ⟨a, a.shape, h1, by simp, h3, h4, fun i k hi hk => ?_⟩
  cases hk
  simpa using h5 i hi

/-- An array of shape `s ++ e`. -/
theorem EWT.arr {a : BArr α} {s : List ℕ} (hs : a.shape = s ++ e) (h : BLe s t) :
    EWT t e (AE.arr a) [s] fun i k => bget a (i ++ k) := by
  refine ⟨a, s, rfl, hs, h, by simp [BLe.refl], fun i k hi hk => ?_⟩
  show a.data _ = a.data (proj a.shape (i ++ k))
  rw [hs, proj_append hk (by rw [hi.length]; exact h.length)]

theorem EWT.map {x : AE α} {L g} (h : EWT t e x L g) (f : α → β) : EWT t e (AE.map f x) L fun i k => f (g i k) := by
  obtain ⟨a, s, rfl, h2, h3, h4, h5⟩ := h
  exact ⟨⟨a.shape, fun i => f (a.data i)⟩, s, rfl, h2, h3, h4, fun i k hi hk => congrArg f (h5 i k hi hk)⟩

/-- Two operands whose trailing blocks have equal rank. -/
theorem EWT.bin' {x : AE α} {y : AE β} {L M g1 g2} {e1 e2 : List ℕ} (hx : EWT t e1 x L g1) (hy : EWT t e2 y M g2)
    (hl : e1.length = e2.length) (he : broadcastShapes e1 e2 = some e) (o : α → β → γ) :
    EWT t e (AE.bin o x y) (L ++ M) fun i k => o (g1 i (proj e1 k)) (g2 i (proj e2 k)) := by
  obtain ⟨a, s, rfl, h2, h3, h4, h5⟩ := hx
  obtain ⟨b, s', rfl, k2, k3, k4, k5⟩ := hy
  obtain ⟨u, u1, u2⟩ := broadcastShapes_join _ _ _ h3 k3
  have hsh : broadcastShapes a.shape b.shape = some (u ++ e) := by
    rw [h2, k2]; exact broadcast_append2 hl u1 he
  refine ⟨⟨u ++ e, fun i => o (a.data (proj a.shape i)) (b.data (proj b.shape i))⟩, u, ?_, rfl, u2, ?_, ?_⟩
  · have : AE.bin o (AE.arr a) (AE.arr b) = (match broadcastShapes a.shape b.shape with
      | none => Except.error .typeError
      | some t => Except.ok ⟨t, fun i => o (a.data (proj a.shape i)) (b.data (proj b.shape i))⟩) := rfl
    rw [this, hsh]
    rfl
  · intro l hl
    rcases List.mem_append.1 hl with hl | hl
    · exact (h4 l hl).trans (BLe.left u1)
    · exact (k4 l hl).trans (BLe.right u1)
  · intro i k hi hk
    have hle : u.length ≤ i.length := by rw [hi.length]; exact BLe.length u2
    have hek := hk.length
    have hlen := broadcast_length_eq he hl
    have hpl : u.length ≤ i.length := hle
    have hpu : (proj u i).length = u.length := proj_length hle
    simp only
    rw [h2, k2, proj_append2 (by omega) (by rw [hpu]; exact (BLe.left u1).length),
      proj_append2 (by omega) (by rw [hpu]; exact (BLe.right u1).length), (BLe.left u1).proj hle, (BLe.right u1).proj hle,
      h5 i _ hi (proj_inRange (BLe.left he) hk), k5 i _ hi (proj_inRange (BLe.right he) hk)]

theorem EWT.bin {x : AE α} {y : AE β} {L M g1 g2} (hx : EWT t e x L g1) (hy : EWT t e y M g2) (o : α → β → γ) :
    EWT t e (AE.bin o x y) (L ++ M) fun i k => o (g1 i k) (g2 i k) :=
  (hx.bin' hy rfl (broadcastShapes_self e) o).congr fun i k _ hk => by rw [proj_self hk]

theorem proj_one_last (k : ℕ) : proj [1] [k] = [0] := by simp [proj]

theorem bc_keep (K : ℕ) : broadcastShapes [K] [1] = some [K] := by
  simp only [broadcastShapes, List.reverse_singleton, brev, bdim]
  split_ifs with h <;> simp_all

/-- A row against a `keepdims` reduction. -/
theorem EWT.bin_keep {x : AE α} {y : AE β} {L M g1 g2} {K : ℕ} (hx : EWT t [K] x L g1) (hy : EWT t [1] y M g2)
    (o : α → β → γ) : EWT t [K] (AE.bin o x y) (L ++ M) fun i k => o (g1 i k) (g2 i [0]) :=
  (hx.bin' hy rfl (bc_keep K) o).congr fun i k _ hk => by
    rw [proj_self hk]
    cases hk with
    | cons _ h => cases h; rw [proj_one_last]

theorem EWT.keep_bin {x : AE α} {y : AE β} {L M g1 g2} {K : ℕ} (hx : EWT t [1] x L g1) (hy : EWT t [K] y M g2)
    (o : α → β → γ) : EWT t [K] (AE.bin o x y) (L ++ M) fun i k => o (g1 i [0]) (g2 i k) :=
  (hx.bin' hy rfl (by rw [broadcastShapes_comm]; exact bc_keep K) o).congr fun i k _ hk => by
    rw [proj_self hk]
    cases hk with
    | cons _ h => cases h; rw [proj_one_last]

/-- A python scalar on the left. -/
theorem EWT.scalar_bin {y : AE β} {M g} (c : α) (hy : EWT t e y M g) (o : α → β → γ) :
    EWT t e (AE.bin o (AE.scalar c) y) M fun i k => o c (g i k) := by
  obtain ⟨b, s, rfl, k2, k3, k4, k5⟩ := hy
  refine ⟨⟨b.shape, fun i => o c (b.data (proj b.shape i))⟩, s, ?_, k2, k3, k4, fun i k hi hk => ?_⟩
  · have : AE.bin o (AE.scalar c) (AE.arr b) = (match broadcastShapes [] b.shape with
      | none => Except.error .typeError
      | some t => Except.ok ⟨t, fun i => o c (b.data (proj b.shape i))⟩) := rfl
    rw [this, broadcastShapes_nil]
    rfl
  · simp only
    have hle : s.length ≤ i.length := by rw [hi.length]; exact k3.length
    rw [k2, proj_append hk (by rw [proj_length hle]), (BLe.refl s).proj hle, k5 i k hi hk]

/-- A python scalar on the right. -/
theorem EWT.bin_scalar {x : AE α} {L g} (hx : EWT t e x L g) (c : β) (o : α → β → γ) :
    EWT t e (AE.bin o x (AE.scalar c)) L fun i k => o (g i k) c := by
  obtain ⟨b, s, rfl, k2, k3, k4, k5⟩ := hx
  refine ⟨⟨b.shape, fun i => o (b.data (proj b.shape i)) c⟩, s, ?_, k2, k3, k4, fun i k hi hk => ?_⟩
  · have : AE.bin o (AE.arr b) (AE.scalar c) = (match broadcastShapes b.shape [] with
      | none => Except.error .typeError
      | some t => Except.ok ⟨t, fun i => o (b.data (proj b.shape i)) c⟩) := rfl
    rw [this, broadcast_nil_right]
    rfl
  · simp only
    have hle : s.length ≤ i.length := by rw [hi.length]; exact k3.length
    rw [k2, proj_append hk (by rw [proj_length hle]), (BLe.refl s).proj hle, k5 i k hi hk]

theorem inRange_one_iff {K : ℕ} {k : List ℕ} : InRange [K] k ↔ ∃ j : Fin K, k = [(j : ℕ)] := by
  constructor
  · intro h
    cases h with
    | cons h1 h2 => cases h2; exact ⟨⟨_, h1⟩, rfl⟩
  · rintro ⟨j, rfl⟩
    exact List.Forall₂.cons j.2 List.Forall₂.nil

theorem inRange_fin {K : ℕ} (j : Fin K) : InRange [K] [(j : ℕ)] := inRange_one_iff.2 ⟨j, rfl⟩

/-- A reduction over the last axis. -/
theorem EWT.reduceLast {x : AE α} {L g} {K : ℕ} (h : EWT t (e ++ [K]) x L g) (f : ∀ K, (Fin K → α) → β) :
    EWT t e (AE.reduceLast f x) L fun i k => f K fun j => g i (k ++ [(j : ℕ)]) := by
  obtain ⟨a, s, rfl, h2, h3, h4, h5⟩ := h
  refine ⟨⟨s ++ e, fun i => f K (AE.lastRow a K i)⟩, s, ?_, rfl, h3, h4, fun i k hi hk => ?_⟩
  · have : AE.reduceLast f (AE.arr a) = (match a.shape.getLast? with
      | none => Except.error .valueError
      | some K => Except.ok ⟨a.shape.dropLast, fun i => f K (AE.lastRow a K i)⟩) := rfl
    rw [this, h2, ← List.append_assoc, List.getLast?_concat, List.dropLast_concat]
    rfl
  · simp only
    congr 1
    funext j
    rw [← h5 i (k ++ [(j : ℕ)]) hi (hk.append (inRange_fin j))]
    simp [AE.lastRow]

theorem EWT.reduceLast0 {x : AE α} {L g} {K : ℕ} (h : EWT t [K] x L g) (f : ∀ K, (Fin K → α) → β) :
    EW t (AE.reduceLast f x) L fun i => f K fun j => g i [(j : ℕ)] :=
  (EWT.reduceLast (e := []) h f).toEW

/-- A reduction over the last axis with `keepdims`. -/
theorem EWT.keepLast {x : AE α} {L g} {K : ℕ} (h : EWT t [K] x L g) (f : ∀ K, (Fin K → α) → β) :
    EWT t [1] (AE.keepLast f x) L fun i _ => f K fun j => g i [(j : ℕ)] := by
  obtain ⟨a, s, rfl, h2, h3, h4, h5⟩ := h
  refine ⟨⟨s ++ [1], fun i => f K (AE.lastRow a K i.dropLast)⟩, s, ?_, rfl, h3, h4, fun i k hi hk => ?_⟩
  · have : AE.keepLast f (AE.arr a) = (match a.shape.getLast? with
      | none => Except.error .valueError
      | some K => Except.ok ⟨a.shape.dropLast ++ [1], fun i => f K (AE.lastRow a K i.dropLast)⟩) := rfl
    rw [this, h2, List.getLast?_concat, List.dropLast_concat]
    rfl
  · obtain ⟨q, rfl⟩ := inRange_one_iff.1 hk
    simp only [List.dropLast_concat]
    congr 1
    funext j
    rw [← h5 i [(j : ℕ)] hi (inRange_fin j)]
    rfl

/-- A row read at a one-element index list. -/
def atK [Zero β] {K : ℕ} (r : Fin K → β) (k : List ℕ) : β := if h : k.headD 0 < K then r ⟨k.headD 0, h⟩ else 0

@[simp] theorem atK_fin [Zero β] {K : ℕ} (r : Fin K → β) (j : Fin K) : atK r [(j : ℕ)] = r j := by simp [atK]

theorem EWT.mapLast [Zero β] {x : AE α} {L g} {K : ℕ} (h : EWT t [K] x L g) (f : ∀ K, (Fin K → α) → Fin K → β) :
    EWT t [K] (AE.mapLast f x) L fun i k => atK (f K fun j => g i [(j : ℕ)]) k := by
  obtain ⟨a, s, rfl, h2, h3, h4, h5⟩ := h
  refine ⟨⟨a.shape, fun i => if h : i.getLast?.getD 0 < K then
    f K (AE.lastRow a K i.dropLast) ⟨i.getLast?.getD 0, h⟩ else 0⟩, s, ?_, h2, h3, h4, fun i k hi hk => ?_⟩
  · have : AE.mapLast f (AE.arr a) = (match a.shape.getLast? with
      | none => Except.error .valueError
      | some K => Except.ok ⟨a.shape, fun i =>
        if h : i.getLast?.getD 0 < K then f K (AE.lastRow a K i.dropLast) ⟨i.getLast?.getD 0, h⟩ else 0⟩) := rfl
    rw [this]
    have e1 : a.shape.getLast? = some K := by rw [h2, List.getLast?_concat]
    rw [e1]
    rfl
  · obtain ⟨q, rfl⟩ := inRange_one_iff.1 hk
    simp only [atK_fin, List.dropLast_concat, List.getLast?_concat, Option.getD_some, Fin.is_lt, dite_true, Fin.eta]
    congr 1
    funext j
    rw [← h5 i [(j : ℕ)] hi (inRange_fin j)]
    rfl

theorem EWT.argmaxLast {x : AE XR} {L g} {K : ℕ} (h : EWT t [K + 1] x L g) :
    EW t (AE.argmaxLast x) L fun i => ((argmaxIdx fun j : Fin (K + 1) => g i [(j : ℕ)] : Fin (K + 1)) : ℕ) := by
  obtain ⟨a, s, rfl, h2, h3, h4, h5⟩ := h
  refine ⟨⟨s, fun i => (argmaxIdx (AE.lastRow a (K + 1) i) : ℕ)⟩, ?_, h3, h4, fun i hi => ?_⟩
  · have : AE.argmaxLast (AE.arr a) = (match a.shape.getLast? with
      | none => Except.error .valueError
      | some 0 => Except.error .valueError
      | some (K + 1) => Except.ok ⟨a.shape.dropLast, fun i => (argmaxIdx (AE.lastRow a (K + 1) i) : ℕ)⟩) := rfl
    rw [this, h2, List.getLast?_concat, List.dropLast_concat]
    rfl
  · simp only
    congr 2
    funext j
    rw [← h5 i [(j : ℕ)] hi (inRange_fin j)]
    rfl

theorem EW.oneHotLast {x : AE XR} {L f} (K : ℕ) (h : EW t x L f) :
    EWT t [K] (AE.oneHotLast K x) L fun i k => atK (oneHot K (f i)) k := by
  obtain ⟨a, rfl, h3, h4, h5⟩ := h
  refine ⟨_, a.shape, rfl, rfl, h3, h4, fun i k hi hk => ?_⟩
  obtain ⟨q, rfl⟩ := inRange_one_iff.1 hk
  simp only [atK_fin, List.dropLast_concat, List.getLast?_concat, Option.getD_some, h5 i hi]
  rfl


/-- `broadcast_to` a batch shape between the operand's and `t`. -/
theorem EWT.broadcastTo {x : AE α} {L M g g'} {s : List ℕ} (hx : EWT t e x L g) (hs : BLe s t) (hx' : EWT s e x M g') :
    EWT t e (x.broadcastTo (s ++ e)) [s] g := by
  obtain ⟨a, s0, rfl, h2, h3, h4, h5⟩ := hx
  obtain ⟨a', s1, e1, k2, k3, k4, k5⟩ := hx'
  obtain rfl : a = a' := Except.ok.inj e1
  obtain rfl : s0 = s1 := List.append_cancel_right (h2.symm.trans k2)
  refine ⟨⟨s ++ e, fun i => a.data (proj a.shape i)⟩, s, ?_, rfl, hs, by simp [BLe.refl], fun i k hi hk => ?_⟩
  · have : (AE.arr a).broadcastTo (s ++ e) = (if broadcastShapes a.shape (s ++ e) = some (s ++ e) then
        Except.ok ⟨s ++ e, fun i => a.data (proj a.shape i)⟩ else Except.error .valueError) := rfl
    have has' : broadcastShapes a.shape (s ++ e) = some (s ++ e) := by rw [h2]; exact k3.appendRight e
    exact this.trans (if_pos has')
  · have hle : s.length ≤ i.length := by rw [hi.length]; exact hs.length
    simp only
    rw [h2, proj_append hk (by rw [proj_length hle]; exact k3.length), k3.proj hle, h5 i k hi hk]

theorem inRange_split {s t k : List ℕ} (h : InRange (s ++ t) k) :
    ∃ k1 k2, InRange s k1 ∧ InRange t k2 ∧ k = k1 ++ k2 :=
  ⟨k.take s.length, k.drop s.length, List.forall₂_take_append _ _ _ h, List.forall₂_drop_append _ _ _ h,
    (List.take_append_drop _ _).symm⟩

/-- A new axis of size one in front of the last `n` axes. -/
theorem EWT.expandAt {x : AE α} {L g} {e f : List ℕ} {n : ℕ} (hn : f.length = n) (h : EWT t (e ++ f) x L g) :
    EWT t (e ++ 1 :: f) (x.expandAt n) L fun i k => g i (k.take e.length ++ k.drop (e.length + 1)) := by
  obtain ⟨a, s, rfl, h2, h3, h4, h5⟩ := h
  subst hn
  have hlen : a.shape.length - f.length = (s ++ e).length := by rw [h2]; simp; omega
  have hsh : a.shape.take (a.shape.length - f.length) ++ 1 :: a.shape.drop (a.shape.length - f.length)
      = s ++ (e ++ 1 :: f) := by
    rw [hlen, h2, ← List.append_assoc, List.take_left, List.drop_left, List.append_assoc]
  refine ⟨⟨s ++ (e ++ 1 :: f), fun i => a.data (i.take (s ++ e).length ++ i.drop ((s ++ e).length + 1))⟩, s, ?_, rfl, h3, h4,
    fun i k hi hk => ?_⟩
  · have : (AE.arr a).expandAt f.length = (if f.length ≤ a.shape.length then
      Except.ok ⟨a.shape.take (a.shape.length - f.length) ++ 1 :: a.shape.drop (a.shape.length - f.length),
        fun i => a.data (i.take (a.shape.length - f.length) ++ i.drop (a.shape.length - f.length + 1))⟩
      else Except.error .valueError) := rfl
    refine this.trans ((if_pos (by rw [h2]; simp; omega)).trans ?_)
    rw [hsh, hlen]
    rfl
  · have hle : s.length ≤ i.length := by rw [hi.length]; exact h3.length
    have hp : (proj s i).length = s.length := proj_length hle
    obtain ⟨k1, k2, hk1, hk2, rfl⟩ := inRange_split hk
    have hl1 := hk1.length
    cases hk2 with
    | @cons q _ k2 _ hq hk2 =>
      have e1 : (k1 ++ q :: k2).take e.length ++ (k1 ++ q :: k2).drop (e.length + 1) = k1 ++ k2 := by
        rw [List.take_left' hl1, ← hl1, ← List.drop_drop, List.drop_left, List.drop_one, List.tail_cons]
      have e2 : (proj s i ++ (k1 ++ q :: k2)).take (s ++ e).length
          ++ (proj s i ++ (k1 ++ q :: k2)).drop ((s ++ e).length + 1) = proj s i ++ (k1 ++ k2) := by
        rw [← List.append_assoc, List.take_left' (by simp [hp, hl1]), ← List.drop_drop,
          List.drop_left' (by simp [hp, hl1]), List.drop_one, List.tail_cons, List.append_assoc]
      simp only [e1, e2]
      exact h5 i _ hi (hk1.append hk2)

/-- Trailing axes of size one. -/
theorem EWT.padRight {x : AE α} {L g} (n : ℕ) (h : EWT t e x L g) :
    EWT t (e ++ List.replicate n 1) (x.padRight n) L fun i k => g i (k.take e.length) := by
  obtain ⟨a, s, rfl, h2, h3, h4, h5⟩ := h
  refine ⟨⟨a.shape ++ List.replicate n 1, fun i => a.data (i.take a.shape.length)⟩, s, rfl, ?_, h3, h4, fun i k hi hk => ?_⟩
  · simp [h2]
  · have hle : s.length ≤ i.length := by rw [hi.length]; exact h3.length
    have hp : (proj s i).length = s.length := proj_length hle
    obtain ⟨k1, k2, hk1, hk2, rfl⟩ := inRange_split hk
    have hl1 := hk1.length
    have e1 : (k1 ++ k2).take e.length = k1 := List.take_left' hl1
    have e2 : (proj s i ++ (k1 ++ k2)).take a.shape.length = proj s i ++ k1 := by
      rw [← List.append_assoc, List.take_left' (by simp [h2, hp, hl1])]
    simp only [e1, e2]
    exact h5 i _ hi hk1

/-- The sum over the axis in front of the last `n` axes. -/
theorem EWT.sumAt [AddCommMonoid α] {x : AE α} {L g} {e f : List ℕ} {n K : ℕ} (hn : f.length = n)
    (h : EWT t (e ++ K :: f) x L g) :
    EWT t (e ++ f) (x.sumAt n) L
      fun i k => ∑ j : Fin K, g i (k.take e.length ++ (j : ℕ) :: k.drop e.length) := by
  obtain ⟨a, s, rfl, h2, h3, h4, h5⟩ := h
  subst hn
  have hlen : a.shape.length - 1 - f.length = (s ++ e).length := by rw [h2]; simp; omega
  have h2' : a.shape = (s ++ e) ++ K :: f := by rw [h2, List.append_assoc]
  have hsh : a.shape.take (s ++ e).length ++ a.shape.drop ((s ++ e).length + 1) = s ++ (e ++ f) := by
    rw [h2', List.take_left, ← List.drop_drop, List.drop_left, List.drop_one, List.tail_cons, List.append_assoc]
  have hK : a.shape.getD (s ++ e).length 0 = K := by rw [h2']; simp [List.getD]
  refine ⟨⟨s ++ (e ++ f), fun i => ∑ k : Fin K, a.data (i.take (s ++ e).length ++ (k : ℕ) :: i.drop (s ++ e).length)⟩,
    s, ?_, rfl, h3, h4, fun i k hi hk => ?_⟩
  · have : (AE.arr a).sumAt f.length = (if f.length < a.shape.length then
      Except.ok ⟨a.shape.take (a.shape.length - 1 - f.length) ++ a.shape.drop (a.shape.length - 1 - f.length + 1),
        fun i => ∑ k : Fin (a.shape.getD (a.shape.length - 1 - f.length) 0), a.data
          (i.take (a.shape.length - 1 - f.length) ++ (k : ℕ) :: i.drop (a.shape.length - 1 - f.length))⟩
      else Except.error .valueError) := rfl
    refine this.trans ((if_pos (by rw [h2]; simp; omega)).trans ?_)
    rw [hlen, hsh, hK]
    rfl
  · have hle : s.length ≤ i.length := by rw [hi.length]; exact h3.length
    have hp : (proj s i).length = s.length := proj_length hle
    obtain ⟨k1, k2, hk1, hk2, rfl⟩ := inRange_split hk
    have hl1 := hk1.length
    have e1 : (k1 ++ k2).take e.length = k1 := List.take_left' hl1
    have e1' : (k1 ++ k2).drop e.length = k2 := List.drop_left' hl1
    have e2 : (proj s i ++ (k1 ++ k2)).take (s ++ e).length = proj s i ++ k1 := by
      rw [← List.append_assoc, List.take_left' (by simp [hp, hl1])]
    have e2' : (proj s i ++ (k1 ++ k2)).drop (s ++ e).length = k2 := by
      rw [← List.append_assoc, List.drop_left' (by simp [hp, hl1])]
    simp only [e1, e1', e2, e2']
    refine Finset.sum_congr rfl fun j _ => ?_
    rw [List.append_assoc]
    exact h5 i _ hi (hk1.append (List.Forall₂.cons j.2 hk2))

/-- Diagonal matrices from rows. -/
theorem EWT.diagLast [Zero α] {x : AE α} {L g} {K : ℕ} (h : EWT t [K] x L g) :
    EWT t [K, K] (AE.diagLast x) L fun i k => if k.headD 0 = k.getLastD 0 then g i [k.headD 0] else 0 := by
  obtain ⟨a, s, rfl, h2, h3, h4, h5⟩ := h
  refine ⟨⟨a.shape ++ [K], fun i => if i.dropLast.getLast?.getD 0 = i.getLast?.getD 0 then a.data i.dropLast else 0⟩, s, ?_,
    by simp [h2], h3, h4, fun i k hi hk => ?_⟩
  · have : AE.diagLast (AE.arr a) = (match a.shape.getLast? with
      | none => Except.error .valueError
      | some K => Except.ok ⟨a.shape ++ [K], fun i =>
        if i.dropLast.getLast?.getD 0 = i.getLast?.getD 0 then a.data i.dropLast else 0⟩) := rfl
    rw [this]
    have e1 : a.shape.getLast? = some K := by rw [h2, List.getLast?_concat]
    rw [e1]
    rfl
  · obtain ⟨k1, k2, hk1, hk2, rfl⟩ := inRange_split (s := [K]) (t := [K]) hk
    obtain ⟨p, rfl⟩ := inRange_one_iff.1 hk1
    obtain ⟨q, rfl⟩ := inRange_one_iff.1 hk2
    have e1 : (proj s i ++ ([(p : ℕ)] ++ [(q : ℕ)])).dropLast = proj s i ++ [(p : ℕ)] := by
      rw [← List.append_assoc, List.dropLast_concat]
    have e2 : (proj s i ++ ([(p : ℕ)] ++ [(q : ℕ)])).getLast? = some (q : ℕ) := by
      rw [← List.append_assoc, List.getLast?_concat]
    simp only [e1, e2, List.getLast?_concat, Option.getD_some]
    rw [h5 i _ hi (inRange_fin p)]
    simp

open Classical in
/-- `jnp.where` with a `keepdims` condition. -/
theorem EWT.whr_keep {c : AE Prop} {x y : AE α} {L M N p f g} {K : ℕ} (hc : EWT t [1] c L p) (hx : EWT t [K] x M f)
    (hy : EWT t [K] y N g) : EWT t [K] (AE.whr c x y) (L ++ M ++ N) fun i k => if p i [0] then f i k else g i k :=
  (hc.keep_bin hx Prod.mk).bin hy fun (p : Prop × α) c => if p.1 then p.2 else c

open Classical in
/-- `jnp.where` with a `keepdims` condition and a scalar alternative. -/
theorem EWT.whr_keep_scalar {c : AE Prop} {x : AE α} {L M p f} {K : ℕ} (hc : EWT t [1] c L p) (hx : EWT t [K] x M f)
    (y : α) : EWT t [K] (AE.whr c x (AE.scalar y)) (L ++ M) fun i k => if p i [0] then f i k else y :=
  (hc.keep_bin hx Prod.mk).bin_scalar y fun (p : Prop × α) c => if p.1 then p.2 else c

/-! Results. -/

theorem EWT.perRow {x : AE α} {L g} {K : ℕ} {f : List ℕ → Fin K → α} (h : EWT t [K] x L g)
    (hL : ∀ u, (∀ l ∈ L, BLe l u) → BLe u t → BLe t u) (hf : ∀ i, InRange t i → ∀ k : Fin K, g i [(k : ℕ)] = f i k) :
    PerRow x t K f := by
  obtain ⟨a, s, rfl, h2, h3, h4, h5⟩ := h
  obtain rfl : s = t := BLe.antisymm h3 (hL _ h4 h3)
  refine ⟨a, rfl, h2, fun i hi k => ?_⟩
  have := h5 i [(k : ℕ)] hi (inRange_fin k)
  rw [proj_self hi] at this
  rw [this, hf i hi k]

theorem EWT.perMatrix {x : AE α} {L g} {K : ℕ} {f : List ℕ → Fin K → Fin K → α} (h : EWT t [K, K] x L g)
    (hL : ∀ u, (∀ l ∈ L, BLe l u) → BLe u t → BLe t u)
    (hf : ∀ i, InRange t i → ∀ j k : Fin K, g i [(j : ℕ), (k : ℕ)] = f i j k) : PerMatrix x t K f := by
  obtain ⟨a, s, rfl, h2, h3, h4, h5⟩ := h
  obtain rfl : s = t := BLe.antisymm h3 (hL _ h4 h3)
  refine ⟨a, rfl, h2, fun i hi j k => ?_⟩
  have := h5 i [(j : ℕ), (k : ℕ)] hi (List.Forall₂.cons j.2 (inRange_fin k))
  rw [proj_self hi] at this
  rw [this, hf i hi j k]

theorem EWT.perEvent {x : AE α} {L g} {e : List ℕ} {f : List ℕ → Idx e → α} (h : EWT t e x L g)
    (hL : ∀ u, (∀ l ∈ L, BLe l u) → BLe u t → BLe t u) (hf : ∀ i, InRange t i → ∀ k : Idx e, g i k.1 = f i k) :
    PerEvent x t e f := by
  obtain ⟨a, s, rfl, h2, h3, h4, h5⟩ := h
  obtain rfl : s = t := BLe.antisymm h3 (hL _ h4 h3)
  refine ⟨a, rfl, h2, fun i hi k => ?_⟩
  have := h5 i k.1 hi k.2
  rw [proj_self hi] at this
  rw [this, hf i hi k]

end Distrax
