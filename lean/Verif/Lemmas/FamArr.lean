import Verif.Spec.FamArr
import Verif.Lemmas.Broadcast

/-! A calculus for elementwise array expressions. -/

namespace Distrax

open Spec

variable {α β γ δ : Type}

/-- Shape `s` broadcasts into shape `t`. -/
def BLe (s t : List ℕ) : Prop := broadcastShapes s t = some t

theorem BLe.refl (s : List ℕ) : BLe s s := broadcastShapes_self s

theorem BLe.antisymm {s t : List ℕ} (h : BLe s t) (h' : BLe t s) : s = t := by
  unfold BLe at h h'
  rw [broadcastShapes_comm, h'] at h
  simpa using h

theorem BLe.trans {a b c : List ℕ} (h : BLe a b) (h' : BLe b c) : BLe a c := by
  obtain ⟨u, h1, h2⟩ := broadcast_assoc h h'
  unfold BLe at h'
  rw [h', Option.some.injEq] at h1
  subst h1
  exact h2

theorem BLe.nil (s : List ℕ) : BLe [] s := broadcastShapes_nil s

/-- The join of two shapes is the least shape both broadcast into. -/
theorem BLe.join {a b t u : List ℕ} (h : broadcastShapes a b = some t) (ha : BLe a u) (hb : BLe b u) : BLe t u := by
  obtain ⟨t', h1, h2⟩ := broadcastShapes_join a b u ha hb
  rw [h, Option.some.injEq] at h1
  subst h1
  exact h2

theorem BLe.left {a b t : List ℕ} (h : broadcastShapes a b = some t) : BLe a t := broadcast_absorb_left h
theorem BLe.right {a b t : List ℕ} (h : broadcastShapes a b = some t) : BLe b t := broadcast_absorb_right h

theorem BLe.proj {a b i : List ℕ} (h : BLe a b) (hi : b.length ≤ i.length) : proj a (proj b i) = proj a i :=
  proj_proj h hi

theorem BLe.length {a b : List ℕ} (h : BLe a b) : a.length ≤ b.length := broadcast_length_le h

/-- The expression has a value whose shape broadcasts into `T`, to which the shapes in `L` broadcast, and which reads as
`f` on `T`. -/
def EW (T : List ℕ) (x : AE α) (L : List (List ℕ)) (f : List ℕ → α) : Prop :=
  ∃ a : BArr α, x = AE.arr a ∧ BLe a.shape T ∧ (∀ l ∈ L, BLe l a.shape) ∧
    ∀ i, InRange T i → a.data (proj a.shape i) = f i

variable {T : List ℕ}

theorem EW.arr {a : BArr α} (h : BLe a.shape T) : EW T (AE.arr a) [a.shape] (bget a) :=
  ⟨a, rfl, h, by simp [BLe.refl], fun _ _ => rfl⟩

theorem EW.scalar (c : α) : EW T (AE.scalar c) [] fun _ => c :=
  ⟨⟨[], fun _ => c⟩, rfl, BLe.nil _, by simp, fun _ _ => rfl⟩

theorem EW.map {x : AE α} {L f} (h : EW T x L f) (g : α → β) : EW T (AE.map g x) L fun i => g (f i) := by
  obtain ⟨a, rfl, h1, h2, h3⟩ := h
  exact ⟨⟨a.shape, fun i => g (a.data i)⟩, rfl, h1, h2, fun i hi => congrArg g (h3 i hi)⟩

theorem EW.bin {x : AE α} {y : AE β} {L M f g} (hx : EW T x L f) (hy : EW T y M g) (o : α → β → γ) :
    EW T (AE.bin o x y) (L ++ M) fun i => o (f i) (g i) := by
  obtain ⟨a, rfl, h1, h2, h3⟩ := hx
  obtain ⟨b, rfl, k1, k2, k3⟩ := hy
  obtain ⟨t, t1, t2⟩ := broadcastShapes_join _ _ _ h1 k1
  refine ⟨⟨t, fun i => o (a.data (proj a.shape i)) (b.data (proj b.shape i))⟩, ?_, t2, ?_, ?_⟩
  · have : AE.bin o (AE.arr a) (AE.arr b) = (match broadcastShapes a.shape b.shape with
      | none => Except.error .typeError
      | some t => Except.ok ⟨t, fun i => o (a.data (proj a.shape i)) (b.data (proj b.shape i))⟩) := rfl
    rw [this, t1]
    rfl
  · intro l hl
    rcases List.mem_append.1 hl with hl | hl
    · exact (h2 l hl).trans (BLe.left t1)
    · exact (k2 l hl).trans (BLe.right t1)
  · intro i hi
    have hle : t.length ≤ i.length := by rw [hi.length]; exact BLe.length t2
    simp only
    rw [(BLe.left t1).proj hle, (BLe.right t1).proj hle, h3 i hi, k3 i hi]

theorem EW.tern {x : AE α} {y : AE β} {z : AE γ} {L M N f g h} (hx : EW T x L f) (hy : EW T y M g) (hz : EW T z N h)
    (o : α → β → γ → δ) : EW T (AE.tern o x y z) (L ++ M ++ N) fun i => o (f i) (g i) (h i) :=
  (hx.bin hy Prod.mk).bin hz _

theorem EW.add [Add α] {x y : AE α} {L M f g} (hx : EW T x L f) (hy : EW T y M g) :
    EW T (x + y) (L ++ M) fun i => f i + g i := hx.bin hy _
theorem EW.sub [Sub α] {x y : AE α} {L M f g} (hx : EW T x L f) (hy : EW T y M g) :
    EW T (x - y) (L ++ M) fun i => f i - g i := hx.bin hy _
theorem EW.mul [Mul α] {x y : AE α} {L M f g} (hx : EW T x L f) (hy : EW T y M g) :
    EW T (x * y) (L ++ M) fun i => f i * g i := hx.bin hy _
theorem EW.div [Div α] {x y : AE α} {L M f g} (hx : EW T x L f) (hy : EW T y M g) :
    EW T (x / y) (L ++ M) fun i => f i / g i := hx.bin hy _
theorem EW.neg [Neg α] {x : AE α} {L f} (hx : EW T x L f) : EW T (-x) L fun i => -f i := hx.map _
theorem EW.log {x : AE ℝ} {L f} (hx : EW T x L f) : EW T x.log L fun i => Real.log (f i) := hx.map _
theorem EW.exp {x : AE ℝ} {L f} (hx : EW T x L f) : EW T x.exp L fun i => Real.exp (f i) := hx.map _
theorem EW.square {x : AE ℝ} {L f} (hx : EW T x L f) : EW T x.square L fun i => f i ^ 2 := hx.map _
theorem EW.abs {x : AE ℝ} {L f} (hx : EW T x L f) : EW T x.abs L fun i => |f i| := hx.map _
theorem EW.sqrt {x : AE ℝ} {L f} (hx : EW T x L f) : EW T x.sqrt L fun i => Real.sqrt (f i) := hx.map _
theorem EW.xlog {x : AE ℝ} {L f} (hx : EW T x L f) : EW T x.xlog L fun i => XR.log (.fin (f i)) := hx.map _
theorem EW.ext {x : AE ℝ} {L f} (hx : EW T x L f) : EW T x.ext L fun i => .fin (f i) := hx.map _
theorem EW.fullLike {x : AE α} {L f} (hx : EW T x L f) (c : β) : EW T (x.fullLike c) L fun _ => c := hx.map _
open Classical in
theorem EW.whr {c : AE Prop} {x y : AE α} {L M N p f g} (hc : EW T c L p) (hx : EW T x M f) (hy : EW T y N g) :
    EW T (AE.whr c x y) (L ++ M ++ N) fun i => if p i then f i else g i := hc.tern hx hy _

theorem EW.broadcastTo {x : AE α} {L f} {s : List ℕ} {a : BArr α} (hs : BLe s T) (ha : x = AE.arr a)
    (has : BLe a.shape s) (hx : EW T x L f) : EW T (x.broadcastTo s) [s] f := by
  subst ha
  obtain ⟨a', e, k1, k2, k3⟩ := hx
  obtain rfl : a = a' := Except.ok.inj e
  refine ⟨⟨s, fun i => a.data (proj a.shape i)⟩, ?_, hs, ?_, ?_⟩
  · have : (AE.arr a).broadcastTo s = (if broadcastShapes a.shape s = some s then
        Except.ok ⟨s, fun i => a.data (proj a.shape i)⟩ else Except.error .valueError) := rfl
    have has' : broadcastShapes a.shape s = some s := has
    exact this.trans (if_pos has')
  · intro l hl
    obtain rfl := List.mem_singleton.1 hl
    exact BLe.refl _
  · intro i hi
    have hle : s.length ≤ i.length := by rw [hi.length]; exact BLe.length hs
    simp only
    rw [BLe.proj has hle, k3 i hi]

theorem brev_ones_fam (k : ℕ) : ∀ (t : List ℕ), k ≤ t.length → brev (List.replicate k 1) t = some t := by
  induction k with
  | zero => intro t _; simp [brev]
  | succ k ih =>
    intro t hk
    cases t with
    | nil => simp at hk
    | cons b t =>
      simp only [List.replicate_succ, brev, ih t (by simpa using hk), bdim]
      split <;> simp_all

theorem brev_append_ones (k : ℕ) : ∀ (a t : List ℕ), brev a t = some t → a.length + k ≤ t.length →
    brev (a ++ List.replicate k 1) t = some t
  | [], t, _, hk => by simpa using brev_ones_fam k t (by simpa using hk)
  | a :: as, [], h, _ => by simp [brev] at h
  | a :: as, b :: bs, h, hk => by
    rw [List.cons_append]
    simp only [brev] at h ⊢
    split at h
    · next d r h1 h2 =>
      obtain ⟨h3, h4⟩ : d = b ∧ r = bs := by simpa using h
      rw [h4] at h2
      rw [h1, brev_append_ones k as bs h2 (by simp only [List.length_cons] at hk; omega), h3]
    · simp at h

theorem BLe.ones {a t : List ℕ} (k : ℕ) (h : BLe a t) (hk : a.length + k ≤ t.length) :
    BLe (List.replicate k 1 ++ a) t := by
  unfold BLe at *
  rw [broadcastShapes_iff] at *
  rw [List.reverse_append, List.reverse_replicate]
  exact brev_append_ones k _ _ h (by simpa using hk)

theorem BLe.to_ones (a : List ℕ) (k : ℕ) : BLe a (List.replicate k 1 ++ a) := by
  have : broadcastShapes ([] ++ a) (List.replicate k 1 ++ a) = _ := broadcast_append a _ _
  rw [broadcastShapes_nil] at this
  exact this

theorem EW.expandTo {x : AE α} {L f} {r : ℕ} (hx : EW T x L f) (hr : r = T.length) : EW T (x.expandTo r) L f := by
  obtain ⟨a, rfl, h1, h2, h3⟩ := hx
  have hl := h1.length
  refine ⟨⟨List.replicate (r - a.shape.length) 1 ++ a.shape, fun i => a.data (i.drop (r - a.shape.length))⟩, rfl,
    h1.ones _ (by omega), fun l hl => (h2 l hl).trans (BLe.to_ones _ _), fun i hi => ?_⟩
  have hil := hi.length
  rw [← h3 i hi]
  simp only
  congr 1
  unfold proj
  have e1 : i.length - (List.replicate (r - a.shape.length) 1 ++ a.shape).length = 0 := by
    simp only [List.length_append, List.length_replicate]; omega
  have e2 : i.length - a.shape.length = r - a.shape.length := by omega
  rw [e1, e2, List.drop_zero, List.drop_zipWith, List.drop_left' (by simp)]

theorem EW.repeatLead {x : AE α} {L f} (n : ℕ) (hx : EW T x L f) (hT : ∀ u, (∀ l ∈ L, BLe l u) → BLe u T → BLe T u) :
    EW (n :: T) (x.repeatLead n) [n :: T] fun i => f i.tail := by
  obtain ⟨a, rfl, h1, h2, h3⟩ := hx
  have hs : a.shape = T := BLe.antisymm h1 (hT _ h2 h1)
  refine ⟨⟨n :: a.shape, fun i => a.data i.tail⟩, rfl, ?_, ?_, ?_⟩
  · rw [hs]; exact BLe.refl _
  · rw [hs]; intro l hl; rw [List.mem_singleton.1 hl]; exact BLe.refl _
  · intro i hi
    cases hi with
    | cons hk hi =>
      simp only [List.tail_cons]
      rw [← h3 _ hi, hs, proj_self (List.Forall₂.cons hk hi), List.tail_cons, proj_self hi]

/-- A result of the shape all parts were broadcast into. -/
theorem EW.perEntry {x : AE α} {L f g} (h : EW T x L f) (hL : ∀ u, (∀ l ∈ L, BLe l u) → BLe u T → BLe T u)
    (hfg : ∀ i, InRange T i → f i = g i) : PerEntry x T g := by
  obtain ⟨a, rfl, h1, h2, h3⟩ := h
  have : a.shape = T := BLe.antisymm h1 (hL _ h2 h1)
  refine ⟨a, rfl, this, fun i hi => ?_⟩
  rw [← hfg i hi, ← h3 i hi, this, proj_self hi]

end Distrax
