import Verif.Spec.Coupling
import Verif.Lemmas.Arr
import Verif.Lemmas.Broadcast
import Verif.Lemmas.Bijector

namespace Distrax

theorem brev_append_bind : ∀ (a c b d : List ℕ), a.length = c.length →
    brev (a ++ b) (c ++ d) = (brev a c).bind fun u => (brev b d).map fun v => u ++ v
  | [], [], b, d, _ => by simp [brev]
  | [], c :: cs, b, d, h => by simp at h
  | a :: as, [], b, d, h => by simp at h
  | a :: as, c :: cs, b, d, h => by
    have ih := brev_append_bind as cs b d (by simpa using h)
    simp only [List.cons_append, brev, ih]
    rcases bdim a c with _ | e <;> rcases brev as cs with _ | u <;> rcases brev b d with _ | v <;> simp

theorem brev_ones : ∀ e : List ℕ, brev (List.replicate e.length 1) e = some e
  | [] => rfl
  | a :: e => by
    simp only [List.length_cons, List.replicate_succ, brev, brev_ones e]
    have : bdim 1 a = some a := by
      unfold bdim
      by_cases h : 1 = a
      · rw [if_pos h, h]
      · rw [if_neg h, if_pos rfl]
    rw [this]

theorem broadcast_ext {m b e : List ℕ} (h : broadcastShapes m b = some b) :
    broadcastShapes (m ++ List.replicate e.length 1) (b ++ e) = some (b ++ e) := by
  rw [broadcastShapes_iff] at *
  simp only [List.reverse_append, List.reverse_replicate]
  rw [brev_append_bind _ _ _ _ (by simp)]
  have := brev_ones e.reverse
  rw [List.length_reverse] at this
  simp [this, h]

theorem brev_length : ∀ (a s : List ℕ), brev a s = some s → a.length ≤ s.length
  | [], s, _ => by simp
  | a :: as, [], h => by simp [brev] at h
  | a :: as, d :: ds, h => by
    simp only [brev] at h
    rcases h1 : bdim a d with _ | d1 <;> rcases h2 : brev as ds with _ | r1 <;> simp [h1, h2] at h
    have := brev_length as ds (by rw [h2, h.2])
    simpa using this

theorem broadcast_length {m b : List ℕ} (h : broadcastShapes m b = some b) : m.length ≤ b.length := by
  rw [broadcastShapes_iff] at h
  simpa using brev_length _ _ h

theorem proj_ext {m b e i j : List ℕ} (h : broadcastShapes m b = some b) (hi : InRange b i)
    (hj : InRange e j) :
    (proj (m ++ List.replicate e.length 1) (i ++ j)).take m.length = proj m i := by
  have hl := broadcast_length h
  have hil := hi.length
  have hjl := hj.length
  have e1 : (i ++ j).drop ((i ++ j).length - (m ++ List.replicate e.length 1).length) =
      i.drop (i.length - m.length) ++ j := by
    simp only [List.length_append, List.length_replicate]
    rw [show i.length + j.length - (m.length + e.length) = i.length - m.length by omega,
      List.drop_append_of_le_length (by omega)]
  unfold proj
  rw [e1, List.zipWith_append (by simp; omega)]
  have hlen : (List.zipWith (fun d k => if d = 1 then 0 else k) m (i.drop (i.length - m.length))).length
      = m.length := by simp; omega
  rw [List.take_append_of_le_length (by omega), List.take_of_length_le (by omega)]

theorem whereArr_ok (m : Mask) (a b : Arr) (s : List ℕ) (ha : a.shape = s) (hb : b.shape = s)
    (h : broadcastShapes m.shape s = some s) :
    ∃ c, whereArr m a b = .ok c ∧ c.shape = s ∧
      ∀ i, InRange s i → c.data i = if m.data (proj m.shape i) then a.data i else b.data i := by
  refine ⟨⟨s, fun i => if m.data (proj m.shape i) then a.data (proj a.shape i)
        else b.data (proj b.shape i)⟩, ?_, rfl, ?_⟩
  · simp [whereArr, ha, hb, h]
  · intro i hi
    simp [ha, hb, proj_self hi]

theorem canon_congr {a b : Arr} (h : a ≈ₐ b) : a.canon = b.canon := by
  obtain ⟨h1, h2⟩ := h
  cases a with | mk sa da => cases b with | mk sb db =>
  simp only at h1 h2
  subst h1
  simp only [Arr.canon, Arr.mk.injEq, true_and]
  funext i
  by_cases hi : InRange sa i
  · simp [hi, h2 i hi]
  · simp [hi]

theorem sumLast_ok (a : Arr) (n : ℕ) (h : n ≤ a.shape.length) :
    a.sumLast n = .ok ⟨a.shape.take (a.shape.length - n), fun i =>
      ((allIdx (a.shape.drop (a.shape.length - n))).map (fun j => a.data (i ++ j))).sum⟩ := by
  simp [Arr.sumLast, h]

theorem sumLast_congr_neg {a b : Arr} (h : a ≈ₐ b.neg) (n : ℕ) (hn : n ≤ b.shape.length) :
    ∃ l l', b.sumLast n = .ok l ∧ a.sumLast n = .ok l' ∧ l' ≈ₐ l.neg := by
  have hs : a.shape = b.shape := h.1
  refine ⟨_, _, sumLast_ok b n hn, sumLast_ok a n (by rw [hs]; exact hn), ?_⟩
  refine ⟨by simp [Arr.neg, hs], fun i hi => ?_⟩
  simp only at hi
  simp only [Arr.neg, ← list_sum_neg, hs]
  congr 1
  apply List.map_congr_left
  intro j hj
  rw [mem_allIdx] at hj
  rw [hs] at hi
  have := h.2 (i ++ j) (by rw [hs]; exact Bij.take_drop_inRange hi hj)
  simpa [Arr.neg] using this

/-! ### axis splitting -/

section axis
variable {s1 s2 : List ℕ} {d : ℕ}

theorem inRange_mid {i : List ℕ} (h : InRange (s1 ++ d :: s2) i) :
    ∃ i1 k i2, i = i1 ++ k :: i2 ∧ InRange s1 i1 ∧ k < d ∧ InRange s2 i2 := by
  induction s1 generalizing i with
  | nil =>
    unfold InRange at h
    cases h with
    | cons h3 h4 => exact ⟨[], _, _, rfl, List.Forall₂.nil, h3, h4⟩
  | cons a s ih =>
    unfold InRange at h
    cases h with
    | cons h3 h4 =>
      obtain ⟨i1, k, i2, rfl, h5, h6, h7⟩ := ih h4
      exact ⟨_ :: i1, k, i2, rfl, List.Forall₂.cons h3 h5, h6, h7⟩

theorem inRange_mid' {i1 i2 : List ℕ} {k : ℕ} (h1 : InRange s1 i1) (hk : k < d) (h2 : InRange s2 i2) :
    InRange (s1 ++ d :: s2) (i1 ++ k :: i2) :=
  h1.append (List.Forall₂.cons hk h2)

theorem set_mid (e : ℕ) : (s1 ++ d :: s2).set s1.length e = s1 ++ e :: s2 := by simp

theorem modify_mid {i1 i2 : List ℕ} {k : ℕ} {f : ℕ → ℕ} (h : i1.length = s1.length) :
    (i1 ++ k :: i2).modify s1.length f = i1 ++ f k :: i2 := by
  rw [← h]
  clear h
  induction i1 with
  | nil => simp
  | cons a l ih => simp [ih]

theorem getD_mid {i1 i2 : List ℕ} {k : ℕ} (h : i1.length = s1.length) :
    (i1 ++ k :: i2).getD s1.length 0 = k := by
  rw [← h]; simp

theorem split2_ok (x : Arr) (idx : ℕ) (hx : x.shape = s1 ++ d :: s2) (hi : idx ≤ d) :
    x.split2 s1.length idx = .ok (x.sliceAxis s1.length 0 idx, x.sliceAxis s1.length idx d) := by
  have : x.shape.getD s1.length 0 = d := by rw [hx]; exact getD_mid rfl
  unfold Arr.split2
  rw [this, if_pos ⟨by rw [hx]; simp, hi⟩]

theorem slice_lo (x : Arr) (idx : ℕ) (hx : x.shape = s1 ++ d :: s2) :
    (x.sliceAxis s1.length 0 idx).shape = s1 ++ idx :: s2 ∧
    ∀ i1 k i2, i1.length = s1.length →
      (x.sliceAxis s1.length 0 idx).data (i1 ++ k :: i2) = x.data (i1 ++ k :: i2) := by
  refine ⟨by simp [Arr.sliceAxis, hx], fun i1 k i2 h => ?_⟩
  simp only [Arr.sliceAxis]
  rw [modify_mid h]
  rfl

theorem slice_hi (x : Arr) (idx : ℕ) (hx : x.shape = s1 ++ d :: s2) :
    (x.sliceAxis s1.length idx d).shape = s1 ++ (d - idx) :: s2 ∧
    ∀ i1 k i2, i1.length = s1.length →
      (x.sliceAxis s1.length idx d).data (i1 ++ k :: i2) = x.data (i1 ++ (k + idx) :: i2) := by
  refine ⟨by simp [Arr.sliceAxis, hx], fun i1 k i2 h => ?_⟩
  simp only [Arr.sliceAxis]
  rw [modify_mid h]

theorem concat2_ok (a b : Arr) (e f : ℕ) (ha : a.shape = s1 ++ e :: s2) (hb : b.shape = s1 ++ f :: s2) :
    ∃ c, a.concat2 b s1.length = .ok c ∧ c.shape = s1 ++ (e + f) :: s2 ∧
      (∀ i1 k i2, i1.length = s1.length → k < e → c.data (i1 ++ k :: i2) = a.data (i1 ++ k :: i2)) ∧
      (∀ i1 k i2, i1.length = s1.length → c.data (i1 ++ (k + e) :: i2) = b.data (i1 ++ k :: i2)) := by
  have h1 : a.shape.getD s1.length 0 = e := by rw [ha]; exact getD_mid rfl
  have h2 : b.shape.getD s1.length 0 = f := by rw [hb]; exact getD_mid rfl
  unfold Arr.concat2
  rw [if_pos ⟨by rw [ha]; simp, by rw [ha, hb]; simp⟩, h1, h2]
  refine ⟨_, rfl, by simp [ha], ?_, ?_⟩
  · intro i1 k i2 h hk
    simp only
    rw [getD_mid h, if_pos hk]
  · intro i1 k i2 h
    simp only
    rw [getD_mid h, if_neg (by omega), modify_mid h, Nat.add_sub_cancel]

end axis

end Distrax
