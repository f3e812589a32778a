import Verif.Model.Arr
import Mathlib.Tactic.Ring
import Mathlib.Tactic.Linarith

namespace Distrax

theorem bdim_self (a : ℕ) : bdim a a = some a := by simp [bdim]

theorem brev_self (s : List ℕ) : brev s s = some s := by
  induction s with
  | nil => rfl
  | cons a s ih => simp [brev, bdim_self, ih]

theorem broadcastShapes_self (s : List ℕ) : broadcastShapes s s = some s := by
  simp [broadcastShapes, brev_self]

theorem brev_nil_right (s : List ℕ) : brev s [] = some s := by
  cases s <;> rfl

theorem broadcastShapes_nil (s : List ℕ) : broadcastShapes [] s = some s := by
  simp [broadcastShapes, brev]

/-- Shapes `a` and `b` both broadcast into `s`; then so does their join. -/
theorem brev_join : ∀ (a b s : List ℕ), brev a s = some s → brev b s = some s →
    ∃ t, brev a b = some t ∧ brev t s = some s
  | [], b, s, _, hb => ⟨b, by simp [brev], hb⟩
  | a :: as, [], s, ha, _ => ⟨a :: as, by simp [brev], ha⟩
  | a :: as, b :: bs, [], ha, _ => by simp [brev] at ha
  | a :: as, b :: bs, d :: ds, ha, hb => by
    simp only [brev] at ha hb
    rcases h1 : bdim a d with _ | d1 <;> rcases h2 : brev as ds with _ | r1 <;>
      simp [h1, h2] at ha
    rcases h3 : bdim b d with _ | d2 <;> rcases h4 : brev bs ds with _ | r2 <;>
      simp [h3, h4] at hb
    obtain ⟨rfl, rfl⟩ := ha
    obtain ⟨rfl, rfl⟩ := hb
    obtain ⟨t, ht, hts⟩ := brev_join as bs _ h2 h4
    have : ∃ e, bdim a b = some e ∧ bdim e d2 = some d2 := by
      simp only [bdim] at *
      split_ifs at * <;> simp_all
    obtain ⟨e, he, he2⟩ := this
    exact ⟨e :: t, by simp [brev, he, ht], by simp [brev, he2, hts]⟩

theorem broadcastShapes_iff (a s t : List ℕ) :
    broadcastShapes a s = some t ↔ brev a.reverse s.reverse = some t.reverse := by
  unfold broadcastShapes
  constructor
  · intro h
    rcases h' : brev a.reverse s.reverse with _ | r
    · simp [h'] at h
    · simp [h'] at h; simp [← h]
  · intro h; simp [h]

theorem broadcastShapes_join (a b s : List ℕ) (ha : broadcastShapes a s = some s)
    (hb : broadcastShapes b s = some s) :
    ∃ t, broadcastShapes a b = some t ∧ broadcastShapes t s = some s := by
  rw [broadcastShapes_iff] at ha hb
  obtain ⟨t, h1, h2⟩ := brev_join _ _ _ ha hb
  refine ⟨t.reverse, ?_, ?_⟩
  · rw [broadcastShapes_iff]; simpa using h1
  · rw [broadcastShapes_iff]; simpa using h2

theorem bdim_comm (a b : ℕ) : bdim a b = bdim b a := by
  simp only [bdim]; split_ifs <;> simp_all

theorem brev_comm : ∀ (a b : List ℕ), brev a b = brev b a
  | [], b => by cases b <;> rfl
  | a :: as, [] => rfl
  | a :: as, b :: bs => by simp only [brev, bdim_comm a b, brev_comm as bs]

theorem broadcastShapes_comm (a b : List ℕ) : broadcastShapes a b = broadcastShapes b a := by
  simp [broadcastShapes, brev_comm]

theorem InRange.length {s i : List ℕ} (h : InRange s i) : i.length = s.length :=
  List.Forall₂.length_eq h

theorem proj_self {s i : List ℕ} (h : InRange s i) : proj s i = i := by
  unfold proj
  rw [h.length]
  simp only [Nat.sub_self, List.drop_zero]
  unfold InRange at h
  induction h with
  | nil => rfl
  | @cons a b l1 l2 hab _ ih =>
    simp only [List.zipWith_cons_cons, ih]
    congr 1
    split_ifs with h
    · omega
    · rfl

theorem InRange.append {s t i j : List ℕ} (h : InRange s i) (h' : InRange t j) :
    InRange (s ++ t) (i ++ j) := List.rel_append h h'

theorem mem_allIdx {s i : List ℕ} : i ∈ allIdx s ↔ InRange s i := by
  induction s generalizing i with
  | nil => simp [allIdx, InRange]
  | cons n s ih =>
    simp only [allIdx, List.mem_flatMap, List.mem_range, List.mem_map]
    constructor
    · rintro ⟨k, hk, j, hj, rfl⟩
      exact List.Forall₂.cons hk (ih.1 hj)
    · intro h
      unfold InRange at h
      cases h with
      | cons h1 h2 => exact ⟨_, h1, _, ih.2 h2, rfl⟩

theorem list_sum_flatMap {α : Type} (l : List α) (f : α → List ℝ) :
    (l.flatMap f).sum = (l.map (fun a => (f a).sum)).sum := by
  induction l with
  | nil => simp
  | cons a l ih => simp [ih]

theorem sum_allIdx_append (s t : List ℕ) (f : List ℕ → ℝ) :
    ((allIdx (s ++ t)).map f).sum =
      ((allIdx s).map (fun i => ((allIdx t).map (fun j => f (i ++ j))).sum)).sum := by
  induction s generalizing f with
  | nil => simp [allIdx]
  | cons n s ih =>
    simp only [List.cons_append, allIdx]
    rw [List.map_flatMap, List.map_flatMap, list_sum_flatMap, list_sum_flatMap]
    congr 1
    apply List.map_congr_left
    intro k _
    simp only [List.map_map]
    exact ih (fun i => f (k :: i))

theorem Arr.Eqv.refl (a : Arr) : a ≈ₐ a := ⟨rfl, fun _ _ => rfl⟩
theorem Arr.Eqv.symm {a b : Arr} (h : a ≈ₐ b) : b ≈ₐ a :=
  ⟨h.1.symm, fun i hi => (h.2 i (h.1 ▸ hi)).symm⟩
theorem Arr.Eqv.trans {a b c : Arr} (h : a ≈ₐ b) (h' : b ≈ₐ c) : a ≈ₐ c :=
  ⟨h.1.trans h'.1, fun i hi => (h.2 i hi).trans (h'.2 i (h.1 ▸ hi))⟩

/-- Sum over a list of a sum. -/
theorem list_sum_add {α : Type} (l : List α) (f g : α → ℝ) :
    (l.map (fun a => f a + g a)).sum = (l.map f).sum + (l.map g).sum := by
  induction l with
  | nil => simp
  | cons a l ih => simp [ih]; ring

theorem list_sum_neg {α : Type} (l : List α) (f : α → ℝ) :
    (l.map (fun a => -f a)).sum = -(l.map f).sum := by
  induction l with
  | nil => simp
  | cons a l ih => simp [ih]; ring

theorem bin_same (f : ℝ → ℝ → ℝ) (a b : Arr) (s : List ℕ) (ha : a.shape = s) (hb : b.shape = s) :
    ∃ c, Arr.bin f a b = .ok c ∧ c.shape = s ∧ ∀ i, InRange s i → c.data i = f (a.data i) (b.data i) := by
  refine ⟨⟨s, fun i => f (a.data (proj a.shape i)) (b.data (proj b.shape i))⟩, ?_, rfl, ?_⟩
  · simp [Arr.bin, ha, hb, broadcastShapes_self]
  · intro i hi
    simp [ha, hb, proj_self hi]

end Distrax
