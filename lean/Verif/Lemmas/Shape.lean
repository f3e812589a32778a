import Verif.Spec.Shape
import Verif.Lemmas.Arr
import Verif.Lemmas.Broadcast
import Mathlib.Tactic.Ring
import Mathlib.Tactic.Linarith

namespace Distrax

theorem ravel_lt {s i : List ℕ} (h : InRange s i) : ravel s i < s.prod := by
  induction h with
  | nil => simp [ravel]
  | @cons k n i s hk _ ih =>
    simp only [ravel, List.prod_cons]
    calc k * s.prod + ravel s i < k * s.prod + s.prod := by omega
      _ = (k + 1) * s.prod := by ring
      _ ≤ n * s.prod := Nat.mul_le_mul_right _ hk

theorem unravel_ravel {s i : List ℕ} (h : InRange s i) : unravel s (ravel s i) = i := by
  induction h with
  | nil => rfl
  | @cons k n i s hk h ih =>
    have hl := ravel_lt h
    have hp : 0 < s.prod := by omega
    simp only [ravel, unravel]
    rw [Nat.mul_comm k, Nat.mul_add_div hp, Nat.div_eq_of_lt hl, Nat.mul_add_mod, Nat.mod_eq_of_lt hl, ih,
      Nat.add_zero]

theorem ravel_unravel {s : List ℕ} {m : ℕ} (h : m < s.prod) : ravel s (unravel s m) = m := by
  induction s generalizing m with
  | nil => simp at h; simp [unravel, ravel, h]
  | cons n s ih =>
    have hp : 0 < s.prod := by
      rcases Nat.eq_zero_or_pos s.prod with h0 | h0
      · rw [List.prod_cons, h0] at h; omega
      · exact h0
    simp only [unravel, ravel]
    rw [ih (Nat.mod_lt _ hp), Nat.mul_comm]
    exact Nat.div_add_mod _ _

theorem unravel_inRange {s : List ℕ} {m : ℕ} (h : m < s.prod) : InRange s (unravel s m) := by
  induction s generalizing m with
  | nil => simp [unravel, InRange]
  | cons n s ih =>
    have hp : 0 < s.prod := by
      rcases Nat.eq_zero_or_pos s.prod with h0 | h0
      · rw [List.prod_cons, h0] at h; omega
      · exact h0
    rw [List.prod_cons] at h
    exact List.Forall₂.cons ((Nat.div_lt_iff_lt_mul hp).2 h) (ih (Nat.mod_lt _ hp))

theorem ravel_append {s t i j : List ℕ} (hi : InRange s i) :
    ravel (s ++ t) (i ++ j) = ravel s i * t.prod + ravel t j := by
  induction hi with
  | nil => simp [ravel]
  | @cons k n i s hk h ih =>
    simp only [List.cons_append, ravel, ih, List.prod_append]; ring

theorem range_mul (n m : ℕ) : List.range (n * m) = (List.range n).flatMap fun a => (List.range m).map (a * m + ·) := by
  induction n with
  | zero => simp
  | succ n ih => rw [Nat.succ_mul, List.range_add, ih, List.range_succ]; simp

theorem allIdx_eq (s : List ℕ) : allIdx s = (List.range s.prod).map (unravel s) := by
  induction s with
  | nil => simp [allIdx, unravel]
  | cons n s ih =>
    rw [List.prod_cons, range_mul, List.map_flatMap, allIdx]
    apply List.flatMap_congr
    intro a ha
    rw [ih, List.map_map, List.map_map]
    apply List.map_congr_left
    intro m hm
    have hm' : m < s.prod := by simpa using hm
    simp only [Function.comp, unravel]
    rw [Nat.mul_comm a, Nat.mul_add_div (by omega), Nat.div_eq_of_lt hm', Nat.mul_add_mod, Nat.mod_eq_of_lt hm',
      Nat.add_zero]

/-- The `k`-th multi-index in row-major order is the one with row-major position `k`. -/
theorem allIdx_get {s i : List ℕ} {k : ℕ} (h : (allIdx s)[k]? = some i) : InRange s i ∧ ravel s i = k := by
  rw [allIdx_eq, List.getElem?_map] at h
  rcases hk : (List.range s.prod)[k]? with _ | m
  · rw [hk] at h; simp at h
  · rw [hk] at h
    obtain ⟨h1, h2⟩ := List.getElem?_eq_some_iff.1 hk
    simp at h1 h2 h
    subst h2; subst h
    exact ⟨unravel_inRange h1, ravel_unravel h1⟩

theorem allIdx_ravel {s i : List ℕ} (h : InRange s i) : (allIdx s)[ravel s i]? = some i := by
  rw [allIdx_eq, List.getElem?_map]
  simp [List.getElem?_range (ravel_lt h), unravel_ravel h]

theorem foldl_mul_eq_prod (l : List ℕ) : l.foldl (· * ·) 1 = l.prod := by
  rw [List.prod_eq_foldl]

/-- Reshaping a stack of draws. -/
theorem reshape_stack (a : Arr) (ss r : List ℕ) (h : a.shape = ss.prod :: r) :
    ∃ out, a.reshape (ss ++ a.shape.drop 1) = .ok out ∧ out.shape = ss ++ r ∧
      ∀ i j, InRange ss i → InRange r j → out.data (i ++ j) = a.data (ravel ss i :: j) := by
  have hd : a.shape.drop 1 = r := by rw [h]; rfl
  refine ⟨⟨ss ++ r, fun i => a.data (unravel a.shape (ravel (ss ++ r) i))⟩, ?_, rfl, ?_⟩
  · rw [hd]; unfold Arr.reshape
    rw [if_pos (by rw [h]; simp)]
  · intro i j hi hj
    show a.data _ = _
    congr 1
    rw [ravel_append hi, h, unravel]
    have hl := ravel_lt hj
    rw [Nat.mul_comm, Nat.mul_add_div (by omega), Nat.div_eq_of_lt hl, Nat.mul_add_mod, Nat.mod_eq_of_lt hl,
      unravel_ravel hj, Nat.add_zero]

theorem inRange_append_split {s t k : List ℕ} (h : InRange (s ++ t) k) :
    ∃ i j, k = i ++ j ∧ InRange s i ∧ InRange t j := by
  refine ⟨k.take s.length, k.drop s.length, (List.take_append_drop _ _).symm, ?_, ?_⟩
  · have := List.forall₂_take s.length h
    simpa [InRange] using this
  · have := List.forall₂_drop s.length h
    simpa [InRange] using this

/-! ### Indexing -/

theorem sliceBound_range {n : ℕ} {st : ℤ} (o : Option ℤ) :
    (sliceLower st ≤ sliceStart n st o ∧ sliceStart n st o ≤ sliceUpper n st) ∧
    (sliceLower st ≤ sliceStop n st o ∧ sliceStop n st o ≤ sliceUpper n st) := by
  have h : sliceLower st ≤ sliceUpper n st := by unfold sliceLower sliceUpper; split_ifs <;> omega
  cases o with
  | none => simp only [sliceStart, sliceStop]; split_ifs <;> omega
  | some z => simp only [sliceStart, sliceStop, sliceClamp]; split_ifs <;> omega

theorem slice_inRange {n : ℕ} {a b c : Option ℤ} {st step : ℤ} {len : ℕ}
    (h : sliceIndices n a b c = some (st, step, len)) {j : ℕ} (hj : j < len) :
    0 ≤ st + j * step ∧ st + j * step < n := by
  unfold sliceIndices at h
  simp only at h
  by_cases hne : c.getD 1 = 0
  · simp [hne] at h
  rw [if_neg hne] at h
  simp only [Option.some.injEq, Prod.mk.injEq] at h
  obtain ⟨h1, h2, h3⟩ := h
  rw [h1] at h3
  rw [h2] at h1 h3 hne
  have hA := (sliceBound_range (n := n) (st := step) a).1
  have hB := (sliceBound_range (n := n) (st := step) b).2
  rw [h1] at hA
  generalize sliceStop n step b = B at h3 hB
  unfold sliceLen at h3
  unfold sliceLower sliceUpper at hA hB
  by_cases hp : 0 < step
  · simp only [if_pos hp] at h3 hA hB
    by_cases hab : st < B
    · rw [if_pos hab] at h3
      have hj' : (j : ℤ) ≤ (B - st - 1) / step := by omega
      have : (j : ℤ) * step ≤ B - st - 1 := by
        calc (j : ℤ) * step ≤ (B - st - 1) / step * step := Int.mul_le_mul_of_nonneg_right hj' hp.le
          _ ≤ B - st - 1 := Int.ediv_mul_le _ hp.ne'
      have h0 : 0 ≤ (j : ℤ) * step := mul_nonneg (by omega) hp.le
      omega
    · rw [if_neg hab] at h3; simp at h3; omega
  · simp only [if_neg hp] at h3 hA hB
    by_cases hab : B < st
    · rw [if_pos hab] at h3
      have hj' : (j : ℤ) ≤ (st - B - 1) / (-step) := by omega
      have : (j : ℤ) * (-step) ≤ st - B - 1 := by
        calc (j : ℤ) * (-step) ≤ (st - B - 1) / (-step) * (-step) :=
              Int.mul_le_mul_of_nonneg_right hj' (by omega)
          _ ≤ st - B - 1 := Int.ediv_mul_le _ (by omega)
      have h0 : 0 ≤ (j : ℤ) * (-step) := mul_nonneg (by omega) (by omega)
      have e : (j : ℤ) * step = -((j : ℤ) * (-step)) := by ring
      omega
    · rw [if_neg hab] at h3; simp at h3; omega

theorem basicIndex_inRange {s : List ℕ} {es : List IdxEl} {r : Sel} (h : basicIndex s es = .ok r) {i : List ℕ}
    (hi : InRange r.shape i) : InRange s (r.sel i) := by
  induction s generalizing es r i with
  | nil =>
    cases es with
    | nil => simp [basicIndex] at h; subst h; simp [InRange]
    | cons e es => simp [basicIndex] at h
  | cons n s ih =>
    cases es with
    | nil => simp [basicIndex] at h
    | cons e es =>
      cases e with
      | int z =>
        simp only [basicIndex] at h
        generalize (if z < 0 then z + (n : ℤ) else z) = z' at h
        by_cases hz : 0 ≤ z' ∧ z' < n
        · rw [if_pos hz] at h
          rcases hr : basicIndex s es with e | r'
          · rw [hr] at h; simp at h
          · rw [hr] at h
            simp only [Except.ok.injEq] at h; subst h
            refine List.Forall₂.cons ?_ (ih hr hi)
            omega
        · rw [if_neg hz] at h; simp at h
      | slice a b c =>
        simp only [basicIndex] at h
        split at h
        · simp at h
        · rename_i st step len hsl
          split at h
          · rename_i r' hr'
            simp only [Except.ok.injEq] at h; subst h
            cases hi with
            | @cons k m i' _ hk hi' =>
              have := slice_inRange hsl hk
              refine List.Forall₂.cons ?_ (ih hr' hi')
              simp only [List.headD_cons]
              omega
          · simp at h
      | ellipsis => simp [basicIndex] at h

theorem npSelect_inRange {s : List ℕ} {idx : Index} (hok : idx.Ok s) {r : Sel} (h : npSelect s idx = .ok r)
    {i : List ℕ} (hi : InRange r.shape i) : InRange s (r.sel i) := by
  cases idx with
  | basic l =>
    simp only [npSelect, bind, Except.bind] at h
    split at h
    · simp at h
    · exact basicIndex_inRange h hi
  | coords m o c =>
    simp only [npSelect] at h
    split at h
    · simp only [Except.ok.injEq] at h; subst h
      obtain ⟨i1, i2, rfl, h1, h2⟩ := inRange_append_split hi
      have hl := h1.length
      show InRange s (c ((i1 ++ i2).take o.length) ++ (i1 ++ i2).drop o.length)
      rw [← hl, List.take_left, List.drop_left]
      have := (hok i1 h1).append h2
      rwa [List.take_append_drop] at this
    · simp at h
  | other f => exact hok r h i hi

theorem map_range_getD {l : List ℕ} {n : ℕ} (h : l.length = n) :
    (List.range n).map (fun k => l.getD k 0) = l := by
  subst h
  apply List.ext_getElem
  · simp
  · intro i h1 h2
    simp at h1
    simp [h1]

end Distrax
