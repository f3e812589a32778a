import Verif.Props.Shape

/-! # C19: indices other than integers and slices

`C19_index_batch_axes`, `C19_slice_method` and the rest hold for every index object whose effect depends on the shape of
the indexed array only (`Index.other`).  Here: `None` and boolean masks. -/

namespace Distrax

theorem newaxis_ok (s : List ℕ) : Index.newaxis.Ok s := by
  intro r h i hi
  simp only [Except.ok.injEq] at h
  subst h
  cases hi with
  | cons _ h => exact h

theorem mask_ok (s m : List ℕ) (b : List ℕ → Bool) : (Index.mask m b).Ok s := by
  intro r h i hi
  simp only at h
  split at h
  · rename_i hm
    simp only [Except.ok.injEq] at h
    subst h
    cases hi with
    | @cons k n i' _ hk hi' =>
      simp only [List.headD_cons, List.tail_cons]
      have hmem : ((allIdx m).filter b).getD k [] ∈ (allIdx m).filter b := by
        rw [List.getD_eq_getElem?_getD, List.getElem?_eq_getElem hk]
        exact List.getElem_mem _
      have h1 : InRange m (((allIdx m).filter b).getD k []) := mem_allIdx.mp (List.mem_of_mem_filter hmem)
      have h2 := h1.append hi'
      have e : m ++ s.drop m.length = s := by
        conv_rhs => rw [← List.take_append_drop m.length s, hm]
      rwa [e] at h2
  · simp at h

/-- `d[None]` puts a batch axis of size one in front, for every parameter array (with or without event axes). -/
theorem C19_newaxis (batch rest : List ℕ) (hb : batch ≠ []) (a : Arr) (ha : a.shape = batch ++ rest) :
    ∃ i out, toBatchShapeIndex batch Index.newaxis = .ok i ∧ a.index i = .ok out ∧ out.shape = 1 :: batch ++ rest ∧
      ∀ j e, InRange batch j → InRange rest e → out.data (0 :: j ++ e) = a.data (j ++ e) := by
  obtain ⟨i, out, h1, h2, h3, h4⟩ := C19_index_batch_axes batch rest hb Index.newaxis (newaxis_ok _) ⟨1 :: batch, List.tail⟩ rfl a ha
  refine ⟨i, out, h1, h2, h3, fun j e hj he => ?_⟩
  exact (h4 (0 :: j) e (List.Forall₂.cons one_pos hj) he).2

/-- `d[mask]` with a boolean mask of the batch shape keeps exactly the marked batch members, in row-major order, and
leaves event axes alone. -/
theorem C19_mask (batch rest : List ℕ) (hb : batch ≠ []) (b : List ℕ → Bool) (a : Arr) (ha : a.shape = batch ++ rest) :
    ∃ (i : Index) (out : Arr) (ps : List (List ℕ)), toBatchShapeIndex batch (Index.mask batch b) = .ok i ∧ a.index i = .ok out ∧
      (∀ p, p ∈ ps ↔ InRange batch p ∧ b p = true) ∧ ps.Pairwise (fun p q => ravel batch p < ravel batch q) ∧
      out.shape = ps.length :: rest ∧
      ∀ (k : ℕ) (hk : k < ps.length) e, InRange rest e → out.data (k :: e) = a.data (ps[k] ++ e) := by
  have hr : npSelect batch (Index.mask batch b) = .ok ⟨[((allIdx batch).filter b).length],
      fun i => ((allIdx batch).filter b).getD (i.headD 0) [] ++ i.tail⟩ := by
    simp [npSelect, Index.mask]
  obtain ⟨i, out, h1, h2, h3, h4⟩ := C19_index_batch_axes batch rest hb _ (mask_ok _ _ _) _ hr a ha
  refine ⟨i, out, (allIdx batch).filter b, h1, h2, fun p => ?_, ?_, h3, fun k hk e he => ?_⟩
  · rw [List.mem_filter, mem_allIdx]
  · refine List.Pairwise.filter _ ?_
    rw [List.pairwise_iff_getElem]
    intro x y hx hy hxy
    have e1 := (allIdx_get (s := batch) (List.getElem?_eq_getElem hx)).2
    have e2 := (allIdx_get (s := batch) (List.getElem?_eq_getElem hy)).2
    omega
  · have := (h4 [k] e (List.Forall₂.cons hk List.Forall₂.nil) he).2
    simp only [List.headD_cons, List.tail_cons, List.append_nil, List.cons_append, List.nil_append] at this
    rw [this, List.getD_eq_getElem?_getD, List.getElem?_eq_getElem hk]
    rfl

/-- A mask that does not have the sizes of the leading batch axes — in particular one that also covers event axes — is
an IndexError, even if it fits the parameter array. -/
theorem C19_mask_too_long (batch m : List ℕ) (hb : batch ≠ []) (b : List ℕ → Bool) (hm : batch.take m.length ≠ m) :
    toBatchShapeIndex batch (Index.mask m b) = .error .indexError := by
  refine C19_bad_index _ hb _ _ ?_
  simp [npSelect, Index.mask, hm]

/-- logits of shape `(2, 3, 4)`, batch `(2, 3)`: a mask of shape `(2, 3)` is accepted, one of shape `(2, 3, 4)` is not. -/
example : ([2, 3] : List ℕ) ≠ [] ∧ (Arr.zeros [2, 3, 4]).shape = [2, 3] ++ [4] ∧
    ([2, 3] : List ℕ).take [2, 3, 4].length ≠ [2, 3, 4] := by simp [Arr.zeros]

/-- Slicing a two-parameter distribution by a mask, or by `None`, slices its methods. -/
theorem C19_slice_method_mask (f : ℝ → ℝ → ℝ → ℝ) (p q : Arr) (d : Fam2) (hd : Fam2.init p q = .ok d) (hb : d.batch ≠ [])
    (b : List ℕ → Bool) (v : Arr) (hv : v.shape = d.batch) (idx : Index)
    (hidx : idx = Index.newaxis ∨ idx = Index.mask d.batch b) :
    ∃ d' v' l l1 l2, d.getItem idx = .ok d' ∧ v.index idx = .ok v' ∧ d'.method f v' = .ok l1 ∧
      d.method f v = .ok l ∧ l.index idx = .ok l2 ∧ l1 ≈ₐ l2 := by
  have hok : idx.Ok d.batch := by
    rcases hidx with rfl | rfl
    · exact newaxis_ok _
    · exact mask_ok _ _ _
  have hr : ∃ r, npSelect d.batch idx = .ok r := by
    rcases hidx with rfl | rfl
    · exact ⟨_, rfl⟩
    · simp only [npSelect, Index.mask, List.take_length]
      rw [if_pos trivial]
      exact ⟨_, rfl⟩
  obtain ⟨r, hr⟩ := hr
  obtain ⟨d', v', l, l1, l2, h1, _, h3, h4, h5, h6, h7⟩ := C19_slice_method f p q d hd hb idx hok r hr v hv
  exact ⟨d', v', l, l1, l2, h1, h3, h4, h5, h6, h7⟩

end Distrax
