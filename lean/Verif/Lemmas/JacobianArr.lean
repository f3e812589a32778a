import Verif.Spec.Jacobian
import Verif.Lemmas.Jacobian
import Mathlib.Algebra.BigOperators.Fin

/-! Arrays and their positions: splitting positions, replacing events, sums over all positions. -/

namespace Distrax

theorem allIdx_nodup' : ∀ s : List ℕ, (allIdx s).Nodup
  | [] => by simp [allIdx]
  | n :: s => by
    rw [allIdx, List.nodup_flatMap]
    refine ⟨fun k _ => (allIdx_nodup' s).map (fun a b h => by simpa using h), ?_⟩
    refine List.Pairwise.imp_of_mem ?_ List.nodup_range
    intro a b _ _ hab i hi hj
    simp only [List.mem_map] at hi hj
    obtain ⟨_, _, rfl⟩ := hi
    obtain ⟨_, _, h⟩ := hj
    exact hab (by simpa using (List.cons.inj h).1.symm)

/-- A sum over all multi-indices is a finite sum over positions. -/
theorem sum_allIdx (s : List ℕ) (f : List ℕ → ℝ) : ((allIdx s).map f).sum = ∑ i : Idx s, f i.1 := by
  classical
  rw [← List.sum_toFinset f (allIdx_nodup' s)]
  symm
  refine Finset.sum_bij (fun (i : Idx s) _ => i.1) ?_ ?_ ?_ ?_
  · intro i _; simpa [mem_allIdx] using i.2
  · intro i _ j _ h; exact Subtype.ext h
  · intro i hi
    exact ⟨⟨i, by simpa [mem_allIdx] using hi⟩, Finset.mem_univ _, rfl⟩
  · intro i _; rfl

/-- Positions of `s ++ t` are pairs of positions. -/
noncomputable def Idx.split (s t : List ℕ) : Idx (s ++ t) ≃ Idx s × Idx t where
  toFun k := (⟨k.1.take s.length, by
      obtain ⟨i, j, h, hi, hj⟩ := inRange_append_split k.2
      rw [h, List.take_left' hi.length]; exact hi⟩,
    ⟨k.1.drop s.length, by
      obtain ⟨i, j, h, hi, hj⟩ := inRange_append_split k.2
      rw [h, List.drop_left' hi.length]; exact hj⟩)
  invFun p := ⟨p.1.1 ++ p.2.1, p.1.2.append p.2.2⟩
  left_inv k := Subtype.ext (List.take_append_drop _ _)
  right_inv p := by
    refine Prod.ext (Subtype.ext ?_) (Subtype.ext ?_)
    · exact List.take_left' p.1.2.length
    · exact List.drop_left' p.1.2.length

theorem Idx.split_symm_val {s t : List ℕ} (p : Idx s × Idx t) : ((Idx.split s t).symm p).1 = p.1.1 ++ p.2.1 := rfl

theorem withEvent_at {x : Arr} {e i : List ℕ} (v : Idx e → ℝ) (j : Idx e) :
    (x.withEvent e i v).data (i ++ j.1) = v j := by
  have h : i <+: i ++ j.1 ∧ InRange e ((i ++ j.1).drop i.length) := ⟨List.prefix_append _ _, by simpa using j.2⟩
  simp only [Arr.withEvent, dif_pos h]
  congr 1
  exact Subtype.ext (by simp)

theorem withEvent_event {x : Arr} {e i : List ℕ} (v : Idx e → ℝ) : (x.withEvent e i v).event e i = v := by
  funext j; exact withEvent_at v j

theorem withEvent_off {x : Arr} {e i k : List ℕ} (v : Idx e → ℝ) (h : ¬ i <+: k) :
    (x.withEvent e i v).data k = x.data k := by
  simp only [Arr.withEvent]
  rw [dif_neg (fun h' => h h'.1)]

theorem withEvent_self {x : Arr} {e i : List ℕ} : (x.withEvent e i (x.event e i)).data = x.data := by
  funext k
  simp only [Arr.withEvent]
  by_cases h : i <+: k ∧ InRange e (k.drop i.length)
  · rw [dif_pos h]
    obtain ⟨t, rfl⟩ := h.1
    simp [Arr.event]
  · rw [dif_neg h]

theorem withEvent_self' {x : Arr} {e i : List ℕ} : x.withEvent e i (x.event e i) = x := by
  cases x with | mk s d =>
  have := withEvent_self (x := ⟨s, d⟩) (e := e) (i := i)
  simp only [Arr.withEvent] at this ⊢
  rw [this]

/-- The determinant does not depend on how the coordinates are named. -/
theorem det_rename {α β : Type} [Fintype α] [Fintype β] (σ : α ≃ β) (J : (α → ℝ) →L[ℝ] (α → ℝ)) (J' : (β → ℝ) →L[ℝ] (β → ℝ))
    (h : ∀ w, J' w = fun b => J (fun a => w (σ a)) (σ.symm b)) :
    LinearMap.det (J' : (β → ℝ) →ₗ[ℝ] (β → ℝ)) = LinearMap.det (J : (α → ℝ) →ₗ[ℝ] (α → ℝ)) := by
  have := LinearMap.det_conj (J : (α → ℝ) →ₗ[ℝ] (α → ℝ)) (LinearEquiv.funCongrLeft ℝ ℝ σ.symm)
  rw [← this]
  congr 1
  refine LinearMap.ext fun w => ?_
  funext b
  simp only [ContinuousLinearMap.coe_coe, h, LinearMap.comp_apply, LinearEquiv.coe_coe]
  rfl

/-- Renaming the coordinates of a differentiable map. -/
theorem hasFDerivAt_rename {α β : Type} [Fintype α] [Fintype β] (σ : α ≃ β) {φ : (α → ℝ) → (α → ℝ)}
    {J : (α → ℝ) →L[ℝ] (α → ℝ)} {x : α → ℝ} (h : HasFDerivAt φ J x) :
    ∃ J' : (β → ℝ) →L[ℝ] (β → ℝ), HasFDerivAt (fun w b => φ (fun a => w (σ a)) (σ.symm b)) J' (fun b => x (σ.symm b)) ∧
      LinearMap.det (J' : (β → ℝ) →ₗ[ℝ] (β → ℝ)) = LinearMap.det (J : (α → ℝ) →ₗ[ℝ] (α → ℝ)) := by
  let A : (β → ℝ) →L[ℝ] (α → ℝ) := ContinuousLinearMap.pi fun a => ContinuousLinearMap.proj (σ a)
  let B : (α → ℝ) →L[ℝ] (β → ℝ) := ContinuousLinearMap.pi fun b => ContinuousLinearMap.proj (σ.symm b)
  refine ⟨B.comp (J.comp A), ?_, det_rename σ J _ fun w => rfl⟩
  have hA : HasFDerivAt (fun w : β → ℝ => A w) A (fun b => x (σ.symm b)) := A.hasFDerivAt
  have hx : A (fun b => x (σ.symm b)) = x := by funext a; simp [A]
  rw [← hx] at h
  exact B.hasFDerivAt.comp _ (h.comp _ hA)

end Distrax
