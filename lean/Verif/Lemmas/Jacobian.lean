import Mathlib.Analysis.Calculus.FDeriv.Basic
import Mathlib.Analysis.Calculus.FDeriv.Comp
import Mathlib.Analysis.Calculus.FDeriv.Pi
import Mathlib.Analysis.Calculus.FDeriv.Add
import Mathlib.Analysis.Calculus.FDeriv.Mul
import Mathlib.Analysis.Calculus.Deriv.Prod
import Mathlib.Analysis.Calculus.Deriv.Comp
import Mathlib.Analysis.Calculus.Deriv.Mul
import Mathlib.Analysis.Calculus.Deriv.Add
import Mathlib.LinearAlgebra.Matrix.Block
import Mathlib.LinearAlgebra.Determinant
import Mathlib.LinearAlgebra.Matrix.ToLin

/-! Jacobian determinants of coupling maps: some coordinates are copied, the others are transformed by a map that may depend on
the copied ones. -/

namespace Distrax
open Matrix

variable {ι κ : Type} [Fintype ι] [DecidableEq ι] [Fintype κ] [DecidableEq κ]

/-- Directional derivative read off the Fréchet derivative, coordinatewise. -/
theorem hasDerivAt_coord {F : (ι → ℝ) → (κ → ℝ)} {J : (ι → ℝ) →L[ℝ] (κ → ℝ)} {x : ι → ℝ}
    (hF : HasFDerivAt F J x) (c : ι) (r : κ) :
    HasDerivAt (fun t : ℝ => F (x + t • Pi.single c 1) r) (J (Pi.single c 1) r) 0 := by
  have h1 : HasDerivAt (fun t : ℝ => x + t • (Pi.single c (1 : ℝ) : ι → ℝ)) (Pi.single c 1) 0 := by
    have := ((hasDerivAt_id (0 : ℝ)).smul_const (Pi.single c (1 : ℝ) : ι → ℝ)).const_add x
    simpa using this
  have h2 : HasFDerivAt F J (x + (0 : ℝ) • (Pi.single c (1 : ℝ) : ι → ℝ)) := by simpa using hF
  have := h2.comp_hasDerivAt (0 : ℝ) h1
  exact (hasDerivAt_pi.1 this) r

/-- **Determinant of a coupling Jacobian.**  `m` marks the copied coordinates.  With the copied coordinates held at their values
in `x`, the others are mapped by `φ`, whose derivative is `D`.  Then the Jacobian of the whole map has the determinant of `D`. -/
theorem det_coupling {F : (ι → ℝ) → (ι → ℝ)} {J : (ι → ℝ) →L[ℝ] (ι → ℝ)} {x : ι → ℝ} (m : ι → Prop) [DecidablePred m]
    (hF : HasFDerivAt F J x) (hm : ∀ v i, m i → F v i = v i)
    (φ : ({i // ¬ m i} → ℝ) → ({i // ¬ m i} → ℝ)) (D : ({i // ¬ m i} → ℝ) →L[ℝ] ({i // ¬ m i} → ℝ))
    (hφ : HasFDerivAt φ D (fun i => x i))
    (hu : ∀ v : ι → ℝ, (∀ i, m i → v i = x i) → ∀ i : {i // ¬ m i}, F v i = φ (fun j => v j) i) :
    LinearMap.det (J : (ι → ℝ) →ₗ[ℝ] (ι → ℝ)) = LinearMap.det (D : ({i // ¬ m i} → ℝ) →ₗ[ℝ] ({i // ¬ m i} → ℝ)) := by
  classical
  rw [← LinearMap.det_toMatrix', ← LinearMap.det_toMatrix']
  set M := LinearMap.toMatrix' (J : (ι → ℝ) →ₗ[ℝ] (ι → ℝ)) with hM
  have entry : ∀ r c, M r c = J (Pi.single c 1) r := fun r c => by
    rw [hM, LinearMap.toMatrix'_apply]
    rfl
  -- rows of copied coordinates
  have rowm : ∀ r c, m r → M r c = if r = c then 1 else 0 := by
    intro r c hr
    have h1 := hasDerivAt_coord hF c r
    have h2 : HasDerivAt (fun t : ℝ => F (x + t • Pi.single c 1) r) ((Pi.single c (1 : ℝ) : ι → ℝ) r) 0 := by
      have : (fun t : ℝ => F (x + t • Pi.single c 1) r) = fun t => x r + t * (Pi.single c (1 : ℝ) : ι → ℝ) r := by
        funext t; rw [hm _ _ hr]; simp
      rw [this]
      simpa using ((hasDerivAt_id (0 : ℝ)).mul_const ((Pi.single c (1 : ℝ) : ι → ℝ) r)).const_add (x r)
    rw [entry, h1.unique h2, Pi.single_apply]
  -- columns of transformed coordinates
  have blk : ∀ r c : {i // ¬ m i}, M r c = D (Pi.single c 1) r := by
    intro r c
    have h1 := hasDerivAt_coord hF (c : ι) (r : ι)
    have h2 := hasDerivAt_coord hφ c r
    have : (fun t : ℝ => F (x + t • Pi.single (c : ι) 1) r) =
        fun t : ℝ => φ ((fun i : {i // ¬ m i} => x i) + t • Pi.single c 1) r := by
      funext t
      rw [hu]
      · congr 1
        funext j
        simp only [Pi.add_apply, Pi.smul_apply, Pi.single_apply, Subtype.coe_inj]
      · intro i hi
        have : i ≠ (c : ι) := fun h => c.2 (h ▸ hi)
        simp [this]
    rw [this] at h1
    rw [entry, h1.unique h2]
  rw [Matrix.twoBlockTriangular_det' M m]
  · have h1 : (M.toSquareBlockProp m).det = 1 := by
      have : M.toSquareBlockProp m = 1 := by
        ext r c
        rw [Matrix.toSquareBlockProp_def, Matrix.of_apply, rowm _ _ r.2, Matrix.one_apply]
        simp [Subtype.coe_inj]
      rw [this, Matrix.det_one]
    have h2 : M.toSquareBlockProp (fun i => ¬ m i) =
        LinearMap.toMatrix' (D : ({i // ¬ m i} → ℝ) →ₗ[ℝ] ({i // ¬ m i} → ℝ)) := by
      ext r c
      rw [Matrix.toSquareBlockProp_def, Matrix.of_apply, blk, LinearMap.toMatrix'_apply]
      rfl
    rw [h1, one_mul, h2]
  · intro r hr c hc
    rw [rowm _ _ hr, if_neg]
    rintro rfl
    exact hc hr

/-- A map acting separately on the blocks `i` (by `φ i` with derivative `D i`) has the product of the block determinants. -/
theorem det_blockwise {F : (ι × κ → ℝ) → (ι × κ → ℝ)} {J : (ι × κ → ℝ) →L[ℝ] (ι × κ → ℝ)} {x : ι × κ → ℝ}
    (hF : HasFDerivAt F J x) (φ : ι → (κ → ℝ) → (κ → ℝ)) (D : ι → (κ → ℝ) →L[ℝ] (κ → ℝ))
    (hφ : ∀ i, HasFDerivAt (φ i) (D i) (fun k => x (i, k)))
    (hu : ∀ v i k, F v (i, k) = φ i (fun k' => v (i, k')) k) :
    LinearMap.det (J : (ι × κ → ℝ) →ₗ[ℝ] (ι × κ → ℝ)) = ∏ i, LinearMap.det (D i : (κ → ℝ) →ₗ[ℝ] (κ → ℝ)) := by
  classical
  rw [← LinearMap.det_toMatrix']
  simp_rw [← LinearMap.det_toMatrix']
  have key : LinearMap.toMatrix' (J : (ι × κ → ℝ) →ₗ[ℝ] (ι × κ → ℝ)) =
      Matrix.reindex (Equiv.prodComm κ ι) (Equiv.prodComm κ ι)
        (Matrix.blockDiagonal fun i => LinearMap.toMatrix' (D i : (κ → ℝ) →ₗ[ℝ] (κ → ℝ))) := by
    ext ⟨i, k⟩ ⟨i', k'⟩
    rw [Matrix.reindex_apply, Matrix.submatrix_apply]
    simp only [Equiv.prodComm_symm, Equiv.prodComm_apply, Prod.swap_prod_mk, Matrix.blockDiagonal_apply,
      LinearMap.toMatrix'_apply]
    have h1 := hasDerivAt_coord hF (i', k') (i, k)
    simp only [hu] at h1
    by_cases h : i = i'
    · subst h
      rw [if_pos rfl]
      have h2 := hasDerivAt_coord (hφ i) k' k
      have : (fun t : ℝ => φ i (fun k'' => (x + t • (Pi.single (i, k') (1 : ℝ) : ι × κ → ℝ)) (i, k'')) k) =
          fun t : ℝ => φ i ((fun k'' => x (i, k'')) + t • Pi.single k' 1) k := by
        funext t
        congr 1
        funext k''
        simp [Pi.single_apply]
      rw [this] at h1
      exact h1.unique h2
    · rw [if_neg h]
      have : (fun t : ℝ => φ i (fun k'' => (x + t • (Pi.single (i', k') (1 : ℝ) : ι × κ → ℝ)) (i, k'')) k) =
          fun _ : ℝ => φ i (fun k'' => x (i, k'')) k := by
        funext t
        congr 1
        funext k''
        simp [Pi.single_apply, h]
      rw [this] at h1
      exact h1.unique (hasDerivAt_const _ _)
  rw [key, Matrix.det_reindex_self, Matrix.det_blockDiagonal]

/-- Masked version: blocks with `m i` are copied, the others are transformed by `φ i` as long as the copied blocks keep their
values. -/
theorem det_masked {F : (ι × κ → ℝ) → (ι × κ → ℝ)} {J : (ι × κ → ℝ) →L[ℝ] (ι × κ → ℝ)} {x : ι × κ → ℝ} (m : ι → Prop)
    [DecidablePred m] (hF : HasFDerivAt F J x) (hm : ∀ v i k, m i → F v (i, k) = v (i, k))
    (φ : ι → (κ → ℝ) → (κ → ℝ)) (D : ι → (κ → ℝ) →L[ℝ] (κ → ℝ))
    (hφ : ∀ i, ¬ m i → HasFDerivAt (φ i) (D i) (fun k => x (i, k)))
    (hu : ∀ v : ι × κ → ℝ, (∀ i k, m i → v (i, k) = x (i, k)) → ∀ i k, ¬ m i → F v (i, k) = φ i (fun k' => v (i, k')) k) :
    LinearMap.det (J : (ι × κ → ℝ) →ₗ[ℝ] (ι × κ → ℝ)) =
      ∏ i, if m i then 1 else LinearMap.det (D i : (κ → ℝ) →ₗ[ℝ] (κ → ℝ)) := by
  classical
  -- the map with the parameters frozen
  let ψ : ι → (κ → ℝ) → (κ → ℝ) := fun i w => if m i then w else φ i w
  let E : ι → (κ → ℝ) →L[ℝ] (κ → ℝ) := fun i => if m i then ContinuousLinearMap.id ℝ _ else D i
  have hψ : ∀ i, HasFDerivAt (ψ i) (E i) (fun k => x (i, k)) := by
    intro i
    by_cases h : m i
    · simp only [ψ, E, h, if_true]; exact hasFDerivAt_id _
    · simp only [ψ, E, h, if_false]; exact hφ i h
  let G : (ι × κ → ℝ) → (ι × κ → ℝ) := fun v p => ψ p.1 (fun k => v (p.1, k)) p.2
  let blk : ι → (ι × κ → ℝ) →L[ℝ] (κ → ℝ) := fun i =>
    ContinuousLinearMap.pi fun k => ContinuousLinearMap.proj (i, k)
  have hG : HasFDerivAt G (ContinuousLinearMap.pi fun p : ι × κ =>
      (ContinuousLinearMap.proj p.2).comp ((E p.1).comp (blk p.1))) x := by
    rw [hasFDerivAt_pi]
    rintro ⟨i, k⟩
    have h1 : HasFDerivAt (fun v : ι × κ → ℝ => ψ i (fun k => v (i, k))) ((E i).comp (blk i)) x := by
      have := (hψ i).comp x (blk i).hasFDerivAt
      exact this
    exact (ContinuousLinearMap.proj (R := ℝ) (φ := fun _ : κ => ℝ) k).hasFDerivAt.comp x h1
  have hdet := det_blockwise hG ψ E hψ (fun v i k => rfl)
  -- frozen and unfrozen map have the same determinant
  let R : ({p : ι × κ // ¬ m p.1} → ℝ) → (ι × κ → ℝ) := fun w p => if h : m p.1 then x p else w ⟨p, h⟩
  let L : ({p : ι × κ // ¬ m p.1} → ℝ) →L[ℝ] (ι × κ → ℝ) := ContinuousLinearMap.pi fun p =>
    if h : m p.1 then 0 else ContinuousLinearMap.proj ⟨p, h⟩
  have hR : ∀ w, HasFDerivAt R L w := by
    intro w
    rw [hasFDerivAt_pi']
    intro p
    by_cases h : m p.1
    · have : (fun w => R w p) = fun _ => x p := by funext w; simp [R, h]
      have e2 : (ContinuousLinearMap.proj p).comp L = 0 := by ext w; simp [L, h]
      rw [this, e2]; exact hasFDerivAt_const _ _
    · have : (fun w => R w p) = fun w => w ⟨p, h⟩ := by funext w; simp [R, h]
      have e2 : (ContinuousLinearMap.proj p).comp L = ContinuousLinearMap.proj ⟨p, h⟩ := by ext w; simp [L, h]
      rw [this, e2]; exact (ContinuousLinearMap.proj (R := ℝ) (φ := fun _ : {p : ι × κ // ¬ m p.1} => ℝ) ⟨p, h⟩).hasFDerivAt
  have hRx : R (fun p => x p) = x := by funext p; by_cases h : m p.1 <;> simp [R, h]
  let res : (ι × κ → ℝ) →L[ℝ] ({p : ι × κ // ¬ m p.1} → ℝ) := ContinuousLinearMap.pi fun p => ContinuousLinearMap.proj p.1
  have hφ' : HasFDerivAt (fun w => res (G (R w))) (res.comp ((ContinuousLinearMap.pi fun p : ι × κ =>
      (ContinuousLinearMap.proj p.2).comp ((E p.1).comp (blk p.1))).comp L)) (fun p => x p) := by
    have hG' := hG
    rw [← hRx] at hG'
    exact res.hasFDerivAt.comp _ (hG'.comp _ (hR _))
  have frozen : ∀ v : ι × κ → ℝ, (∀ p, m p.1 → v p = x p) → R (fun p => v p) = v := by
    intro v hv
    funext p
    by_cases h : m p.1
    · simp [R, h, hv p h]
    · simp [R, h]
  rw [det_coupling (fun p : ι × κ => m p.1) hF (fun v p hp => hm v p.1 p.2 hp) _ _ hφ',
    ← det_coupling (fun p : ι × κ => m p.1) hG (fun v p hp => by simp [G, ψ, hp]) _ _ hφ', hdet]
  · refine Finset.prod_congr rfl fun i _ => ?_
    by_cases h : m i
    · simp only [E, h, if_true]
      exact LinearMap.det_id
    · simp only [E, h, if_false]
  · intro v hv i
    rw [frozen v hv]; rfl
  · intro v hv i
    rw [frozen v hv, hu v (fun i k h => hv (i, k) h) _ _ i.2]
    simp only [res, G, ψ]
    simp [i.2]

end Distrax
