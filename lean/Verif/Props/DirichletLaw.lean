import Verif.Lemmas.Dirichlet
import Verif.Lemmas.Gauss
import Verif.Props.BetaDirichlet

/-! Property C38: the Dirichlet methods describe the law with density `exp(log_prob)` on the simplex, in every dimension. -/

namespace Distrax
open MeasureTheory Set Spec XR

variable {n : ℕ}

/-- The density the object reports at the point of the simplex with first entries `y`. -/
noncomputable def Dir.density (d : Dir (n + 1)) (y : Fin n → ℝ) : ℝ := weight (d.logProb (simplexPoint y))

theorem Dir.density_eq (d : Dir (n + 1)) {y : Fin n → ℝ} (hy : y ∈ openSimplex n) :
    d.density y = dirDens d.concentration y := by
  rw [Dir.density, C38_dirichlet_log_prob d hy]
  rfl

theorem Spec.ExpOn.congr_density {p q h : (Fin n → ℝ) → ℝ} {e : ℝ} (he : ExpOn volume (openSimplex n) p h e)
    (hpq : ∀ y ∈ openSimplex n, p y = q y) : ExpOn volume (openSimplex n) q h e := by
  have e1 : ∀ y ∈ openSimplex n, p y * h y = q y * h y := fun y hy => by rw [hpq y hy]
  exact ⟨(integrableOn_congr_fun e1 (measurableSet_openSimplex n)).1 he.1,
    (setIntegral_congr_fun (measurableSet_openSimplex n) e1).symm.trans he.2⟩

theorem Spec.ExpOn.congr_on {p h g : (Fin n → ℝ) → ℝ} {e : ℝ} (he : ExpOn volume (openSimplex n) p h e)
    (hpq : ∀ y ∈ openSimplex n, h y = g y) : ExpOn volume (openSimplex n) p g e := by
  have e1 : ∀ y ∈ openSimplex n, p y * h y = p y * g y := fun y hy => by rw [hpq y hy]
  exact ⟨(integrableOn_congr_fun e1 (measurableSet_openSimplex n)).1 he.1,
    (setIntegral_congr_fun (measurableSet_openSimplex n) e1).symm.trans he.2⟩

variable (d : Dir (n + 1)) (h : ∀ i, 0 < d.concentration i)
include h

/-- **Normalisation.**  `exp(log_prob)` is a probability density on the interior of the simplex (Lebesgue measure in the
first `n` of the `n + 1` entries), for every dimension and all positive concentrations. -/
theorem C38_dirichlet_law : IsDensityOn volume (openSimplex n) d.density := by
  obtain ⟨h1, h2, h3⟩ := dirDens_isDensity h
  have e : ∀ y ∈ openSimplex n, dirDens d.concentration y = d.density y := fun y hy => (d.density_eq hy).symm
  exact ⟨fun y hy => by rw [← e y hy]; exact h1 y hy, (integrableOn_congr_fun e (measurableSet_openSimplex n)).1 h2,
    (setIntegral_congr_fun (measurableSet_openSimplex n) e).symm.trans h3⟩

/-- **Moments.**  `mean`, `variance` and `covariance` are those of that law, entry by entry (the last entry included). -/
theorem C38_dirichlet_moments (i j : Fin (n + 1)) :
    ExpOn volume (openSimplex n) d.density (fun y => simplexPoint y i) (d.mean i) ∧
    ExpOn volume (openSimplex n) d.density (fun y => (simplexPoint y i - d.mean i) * (simplexPoint y j - d.mean j))
      (d.covariance i j) ∧
    ExpOn volume (openSimplex n) d.density (fun y => (simplexPoint y i - d.mean i) ^ 2) (d.variance i) := by
  have hA : 0 < ∑ i, d.concentration i := Finset.sum_pos (fun i _ => h i) Finset.univ_nonempty
  have m1 : ∀ i, ExpOn volume (openSimplex n) (dirDens d.concentration) (fun y => simplexPoint y i) (d.mean i) := fun i =>
    (dir_expOn_entry h i (dir_expOn_one (bump_pos h i))).congr (fun y => by simp) (by simp [Dir.mean])
  have m2 : ∀ i j, ExpOn volume (openSimplex n) (dirDens d.concentration) (fun y => simplexPoint y i * simplexPoint y j)
      (d.concentration i / (∑ k, d.concentration k) *
        ((d.concentration j + if j = i then 1 else 0) / (∑ k, d.concentration k + 1))) := fun i j => by
    refine (dir_expOn_entry h i (dir_expOn_entry (bump_pos h i) j (dir_expOn_one (bump_pos (bump_pos h i) j)))).congr
      (fun y => by simp) ?_
    rw [bump_sum, bump, mul_one]
  have cov : ∀ i j, ExpOn volume (openSimplex n) (dirDens d.concentration)
      (fun y => (simplexPoint y i - d.mean i) * (simplexPoint y j - d.mean j)) (d.covariance i j) := fun i j => by
    have := ((m2 i j).add ((m1 i).const_mul (-d.mean j))).add (((m1 j).const_mul (-d.mean i)).add
      ((dir_expOn_one h).const_mul (d.mean i * d.mean j)))
    refine this.congr (fun y => by ring) ?_
    simp only [Dir.mean, Dir.covariance]
    have h2 : ∑ i, d.concentration i + 1 ≠ 0 := by linarith
    have h1 := hA.ne'
    by_cases hij : i = j
    · subst hij; simp only [if_true]; field_simp; ring
    · rw [if_neg hij, if_neg (Ne.symm hij)]; field_simp; ring
  have e : ∀ y ∈ openSimplex n, dirDens d.concentration y = d.density y := fun y hy => (d.density_eq hy).symm
  refine ⟨(m1 i).congr_density e, (cov i j).congr_density e, ?_⟩
  have := (cov i i).congr_density e
  refine this.congr (fun y => by ring) (C38_dirichlet_covariance d h i).2.2.1.symm

/-- helper: `E[log p]`-type expectations. -/
theorem dir_logdens (c : Fin (n + 1) → ℝ) :
    ExpOn volume (openSimplex n) (dirDens d.concentration) (fun y => ∑ i, (c i - 1) * Real.log (simplexPoint y i))
      (∑ i, (c i - 1) * (digamma (d.concentration i) - digamma (∑ j, d.concentration j))) :=
  Spec.ExpOn.sum _ fun i _ => (dir_expOn_log h i).const_mul _

/-- **Entropy.**  `entropy` is the differential entropy of that law. -/
theorem C38_dirichlet_entropy : EntropyOn volume (openSimplex n) d.density d.entropy := by
  have e : ∀ y ∈ openSimplex n, dirDens d.concentration y = d.density y := fun y hy => (d.density_eq hy).symm
  have h1 := ((dir_logdens d h d.concentration).const_mul (-1)).add ((dir_expOn_one h).const_mul d.logZ)
  refine Spec.ExpOn.congr_density (p := dirDens d.concentration) ?_ e
  refine (h1.congr_on (g := fun y => -Real.log (d.density y)) fun y hy => ?_).congr (fun _ => rfl) ?_
  · rw [← e y hy, dirDens, Real.log_exp, Dir.logZ]; ring
  · rw [Dir.entropy]
    simp only [mul_sub, Finset.sum_sub_distrib, ← Finset.sum_mul, sub_mul, one_mul, Finset.sum_const, Finset.card_univ,
      Fintype.card_fin, nsmul_eq_mul]
    ring

/-- **KL divergence.**  `kl_divergence` of two Dirichlets of the same dimension is the divergence of their laws. -/
theorem C38_dirichlet_kl_meaning (q : Dir (n + 1)) (_hq : ∀ i, 0 < q.concentration i) :
    ∃ k, d.kl q = .ok k ∧ KLOn volume (openSimplex n) d.density q.density k := by
  refine ⟨_, dif_neg (by simp), ?_⟩
  have e : ∀ y ∈ openSimplex n, dirDens d.concentration y = d.density y := fun y hy => (d.density_eq hy).symm
  have e' : ∀ y ∈ openSimplex n, dirDens q.concentration y = q.density y := fun y hy => (q.density_eq hy).symm
  have h1 := ((dir_logdens d h d.concentration).add ((dir_logdens d h q.concentration).const_mul (-1))).add
    ((dir_expOn_one h).const_mul (q.logZ - d.logZ))
  refine Spec.ExpOn.congr_density (p := dirDens d.concentration) ?_ e
  refine (h1.congr_on (g := fun y => Real.log (d.density y) - Real.log (q.density y)) fun y hy => ?_).congr (fun _ => rfl) ?_
  · rw [← e y hy, ← e' y hy, dirDens, dirDens, Real.log_exp, Real.log_exp, Dir.logZ, Dir.logZ]; ring
  · simp only [Fin.cast_eq_self, Dir.logZ]
    simp only [sub_mul, mul_sub, Finset.sum_sub_distrib]
    ring

omit h

/-- Non-vacuity: a three-dimensional Dirichlet with unequal concentrations; its density is positive inside the simplex. -/
example : (∀ i, 0 < (Dir.mk ![1, 2, 1 / 2] : Dir 3).concentration i) ∧ (![1 / 4, 1 / 4] : Fin 2 → ℝ) ∈ openSimplex 2 := by
  constructor
  · intro i; fin_cases i <;> norm_num
  · intro i
    refine Fin.lastCases ?_ (fun i => ?_) i
    · rw [simplexPoint, Fin.snoc_last]; norm_num [Fin.sum_univ_two]
    · rw [simplexPoint, Fin.snoc_castSucc]; fin_cases i <;> norm_num

end Distrax
