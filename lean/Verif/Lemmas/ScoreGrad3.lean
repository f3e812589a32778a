import Verif.Lemmas.ScoreGrad2
import Verif.Lemmas.Pathwise
import Verif.Props.ArrayLaw

/-! Mixtures of arbitrary scalar families: differentiation of expectations; several draws; change of noise. -/

namespace Distrax

open MeasureTheory Filter Topology Spec

/-- Expectations of `f` under the density of `d` can be differentiated through the log-probability. -/
def ScoreOK (t : ℝ) (d : ScalarDist) (f : ℝ → ℝ) : Prop :=
  (∀ᶠ s in 𝓝 t, Integrable fun x => density s x d * f x) ∧
  Integrable (fun x => density t x d * (f x * (d.logProb t (Dual.const x)).tan)) ∧
  HasDerivAt (fun s => ∫ x, density s x d * f x) (∫ x, density t x d * (f x * (d.logProb t (Dual.const x)).tan)) t

/-- All log-densities are tame for the larger gauge. -/
theorem dist_gauge {t : ℝ} (d : ScalarDist) (hd : Valid t d) :
    Tame volume gumbelGauge (fun s x => Real.log (density s x d)) (fun x => d.logProb t (Dual.const x)) t := by
  refine dist_tame gumbelGauge_one (V := fun _ x => x) (Tame.fixed measurable_id (K := 1) (k := 1) (fun x => ?_) gumbelGauge_one)
    (fun c => ?_) d hd (Or.inr fun _ _ _ _ h1 h2 h3 => gumbelGauge_exp h1 h2 h3)
  · unfold gumbelGauge; have := Real.exp_pos (-x); simp; linarith
  · rw [ae_iff]; simp

/-- The density itself, differentiated in the parameter. -/
theorem density_deriv {t : ℝ} (d : ScalarDist) (hd : Valid t d) :
    ∀ᵐ x, HasDerivAt (fun s => density s x d) (density t x d * (d.logProb t (Dual.const x)).tan) t := by
  have hp := density_pos d hd
  filter_upwards [(dist_gauge d hd).deriv] with x hx
  have := hx.exp
  rw [Real.exp_log (hp.self_of_nhds x)] at this
  refine this.congr_of_eventuallyEq ?_
  filter_upwards [hp] with s hs
  exact (Real.exp_log (hs x)).symm

theorem scoreOK_of_tame {w : ℝ → ℝ} (hw : ∀ x, lineGauge x ≤ w x) {t : ℝ} (d : ScalarDist) (hd : Valid t d)
    (h : Tame volume w (fun s x => Real.log (density s x d)) (fun x => d.logProb t (Dual.const x)) t ∧
      Dominated volume w (fun s x => Real.log (density s x d)) t) {f : ℝ → ℝ} (hf : PolyGrowth f) : ScoreOK t d f := by
  obtain ⟨hfm, K, k, hK⟩ := hf
  have hw1 : ∀ x, 1 ≤ w x := fun x => (lineGauge_one x).trans (hw x)
  have hK' : ∀ x, |f x| ≤ |K| * w x ^ k := fun x =>
    (hK x).trans (mul_le_mul (le_abs_self K) (show (1 + |x|) ^ k ≤ w x ^ k from
      pow_le_pow_left₀ (by have := abs_nonneg x; linarith : (0 : ℝ) ≤ 1 + |x|) (hw x) k) (by positivity) (abs_nonneg K))
  obtain ⟨h1, h2, h3⟩ := expect_deriv hw1 h.1 h.2 (Tame.fixed hfm hK' hw1)
  have hp := density_pos d hd
  have e : ∀ x, Real.exp (Real.log (density t x d)) * ((d.logProb t (Dual.const x)).tan * f x + (Dual.const (f x)).tan) =
      density t x d * (f x * (d.logProb t (Dual.const x)).tan) := fun x => by
    rw [Dual.tan_const, Real.exp_log (hp.self_of_nhds x)]; ring
  simp only [e] at h2 h3
  refine ⟨?_, h2, h3.congr_of_eventuallyEq ?_⟩
  · filter_upwards [h1, hp] with s hs hs'
    simpa only [Real.exp_log (hs' _)] using hs
  · filter_upwards [hp] with s hs'
    simp only [Real.exp_log (hs' _)]

theorem scoreOK_mix {n : ℕ} {t : ℝ} (d : ScalarDist) (hd : Valid t d) (c : Fin n → ScalarDist) (hc : ∀ k, Valid t (c k))
    (W : Fin n → ℝ → ℝ) (W' : Fin n → ℝ) (hW : ∀ k, HasDerivAt (W k) (W' k) t)
    (e : ∀ s x, density s x d = ∑ k, W k s * density s x (c k)) {f : ℝ → ℝ} (h : ∀ k, ScoreOK t (c k) f) : ScoreOK t d f := by
  have hI : ∀ᶠ s in 𝓝 t, ∀ k, Integrable fun x => density s x (c k) * f x := eventually_all.2 fun k => (h k).1
  have key : ∀ᵐ x, density t x d * (f x * (d.logProb t (Dual.const x)).tan) =
      ∑ k, (W' k * (density t x (c k) * f x) + W k t * (density t x (c k) * (f x * ((c k).logProb t (Dual.const x)).tan))) := by
    filter_upwards [density_deriv d hd, ae_all_iff.2 fun k => density_deriv (c k) (hc k)] with x h1 h2
    have h3 : HasDerivAt (fun s => density s x d) _ t :=
      (HasDerivAt.fun_sum fun k (_ : k ∈ Finset.univ) => (hW k).mul (h2 k)).congr_of_eventuallyEq
        (Eventually.of_forall fun s => e s x)
    have h4 := h1.unique h3
    rw [show density t x d * (f x * (d.logProb t (Dual.const x)).tan) =
      f x * (density t x d * (d.logProb t (Dual.const x)).tan) by ring, h4, Finset.mul_sum]
    exact Finset.sum_congr rfl fun k _ => by ring
  have hterm : ∀ k, Integrable fun x => W' k * (density t x (c k) * f x) +
      W k t * (density t x (c k) * (f x * ((c k).logProb t (Dual.const x)).tan)) := fun k =>
    ((h k).1.self_of_nhds.const_mul _).add ((h k).2.1.const_mul _)
  have hint : ∀ s, (∀ k, Integrable fun x => density s x (c k) * f x) →
      ∫ x, density s x d * f x = ∑ k, W k s * ∫ x, density s x (c k) * f x := fun s hs => by
    simp only [e, Finset.sum_mul, mul_assoc]
    rw [integral_finsetSum _ fun k _ => (hs k).const_mul _]
    exact Finset.sum_congr rfl fun k _ => integral_const_mul _ _
  refine ⟨?_, ?_, ?_⟩
  · filter_upwards [hI] with s hs
    simp only [e, Finset.sum_mul, mul_assoc]
    exact integrable_finsetSum _ fun k _ => (hs k).const_mul _
  · exact (integrable_finsetSum _ fun k _ => hterm k).congr (key.mono fun x hx => hx.symm)
  · rw [integral_congr_ae key, integral_finsetSum _ fun k _ => hterm k]
    refine ((HasDerivAt.fun_sum fun k (_ : k ∈ Finset.univ) => (hW k).mul (h k).2.2).congr_of_eventuallyEq ?_).congr_deriv ?_
    · filter_upwards [hI] with s hs using hint s hs
    · refine Finset.sum_congr rfl fun k _ => ?_
      rw [integral_add ((h k).1.self_of_nhds.const_mul _) ((h k).2.1.const_mul _), integral_const_mul, integral_const_mul]

theorem scoreOK {t : ℝ} (d : ScalarDist) (hd : Valid t d) {f : ℝ → ℝ} (hf : PolyGrowth f) : ScoreOK t d f := by
  have hle : ∀ x, lineGauge x ≤ gumbelGauge x := fun x => by
    unfold gumbelGauge lineGauge; linarith [Real.exp_pos (-x)]
  induction d with
  | normal loc scale => exact scoreOK_of_tame (fun _ => le_rfl) _ hd (dist_line _ hd trivial) hf
  | logStddevNormal m loc ls => exact scoreOK_of_tame (fun _ => le_rfl) _ hd (dist_line _ hd trivial) hf
  | laplace loc scale => exact scoreOK_of_tame (fun _ => le_rfl) _ hd (dist_line _ hd trivial) hf
  | logistic loc scale => exact scoreOK_of_tame (fun _ => le_rfl) _ hd (dist_line _ hd trivial) hf
  | gumbel loc scale => exact scoreOK_of_tame hle _ hd (dist_light _ hd trivial) hf
  | mixtureOfTwo p a b ha hb =>
    have hd' := hd
    obtain ⟨h1, h2, h3, h4, h5⟩ := hd'
    refine scoreOK_mix _ hd ![a, b] (fun k => by fin_cases k <;> assumption) ![p.val, fun s => 1 - p.val s]
      ![p.der t, -p.der t] (fun k => ?_) (fun s x => ?_) (fun k => ?_)
    · fin_cases k
      · exact h1.deriv t
      · exact (h1.deriv t).const_sub 1
    · simp [density, Fin.sum_univ_two]
    · fin_cases k
      · exact ha h4
      · exact hb h5
  | mixtureSameFamily n lg c h =>
    have hd' := hd
    obtain ⟨h1, h2, h3⟩ := hd'
    have hS : (∑ j, Real.exp ((lg j).val t)) ≠ 0 :=
      (Finset.sum_pos (fun _ _ => Real.exp_pos _) ⟨⟨0, h1⟩, Finset.mem_univ _⟩).ne'
    exact scoreOK_mix _ hd c h3 (fun k s => Real.exp ((lg k).val s) / ∑ j, Real.exp ((lg j).val s)) _
      (fun k => ((h2 k).deriv t).exp.div (HasDerivAt.fun_sum fun j (_ : j ∈ Finset.univ) => ((h2 j).deriv t).exp) hS)
      (fun s x => rfl) (fun k => h k (h3 k))

/-! ### Several draws -/

theorem Dual.val_mean {n : ℕ} (x : Fin n → Dual) : (Dual.mean x).val = (∑ i, (x i).val) / n := rfl

theorem Dual.tan_mean {n : ℕ} (x : Fin n → Dual) : (Dual.mean x).tan = (∑ i, (x i).tan) / n := by
  show (∑ i, (x i).tan) / (n : ℝ) - (∑ i, (x i).val) * 0 / (n : ℝ) ^ 2 = _
  simp

theorem pi_mean {X : Type} [MeasurableSpace X] {ν : Measure X} [IsProbabilityMeasure ν] {n : ℕ} (hn : 0 < n) {g : X → ℝ}
    (hg : Integrable g ν) : Integrable (fun z : Fin n → X => (∑ i, g (z i)) / n) (Measure.pi fun _ => ν) ∧
      ∫ z, (∑ i : Fin n, g (z i)) / n ∂Measure.pi (fun _ => ν) = ∫ x, g x ∂ν := by
  have hmp : ∀ i : Fin n, MeasurePreserving (fun z : Fin n → X => z i) (Measure.pi fun _ => ν) ν :=
    fun i => measurePreserving_eval (fun _ => ν) i
  have hint : ∀ i : Fin n, Integrable (fun z : Fin n → X => g (z i)) (Measure.pi fun _ => ν) :=
    fun i => (hmp i).integrable_comp_of_integrable hg
  have hval : ∀ i : Fin n, ∫ z : Fin n → X, g (z i) ∂(Measure.pi fun _ => ν) = ∫ x, g x ∂ν := by
    intro i
    have h := integral_map (μ := Measure.pi fun _ : Fin n => ν) (φ := fun z : Fin n → X => z i) (f := g)
      (hmp i).measurable.aemeasurable (by rw [(hmp i).map_eq]; exact hg.aestronglyMeasurable)
    rw [(hmp i).map_eq] at h
    exact h.symm
  refine ⟨(integrable_finsetSum _ fun i _ => hint i).div_const _, ?_⟩
  rw [integral_div, integral_finsetSum _ (fun i _ => hint i)]
  simp only [hval, Finset.sum_const, Finset.card_univ, Fintype.card_fin, nsmul_eq_mul]
  have : (n : ℝ) ≠ 0 := by exact_mod_cast hn.ne'
  field_simp

theorem estimates_mean {X : Type} [MeasurableSpace X] {ν : Measure X} [IsProbabilityMeasure ν] {n : ℕ} (hn : 0 < n)
    {est : X → Dual} {k : ℝ → ℝ} {t : ℝ} (h : EstimatesWithGradient ν est k t) :
    EstimatesWithGradient (Measure.pi fun _ : Fin n => ν) (fun z => Dual.mean fun i => est (z i)) k t := by
  obtain ⟨h1, h2, h3, h4⟩ := h
  have a := pi_mean hn h1
  have b := pi_mean hn h3
  refine ⟨a.1, a.2.trans h2, ?_, ?_⟩
  · simp only [Dual.tan_mean]; exact b.1
  · simp only [Dual.tan_mean]; rw [b.2]; exact h4

/-! ### The estimators, one draw -/

theorem dice_of_tame {w : ℝ → ℝ} (hw : ∀ x, 1 ≤ w x) {t : ℝ} {a b : ScalarDist} (ha : Valid t a) 
    (hA : Tame volume w (fun s x => Real.log (density s x a)) (fun x => a.logProb t (Dual.const x)) t)
    (hdom : Dominated volume w (fun s x => Real.log (density s x a)) t)
    (hB : Tame volume w (fun s x => Real.log (density s x b)) (fun x => b.logProb t (Dual.const x)) t)
    {lq : ℝ → ℝ} (hq : Measurable lq) :
    EstimatesWithGradient (densLaw volume fun x => Real.exp (lq x))
      (fun x => Dual.diceTerm (a.logProb t (Dual.const x)) (b.logProb t (Dual.const x)) (lq x))
      (fun s => klInt volume (fun x => density s x a) fun x => density s x b) t := by
  obtain ⟨h1, h2, h3⟩ := expect_deriv hw hA hdom (hA.sub hw hB)
  have hp := density_pos a ha
  have hi : ∀ g : ℝ → ℝ, _ := fun g => densLaw_integral (μ := volume) (f := g) hq.exp fun x => (Real.exp_pos _).le
  have hva : ∀ x, (a.logProb t (Dual.const x)).val = Real.log (density t x a) := hA.val
  have hvb : ∀ x, (b.logProb t (Dual.const x)).val = Real.log (density t x b) := hB.val
  have ev : ∀ x, Real.exp (lq x) * (Dual.diceTerm (a.logProb t (Dual.const x)) (b.logProb t (Dual.const x)) (lq x)).val =
      Real.exp (Real.log (density t x a)) * (Real.log (density t x a) - Real.log (density t x b)) := fun x => by
    simp only [Dual.diceTerm, Dual.val_mul, Dual.val_neg, Dual.exp, Dual.val_sub, Dual.val_const, hva, hvb, Real.exp_sub]
    have := Real.exp_pos (lq x)
    field_simp
    ring
  have et : ∀ x, Real.exp (lq x) * (Dual.diceTerm (a.logProb t (Dual.const x)) (b.logProb t (Dual.const x)) (lq x)).tan =
      Real.exp (Real.log (density t x a)) * ((a.logProb t (Dual.const x)).tan *
        (Real.log (density t x a) - Real.log (density t x b)) +
        (a.logProb t (Dual.const x) - b.logProb t (Dual.const x)).tan) := fun x => by
    simp only [Dual.diceTerm, Dual.tan_mul, Dual.val_neg, Dual.tan_neg, Dual.exp, Dual.val_sub, Dual.tan_sub, Dual.val_const,
      Dual.tan_const, hva, hvb, Real.exp_sub]
    have := Real.exp_pos (lq x)
    field_simp
    ring
  have hk : ∀ s, (∀ x, 0 < density s x a) → klInt volume (fun x => density s x a) (fun x => density s x b) =
      ∫ x, Real.exp (Real.log (density s x a)) * (Real.log (density s x a) - Real.log (density s x b)) := fun s hs => by
    simp only [klInt, Real.exp_log (hs _)]
  refine ⟨(hi _).1.2 ?_, ?_, (hi _).1.2 ?_, ?_⟩
  · simp only [ev]; exact h1.self_of_nhds
  · rw [(hi _).2]; simp only [ev]; exact (hk t hp.self_of_nhds).symm
  · simp only [et]; exact h2
  · rw [(hi _).2]; simp only [et]
    refine h3.congr_of_eventuallyEq ?_
    filter_upwards [hp] with s hs using hk s hs

/-- The same for arbitrary log-densities on any space. -/
theorem dice_general {X : Type} [MeasurableSpace X] {μ : Measure X} {w : X → ℝ} (hw : ∀ x, 1 ≤ w x) {t : ℝ}
    {la lb : ℝ → X → ℝ} {DA DB : X → Dual} (hA : Tame μ w la DA t) (hdom : Dominated μ w la t) (hB : Tame μ w lb DB t)
    {lq : X → ℝ} (hq : Measurable lq) :
    EstimatesWithGradient (densLaw μ fun x => Real.exp (lq x)) (fun x => Dual.diceTerm (DA x) (DB x) (lq x))
      (fun s => klInt μ (fun x => Real.exp (la s x)) fun x => Real.exp (lb s x)) t := by
  obtain ⟨h1, h2, h3⟩ := expect_deriv hw hA hdom (hA.sub hw hB)
  have hi : ∀ g : X → ℝ, _ := fun g => densLaw_integral (μ := μ) (f := g) hq.exp fun x => (Real.exp_pos _).le
  have ev : ∀ x, Real.exp (lq x) * (Dual.diceTerm (DA x) (DB x) (lq x)).val = Real.exp (la t x) * (la t x - lb t x) := fun x => by
    simp only [Dual.diceTerm, Dual.val_mul, Dual.val_neg, Dual.exp, Dual.val_sub, Dual.val_const, hA.val, hB.val, Real.exp_sub]
    have := Real.exp_pos (lq x)
    field_simp
    ring
  have et : ∀ x, Real.exp (lq x) * (Dual.diceTerm (DA x) (DB x) (lq x)).tan =
      Real.exp (la t x) * ((DA x).tan * (la t x - lb t x) + (DA x - DB x).tan) := fun x => by
    simp only [Dual.diceTerm, Dual.tan_mul, Dual.val_neg, Dual.tan_neg, Dual.exp, Dual.val_sub, Dual.tan_sub, Dual.val_const,
      Dual.tan_const, hA.val, hB.val, Real.exp_sub]
    have := Real.exp_pos (lq x)
    field_simp
    ring
  simp only [klInt, Real.log_exp]
  refine ⟨(hi _).1.2 ?_, ?_, (hi _).1.2 ?_, ?_⟩
  · simp only [ev]; exact h1.self_of_nhds
  · rw [(hi _).2]; simp only [ev]
  · simp only [et]; exact h2
  · rw [(hi _).2]; simp only [et]; exact h3

theorem reparam_of_tame {ν : Measure ℝ} [IsProbabilityMeasure ν] {w g : ℝ → ℝ} (hg : Measurable g) (hgw : ∀ u, |g u| ≤ w u)
    (hw : ∀ x, 1 ≤ w x) (hwi : ∀ k : ℕ, Integrable (fun u => w u ^ k) ν) {t : ℝ} {a b : ScalarDist} (ha : Valid t a)
    (hb : Valid t b) {loc loc' scale scale' : ℝ → ℝ} (hl : Curve loc loc') (hs : Curve scale scale') (hpos : 0 < scale t)
    (hmap : ∀ s, 0 < scale s → sampleLaw a s = ν.map fun u => loc s + scale s * g u)
    {sl : ℝ → Dual × Dual} (hsl : ∀ u, (sl u).1 = ⟨loc t + scale t * g u, loc' t + scale' t * g u⟩)
    {la : ℝ → ℝ → ℝ} (hla : Tame ν w la (fun u => (sl u).2) t)
    (hlae : ∀ s, 0 < scale s → ∀ u, la s u = Real.log (density s (loc s + scale s * g u) a))
    (hgb : NoGumbel b ∨ ∀ u, Real.exp (-g u) ≤ w u) :
    EstimatesWithGradient ν (fun u => Dual.reparamTerm (sl u).2 (b.logProb t (sl u).1))
      (fun s => klInt volume (fun x => density s x a) fun x => density s x b) t := by
  have hnear : ∀ᶠ s in 𝓝 t, 0 < scale s := (hs.deriv t).continuousAt.eventually (lt_mem_nhds hpos)
  have hV : Tame ν w (fun s u => loc s + scale s * g u) (fun u => (sl u).1) t := by
    refine ((Tame.param (curve_contDiff hl t) (hl.deriv t)).add hw ((Tame.param (curve_contDiff hs t) (hs.deriv t)).mul hw
      (Tame.fixed hg (K := 1) (k := 1) (fun u => by rw [one_mul, pow_one]; exact hgw u) hw))).congr fun u => ?_
    rw [hsl]
    ext
    · rfl
    · simp only [Dual.tan_add, Dual.tan_mul, Dual.val_const, Dual.tan_const]; ring
  have hVm : ∀ s, Measurable fun u => loc s + scale s * g u := fun s => by fun_prop
  have hc : ∀ c, ∀ᵐ u ∂ν, loc t + scale t * g u ≠ c := fun c => by
    have : ∀ᵐ x ∂sampleLaw a t, x ≠ c := by
      have h0 : ∀ᵐ x : ℝ, x ≠ c := by rw [ae_iff]; simp
      exact (withDensity_absolutelyContinuous _ _).ae_le h0
    rw [hmap t hpos] at this
    exact ae_of_ae_map (hVm t).aemeasurable this
  have hB := dist_tame hw hV hc b hb (hgb.imp_right fun hgu lb lb' sb sb' h1 h2 h3 => by
    obtain ⟨M, hM, hM'⟩ := scale_bounds h1 h2 h3
    obtain ⟨N, hN, hN'⟩ := scale_bounds hl hs hpos
    refine ⟨Real.exp ((M + N) * M), ⌈N * M⌉₊, ?_⟩
    filter_upwards [hM', hN'] with s ⟨a1, a2, a3, a4, a5⟩ ⟨b1, b2, b3, b4, b5⟩ u
    have hinv : 1 / sb s ≤ M := by rw [div_le_iff₀ a2]; linarith
    have hi : 0 < 1 / sb s := by positivity
    have e : -((loc s + scale s * g u - lb s) / sb s) = (lb s - loc s) * (1 / sb s) + -g u * (scale s * (1 / sb s)) := by
      field_simp; ring
    rw [e, Real.exp_add]
    have l1 := abs_le.1 a1
    have l2 := abs_le.1 b1
    have hr : scale s * (1 / sb s) ≤ N * M := mul_le_mul b3 hinv hi.le (by linarith)
    have hr0 : 0 < scale s * (1 / sb s) := by positivity
    refine mul_le_mul (Real.exp_le_exp.2 ?_) ?_ (Real.exp_pos _).le (Real.exp_pos _).le
    · exact (mul_le_mul_of_nonneg_right (by linarith : lb s - loc s ≤ M + N) hi.le).trans
        (mul_le_mul_of_nonneg_left hinv (by linarith))
    · rcases le_or_gt 0 (g u) with hx | hx
      · refine (Real.exp_le_one_iff.2 ?_).trans (one_le_pow₀ (hw u))
        nlinarith
      · have hc : scale s * (1 / sb s) ≤ (⌈N * M⌉₊ : ℝ) := hr.trans (Nat.le_ceil _)
        calc Real.exp (-g u * (scale s * (1 / sb s))) ≤ Real.exp (⌈N * M⌉₊ * -g u) := Real.exp_le_exp.2 (by nlinarith)
          _ = Real.exp (-g u) ^ ⌈N * M⌉₊ := Real.exp_nat_mul _ _
          _ ≤ w u ^ ⌈N * M⌉₊ := pow_le_pow_left₀ (Real.exp_pos _).le (hgu u) _)
  have hdom : Dominated ν w (fun _ _ => 0) t :=
    ⟨fun _ => 1, fun k => by simpa using hwi k, Eventually.of_forall fun s x => by simp⟩
  obtain ⟨h1, h2, h3⟩ := expect_deriv hw (Tame.const 0 hw) hdom (hla.sub hw hB)
  simp only [Real.exp_zero, one_mul, Dual.tan_const, zero_mul, zero_add] at h1 h2 h3
  have hk : ∀ s, 0 < scale s → (∀ x, 0 < density s x a) → klInt volume (fun x => density s x a) (fun x => density s x b) =
      ∫ u, (la s u - Real.log (density s (loc s + scale s * g u) b)) ∂ν := fun s hs hp => by
    have e1 := (densLaw_integral (μ := volume) (p := fun x => density s x a)
      (f := fun x => Real.log (density s x a) - Real.log (density s x b)) (density_meas a s) fun x => (hp x).le).2
    rw [klInt, ← e1]
    have e2 : densLaw volume (fun x => density s x a) = ν.map fun u => loc s + scale s * g u := hmap s hs
    rw [e2, integral_map (f := fun x => Real.log (density s x a) - Real.log (density s x b)) (hVm s).aemeasurable
      (((density_meas a s).log.sub (density_meas b s).log).aestronglyMeasurable)]
    simp only [hlae s hs]
  have ev : ∀ u, (Dual.reparamTerm (sl u).2 (b.logProb t (sl u).1)).val =
      la t u - Real.log (density t (loc t + scale t * g u) b) := fun u => by
    have := hla.val u
    have := hB.val u
    simp only [Dual.reparamTerm, Dual.val_neg, Dual.val_sub] at *
    rw [hla.val u, hB.val u]; ring
  have et : ∀ u, (Dual.reparamTerm (sl u).2 (b.logProb t (sl u).1)).tan = ((sl u).2 - b.logProb t (sl u).1).tan := fun u => by
    simp only [Dual.reparamTerm, Dual.tan_neg, Dual.tan_sub]; ring
  have hp := density_pos a ha
  refine ⟨?_, ?_, ?_, ?_⟩
  · simp only [ev]; exact h1.self_of_nhds
  · simp only [ev]; exact (hk t hpos hp.self_of_nhds).symm
  · simp only [et]; exact h2
  · simp only [et]
    refine h3.congr_of_eventuallyEq ?_
    filter_upwards [hnear, hp] with s s1 s2 using hk s s1 s2

end Distrax
