import Verif.Model.CategoricalUniform
import Verif.Spec.CategoricalUniform
import Verif.Props.Mixture
import Verif.Props.LocScale
import Verif.Props.Categorical

/-! C35: CategoricalUniform. -/

namespace Distrax

open XR Spec MeasureTheory Set

namespace CatUniform
variable {K : ℕ} (d : CatUniform K)

/-- The probabilities denoted by the logits. -/
noncomputable def pm (k : Fin K) : ℝ := weight (d.logits k) / ∑ j, weight (d.logits j)

/-- Bin width. -/
noncomputable def wd : ℝ := (d.high - d.low) / K

variable {d}

theorem hasPmf (h : LegalLogits d.logits) : HasPmf d.cat d.pm := by
  obtain ⟨c, p, hc, hp, he⟩ := C24_from_logits h .integer (by simp)
  have hpe : p = d.pm := funext he
  have : c = d.cat := by
    unfold Cat.init at hc
    simp at hc
    exact hc.symm
  rw [← this, ← hpe]; exact hp

theorem K_pos (h : LegalLogits d.logits) : 0 < K := by
  obtain ⟨i, -⟩ := h.some_finite
  exact i.pos

theorem limits_eq (h : LegalLogits d.logits) (i : ℕ) : d.limits i = d.low + i * d.wd := by
  have : (K : ℝ) ≠ 0 := by exact_mod_cast (K_pos h).ne'
  unfold limits wd; field_simp; ring

theorem wd_pos (h : LegalLogits d.logits) (hlt : d.low < d.high) : 0 < d.wd := by
  have : (0 : ℝ) < K := by exact_mod_cast K_pos h
  exact div_pos (by linarith) this

theorem high_eq (h : LegalLogits d.logits) : d.high = d.low + K * d.wd := by
  have : (K : ℝ) ≠ 0 := by exact_mod_cast (K_pos h).ne'
  unfold wd; field_simp; ring

theorem comp_range (h : LegalLogits d.logits) (k : Fin K) : (d.comp k).range = d.wd := by
  unfold Uniform.range comp
  simp only [limits_eq h]; push_cast; ring

theorem comp_lt (h : LegalLogits d.logits) (hlt : d.low < d.high) (k : Fin K) : (d.comp k).low < (d.comp k).high := by
  have := comp_range h k
  unfold Uniform.range at this
  linarith [wd_pos h hlt]

theorem mixW_eq (h : LegalLogits d.logits) (k : Fin K) : mixW d.cat.logits k = d.pm k := by
  have hp := hasPmf h
  unfold mixW
  simp only [hp.logits, weight_xlog (hp.pmf.nonneg _), hp.pmf.sum_one, div_one]

theorem legal_cat (h : LegalLogits d.logits) : LegalLogits d.cat.logits := by
  have hp := hasPmf h
  have : d.cat.logits = fun i => xlog (d.pm i) := funext hp.logits
  rw [this]; exact legal_xlog hp.pmf

theorem comp_isLog (h : LegalLogits d.logits) (hlt : d.low < d.high) (k : Fin K) (x : ℝ) :
    IsLogDensity ((d.comp k).logProb x) ∧ weight ((d.comp k).logProb x) = (d.comp k).prob x := by
  have h0 : 0 ≤ (d.comp k).prob x := (C29_uniform_law _ (comp_lt h hlt k)).1.nonneg x
  have e : (d.comp k).logProb x = xlog ((d.comp k).prob x) := XR.log_eq_xlog h0
  rw [e]
  exact ⟨xlog_isLogDensity _, weight_xlog h0⟩

/-- The density as the sum of the component densities. -/
theorem density_eq (h : LegalLogits d.logits) (hlt : d.low < d.high) (x : ℝ) :
    weight (d.logProb x) = ∑ k, d.pm k * (d.comp k).prob x ∧ IsLogDensity (d.logProb x) := by
  have hh := C34_same_family_log_prob d.cat.logits (legal_cat h) (fun k x => (d.comp k).logProb x)
    (fun k (_ : Unit) => (d.comp k).mean) (fun k _ => (d.comp k).variance) x (fun k => (comp_isLog h hlt k x).1)
  constructor
  · unfold logProb mixture
    rw [hh.2]
    refine Finset.sum_congr rfl fun k _ => ?_
    rw [mixW_eq h, (comp_isLog h hlt k x).2]
  · unfold logProb mixture
    rw [hh.1]; exact xlog_isLogDensity _

theorem comp_prob (h : LegalLogits d.logits) (hlt : d.low < d.high) (k : Fin K) (x : ℝ) :
    (d.comp k).prob x = if (k : ℝ) * d.wd ≤ x - d.low ∧ x - d.low ≤ ((k : ℝ) + 1) * d.wd then 1 / d.wd else 0 := by
  unfold Uniform.prob
  rw [comp_range h]
  have e1 : (d.comp k).low = d.low + k * d.wd := limits_eq h k
  have e2 : (d.comp k).high = d.low + ((k : ℝ) + 1) * d.wd := by
    have := limits_eq h (k + 1); push_cast at this; exact this
  rw [e1, e2]
  by_cases hx : (k : ℝ) * d.wd ≤ x - d.low ∧ x - d.low ≤ ((k : ℝ) + 1) * d.wd
  · rw [if_pos hx, if_neg]; rintro (h' | h') <;> linarith [hx.1, hx.2]
  · rw [if_neg hx, if_pos]
    by_contra hn; push Not at hn
    exact hx ⟨by linarith [hn.1], by linarith [hn.2]⟩

/-- Two closed bins containing a point that is no edge coincide. -/
theorem bin_unique {w t : ℝ} (hw : 0 < w) {i j : ℕ} (hi : (i : ℝ) * w ≤ t) (hi' : t < ((i : ℝ) + 1) * w)
    (hj : (j : ℝ) * w ≤ t) (hj' : t < ((j : ℝ) + 1) * w) : i = j := by
  have a1 : (i : ℝ) < j + 1 := by by_contra hc; push Not at hc; nlinarith
  have a2 : (j : ℝ) < i + 1 := by by_contra hc; push Not at hc; nlinarith
  have b1 : i < j + 1 := by exact_mod_cast a1
  have b2 : j < i + 1 := by exact_mod_cast a2
  omega

end CatUniform

open CatUniform
variable {K : ℕ} (d : CatUniform K) (h : LegalLogits d.logits) (hlt : d.low < d.high)
include h hlt

/-- Inside bin `k` the density is `p_k K / (high - low)`; outside `[low, high]` it is 0 (`log_prob = -inf`). -/
theorem C35_density (x : ℝ) :
    (∀ k : Fin K, d.low + k * ((d.high - d.low) / K) < x → x < d.low + (k + 1) * ((d.high - d.low) / K) →
      weight (d.logProb x) = d.pm k * (K / (d.high - d.low))) ∧
    (x < d.low ∨ d.high < x → d.logProb x = .ninf) := by
  have hw := wd_pos h hlt
  have hr : (K : ℝ) / (d.high - d.low) = 1 / d.wd := by unfold wd; rw [one_div_div]
  constructor
  · intro k h1 h2
    change d.low + k * d.wd < x at h1
    change x < d.low + (k + 1) * d.wd at h2
    rw [(density_eq h hlt x).1, hr, Finset.sum_eq_single k]
    · rw [comp_prob h hlt, if_pos ⟨by linarith, by linarith⟩]
    · intro j _ hj
      rw [comp_prob h hlt, if_neg, mul_zero]
      rintro ⟨a, b⟩
      have c1 : (j : ℝ) < k + 1 := by by_contra hc; push Not at hc; nlinarith
      have c2 : (k : ℝ) < j + 1 := by by_contra hc; push Not at hc; nlinarith
      have c1' : (j : ℕ) < k + 1 := by exact_mod_cast c1
      have c2' : (k : ℕ) < j + 1 := by exact_mod_cast c2
      exact hj (Fin.ext (by omega))
    · simp
  · intro hx
    have hz : weight (d.logProb x) = 0 := by
      rw [(density_eq h hlt x).1]
      refine Finset.sum_eq_zero fun k _ => ?_
      rw [comp_prob h hlt, if_neg, mul_zero]
      rintro ⟨a, b⟩
      have hk : (k : ℝ) + 1 ≤ K := by exact_mod_cast k.2
      have hk0 : (0 : ℝ) ≤ k := by positivity
      have he := high_eq h
      rcases hx with hx | hx <;> nlinarith
    rw [(density_eq h hlt x).2.eq_xlog, hz, xlog_zero]

/-- Off the bin edges the density is the documented one. -/
theorem C35_documented_density (x : ℝ) (hx : ¬ IsEdge K d.low d.high x) :
    weight (d.logProb x) = binDensity d.pm d.low d.high x := by
  have hw := wd_pos h hlt
  unfold binDensity
  split
  · next hex =>
    have hs := hex.choose_spec
    generalize hex.choose = k at hs ⊢
    have hne : (k : ℝ) * ((d.high - d.low) / K) ≠ x - d.low := fun he => hx ⟨k, k.2.le, by rw [he]; ring⟩
    rw [(C35_density d h hlt x).1 k (by have := lt_of_le_of_ne hs.1 hne; linarith) (by linarith [hs.2]), div_eq_mul_inv (d.pm k),
      inv_div]
  · next hex =>
    have : x < d.low ∨ d.high < x := by
      by_contra hc; push Not at hc
      have hKpos := K_pos h
      have he := high_eq h
      have hlt' : x < d.high := lt_of_le_of_ne hc.2 fun he' => hx ⟨K, le_rfl, he'.trans he⟩
      have hn : ⌊(x - d.low) / d.wd⌋₊ < K := by
        rw [Nat.floor_lt (div_nonneg (by linarith [hc.1]) hw.le), div_lt_iff₀ hw]; linarith
      refine hex ⟨⟨_, hn⟩, ?_, ?_⟩
      · have := Nat.floor_le (div_nonneg (show 0 ≤ x - d.low by linarith [hc.1]) hw.le)
        rw [le_div_iff₀ hw] at this; exact this
      · have := Nat.lt_floor_add_one ((x - d.low) / d.wd)
        rw [div_lt_iff₀ hw] at this; exact this
    rw [(C35_density d h hlt x).2 this]; rfl

/-- Finding: at an interior edge the closed component intervals overlap, so the density there is the sum of both
neighbours instead of the documented right-hand bin's. -/
theorem C35_edges_double_count (k : ℕ) (hk : k + 1 < K) :
    weight (d.logProb (d.low + (k + 1) * ((d.high - d.low) / K))) =
      (d.pm ⟨k, by omega⟩ + d.pm ⟨k + 1, hk⟩) * (K / (d.high - d.low)) := by
  have hw := wd_pos h hlt
  have hr : (K : ℝ) / (d.high - d.low) = 1 / d.wd := by unfold wd; rw [one_div_div]
  change weight (d.logProb (d.low + (k + 1) * d.wd)) = _
  rw [(density_eq h hlt _).1, hr]
  have hne : (⟨k, by omega⟩ : Fin K) ≠ ⟨k + 1, hk⟩ := by simp
  rw [← Finset.sum_subset (Finset.subset_univ {(⟨k, by omega⟩ : Fin K), ⟨k + 1, hk⟩}), Finset.sum_pair hne]
  · rw [comp_prob h hlt, comp_prob h hlt, if_pos, if_pos]
    · ring
    · push_cast; constructor <;> nlinarith
    · dsimp only; constructor <;> nlinarith
  · intro j _ hj
    rw [comp_prob h hlt, if_neg, mul_zero]
    rintro ⟨a, b⟩
    have e : d.low + ((k : ℝ) + 1) * d.wd - d.low = ((k : ℝ) + 1) * d.wd := by ring
    rw [e] at a b
    have c1 : (j : ℝ) ≤ (k : ℝ) + 1 := le_of_mul_le_mul_right a hw
    have c2 : (k : ℝ) + 1 ≤ (j : ℝ) + 1 := le_of_mul_le_mul_right b hw
    have c1' : (j : ℕ) ≤ k + 1 := by exact_mod_cast c1
    have c2' : k ≤ (j : ℕ) := by have : (k : ℝ) ≤ j := by linarith
                                 exact_mod_cast this
    refine hj ?_
    simp only [Finset.mem_insert, Finset.mem_singleton, Fin.ext_iff]
    omega

/-- It is a probability density; `mean` and `variance` are its moments. -/
theorem C35_moments :
    IsPdf (fun x => weight (d.logProb x)) ∧
    ∃ M V, d.mean = fin M ∧ d.variance = fin V ∧ HasMean (fun x => weight (d.logProb x)) M ∧
      HasVariance (fun x => weight (d.logProb x)) V := by
  have hd : ∀ k, IsDensity volume fun x => weight ((d.comp k).logProb x) := by
    intro k
    have e : (fun x => weight ((d.comp k).logProb x)) = (d.comp k).prob := funext fun x => (comp_isLog h hlt k x).2
    have hp := (C29_uniform_law _ (comp_lt h hlt k)).1
    rw [e]; exact ⟨hp.nonneg, hp.integrable, hp.one⟩
  have hn := C34_same_family_normalised d.cat.logits (legal_cat h) (fun k x => (d.comp k).logProb x)
    (fun k (_ : Unit) => (d.comp k).mean) (fun k _ => (d.comp k).variance) volume (fun k x => (comp_isLog h hlt k x).1) hd
  obtain ⟨M, V, hM, hV, hmo⟩ := C34_same_family_moments d.cat.logits (legal_cat h) (fun k x => (d.comp k).logProb x)
    (fun k (_ : Unit) => (d.comp k).mean) (fun k _ => (d.comp k).variance) volume (fun k x => (comp_isLog h hlt k x).1) hd
    (fun _ x => x) () (by
      intro k
      have e : (fun x => weight ((d.comp k).logProb x)) = (d.comp k).prob := funext fun x => (comp_isLog h hlt k x).2
      have e' : ∀ x, weight ((d.comp k).logProb x) = (d.comp k).prob x := fun x => (comp_isLog h hlt k x).2
      obtain ⟨hm, ⟨m', hm', hv⟩, -⟩ := C29_uniform_moments _ (comp_lt h hlt k)
      have : m' = (d.comp k).mean := hm'.2.symm.trans hm.2
      subst this
      refine ⟨?_, ?_, ?_, ?_⟩ <;> simp only [e']
      · exact hm.1
      · exact hm.2
      · exact hv.1
      · exact hv.2)
  refine ⟨⟨hn.nonneg, hn.integrable, hn.one⟩, M, V, hM, hV, ⟨hmo.int1, hmo.mean⟩, M, ⟨hmo.int1, hmo.mean⟩, hmo.int2, hmo.variance⟩

omit h in
theorem edges_null : ∀ᵐ x : ℝ, ¬ IsEdge K d.low d.high x := by
  have : {x | IsEdge K d.low d.high x} ⊆ ⋃ i : ℕ, {d.low + i * ((d.high - d.low) / K)} := by
    rintro x ⟨i, -, rfl⟩; simp
  refine measure_mono_null (t := ⋃ i : ℕ, {d.low + i * ((d.high - d.low) / K)}) ?_ ?_
  · intro x hx
    exact this (by simpa using hx)
  · rw [measure_iUnion_null_iff]; intro i; simp

/-- `entropy` is the differential entropy of that density. -/
theorem C35_entropy : ∃ e, d.entropy = fin e ∧ HasEntropy (fun x => weight (d.logProb x)) e := by
  have hw := wd_pos h hlt
  have hp := hasPmf h
  refine ⟨shannon d.pm + Real.log d.wd, ?_, ?_⟩
  · unfold entropy
    rw [C25_entropy hp, show XR.log (fin ((d.high - d.low) / K)) = _ from log_fin_pos hw]; rfl
  · -- almost everywhere equal to a step function
    have hI : ∀ k : Fin K, Integrable (indicator (Ioo (d.comp k).low (d.comp k).high)
        fun _ => d.pm k / d.wd * -Real.log (d.pm k / d.wd)) volume := fun k =>
      (integrable_indicator_iff measurableSet_Ioo).2 (integrableOn_const (by simp))
    have e1 : ∀ k : Fin K, (d.comp k).low = d.low + k * d.wd := fun k => limits_eq h k
    have e2 : ∀ k : Fin K, (d.comp k).high = d.low + ((k : ℝ) + 1) * d.wd := by
      intro k; have := limits_eq h (k + 1); push_cast at this; exact this
    have hae : (fun x => weight (d.logProb x) * -Real.log (weight (d.logProb x))) =ᵐ[volume] fun x =>
        ∑ k, indicator (Ioo (d.comp k).low (d.comp k).high) (fun _ => d.pm k / d.wd * -Real.log (d.pm k / d.wd)) x := by
      filter_upwards [edges_null d hlt] with x hx
      by_cases hex : ∃ k : Fin K, x ∈ Ioo (d.comp k).low (d.comp k).high
      · obtain ⟨k, hk⟩ := hex
        have hk' := hk
        rw [e1, e2] at hk'
        rw [(C35_density d h hlt x).1 k hk'.1 hk'.2, Finset.sum_eq_single k]
        · rw [indicator_of_mem hk]
          have : d.pm k * (K / (d.high - d.low)) = d.pm k / d.wd := by
            rw [div_eq_mul_inv (d.pm k)]; unfold wd; rw [inv_div]
          rw [this]
        · intro j _ hj
          refine indicator_of_notMem (fun hj' => hj ?_) _
          rw [e1, e2] at hj'
          exact Fin.ext (bin_unique hw (t := x - d.low) (by linarith [hj'.1]) (by linarith [hj'.2]) (by linarith [hk'.1])
            (by linarith [hk'.2]))
        · simp
      · have hz : weight (d.logProb x) = 0 := by
          rw [(density_eq h hlt x).1]
          refine Finset.sum_eq_zero fun k _ => ?_
          rw [comp_prob h hlt, if_neg, mul_zero]
          rintro ⟨a, b⟩
          refine hex ⟨k, ?_⟩
          rw [e1, e2]
          refine ⟨lt_of_le_of_ne (by linarith) fun he => hx ⟨k, k.2.le, he.symm⟩,
            lt_of_le_of_ne (by linarith) fun he => hx ⟨k + 1, k.2, ?_⟩⟩
          rw [he]; push_cast; rfl
        push Not at hex
        rw [hz, zero_mul]
        exact (Finset.sum_eq_zero fun k _ => indicator_of_notMem (hex k) _).symm
    refine ⟨(integrable_finsetSum _ fun k _ => hI k).congr hae.symm, ?_⟩
    rw [integral_congr_ae hae, integral_finsetSum _ fun k _ => hI k]
    have hk : ∀ k : Fin K, ∫ x, indicator (Ioo (d.comp k).low (d.comp k).high)
        (fun _ => d.pm k / d.wd * -Real.log (d.pm k / d.wd)) x = d.pm k * Real.log d.wd - d.pm k * Real.log (d.pm k) := by
      intro k
      rw [integral_indicator measurableSet_Ioo, setIntegral_const]
      have : volume.real (Ioo (d.comp k).low (d.comp k).high) = d.wd := by
        rw [measureReal_def, Real.volume_Ioo, ← comp_range h k, ENNReal.toReal_ofReal]
        · rfl
        · linarith [comp_lt h hlt k]
      rw [this, smul_eq_mul]
      rcases (hp.pmf.nonneg k).lt_or_eq with hpos | hz
      · rw [Real.log_div hpos.ne' hw.ne']; field_simp; ring
      · rw [← hz]; simp
    simp only [hk, Finset.sum_sub_distrib, ← Finset.sum_mul, hp.pmf.sum_one, shannon]
    ring

namespace CatUniform

omit h hlt in
/-- Cumulative probabilities. -/
theorem cumQ_succ (p : Fin K → ℝ) (k : Fin K) :
    ∑ j ∈ Finset.univ.filter (fun j : Fin K => (j : ℕ) < k + 1), p j =
      ∑ j ∈ Finset.univ.filter (fun j : Fin K => (j : ℕ) < k), p j + p k := by
  have : Finset.univ.filter (fun j : Fin K => (j : ℕ) < k + 1) = insert k (Finset.univ.filter fun j : Fin K => (j : ℕ) < k) := by
    ext j; simp [Fin.ext_iff]; omega
  rw [this, Finset.sum_insert (by simp), add_comm]

/-- Mass of the bins before number `i`. -/
noncomputable def cumQ (i : ℕ) : ℝ := ∑ j ∈ Finset.univ.filter (fun j : Fin K => (j : ℕ) < i), d.pm j

omit hlt in
theorem quantileLimits_eq (i : Fin (K + 1)) : d.quantileLimits i = fin (cumQ d i) := by
  refine Fin.cases ?_ (fun k => ?_) i
  · show (0 : XR) = _
    simp [cumQ, XR.zero_def]
  · show xcumsum (xsoftmax d.logits) k = _
    unfold xcumsum
    have : ∀ j, xsoftmax d.logits j = fin (d.pm j) := fun j => xsoftmax_legal h j
    simp only [this, sum_fin]
    congr 1
    unfold cumQ
    refine Finset.sum_congr ?_ fun _ _ => rfl
    ext j; simp only [Finset.mem_filter, Finset.mem_univ, true_and, Fin.le_def, Fin.val_succ]; omega

omit hlt in
theorem quantileDiff_eq (k : Fin K) : d.quantileLimits k.succ - d.quantileLimits k.castSucc = fin (d.pm k) := by
  rw [quantileLimits_eq d h, quantileLimits_eq d h, fin_sub]
  congr 1
  show cumQ d (k + 1) - cumQ d k = _
  unfold cumQ; rw [cumQ_succ]; ring

omit h hlt in
theorem min_fin (a b : ℝ) : XR.min (fin a) (fin b) = fin (min a b) := by
  show XR.sel (ltB (fin b) (fin a)) (fin b) (fin a) = _
  by_cases hb : b < a
  · rw [sel_pos (show ltB (fin b) (fin a) from hb), min_eq_right hb.le]
  · rw [sel_neg (show ¬ ltB (fin b) (fin a) from hb), min_eq_left (not_lt.1 hb)]

open Classical in
omit h hlt in
theorem relu_fin (a : ℝ) : XR.relu (fin a) = fin (max a 0) := by
  show (if ltB (fin a) (fin 0) then fin 0 else fin a) = _
  by_cases hb : a < 0
  · rw [if_pos (show ltB (fin a) (fin 0) from hb), max_eq_right hb.le]
  · rw [if_neg (show ¬ ltB (fin a) (fin 0) from hb), max_eq_left (not_lt.1 hb)]

/-- The inverse cdf in real numbers. -/
noncomputable def invR (q : ℝ) : ℝ :=
  d.low + ∑ k, d.wd / d.pm k * min (d.pm k) (max (q - cumQ d k) 0)

omit hlt in
theorem dom_diff (k : Fin K) : d.limits (k + 1) - d.limits k = d.wd := by
  rw [limits_eq h, limits_eq h]; push_cast; ring

omit hlt in
theorem inverseCdf_real (hpos : ∀ k, 0 < d.pm k) (q : ℝ) : d.inverseCdf q = fin (invR d q) := by
  unfold inverseCdf invR
  simp only [quantileDiff_eq d h, dom_diff d h]
  simp only [quantileLimits_eq d h, fin_sub, relu_fin, min_fin]
  simp only [div_fin (hpos _).ne', fin_mul, sum_fin, fin_add]
  rfl

omit hlt in
theorem cumQ_mono {i j : ℕ} (hij : i ≤ j) : cumQ d i ≤ cumQ d j := by
  unfold cumQ
  refine Finset.sum_le_sum_of_subset_of_nonneg ?_ fun k _ _ => (pmf_weights h).nonneg k
  intro k; simp; omega

omit hlt in
theorem cumQ_zero_last : cumQ d 0 = 0 ∧ cumQ d K = 1 := by
  constructor
  · simp [cumQ]
  · rw [← (pmf_weights h).sum_one]
    unfold cumQ
    have : Finset.univ.filter (fun j : Fin K => (j : ℕ) < K) = Finset.univ := by ext j; simp
    rw [this]; rfl

omit h hlt in
/-- A monotone grid covers the interval between its ends. -/
theorem grid_find (g : ℕ → ℝ) (n : ℕ) (x : ℝ) (h0 : g 0 ≤ x) (h1 : x ≤ g (n + 1)) : ∃ i, i ≤ n ∧ g i ≤ x ∧ x ≤ g (i + 1) := by
  induction n with
  | zero => exact ⟨0, le_rfl, h0, h1⟩
  | succ n ih =>
    rcases le_total x (g (n + 1)) with hx | hx
    · obtain ⟨i, hi, h2⟩ := ih hx; exact ⟨i, by omega, h2⟩
    · exact ⟨n + 1, le_rfl, hx, h1⟩

omit hlt in
theorem invR_bin (hpos : ∀ k, 0 < d.pm k) (i : Fin K) {q : ℝ} (h1 : cumQ d i ≤ q) (h2 : q ≤ cumQ d (i + 1)) :
    invR d q = d.low + i * d.wd + d.wd / d.pm i * (q - cumQ d i) := by
  have hs : ∀ k : Fin K, cumQ d (k + 1) = cumQ d k + d.pm k := fun k => cumQ_succ d.pm k
  unfold invR
  have hk : ∀ k : Fin K, d.wd / d.pm k * min (d.pm k) (max (q - cumQ d k) 0) =
      (if (k : ℕ) < i then d.wd else 0) + (if k = i then d.wd / d.pm i * (q - cumQ d i) else 0) := by
    intro k
    rcases lt_trichotomy (k : ℕ) i with hki | hki | hki
    · have : cumQ d (k + 1) ≤ cumQ d i := cumQ_mono d h hki
      rw [hs] at this
      rw [if_pos hki, if_neg (by intro e; rw [e] at hki; exact lt_irrefl _ hki), min_eq_left, add_zero, div_mul_cancel₀ _ (hpos k).ne']
      exact le_max_of_le_left (by linarith)
    · have : k = i := Fin.ext hki
      subst this
      rw [hs] at h2
      rw [if_neg (lt_irrefl _), if_pos rfl, zero_add, max_eq_left (by linarith), min_eq_right (by linarith)]
    · have : cumQ d (i + 1) ≤ cumQ d k := cumQ_mono d h hki
      rw [if_neg (by omega), if_neg (by intro e; rw [e] at hki; exact lt_irrefl _ hki), max_eq_right (by linarith), min_eq_right (hpos k).le]
      simp
  simp only [hk, Finset.sum_add_distrib]
  rw [Finset.sum_ite_eq' Finset.univ i]
  have hc : ∑ k : Fin K, (if (k : ℕ) < i then d.wd else 0) = i * d.wd := by
    rw [← Finset.sum_filter, Finset.sum_const, nsmul_eq_mul]
    congr 2
    have : Finset.univ.filter (fun k : Fin K => (k : ℕ) < i) = Finset.Iio i := by
      ext k; simp only [Finset.mem_filter, Finset.mem_univ, true_and, Finset.mem_Iio, Fin.lt_def]
    rw [this, Fin.card_Iio]
  rw [hc]; simp; ring

/-- The distribution function, as the mixture of the component cdfs. -/
noncomputable def cdfR (x : ℝ) : ℝ := ∑ k, d.pm k * (d.comp k).cdf x

theorem cdfR_isCdf : IsCdf (fun x => weight (d.logProb x)) (cdfR d) := by
  intro x
  have e : (fun t => weight (d.logProb t)) = fun t => ∑ k, d.pm k * (d.comp k).prob t :=
    funext fun t => (density_eq h hlt t).1
  rw [e, integral_finsetSum]
  · unfold cdfR
    refine Finset.sum_congr rfl fun k _ => ?_
    rw [integral_const_mul, (C29_uniform_law _ (comp_lt h hlt k)).2.1 x]
  · intro k _
    exact ((C29_uniform_law _ (comp_lt h hlt k)).1.integrable.const_mul _).integrableOn

theorem comp_cdf (k : Fin K) (x : ℝ) :
    (d.comp k).cdf x = min 1 (max ((x - d.low - k * d.wd) / d.wd) 0) := by
  have hw := wd_pos h hlt
  have e1 : (d.comp k).low = d.low + k * d.wd := limits_eq h k
  have e2 : (d.comp k).high = d.low + ((k : ℝ) + 1) * d.wd := by
    have := limits_eq h (k + 1); push_cast at this; exact this
  unfold Uniform.cdf
  simp only [comp_range h, e1, e2]
  split_ifs with ha hb
  · rw [min_eq_left]
    refine le_max_of_le_left ((one_le_div hw).2 (by linarith))
  · rw [max_eq_right (div_nonpos_of_nonpos_of_nonneg (by linarith) hw.le), min_eq_right zero_le_one]
  · push Not at ha hb
    rw [max_eq_left (div_nonneg (by linarith) hw.le), min_eq_right ((div_le_one hw).2 (by linarith)), sub_sub]

theorem cdfR_bin (i : Fin K) {x : ℝ} (h1 : d.low + i * d.wd ≤ x) (h2 : x ≤ d.low + (i + 1) * d.wd) :
    cdfR d x = cumQ d i + d.pm i * ((x - d.low - i * d.wd) / d.wd) := by
  have hw := wd_pos h hlt
  unfold cdfR
  have hk : ∀ k : Fin K, d.pm k * (d.comp k).cdf x =
      (if (k : ℕ) < i then d.pm k else 0) + (if k = i then d.pm i * ((x - d.low - i * d.wd) / d.wd) else 0) := by
    intro k
    rw [comp_cdf d h hlt]
    rcases lt_trichotomy (k : ℕ) i with hki | hki | hki
    · have : (k : ℝ) + 1 ≤ i := by exact_mod_cast hki
      rw [if_pos hki, if_neg (by intro e; rw [e] at hki; exact lt_irrefl _ hki), min_eq_left, mul_one, add_zero]
      refine le_max_of_le_left ((one_le_div hw).2 (by nlinarith))
    · have : k = i := Fin.ext hki
      subst this
      rw [if_neg (lt_irrefl _), if_pos rfl, zero_add, max_eq_left (div_nonneg (by linarith) hw.le),
        min_eq_right ((div_le_one hw).2 (by linarith))]
    · have : (i : ℝ) + 1 ≤ k := by exact_mod_cast hki
      rw [if_neg (by omega), if_neg (by intro e; rw [e] at hki; exact lt_irrefl _ hki),
        max_eq_right (div_nonpos_of_nonpos_of_nonneg (by nlinarith) hw.le), min_eq_right zero_le_one]
      simp
  simp only [hk, Finset.sum_add_distrib]
  rw [Finset.sum_ite_eq' Finset.univ i]
  simp only [Finset.mem_univ, if_true, cumQ, Finset.sum_filter]

theorem cdfR_mono : Monotone (cdfR d) := by
  have hw := wd_pos h hlt
  intro x y hxy
  unfold cdfR
  refine Finset.sum_le_sum fun k _ => mul_le_mul_of_nonneg_left ?_ ((pmf_weights h).nonneg k)
  rw [comp_cdf d h hlt, comp_cdf d h hlt]
  exact min_le_min le_rfl (max_le_max (div_le_div_of_nonneg_right (by linarith) hw.le) le_rfl)

theorem invR_mono : Monotone (invR d) := by
  have hw := wd_pos h hlt
  intro x y hxy
  unfold invR
  refine add_le_add le_rfl (Finset.sum_le_sum fun k _ => mul_le_mul_of_nonneg_left ?_ (div_nonneg hw.le ((pmf_weights h).nonneg k)))
  exact min_le_min le_rfl (max_le_max (by linarith) le_rfl)

end CatUniform

/-- If every bin has positive weight, `_inverse_cdf` is a two-sided inverse of the distribution function between
`[0, 1]` and `[low, high]`, and its values lie in `[low, high]`. -/
theorem C35_inverse_cdf (hpos : ∀ k, 0 < d.pm k) :
    ∃ T F : ℝ → ℝ, (∀ q, d.inverseCdf q = fin (T q)) ∧ IsCdf (fun x => weight (d.logProb x)) F ∧ Monotone T ∧ Monotone F ∧
      (∀ q ∈ Icc (0 : ℝ) 1, F (T q) = q ∧ T q ∈ Icc d.low d.high) ∧ ∀ x ∈ Icc d.low d.high, T (F x) = x ∧ F x ∈ Icc (0 : ℝ) 1 := by
  have hw := wd_pos h hlt
  obtain ⟨q0, qK⟩ := cumQ_zero_last d h
  obtain ⟨n, rfl⟩ : ∃ n, K = n + 1 := ⟨K - 1, by have := K_pos h; omega⟩
  have hs : ∀ k : Fin (n + 1), cumQ d (k + 1) = cumQ d k + d.pm k := fun k => cumQ_succ d.pm k
  refine ⟨invR d, cdfR d, inverseCdf_real d h hpos, cdfR_isCdf d h hlt, invR_mono d h hlt, cdfR_mono d h hlt, ?_, ?_⟩
  · intro q hq
    obtain ⟨i, hi, h1, h2⟩ := grid_find (cumQ d) n q (by rw [q0]; exact hq.1) (by rw [qK]; exact hq.2)
    have hi' : i < n + 1 := by omega
    have e := invR_bin d h hpos ⟨i, hi'⟩ h1 h2
    dsimp only at e
    have hp := hpos ⟨i, hi'⟩
    have hsi := hs ⟨i, hi'⟩
    dsimp only at hsi
    have hfrac0 : 0 ≤ (q - cumQ d i) / d.pm ⟨i, hi'⟩ := div_nonneg (by linarith) hp.le
    have hfrac1 : (q - cumQ d i) / d.pm ⟨i, hi'⟩ ≤ 1 := (div_le_one hp).2 (by linarith)
    have e' : invR d q = d.low + i * d.wd + d.wd * ((q - cumQ d i) / d.pm ⟨i, hi'⟩) := by rw [e]; ring
    have hb1 : d.low + ((⟨i, hi'⟩ : Fin (n + 1)) : ℕ) * d.wd ≤ invR d q := by rw [e']; nlinarith
    have hb2 : invR d q ≤ d.low + (((⟨i, hi'⟩ : Fin (n + 1)) : ℕ) + 1) * d.wd := by rw [e']; dsimp only; nlinarith
    constructor
    · rw [cdfR_bin d h hlt ⟨i, hi'⟩ hb1 hb2, e']
      dsimp only
      field_simp
      ring
    · have he := high_eq h
      have hk : (i : ℝ) + 1 ≤ (n + 1 : ℕ) := by exact_mod_cast hi'
      have hk0 : (0 : ℝ) ≤ i := by positivity
      dsimp only at hb1 hb2
      constructor <;> nlinarith
  · intro x hx
    have he := high_eq h
    obtain ⟨i, hi, h1, h2⟩ := grid_find (fun i => d.low + i * d.wd) n x (by simpa using hx.1)
      (by have := hx.2; rw [he] at this; exact this)
    have hi' : i < n + 1 := by omega
    push_cast at h2
    have e := cdfR_bin d h hlt ⟨i, hi'⟩ h1 h2
    dsimp only at e h1 h2
    have hp := hpos ⟨i, hi'⟩
    have hsi := hs ⟨i, hi'⟩
    dsimp only at hsi
    have hfrac0 : 0 ≤ (x - d.low - i * d.wd) / d.wd := div_nonneg (by linarith) hw.le
    have hfrac1 : (x - d.low - i * d.wd) / d.wd ≤ 1 := (div_le_one hw).2 (by linarith)
    have hb1 : cumQ d ((⟨i, hi'⟩ : Fin (n + 1)) : ℕ) ≤ cdfR d x := by rw [e]; dsimp only; nlinarith
    have hb2 : cdfR d x ≤ cumQ d (((⟨i, hi'⟩ : Fin (n + 1)) : ℕ) + 1) := by rw [e]; dsimp only; rw [hsi]; nlinarith
    constructor
    · rw [invR_bin d h hpos ⟨i, hi'⟩ hb1 hb2, e]
      dsimp only
      field_simp
      ring
    · have m0 := cumQ_mono d h (Nat.zero_le i)
      have m1 : cumQ d (i + 1) ≤ cumQ d (n + 1) := cumQ_mono d h hi'
      dsimp only at hb1 hb2
      rw [q0] at m0; rw [qK] at m1
      exact ⟨by linarith, by linarith⟩

/-- Hence a uniform draw is mapped to a sample with that distribution function. -/
theorem C35_sample (hpos : ∀ k, 0 < d.pm k) :
    ∃ T F : ℝ → ℝ, (∀ u, d.sample u = fin (T u)) ∧ IsCdf (fun x => weight (d.logProb x)) F ∧ SampleLaw unitNoise T F := by
  obtain ⟨T, F, hT, hF, mT, mF, hFT, hTF⟩ := C35_inverse_cdf d h hlt hpos
  refine ⟨T, F, hT, hF, fun x => ?_⟩
  have hset : {u | T u ≤ x} ∩ Ioo 0 1 = Iic (F x) ∩ Ioo 0 1 := by
    ext u
    refine and_congr_left fun hu => ?_
    have hu' : u ∈ Icc (0 : ℝ) 1 := ⟨hu.1.le, hu.2.le⟩
    constructor
    · intro hle
      have := mF (show T u ≤ x from hle)
      rwa [(hFT u hu').1] at this
    · intro hle
      show T u ≤ x
      rcases le_or_gt x d.high with hx | hx
      · rcases le_or_gt d.low x with hx' | hx'
        · have := mT (show u ≤ F x from hle)
          rwa [(hTF x ⟨hx', hx⟩).1] at this
        · -- left of the support F vanishes
          have h0 : F d.low ≤ 0 := by
            have a := hFT 0 ⟨le_rfl, zero_le_one⟩
            have := mF a.2.1
            rwa [a.1] at this
          have := mF hx'.le
          exact absurd (show u ≤ F x from hle) (not_le.2 (lt_of_le_of_lt (this.trans h0) hu.1))
      · exact (hFT u hu').2.2.trans hx.le
  have hF01 : 0 ≤ F x ∧ F x ≤ 1 := by
    have hp := (C35_moments d h hlt).1
    rw [← hF x]
    refine ⟨integral_nonneg fun _ => hp.nonneg _, ?_⟩
    rw [← hp.one]
    exact setIntegral_le_integral hp.integrable (Filter.Eventually.of_forall hp.nonneg)
  unfold unitNoise
  rw [setIntegral_indicator measurableSet_Ioo, hset]
  rcases hF01.2.lt_or_eq with h1 | h1
  · have : Iic (F x) ∩ Ioo 0 1 = Ioc 0 (F x) := by
      ext u; simp only [mem_inter_iff, mem_Iic, mem_Ioo, mem_Ioc]
      exact ⟨fun hh => ⟨hh.2.1, hh.1⟩, fun hh => ⟨hh.2, hh.1, hh.2.trans_lt h1⟩⟩
    rw [this]; simp [hF01.1]
  · have : Iic (F x) ∩ Ioo 0 1 = Ioo 0 1 := by
      rw [h1]; ext u; simp only [mem_inter_iff, mem_Iic, mem_Ioo]
      exact ⟨fun hh => hh.2, fun hh => ⟨hh.2.le, hh⟩⟩
    rw [this, h1]; simp

/-- Finding: with a bin of zero weight (a `-inf` logit) every sample is nan. -/
theorem C35_zero_weight_sample_nan (k : Fin K) (hk : d.logits k = .ninf) (u : ℝ) : d.sample u = .nan := by
  have hz : d.pm k = 0 := by unfold pm; rw [hk]; simp [weight]
  unfold sample inverseCdf
  simp only [quantileDiff_eq d h, dom_diff d h]
  simp only [quantileLimits_eq d h, fin_sub, relu_fin, min_fin]
  rw [sum_nan _ _ ⟨k, Finset.mem_univ _, ?_⟩]
  · rfl
  · rw [hz, min_eq_left (le_max_right _ _)]
    have : (fin d.wd / fin 0 : XR) = pinf := by
      show XR.div (fin d.wd) (fin 0) = pinf
      simp [XR.div, infOf, wd_pos h hlt]
    rw [this]
    show infOf 0 = nan
    simp [infOf]

omit h hlt in
/-- Only scalar logits are rejected; slicing one entry keeps the distribution. -/
theorem C35_ctor (s : List ℕ) : (CatUniform.check s = .ok () ↔ s ≠ []) ∧ d.getItem = d := by
  refine ⟨?_, rfl⟩
  unfold CatUniform.check
  cases s <;> simp

/-- Non-vacuity: two bins on `[0, 4]` with weights 1/4 and 3/4; the middle edge is double counted. -/
example : let d : CatUniform 2 := ⟨0, 4, fun k => if k = 0 then .fin 0 else .fin (Real.log 3)⟩
    LegalLogits d.logits ∧ d.low < d.high ∧ (∀ k, 0 < d.pm k) ∧ weight (d.logProb 1) = 1 / 8 ∧ weight (d.logProb 2) = 1 / 2 := by
  intro d
  have hl : LegalLogits d.logits := ⟨fun k => by fin_cases k <;> simp [d], ⟨0, 0, by simp [d]⟩⟩
  have hlt : d.low < d.high := by norm_num [d]
  have p0 : d.pm 0 = 1 / 4 := by
    simp [pm, d, weight, Fin.sum_univ_two, Real.exp_log (show (0 : ℝ) < 3 by norm_num)]; norm_num
  have p1 : d.pm 1 = 3 / 4 := by
    simp [pm, d, weight, Fin.sum_univ_two, Real.exp_log (show (0 : ℝ) < 3 by norm_num)]; norm_num
  refine ⟨hl, hlt, ?_, ?_, ?_⟩
  · intro k; fin_cases k
    · show 0 < d.pm 0; rw [p0]; norm_num
    · show 0 < d.pm 1; rw [p1]; norm_num
  · rw [(C35_density d hl hlt 1).1 0 (by norm_num [d]) (by norm_num [d]), p0]; norm_num [d]
  · have := C35_edges_double_count d hl hlt 0 (by norm_num)
    have e : d.low + (((0 : ℕ) : ℝ) + 1) * ((d.high - d.low) / (2 : ℕ)) = 2 := by norm_num [d]
    rw [e] at this
    rw [this]
    show (d.pm 0 + d.pm 1) * _ = _
    rw [p0, p1]; norm_num [d]

end Distrax
