import Verif.Props.VonMisesSample
import Mathlib.Probability.Independence.Integration

/-! C59: the joint law of a whole array of von Mises samples.  All entries share one loop, which goes on until every entry
has been accepted and overwrites the numbers that decide the signs in every round. -/

namespace Distrax

open MeasureTheory Real Set VonMises Spec
open scoped ENNReal

/-- The modulus of the angle of an entry. -/
noncomputable def vmTheta (w : ℝ) : ℝ := Real.arccos (min (max w (-1)) 1)

theorem stdSample_theta (st : LoopSt) : stdSample st = SignType.sign st.u * vmTheta st.w := rfl

theorem vmTheta_candidate {s : ℝ} (hs : 1 < s) (v : ℝ) : vmTheta (candidate s v) = Real.arccos (candidate s v) := by
  have h := candidate_range hs v
  unfold vmTheta
  rw [max_eq_left h.1, min_eq_left h.2]

/-- Chance that the entry ends up accepted in `B` when `n` rounds are left and the loop is certain to make another round. -/
noncomputable def vmG2 (k s : ℝ) (B : Set ℝ) (n : ℕ) (st : LoopSt) : ℝ≥0∞ :=
  if st.done = true then ENNReal.ofReal (1 / 2) * (B.indicator 1 (vmTheta st.w) + B.indicator 1 (-vmTheta st.w))
  else ENNReal.ofReal (1 - (1 - acceptProb k s) ^ n) * vmMass k B

/-- Chance of the same event when the loop stops now. -/
noncomputable def vmK (B : Set ℝ) (st : LoopSt) : ℝ≥0∞ := if st.done = true then B.indicator 1 (stdSample st) else 0

/-- `vmG2` for accepted entries only. -/
noncomputable def vmD (B : Set ℝ) (st : LoopSt) : ℝ≥0∞ :=
  if st.done = true then ENNReal.ofReal (1 / 2) * (B.indicator 1 (vmTheta st.w) + B.indicator 1 (-vmTheta st.w)) else 0

open Classical in
theorem loopBody_fresh (k s : ℝ) (st : LoopSt) (h : st.done = false) (uv : ℝ × ℝ) :
    loopBody k s st uv = ⟨decide (accepts k s (candidate s uv.1) uv.2), uv.1, candidate s uv.1⟩ := by
  unfold loopBody; simp [h]

theorem vm_ind_measurable {B : Set ℝ} (hB : MeasurableSet B) : Measurable (B.indicator (1 : ℝ → ℝ≥0∞)) :=
  measurable_one.indicator hB

theorem vm_half_measurable {B : Set ℝ} (hB : MeasurableSet B) (s : ℝ) : Measurable fun uv : ℝ × ℝ =>
    ENNReal.ofReal (1 / 2) * (B.indicator (1 : ℝ → ℝ≥0∞) (Real.arccos (candidate s uv.1)) +
      B.indicator 1 (-Real.arccos (candidate s uv.1))) := by
  have ha : Measurable fun uv : ℝ × ℝ => Real.arccos (candidate s uv.1) :=
    Real.continuous_arccos.measurable.comp ((candidate_measurable s).comp measurable_fst)
  have hmi := vm_ind_measurable hB
  exact ((hmi.comp ha).add (hmi.comp ha.neg)).const_mul _

theorem vm_sign_measurable {B : Set ℝ} (hB : MeasurableSet B) {f : ℝ × ℝ → ℝ} (hf : Measurable f) :
    Measurable fun uv : ℝ × ℝ => B.indicator (1 : ℝ → ℝ≥0∞) ((SignType.sign uv.1 : ℝ) * f uv) := by
  have hmi := vm_ind_measurable hB
  have e : (fun uv : ℝ × ℝ => B.indicator (1 : ℝ → ℝ≥0∞) ((SignType.sign uv.1 : ℝ) * f uv)) = fun uv =>
      if 0 < uv.1 then B.indicator 1 (f uv) else if uv.1 < 0 then B.indicator 1 (-f uv) else B.indicator 1 (0 : ℝ) := by
    funext u
    split_ifs with h1 h2
    · rw [sign_pos h1]; simp
    · rw [sign_neg h2]; simp
    · rw [show u.1 = 0 by linarith, sign_zero]; simp
  rw [e]
  exact Measurable.ite (measurableSet_lt measurable_const measurable_fst) (hmi.comp hf)
    (Measurable.ite (measurableSet_lt measurable_fst measurable_const) (hmi.comp hf.neg) measurable_const)

open Classical in
/-- The three quantities after a round, by cases. -/
theorem vm_round_forms {k s : ℝ} (hs : 1 < s) (B : Set ℝ) (n : ℕ) (st : LoopSt) :
    (st.done = true → ∀ uv, vmG2 k s B n (loopBody k s st uv)
        = ENNReal.ofReal (1 / 2) * (B.indicator 1 (vmTheta st.w) + B.indicator 1 (-vmTheta st.w)) ∧
      vmK B (loopBody k s st uv) = B.indicator 1 ((SignType.sign uv.1 : ℝ) * vmTheta st.w) ∧
      vmD B (loopBody k s st uv)
        = ENNReal.ofReal (1 / 2) * (B.indicator 1 (vmTheta st.w) + B.indicator 1 (-vmTheta st.w))) ∧
    (st.done = false → ∀ uv, vmG2 k s B n (loopBody k s st uv)
        = (if accepts k s (candidate s uv.1) uv.2 then ENNReal.ofReal (1 / 2) *
            (B.indicator 1 (Real.arccos (candidate s uv.1)) + B.indicator 1 (-Real.arccos (candidate s uv.1)))
          else ENNReal.ofReal (1 - (1 - acceptProb k s) ^ n) * vmMass k B) ∧
      vmK B (loopBody k s st uv) = (if accepts k s (candidate s uv.1) uv.2
        then B.indicator 1 ((SignType.sign uv.1 : ℝ) * Real.arccos (candidate s uv.1)) else 0) ∧
      vmD B (loopBody k s st uv) = (if accepts k s (candidate s uv.1) uv.2 then ENNReal.ofReal (1 / 2) *
            (B.indicator 1 (Real.arccos (candidate s uv.1)) + B.indicator 1 (-Real.arccos (candidate s uv.1))) else 0)) := by
  refine ⟨fun h uv => ?_, fun h uv => ?_⟩
  · rw [loopBody_done uv h]
    exact ⟨if_pos rfl, if_pos rfl, if_pos rfl⟩
  · rw [loopBody_fresh k s st h uv]
    unfold vmG2 vmK vmD
    simp only [stdSample_theta, vmTheta_candidate hs, decide_eq_true_eq]
    exact ⟨trivial, trivial, trivial⟩

theorem vm_round_measurable {k s : ℝ} (hs : 1 < s) {B : Set ℝ} (hB : MeasurableSet B) (n : ℕ) (st : LoopSt) :
    (Measurable fun uv => vmG2 k s B n (loopBody k s st uv)) ∧ (Measurable fun uv => vmK B (loopBody k s st uv)) ∧
    Measurable fun uv => vmD B (loopBody k s st uv) := by
  classical
  obtain ⟨h1, h2⟩ := vm_round_forms (k := k) hs B n st
  have ha : Measurable fun uv : ℝ × ℝ => Real.arccos (candidate s uv.1) :=
    Real.continuous_arccos.measurable.comp ((candidate_measurable s).comp measurable_fst)
  rcases hd : st.done with _ | _
  · have h2 := h2 hd
    rw [funext fun uv => (h2 uv).1, funext fun uv => (h2 uv).2.1, funext fun uv => (h2 uv).2.2]
    have hA := accepts_measurable k s
    exact ⟨Measurable.ite hA (vm_half_measurable hB s) measurable_const,
      Measurable.ite hA (vm_sign_measurable hB ha) measurable_const,
      Measurable.ite hA (vm_half_measurable hB s) measurable_const⟩
  · have h1 := h1 hd
    rw [funext fun uv => (h1 uv).1, funext fun uv => (h1 uv).2.1, funext fun uv => (h1 uv).2.2]
    exact ⟨measurable_const, vm_sign_measurable hB measurable_const, measurable_const⟩

/-- One round of one entry. -/
theorem vm_round {k s : ℝ} (hk : 0 < k) (hs : 1 < s) {B : Set ℝ} (hB : MeasurableSet B) (n : ℕ) (st : LoopSt) :
    ∫⁻ uv, vmG2 k s B n (loopBody k s st uv) ∂roundNoise = vmG2 k s B (n + 1) st ∧
    ∫⁻ uv, vmK B (loopBody k s st uv) ∂roundNoise = ∫⁻ uv, vmD B (loopBody k s st uv) ∂roundNoise := by
  classical
  obtain ⟨h1, h2⟩ := vm_round_forms (k := k) hs B n st
  rcases hd : st.done with _ | _
  · have h2 := h2 hd
    simp only [(h2 _).1, (h2 _).2.1, (h2 _).2.2]
    have hA := accepts_measurable k s
    have ha0 := (acceptProb_pos hk hs).le
    have ha1 := acceptProb_le_one hk hs
    have split : ∀ (f : ℝ × ℝ → ℝ≥0∞) (c : ℝ≥0∞),
        ∫⁻ uv, (if accepts k s (candidate s uv.1) uv.2 then f uv else c) ∂roundNoise
          = ∫⁻ uv in {uv : ℝ × ℝ | accepts k s (candidate s uv.1) uv.2}, f uv ∂roundNoise
            + c * ENNReal.ofReal (1 - acceptProb k s) := by
      intro f c
      rw [← lintegral_add_compl _ hA]
      congr 1
      · exact setLIntegral_congr_fun hA fun uv huv => if_pos huv
      · rw [show ∫⁻ uv in {uv : ℝ × ℝ | accepts k s (candidate s uv.1) uv.2}ᶜ,
            (if accepts k s (candidate s uv.1) uv.2 then f uv else c) ∂roundNoise
            = ∫⁻ _ in {uv : ℝ × ℝ | accepts k s (candidate s uv.1) uv.2}ᶜ, c ∂roundNoise from
          setLIntegral_congr_fun hA.compl fun uv huv => if_neg huv, setLIntegral_const,
          prob_compl_eq_one_sub hA, accept_measure hk hs, ENNReal.ofReal_sub _ ha0, ENNReal.ofReal_one]
    rw [split, split, split, round_own hk hs hB, round_fresh hk hs hB]
    refine ⟨?_, rfl⟩
    unfold vmG2
    rw [if_neg (by simp [hd]), mul_right_comm, ← add_mul]
    congr 1
    rw [← ENNReal.ofReal_mul, ← ENNReal.ofReal_add ha0]
    · congr 1; ring
    · have : (1 - acceptProb k s) ^ n ≤ 1 := pow_le_one₀ (by linarith) (by linarith)
      exact mul_nonneg (by linarith) (by linarith)
    · have : (1 - acceptProb k s) ^ n ≤ 1 := pow_le_one₀ (by linarith) (by linarith)
      linarith
  · have h1 := h1 hd
    simp only [(h1 _).1, (h1 _).2.1, (h1 _).2.2]
    refine ⟨?_, ?_⟩
    · rw [lintegral_const, measure_univ, mul_one]; unfold vmG2; rw [if_pos hd]
    · rw [lintegral_const, measure_univ, mul_one,
        round_sign fun σ : SignType => B.indicator 1 ((σ : ℝ) * vmTheta st.w)]
      simp

theorem lintegral_pi_prod {m : ℕ} {E : Type} [MeasurableSpace E] (μ : Measure E) [IsProbabilityMeasure μ]
    (f : Fin m → E → ℝ≥0∞) (hf : ∀ i, Measurable (f i)) :
    ∫⁻ x : Fin m → E, ∏ i, f i (x i) ∂Measure.pi (fun _ => μ) = ∏ i, ∫⁻ x, f i x ∂μ := by
  rw [ProbabilityTheory.lintegral_prod_eq_prod_lintegral_of_indepFun Finset.univ (fun i (x : Fin m → E) => f i (x i))
    (ProbabilityTheory.iIndepFun_pi fun i => (hf i).aemeasurable) fun i => (hf i).comp (measurable_pi_apply i)]
  refine Finset.prod_congr rfl fun i _ => ?_
  exact (measurePreserving_eval (fun _ : Fin m => μ) i).lintegral_comp (hf i)

theorem vmD_le_one (B : Set ℝ) (st : LoopSt) : vmD B st ≤ 1 := by
  unfold vmD
  split_ifs
  · have h : ∀ x : ℝ, B.indicator (1 : ℝ → ℝ≥0∞) x ≤ 1 := fun x => indicator_le_self' (by simp) x
    calc _ ≤ ENNReal.ofReal (1 / 2) * (1 + 1) := by gcongr <;> exact h _
      _ = 1 := by
        rw [mul_add, mul_one, ← ENNReal.ofReal_add (by norm_num) (by norm_num)]; norm_num
  · exact zero_le_one

/-- Noise of one round for `m` entries. -/
noncomputable def arrayNoise (m : ℕ) : Measure (Fin m → ℝ × ℝ) := Measure.pi fun _ => roundNoise

instance (m : ℕ) : IsProbabilityMeasure (arrayNoise m) := by unfold arrayNoise; infer_instance

open Classical in
theorem array_loop_law {m : ℕ} {k s : Fin m → ℝ} (hk : ∀ i, 0 < k i) (hs : ∀ i, 1 < s i) {B : Fin m → Set ℝ}
    (hB : ∀ i, MeasurableSet (B i)) : ∀ (n : ℕ) (st : Fin m → LoopSt),
    roundsProb (arrayNoise m) n (fun ds => ∀ i, (whileLoop k s ds st i).done = true ∧ stdSample (whileLoop k s ds st i) ∈ B i)
      = if ∀ i, (st i).done = true then ∏ i, vmK (B i) (st i) else ∏ i, vmG2 (k i) (s i) (B i) n (st i) := by
  have hprodK : ∀ st : Fin m → LoopSt, (if ∀ i, (st i).done = true ∧ stdSample (st i) ∈ B i then (1 : ℝ≥0∞) else 0)
      = ∏ i, vmK (B i) (st i) := by
    intro st
    by_cases h : ∀ i, (st i).done = true ∧ stdSample (st i) ∈ B i
    · rw [if_pos h, Finset.prod_eq_one]
      intro i _
      unfold vmK; rw [if_pos (h i).1, indicator_of_mem (h i).2]; rfl
    · rw [if_neg h]
      push Not at h
      obtain ⟨i, hi⟩ := h
      symm
      refine Finset.prod_eq_zero (Finset.mem_univ i) ?_
      unfold vmK
      split_ifs with hd
      · exact indicator_of_notMem (hi hd) _
      · rfl
  intro n
  induction n with
  | zero =>
    intro st
    have e0 : roundsProb (arrayNoise m) 0
        (fun ds => ∀ i, (whileLoop k s ds st i).done = true ∧ stdSample (whileLoop k s ds st i) ∈ B i)
        = (if ∀ i, (st i).done = true ∧ stdSample (st i) ∈ B i then (1 : ℝ≥0∞) else 0) := by
      unfold roundsProb roundsExp whileLoop
      congr
    rw [e0, hprodK]
    split_ifs with h
    · rfl
    · push Not at h
      obtain ⟨i, hi⟩ := h
      rw [Finset.prod_eq_zero (Finset.mem_univ i), Finset.prod_eq_zero (Finset.mem_univ i)]
      · unfold vmG2; rw [if_neg hi]; simp
      · unfold vmK; rw [if_neg hi]
  | succ n ih =>
    intro st
    by_cases h : ∀ i, (st i).done = true
    · rw [if_pos h, ← hprodK st]
      have e : ∀ (ds : List (Fin m → ℝ × ℝ)), whileLoop k s ds st = st := by
        intro ds
        cases ds with
        | nil => rfl
        | cons uv rest =>
          unfold whileLoop
          rw [if_neg]
          rintro ⟨i, hi⟩
          rw [h i] at hi; cases hi
      unfold roundsProb
      simp only [e]
      exact roundsExp_const _ _ _
    · rw [if_neg h]
      have h' : ∃ i, (st i).done = false := by
        push Not at h
        obtain ⟨i, hi⟩ := h
        exact ⟨i, by simpa using hi⟩
      have step : ∀ uv (ds : List (Fin m → ℝ × ℝ)), whileLoop k s (uv :: ds) st
          = whileLoop k s ds (fun i => loopBody (k i) (s i) (st i) (uv i)) := by
        intro uv ds
        conv_lhs => unfold whileLoop
        rw [if_pos h']
      have e1 : roundsProb (arrayNoise m) (n + 1)
          (fun ds => ∀ i, (whileLoop k s ds st i).done = true ∧ stdSample (whileLoop k s ds st i) ∈ B i)
          = ∫⁻ uv, (if ∀ i, (loopBody (k i) (s i) (st i) (uv i)).done = true
              then ∏ i, vmK (B i) (loopBody (k i) (s i) (st i) (uv i))
              else ∏ i, vmG2 (k i) (s i) (B i) n (loopBody (k i) (s i) (st i) (uv i))) ∂arrayNoise m := by
        unfold roundsProb roundsExp
        simp only [step]
        refine lintegral_congr fun uv => ?_
        refine Eq.trans ?_ (ih fun i => loopBody (k i) (s i) (st i) (uv i))
        unfold roundsProb
        congr 1; funext ds; congr
      rw [e1]
      have hmG := fun i => (vm_round_measurable (k := k i) (hs i) (hB i) n (st i)).1
      have hmK := fun i => (vm_round_measurable (k := k i) (hs i) (hB i) n (st i)).2.1
      have hmD := fun i => (vm_round_measurable (k := k i) (hs i) (hB i) n (st i)).2.2
      have hprod : ∀ f : Fin m → ℝ × ℝ → ℝ≥0∞, (∀ i, Measurable (f i)) →
          Measurable fun uv : Fin m → ℝ × ℝ => ∏ i, f i (uv i) := fun f hf =>
        Finset.measurable_prod _ fun i _ => (hf i).comp (measurable_pi_apply i)
      -- pointwise: value + (product of D) = (product of G) + (product of K)
      have hpt : ∀ uv : Fin m → ℝ × ℝ, (if ∀ i, (loopBody (k i) (s i) (st i) (uv i)).done = true
              then ∏ i, vmK (B i) (loopBody (k i) (s i) (st i) (uv i))
              else ∏ i, vmG2 (k i) (s i) (B i) n (loopBody (k i) (s i) (st i) (uv i)))
            + ∏ i, vmD (B i) (loopBody (k i) (s i) (st i) (uv i))
          = ∏ i, vmG2 (k i) (s i) (B i) n (loopBody (k i) (s i) (st i) (uv i))
            + ∏ i, vmK (B i) (loopBody (k i) (s i) (st i) (uv i)) := by
        intro uv
        split_ifs with hd
        · rw [add_comm]
          congr 1
          refine Finset.prod_congr rfl fun i _ => ?_
          unfold vmD vmG2; rw [if_pos (hd i), if_pos (hd i)]
        · congr 1
          push Not at hd
          obtain ⟨i, hi⟩ := hd
          rw [Finset.prod_eq_zero (Finset.mem_univ i), Finset.prod_eq_zero (Finset.mem_univ i)]
          · unfold vmK; rw [if_neg hi]
          · unfold vmD; rw [if_neg hi]
      have hint := lintegral_congr (μ := arrayNoise m) hpt
      rw [lintegral_add_right _ (hprod _ hmD), lintegral_add_right _ (hprod _ hmK)] at hint
      have iG := lintegral_pi_prod roundNoise _ hmG
      have iK := lintegral_pi_prod roundNoise _ hmK
      have iD := lintegral_pi_prod roundNoise _ hmD
      have eKD : ∫⁻ uv, ∏ i, vmK (B i) (loopBody (k i) (s i) (st i) (uv i)) ∂arrayNoise m
          = ∫⁻ uv, ∏ i, vmD (B i) (loopBody (k i) (s i) (st i) (uv i)) ∂arrayNoise m := by
        refine iK.trans (Eq.trans ?_ iD.symm)
        exact Finset.prod_congr rfl fun i _ => (vm_round (hk i) (hs i) (hB i) n (st i)).2
      rw [eKD] at hint
      have hfin : ∫⁻ uv, ∏ i, vmD (B i) (loopBody (k i) (s i) (st i) (uv i)) ∂arrayNoise m ≠ ⊤ := by
        refine ne_top_of_le_ne_top ENNReal.one_ne_top ?_
        calc _ ≤ ∫⁻ _, (1 : ℝ≥0∞) ∂arrayNoise m := lintegral_mono fun uv => Finset.prod_le_one' fun i _ => vmD_le_one _ _
          _ = 1 := by simp
      rw [ENNReal.add_left_inj hfin] at hint
      rw [hint]
      refine iG.trans ?_
      exact Finset.prod_congr rfl fun i _ => (vm_round (hk i) (hs i) (hB i) n (st i)).1

/-- **Joint law of an array of von Mises samples.**  All entries go through one shared loop of at most `n` rounds (`n = 100` in the
code).  The probability that every entry is accepted and that every sample lies in its set is the product over the entries of
(probability of acceptance within `n` rounds) · (mass of the set under the entry's own `prob`): given that the loop ends by
acceptance, the samples are independent and each has exactly the density `prob` of its own parameters - although the loop goes on
drawing new signs for accepted entries while others are still being rejected. -/
theorem C59_von_mises {m : ℕ} (d : Fin m → VonMises) (hk : ∀ i, 0 < (d i).concentration) (cutoff : ℝ) (h0 : 0 ≤ cutoff)
    (h1 : cutoff < 1) : ∃ a : Fin m → ℝ, (∀ i, 0 < a i ∧ a i ≤ 1) ∧
      ∀ (n : ℕ) (B : Fin m → Set ℝ), (∀ i, MeasurableSet (B i)) →
      roundsProb (Measure.pi fun _ : Fin m => roundNoise) n (fun draws =>
        (∀ i, (whileLoop (fun i => (d i).concentration) (fun i => proposalS cutoff (d i).concentration) draws
          (fun _ => initSt) i).done = true) ∧ ∀ i, sampleN cutoff d draws i ∈ B i)
      = (∏ i, ENNReal.ofReal (1 - (1 - a i) ^ n)) * ∏ i, ENNReal.ofReal (∫ x in turn ∩ B i, (d i).prob x) := by
  have hs : ∀ i, 1 < proposalS cutoff (d i).concentration := fun i => C40_proposal_valid cutoff _ h0 h1
  refine ⟨fun i => acceptProb (d i).concentration (proposalS cutoff (d i).concentration),
    fun i => ⟨acceptProb_pos (hk i) (hs i), acceptProb_le_one (hk i) (hs i)⟩, fun n B hB => ?_⟩
  have hl := array_loop_law hk hs (B := fun i => {θ | convertAngle (θ + (d i).loc) ∈ B i})
    (fun i => convertAngle_measurable.comp (measurable_id.add_const (d i).loc) (hB i)) n (fun _ => initSt)
  have ev : (fun draws : List (Fin m → ℝ × ℝ) =>
        (∀ i, (whileLoop (fun i => (d i).concentration) (fun i => proposalS cutoff (d i).concentration) draws
          (fun _ => initSt) i).done = true) ∧ ∀ i, sampleN cutoff d draws i ∈ B i)
      = fun ds => ∀ i, (whileLoop (fun i => (d i).concentration) (fun i => proposalS cutoff (d i).concentration) ds
          (fun _ => initSt) i).done = true ∧ stdSample (whileLoop (fun i => (d i).concentration)
            (fun i => proposalS cutoff (d i).concentration) ds (fun _ => initSt) i) ∈ {θ | convertAngle (θ + (d i).loc) ∈ B i} := by
    funext ds
    exact propext ⟨fun h i => ⟨h.1 i, h.2 i⟩, fun h => ⟨fun i => (h i).1, fun i => (h i).2⟩⟩
  rw [ev]
  refine hl.trans ?_
  rw [← Finset.prod_mul_distrib]
  split_ifs with hd
  · cases m with
    | zero => simp
    | succ m => exact absurd (hd 0) (by simp [initSt])
  · refine Finset.prod_congr rfl fun i _ => ?_
    unfold vmG2
    rw [if_neg (by simp [initSt]), vm_rotate _ _ (hB i), show (d i).prob = vmPdf (d i) from funext (vm_prob_eq (d i) (hk i).le)]

example : ∃ (d : Fin 2 → VonMises) (cutoff : ℝ), (∀ i, 0 < (d i).concentration) ∧ 0 ≤ cutoff ∧ cutoff < 1 ∧ (d 0).loc ≠ (d 1).loc :=
  ⟨![⟨10, 3⟩, ⟨0, 1 / 10⟩], 2e-2, by intro i; fin_cases i <;> norm_num, by norm_num, by norm_num, by norm_num⟩

end Distrax
