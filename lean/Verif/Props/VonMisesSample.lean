import Verif.Lemmas.VonMisesSample
import Verif.Props.VonMises
import Mathlib.MeasureTheory.Function.Floor

/-! # C40: the law of the von Mises sampler -/

namespace Distrax

open MeasureTheory Real Set VonMises Spec
open scoped ENNReal

/-! ### One entry of the array -/

open Classical in
/-- The rejection loop as one entry sees it: it goes on while the entry itself is not done, or while the other entries
need another `m` rounds. -/
noncomputable def entryLoop (k s : ℝ) : ℕ → List (ℝ × ℝ) → LoopSt → LoopSt
  | _, [], st => st
  | m, uv :: rest, st => if st.done = false ∨ 0 < m then entryLoop k s (m - 1) rest (loopBody k s st uv) else st

open Classical in
/-- How many rounds the entries other than `i` need. -/
noncomputable def othersRounds {n : ℕ} (k s : Fin n → ℝ) (i : Fin n) : List (Fin n → ℝ × ℝ) → (Fin n → LoopSt) → ℕ
  | [], _ => 0
  | uv :: rest, st =>
    if ∃ j, j ≠ i ∧ (st j).done = false then
      othersRounds k s i rest (fun j => loopBody (k j) (s j) (st j) (uv j)) + 1
    else 0

theorem loopBody_done {k s : ℝ} {st : LoopSt} (uv : ℝ × ℝ) (h : st.done = true) :
    loopBody k s st uv = ⟨true, uv.1, st.w⟩ := by
  unfold loopBody; simp [h]

theorem othersRounds_done {n : ℕ} (k s : Fin n → ℝ) (i : Fin n) (draws : List (Fin n → ℝ × ℝ)) (st : Fin n → LoopSt)
    (h : ∀ j, j ≠ i → (st j).done = true) : othersRounds k s i draws st = 0 := by
  cases draws with
  | nil => rfl
  | cons uv rest =>
    unfold othersRounds
    rw [if_neg]
    rintro ⟨j, hj, hd⟩
    rw [h j hj] at hd; cases hd

/-- Each entry of the array follows its own loop, prolonged by a number of rounds that depends on the other entries
only. -/
theorem C40_array_entry {n : ℕ} (k s : Fin n → ℝ) (i : Fin n) : ∀ (draws : List (Fin n → ℝ × ℝ)) (st : Fin n → LoopSt),
    whileLoop k s draws st i = entryLoop (k i) (s i) (othersRounds k s i draws st) (draws.map (· i)) (st i)
  | [], st => rfl
  | uv :: rest, st => by
    have ih := C40_array_entry k s i rest (fun j => loopBody (k j) (s j) (st j) (uv j))
    rw [List.map_cons]
    unfold whileLoop
    by_cases ho : ∃ j, j ≠ i ∧ (st j).done = false
    · have ha : ∃ j, (st j).done = false := ⟨ho.choose, ho.choose_spec.2⟩
      rw [if_pos ha, ih]
      have e1 : othersRounds k s i (uv :: rest) st
          = othersRounds k s i rest (fun j => loopBody (k j) (s j) (st j) (uv j)) + 1 := by
        conv_lhs => unfold othersRounds
        rw [if_pos ho]
      rw [e1]
      conv_rhs => unfold entryLoop
      rw [if_pos (Or.inr (Nat.succ_pos _)), Nat.add_sub_cancel]
    · have hod : ∀ j, j ≠ i → (st j).done = true := by
        intro j hj
        by_contra hd
        exact ho ⟨j, hj, by simpa using hd⟩
      rw [othersRounds_done k s i _ st hod]
      by_cases hi : (st i).done = false
      · rw [if_pos ⟨i, hi⟩, ih, othersRounds_done]
        · conv_rhs => unfold entryLoop
          rw [if_pos (Or.inl hi)]
        · intro j hj
          simp only [loopBody_done (uv j) (hod j hj)]
      · rw [if_neg]
        · unfold entryLoop; rw [if_neg]
          simp [hi]
        · rintro ⟨j, hj⟩
          by_cases e : j = i
          · rw [e] at hj; exact hi hj
          · rw [hod j e] at hj; cases hj

/-- … and really only on the others: changing the draws of entry `i` does not change the prolongation. -/
theorem C40_others_independent {n : ℕ} (k s : Fin n → ℝ) (i : Fin n) : ∀ (draws draws' : List (Fin n → ℝ × ℝ))
    (st st' : Fin n → LoopSt), (∀ j, j ≠ i → st j = st' j) →
    List.Forall₂ (fun uv uv' => ∀ j, j ≠ i → uv j = uv' j) draws draws' →
    othersRounds k s i draws st = othersRounds k s i draws' st'
  | [], [], _, _, _, _ => rfl
  | uv :: rest, uv' :: rest', st, st', hst, hd => by
    cases hd with
    | cons h1 h2 =>
      have hiff : (∃ j, j ≠ i ∧ (st j).done = false) ↔ ∃ j, j ≠ i ∧ (st' j).done = false := by
        constructor <;> rintro ⟨j, hj, hdn⟩
        · exact ⟨j, hj, by rw [← hst j hj]; exact hdn⟩
        · exact ⟨j, hj, by rw [hst j hj]; exact hdn⟩
      unfold othersRounds
      rw [C40_others_independent k s i rest rest' (fun j => loopBody (k j) (s j) (st j) (uv j))
        (fun j => loopBody (k j) (s j) (st' j) (uv' j)) (fun j hj => by rw [hst j hj, h1 j hj]) h2]
      simp only [hiff]

/-- Once accepted, the candidate is kept whatever comes later. -/
theorem entryLoop_keep (k s : ℝ) : ∀ (m : ℕ) (draws : List (ℝ × ℝ)) (st : LoopSt), st.done = true →
    (entryLoop k s m draws st).done = true ∧ (entryLoop k s m draws st).w = st.w
  | _, [], st, h => ⟨h, rfl⟩
  | m, uv :: rest, st, h => by
    unfold entryLoop
    split_ifs
    · have := entryLoop_keep k s (m - 1) rest (loopBody k s st uv) (by rw [loopBody_done uv h])
      rw [loopBody_done uv h] at this ⊢
      exact this
    · exact ⟨h, rfl⟩

/-! ### Expectations over the rounds -/

theorem roundsExp_const {E : Type} [MeasurableSpace E] (μ : Measure E) [IsProbabilityMeasure μ] (c : ℝ≥0∞) :
    ∀ n, roundsExp μ n (fun _ => c) = c
  | 0 => rfl
  | n + 1 => by
    unfold roundsExp
    simp only [roundsExp_const μ c n, lintegral_const, measure_univ, mul_one]

/-- The sign of a fresh draw is a fair coin. -/
theorem round_sign (φ : SignType → ℝ≥0∞) :
    ∫⁻ uv, φ (SignType.sign uv.1) ∂roundNoise = ENNReal.ofReal (1 / 2) * (φ 1 + φ (-1)) := by
  have hm : Measurable fun u : ℝ => φ (SignType.sign u) := by
    have e : (fun u : ℝ => φ (SignType.sign u)) = fun u => if 0 < u then φ 1 else if u < 0 then φ (-1) else φ 0 := by
      funext u
      split_ifs with h1 h2
      · rw [sign_pos h1]
      · rw [sign_neg h2]
      · rw [show u = 0 by linarith, sign_zero]
    rw [e]
    exact Measurable.ite measurableSet_Ioi measurable_const
      (Measurable.ite measurableSet_Iio measurable_const measurable_const)
  unfold roundNoise
  have hm2 : Measurable fun uv : ℝ × ℝ => φ (SignType.sign uv.1) := hm.comp measurable_fst
  rw [lintegral_prod _ hm2.aemeasurable]
  simp only [ lintegral_const, measure_univ, mul_one]
  rw [lintegral_smul_measure, smul_eq_mul, lintegral_two_halves _ one_pos]
  congr 2
  · rw [setLIntegral_congr_fun (g := fun _ => φ 1) measurableSet_Ioo (fun u hu => by simp only [sign_pos hu.1])]
    simp
  · rw [setLIntegral_congr_fun (g := fun _ => φ (-1)) measurableSet_Ioo
      (fun u hu => by simp only [sign_neg (neg_neg_of_pos hu.1)])]
    simp

theorem accepted_sign (k s : ℝ) (φ : SignType → ℝ≥0∞) : ∀ (n m : ℕ) (u w : ℝ),
    roundsExp roundNoise n (fun ds => φ (SignType.sign (entryLoop k s m ds ⟨true, u, w⟩).u))
      = if n = 0 ∨ m = 0 then φ (SignType.sign u) else ENNReal.ofReal (1 / 2) * (φ 1 + φ (-1))
  | 0, m, u, w => by simp [roundsExp, entryLoop]
  | n + 1, m, u, w => by
    unfold roundsExp
    cases m with
    | zero =>
      have : ∀ (uv : ℝ × ℝ) ds, entryLoop k s 0 (uv :: ds) ⟨true, u, w⟩ = ⟨true, u, w⟩ := by
        intro uv ds; unfold entryLoop; simp
      simp only [this, roundsExp_const, lintegral_const, measure_univ, mul_one]
      simp
    | succ m =>
      have : ∀ (uv : ℝ × ℝ) ds, entryLoop k s (m + 1) (uv :: ds) ⟨true, u, w⟩ = entryLoop k s m ds ⟨true, uv.1, w⟩ := by
        intro uv ds
        conv_lhs => unfold entryLoop
        rw [if_pos (Or.inr (Nat.succ_pos _)), Nat.add_sub_cancel, loopBody_done uv rfl]
      simp only [this, accepted_sign k s φ n m]
      by_cases h : n = 0 ∨ m = 0
      · simp only [if_pos h, round_sign]; simp
      · simp only [if_neg h, lintegral_const, measure_univ, mul_one]; simp

/-! ### The proposal parameter -/

/-- The proposal parameter is above one, for every concentration and every cutoff used (`0.18`, `0.02`, `1.2e-4`). -/
theorem C40_proposal_valid (cutoff k : ℝ) (h0 : 0 ≤ cutoff) (h1 : cutoff < 1) : 1 < proposalS cutoff k := by
  unfold proposalS
  simp only
  by_cases h : cutoff < k
  · rw [if_pos h, if_pos h]
    have hk : 0 < k := lt_of_le_of_lt h0 h
    have hq : 1 < Real.sqrt (1 + 4 * k ^ 2) := by
      rw [Real.lt_sqrt (by norm_num)]; nlinarith
    have hq2 : Real.sqrt (1 + 4 * k ^ 2) < 1 + 2 * k := by
      rw [Real.sqrt_lt' (by linarith)]; nlinarith
    set q := Real.sqrt (1 + 4 * k ^ 2) with hqd
    have hr1 : Real.sqrt (2 * (1 + q)) < 1 + q := by
      rw [Real.sqrt_lt' (by linarith)]; nlinarith
    have hr2 : 2 < Real.sqrt (2 * (1 + q)) := by
      rw [Real.lt_sqrt (by norm_num)]; nlinarith
    set r := Real.sqrt (2 * (1 + q)) with hrd
    have hrho0 : 0 < (1 + q - r) / (2 * k) := div_pos (by linarith) (by linarith)
    have hrho1 : (1 + q - r) / (2 * k) < 1 := by rw [div_lt_one (by linarith)]; linarith
    set rho := (1 + q - r) / (2 * k) with hrh
    rw [lt_div_iff₀ (by linarith)]
    nlinarith [sq_pos_of_pos (sub_pos.mpr hrho1)]
  · rw [if_neg h]
    have hm : 0 < max k 1e-7 := lt_max_of_lt_right (by norm_num)
    rw [lt_div_iff₀ hm, one_mul]
    exact max_lt (by linarith) (by norm_num)

example : (1 : ℝ) < proposalS 2e-2 3 ∧ (1 : ℝ) < proposalS 2e-2 0 :=
  ⟨C40_proposal_valid _ _ (by norm_num) (by norm_num), C40_proposal_valid _ _ (by norm_num) (by norm_num)⟩

/-! ### The law -/

/-- Probability that one round accepts. -/
noncomputable def acceptProb (k s : ℝ) : ℝ := k * Real.sqrt (s ^ 2 - 1) * Real.exp (1 - k * s) * bessel0 k

theorem acceptProb_pos {k s : ℝ} (hk : 0 < k) (hs : 1 < s) : 0 < acceptProb k s := by
  have := Real.sqrt_pos.mpr (sq_sub_one_pos hs)
  have := bessel0_pos k
  unfold acceptProb; positivity

/-- Mass of `B` under the standard von Mises law. -/
noncomputable def vmMass (k : ℝ) (B : Set ℝ) : ℝ≥0∞ :=
  ∫⁻ θ in Ioo (-π) π, ENNReal.ofReal (vmPdf ⟨0, k⟩ θ) * B.indicator 1 θ

theorem vmMass_halves {k s : ℝ} (hk : 0 < k) {B : Set ℝ} (hB : MeasurableSet B) :
    ENNReal.ofReal (k * Real.sqrt (s ^ 2 - 1) * Real.exp (1 - k * s) / (2 * π)) *
        (∫⁻ θ in Ioo 0 π, ENNReal.ofReal (Real.exp (k * Real.cos θ)) * (B.indicator 1 θ + B.indicator 1 (-θ)))
      = ENNReal.ofReal (acceptProb k s) * vmMass k B := by
  have hb := bessel0_pos k
  have hpi := Real.pi_pos
  have hpdf : ∀ θ, ENNReal.ofReal (Real.exp (k * Real.cos θ))
      = ENNReal.ofReal (2 * π * bessel0 k) * ENNReal.ofReal (vmPdf ⟨0, k⟩ θ) := by
    intro θ
    rw [← ENNReal.ofReal_mul (by positivity)]
    congr 1; unfold vmPdf; simp only [sub_zero]; field_simp
  have e : ∫⁻ θ in Ioo 0 π, ENNReal.ofReal (Real.exp (k * Real.cos θ)) * (B.indicator 1 θ + B.indicator 1 (-θ))
      = ENNReal.ofReal (2 * π * bessel0 k) * vmMass k B := by
    unfold vmMass
    rw [lintegral_two_halves _ hpi, ← lintegral_add_left']
    · rw [← lintegral_const_mul' _ _ ENNReal.ofReal_ne_top]
      refine lintegral_congr fun θ => ?_
      rw [hpdf, show vmPdf ⟨0, k⟩ (-θ) = vmPdf ⟨0, k⟩ θ by unfold vmPdf; simp]
      ring
    · have h1 : Measurable fun θ => ENNReal.ofReal (vmPdf ⟨0, k⟩ θ) := (vmPdf_cont ⟨0, k⟩).measurable.ennreal_ofReal
      exact (h1.mul (measurable_one.indicator hB)).aemeasurable
  rw [e, ← mul_assoc, ← ENNReal.ofReal_mul (by positivity)]
  congr 2
  unfold acceptProb; field_simp

theorem vmMass_univ (k : ℝ) : vmMass k univ = 1 := by
  unfold vmMass
  simp only [indicator_univ, Pi.one_apply, mul_one]
  rw [setLIntegral_congr Ioo_ae_eq_Ioc, ← ofReal_integral_eq_lintegral_ofReal (vmPdf_cont ⟨0, k⟩).integrableOn_Ioc
    (ae_of_all _ fun x => (vmPdf_pos _ x).le), (vmPdf_density ⟨0, k⟩).one, ENNReal.ofReal_one]

/-- The accepted mass of one round, in terms of the von Mises law; the sign may be the round's own or a fresh one. -/
theorem round_own {k s : ℝ} (hk : 0 < k) (hs : 1 < s) {B : Set ℝ} (hB : MeasurableSet B) :
    ∫⁻ uv in {uv : ℝ × ℝ | accepts k s (candidate s uv.1) uv.2},
      B.indicator 1 ((SignType.sign uv.1 : ℝ) * Real.arccos (candidate s uv.1)) ∂roundNoise
      = ENNReal.ofReal (acceptProb k s) * vmMass k B := by
  rw [← vmMass_halves hk hB]
  have h := round_accept hk hs (fun σ θ => B.indicator 1 ((σ : ℝ) * θ)) (fun σ => by
    exact (measurable_one.indicator hB).comp (measurable_const.mul measurable_id))
  simp only [SignType.coe_one, one_mul, SignType.coe_neg, neg_mul] at h
  exact h

theorem round_fresh {k s : ℝ} (hk : 0 < k) (hs : 1 < s) {B : Set ℝ} (hB : MeasurableSet B) :
    ∫⁻ uv in {uv : ℝ × ℝ | accepts k s (candidate s uv.1) uv.2}, ENNReal.ofReal (1 / 2) *
      (B.indicator 1 (Real.arccos (candidate s uv.1)) + B.indicator 1 (-Real.arccos (candidate s uv.1))) ∂roundNoise
      = ENNReal.ofReal (acceptProb k s) * vmMass k B := by
  rw [← vmMass_halves hk hB]
  have hmi : Measurable (B.indicator (1 : ℝ → ℝ≥0∞)) := measurable_one.indicator hB
  have h := round_accept hk hs (fun σ θ => ENNReal.ofReal (1 / 2) * (B.indicator 1 θ + B.indicator 1 (-θ))) (fun σ => by
    exact (hmi.add (hmi.comp measurable_neg)).const_mul _)
  rw [h]
  congr 1
  refine lintegral_congr fun θ => ?_
  have h2 : ENNReal.ofReal (1 / 2) + ENNReal.ofReal (1 / 2) = 1 := by
    rw [← ENNReal.ofReal_add (by norm_num) (by norm_num)]; norm_num
  rw [← add_mul, h2, one_mul]

theorem accept_measure {k s : ℝ} (hk : 0 < k) (hs : 1 < s) :
    roundNoise {uv : ℝ × ℝ | accepts k s (candidate s uv.1) uv.2} = ENNReal.ofReal (acceptProb k s) := by
  have h := round_own hk hs MeasurableSet.univ
  rw [vmMass_univ, mul_one] at h
  simpa using h

theorem acceptProb_le_one {k s : ℝ} (hk : 0 < k) (hs : 1 < s) : acceptProb k s ≤ 1 := by
  have h := accept_measure hk hs
  have h2 : ENNReal.ofReal (acceptProb k s) ≤ 1 := by rw [← h]; exact prob_le_one
  rwa [ENNReal.ofReal_le_one] at h2

theorem stdSample_eq {s : ℝ} (hs : 1 < s) (b : Bool) (u v : ℝ) :
    stdSample ⟨b, u, candidate s v⟩ = SignType.sign u * Real.arccos (candidate s v) := by
  have h := candidate_range hs v
  unfold stdSample
  simp only
  rw [max_eq_left h.1, min_eq_left h.2]

open Classical in
theorem loop_law {k s : ℝ} (hk : 0 < k) (hs : 1 < s) {B : Set ℝ} (hB : MeasurableSet B) : ∀ (n m : ℕ) (u w : ℝ),
    roundsProb roundNoise n (fun ds => (entryLoop k s m ds ⟨false, u, w⟩).done = true ∧
        stdSample (entryLoop k s m ds ⟨false, u, w⟩) ∈ B)
      = ENNReal.ofReal (1 - (1 - acceptProb k s) ^ n) * vmMass k B
  | 0, m, u, w => by simp [roundsProb, roundsExp, entryLoop]
  | n + 1, m, u, w => by
    have ih := loop_law hk hs hB n
    have hA := accepts_measurable k s
    have ha0 := (acceptProb_pos hk hs).le
    have ha1 := acceptProb_le_one hk hs
    have step : ∀ (uv : ℝ × ℝ) ds, entryLoop k s m (uv :: ds) ⟨false, u, w⟩
        = entryLoop k s (m - 1) ds ⟨decide (accepts k s (candidate s uv.1) uv.2), uv.1, candidate s uv.1⟩ := by
      intro uv ds
      conv_lhs => unfold entryLoop
      rw [if_pos (Or.inl rfl)]
      unfold loopBody; simp
    unfold roundsProb roundsExp
    simp only [step]
    rw [← lintegral_add_compl _ hA]
    have hrej : ∫⁻ uv in {uv : ℝ × ℝ | accepts k s (candidate s uv.1) uv.2}ᶜ, roundsExp roundNoise n (fun ds =>
        if (entryLoop k s (m - 1) ds ⟨decide (accepts k s (candidate s uv.1) uv.2), uv.1, candidate s uv.1⟩).done = true ∧
          stdSample (entryLoop k s (m - 1) ds ⟨decide (accepts k s (candidate s uv.1) uv.2), uv.1, candidate s uv.1⟩) ∈ B
        then 1 else 0) ∂roundNoise
        = ENNReal.ofReal (1 - acceptProb k s) * (ENNReal.ofReal (1 - (1 - acceptProb k s) ^ n) * vmMass k B) := by
      rw [setLIntegral_congr_fun (g := fun _ => ENNReal.ofReal (1 - (1 - acceptProb k s) ^ n) * vmMass k B) hA.compl]
      · rw [setLIntegral_const, prob_compl_eq_one_sub hA, accept_measure hk hs, mul_comm,
          ENNReal.ofReal_sub _ ha0, ENNReal.ofReal_one]
      · intro uv huv
        have hn : decide (accepts k s (candidate s uv.1) uv.2) = false := decide_eq_false huv
        simp only [hn]
        rw [← ih (m - 1) uv.1 (candidate s uv.1)]
        unfold roundsProb
        congr 1; funext ds; congr
    have hacc : ∫⁻ uv in {uv : ℝ × ℝ | accepts k s (candidate s uv.1) uv.2}, roundsExp roundNoise n (fun ds =>
        if (entryLoop k s (m - 1) ds ⟨decide (accepts k s (candidate s uv.1) uv.2), uv.1, candidate s uv.1⟩).done = true ∧
          stdSample (entryLoop k s (m - 1) ds ⟨decide (accepts k s (candidate s uv.1) uv.2), uv.1, candidate s uv.1⟩) ∈ B
        then 1 else 0) ∂roundNoise = ENNReal.ofReal (acceptProb k s) * vmMass k B := by
      have hval : ∀ uv ∈ {uv : ℝ × ℝ | accepts k s (candidate s uv.1) uv.2}, roundsExp roundNoise n (fun ds =>
          if (entryLoop k s (m - 1) ds ⟨decide (accepts k s (candidate s uv.1) uv.2), uv.1, candidate s uv.1⟩).done = true ∧
          stdSample (entryLoop k s (m - 1) ds ⟨decide (accepts k s (candidate s uv.1) uv.2), uv.1, candidate s uv.1⟩) ∈ B
          then 1 else 0) = if n = 0 ∨ m - 1 = 0 then B.indicator 1 ((SignType.sign uv.1 : ℝ) * Real.arccos (candidate s uv.1))
            else ENNReal.ofReal (1 / 2) *
      (B.indicator 1 (Real.arccos (candidate s uv.1)) + B.indicator 1 (-Real.arccos (candidate s uv.1))) := by
        intro uv huv
        have hn : decide (accepts k s (candidate s uv.1) uv.2) = true := decide_eq_true huv
        have hfn : ∀ ds, (if (entryLoop k s (m - 1) ds ⟨true, uv.1, candidate s uv.1⟩).done = true ∧
            stdSample (entryLoop k s (m - 1) ds ⟨true, uv.1, candidate s uv.1⟩) ∈ B then (1 : ℝ≥0∞) else 0)
            = (fun σ : SignType => B.indicator 1 ((σ : ℝ) * Real.arccos (candidate s uv.1)))
              (SignType.sign (entryLoop k s (m - 1) ds ⟨true, uv.1, candidate s uv.1⟩).u) := by
          intro ds
          have hkeep := entryLoop_keep k s (m - 1) ds ⟨true, uv.1, candidate s uv.1⟩ rfl
          generalize entryLoop k s (m - 1) ds ⟨true, uv.1, candidate s uv.1⟩ = st at hkeep ⊢
          obtain ⟨b, u', w'⟩ := st
          simp only at hkeep
          obtain ⟨rfl, rfl⟩ := hkeep
          rw [stdSample_eq hs]
          simp only [true_and]
          by_cases hm : (SignType.sign u' : ℝ) * Real.arccos (candidate s uv.1) ∈ B
          · rw [if_pos hm, indicator_of_mem hm]; rfl
          · rw [if_neg hm, indicator_of_notMem hm]
        simp only [hn, hfn]
        rw [accepted_sign k s (fun σ : SignType => B.indicator 1 ((σ : ℝ) * Real.arccos (candidate s uv.1))) n (m - 1)]
        simp only [SignType.coe_one, one_mul, SignType.coe_neg, neg_mul]
      rw [setLIntegral_congr_fun hA hval]
      by_cases h : n = 0 ∨ m - 1 = 0
      · simp only [if_pos h]; exact round_own hk hs hB
      · simp only [if_neg h]; exact round_fresh hk hs hB
    rw [hacc, hrej, ← mul_assoc, ← add_mul, ← ENNReal.ofReal_mul (by linarith), ← ENNReal.ofReal_add ha0]
    · congr 2; ring
    · have : (1 - acceptProb k s) ^ n ≤ 1 := pow_le_one₀ (by linarith) (by linarith)
      exact mul_nonneg (by linarith) (by linarith)

/-! ### Rotation to the location -/

theorem rint_measurable : Measurable rint := by
  have hf : Measurable fun x : ℝ => x - ⌊x⌋ := measurable_fract
  have hfl : Measurable fun x : ℝ => ⌊x⌋ := Int.measurable_floor
  unfold rint
  refine Measurable.ite (measurableSet_lt hf measurable_const) hfl
    (Measurable.ite (measurableSet_lt measurable_const hf) (hfl.add_const 1)
      (Measurable.ite (hfl (t := {n : ℤ | Even n}) trivial) hfl (hfl.add_const 1)))

theorem convertAngle_measurable : Measurable convertAngle := by
  have h : Measurable fun x : ℝ => ((rint (x / (2 * π)) : ℤ) : ℝ) :=
    (measurable_from_top (f := fun n : ℤ => (n : ℝ))).comp (rint_measurable.comp (measurable_id.div_const _))
  unfold convertAngle
  simp only
  fun_prop

/-- Away from the ties the conversion is periodic. -/
theorem convertAngle_add (x : ℝ) : convertAngle (x + 2 * π) = convertAngle x ∨
    ((convertAngle (x + 2 * π) = π ∨ convertAngle (x + 2 * π) = -π) ∧ (convertAngle x = π ∨ convertAngle x = -π)) := by
  have hpi := Real.pi_pos
  have e : (x + 2 * π) / (2 * π) = x / (2 * π) + 1 := by field_simp
  unfold convertAngle
  simp only
  rw [e]
  rcases rint_cases (x / (2 * π)) with hl | ⟨n, hn⟩
  · left
    have : rint (x / (2 * π) + 1) = rint (x / (2 * π)) + 1 := by
      apply rint_unique; push_cast; rwa [add_sub_add_right_eq_sub]
    rw [this]; push_cast; ring
  · right
    have hx : x = 2 * π * n + π := by field_simp at hn; linarith
    rw [hn, show (n : ℝ) + 1 / 2 + 1 = ((n + 1 : ℤ) : ℝ) + 1 / 2 by push_cast; ring, rint_tie, rint_tie, hx]
    constructor
    · split_ifs
      · left; push_cast; ring
      · right; push_cast; ring
    · split_ifs
      · left; ring
      · right; push_cast; ring

theorem convertAngle_tie_null : volume {x : ℝ | convertAngle x = π ∨ convertAngle x = -π} = 0 := by
  refine Set.Countable.measure_zero ?_ _
  refine Set.Countable.mono (s₂ := range fun k : ℤ => π + 2 * π * k) ?_ (Set.countable_range _)
  intro x hx
  obtain ⟨k, hk⟩ := (C40_angle_partial x).1
  rcases hx with h | h
  · exact ⟨-k, by simp only; push_cast; linarith⟩
  · exact ⟨-k - 1, by simp only; push_cast; linarith⟩

/-- Rotating the standard law and converting gives the law with location `loc`. -/
theorem vm_rotate (loc k : ℝ) {B : Set ℝ} (hB : MeasurableSet B) :
    vmMass k {θ | convertAngle (θ + loc) ∈ B} = ENNReal.ofReal (∫ x in turn ∩ B, vmPdf ⟨loc, k⟩ x) := by
  have hpi := Real.pi_pos
  set B0 : Set ℝ := B \ {π, -π} with hB0
  have hB0m : MeasurableSet B0 := hB.diff ((measurableSet_singleton _).insert _)
  set f : ℝ → ℝ := fun x => vmPdf ⟨loc, k⟩ x * B0.indicator 1 (convertAngle x) with hf
  have hper : Function.Periodic f (2 * π) := by
    intro x
    simp only [hf, (vmPdf_periodic ⟨loc, k⟩) x]
    congr 1
    rcases convertAngle_add x with h | ⟨h1, h2⟩
    · rw [h]
    · have n1 : convertAngle (x + 2 * π) ∉ B0 := by
        rw [hB0]; rintro ⟨_, h⟩; exact h h1
      have n2 : convertAngle x ∉ B0 := by
        rw [hB0]; rintro ⟨_, h⟩; exact h h2
      rw [indicator_of_notMem n1, indicator_of_notMem n2]
  have hfm : Measurable f :=
    (vmPdf_cont ⟨loc, k⟩).measurable.mul ((measurable_one.indicator hB0m).comp convertAngle_measurable)
  have hfb : ∀ x, 0 ≤ f x ∧ f x ≤ vmPdf ⟨loc, k⟩ x := by
    intro x
    have := vmPdf_pos ⟨loc, k⟩ x
    simp only [hf]
    by_cases h : convertAngle x ∈ B0
    · rw [indicator_of_mem h]; simp [this.le]
    · rw [indicator_of_notMem h]; simp [this.le]
  have hshift := circle_shift hper (-loc)
  have hpdf : ∀ θ, vmPdf ⟨0, k⟩ θ = vmPdf ⟨loc, k⟩ (θ + loc) := by
    intro θ; unfold vmPdf; simp
  -- left side
  have hl : vmMass k {θ | convertAngle (θ + loc) ∈ B} = ENNReal.ofReal (∫ x in (-π)..π, f (x - -loc)) := by
    rw [intervalIntegral.integral_of_le (by linarith), ofReal_integral_eq_lintegral_ofReal]
    · unfold vmMass
      rw [setLIntegral_congr Ioo_ae_eq_Ioc]
      apply lintegral_congr_ae
      apply ae_restrict_of_ae
      have hnull : ∀ᵐ θ : ℝ, ¬ (convertAngle (θ + loc) = π ∨ convertAngle (θ + loc) = -π) := by
        have h := convertAngle_tie_null
        have h2 : volume ((fun θ : ℝ => θ + loc) ⁻¹' {x : ℝ | convertAngle x = π ∨ convertAngle x = -π}) = 0 := by
          rw [measure_preimage_add_right, h]
        rw [ae_iff]
        simp only [not_not]
        exact h2
      filter_upwards [hnull] with θ hθ
      simp only [hf, sub_neg_eq_add]
      rw [← hpdf]
      by_cases hb : convertAngle (θ + loc) ∈ B
      · have hb0 : convertAngle (θ + loc) ∈ B0 := ⟨hb, hθ⟩
        rw [indicator_of_mem hb0, indicator_of_mem (show θ ∈ {θ | convertAngle (θ + loc) ∈ B} from hb)]
        simp
      · have hb0 : convertAngle (θ + loc) ∉ B0 := fun h => hb h.1
        rw [indicator_of_notMem hb0, indicator_of_notMem (show θ ∉ {θ | convertAngle (θ + loc) ∈ B} from hb)]
        simp
    · have hc : Continuous fun θ => vmPdf ⟨loc, k⟩ (θ - -loc) := (vmPdf_cont _).comp (continuous_id.sub continuous_const)
      refine Integrable.mono' (hc.integrableOn_Ioc (a := -π) (b := π)) ?_ (ae_of_all _ fun θ => ?_)
      · exact (hfm.comp (measurable_id.sub_const _)).aestronglyMeasurable
      · rw [Real.norm_of_nonneg (hfb _).1]; exact (hfb _).2
    · exact ae_of_all _ fun θ => (hfb _).1
  rw [hl, hshift, intervalIntegral.integral_of_le (by linarith)]
  congr 1
  rw [Set.inter_comm, ← Measure.restrict_restrict hB, ← integral_indicator hB]
  refine integral_congr_ae ?_
  have hmem : ∀ᵐ x ∂(volume.restrict turn), x ∈ turn := ae_restrict_mem measurableSet_Ioc
  have hne : ∀ᵐ x ∂(volume.restrict turn), x ≠ π := ae_restrict_of_ae (Measure.ae_ne volume π)
  filter_upwards [hmem, hne] with x hx hxp
  have hxl : x < π := lt_of_le_of_ne hx.2 hxp
  have hcx : convertAngle x = x := (C40_angle_partial x).2.2.2 hx.1 hxl
  simp only [hf, hcx]
  by_cases hb : x ∈ B
  · have hb0 : x ∈ B0 := ⟨hb, by
      rintro (h | h)
      · exact hxp h
      · rw [mem_singleton_iff] at h; linarith [hx.1]⟩
    rw [indicator_of_mem hb0, indicator_of_mem hb]; simp
  · have hb0 : x ∉ B0 := fun h => hb h.1
    rw [indicator_of_notMem hb0, indicator_of_notMem hb]; simp

/-- **Law of the sampler.**  For positive concentration, whatever the other entries make the loop do (`m`), the
probability that an entry is accepted within `n` rounds *and* the returned sample lies in `B` is
`(1 - (1 - a)^n) · ∫_B prob`, for one acceptance probability `0 < a ≤ 1`.  So, given acceptance (the code allows 100
rounds), the sample has exactly the density `prob`. -/
theorem C40_sample_law (d : VonMises) (hk : 0 < d.concentration) (cutoff : ℝ) (h0 : 0 ≤ cutoff) (h1 : cutoff < 1) :
    ∃ a : ℝ, 0 < a ∧ a ≤ 1 ∧ ∀ (n m : ℕ) (B : Set ℝ), MeasurableSet B →
      roundsProb roundNoise n (fun draws =>
        (entryLoop d.concentration (proposalS cutoff d.concentration) m draws initSt).done = true ∧
        convertAngle (stdSample (entryLoop d.concentration (proposalS cutoff d.concentration) m draws initSt) + d.loc) ∈ B)
      = ENNReal.ofReal (1 - (1 - a) ^ n) * ENNReal.ofReal (∫ x in turn ∩ B, d.prob x) := by
  have hs := C40_proposal_valid cutoff d.concentration h0 h1
  refine ⟨acceptProb d.concentration (proposalS cutoff d.concentration), acceptProb_pos hk hs, acceptProb_le_one hk hs,
    fun n m B hB => ?_⟩
  rw [show d.prob = vmPdf d from funext (vm_prob_eq d hk.le)]
  rw [← vm_rotate d.loc d.concentration hB]
  exact loop_law hk hs (convertAngle_measurable.comp (measurable_id.add_const d.loc) hB) n m 0 0

example : ∃ (d : VonMises) (cutoff : ℝ), 0 < d.concentration ∧ 0 ≤ cutoff ∧ cutoff < 1 ∧ d.loc = 10 :=
  ⟨⟨10, 3⟩, 2e-2, by norm_num, by norm_num, by norm_num, rfl⟩

/-- With `concentration = 0` no draw with `v > 0` is ever accepted: the loop always uses up its rounds. -/
theorem C40_zero_never_accepts (s : ℝ) : ∀ (m : ℕ) (draws : List (ℝ × ℝ)) (st : LoopSt), st.done = false →
    (∀ uv ∈ draws, 0 < uv.2) → (entryLoop 0 s m draws st).done = false
  | _, [], st, h, _ => h
  | m, uv :: rest, st, h, hv => by
    unfold entryLoop
    rw [if_pos (Or.inl h)]
    apply C40_zero_never_accepts s (m - 1) rest
    · unfold loopBody accepts
      simp [h, hv uv (by simp)]
    · exact fun x hx => hv x (by simp [hx])

theorem noise_pos : ∀ᵐ uv : ℝ × ℝ ∂roundNoise, 0 < uv.2 := by
  unfold roundNoise
  rw [Measure.ae_prod_iff_ae_ae (p := fun uv : ℝ × ℝ => 0 < uv.2) (measurableSet_lt measurable_const measurable_snd)]
  refine ae_of_all _ fun u => ?_
  have := ae_restrict_mem (μ := volume) (measurableSet_Ioo (a := (0 : ℝ)) (b := 1))
  filter_upwards [this] with v hv
  exact hv.1

theorem round_any {s : ℝ} (hs : 1 < s) {B : Set ℝ} (hB : MeasurableSet B) :
    ∫⁻ uv, B.indicator 1 ((SignType.sign uv.1 : ℝ) * Real.arccos (candidate s uv.1)) ∂roundNoise
      = ∫⁻ θ in Ioo (-π) π, ENNReal.ofReal (propDens s θ / 2) * B.indicator 1 θ := by
  have hmi : Measurable (B.indicator (1 : ℝ → ℝ≥0∞)) := measurable_one.indicator hB
  have ha : Measurable fun u => Real.arccos (candidate s u) := Real.continuous_arccos.measurable.comp (candidate_measurable s)
  have hsg : Measurable fun u : ℝ => ((SignType.sign u : SignType) : ℝ) := by
    have e : (fun u : ℝ => ((SignType.sign u : SignType) : ℝ)) = fun u => if 0 < u then 1 else if u < 0 then -1 else 0 := by
      funext u
      split_ifs with h1 h2
      · rw [sign_pos h1]; simp
      · rw [sign_neg h2]; simp
      · rw [show u = 0 by linarith, sign_zero]; simp
    rw [e]
    exact Measurable.ite measurableSet_Ioi measurable_const
      (Measurable.ite measurableSet_Iio measurable_const measurable_const)
  have hm : Measurable fun u : ℝ => B.indicator (1 : ℝ → ℝ≥0∞) ((SignType.sign u : ℝ) * Real.arccos (candidate s u)) :=
    hmi.comp (hsg.mul ha)
  have hm2 : Measurable fun uv : ℝ × ℝ => B.indicator (1 : ℝ → ℝ≥0∞) ((SignType.sign uv.1 : ℝ) * Real.arccos (candidate s uv.1)) :=
    hm.comp measurable_fst
  unfold roundNoise
  rw [lintegral_prod _ hm2.aemeasurable]
  simp only [lintegral_const, measure_univ, mul_one]
  rw [lintegral_smul_measure, smul_eq_mul, proposal_full hs (fun σ θ => B.indicator 1 ((σ : ℝ) * θ)),
    lintegral_two_halves _ Real.pi_pos, mul_add]
  have hp : ∀ θ, ENNReal.ofReal (propDens s θ / 2) = ENNReal.ofReal (1 / 2) * ENNReal.ofReal (propDens s θ) := by
    intro θ; rw [← ENNReal.ofReal_mul (by norm_num)]; congr 1; ring
  have hpn : ∀ θ, propDens s (-θ) = propDens s θ := by intro θ; unfold propDens; simp
  rw [← lintegral_const_mul' _ _ ENNReal.ofReal_ne_top, ← lintegral_const_mul' _ _ ENNReal.ofReal_ne_top]
  congr 1
  · refine lintegral_congr fun θ => ?_
    rw [hp]; simp [mul_assoc]
  · refine lintegral_congr fun θ => ?_
    rw [hpn, hp]; simp [mul_assoc]

open Classical in
theorem zero_law_aux {s : ℝ} (hs : 1 < s) {B : Set ℝ} (hB : MeasurableSet B) : ∀ (n m : ℕ) (st : LoopSt), st.done = false →
    roundsProb roundNoise (n + 1) (fun draws => stdSample (entryLoop 0 s m draws st) ∈ B)
      = ∫⁻ θ in Ioo (-π) π, ENNReal.ofReal (propDens s θ / 2) * B.indicator 1 θ := by
  intro n
  induction n with
  | zero =>
    intro m st hst
    rw [← round_any hs hB]
    unfold roundsProb roundsExp
    refine lintegral_congr fun uv => ?_
    unfold roundsExp
    beta_reduce
    have : entryLoop 0 s m [uv] st = loopBody 0 s st uv := by
      unfold entryLoop; rw [if_pos (Or.inl hst)]; rfl
    rw [this]
    have e : stdSample (loopBody 0 s st uv) = (SignType.sign uv.1 : ℝ) * Real.arccos (candidate s uv.1) := by
      unfold loopBody; simp only [hst]
      exact stdSample_eq hs _ _ _
    rw [e]
    by_cases h : (SignType.sign uv.1 : ℝ) * Real.arccos (candidate s uv.1) ∈ B
    · rw [if_pos h, indicator_of_mem h]; rfl
    · rw [if_neg h, indicator_of_notMem h]
  | succ n ih =>
    intro m st hst
    unfold roundsProb
    rw [roundsExp]
    have hae : ∀ᵐ uv ∂roundNoise, roundsExp roundNoise (n + 1) (fun ds => if stdSample (entryLoop 0 s m (uv :: ds) st) ∈ B then 1 else 0)
        = ∫⁻ θ in Ioo (-π) π, ENNReal.ofReal (propDens s θ / 2) * B.indicator 1 θ := by
      filter_upwards [noise_pos] with uv huv
      have hd : (loopBody 0 s st uv).done = false := by
        unfold loopBody accepts
        simp [hst, huv]
      rw [← ih (m - 1) (loopBody 0 s st uv) hd]
      have : ∀ ds, entryLoop 0 s m (uv :: ds) st = entryLoop 0 s (m - 1) ds (loopBody 0 s st uv) := by
        intro ds
        conv_lhs => unfold entryLoop
        rw [if_pos (Or.inl hst)]
      simp only [this]
      rfl
    rw [lintegral_congr_ae hae, lintegral_const, measure_univ, mul_one]

/-- With `concentration = 0` the returned sample is the last proposal; its density (on the standard turn) differs from
the uniform density by a relative error of at most `2e-7` (it is not exactly uniform, because the proposal parameter is
clipped at `1e7`). -/
theorem C40_zero_law (cutoff : ℝ) (h0 : 0 ≤ cutoff) (h1 : cutoff < 1) :
    ∃ q : ℝ → ℝ, (∀ θ, |q θ * (2 * π) - 1| ≤ 2e-7) ∧ (∃ θ, q θ * (2 * π) ≠ 1) ∧
      ∀ (n m : ℕ) (B : Set ℝ), MeasurableSet B →
        roundsProb roundNoise (n + 1) (fun draws => stdSample (entryLoop 0 (proposalS cutoff 0) m draws initSt) ∈ B)
          = ∫⁻ θ in Ioo (-π) π, ENNReal.ofReal (q θ) * B.indicator 1 θ := by
  have hsv : proposalS cutoff 0 = 10 ^ 7 := by
    unfold proposalS; simp only; rw [if_neg (by linarith)]
    rw [max_eq_right (by norm_num)]; norm_num
  have hs := C40_proposal_valid cutoff 0 h0 h1
  rw [hsv] at hs ⊢
  set s : ℝ := 10 ^ 7 with hsd
  have hpi := Real.pi_pos
  have hq : ∀ θ, propDens s θ / 2 * (2 * π) = Real.sqrt (s ^ 2 - 1) / (s - Real.cos θ) := by
    intro θ; unfold propDens; have := s_sub_pos hs θ; field_simp
  have hr1 : s - 1 ≤ Real.sqrt (s ^ 2 - 1) := by
    apply Real.le_sqrt_of_sq_le; nlinarith
  have hr2 : Real.sqrt (s ^ 2 - 1) < s := by
    rw [Real.sqrt_lt' (by linarith)]; linarith
  refine ⟨fun θ => propDens s θ / 2, fun θ => ?_, ⟨π / 2, ?_⟩, ?_⟩
  · have hp := s_sub_pos hs θ
    have hc1 := Real.cos_le_one θ
    have hc2 := Real.neg_one_le_cos θ
    rw [hq, abs_le]
    have hsn : s = 10000000 := by rw [hsd]; norm_num
    clear_value s
    generalize Real.sqrt (s ^ 2 - 1) = r at hr1 hr2 ⊢
    constructor
    · rw [le_sub_iff_add_le, le_div_iff₀ hp, hsn]; rw [hsn] at hr1; linarith
    · rw [sub_le_iff_le_add, div_le_iff₀ hp, hsn]; rw [hsn] at hr2; linarith
  · simp only [hq, Real.cos_pi_div_two, sub_zero]
    intro h
    rw [div_eq_one_iff_eq (by linarith)] at h
    linarith
  · intro n m B hB
    exact zero_law_aux hs hB n m initSt rfl

end Distrax
