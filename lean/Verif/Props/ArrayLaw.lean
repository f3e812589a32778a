import Verif.Spec.ArrayLaw
import Verif.Props.FamArr2
import Verif.Props.FamArr3
import Verif.Props.Gamma
import Verif.Props.Bernoulli
import Verif.Props.SampleLaw
import Verif.Lemmas.JacobianArr
import Mathlib.MeasureTheory.Constructions.BorelSpace.Order
import Mathlib.Probability.Independence.Basic

/-!
C59: the joint law of a whole sample array.
-/

namespace Distrax

open Spec MeasureTheory

theorem lawOf_apply {f : ℝ → ℝ} (h : IsPdf f) {s : Set ℝ} (hs : MeasurableSet s) :
    lawOf f s = ENNReal.ofReal (∫ x in s, f x) := by
  unfold lawOf
  rw [withDensity_apply _ hs, ofReal_integral_eq_lintegral_ofReal h.integrable.integrableOn
    (Filter.Eventually.of_forall h.nonneg)]

theorem lawOf_prob {f : ℝ → ℝ} (h : IsPdf f) : IsProbabilityMeasure (lawOf f) := by
  refine ⟨?_⟩
  rw [lawOf_apply h MeasurableSet.univ, setIntegral_univ, h.one]; simp

/-- A map that turns noise into a number with the right distribution function turns the law of the noise into the law with
that density. -/
theorem map_lawOf {noise T F f : ℝ → ℝ} (hn : IsPdf noise) (hf : IsPdf f) (hc : IsCdf f F) (hs : SampleLaw noise T F)
    (hT : Measurable T) : (lawOf noise).map T = lawOf f := by
  have := lawOf_prob hn
  have : IsProbabilityMeasure ((lawOf noise).map T) := Measure.isProbabilityMeasure_map hT.aemeasurable
  refine Measure.ext_of_Iic _ _ fun x => ?_
  rw [Measure.map_apply hT measurableSet_Iic, lawOf_apply hn (hT measurableSet_Iic), lawOf_apply hf measurableSet_Iic, hc x,
    ← hs x]
  rfl

/-- Positions of the reshaped sample array and positions of the flat one. -/
noncomputable def Idx.flat (ss b : List ℕ) : Idx (ss ++ b) ≃ Idx (ss.prod :: b) where
  toFun k := ⟨ravel ss (k.1.take ss.length) :: k.1.drop ss.length, by
    obtain ⟨i, j, h, hi, hj⟩ := inRange_append_split k.2
    rw [h, List.take_left' hi.length, List.drop_left' hi.length]
    exact List.Forall₂.cons (ravel_lt hi) hj⟩
  invFun k := ⟨unravel ss (k.1.headD 0) ++ k.1.tail, by
    obtain ⟨k, hk⟩ := k
    cases hk with
    | cons h1 h2 => exact (unravel_inRange h1).append h2⟩
  left_inv k := by
    obtain ⟨i, j, h, hi, hj⟩ := inRange_append_split k.2
    apply Subtype.ext
    simp only [h, List.take_left' hi.length, List.drop_left' hi.length, List.headD_cons, List.tail_cons, unravel_ravel hi]
  right_inv k := by
    obtain ⟨k, hk⟩ := k
    cases hk with
    | cons h1 h2 =>
      have hl := (unravel_inRange h1).length
      apply Subtype.ext
      simp only [List.headD_cons, List.tail_cons, List.take_left' hl, List.drop_left' hl, ravel_unravel h1]

/-- Entrywise samplers applied to independent noise give independent entries, in the flat array and in the reshaped one. -/
theorem samplesIndependent {α β : Type} [Inhabited α] [MeasurableSpace α] [MeasurableSpace β] {batch : List ℕ}
    {x : AE α → AE β} {f : List ℕ → α → β} (h : ∀ (n : ℕ) (rnd : BArr α), rnd.shape = n :: batch →
      PerEntry (x (.arr rnd)) (n :: batch) fun i => f i.tail (rnd.data i))
    (ν : List ℕ → Measure α) (μ : List ℕ → Measure β)
    (hν : ∀ i, InRange batch i → IsProbabilityMeasure (ν i)) (hf : ∀ i, InRange batch i → Measurable (f i))
    (hμ : ∀ i, InRange batch i → (ν i).map (f i) = μ i) :
    SamplesIndependent batch x ν μ := by
  intro Key prngKey seed ss
  have hr : ∀ k : Idx (ss ++ batch), InRange batch ((Idx.flat ss batch k).1.tail) := by
    intro k
    obtain ⟨k, hk⟩ := Idx.flat ss batch k
    cases hk with
    | cons h1 h2 => exact h2
  let g : (k : Idx (ss ++ batch)) → α → β := fun k => f ((Idx.flat ss batch k).1.tail)
  refine ⟨fun w k => g k (w (Idx.flat ss batch k)), ?_, fun w => ?_, ?_⟩
  · exact measurable_pi_lambda _ fun k => (hf _ (hr k)).comp (measurable_pi_apply _)
  · obtain ⟨a, a1, a2, a3⟩ := h ss.prod (arrayOf (ss.prod :: batch) w) rfl
    have hans : (answers (arrayOf (ss.prod :: batch) w) : Key → List ℕ → BArr α) (usedKey prngKey seed) (ss.prod :: batch)
        = arrayOf (ss.prod :: batch) w := by
      unfold answers; exact if_pos rfl
    have hsh : a.shape.prod = (ss ++ a.shape.drop 1).prod := by rw [a2]; simp
    refine ⟨⟨ss ++ a.shape.drop 1, fun i => a.data (unravel a.shape (ravel (ss ++ a.shape.drop 1) i))⟩, ?_, by rw [a2]; rfl, ?_⟩
    · simp only [famSample, convert_eq, foldl_mul_eq_prod, hans]
      rw [show x (.arr (arrayOf (ss.prod :: batch) w)) = .ok a from a1]
      exact if_pos hsh
    · intro k
      obtain ⟨out, o1, o2, o3⟩ := reshape_stack ⟨a.shape, fun i => ravel a.shape i⟩ ss batch a2
      obtain ⟨i, j, hij, hi, hj⟩ := inRange_append_split k.2
      have hflat : (Idx.flat ss batch k).1 = ravel ss i :: j := by
        show ravel ss (k.1.take ss.length) :: k.1.drop ss.length = _
        rw [hij, List.take_left' hi.length, List.drop_left' hi.length]
      have hun : unravel a.shape (ravel (ss ++ a.shape.drop 1) k.1) = (Idx.flat ss batch k).1 := by
        rw [hflat, hij, a2]
        show unravel (ss.prod :: batch) (ravel (ss ++ batch) (i ++ j)) = _
        rw [ravel_append hi, unravel]
        have hl := ravel_lt hj
        rw [Nat.mul_comm, Nat.mul_add_div (by omega), Nat.div_eq_of_lt hl, Nat.mul_add_mod, Nat.mod_eq_of_lt hl,
          unravel_ravel hj, Nat.add_zero]
      show a.data (unravel a.shape (ravel (ss ++ a.shape.drop 1) k.1)) = _
      rw [hun, a3 _ (Idx.flat ss batch k).2]
      show f _ ((arrayOf (ss.prod :: batch) w).data (Idx.flat ss batch k).1) = f _ _
      simp only [arrayOf, (Idx.flat ss batch k).2, dif_pos]
  · have hν' : ∀ k : Idx (ss.prod :: batch), IsProbabilityMeasure (ν (k.1.drop 1)) := by
      rintro ⟨k, hk⟩
      cases hk with
      | cons h1 h2 => exact hν _ h2
    have hν2 : ∀ k : Idx (ss ++ batch), IsProbabilityMeasure (ν (Idx.flat ss batch k).1.tail) := fun k => hν _ (hr k)
    have hmap : ∀ k : Idx (ss ++ batch), (ν (Idx.flat ss batch k).1.tail).map (g k) = μ (k.1.drop ss.length) := by
      intro k
      exact hμ _ (hr k)
    have : ∀ k : Idx (ss ++ batch), IsProbabilityMeasure ((ν (Idx.flat ss batch k).1.tail).map (g k)) := fun k =>
      Measure.isProbabilityMeasure_map (hf _ (hr k)).aemeasurable
    have hre : (Measure.pi fun k : Idx (ss.prod :: batch) => ν (k.1.drop 1)).map (fun w k => w (Idx.flat ss batch k))
        = Measure.pi fun k : Idx (ss ++ batch) => ν (Idx.flat ss batch k).1.tail := by
      have mp := measurePreserving_piCongrLeft (fun k : Idx (ss.prod :: batch) => ν (k.1.drop 1)) (Idx.flat ss batch)
      have := mp.symm.map_eq
      refine Eq.trans ?_ this
      congr 1
    rw [show (fun w (k : Idx (ss ++ batch)) => g k (w (Idx.flat ss batch k)))
        = (fun w' k => g k (w' k)) ∘ (fun (w : Idx (ss.prod :: batch) → α) k => w (Idx.flat ss batch k)) from rfl,
      ← Measure.map_map, hre, Measure.pi_map_pi fun k => (hf _ (hr k)).aemeasurable]
    · congr 1
      exact funext hmap
    · exact measurable_pi_lambda _ fun k => (hf _ (hr k)).comp (measurable_pi_apply k)
    · exact measurable_pi_lambda _ fun k => measurable_pi_apply _


/-- What the joint law says: every entry has its own law, the entries are independent, and events about several entries have
product probabilities. -/
theorem C59_meaning {α β : Type} [Inhabited α] [MeasurableSpace α] [MeasurableSpace β] {s t : List ℕ}
    {ν : Idx s → Measure α} {x : BArr α → Except Err (BArr β)} {μ : Idx t → Measure β}
    (hν : ∀ i, IsProbabilityMeasure (ν i)) (hμ : ∀ i, IsProbabilityMeasure (μ i)) (h : IndependentEntries s ν x t μ) :
    ∃ e : (Idx s → α) → Idx t → β, (∀ w, ∃ a, x (arrayOf s w) = .ok a ∧ a.shape = t ∧ ∀ i : Idx t, a.data i.1 = e w i) ∧
      (∀ i, (Measure.pi ν).map (fun w => e w i) = μ i) ∧ ProbabilityTheory.iIndepFun (fun i w => e w i) (Measure.pi ν) ∧
      ∀ A : Idx t → Set β, (∀ i, MeasurableSet (A i)) → Measure.pi ν {w | ∀ i, e w i ∈ A i} = ∏ i, μ i (A i) := by
  obtain ⟨e, e1, e2, e3⟩ := h
  have hm : ∀ i, (Measure.pi ν).map (fun w => e w i) = μ i := by
    intro i
    have := Measure.pi_map_eval μ i
    rw [← e3, Measure.map_map (measurable_pi_apply i) e1] at this
    refine Eq.trans ?_ (this.trans ?_)
    · rfl
    · simp
  refine ⟨e, e2, hm, ?_, fun A hA => ?_⟩
  · rw [ProbabilityTheory.iIndepFun_iff_map_fun_eq_pi_map fun i => (measurable_pi_iff.1 e1 i).aemeasurable]
    simp only [hm]
    exact e3
  · rw [← Measure.pi_pi, ← e3, Measure.map_apply e1 (MeasurableSet.univ_pi hA)]
    congr 1
    ext w
    simp

/-- A two-parameter family: entrywise sampler, right law of every entry. -/
theorem samples_of {d : P2} (hd : d.Wf) {x : AE ℝ → AE ℝ} {f : ℝ → ℝ → ℝ → ℝ} (h : OfNoise d (fun _ => x) f)
    (noise pd cd : ℝ → ℝ → ℝ → ℝ)
    (hl : ∀ b, InRange d.batch b → IsPdf (noise (bget d.p b) (bget d.q b)) ∧ IsPdf (pd (bget d.p b) (bget d.q b)) ∧
      IsCdf (pd (bget d.p b) (bget d.q b)) (cd (bget d.p b) (bget d.q b)) ∧
      SampleLaw (noise (bget d.p b) (bget d.q b)) (f (bget d.p b) (bget d.q b)) (cd (bget d.p b) (bget d.q b)))
    (hf : ∀ a b, Measurable (f a b)) :
    SamplesIndependent d.batch x (fun b => lawOf (noise (bget d.p b) (bget d.q b)))
      (fun b => lawOf (pd (bget d.p b) (bget d.q b))) := by
  refine samplesIndependent (f := fun b => f (bget d.p b) (bget d.q b)) (fun n rnd hr => ?_) _ _ (fun b hb => lawOf_prob (hl b hb).1)
    (fun b _ => hf _ _) fun b hb => map_lawOf (hl b hb).1 (hl b hb).2.1 (hl b hb).2.2.1 (hl b hb).2.2.2 (hf _ _)
  obtain ⟨a, a1, a2, a3⟩ := h n rnd hr
  refine ⟨a, a1, a2, fun i hi => (a3 i hi).trans ?_⟩
  cases hi with
  | @cons k _ b _ hk hb =>
    have e1 : bget d.p (k :: b) = bget d.p b := bget_lead (i := [k]) hd.le_p hb
    have e2 : bget d.q (k :: b) = bget d.q b := bget_lead (i := [k]) hd.le_q hb
    simp only [e1, e2, List.tail_cons]

theorem batch_pos {d : P2} {a : BArr ℝ} (ha : BLe a.shape d.batch) (hpos : ∀ i, InRange a.shape i → 0 < a.data i)
    (b : List ℕ) (hb : InRange d.batch b) : 0 < bget a b := hpos _ (proj_inRange ha hb)

/-- `Normal(loc, scale).sample(...)`: independent normal entries, each with the location and scale broadcasting assigns to
it. -/
theorem C59_normal (p q : BArr ℝ) (d : P2) (hi : P2.init p q = .ok d) (hpos : ∀ i, InRange q.shape i → 0 < q.data i) :
    SamplesIndependent d.batch (NormalA.sampleN d) (fun _ => lawOf (ProbabilityTheory.gaussianPDFReal 0 1))
      (fun b => lawOf (Normal.prob ⟨bget p b, bget q b⟩)) := by
  have hN := (C58_normal p q d hi).2.2.2.2.2.2.2.2.2.2.2.2.1
  obtain ⟨rfl, rfl, hd⟩ := P2.init_wf hi
  refine samples_of hd hN (fun _ _ => _) (fun a b => Normal.prob ⟨a, b⟩) (fun a b => Normal.cdf ⟨a, b⟩) (fun b hb => ?_) fun a b => ?_
  · have hs := batch_pos hd.le_q hpos b hb
    have hl := C28_normal_law ⟨bget d.p b, bget d.q b⟩ hs
    exact ⟨gauss_pdf 0 one_ne_zero, hl.1, hl.2.2.1, (C28_normal_sample ⟨_, _⟩ hs).1⟩
  · unfold Normal.sample; fun_prop

example : ∃ d, P2.init ⟨[3], fun i => (i.headD 0 : ℝ)⟩ ⟨[1], fun _ => 2⟩ = .ok d ∧ d.batch = [3] ∧
    ∀ i, InRange [1] i → (0 : ℝ) < (fun _ => 2) i := ⟨_, rfl, rfl, fun _ _ => by norm_num⟩


/-- `LogStddevNormal`: the scale is positive for every parameter. -/
theorem C59_log_stddev_normal (loc logScale : BArr ℝ) (m : Option ℝ) (d : LSN) (hi : LSN.init loc logScale m = .ok d) :
    SamplesIndependent d.base.batch (NormalA.sampleN d.base) (fun _ => lawOf (ProbabilityTheory.gaussianPDFReal 0 1))
      (fun b => lawOf (Normal.prob ⟨bget loc b, Real.exp (bget d.ls b)⟩)) := by
  unfold LSN.init at hi
  split at hi
  · cases hi
  · rename_i ls hls
    split at hi
    · cases hi
    · rename_i b hb
      obtain rfl := Except.ok.inj hi
      have h := C59_normal loc (ls.map Real.exp) b hb fun i _ => Real.exp_pos _
      have e : ∀ j, bget (ls.map Real.exp) j = Real.exp (bget ls j) := fun j => rfl
      simp only [e] at h
      exact h

example : ∃ d, LSN.init ⟨[3], fun i => (i.headD 0 : ℝ)⟩ ⟨[2, 1], fun _ => -1⟩ (some 2) = .ok d ∧ d.base.batch = [2, 3] := by
  have h : LSN.thresholded ⟨[2, 1], fun _ => -1⟩ (some 2)
      = (AE.scalar (Real.log 2) - (AE.scalar (Real.log 2) - AE.arr ⟨[2, 1], fun _ => -1⟩).map rsoftplus) :=
    if_neg (by norm_num)
  unfold LSN.init
  rw [h]
  exact ⟨_, rfl, rfl⟩

/-- `Laplace(loc, scale).sample(...)`. -/
theorem C59_laplace (p q : BArr ℝ) (d : P2) (hi : P2.init p q = .ok d) (hpos : ∀ i, InRange q.shape i → 0 < q.data i) :
    SamplesIndependent d.batch (LaplaceA.sampleN d) (fun _ => lawOf stdLaplace)
      (fun b => lawOf (Laplace.prob ⟨bget p b, bget q b⟩)) := by
  have hN := (C58_laplace p q d hi).2.2.2.2.2.2.2.2.2.2.2.2.1
  obtain ⟨rfl, rfl, hd⟩ := P2.init_wf hi
  refine samples_of hd hN (fun _ _ => _) (fun a b => Laplace.prob ⟨a, b⟩) (fun a b => Laplace.cdf ⟨a, b⟩) (fun b hb => ?_) fun a b => ?_
  · have hs := batch_pos hd.le_q hpos b hb
    have hl := C29_laplace_law ⟨bget d.p b, bget d.q b⟩ hs
    exact ⟨stdLaplace_law.1, hl.1, hl.2.1, (C29_laplace_sample ⟨_, _⟩ hs).1⟩
  · unfold Laplace.sample; fun_prop

/-- `Gumbel(loc, scale).sample(...)`. -/
theorem C59_gumbel (p q : BArr ℝ) (d : P2) (hi : P2.init p q = .ok d) (hpos : ∀ i, InRange q.shape i → 0 < q.data i) :
    SamplesIndependent d.batch (GumbelA.sampleN d) (fun _ => lawOf stdGumbel)
      (fun b => lawOf (Gumbel.prob ⟨bget p b, bget q b⟩)) := by
  have hN := (C58_gumbel_partial p q d hi).2.2.2.2.2.2.2.2.2.2.1
  obtain ⟨rfl, rfl, hd⟩ := P2.init_wf hi
  refine samples_of hd hN (fun _ _ => _) (fun a b => Gumbel.prob ⟨a, b⟩) (fun a b => Gumbel.cdf ⟨a, b⟩) (fun b hb => ?_) fun a b => ?_
  · have hs := batch_pos hd.le_q hpos b hb
    have hl := C29_gumbel_law ⟨bget d.p b, bget d.q b⟩ hs
    exact ⟨stdGumbel_law.1, hl.1, hl.2.1, (C29_gumbel_sample ⟨_, _⟩ hs).1⟩
  · unfold Gumbel.sample; fun_prop

-- The hypotheses of the Laplace, Gumbel, Logistic and Gamma statements: a column of positive parameters against a row.
example : ∃ d, P2.init ⟨[2, 1], fun i => (i.headD 0 : ℝ) + 1⟩ ⟨[3], fun i => (i.headD 0 : ℝ) + 2⟩ = .ok d ∧ d.batch = [2, 3] ∧
    (∀ i, InRange [2, 1] i → (0 : ℝ) < (fun i : List ℕ => (i.headD 0 : ℝ) + 1) i) ∧
    ∀ i, InRange [3] i → (0 : ℝ) < (fun i : List ℕ => (i.headD 0 : ℝ) + 2) i :=
  ⟨_, rfl, rfl, fun _ _ => by positivity, fun _ _ => by positivity⟩

theorem unitNoise_pdf : IsPdf unitNoise := by
  have h := (C29_uniform_law ⟨0, 1⟩ (by norm_num)).1
  refine ⟨fun x => Set.indicator_nonneg (fun _ _ => zero_le_one) x, ?_, ?_⟩
  · exact (integrable_indicator_iff measurableSet_Ioo).2 (integrableOn_const (by simp))
  · unfold unitNoise; rw [integral_indicator measurableSet_Ioo]; simp

/-- `Logistic(loc, scale).sample(...)`, from uniform noise. -/
theorem C59_logistic (p q : BArr ℝ) (d : P2) (hi : P2.init p q = .ok d) (hpos : ∀ i, InRange q.shape i → 0 < q.data i) :
    SamplesIndependent d.batch (LogisticA.sampleN d) (fun _ => lawOf unitNoise)
      (fun b => lawOf (Logistic.prob ⟨bget p b, bget q b⟩)) := by
  have hN := (C58_logistic p q d hi).2.2.2.2.2.2.2.2.2.2.2.2
  obtain ⟨rfl, rfl, hd⟩ := P2.init_wf hi
  refine samples_of hd hN (fun _ _ => _) (fun a b => Logistic.prob ⟨a, b⟩) (fun a b => Logistic.cdf ⟨a, b⟩) (fun b hb => ?_) fun a b => ?_
  · have hs := batch_pos hd.le_q hpos b hb
    have hl := C29_logistic_law ⟨bget d.p b, bget d.q b⟩ hs
    exact ⟨unitNoise_pdf, hl.1, hl.2.1, (C29_logistic_sample ⟨_, _⟩ hs).2.2⟩
  · unfold Logistic.sample; simp only; fun_prop

/-- `Uniform(low, high).sample(...)`, for `low < high` in every entry. -/
theorem C59_uniform (p q : BArr ℝ) (d : P2) (hi : P2.init p q = .ok d)
    (hlt : ∀ b, InRange d.batch b → bget p b < bget q b) :
    SamplesIndependent d.batch (UniformA.sampleN d) (fun _ => lawOf unitNoise)
      (fun b => lawOf (Uniform.prob ⟨bget p b, bget q b⟩)) := by
  have hN := (C58_uniform p q d hi).2.2.2.2.2.2.2.2.2.2.1
  obtain ⟨rfl, rfl, hd⟩ := P2.init_wf hi
  refine samples_of hd hN (fun _ _ => _) (fun a b => Uniform.prob ⟨a, b⟩) (fun a b => Uniform.cdf ⟨a, b⟩) (fun b hb => ?_) fun a b => ?_
  · have hl := C29_uniform_law ⟨bget d.p b, bget d.q b⟩ (hlt b hb)
    exact ⟨unitNoise_pdf, hl.1, hl.2.1, (C29_uniform_sample ⟨_, _⟩ (hlt b hb)).2.1⟩
  · unfold Uniform.sample; fun_prop

example : ∃ d, P2.init ⟨[3], fun i => (i.headD 0 : ℝ)⟩ ⟨[], fun _ => 3⟩ = .ok d ∧ d.batch = [3] ∧
    ∀ b, InRange d.batch b → bget ⟨[3], fun i => (i.headD 0 : ℝ)⟩ b < bget ⟨[], fun _ => (3 : ℝ)⟩ b := by
  refine ⟨_, rfl, rfl, fun b hb => ?_⟩
  have hb' : InRange [3] b := hb
  have e : bget ⟨[3], fun i => (i.headD 0 : ℝ)⟩ b = (b.headD 0 : ℝ) := bget_full (a := ⟨[3], fun i => (i.headD 0 : ℝ)⟩) rfl hb'
  rw [e]
  show (b.headD 0 : ℝ) < 3
  cases hb' with
  | cons h1 _ => simp only [List.headD_cons]; exact_mod_cast h1

/-- `Gamma(concentration, rate).sample(...)`, where `jax.random.gamma` returns independent standard gamma numbers with the
concentrations it was given. -/
theorem C59_gamma (p q : BArr ℝ) (d : P2) (hi : P2.init p q = .ok d) (hpos : ∀ i, InRange p.shape i → 0 < p.data i)
    (hpos' : ∀ i, InRange q.shape i → 0 < q.data i) :
    SamplesIndependent d.batch (GammaA.sampleN d) (fun b => lawOf (stdGamma (bget p b)))
      (fun b => lawOf (GammaD.pdf ⟨bget p b, bget q b⟩)) := by
  have hN := (C58_gamma p q d hi).2.2.2.2.2.2.2.2
  obtain ⟨rfl, rfl, hd⟩ := P2.init_wf hi
  refine samples_of hd hN (fun a _ => stdGamma a) (fun a b => GammaD.pdf ⟨a, b⟩)
    (fun a b x => if 0 ≤ x then GammaD.cdf ⟨a, b⟩ x else 0) (fun b hb => ?_) fun a b => ?_
  · have ha := batch_pos hd.le_p hpos b hb
    have hs := batch_pos hd.le_q hpos' b hb
    have hl := C39_law ⟨bget d.p b, bget d.q b⟩ ha hs
    exact ⟨stdGamma_pdf ha, hl.1, hl.2, C39_sample ⟨_, _⟩ hs⟩
  · unfold GammaD.sample; fun_prop

open XR

theorem coin_law {d : Bern} {p : ℝ} (h : BernP d p) : Measurable d.sample ∧ (lawOf unitNoise).map d.sample = coin p := by
  have hs : ∀ u, d.sample u = if u < p then 1 else 0 := by
    intro u
    unfold Bern.sample
    rw [(bern_params h).1]
    by_cases hu : u < p
    · rw [if_pos hu]; exact if_pos hu
    · rw [if_neg hu]; exact if_neg hu
  have hm : Measurable d.sample := by
    rw [funext hs]
    exact Measurable.ite measurableSet_Iio measurable_const measurable_const
  refine ⟨hm, ?_⟩
  have hI : ∀ a b : ℝ, 0 ≤ a → a ≤ b → b ≤ 1 → lawOf unitNoise (Set.Ico a b) = ENNReal.ofReal (b - a) := by
    intro a b h0 hab h1
    rw [lawOf_apply unitNoise_pdf measurableSet_Ico, ← integral_Icc_eq_integral_Ico, integral_Icc_eq_integral_Ioo]
    unfold unitNoise
    rw [setIntegral_indicator measurableSet_Ioo, Set.inter_eq_left.2 (Set.Ioo_subset_Ioo h0 h1)]
    simp [hab]
  have hU : ∀ s : Set ℝ, MeasurableSet s → lawOf unitNoise s = lawOf unitNoise (s ∩ Set.Ico 0 1) := by
    intro s hs
    have := lawOf_prob unitNoise_pdf
    rw [measure_inter_conull']
    have h1 : lawOf unitNoise (Set.Ico 0 1) = 1 := by rw [hI 0 1 le_rfl zero_le_one le_rfl]; simp
    have := (prob_compl_eq_zero_iff (μ := lawOf unitNoise) (measurableSet_Ico (a := (0 : ℝ)) (b := 1))).2 h1
    exact measure_mono_null (fun x hx => hx.2) this
  refine Measure.ext_of_singleton fun k => ?_
  rw [Measure.map_apply hm (measurableSet_singleton k), hU _ (hm (measurableSet_singleton k))]
  obtain ⟨hp0, hp1, -⟩ := h
  rcases k with _ | _ | k
  · have e : d.sample ⁻¹' {0} ∩ Set.Ico 0 1 = Set.Ico p 1 := by
      ext u; simp only [Set.mem_inter_iff, Set.mem_preimage, Set.mem_singleton_iff, hs, Set.mem_Ico]
      constructor
      · rintro ⟨h1, h2, h3⟩; split_ifs at h1 with h; exact ⟨not_lt.1 h, h3⟩
      · rintro ⟨h1, h2⟩; exact ⟨if_neg (not_lt.2 h1), hp0.trans h1, h2⟩
    rw [e, hI p 1 hp0 hp1 le_rfl]; simp [coin]
  · have e : d.sample ⁻¹' {0 + 1} ∩ Set.Ico 0 1 = Set.Ico 0 p := by
      ext u; simp only [Set.mem_inter_iff, Set.mem_preimage, Set.mem_singleton_iff, hs, Set.mem_Ico]
      constructor
      · rintro ⟨h1, h2, h3⟩; split_ifs at h1 with h; exact ⟨h2, h⟩
      · rintro ⟨h1, h2⟩; exact ⟨if_pos h2, h1, h2.trans_le hp1⟩
    rw [e, hI 0 p le_rfl hp0 hp1]; simp [coin]
  · have e : d.sample ⁻¹' {k + 1 + 1} ∩ Set.Ico 0 1 = ∅ := by
      ext u; simp only [Set.mem_inter_iff, Set.mem_preimage, Set.mem_singleton_iff, hs, Set.mem_empty_iff_false, iff_false]
      rintro ⟨h1, -⟩; split_ifs at h1; all_goals omega
    rw [e]; simp [coin]

/-- `Bernoulli(logits or probs).sample(...)`: independent coins with the probabilities of their batch entries. -/
theorem C59_bernoulli (d : BernA) (p : List ℕ → ℝ) (hp : ∀ b, InRange d.batch b → BernP (bernEntry d b) (p b)) :
    SamplesIndependent d.batch d.sampleN (fun _ => lawOf unitNoise) (fun b => coin (p b)) := by
  refine samplesIndependent (f := fun b => (bernEntry d b).sample) (fun n rnd hr => ?_) _ _
    (fun b _ => lawOf_prob unitNoise_pdf) (fun b hb => (coin_law (hp b hb)).1) fun b hb => (coin_law (hp b hb)).2
  obtain ⟨a, a1, a2, a3⟩ := (C58_bernoulli d).2.2.2.2.2.2.1 n rnd hr
  refine ⟨a, a1, a2, fun i hi => (a3 i hi).trans ?_⟩
  cases hi with
  | @cons k _ b _ hk hb =>
    have e1 : bernEntry d (k :: b) = bernEntry d b := by
      cases d with
      | probs p => simp only [bernEntry]; rw [show bget p (k :: b) = bget p b from bget_lead (i := [k]) (BLe.refl _) hb]
      | logits p => simp only [bernEntry]; rw [show bget p (k :: b) = bget p b from bget_lead (i := [k]) (BLe.refl _) hb]
    simp only [e1, List.tail_cons]

example : ∀ b, InRange (BernA.probs ⟨[2], fun _ => fin (1 / 4)⟩).batch b →
    BernP (bernEntry (.probs ⟨[2], fun _ => fin (1 / 4)⟩) b) (1 / 4) :=
  fun _ _ => ⟨by norm_num, by norm_num, Or.inl ⟨rfl, rfl⟩⟩


open XR

theorem better_measurable {n : ℕ} (l : Fin (n + 1) → XR) (i j : Fin (n + 1)) :
    MeasurableSet {g : Fin (n + 1) → ℝ | XR.better (fin (g i) + l i) (fin (g j) + l j)} := by
  have h1 : ∀ x : ℝ, fin x + pinf = pinf := fun _ => rfl
  have h2 : ∀ x : ℝ, fin x + ninf = ninf := fun _ => rfl
  have h3 : ∀ x : ℝ, fin x + nan = nan := fun _ => rfl
  rcases hi : l i with a | _ | _ | _ <;> rcases hj : l j with b | _ | _ | _
  all_goals try simp [XR.better, ltB, h1, h2, h3, XR.fin_add, -MeasurableSet.empty]
  all_goals try exact MeasurableSet.empty
  exact measurableSet_setOfPred.1 (measurableSet_lt (f := fun g : Fin (n + 1) → ℝ => g j + b) (g := fun g => g i + a)
    (by fun_prop) (by fun_prop))

theorem argmax_measurable {n : ℕ} (l : Fin (n + 1) → XR) :
    Measurable fun g : Fin (n + 1) → ℝ => argmaxIdx fun i => fin (g i) + l i := by
  classical
  have fold : ∀ (js : List (Fin (n + 1))) (b : (Fin (n + 1) → ℝ) → Fin (n + 1)), Measurable b →
      Measurable fun g => js.foldl (fun b j => if XR.better (fin (g j) + l j) (fin (g b) + l b) then j else b) (b g) := by
    intro js
    induction js with
    | nil => intro b hb; exact hb
    | cons j js ih =>
      intro b hb
      refine ih (fun g => if XR.better (fin (g j) + l j) (fin (g (b g)) + l (b g)) then j else b g) ?_
      refine Measurable.ite ?_ measurable_const hb
      have e : {g : Fin (n + 1) → ℝ | XR.better (fin (g j) + l j) (fin (g (b g)) + l (b g))}
          = ⋃ k, b ⁻¹' {k} ∩ {g | XR.better (fin (g j) + l j) (fin (g k) + l k)} := by
        ext g
        simp only [Set.mem_iUnion, Set.mem_inter_iff, Set.mem_preimage, Set.mem_singleton_iff]
        exact ⟨fun h => ⟨b g, rfl, h⟩, fun ⟨k, h1, h2⟩ => by subst h1; exact h2⟩
      rw [e]
      exact MeasurableSet.iUnion fun k => (hb (measurableSet_singleton k)).inter (better_measurable l j k)
  have := fold (List.finRange (n + 1)) (fun _ => 0) measurable_const
  have e : (fun g : Fin (n + 1) → ℝ => argmaxIdx fun i => fin (g i) + l i) = fun g =>
      (List.finRange (n + 1)).foldl (fun b j => if XR.better (fin (g j) + l j) (fin (g b) + l b) then j else b) 0 := by
    funext g; unfold argmaxIdx; congr
  rw [e]; exact this

theorem cat_law {n : ℕ} {d : Cat (n + 1)} {p : Fin (n + 1) → ℝ} (h : HasPmf d p) :
    Measurable d.sample ∧ (gumbelRow (n + 1)).map d.sample = pmfLaw p := by
  have hm : Measurable d.sample := by
    have e : d.sample = fun g => (((argmaxIdx fun i => fin (g i) + d.logits i : Fin (n + 1)) : ℕ) : ℤ) :=
      funext fun g => if_pos h.isValid
    rw [e]
    exact (measurable_of_countable (fun k : Fin (n + 1) => ((k : ℕ) : ℤ))).comp (argmax_measurable d.logits)
  have hg : Measurable fun (u : Fin (n + 1) → ℝ) i => gumbelOf (u i) :=
    measurable_pi_lambda _ fun i => by unfold gumbelOf; fun_prop
  refine ⟨hm, ?_⟩
  unfold gumbelRow
  rw [Measure.map_map hm hg]
  refine Measure.ext_of_singleton fun z => ?_
  rw [Measure.map_apply (hm.comp hg) (measurableSet_singleton z)]
  by_cases hz : ∃ k : Fin (n + 1), z = ((k : ℕ) : ℤ)
  · obtain ⟨k, rfl⟩ := hz
    refine (C24_sample_law h k).trans ?_
    unfold pmfLaw
    rw [Measure.finsetSum_apply, Finset.sum_eq_single k]
    · simp
    · intro j _ hj
      have : ((j : ℕ) : ℤ) ≠ ((k : ℕ) : ℤ) := fun e => hj (Fin.ext (by exact_mod_cast e))
      simp [this]
    · simp
  · have e1 : d.sample ∘ (fun (u : Fin (n + 1) → ℝ) i => gumbelOf (u i)) ⁻¹' {z} = ∅ := by
      ext u
      simp only [Set.mem_preimage, Function.comp, Set.mem_singleton_iff, Set.mem_empty_iff_false, iff_false]
      intro e
      refine hz ⟨argmaxIdx fun i => fin (gumbelOf (u i)) + d.logits i, ?_⟩
      rw [← e]; exact if_pos h.isValid
    rw [e1]
    unfold pmfLaw
    rw [Measure.finsetSum_apply]
    symm
    simp only [measure_empty]
    refine Finset.sum_eq_zero fun j _ => ?_
    have : ((j : ℕ) : ℤ) ≠ z := fun e => hz ⟨j, e.symm⟩
    simp [this]

/-- `Categorical(...).sample(...)` (and `Greedy`, `EpsilonGreedy`, `Softmax`, whose `_sample_n` it is): independent categories with
the probabilities of their batch rows. -/
theorem C59_categorical {n : ℕ} (d : CatB (n + 1)) (p : List ℕ → Fin (n + 1) → ℝ)
    (hone : d.probs?.isSome ↔ d.logits?.isNone) (hp : ∀ b, InRange d.batch b → HasPmf (d.entry b) (p b)) :
    SamplesIndependent d.batch d.sampleA (fun _ => gumbelRow (n + 1)) (fun b => pmfLaw (p b)) := by
  have hprob : IsProbabilityMeasure (gumbelRow (n + 1)) := by
    have h1 : IsProbabilityMeasure unit := ⟨by simp [unit]⟩
    have h2 : IsProbabilityMeasure (unitN (n + 1)) := by unfold unitN; infer_instance
    exact Measure.isProbabilityMeasure_map (measurable_pi_lambda _ fun i => by unfold gumbelOf; fun_prop).aemeasurable
  refine samplesIndependent (f := fun b => (d.entry b).sample) (fun m rnd hr => ?_) _ _ (fun _ _ => hprob)
    (fun b hb => (cat_law (hp b hb)).1) fun b hb => (cat_law (hp b hb)).2
  have hU : EW (m :: d.batch) (AE.arr rnd) [m :: d.batch] (bget rnd) := by
    have := EW.arr (a := rnd) (T := m :: d.batch) (by rw [hr]; exact BLe.refl _)
    rwa [hr] at this
  obtain ⟨ps, ls, dt⟩ := d
  rcases ps with _ | pr <;> rcases ls with _ | lo
  · simp at hone
  · have hl : EW (m :: lo.shape) (AE.arr lo) [lo.shape] (bget lo) := EW.arr (BLe.lead _ _)
    refine EW.perEntry (EW.whr (hl.map _ |>.map _) (EW.bin hU hl _) ((EW.bin hU hl _).map _)) (fun w hw _ => hw _ (by simp [CatB.batch])) fun i hi => ?_
    cases hi with
    | @cons k _ b _ hk hb =>
      rw [bget_full hr (List.Forall₂.cons hk hb),
        show bget lo (k :: b) = lo.data b from (bget_lead (i := [k]) (BLe.refl _) hb).trans (bget_full rfl hb)]
      rfl
  · have hl : EW (m :: pr.shape) (AE.arr pr) [pr.shape] (bget pr) := EW.arr (BLe.lead _ _)
    have hL := hl.map fun (r : Fin (n + 1) → XR) i => XR.log (r i)
    refine EW.perEntry (EW.whr (hl.map _) (EW.bin hU hL _) ((EW.bin hU hL _).map _)) (fun w hw _ => hw _ (by simp [CatB.batch])) fun i hi => ?_
    cases hi with
    | @cons k _ b _ hk hb =>
      rw [bget_full hr (List.Forall₂.cons hk hb),
        show bget pr (k :: b) = pr.data b from (bget_lead (i := [k]) (BLe.refl _) hb).trans (bget_full rfl hb)]
      rfl
  · simp at hone

/-- `Categorical(logits=l).sample(...)` for an array `l` of legal logits rows: independent categories, and category `k` at batch
position `b` has probability `exp l[b, k] / ∑ j, exp l[b, j]`. -/
theorem C59_categorical_logits {n : ℕ} (l : BArr (Fin (n + 1) → XR)) (dt : DType) (d : CatB (n + 1))
    (hi : CatB.init (some l) none dt = .ok d) (hl : ∀ b, InRange l.shape b → LegalLogits (l.data b)) :
    SamplesIndependent l.shape d.sampleA (fun _ => gumbelRow (n + 1))
      (fun b => pmfLaw fun k => weight (l.data b k) / ∑ j, weight (l.data b j)) := by
  have hdt : dt ≠ .other := by rintro rfl; simp [CatB.init] at hi
  have e : d = ⟨none, some (l.map normalizeLogits), dt⟩ := by
    unfold CatB.init at hi; cases dt <;> simp_all
  subst e
  refine C59_categorical (⟨none, some (l.map normalizeLogits), dt⟩ : CatB (n + 1)) _ (by simp) fun b hb => ?_
  obtain ⟨c, p, h1, h2, h3⟩ := C24_from_logits (hl b hb) dt hdt
  have e : c = (⟨none, some (normalizeLogits (l.data b))⟩ : Cat (n + 1)) := by
    unfold Cat.init at h1; cases dt <;> simp_all
  subst e
  have : p = fun k => weight (l.data b k) / ∑ j, weight (l.data b j) := funext h3
  subst this
  exact h2

/-- `Categorical(probs=w).sample(...)` for an array `w` of rows of nonnegative weights with positive sums: independent categories,
and category `k` at batch position `b` has probability `w[b, k] / ∑ j, w[b, j]`. -/
theorem C59_categorical_probs {n : ℕ} (w : BArr (Fin (n + 1) → ℝ)) (dt : DType) (d : CatB (n + 1))
    (hi : CatB.init none (some (w.map fun r i => fin (r i))) dt = .ok d)
    (hw : ∀ b, InRange w.shape b → (∀ k, 0 ≤ w.data b k) ∧ 0 < ∑ k, w.data b k) :
    SamplesIndependent w.shape d.sampleA (fun _ => gumbelRow (n + 1))
      (fun b => pmfLaw fun k => w.data b k / ∑ j, w.data b j) := by
  have hdt : dt ≠ .other := by rintro rfl; simp [CatB.init] at hi
  have e : d = ⟨some ((w.map fun r i => fin (r i)).map normalizeProbs), none, dt⟩ := by
    unfold CatB.init at hi; cases dt <;> simp_all
  subst e
  refine C59_categorical (⟨some ((w.map fun r i => fin (r i)).map normalizeProbs), none, dt⟩ : CatB (n + 1)) _ (by simp) fun b hb => ?_
  obtain ⟨c, p, h1, h2, h3⟩ := C24_from_probs (w.data b) (hw b hb).1 (hw b hb).2 dt hdt
  have e : c = (⟨some (normalizeProbs fun i => fin (w.data b i)), none⟩ : Cat (n + 1)) := by
    unfold Cat.init at h1; cases dt <;> simp_all
  subst e
  have : p = fun k => w.data b k / ∑ j, w.data b j := funext h3
  subst this
  exact h2

example : ∃ d, CatB.init (some ⟨[2], fun _ => ![fin 1, ninf, fin 2]⟩) none .integer = .ok d ∧
    ∀ b, InRange [2] b → LegalLogits ((fun _ => ![fin 1, ninf, fin 2] : List ℕ → Fin 3 → XR) b) :=
  ⟨_, rfl, fun _ _ => ⟨by intro i; fin_cases i <;> simp, 0, 1, rfl⟩⟩

end Distrax
