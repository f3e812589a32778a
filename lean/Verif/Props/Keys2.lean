import Verif.Props.Keys
import Verif.Props.HMMSample
import Verif.Props.ArrayLaw2

/-! C67, continued: hidden Markov models, von Mises, concrete primitives, nesting, and why the discipline is needed. -/

namespace Distrax.Keys

open Spec MeasureTheory ProbabilityTheory

variable {U : Type} [MeasurableSpace U] {μ : Measure U} [IsProbabilityMeasure μ]
variable {X Y : Type} [MeasurableSpace X] [MeasurableSpace Y]

theorem sample1_fresh {d : Sampler U X} {L : Measure X} (h : Draws μ d L) : FreshDraws μ (fun ω key => d.sample1 ω key) L := by
  have := draws_prob h
  refine ((h 1).map (g := fun x => x 0) (by fun_prop)).congr (fun _ _ => rfl) ?_
  exact (measurePreserving_eval (fun _ : Fin 1 => L) 0).map_eq

theorem hmm_sample_congr {K : ℕ} {O : Type} (a : Fin K) (T T' : ℕ → Fin K → Fin K) (D D' : ℕ → Fin K → O) (n : ℕ)
    (hT : ∀ t < n, T t = T' t) (hD : ∀ t < n + 1, D t = D' t) : HMM.sample a T D (n + 1) = HMM.sample a T' D' (n + 1) := by
  have hs : ∀ t ≤ n, HMM.sState a T t = HMM.sState a T' t := by
    intro t
    induction t with
    | zero => intro _; rfl
    | succ t ih => intro h; simp only [HMM.sState]; rw [ih (by omega), hT t (by omega)]
  rw [HMM.sample_eq, HMM.sample_eq]
  refine Prod.ext (List.map_congr_left fun t ht => hs t ?_) (List.map_congr_left fun t ht => ?_)
  · have := List.mem_range.1 ht; omega
  · have := List.mem_range.1 ht
    rw [hs t (by omega), hD t this]

/-- The hidden Markov model's `sample` with an ideal generator: whatever the seed, the probability that the returned states are the
path `z` and the observations lie in `B_0, …, B_n` is that of the hidden Markov model whose initial, transition and observation laws are
those of the three distributions. -/
theorem C67_hmm {K : ℕ} {O : Type} [MeasurableSpace O] [Inhabited O] {init : Sampler U (Fin K)} {trans : Sampler U (Fin K → Fin K)}
    {obs : Sampler U (Fin K → O)} {LI : Measure (Fin K)} {LT : Measure (Fin K → Fin K)} {LO : Measure (Fin K → O)}
    (hI : Draws μ init LI) (hT : Draws μ trans LT) (hO : Draws μ obs LO) {P : Measure (PKey → U)} (hP : IdealPRNG μ P)
    (seed : PKey) (n : ℕ) (z : Fin (n + 1) → Fin K) (B : Fin (n + 1) → Set O) (hB : ∀ t, MeasurableSet (B t)) :
    P {ω | (hmmSample init trans obs ω seed (n + 1)).1 = List.ofFn z ∧
        List.Forall₂ (fun o b => o ∈ b) (hmmSample init trans obs ω seed (n + 1)).2 (List.ofFn B)} =
      LI {z 0} * (∏ t : Fin n, LT {T | T (z t.castSucc) = z t.succ}) * ∏ t : Fin (n + 1), LO {o | o (z t) ∈ B t} := by
  have := draws_prob hI
  have := draws_prob hT
  have := draws_prob hO
  have hqT' : Unrelated fun t : Fin n => [(t : ℕ)] := fun i j h => by simpa [Fin.ext_iff] using h
  have hqO' : Unrelated fun t : Fin (n + 1) => [(t : ℕ)] := fun i j h => by simpa [Fin.ext_iff] using h
  have fT := FreshDraws.fam (fun _ : Fin n => sample1_fresh hT) hqT'
  have fO := FreshDraws.fam (fun _ : Fin (n + 1) => sample1_fresh hO) hqO'
  have fTO := fT.pair fO (a := [0]) (b := [1]) (by decide) (by decide)
  have f := (sample1_fresh hI).pair fTO (a := [1]) (b := [0]) (by decide) (by decide)
  have hl := f.law hP seed
  have key := HMM.C46_sample_law_general LI LT LO id id id (fun k => LI {k}) (fun i j => LT {T | T i = j})
    (fun k => LO.map fun o => o k) (fun k => rfl) (fun i j => rfl)
    (fun k B hB => (Measure.map_apply (measurable_pi_apply k) hB).symm) n z B hB default
  rw [show (∏ t : Fin (n + 1), LO {o | o (z t) ∈ B t}) = ∏ t : Fin (n + 1), (LO.map fun o => o (z t)) (B t) from
    Finset.prod_congr rfl fun t _ => (Measure.map_apply (measurable_pi_apply _) (hB t)).symm, ← key, ← hl]
  have hmeas : AEMeasurable (fun ω : PKey → U => (init.sample1 ω (seed ++ [1]),
      (fun t : Fin n => trans.sample1 ω (seed ++ [0] ++ [0] ++ [(t : ℕ)])),
      (fun t : Fin (n + 1) => obs.sample1 ω (seed ++ [0] ++ [1] ++ [(t : ℕ)])))) P := by
    by_contra h
    rw [Measure.map_of_not_aemeasurable h] at hl
    exact IsProbabilityMeasure.ne_zero _ hl.symm
  rw [Measure.map_apply_of_aemeasurable hmeas]
  · congr 1
    ext ω
    simp only [Set.mem_ofPred_eq, Set.mem_preimage, hmmSample, split, id]
    rw [hmm_sample_congr _ _ (fun t i => if ht : t < n then trans.sample1 ω (seed ++ [0] ++ [0] ++ [t]) i else i) _
      (fun t k => if ht : t < n + 1 then obs.sample1 ω (seed ++ [0] ++ [1] ++ [t]) k else default) n]
    · intro t ht; funext i; rw [dif_pos ht]
    · intro t ht; funext i; rw [dif_pos ht]
  · have e : {ω : Fin K × (Fin n → Fin K → Fin K) × (Fin (n + 1) → Fin K → O) |
        (HMM.sample (id ω.1) (fun t i => if ht : t < n then id (ω.2.1 ⟨t, ht⟩) i else i)
            (fun t k => if ht : t < n + 1 then id (ω.2.2 ⟨t, ht⟩) k else default) (n + 1)).1 = List.ofFn z ∧
          List.Forall₂ (fun o b => o ∈ b)
            (HMM.sample (id ω.1) (fun t i => if ht : t < n then id (ω.2.1 ⟨t, ht⟩) i else i)
              (fun t k => if ht : t < n + 1 then id (ω.2.2 ⟨t, ht⟩) k else default) (n + 1)).2 (List.ofFn B)} =
        {ω | ω.1 = z 0} ∩ ((⋂ t : Fin n, {ω | ω.2.1 t (z t.castSucc) = z t.succ}) ∩ ⋂ t : Fin (n + 1), {ω | ω.2.2 t (z t) ∈ B t}) := by
      ext ω
      rw [Set.mem_ofPred_eq, HMM.sample_mem_iff]
      simp only [id, Fin.is_lt, dite_true, Fin.eta, Set.mem_inter_iff, Set.mem_ofPred_eq, Set.mem_iInter]
    rw [e]
    refine MeasurableSet.inter ?_ (MeasurableSet.inter (MeasurableSet.iInter fun t => ?_) (MeasurableSet.iInter fun t => ?_))
    · exact measurable_fst (measurableSet_singleton _)
    · exact (measurableSet_singleton (z t.succ)).preimage (by fun_prop : Measurable fun ω : Fin K × (Fin n → Fin K → Fin K) × (Fin (n + 1) → Fin K → O) => ω.2.1 t (z t.castSucc))
    · exact (hB t).preimage (by fun_prop : Measurable fun ω : Fin K × (Fin n → Fin K → Fin K) × (Fin (n + 1) → Fin K → O) => ω.2.2 t (z t))

/-! ### von Mises -/

open VonMises

/-- Measurability of an array of loop states. -/
def MSt {Ω : Type} [MeasurableSpace Ω] {m : ℕ} (S : Ω → Fin m → LoopSt) : Prop :=
  ∀ i, (Measurable fun ω => (S ω i).done) ∧ (Measurable fun ω => (S ω i).u) ∧ Measurable fun ω => (S ω i).w

theorem loop_meas {Ω : Type} [MeasurableSpace Ω] {m : ℕ} (k s : Fin m → ℝ) : ∀ (ls : List (Ω → Fin m → ℝ × ℝ)),
    (∀ l ∈ ls, Measurable l) → ∀ S : Ω → Fin m → LoopSt, MSt S → MSt fun ω => whileLoop k s (ls.map fun l => l ω) (S ω)
  | [], _, S, hS => hS
  | l :: ls, hl, S, hS => by
    have hli : ∀ i, Measurable fun ω => l ω i := fun i => (measurable_pi_apply i).comp (hl l (by simp))
    have hbody : MSt fun ω i => loopBody (k i) (s i) (S ω i) (l ω i) := by
      intro i
      have hd : MeasurableSet {ω | (S ω i).done = true} := (hS i).1 (measurableSet_singleton true)
      have hw : Measurable fun ω => if (S ω i).done then (S ω i).w else candidate (s i) (l ω i).1 :=
        Measurable.ite hd (hS i).2.2 ((candidate_measurable (s i)).comp (hli i).fst)
      refine ⟨?_, (hli i).fst, hw⟩
      refine measurable_to_bool ?_
      have e : (fun ω => (loopBody (k i) (s i) (S ω i) (l ω i)).done) ⁻¹' {true} =
          {ω | (S ω i).done = true} ∪ {ω | (k i * (s i - (if (S ω i).done then (S ω i).w else candidate (s i) (l ω i).1))) *
            Real.exp (1 - (k i * (s i - (if (S ω i).done then (S ω i).w else candidate (s i) (l ω i).1)))) < (l ω i).2}ᶜ := by
        ext ω
        simp only [loopBody, Set.mem_preimage, Set.mem_singleton_iff, Bool.or_eq_true, Set.mem_union,
          Set.mem_ofPred_eq, Set.mem_compl_iff, decide_eq_true_iff]
        exact or_comm
      rw [e]
      refine hd.union (MeasurableSet.compl ?_)
      exact measurableSet_lt ((measurable_const.mul (measurable_const.sub hw)).mul
        (Real.measurable_exp.comp (measurable_const.sub (measurable_const.mul (measurable_const.sub hw))))) (hli i).snd
    have ih := loop_meas k s ls (fun l' h => hl l' (by simp [h])) _ hbody
    have hc : MeasurableSet {ω | ∃ i, (S ω i).done = false} := by
      rw [show {ω | ∃ i, (S ω i).done = false} = ⋃ i, {ω | (S ω i).done = false} by ext; simp]
      exact MeasurableSet.iUnion fun i => (hS i).1 (measurableSet_singleton false)
    classical
    have e : ∀ ω, whileLoop k s ((l :: ls).map fun l => l ω) (S ω) =
        if ω ∈ {ω | ∃ i, (S ω i).done = false} then
          whileLoop k s (ls.map fun l => l ω) (fun i => loopBody (k i) (s i) (S ω i) (l ω i)) else S ω := by
      intro ω
      by_cases h : ∃ i, (S ω i).done = false
      · rw [if_pos (show ω ∈ {ω | ∃ i, (S ω i).done = false} from h)]
        exact if_pos h
      · rw [if_neg (show ω ∉ {ω | ∃ i, (S ω i).done = false} from h)]
        exact if_neg h
    intro i
    simp only [e]
    have pick : ∀ {β : Type} (f : LoopSt → β) (ω : Ω),
        f ((if ω ∈ {ω | ∃ i, (S ω i).done = false} then
          whileLoop k s (ls.map fun l => l ω) (fun i => loopBody (k i) (s i) (S ω i) (l ω i)) else S ω) i) =
        if ω ∈ {ω | ∃ i, (S ω i).done = false} then
          f (whileLoop k s (ls.map fun l => l ω) (fun i => loopBody (k i) (s i) (S ω i) (l ω i)) i) else f (S ω i) := by
      intro β f ω
      split_ifs <;> rfl
    simp only [pick LoopSt.done, pick LoopSt.u, pick LoopSt.w]
    exact ⟨Measurable.ite hc (ih i).1 (hS i).1, Measurable.ite hc (ih i).2.1 (hS i).2.1, Measurable.ite hc (ih i).2.2 (hS i).2.2⟩

theorem roundsExp_pi {E : Type} [MeasurableSpace E] (ν : Measure E) [IsProbabilityMeasure ν] : ∀ (n : ℕ) (f : List E → ENNReal),
    (Measurable fun x : Fin n → E => f (List.ofFn x)) → roundsExp ν n f = ∫⁻ x, f (List.ofFn x) ∂(Measure.pi fun _ : Fin n => ν)
  | 0, f, _ => by
    rw [Measure.pi_of_empty, lintegral_dirac]
    simp [roundsExp]
  | n + 1, f, hf => by
    have h2 := (measurePreserving_piFinSuccAbove (fun _ : Fin (n + 1) => ν) 0).symm
    have hcons : ∀ y : E × (Fin n → E), (MeasurableEquiv.piFinSuccAbove (fun _ : Fin (n + 1) => E) 0).symm y = Fin.cons y.1 y.2 := by
      intro y
      funext i
      refine Fin.cases rfl (fun j => rfl) i
    have hf' : Measurable fun y : E × (Fin n → E) => f (y.1 :: List.ofFn y.2) := by
      have := hf.comp h2.measurable
      rw [show (fun y : E × (Fin n → E) => f (y.1 :: List.ofFn y.2)) = (fun x : Fin (n + 1) → E => f (List.ofFn x)) ∘
        (MeasurableEquiv.piFinSuccAbove (fun _ : Fin (n + 1) => E) 0).symm from funext fun y => by
          simp only [Function.comp, hcons, List.ofFn_succ, Fin.cons_zero, Fin.cons_succ]]
      exact this
    rw [← h2.lintegral_comp_emb (MeasurableEquiv.measurableEmbedding _)]
    simp only [hcons, List.ofFn_succ, Fin.cons_zero, Fin.cons_succ]
    rw [lintegral_prod _ hf'.aemeasurable, roundsExp]
    refine lintegral_congr fun x => ?_
    exact roundsExp_pi ν n (fun xs => f (x :: xs)) (hf'.comp (by fun_prop : Measurable fun z : Fin n → E => (x, z)))

/-- The draws of the rounds as a function. -/
def roundsOf {m : ℕ} (f g : U → Fin m → ℝ) (ω : PKey → U) : (n : ℕ) → PKey → Fin n → Fin m → ℝ × ℝ
  | 0, _ => Fin.elim0
  | n + 1, key => Fin.cons (fun i => (f (ω (key ++ [0])) i, g (ω (key ++ [1])) i)) (roundsOf f g ω n (key ++ [2]))

omit [MeasurableSpace U] in
theorem vonMisesDraws_eq {m : ℕ} (f g : U → Fin m → ℝ) (ω : PKey → U) : ∀ (n : ℕ) (key : PKey),
    vonMisesDraws f g ω n key = List.ofFn (roundsOf f g ω n key)
  | 0, _ => by simp [vonMisesDraws]
  | n + 1, key => by
    rw [vonMisesDraws, vonMisesDraws_eq f g ω n, List.ofFn_succ]
    rfl

theorem roundsOf_fresh {m : ℕ} {f g : U → Fin m → ℝ} (hf : Measurable f) (hg : Measurable g)
    (hfl : μ.map f = Measure.pi fun _ => ENNReal.ofReal (1 / 2) • volume.restrict (Set.Ioo (-1 : ℝ) 1))
    (hgl : μ.map g = Measure.pi fun _ => Spec.unit) : ∀ n : ℕ,
    FreshDraws μ (fun ω key => roundsOf f g ω n key) (Measure.pi fun _ : Fin n => arrayNoise m)
  | 0 => by
    refine (FreshDraws.const Fin.elim0).congr (fun _ _ => rfl) ?_
    rw [Measure.pi_of_empty]
    congr 1
  | n + 1 => by
    have h0 := ((FreshDraws.read (μ := μ)).map hf).under [0]
    have h1 := ((FreshDraws.read (μ := μ)).map hg).under [1]
    have h2 := (roundsOf_fresh hf hg hfl hgl n).under [2]
    have h01 := (h0.pair h1 (disj (by decide))).map (g := fun x (i : Fin m) => (x.1 i, x.2 i)) (by fun_prop)
    have e01 : ((μ.map f).prod (μ.map g)).map (fun x (i : Fin m) => (x.1 i, x.2 i)) = arrayNoise m := by
      rw [hfl, hgl]
      exact (measurePreserving_arrowProdEquivProdArrow ℝ ℝ (Fin m) (fun _ => ENNReal.ofReal (1 / 2) • volume.restrict (Set.Ioo (-1 : ℝ) 1))
        (fun _ => Spec.unit)).symm.map_eq
    rw [e01] at h01
    have h := (h01.pair h2 (fun a ha b hb => ha.elim (fun ha => disj (by decide) a ha b hb) fun ha => disj (by decide) a ha b hb)).fresh
    have hp := (measurePreserving_piFinSuccAbove (fun _ : Fin (n + 1) => arrayNoise m) 0).symm
    refine (h.map hp.measurable).congr (fun ω key => ?_) hp.map_eq
    funext i
    refine Fin.cases rfl (fun j => rfl) i

theorem sign_meas : Measurable fun u : ℝ => ((SignType.sign u : SignType) : ℝ) := by
  have e : (fun u : ℝ => ((SignType.sign u : SignType) : ℝ)) = fun u => if 0 < u then 1 else if u < 0 then -1 else 0 := by
    funext u
    split_ifs with h1 h2
    · rw [sign_pos h1]; simp
    · rw [sign_neg h2]; simp
    · rw [show u = 0 by linarith, sign_zero]; simp
  rw [e]
  exact Measurable.ite measurableSet_Ioi measurable_const (Measurable.ite measurableSet_Iio measurable_const measurable_const)

theorem von_mises_rounds (N : ℕ) {m : ℕ} (d : Fin m → VonMises) (hk : ∀ i, 0 < (d i).concentration) (cutoff : ℝ) (h0 : 0 ≤ cutoff)
    (h1 : cutoff < 1) {uniformPm uniform01 : U → Fin m → ℝ} (hf : Measurable uniformPm) (hg : Measurable uniform01)
    (hfl : μ.map uniformPm = Measure.pi fun _ => ENNReal.ofReal (1 / 2) • volume.restrict (Set.Ioo (-1 : ℝ) 1))
    (hgl : μ.map uniform01 = Measure.pi fun _ => Spec.unit) :
    ∃ a : Fin m → ℝ, (∀ i, 0 < a i ∧ a i ≤ 1) ∧ ∀ (P : Measure (PKey → U)), IdealPRNG μ P → ∀ (key : PKey) (B : Fin m → Set ℝ),
      (∀ i, MeasurableSet (B i)) →
      P {ω | (∀ i, (whileLoop (fun i => (d i).concentration) (fun i => proposalS cutoff (d i).concentration)
            (vonMisesDraws uniformPm uniform01 ω N key) (fun _ => initSt) i).done = true) ∧
          ∀ i, VonMises.sampleN cutoff d (vonMisesDraws uniformPm uniform01 ω N key) i ∈ B i} =
        (∏ i, ENNReal.ofReal (1 - (1 - a i) ^ N)) * ∏ i, ENNReal.ofReal (∫ x in turn ∩ B i, (d i).prob x) := by
  obtain ⟨a, ha, hlaw⟩ := C59_von_mises d hk cutoff h0 h1
  refine ⟨a, ha, fun P hP key B hB => ?_⟩
  rw [← hlaw N B hB]
  set k : Fin m → ℝ := fun i => (d i).concentration
  set s : Fin m → ℝ := fun i => proposalS cutoff (d i).concentration
  set A : List (Fin m → ℝ × ℝ) → Prop := fun draws => (∀ i, (whileLoop k s draws (fun _ => initSt) i).done = true) ∧
    ∀ i, sampleN cutoff d draws i ∈ B i with hA
  have hst : MSt fun x : Fin N → Fin m → ℝ × ℝ => whileLoop k s (List.ofFn x) (fun _ => initSt) := by
    have := loop_meas k s ((List.finRange N).map fun t => fun x : Fin N → Fin m → ℝ × ℝ => x t)
      (by
        intro l hl
        obtain ⟨t, _, rfl⟩ := List.mem_map.1 hl
        exact measurable_pi_apply t) (fun _ _ => initSt) (fun i => ⟨measurable_const, measurable_const, measurable_const⟩)
    refine (show (fun x : Fin N → Fin m → ℝ × ℝ => whileLoop k s (List.ofFn x) (fun _ => initSt)) = _ from ?_) ▸ this
    funext x
    rw [List.map_map, List.ofFn_eq_map]
    rfl
  have hAm : MeasurableSet {x : Fin N → Fin m → ℝ × ℝ | A (List.ofFn x)} := by
    have e : {x : Fin N → Fin m → ℝ × ℝ | A (List.ofFn x)} =
        (⋂ i, {x | (whileLoop k s (List.ofFn x) (fun _ => initSt) i).done = true}) ∩
        ⋂ i, {x | sampleN cutoff d (List.ofFn x) i ∈ B i} := by
      ext x; simp only [hA, Set.mem_ofPred_eq, Set.mem_inter_iff, Set.mem_iInter]
    rw [e]
    refine (MeasurableSet.iInter fun i => (hst i).1 (measurableSet_singleton true)).inter (MeasurableSet.iInter fun i => ?_)
    refine (hB i).preimage ?_
    refine convertAngle_measurable.comp (Measurable.add_const ?_ _)
    refine Measurable.mul ?_ (Real.continuous_arccos.measurable.comp (((hst i).2.2.max measurable_const).min measurable_const))
    exact sign_meas.comp (hst i).2.1
  have hl := (roundsOf_fresh hf hg hfl hgl N).law hP key
  have hpp : IsProbabilityMeasure (arrayNoise m) := inferInstance
  have hmeas : AEMeasurable (fun ω : PKey → U => roundsOf uniformPm uniform01 ω N key) P := by
    by_contra h
    rw [Measure.map_of_not_aemeasurable h] at hl
    exact IsProbabilityMeasure.ne_zero _ hl.symm
  classical
  have e1 : roundsProb (Measure.pi fun _ : Fin m => roundNoise) N A =
      (Measure.pi fun _ : Fin N => arrayNoise m) {x | A (List.ofFn x)} := by
    unfold roundsProb
    rw [roundsExp_pi]
    · rw [← lintegral_indicator_one hAm]
      refine lintegral_congr fun x => ?_
      simp only [Set.indicator, Set.mem_ofPred_eq, Pi.one_apply]
      congr
    · exact Measurable.ite hAm measurable_const measurable_const
  refine Eq.trans ?_ e1.symm
  rw [← hl, Measure.map_apply_of_aemeasurable hmeas hAm]
  congr 1
  ext ω
  simp only [vonMisesDraws_eq]
  rfl

/-- VonMises: given that the rejection loop ends by acceptance within its 100 rounds, the entries of the sample are independent and each
has the density `prob` of its own parameters - because every round draws with fresh keys. -/
theorem C67_von_mises {m : ℕ} (d : Fin m → VonMises) (hk : ∀ i, 0 < (d i).concentration) (cutoff : ℝ) (h0 : 0 ≤ cutoff)
    (h1 : cutoff < 1) {uniformPm uniform01 : U → Fin m → ℝ} (hf : Measurable uniformPm) (hg : Measurable uniform01)
    (hfl : μ.map uniformPm = Measure.pi fun _ => ENNReal.ofReal (1 / 2) • volume.restrict (Set.Ioo (-1 : ℝ) 1))
    (hgl : μ.map uniform01 = Measure.pi fun _ => Spec.unit) :
    ∃ a : Fin m → ℝ, (∀ i, 0 < a i ∧ a i ≤ 1) ∧ ∀ (P : Measure (PKey → U)), IdealPRNG μ P → ∀ (key : PKey) (B : Fin m → Set ℝ),
      (∀ i, MeasurableSet (B i)) →
      P {ω | (∀ i, (whileLoop (fun i => (d i).concentration) (fun i => proposalS cutoff (d i).concentration)
            (vonMisesDraws uniformPm uniform01 ω 100 key) (fun _ => initSt) i).done = true) ∧
          ∀ i, vonMisesSampleN uniformPm uniform01 cutoff d ω key i ∈ B i} =
        (∏ i, ENNReal.ofReal (1 - (1 - a i) ^ 100)) * ∏ i, ENNReal.ofReal (∫ x in turn ∩ B i, (d i).prob x) :=
  von_mises_rounds 100 d hk cutoff h0 h1 hf hg hfl hgl

end Distrax.Keys
