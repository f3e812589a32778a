import Verif.Lemmas.Keys
import Verif.Props.Mixture
import Verif.Spec.Categorical

/-! C67: composite samplers obey the key discipline and draw from the composite law. -/

namespace Distrax.Keys

open Spec MeasureTheory ProbabilityTheory

variable {U : Type} [MeasurableSpace U] {μ : Measure U} [IsProbabilityMeasure μ]
variable {X Y : Type} [MeasurableSpace X] [MeasurableSpace Y]

theorem draws_prob {d : Sampler U X} {L : Measure X} (h : Draws μ d L) : IsProbabilityMeasure L := by
  have h1 := (h 1).prob
  rw [← (measurePreserving_piUnique fun _ : Fin 1 => L).map_eq]
  exact Measure.isProbabilityMeasure_map (MeasurableEquiv.measurable _).aemeasurable

/-- **C67 (meaning).**  With an ideal generator, whatever the key and the number of draws: the draws are independent and each has
law `L`. -/
theorem C67_meaning {d : Sampler U X} {L : Measure X} (h : Draws μ d L) {P : Measure (PKey → U)} (hP : IdealPRNG μ P)
    (key : PKey) (n : ℕ) : P.map (fun ω => d.sampleN ω key n) = Measure.pi fun _ : Fin n => L :=
  (h n).law hP key

/-- Calls with unrelated keys (for instance two children of one split) are independent. -/
theorem C67_separate_keys {d : Sampler U X} {L : Measure X} (h : Draws μ d L) {d' : Sampler U Y} {L' : Measure Y}
    (h' : Draws μ d' L') {P : Measure (PKey → U)} (hP : IdealPRNG μ P) (key key' : PKey) (h1 : ¬key <+: key') (h2 : ¬key' <+: key)
    (n m : ℕ) : P.map (fun ω => (d.sampleN ω key n, d'.sampleN ω key' m)) =
      (Measure.pi fun _ : Fin n => L).prod (Measure.pi fun _ : Fin m => L') := by
  have := ((h n).pair (h' m) h1 h2).law hP []
  simpa using this

/-- A primitive sampler: its one call of the generator is all it does. -/
theorem C67_primitive {g : (n : ℕ) → U → Fin n → X} {L : Measure X} (hm : ∀ n, Measurable (g n))
    (hg : ∀ n, μ.map (g n) = Measure.pi fun _ : Fin n => L) : Draws μ (Sampler.prim g) L := fun n =>
  (FreshDraws.read.map (hm n)).congr (fun _ _ => rfl) (hg n)

theorem pi_dirac {J : Type} [Fintype J] {X : J → Type} [∀ j, MeasurableSpace (X j)] (x : (j : J) → X j) :
    Measure.pi (fun j => Measure.dirac (x j)) = Measure.dirac x := by
  symm
  refine (Measure.pi_eq fun s hs => ?_).symm
  rw [Measure.dirac_apply' _ (MeasurableSet.univ_pi hs)]
  simp only [Measure.dirac_apply' _ (hs _)]
  classical
  by_cases h : x ∈ Set.univ.pi s
  · rw [Set.indicator_of_mem h, Finset.prod_eq_one]; rfl
    intro j _
    rw [Set.indicator_of_mem (h j trivial)]; rfl
  · rw [Set.indicator_of_notMem h]
    simp only [Set.mem_pi, Set.mem_univ, true_imp_iff, not_forall] at h
    obtain ⟨j, hj⟩ := h
    rw [Finset.prod_eq_zero (Finset.mem_univ j)]
    rw [Set.indicator_of_notMem hj]

theorem C67_deterministic (x : X) : Draws μ (Sampler.deterministic x : Sampler U X) (Measure.dirac x) := fun _ =>
  (FreshDraws.const _).congr (fun _ _ => rfl) (pi_dirac _).symm

theorem C67_independent {d : Sampler U X} {L : Measure X} (h : Draws μ d L) : Draws μ d.independent L := h

/-- A transformed distribution draws from the pushed-forward law. -/
theorem C67_transformed {d : Sampler U X} {L : Measure X} (h : Draws μ d L) {forward : X → Y} (hf : Measurable forward) :
    Draws μ (d.transformed forward) (L.map forward) := fun n => by
  have := draws_prob h
  have : IsProbabilityMeasure (L.map forward) := Measure.isProbabilityMeasure_map hf.aemeasurable
  refine ((h n).map (g := fun x i => forward (x i)) (by fun_prop)).congr (fun _ _ => rfl) ?_
  exact Measure.pi_map_pi fun _ => hf.aemeasurable

theorem pi_swap {J : Type} [Fintype J] {n : ℕ} {X : J → Type} [∀ j, MeasurableSpace (X j)] (L : (j : J) → Measure (X j))
    [∀ j, IsProbabilityMeasure (L j)] :
    (Measure.pi fun j => Measure.pi fun _ : Fin n => L j).map (fun x i j => x j i) = Measure.pi fun _ : Fin n => Measure.pi L := by
  simp only [← Measure.infinitePi_eq_pi]
  have e1 := Measure.infinitePi_map_piCurry (ι := J) (κ := fun _ => Fin n) (X := fun j _ => X j) (fun j _ => L j)
  have e2 := Measure.infinitePi_map_piCurry (ι := Fin n) (κ := fun _ => J) (X := fun _ j => X j) (fun _ j => L j)
  have e3 := Measure.map_infinitePi_infinitePi_of_inj (α := (_ : Fin n) × J) (ι := (_ : J) × Fin n) (Ω := fun p => X p.1)
    (P := fun p => L p.1) (f := fun p => ⟨p.2, p.1⟩) (by rintro ⟨a, b⟩ ⟨c, d⟩ h; simp at h; obtain ⟨rfl, rfl⟩ := h; rfl)
  rw [← e1, ← e2, Measure.map_map (by fun_prop) (by fun_prop)]
  refine Eq.trans ?_ (congrArg (Measure.map _) e3)
  rw [Measure.map_map (by fun_prop) (by fun_prop)]
  rfl

/-- The leaves of a Joint are drawn independently. -/
theorem C67_joint {m : ℕ} {X : Fin m → Type} [∀ i, MeasurableSpace (X i)] {d : (i : Fin m) → Sampler U (X i)}
    {L : (i : Fin m) → Measure (X i)} (h : ∀ i, Draws μ (d i) (L i)) : Draws μ (Sampler.joint d) (Measure.pi L) := fun n => by
  have := fun i => draws_prob (h i)
  have hq : Unrelated fun i : Fin m => [(i : ℕ)] := fun i j hij => by
    simpa [Fin.ext_iff] using hij
  have h1 := FreshDraws.fam (fun i => h i n) hq
  exact (h1.map (g := fun x j i => x i j) (by fun_prop)).congr (fun _ _ => rfl) (pi_swap L)

theorem zip_law {n : ℕ} (A : Measure X) (B : Measure Y) [IsProbabilityMeasure A] [IsProbabilityMeasure B] :
    ((Measure.pi fun _ : Fin n => A).prod (Measure.pi fun _ : Fin n => B)).map (fun x i => (x.1 i, x.2 i)) =
      Measure.pi fun _ : Fin n => A.prod B :=
  (measurePreserving_arrowProdEquivProdArrow X Y (Fin n) (fun _ => A) (fun _ => B)).symm.map_eq

theorem pi_map_each {J : Type} [Fintype J] {Z : Type} [MeasurableSpace Z] (A : Measure X) [IsProbabilityMeasure A] {g : X → Z} (hg : Measurable g) :
    (Measure.pi fun _ : J => A).map (fun x i => g (x i)) = Measure.pi fun _ : J => A.map g := by
  have : IsProbabilityMeasure (A.map g) := Measure.isProbabilityMeasure_map hg.aemeasurable
  exact Measure.pi_map_pi fun _ => hg.aemeasurable

theorem zip_map {n : ℕ} {Z : Type} [MeasurableSpace Z] (A : Measure X) (B : Measure Y) [IsProbabilityMeasure A] [IsProbabilityMeasure B]
    {g : X × Y → Z} (hg : Measurable g) :
    ((Measure.pi fun _ : Fin n => A).prod (Measure.pi fun _ : Fin n => B)).map (fun x i => g (x.1 i, x.2 i)) =
      Measure.pi fun _ : Fin n => (A.prod B).map g := by
  have hm : Measurable fun (x : Fin n → X × Y) i => g (x i) := measurable_pi_lambda _ fun i => hg.comp (measurable_pi_apply i)
  rw [← pi_map_each _ hg, ← zip_law, Measure.map_map hm (by fun_prop)]
  rfl

theorem Draws.zip {d : Sampler U X} {L : Measure X} (h : Draws μ d L) {d' : Sampler U Y} {L' : Measure Y} (h' : Draws μ d' L')
    {a b : PKey} (hab : ¬a <+: b) (hba : ¬b <+: a) (n : ℕ) :
    FreshDraws μ (fun ω key (i : Fin n) => (d.sampleN ω (key ++ a) n i, d'.sampleN ω (key ++ b) n i))
      (Measure.pi fun _ : Fin n => L.prod L') := by
  have := draws_prob h
  have := draws_prob h'
  exact (((h n).pair (h' n) hab hba).map (g := fun x i => (x.1 i, x.2 i)) (by fun_prop)).congr (fun _ _ => rfl) (zip_law L L')

theorem flag_prod_map {Z : Type} [MeasurableSpace Z] (p : ℝ) (M : Measure Z) [IsProbabilityMeasure M] {f : Bool × Z → X}
    (hf : Measurable f) : ((flag p).prod M).map f =
      ENNReal.ofReal p • M.map (fun z => f (true, z)) + ENNReal.ofReal (1 - p) • M.map (fun z => f (false, z)) := by
  rw [flag, Measure.add_prod, Measure.prod_smul_left, Measure.prod_smul_left, Measure.dirac_prod, Measure.dirac_prod,
    Measure.map_add _ _ hf, Measure.map_smul, Measure.map_smul, Measure.map_map hf (by fun_prop),
    Measure.map_map hf (by fun_prop)]
  rfl

theorem disj {i j : ℕ} (hij : i ≠ j) : ∀ a ∈ {k : PKey | [i] <+: k}, ∀ b ∈ {k : PKey | [j] <+: k}, ¬a <+: b ∧ ¬b <+: a := by
  intro a ha b hb
  rw [Set.mem_ofPred_eq] at ha hb
  obtain ⟨a, rfl⟩ := ha
  obtain ⟨b, rfl⟩ := hb
  simp [hij, hij.symm]

theorem disj_union {S T R : Set PKey} (h1 : ∀ a ∈ S, ∀ b ∈ T, ¬a <+: b ∧ ¬b <+: a) (h2 : ∀ a ∈ S, ∀ b ∈ R, ¬a <+: b ∧ ¬b <+: a) :
    ∀ a ∈ S, ∀ b ∈ T ∪ R, ¬a <+: b ∧ ¬b <+: a := fun a ha b hb => hb.elim (h1 a ha b) (h2 a ha b)

/-- MixtureOfTwo: a whole draw (all batch entries) comes from `a` with probability `p` and from `b` otherwise. -/
theorem C67_mixture_of_two {B E : Type} [Countable B] [MeasurableSpace E] {mask : Sampler U Bool} {a b : Sampler U (B → E)} {p : ℝ}
    {La Lb : Measure (B → E)} (hm : Draws μ mask (flag p)) (ha : Draws μ a La) (hb : Draws μ b Lb) :
    Draws μ (Sampler.mixtureOfTwo mask a b) (ENNReal.ofReal p • La + ENNReal.ofReal (1 - p) • Lb) := fun n => by
  have := draws_prob hm
  have := draws_prob ha
  have := draws_prob hb
  have hsel : Measurable fun x : Bool × ((B → E) × (B → E)) => if x.1 then x.2.1 else x.2.2 :=
    Measurable.ite (measurable_fst (measurableSet_singleton true)) (by fun_prop) (by fun_prop)
  have hz := FreshIn.map (((ha n).under [1]).pair ((hb n).under [2]) (disj (by decide))) (g := fun x (i : Fin n) => (x.1 i, x.2 i)) (by fun_prop)
  rw [zip_law] at hz
  have h3 := (((hm n).under [3]).pair hz (disj_union (disj (by decide)) (disj (by decide)))).fresh
  have h4 := h3.map (g := fun x (i : Fin n) => (fun y : Bool × ((B → E) × (B → E)) => if y.1 then y.2.1 else y.2.2) (x.1 i, x.2 i))
    (measurable_pi_lambda _ fun i => hsel.comp (f := fun x : (Fin n → Bool) × (Fin n → (B → E) × (B → E)) => (x.1 i, x.2 i)) (by fun_prop))
  refine h4.congr (fun ω key => ?_) ?_
  · funext i b
    simp only [Sampler.mixtureOfTwo, MixtureOfTwo.sampleN, split]
    split_ifs <;> rfl
  · rw [zip_map _ _ hsel, flag_prod_map p _ hsel]
    simp only [if_true, Bool.false_eq_true, if_false]
    congr 1
    funext _
    congr 2
    · exact Measure.fst_prod
    · exact Measure.snd_prod

/-- Consequence (finding): the batch entries of a MixtureOfTwo are not independent.  With components that always return 0 and 1, the
two entries of a batch of two are always equal, although each of them is 0 with probability `p`. -/
theorem C67_mixture_of_two_batch_dependent {mask : Sampler U Bool} {p : ℝ} (h0 : 0 < p) (h1 : p < 1) (hm : Draws μ mask (flag p))
    {P : Measure (PKey → U)} (hP : IdealPRNG μ P) (key : PKey) :
    let d := Sampler.mixtureOfTwo mask (Sampler.deterministic fun _ : Bool => (0 : ℝ)) (Sampler.deterministic fun _ => 1)
    (∀ ω, d.sample1 ω key true = d.sample1 ω key false) ∧
    (∀ c, P {ω | d.sample1 ω key c = 0} = ENNReal.ofReal p) ∧
    P {ω | d.sample1 ω key true = 0 ∧ d.sample1 ω key false = 1} ≠ P {ω | d.sample1 ω key true = 0} * P {ω | d.sample1 ω key false = 1} := by
  intro d
  have hd : Draws μ d _ := C67_mixture_of_two hm (C67_deterministic _) (C67_deterministic _)
  have hl := C67_meaning hd hP key 1
  have heq : ∀ ω, d.sample1 ω key true = d.sample1 ω key false := by
    intro ω
    simp only [d, Sampler.sample1, Sampler.mixtureOfTwo, MixtureOfTwo.sampleN, Sampler.deterministic]
  have hmeas : AEMeasurable (fun ω => d.sampleN ω key 1) P := by
    by_contra h
    rw [Measure.map_of_not_aemeasurable h] at hl
    have := draws_prob hd
    exact (IsProbabilityMeasure.ne_zero _ hl.symm).elim
  have hv : ∀ (c : Bool) (r : ℝ), P {ω | d.sample1 ω key c = r} =
      ENNReal.ofReal p * (if r = 0 then 1 else 0) + ENNReal.ofReal (1 - p) * (if r = 1 then 1 else 0) := by
    intro c r
    have hs : MeasurableSet {x : Fin 1 → Bool → ℝ | x 0 c = r} :=
      (measurableSet_singleton r).preimage (by fun_prop : Measurable fun x : Fin 1 → Bool → ℝ => x 0 c)
    have e := congrArg (fun M => M {x : Fin 1 → Bool → ℝ | x 0 c = r}) hl
    rw [Measure.map_apply_of_aemeasurable hmeas hs] at e
    refine Eq.trans e ?_
    have hs' : MeasurableSet {x : Bool → ℝ | x c = r} :=
      (measurableSet_singleton r).preimage (measurable_pi_apply c)
    have := draws_prob hd
    have h2 := (measurePreserving_eval (fun _ : Fin 1 => ENNReal.ofReal p • Measure.dirac (fun _ : Bool => (0 : ℝ)) +
      ENNReal.ofReal (1 - p) • Measure.dirac (fun _ : Bool => (1 : ℝ))) 0).measure_preimage hs'.nullMeasurableSet
    refine Eq.trans h2 ?_
    simp only [Measure.add_apply, Measure.smul_apply, Measure.dirac_apply' _ hs', smul_eq_mul, Set.indicator, Set.mem_ofPred_eq,
      Pi.one_apply]
    rw [if_congr (eq_comm (a := (0 : ℝ)) (b := r)) rfl rfl, if_congr (eq_comm (a := (1 : ℝ)) (b := r)) rfl rfl]
  refine ⟨heq, fun c => by rw [hv]; simp, ?_⟩
  have h3 : {ω | d.sample1 ω key true = 0 ∧ d.sample1 ω key false = 1} = ∅ := by
    ext ω
    simp only [Set.mem_ofPred_eq, Set.mem_empty_iff_false, iff_false, not_and, heq]
    intro h; rw [h]; norm_num
  rw [h3, measure_empty, hv, hv]
  simp only [if_true, one_ne_zero, zero_ne_one, if_false, mul_one, mul_zero, add_zero, zero_add]
  exact (mul_ne_zero (by simpa using h0) (by simpa using h1)).symm

theorem choice_prod_map {K : ℕ} (w : Fin K → ℝ) {Z : Type} [MeasurableSpace Z] (M : Measure Z) [IsProbabilityMeasure M] {f : ℕ × Z → X}
    (hf : Measurable f) : ((choice w).prod M).map f = mixed w fun k => M.map fun z => f ((k : ℕ), z) := by
  have hs : SFinite M := inferInstance
  have h1 : (choice w).prod M = ∑ k : Fin K, ENNReal.ofReal (w k) • (Measure.dirac (k : ℕ)).prod M := by
    unfold choice
    classical
    induction (Finset.univ : Finset (Fin K)) using Finset.induction_on with
    | empty => simp
    | insert a s ha ih =>
      rw [Finset.sum_insert ha, Finset.sum_insert ha, Measure.add_prod, ih, Measure.prod_smul_left]
  rw [h1, ← Measure.mapₗ_apply_of_measurable hf, map_sum]
  refine Finset.sum_congr rfl fun k _ => ?_
  rw [Measure.mapₗ_apply_of_measurable hf, Measure.map_smul, Measure.dirac_prod, Measure.map_map hf (by fun_prop)]
  rfl

/-- MixtureSameFamily: independently at every batch position `b`, a component is chosen with the weights `w b` and the draw has
the law of that component (the components of one position may be dependent: `M b` is their joint law). -/
theorem C67_mixture_same_family {B ι : Type} [Fintype B] [Countable ι] {K : ℕ} {mix : Sampler U (B → ℕ)}
    {components : Sampler U (B → Fin K → ι → ℝ)} {w : B → Fin K → ℝ} {M : B → Measure (Fin K → ι → ℝ)}
    (hmix : Draws μ mix (Measure.pi fun b => choice (w b))) [∀ b, IsProbabilityMeasure (choice (w b))]
    (hc : Draws μ components (Measure.pi M)) [∀ b, IsProbabilityMeasure (M b)] :
    Draws μ (Sampler.mixtureSameFamily mix components)
      (Measure.pi fun b => mixed (w b) fun k => (M b).map fun c => c k) := fun n => by
  have hsel : Measurable fun x : ℕ × (Fin K → ι → ℝ) => fun j => ∑ k : Fin K, x.2 k j * (if x.1 = (k : ℕ) then (1 : ℝ) else 0) := by
    refine measurable_pi_lambda _ fun j => Finset.measurable_sum _ fun k _ => Measurable.mul (by fun_prop) ?_
    exact Measurable.ite (measurable_fst (measurableSet_singleton (k : ℕ))) measurable_const measurable_const
  set sel : ℕ × (Fin K → ι → ℝ) → ι → ℝ := fun x => fun j => ∑ k : Fin K, x.2 k j * (if x.1 = (k : ℕ) then (1 : ℝ) else 0) with hseld
  have h1 := (((hmix n).under [0]).pair ((hc n).under [1]) (disj (by decide))).fresh
  have h2 := h1.map (g := fun x (i : Fin n) (b : B) => sel (x.1 i b, x.2 i b)) (by fun_prop)
  refine h2.congr (fun ω key => rfl) ?_
  have e1 : (fun x : (Fin n → B → ℕ) × (Fin n → B → Fin K → ι → ℝ) => fun (i : Fin n) (b : B) => sel (x.1 i b, x.2 i b)) =
      (fun z i => (fun y b => sel (y b)) ((fun x b => (x.1 b, x.2 b)) (z i))) ∘ (fun x i => (x.1 i, x.2 i)) := rfl
  have e2 : ((Measure.pi fun b => choice (w b)).prod (Measure.pi M)).map (fun x b => (x.1 b, x.2 b)) =
      Measure.pi fun b => (choice (w b)).prod (M b) :=
    (measurePreserving_arrowProdEquivProdArrow _ _ B (fun b => choice (w b)) M).symm.map_eq
  have hb : ∀ b, ((choice (w b)).prod (M b)).map sel = mixed (w b) fun k => (M b).map fun c => c k := by
    intro b
    rw [choice_prod_map _ _ hsel]
    congr 1
    funext k
    congr 1
    funext c j
    simp only [hseld]
    rw [Finset.sum_eq_single k]
    · simp
    · intro i _ hi
      rw [if_neg (fun h => hi (Fin.ext h.symm)), mul_zero]
    · simp
  have hpb : ∀ b, IsProbabilityMeasure (((choice (w b)).prod (M b)).map sel) := fun b =>
    Measure.isProbabilityMeasure_map hsel.aemeasurable
  rw [e1, ← Measure.map_map (by fun_prop) (by fun_prop), zip_law]
  have e3 : ((Measure.pi fun b => choice (w b)).prod (Measure.pi M)).map (fun x b => sel (x.1 b, x.2 b)) =
      Measure.pi fun b => mixed (w b) fun k => (M b).map fun c => c k := by
    rw [show (fun x : (B → ℕ) × (B → Fin K → ι → ℝ) => fun b => sel (x.1 b, x.2 b)) =
      (fun (y : B → ℕ × (Fin K → ι → ℝ)) b => sel (y b)) ∘ (fun x b => (x.1 b, x.2 b)) from rfl,
      ← Measure.map_map (by fun_prop) (by fun_prop), e2, Measure.pi_map_pi fun _ => hsel.aemeasurable]
    simp only [hb]
  have hp3 : IsProbabilityMeasure (((Measure.pi fun b => choice (w b)).prod (Measure.pi M)).map (fun x b => sel (x.1 b, x.2 b))) :=
    Measure.isProbabilityMeasure_map (by fun_prop)
  rw [← e3]
  exact Measure.pi_map_pi (f := fun _ (x : (B → ℕ) × (B → Fin K → ι → ℝ)) (b : B) => sel (x.1 b, x.2 b)) fun _ => by fun_prop

theorem counts_cons {t K : ℕ} (a : Fin K) (z : Fin t → Fin K) (k : Fin K) :
    counts (Fin.cons a z : Fin (t + 1) → Fin K) k = counts z k + if a = k then 1 else 0 := by
  unfold counts
  rw [Fin.univ_succ, Finset.filter_cons]
  simp only [Fin.cons_zero, Finset.filter_map, Function.comp_def, Fin.cons_succ]
  split_ifs with h
  · rw [Finset.card_cons, Finset.card_map]; rfl
  · rw [Finset.card_map]; rfl

theorem multinomialLaw_succ {K : ℕ} (t : ℕ) (L : Measure (Fin K)) [IsProbabilityMeasure L] :
    (L.prod (multinomialLaw t L)).map (fun x k => x.2 k + if x.1 = k then 1 else 0) = multinomialLaw (t + 1) L := by
  have hc : ∀ t, Measurable (counts : (Fin t → Fin K) → Fin K → ℕ) := fun t => measurable_of_countable _
  have hm : Measurable fun (x : Fin K × (Fin K → ℕ)) (k : Fin K) => x.2 k + if x.1 = k then 1 else 0 := measurable_of_countable _
  unfold multinomialLaw
  have h1 : L.prod ((Measure.pi fun _ : Fin t => L).map counts) = (L.prod (Measure.pi fun _ : Fin t => L)).map (Prod.map id counts) := by
    rw [← Measure.map_prod_map _ _ measurable_id (hc t), Measure.map_id]
  have h2 := (measurePreserving_piFinSuccAbove (fun _ : Fin (t + 1) => L) 0).symm.map_eq
  rw [h1, Measure.map_map hm (by fun_prop), ← h2, Measure.map_map (hc _) (MeasurableEquiv.measurable _)]
  congr 1
  funext x
  funext k
  have := counts_cons x.1 x.2 k
  simp only [Function.comp, Prod.map]
  refine this.symm.trans ?_
  congr 1
  funext i
  refine Fin.cases ?_ (fun j => ?_) i
  · rfl
  · rfl

omit [MeasurableSpace U] in
theorem multinomialLoop_add {K : ℕ} (c : Sampler U (Fin K)) (ω : PKey → U) (n : ℕ) : ∀ (t : ℕ) (key : PKey) (agg : Fin n → Fin K → ℕ)
    (i : Fin n) (k : Fin K), Sampler.multinomialLoop c ω n t key agg i k = agg i k + Sampler.multinomialLoop c ω n t key (fun _ _ => 0) i k
  | 0, _, _, _, _ => by simp [Sampler.multinomialLoop]
  | t + 1, key, agg, i, k => by
    rw [Sampler.multinomialLoop, Sampler.multinomialLoop, multinomialLoop_add c ω n t, multinomialLoop_add c ω n t _ (fun i k => 0 + _)]
    ring

theorem multinomialLoop_fresh {K : ℕ} {c : Sampler U (Fin K)} {L : Measure (Fin K)} (h : Draws μ c L) (n : ℕ) : ∀ t : ℕ,
    FreshDraws μ (fun ω key => Sampler.multinomialLoop c ω n t key (fun _ _ => 0)) (Measure.pi fun _ : Fin n => multinomialLaw t L)
  | 0 => by
    have := draws_prob h
    refine (FreshDraws.const _).congr (fun ω key => rfl) ?_
    have e : multinomialLaw 0 L = Measure.dirac fun _ => 0 := by
      unfold multinomialLaw
      rw [Measure.pi_of_empty, Measure.map_dirac' (measurable_of_countable _)]
      rfl
    rw [e, pi_dirac]
  | t + 1 => by
    have := draws_prob h
    have hpl : IsProbabilityMeasure (multinomialLaw t L) := Measure.isProbabilityMeasure_map (measurable_of_countable _).aemeasurable
    have h1 := ((h n).pair (multinomialLoop_fresh h n t) (a := [1]) (b := [0]) (by decide) (by decide))
    have hm : Measurable fun (x : Fin K × (Fin K → ℕ)) (k : Fin K) => x.2 k + if x.1 = k then 1 else 0 := measurable_of_countable _
    have h2 := h1.map (g := fun x (i : Fin n) => (fun (x : Fin K × (Fin K → ℕ)) (k : Fin K) => x.2 k + if x.1 = k then 1 else 0) (x.1 i, x.2 i))
      (measurable_pi_lambda _ fun i => hm.comp (by fun_prop))
    refine h2.congr (fun ω key => ?_) ?_
    · funext i k
      rw [Sampler.multinomialLoop, multinomialLoop_add]
      simp only [split]
      rw [zero_add, add_comm]
      congr
    · rw [zip_map _ _ hm, multinomialLaw_succ]

/-- Multinomial: independently at every batch position, the counts of `total` independent categorical draws. -/
theorem C67_multinomial {B K : ℕ} (total : Fin B → ℕ) {c : Fin B → Sampler U (Fin K)} {L : Fin B → Measure (Fin K)}
    (h : ∀ b, Draws μ (c b) (L b)) :
    Draws μ (Sampler.multinomial total c) (Measure.pi fun b => multinomialLaw (total b) (L b)) := fun n => by
  have := fun b => draws_prob (h b)
  have hpl : ∀ b, IsProbabilityMeasure (multinomialLaw (total b) (L b)) := fun b =>
    Measure.isProbabilityMeasure_map (measurable_of_countable _).aemeasurable
  have hq : Unrelated fun i : Fin B => [(i : ℕ)] := fun i j hij => by simpa [Fin.ext_iff] using hij
  have h1 := FreshDraws.fam (fun b => multinomialLoop_fresh (h b) n (total b)) hq
  exact (h1.map (g := fun x j i => x i j) (by fun_prop)).congr (fun _ _ => rfl) (pi_swap _)

end Distrax.Keys
