import Verif.Props.Keys2
import Verif.Props.SampleLaw
import Verif.Props.ArrayLaw
import Verif.Lemmas.Shape
import Verif.Spec.Jacobian

/-! C67, continued: generators, concrete primitives, nesting. -/

namespace Distrax.Keys

open Spec MeasureTheory ProbabilityTheory

section generators

variable {U : Type} [MeasurableSpace U] (μ : Measure U) [IsProbabilityMeasure μ]

theorem unrelated_injective {I : Type} {path : I → PKey} (h : Unrelated path) : Function.Injective path := fun i j e =>
  h i j (e ▸ List.prefix_rfl)

/-- A generator whose keys are all independent is ideal. -/
theorem allIndependent_ideal : IdealPRNG μ (allIndependent μ) := fun _ _ h =>
  Measure.map_infinitePi_infinitePi_of_inj (P := fun _ => μ) (unrelated_injective h)

theorem trim_prefix (k : PKey) : trim k <+: k := List.rdropWhile_prefix _ _

theorem trim_append (k : PKey) : ∃ n, k = trim k ++ List.replicate n 0 := by
  induction k using List.reverseRecOn with
  | nil => exact ⟨0, by simp [trim]⟩
  | append_singleton l a ih =>
    by_cases h : a = 0
    · subst h
      obtain ⟨n, hn⟩ := ih
      refine ⟨n + 1, ?_⟩
      have e : trim (l ++ [0]) = trim l := by simp [trim, List.rdropWhile_concat]
      rw [e, List.replicate_succ', ← List.append_assoc, ← hn]
    · exact ⟨0, by simp [trim, List.rdropWhile_concat, h]⟩

/-- So is one whose child 0 repeats its parent: the key discipline forbids exactly the uses that would notice. -/
theorem firstChildRepeats_ideal : IdealPRNG μ (firstChildRepeats μ) := fun I path h => by
  have hi : Function.Injective fun i => trim (path i) := by
    intro i j e
    obtain ⟨n, hn⟩ := trim_append (path i)
    obtain ⟨m, hm⟩ := trim_append (path j)
    simp only at e
    rw [e] at hn
    generalize trim (path j) = q at hn hm
    rcases Nat.le_total n m with hnm | hnm
    · refine h i j ?_
      rw [hn, hm, show m = n + (m - n) by omega, List.replicate_add, ← List.append_assoc]
      exact List.prefix_append _ _
    · refine (h j i ?_).symm
      rw [hn, hm, show n = m + (n - m) by omega, List.replicate_add, ← List.append_assoc]
      exact List.prefix_append _ _
  unfold firstChildRepeats allIndependent
  rw [Measure.map_map (by fun_prop) (by fun_prop)]
  exact Measure.map_infinitePi_infinitePi_of_inj (P := fun _ => μ) hi

/-- **Why the discipline matters.**  A sampler that draws with the key it was given and also with a child of it (here: the first) can get
the same number twice from an ideal generator: no law with two independent components can be promised.  So `Draws` fails for it. -/
theorem C67_reuse_is_caught (h : ¬∃ u : U, ∀ᵐ v ∂μ, v = u) [StandardBorelSpace U] :
    ¬FreshDraws μ (fun (ω : PKey → U) key => (ω key, ω (split key 0))) (μ.prod μ) := by
  intro hf
  have hl := hf.law (firstChildRepeats_ideal μ) []
  have hm : Measurable fun (ω : PKey → U) (key : PKey) => ω (trim key) := by fun_prop
  rw [firstChildRepeats, Measure.map_map (by fun_prop) hm] at hl
  have hdiag : MeasurableSet (Set.diagonal U) := measurableSet_diagonal
  have e1 := congrArg (fun M => M (Set.diagonal U)ᶜ) hl
  rw [Measure.map_apply (by fun_prop) hdiag.compl] at e1
  have e2 : (((fun ω : PKey → U => (ω [], ω (split [] 0))) ∘ fun (ω : PKey → U) (key : PKey) => ω (trim key)) ⁻¹' (Set.diagonal U)ᶜ) = ∅ := by
    ext ω
    simp only [trim, split, List.rdropWhile_nil, List.nil_append, Set.mem_preimage, Function.comp, Set.mem_compl_iff, Set.mem_diagonal_iff,
      Set.mem_empty_iff_false, iff_false, not_not]
    rfl
  rw [e2, measure_empty] at e1
  have e3 := (Measure.measure_prod_null hdiag.compl).1 e1.symm
  have e4 : ∀ᵐ u ∂μ, ∀ᵐ v ∂μ, v = u := by
    filter_upwards [e3] with u hu
    rw [ae_iff]
    refine (measure_mono_null ?_ hu)
    intro v hv
    simpa [Set.mem_diagonal_iff, eq_comm] using hv
  obtain ⟨u, hu⟩ := e4.exists
  exact h ⟨u, hu⟩

end generators

section calls

instance : IsProbabilityMeasure stream := by unfold stream; infer_instance

/-- A primitive call that computes every draw from its own uniform numbers draws independently. -/
theorem C67_rows {X : Type} [MeasurableSpace X] (m : ℕ) {f : (Fin m → ℝ) → X} (hf : Measurable f) :
    Draws stream (Sampler.rows m f) ((unitN m).map f) := by
  have hp : IsProbabilityMeasure (unitN m) := by unfold unitN; infer_instance
  refine C67_primitive (fun n => by fun_prop) fun n => ?_
  rw [← pi_map_each _ hf]
  have hinj : Function.Injective fun p : Fin n × Fin m => (p.1 : ℕ) * m + p.2 := by
    rintro ⟨a, b⟩ ⟨c, d⟩ h
    simp only at h
    have hb := b.2; have hd := d.2
    have h1 : (a : ℕ) = c := by
      have e1 : ((a : ℕ) * m + b) / m = a := by
        rw [mul_comm, Nat.mul_add_div (by omega), Nat.div_eq_of_lt hb, add_zero]
      have e2 : ((c : ℕ) * m + d) / m = c := by
        rw [mul_comm, Nat.mul_add_div (by omega), Nat.div_eq_of_lt hd, add_zero]
      rw [← e1, ← e2, h]
    have h2 : (b : ℕ) = d := by rw [h1] at h; omega
    exact Prod.ext (Fin.ext h1) (Fin.ext h2)
  have e1 := Measure.map_infinitePi_infinitePi_of_inj (P := fun _ : ℕ => Spec.unit) hinj
  have e2 := Measure.infinitePi_map_curry (fun (_ : Fin n) (_ : Fin m) => Spec.unit)
  simp only [Measure.infinitePi_eq_pi] at e2
  rw [Measure.infinitePi_eq_pi (μ := fun _ : Fin n × Fin m => Spec.unit)] at e1
  have e3 : Measure.pi (fun _ : Fin n => unitN m) = Measure.pi fun _ : Fin n => Measure.pi fun _ : Fin m => Spec.unit := rfl
  rw [e3, ← e2, ← e1, Measure.map_map (by fun_prop) (by fun_prop), Measure.map_map (by fun_prop) (by fun_prop)]
  rfl

/-- `jax.random.bernoulli(key, p, shape=[n])`, the mask of MixtureOfTwo. -/
theorem C67_bernoulli_call {p : ℝ} (h0 : 0 ≤ p) (h1 : p ≤ 1) :
    Draws stream (Sampler.rows 1 fun u => decide (u 0 < p)) (flag p) := by
  have hs : MeasurableSet {u : Fin 1 → ℝ | u 0 < p} := measurableSet_lt (by fun_prop) (by fun_prop)
  have hm : Measurable fun u : Fin 1 → ℝ => decide (u 0 < p) := by
    refine measurable_to_bool ?_
    convert hs using 1
    ext u; simp
  have h := C67_rows 1 hm
  have e : (unitN 1).map (fun u => decide (u 0 < p)) = flag p := by
    have hp : IsProbabilityMeasure (unitN 1) := by unfold unitN; infer_instance
    have ht : (unitN 1) {u : Fin 1 → ℝ | u 0 < p} = ENNReal.ofReal p := by
      have := (measurePreserving_eval (fun _ : Fin 1 => Spec.unit) 0).measure_preimage (s := Set.Iio p) measurableSet_Iio.nullMeasurableSet
      refine Eq.trans this ?_
      unfold Spec.unit
      rw [Measure.restrict_apply measurableSet_Iio]
      have : Set.Iio p ∩ Set.Ioo 0 1 = Set.Ioo 0 p := by
        ext x; simp only [Set.mem_inter_iff, Set.mem_Iio, Set.mem_Ioo]; constructor
        · rintro ⟨a, b, c⟩; exact ⟨b, a⟩
        · rintro ⟨a, b⟩; exact ⟨b, a, by linarith⟩
      rw [this, Real.volume_Ioo, sub_zero]
    have hc : (unitN 1) {u : Fin 1 → ℝ | ¬u 0 < p} = ENNReal.ofReal (1 - p) := by
      have := prob_compl_eq_one_sub (μ := unitN 1) hs
      rw [show {u : Fin 1 → ℝ | ¬u 0 < p} = {u | u 0 < p}ᶜ from rfl, this, ht, ENNReal.ofReal_sub _ h0, ENNReal.ofReal_one]
    refine Measure.ext_of_singleton fun b => ?_
    rw [Measure.map_apply hm (measurableSet_singleton b)]
    unfold flag
    simp only [Measure.add_apply, Measure.smul_apply, smul_eq_mul, Measure.dirac_apply' _ (measurableSet_singleton b), Set.indicator,
      Set.mem_singleton_iff, Pi.one_apply]
    cases b
    · simp only [Bool.true_eq_false, if_false, if_true, mul_zero, mul_one, zero_add]
      rw [← hc]; congr 1; ext u; simp
    · simp only [Bool.false_eq_true, if_false, if_true, mul_zero, mul_one, add_zero]
      rw [← ht]; congr 1; ext u; simp
  rwa [e] at h

/-- One categorical draw from `n + 1` uniform numbers: `argmax(gumbel + logits)`. -/
noncomputable def catDraw {n : ℕ} (logits : Fin (n + 1) → XR) (u : Fin (n + 1) → ℝ) : Fin (n + 1) :=
  argmaxIdx fun i => XR.fin (gumbelOf (u i)) + logits i

theorem catDraw_measurable {n : ℕ} (logits : Fin (n + 1) → XR) : Measurable (catDraw logits) :=
  (argmax_measurable logits).comp (g := fun g : Fin (n + 1) → ℝ => argmaxIdx fun i => XR.fin (g i) + logits i)
    (f := fun (u : Fin (n + 1) → ℝ) i => gumbelOf (u i)) (measurable_pi_lambda _ fun i => by unfold gumbelOf; fun_prop)

/-- `jax.random.categorical(key, logits, shape=(n,))` of a categorical distribution with probabilities `p`. -/
theorem C67_categorical_call {n : ℕ} {d : Cat (n + 1)} {p : Fin (n + 1) → ℝ} (h : HasPmf d p) :
    ∃ L : Measure (Fin (n + 1)), (∀ k, L {k} = ENNReal.ofReal (p k)) ∧ Draws stream (Sampler.rows (n + 1) (catDraw d.logits)) L := by
  refine ⟨_, fun k => ?_, C67_rows (n + 1) (catDraw_measurable d.logits)⟩
  rw [Measure.map_apply (catDraw_measurable _) (measurableSet_singleton k), ← (gumbel_max h.pmf k).1]
  congr 1
  ext u
  simp only [Set.mem_preimage, Set.mem_singleton_iff, catDraw, Set.mem_ofPred_eq, h.logits]

/-- `Multinomial.sample` with the generator's own numbers: whatever the key, a draw equals the count vector `c` with probability
`exp(log_prob(c))`. -/
theorem C67_multinomial_log_prob {K : ℕ} {d : Mult (K + 1)} {p : Fin (K + 1) → ℝ} (h : HasPmf d.cat p)
    {c : Fin (K + 1) → ℕ} (hc : ∑ i, c i = d.total) {P : Measure (PKey → ℕ → ℝ)} (hP : IdealPRNG stream P) (key : PKey) :
    P {ω | (Sampler.multinomial (fun _ : Fin 1 => d.total) (fun _ => Sampler.rows (K + 1) (catDraw d.cat.logits))).sample1 ω key 0 = c} =
      ENNReal.ofReal (weight (d.logProb fun i => c i)) := by
  have hcd := catDraw_measurable d.cat.logits
  have hp : IsProbabilityMeasure (unitN (K + 1)) := by unfold unitN; infer_instance
  have hD := C67_multinomial (fun _ : Fin 1 => d.total) (fun _ => C67_rows (K + 1) hcd)
  have hL : IsProbabilityMeasure ((unitN (K + 1)).map (catDraw d.cat.logits)) := Measure.isProbabilityMeasure_map hcd.aemeasurable
  have hmp : IsProbabilityMeasure (multinomialLaw d.total ((unitN (K + 1)).map (catDraw d.cat.logits))) :=
    Measure.isProbabilityMeasure_map (measurable_of_countable _).aemeasurable
  have hl := ((sample1_fresh hD).map (g := fun x => x 0) (by fun_prop)).law hP key
  have e0 := (measurePreserving_eval (fun _ : Fin 1 => multinomialLaw d.total ((unitN (K + 1)).map (catDraw d.cat.logits))) 0).map_eq
  rw [show (fun x : Fin 1 → Fin (K + 1) → ℕ => x 0) = Function.eval 0 from rfl, e0] at hl
  have hmeas : AEMeasurable (fun ω : PKey → ℕ → ℝ => (Function.eval (0 : Fin 1)
      ((Sampler.multinomial (fun _ : Fin 1 => d.total) (fun _ => Sampler.rows (K + 1) (catDraw d.cat.logits))).sample1 ω key))) P := by
    by_contra hn
    rw [Measure.map_of_not_aemeasurable hn] at hl
    exact IsProbabilityMeasure.ne_zero _ hl.symm
  have e1 := congrArg (fun M => M {c}) hl
  rw [Measure.map_apply_of_aemeasurable hmeas (measurableSet_singleton c)] at e1
  refine Eq.trans e1 ?_
  rw [← C36_sample_law_noise h hc]
  unfold multinomialLaw
  rw [← pi_map_each _ hcd, Measure.map_map (measurable_of_countable _) (by fun_prop), Measure.map_apply (by
    exact (measurable_of_countable _).comp (by fun_prop)) (measurableSet_singleton c)]
  congr 1
  ext u
  simp only [Set.mem_preimage, Set.mem_singleton_iff, Function.comp, Set.mem_ofPred_eq, Mult.sample]
  simp only [C36_sample_counts, Nat.cast_inj]
  rw [funext_iff]
  refine forall_congr' fun k => ?_
  have e2 : (countsOf (fun i : Fin d.total => argmaxIdx fun k => XR.fin (if hi : (i : ℕ) < d.total then gumbelOf (u ⟨i, hi⟩ k) else 0) +
      d.cat.logits k) k) = counts (fun i => catDraw d.cat.logits (u i)) k := by
    simp only [Fin.is_lt, dite_true, Fin.eta]
    rfl
  rw [e2]

end calls

section nesting

variable {U : Type} [MeasurableSpace U] (μ : Measure U) [IsProbabilityMeasure μ]

/-- `d` is built from primitives that draw from their laws by any nesting of the library's composite distributions, and `L` is the
law this composition stands for. -/
inductive Composed : ∀ {X : Type} [MeasurableSpace X], Sampler U X → Measure X → Prop
  | primitive {X : Type} [MeasurableSpace X] {g : (n : ℕ) → U → Fin n → X} {L : Measure X} (hm : ∀ n, Measurable (g n))
      (hg : ∀ n, μ.map (g n) = Measure.pi fun _ : Fin n => L) : Composed (Sampler.prim g) L
  | deterministic {X : Type} [MeasurableSpace X] (x : X) : Composed (Sampler.deterministic x) (Measure.dirac x)
  | independent {X : Type} [MeasurableSpace X] {d : Sampler U X} {L : Measure X} : Composed d L → Composed d.independent L
  | transformed {X Y : Type} [MeasurableSpace X] [MeasurableSpace Y] {d : Sampler U X} {L : Measure X} {forward : X → Y} :
      Composed d L → Measurable forward → Composed (d.transformed forward) (L.map forward)
  | quantized {B : Type} [Countable B] {q : B → Quantized} {d : Sampler U (B → ℝ)} {L : Measure (B → ℝ)} : Composed d L →
      Composed (Sampler.quantized q d) (L.map fun x b => (q b).sample (x b))
  | clipped {B : Type} [Countable B] {c : B → Clipped} {d : Sampler U (B → ℝ)} {L : Measure (B → ℝ)} : Composed d L →
      Composed (Sampler.clipped c d) (L.map fun x b => (c b).sample (x b))
  | joint {m : ℕ} {X : Fin m → Type} [∀ i, MeasurableSpace (X i)] {d : (i : Fin m) → Sampler U (X i)} {L : (i : Fin m) → Measure (X i)} :
      (∀ i, Composed (d i) (L i)) → Composed (Sampler.joint d) (Measure.pi L)
  | mixtureOfTwo {B E : Type} [Countable B] [MeasurableSpace E] {mask : Sampler U Bool} {a b : Sampler U (B → E)} {p : ℝ}
      {La Lb : Measure (B → E)} : Composed mask (flag p) → Composed a La → Composed b Lb →
      Composed (Sampler.mixtureOfTwo mask a b) (ENNReal.ofReal p • La + ENNReal.ofReal (1 - p) • Lb)
  | mixtureSameFamily {B ι : Type} [Fintype B] [Countable ι] {K : ℕ} {mix : Sampler U (B → ℕ)} {c : Sampler U (B → Fin K → ι → ℝ)}
      {w : B → Fin K → ℝ} {M : B → Measure (Fin K → ι → ℝ)} [∀ b, IsProbabilityMeasure (choice (w b))] [∀ b, IsProbabilityMeasure (M b)] :
      Composed mix (Measure.pi fun b => choice (w b)) → Composed c (Measure.pi M) →
      Composed (Sampler.mixtureSameFamily mix c) (Measure.pi fun b => mixed (w b) fun k => (M b).map fun c => c k)
  | multinomial {B K : ℕ} (total : Fin B → ℕ) {c : Fin B → Sampler U (Fin K)} {L : Fin B → Measure (Fin K)} :
      (∀ b, Composed (c b) (L b)) → Composed (Sampler.multinomial total c) (Measure.pi fun b => multinomialLaw (total b) (L b))

variable {μ}

theorem quantize_measurable (q : Quantized) : Measurable q.sample := by
  have hc : Measurable fun x : ℝ => ((⌈x⌉ : ℤ) : ℝ) := by fun_prop
  have hlow : Measurable fun x : ℝ => (match q.low with
    | none => ((⌈x⌉ : ℤ) : ℝ)
    | some l => if ((⌈x⌉ : ℤ) : ℝ) < l then l else ((⌈x⌉ : ℤ) : ℝ)) := by
    cases q.low with
    | none => exact hc
    | some l => exact Measurable.ite (measurableSet_lt hc measurable_const) measurable_const hc
  unfold Quantized.sample
  cases q.high with
  | none => exact hlow
  | some h => exact Measurable.ite (measurableSet_lt measurable_const hlow) measurable_const hlow

theorem clip_measurable (c : Clipped) : Measurable c.sample := by
  unfold Clipped.sample
  fun_prop

/-- **C67.**  However composite distributions are nested: with an ideal generator, for every key, `sample(seed=key, sample_shape=n)` makes
`n` independent draws from the law the composition stands for. -/
theorem C67_nested {X : Type} [MeasurableSpace X] {d : Sampler U X} {L : Measure X} (h : Composed μ d L) {P : Measure (PKey → U)}
    (hP : IdealPRNG μ P) (key : PKey) (n : ℕ) : P.map (fun ω => d.sampleN ω key n) = Measure.pi fun _ : Fin n => L := by
  refine C67_meaning ?_ hP key n
  clear hP n
  induction h with
  | primitive hm hg => exact C67_primitive hm hg
  | deterministic x => exact C67_deterministic x
  | independent _ ih => exact ih
  | transformed _ hf ih => exact C67_transformed ih hf
  | quantized _ ih => exact C67_transformed ih (measurable_pi_lambda _ fun b => (quantize_measurable _).comp (measurable_pi_apply b))
  | clipped _ ih => exact C67_transformed ih (measurable_pi_lambda _ fun b => (clip_measurable _).comp (measurable_pi_apply b))
  | joint _ ih => exact C67_joint ih
  | mixtureOfTwo _ _ _ h1 h2 h3 => exact C67_mixture_of_two h1 h2 h3
  | mixtureSameFamily _ _ h1 h2 => exact C67_mixture_same_family h1 h2
  | multinomial total _ ih => exact C67_multinomial total ih

/-- The same for any `sample_shape`: the entries of the array of draws are independent and each has law `L`. -/
theorem C67_sample_shape {X : Type} [MeasurableSpace X] {d : Sampler U X} {L : Measure X} (h : Draws μ d L) {P : Measure (PKey → U)}
    (hP : IdealPRNG μ P) (key : PKey) (shape : List ℕ) :
    P.map (fun ω (i : Idx shape) => d.sample ω key shape i (ravel_lt i.2)) = Measure.pi fun _ : Idx shape => L := by
  have := draws_prob h
  have hf := (h shape.prod).map (g := fun x (i : Idx shape) => x ⟨ravel shape i.1, ravel_lt i.2⟩) (by fun_prop)
  refine (hf.law hP key).trans ?_
  have hinj : Function.Injective fun i : Idx shape => (⟨ravel shape i.1, ravel_lt i.2⟩ : Fin shape.prod) := by
    intro i j e
    have e' : ravel shape i.1 = ravel shape j.1 := congrArg Fin.val e
    exact Subtype.ext (by rw [← unravel_ravel i.2, ← unravel_ravel j.2, e'])
  have := Measure.map_infinitePi_infinitePi_of_inj (P := fun _ : Fin shape.prod => L) hinj
  rwa [Measure.infinitePi_eq_pi, Measure.infinitePi_eq_pi] at this

end nesting

section examples

/-- Ideal generators exist. -/
example : ∃ P : Measure (PKey → ℕ → ℝ), IdealPRNG stream P := ⟨_, allIndependent_ideal stream⟩

/-- A Joint of a MixtureOfTwo (of a batch of three Logistics and a batch of three Uniforms) and a Multinomial. -/
example (d : Fin 3 → Logistic) (e : Fin 3 → Uniform) {c : Cat 4} {q : Fin 4 → ℝ} (hq : HasPmf c q) :
    ∃ (s : Sampler (ℕ → ℝ) (Fin 3 → ℝ)) (t : Sampler (ℕ → ℝ) (Fin 1 → Fin 4 → ℕ)) (L : Measure (Fin 3 → ℝ)) (M : Measure (Fin 1 → Fin 4 → ℕ)),
      s = Sampler.mixtureOfTwo (Sampler.rows 1 fun u => decide (u 0 < 1 / 3)) (Sampler.rows 3 fun u b => (d b).sample (u b))
        (Sampler.rows 3 fun u b => (e b).sample (u b)) ∧ Composed stream s L ∧ Composed stream t M := by
  have hl : Measurable fun (u : Fin 3 → ℝ) b => (d b).sample (u b) := by
    refine measurable_pi_lambda _ fun b => ?_
    unfold Logistic.sample
    fun_prop
  have hu : Measurable fun (u : Fin 3 → ℝ) b => (e b).sample (u b) := by
    refine measurable_pi_lambda _ fun b => ?_
    unfold Uniform.sample
    fun_prop
  have prim : ∀ {X : Type} [MeasurableSpace X] {m : ℕ} {f : (Fin m → ℝ) → X} {L : Measure X}, Measurable f →
      Draws stream (Sampler.rows m f) L → Composed stream (Sampler.rows m f) L := by
    intro X _ m f L hf hD
    refine Composed.primitive (fun n => by fun_prop) fun n => ?_
    have := (hD n).law (allIndependent_ideal stream) []
    refine Eq.trans ?_ this
    have e2 := Measure.infinitePi_map_eval (fun _ : PKey => stream) []
    refine (congrArg (Measure.map _) e2.symm).trans ?_
    rw [Measure.map_map (by fun_prop) (by fun_prop)]
    rfl
  obtain ⟨L, _, hL⟩ := C67_categorical_call hq
  have hb : Measurable fun u : Fin 1 → ℝ => decide (u 0 < 1 / 3) := by
    refine measurable_to_bool ?_
    have hs : MeasurableSet {u : Fin 1 → ℝ | u 0 < 1 / 3} := measurableSet_lt (by fun_prop) (by fun_prop)
    convert hs using 1
    ext u; simp
  refine ⟨_, Sampler.multinomial (fun _ => 5) fun _ => Sampler.rows 4 (catDraw c.logits), _, _, rfl,
    Composed.mixtureOfTwo (prim hb (C67_bernoulli_call (by norm_num) (by norm_num))) (prim hl (C67_rows 3 hl)) (prim hu (C67_rows 3 hu)),
    Composed.multinomial _ fun _ => prim (catDraw_measurable _) hL⟩

/-- A hidden Markov model whose parts draw from their laws. -/
example {c : Cat 2} {q : Fin 2 → ℝ} (hq : HasPmf c q) : ∃ (LI : Measure (Fin 2)) (LT : Measure (Fin 2 → Fin 2)) (LO : Measure (Fin 2 → ℝ)),
    Draws stream (Sampler.rows 2 (catDraw c.logits)) LI ∧
    Draws stream (Sampler.joint fun _ : Fin 2 => Sampler.rows 2 (catDraw c.logits)) LT ∧
    Draws stream (Sampler.rows 2 fun u k => u k + 10 * (k : ℕ)) LO := by
  obtain ⟨L, _, hL⟩ := C67_categorical_call hq
  exact ⟨L, _, _, hL, C67_joint fun _ => hL, C67_rows 2 (measurable_pi_lambda _ fun k => by fun_prop)⟩

/-- A generator with the uniform numbers the von Mises sampler asks for. -/
example (m : ℕ) : ∃ (U : Type) (_ : MeasurableSpace U) (μ : Measure U) (_ : IsProbabilityMeasure μ) (f g : U → Fin m → ℝ),
    Measurable f ∧ Measurable g ∧ μ.map f = (Measure.pi fun _ => ENNReal.ofReal (1 / 2) • volume.restrict (Set.Ioo (-1 : ℝ) 1)) ∧
    μ.map g = Measure.pi fun _ => Spec.unit :=
  ⟨(Fin m → ℝ) × (Fin m → ℝ), inferInstance, (Measure.pi fun _ => ENNReal.ofReal (1 / 2) • volume.restrict (Set.Ioo (-1 : ℝ) 1)).prod
    (Measure.pi fun _ => Spec.unit), inferInstance, Prod.fst, Prod.snd, measurable_fst, measurable_snd, Measure.fst_prod, Measure.snd_prod⟩

/-- A fair coin is not almost surely constant. -/
example : ¬∃ u : Bool, ∀ᵐ v ∂flag (1 / 2), v = u := by
  rintro ⟨u, hu⟩
  have h := (ae_iff.1 hu)
  have h2 : flag (1 / 2) {!u} = 0 := measure_mono_null (fun v hv => by
    rw [Set.mem_singleton_iff] at hv; subst hv; cases u <;> simp) h
  unfold flag at h2
  simp only [Measure.add_apply, Measure.smul_apply, smul_eq_mul, Measure.dirac_apply' _ (measurableSet_singleton _), Set.indicator,
    Set.mem_singleton_iff, Pi.one_apply] at h2
  cases u <;> norm_num at h2

end examples

end Distrax.Keys
