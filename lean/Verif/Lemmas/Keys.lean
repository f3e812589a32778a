import Verif.Spec.Keys
import Mathlib.Probability.Independence.InfinitePi
import Mathlib.Data.List.Infix

/-! Calculus of `FreshDraws`. -/

namespace Distrax.Spec

open Keys MeasureTheory ProbabilityTheory

variable {U : Type} [MeasurableSpace U] {μ : Measure U} [IsProbabilityMeasure μ]
variable {X Y : Type} [MeasurableSpace X] [MeasurableSpace Y]

theorem FreshDraws.prob {f : (PKey → U) → PKey → X} {M : Measure X} (h : FreshDraws μ f M) : IsProbabilityMeasure M := by
  obtain ⟨I, path, F, _, hF, _, rfl⟩ := h
  exact Measure.isProbabilityMeasure_map hF.aemeasurable

/-- What an ideal generator makes of it. -/
theorem FreshDraws.law {f : (PKey → U) → PKey → X} {M : Measure X} (h : FreshDraws μ f M) {P : Measure (PKey → U)}
    (hP : IdealPRNG μ P) (key : PKey) : P.map (fun ω => f ω key) = M := by
  obtain ⟨I, path, F, hu, hF, hf, hM⟩ := h
  have h1 := hP I (fun i => key ++ path i) fun i j hij => hu i j ((List.prefix_append_right_inj key).1 hij)
  rw [← hM, ← h1, Measure.map_map hF (by fun_prop)]
  congr 1
  funext ω
  exact hf ω key

theorem FreshDraws.map {f : (PKey → U) → PKey → X} {M : Measure X} (h : FreshDraws μ f M) {g : X → Y} (hg : Measurable g) :
    FreshDraws μ (fun ω key => g (f ω key)) (M.map g) := by
  obtain ⟨I, path, F, hu, hF, hf, hM⟩ := h
  exact ⟨I, path, fun x => g (F x), hu, hg.comp hF, fun ω key => congrArg g (hf ω key), by
    rw [← hM, Measure.map_map hg hF]; rfl⟩

theorem FreshDraws.congr {f f' : (PKey → U) → PKey → X} {M M' : Measure X} (h : FreshDraws μ f M) (hf : ∀ ω key, f' ω key = f ω key)
    (hM : M = M') : FreshDraws μ f' M' := by
  subst hM
  obtain ⟨I, path, F, hu, hF, hf', hM⟩ := h
  exact ⟨I, path, F, hu, hF, fun ω key => (hf ω key).trans (hf' ω key), hM⟩

/-- Reading the randomness of the key itself. -/
theorem FreshDraws.read : FreshDraws μ (fun ω key => ω key) μ :=
  ⟨Unit, fun _ => [], fun x => x (), fun _ _ _ => rfl, by fun_prop, fun ω key => by simp, by
    exact Measure.infinitePi_map_eval (fun _ : Unit => μ) ()⟩

theorem FreshDraws.const (x : X) : FreshDraws μ (fun _ _ => x) (Measure.dirac x) :=
  ⟨Empty, fun e => e.elim, fun _ => x, fun i => i.elim, measurable_const, fun _ _ => rfl, by
    rw [Measure.map_const]; simp⟩

/-- Draws at unrelated children are independent. -/
theorem FreshDraws.family {J : Type} {X : J → Type} [∀ j, MeasurableSpace (X j)] {f : (j : J) → (PKey → U) → PKey → X j}
    {M : (j : J) → Measure (X j)} [∀ j, IsProbabilityMeasure (M j)] (h : ∀ j, FreshDraws μ (f j) (M j)) {q : J → PKey}
    (hq : Unrelated q) : FreshDraws μ (fun ω key j => f j ω (key ++ q j)) (Measure.infinitePi M) := by
  choose I path F hu hF hf hM using h
  refine ⟨(j : J) × I j, fun p => q p.1 ++ path p.1 p.2, fun x j => F j fun i => x ⟨j, i⟩, ?_, by fun_prop, ?_, ?_⟩
  · rintro ⟨j, i⟩ ⟨j', i'⟩ h
    have hj : j = j' := by
      rcases List.prefix_or_prefix_of_prefix ((List.prefix_append (q j) (path j i)).trans h) (List.prefix_append (q j') (path j' i'))
        with h1 | h1
      · exact hq _ _ h1
      · exact (hq _ _ h1).symm
    subst hj
    rw [hu j i i' ((List.prefix_append_right_inj _).1 h)]
  · intro ω key
    funext j
    refine (hf j ω _).trans ?_
    simp only [List.append_assoc]
  · have h1 := Measure.infinitePi_map_piCurry (ι := J) (κ := I) (X := fun _ _ => U) (fun _ _ => μ)
    have h2 := Measure.infinitePi_map_pi (fun j : J => Measure.infinitePi fun _ : I j => μ) (f := F) hF
    simp only [hM] at h2
    rw [← h1, Measure.map_map (by fun_prop) (by fun_prop)] at h2
    exact h2

theorem FreshDraws.fam {J : Type} [Fintype J] {X : J → Type} [∀ j, MeasurableSpace (X j)]
    {f : (j : J) → (PKey → U) → PKey → X j} {M : (j : J) → Measure (X j)} (h : ∀ j, FreshDraws μ (f j) (M j)) {q : J → PKey}
    (hq : Unrelated q) : FreshDraws μ (fun ω key j => f j ω (key ++ q j)) (Measure.pi M) := by
  haveI : ∀ j, IsProbabilityMeasure (M j) := fun j => FreshDraws.prob (h j)
  exact FreshDraws.congr (FreshDraws.family h hq) (fun _ _ => rfl) (Measure.infinitePi_eq_pi M)

/-- `FreshDraws`, with all keys in `S` (relative to the given key). -/
def FreshIn (μ : Measure U) [IsProbabilityMeasure μ] (S : Set PKey) (f : (PKey → U) → PKey → X) (M : Measure X) : Prop :=
  ∃ (I : Type) (path : I → PKey) (F : (I → U) → X), Unrelated path ∧ (∀ i, path i ∈ S) ∧ Measurable F ∧
    (∀ ω key, f ω key = F fun i => ω (key ++ path i)) ∧ (Measure.infinitePi fun _ : I => μ).map F = M

theorem FreshIn.fresh {S : Set PKey} {f : (PKey → U) → PKey → X} {M : Measure X} (h : FreshIn μ S f M) : FreshDraws μ f M := by
  obtain ⟨I, path, F, hu, _, hF, hf, hM⟩ := h
  exact ⟨I, path, F, hu, hF, hf, hM⟩

theorem FreshIn.congr {S : Set PKey} {f f' : (PKey → U) → PKey → X} {M M' : Measure X} (h : FreshIn μ S f M)
    (hf : ∀ ω key, f' ω key = f ω key) (hM : M = M') : FreshIn μ S f' M' := by
  subst hM
  obtain ⟨I, path, F, hu, hS, hF, hf', hM⟩ := h
  exact ⟨I, path, F, hu, hS, hF, fun ω key => (hf ω key).trans (hf' ω key), hM⟩

theorem FreshIn.map {S : Set PKey} {f : (PKey → U) → PKey → X} {M : Measure X} (h : FreshIn μ S f M) {g : X → Y} (hg : Measurable g) :
    FreshIn μ S (fun ω key => g (f ω key)) (M.map g) := by
  obtain ⟨I, path, F, hu, hS, hF, hf, hM⟩ := h
  exact ⟨I, path, fun x => g (F x), hu, hS, hg.comp hF, fun ω key => congrArg g (hf ω key), by
    rw [← hM, Measure.map_map hg hF]; rfl⟩

/-- Work done below the descendant `q` of the key. -/
theorem FreshDraws.under {f : (PKey → U) → PKey → X} {M : Measure X} (h : FreshDraws μ f M) (q : PKey) :
    FreshIn μ {k | q <+: k} (fun ω key => f ω (key ++ q)) M := by
  obtain ⟨I, path, F, hu, hF, hf, hM⟩ := h
  exact ⟨I, fun i => q ++ path i, F, fun i j hij => hu i j ((List.prefix_append_right_inj _).1 hij),
    fun i => List.prefix_append _ _, hF, fun ω key => (hf ω _).trans (by simp only [List.append_assoc]), hM⟩

theorem FreshIn.pair {S S' : Set PKey} {f : (PKey → U) → PKey → X} {g : (PKey → U) → PKey → Y} {M : Measure X} {N : Measure Y}
    (hf : FreshIn μ S f M) (hg : FreshIn μ S' g N) (hS : ∀ a ∈ S, ∀ b ∈ S', ¬a <+: b ∧ ¬b <+: a) :
    FreshIn μ (S ∪ S') (fun ω key => (f ω key, g ω key)) (M.prod N) := by
  obtain ⟨I, p, F, hu, hp, hF, hf, rfl⟩ := hf
  obtain ⟨I', p', G, hu', hp', hG, hg, rfl⟩ := hg
  let J : Bool → Type := fun c => match c with | true => I | false => I'
  let pth : (c : Bool) → J c → PKey := fun c => match c with | true => p | false => p'
  refine ⟨(c : Bool) × J c, fun i => pth i.1 i.2, fun x => (F fun i => x ⟨true, i⟩, G fun i => x ⟨false, i⟩), ?_, ?_, by fun_prop,
    fun ω key => Prod.ext (hf ω key) (hg ω key), ?_⟩
  · rintro ⟨c, i⟩ ⟨c', i'⟩ h
    cases c <;> cases c'
    · rw [hu' i i' h]
    · exact absurd h (hS _ (hp _) _ (hp' _)).2
    · exact absurd h (hS _ (hp _) _ (hp' _)).1
    · rw [hu i i' h]
  · rintro ⟨c, i⟩
    cases c
    · exact Or.inr (hp' _)
    · exact Or.inl (hp _)
  · have h1 := Measure.infinitePi_map_piCurry (ι := Bool) (κ := J) (X := fun _ _ => U) (fun _ _ => μ)
    have e := Measure.infinitePi_map_eval_prod (P := fun c : Bool => Measure.infinitePi fun _ : J c => μ)
      (i := true) (j := false) (by decide)
    have hm : Measurable (fun x : (J true → U) × (J false → U) => (F x.1, G x.2)) :=
      (hF.comp measurable_fst).prodMk (hG.comp measurable_snd)
    have e2 := Measure.map_prod_map (Measure.infinitePi fun _ : J true => μ) (Measure.infinitePi fun _ : J false => μ) hF hG
    refine Eq.trans ?_ e2.symm
    rw [← e, ← h1, Measure.map_map (by exact hm) (by fun_prop), Measure.map_map (by exact hm.comp (by fun_prop)) (by fun_prop)]
    rfl

theorem FreshDraws.pair {f : (PKey → U) → PKey → X} {g : (PKey → U) → PKey → Y} {M : Measure X} {N : Measure Y}
    (hf : FreshDraws μ f M) (hg : FreshDraws μ g N) {a b : PKey} (hab : ¬a <+: b) (hba : ¬b <+: a) :
    FreshDraws μ (fun ω key => (f ω (key ++ a), g ω (key ++ b))) (M.prod N) := by
  refine ((hf.under a).pair (hg.under b) fun k hk k' hk' => ⟨fun h => ?_, fun h => ?_⟩).fresh
  · rcases List.prefix_or_prefix_of_prefix (hk.trans h) hk' with h1 | h1
    · exact hab h1
    · exact hba h1
  · rcases List.prefix_or_prefix_of_prefix (hk'.trans h) hk with h1 | h1
    · exact hba h1
    · exact hab h1

end Distrax.Spec
