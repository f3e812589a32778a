import Verif.Spec.Slice
import Verif.Props.Shape
import Verif.Lemmas.Linear
import Verif.Props.MathUtils
import Verif.Props.Categorical

/-! # C54: slicing a batch slices the law -/

namespace Distrax

open Spec XR

/-! ### Index conversion -/

theorem batchSelect_nil (idx : Index) : batchSelect [] idx = .ok ⟨[], fun _ => []⟩ := if_pos rfl

/-- `to_batch_shape_index` succeeds exactly when the index is legal, and the converted index reads the selected entries from any
array with this batch shape; used on a longer batch shape it leaves the trailing axes alone. -/
theorem toBatch_ok {batch : List ℕ} {idx : Index} (hok : idx.Ok batch) {r : Sel} (hr : batchSelect batch idx = .ok r) :
    ∃ i, toBatchShapeIndex batch idx = .ok i ∧ i.Ok batch ∧
      (∀ {α : Type} (a : BArr α), a.shape = batch → ∃ out, a.index i = .ok out ∧ out.shape = r.shape ∧
        ∀ j, InRange r.shape j → InRange batch (r.sel j) ∧ out.data j = a.data (r.sel j)) ∧
      ∀ inner, i.Ok (batch ++ inner) ∧ ∃ r', batchSelect (batch ++ inner) i = .ok r' ∧ r'.shape = r.shape ++ inner ∧
        ∀ j e, InRange r.shape j → InRange inner e → r'.sel (j ++ e) = r.sel j ++ e := by
  by_cases hb : batch = []
  · subst hb
    rw [batchSelect_nil] at hr; cases hr
    refine ⟨.coords 0 [] fun _ => [], rfl, fun i hi => by simp; exact List.Forall₂.nil, fun a ha => ?_, fun inner => ?_⟩
    · refine ⟨⟨a.shape, fun i => a.data i⟩, ?_, ha, fun j hj => ?_⟩
      · simp [BArr.index, npSelect, bind, Except.bind, pure, Except.pure]
      · cases hj
        exact ⟨List.Forall₂.nil, rfl⟩
    · refine ⟨fun i hi => by simp; exact List.Forall₂.nil, ?_⟩
      by_cases h : inner = []
      · subst h
        exact ⟨_, batchSelect_nil _, rfl, fun j e hj he => by cases hj; cases he; rfl⟩
      · refine ⟨⟨[] ++ inner.drop 0, fun i => [] ++ i.drop 0⟩, ?_, by simp, fun j e hj he => by cases hj; simp⟩
        rw [batchSelect, if_neg (by simpa using h)]
        simp [npSelect]
  · rw [batchSelect, if_neg hb] at hr
    have hsel : ∀ j, InRange r.shape j → InRange batch (r.sel j) := fun j hj => npSelect_inRange hok hr hj
    have hin : ∀ inner, Index.Ok (batch ++ inner) (.coords batch.length r.shape fun j =>
        (List.range batch.length).map fun k => (r.sel j).getD k 0) := by
      intro inner j hj
      show InRange ((batch ++ inner).take batch.length) ((List.range batch.length).map fun k => (r.sel j).getD k 0)
      rw [List.take_left, map_range_getD (hsel j hj).length]
      exact hsel j hj
    refine ⟨_, by rw [toBatchShapeIndex, if_neg hb, hr], by simpa using hin [], fun a ha => ?_, fun inner => ⟨hin inner, ?_⟩⟩
    · refine ⟨⟨r.shape ++ batch.drop batch.length, fun i => a.data
        ((List.range batch.length).map (fun k => (r.sel (i.take r.shape.length)).getD k 0) ++ i.drop r.shape.length)⟩, ?_, by simp,
        fun j hj => ⟨hsel j hj, ?_⟩⟩
      · simp only [BArr.index, npSelect, ha]
        rw [if_pos le_rfl]
        rfl
      · simp only [← hj.length, List.take_length, List.drop_length, List.append_nil, map_range_getD (hsel j hj).length]
    · refine ⟨⟨r.shape ++ (batch ++ inner).drop batch.length, fun i =>
        (List.range batch.length).map (fun k => (r.sel (i.take r.shape.length)).getD k 0) ++ i.drop r.shape.length⟩, ?_, by simp, ?_⟩
      · rw [batchSelect, if_neg (by simp [hb])]
        simp only [npSelect]
        rw [if_pos (by simp)]
      · intro j e hj he
        simp only [← hj.length, List.take_left, List.drop_left, map_range_getD (hsel j hj).length]

theorem toBatch_err {batch : List ℕ} {idx : Index} {e : Err} (hr : batchSelect batch idx = .error e) :
    toBatchShapeIndex batch idx = .error e := by
  by_cases hb : batch = []
  · subst hb; rw [batchSelect_nil] at hr; cases hr
  · rw [batchSelect, if_neg hb] at hr
    exact C19_bad_index batch hb idx e hr

theorem bind_of_eq {α β : Type} {x : Except Err α} {a : α} (h : x = .ok a) (f : α → Except Err β) : (x >>= f) = f a := by
  rw [h]; rfl

theorem bind_of_err {α β : Type} {x : Except Err α} {e : Err} (h : x = .error e) (f : α → Except Err β) :
    (x >>= f) = .error e := by
  rw [h]; rfl

theorem err_bind {α β : Type} (e : Err) (f : α → Except Err β) : ((Except.error e : Except Err α) >>= f) = .error e := rfl

/-! ### Categorical and its relatives -/

/-- Legal `Categorical` object: one parameter, a supported dtype, and every stored row is a normalised one. -/
def CatB.Legal {n : ℕ} (d : CatB n) : Prop :=
  d.dtype ≠ .other ∧
  ((∃ l, d.logits? = some l ∧ d.probs? = none ∧ ∀ i, InRange l.shape i → ∃ p, IsPmf p ∧ l.data i = fun k => xlog (p k)) ∨
   (∃ q, d.logits? = none ∧ d.probs? = some q ∧ ∀ i, InRange q.shape i → ∃ p, IsPmf p ∧ q.data i = fun k => fin (p k)))

theorem normalizeProbs_pmf {n : ℕ} {p : Fin n → ℝ} (h : IsPmf p) :
    normalizeProbs (fun i => fin (p i)) = fun i => fin (p i) := by
  funext i
  simp only [normalizeProbs, sum_fin, h.sum_one]
  rw [div_fin one_ne_zero, div_one]

/-- The constructor with legal parameters gives a legal object whose entry `i` is the one-row `Categorical` with row `i`. -/
theorem C54_categorical_init {n : ℕ} (dt : DType) (hd : dt ≠ .other) :
    (∀ l : BArr (Fin n → XR), (∀ i, InRange l.shape i → LegalLogits (l.data i)) →
      ∃ d, CatB.init (some l) none dt = .ok d ∧ d.Legal ∧ d.batch = l.shape ∧
        ∀ i, Cat.init (some (l.data i)) none dt = .ok (d.entry i)) ∧
    (∀ q : BArr (Fin n → XR), (∀ i, InRange q.shape i → ∃ w : Fin n → ℝ, (∀ k, 0 ≤ w k) ∧ 0 < ∑ k, w k ∧
        q.data i = fun k => fin (w k)) →
      ∃ d, CatB.init none (some q) dt = .ok d ∧ d.Legal ∧ d.batch = q.shape ∧
        ∀ i, Cat.init none (some (q.data i)) dt = .ok (d.entry i)) := by
  constructor
  · intro l hl
    refine ⟨⟨none, some (l.map normalizeLogits), dt⟩, ?_, ⟨hd, .inl ⟨_, rfl, rfl, fun i hi => ?_⟩⟩, rfl, fun i => ?_⟩
    · cases dt <;> simp_all [CatB.init]
    · exact ⟨_, pmf_weights (hl i hi), funext fun k => logSoftmax_legal (hl i hi) k⟩
    · cases dt <;> simp_all [Cat.init, CatB.entry, BArr.map]
  · intro q hq
    refine ⟨⟨some (q.map normalizeProbs), none, dt⟩, ?_, ⟨hd, .inr ⟨_, rfl, rfl, fun i hi => ?_⟩⟩, rfl, fun i => ?_⟩
    · cases dt <;> simp_all [CatB.init]
    · obtain ⟨w, h0, hs, e⟩ := hq i hi
      obtain ⟨p, p1, -, p3⟩ := C17_normalize_probs w h0 hs
      exact ⟨p, p1, by simp only [BArr.map, e]; exact p3⟩
    · cases dt <;> simp_all [Cat.init, CatB.entry, BArr.map]

/-- **Categorical and OneHotCategorical.** -/
theorem C54_categorical (n : ℕ) : SlicesLaw (CatB.ops n) CatB.Legal := by
  rintro ⟨p?, l?, dt⟩ idx ⟨hdt, hleg⟩ hok
  refine ⟨fun r hr => ?_, fun e he => ?_⟩
  · obtain ⟨i, h1, -, h2, -⟩ := toBatch_ok hok hr
    rcases hleg with ⟨l, rfl, rfl, hl⟩ | ⟨q, rfl, rfl, hq⟩
    · obtain ⟨out, o1, o2, o3⟩ := h2 l rfl
      refine ⟨⟨none, some (out.map normalizeLogits), dt⟩, ?_, ⟨hdt, .inl ⟨_, rfl, rfl, ?_⟩⟩, o2, ?_⟩
      · refine (bind_of_eq h1 _).trans ?_
        refine (bind_of_eq o1 _).trans ?_
        cases dt <;> simp_all [CatB.init]
      · intro j hj
        rw [show (out.map normalizeLogits).shape = r.shape from o2] at hj
        obtain ⟨a, b⟩ := o3 j hj
        obtain ⟨p, p1, p2⟩ := hl _ a
        exact ⟨p, p1, by simp only [BArr.map, b, p2]; exact C17_normalize_logits_fixed p1⟩
      · intro j hj
        obtain ⟨a, b⟩ := o3 j hj
        obtain ⟨p, p1, p2⟩ := hl _ a
        refine ⟨a, ?_⟩
        simp only [CatB.ops, CatB.entry, BArr.map, Option.map, b, p2, C17_normalize_logits_fixed p1]
    · obtain ⟨out, o1, o2, o3⟩ := h2 q rfl
      refine ⟨⟨some (out.map normalizeProbs), none, dt⟩, ?_, ⟨hdt, .inr ⟨_, rfl, rfl, ?_⟩⟩, o2, ?_⟩
      · refine (bind_of_eq h1 _).trans ?_
        refine (bind_of_eq o1 _).trans ?_
        cases dt <;> simp_all [CatB.init]
      · intro j hj
        rw [show (out.map normalizeProbs).shape = r.shape from o2] at hj
        obtain ⟨a, b⟩ := o3 j hj
        obtain ⟨p, p1, p2⟩ := hq _ a
        exact ⟨p, p1, by simp only [BArr.map, b, p2]; exact normalizeProbs_pmf p1⟩
      · intro j hj
        obtain ⟨a, b⟩ := o3 j hj
        obtain ⟨p, p1, p2⟩ := hq _ a
        refine ⟨a, ?_⟩
        simp only [CatB.ops, CatB.entry, BArr.map, Option.map, b, p2, normalizeProbs_pmf p1]
  · exact bind_of_err (toBatch_err he) _

/-- A `Greedy`, `EpsilonGreedy` or `Softmax` object as its constructor leaves it. -/
def GreedyB.Built {n : ℕ} (d : GreedyB n) : Prop := ∃ dt, GreedyB.init d.prefs dt = .ok d
/-- See `GreedyB.Built`. -/
def EpsGreedyB.Built {n : ℕ} (d : EpsGreedyB n) : Prop := ∃ dt, EpsGreedyB.init d.prefs d.eps dt = .ok d
/-- See `GreedyB.Built`. -/
def SoftmaxB.Built {n : ℕ} (d : SoftmaxB n) : Prop := ∃ dt, SoftmaxB.init d.unscaled d.temperature dt = .ok d

theorem CatB.init_probs {n : ℕ} {q : BArr (Fin n → XR)} {dt : DType} {c : CatB n} (h : CatB.init none (some q) dt = .ok c) :
    dt ≠ .other ∧ c = ⟨some (q.map normalizeProbs), none, dt⟩ := by
  cases dt <;> simp_all [CatB.init]

theorem CatB.init_logits {n : ℕ} {q : BArr (Fin n → XR)} {dt : DType} {c : CatB n} (h : CatB.init (some q) none dt = .ok c) :
    dt ≠ .other ∧ c = ⟨none, some (q.map normalizeLogits), dt⟩ := by
  cases dt <;> simp_all [CatB.init]

theorem CatB.init_probs_ok {n : ℕ} (q : BArr (Fin n → XR)) {dt : DType} (hd : dt ≠ .other) :
    CatB.init none (some q) dt = .ok ⟨some (q.map normalizeProbs), none, dt⟩ := by
  cases dt <;> simp_all [CatB.init]

theorem CatB.init_logits_ok {n : ℕ} (q : BArr (Fin n → XR)) {dt : DType} (hd : dt ≠ .other) :
    CatB.init (some q) none dt = .ok ⟨none, some (q.map normalizeLogits), dt⟩ := by
  cases dt <;> simp_all [CatB.init]

/-- **Greedy.** No condition on the preferences. -/
theorem C54_greedy (n : ℕ) : SlicesLaw (GreedyB.ops n) GreedyB.Built := by
  rintro ⟨prefs, cat⟩ idx ⟨dt, hbuilt⟩ hok
  have hc : dt ≠ .other ∧ cat = ⟨some ((prefs.map Cat.tieBreak).map normalizeProbs), none, dt⟩ := by
    unfold GreedyB.init at hbuilt
    cases h : CatB.init none (some (prefs.map Cat.tieBreak)) dt with
    | error e => rw [h] at hbuilt; cases hbuilt
    | ok c =>
      rw [h] at hbuilt
      have : c = cat := by cases hbuilt; rfl
      subst this
      exact CatB.init_probs h
  obtain ⟨hd, rfl⟩ := hc
  refine ⟨fun r hr => ?_, fun e he => ?_⟩
  · obtain ⟨i, h1, -, h2, -⟩ := toBatch_ok hok hr
    obtain ⟨out, o1, o2, o3⟩ := h2 prefs rfl
    have hi : GreedyB.init out dt = .ok ⟨out, ⟨some ((out.map Cat.tieBreak).map normalizeProbs), none, dt⟩⟩ := by
      rw [GreedyB.init, CatB.init_probs_ok _ hd]; rfl
    refine ⟨_, (bind_of_eq h1 _).trans ((bind_of_eq o1 _).trans hi), ⟨dt, hi⟩, o2, fun j hj => ?_⟩
    · obtain ⟨a, b⟩ := o3 j hj
      refine ⟨a, ?_⟩
      show CatB.entry _ j = CatB.entry _ (r.sel j)
      simp only [CatB.entry, BArr.map, Option.map, b]
  · exact bind_of_err (toBatch_err he) _

/-- **EpsilonGreedy.** -/
theorem C54_epsilon_greedy (n : ℕ) : SlicesLaw (EpsGreedyB.ops n) EpsGreedyB.Built := by
  rintro ⟨prefs, eps, cat⟩ idx ⟨dt, hbuilt⟩ hok
  have hc : dt ≠ .other ∧
      cat = ⟨some ((prefs.map fun p => Cat.mixUniform (Cat.tieBreak p) eps).map normalizeProbs), none, dt⟩ := by
    unfold EpsGreedyB.init at hbuilt
    cases h : CatB.init none (some (prefs.map fun p => Cat.mixUniform (Cat.tieBreak p) eps)) dt with
    | error e => simp only [h] at hbuilt; cases hbuilt
    | ok c =>
      simp only [h] at hbuilt
      have : c = cat := by cases hbuilt; rfl
      subst this
      exact CatB.init_probs h
  obtain ⟨hd, rfl⟩ := hc
  refine ⟨fun r hr => ?_, fun e he => ?_⟩
  · obtain ⟨i, h1, -, h2, -⟩ := toBatch_ok hok hr
    obtain ⟨out, o1, o2, o3⟩ := h2 prefs rfl
    have hi : EpsGreedyB.init out eps dt =
        .ok ⟨out, eps, ⟨some ((out.map fun p => Cat.mixUniform (Cat.tieBreak p) eps).map normalizeProbs), none, dt⟩⟩ := by
      rw [EpsGreedyB.init, CatB.init_probs_ok _ hd]; rfl
    refine ⟨_, (bind_of_eq h1 _).trans ((bind_of_eq o1 _).trans hi), ⟨dt, hi⟩, o2, fun j hj => ?_⟩
    · obtain ⟨a, b⟩ := o3 j hj
      refine ⟨a, ?_⟩
      simp only [EpsGreedyB.ops, CatB.entry, BArr.map, Option.map, b]
  · exact bind_of_err (toBatch_err he) _

/-- **Softmax.** -/
theorem C54_softmax (n : ℕ) : SlicesLaw (SoftmaxB.ops n) SoftmaxB.Built := by
  rintro ⟨l, t, cat⟩ idx ⟨dt, hbuilt⟩ hok
  have hc : dt ≠ .other ∧ cat = ⟨none, some ((l.map fun l i => l i / t).map normalizeLogits), dt⟩ := by
    unfold SoftmaxB.init at hbuilt
    cases h : CatB.init (some (l.map fun l i => l i / t)) none dt with
    | error e => simp only [h] at hbuilt; cases hbuilt
    | ok c =>
      simp only [h] at hbuilt
      have : c = cat := by cases hbuilt; rfl
      subst this
      exact CatB.init_logits h
  obtain ⟨hd, rfl⟩ := hc
  refine ⟨fun r hr => ?_, fun e he => ?_⟩
  · obtain ⟨i, h1, -, h2, -⟩ := toBatch_ok hok hr
    obtain ⟨out, o1, o2, o3⟩ := h2 l rfl
    have hi : SoftmaxB.init out t dt = .ok ⟨out, t, ⟨none, some ((out.map fun l i => l i / t).map normalizeLogits), dt⟩⟩ := by
      rw [SoftmaxB.init, CatB.init_logits_ok _ hd]; rfl
    refine ⟨_, (bind_of_eq h1 _).trans ((bind_of_eq o1 _).trans hi), ⟨dt, hi⟩, o2, fun j hj => ?_⟩
    · obtain ⟨a, b⟩ := o3 j hj
      refine ⟨a, ?_⟩
      simp only [SoftmaxB.ops, CatB.entry, BArr.map, Option.map, b]
  · exact bind_of_err (toBatch_err he) _

/-! ### Bernoulli, Dirichlet -/

/-- A `Bernoulli` as its constructor leaves it. -/
def BernB.Built (d : BernB) : Prop := ∃ l p dt, BernB.init l p dt = .ok d

/-- **Bernoulli.** -/
theorem C54_bernoulli : SlicesLaw BernB.ops BernB.Built := by
  rintro ⟨p?, l?, dt⟩ idx ⟨l, p, dt', hb⟩ hok
  have hsome : (l?.isNone ≠ p?.isNone) ∧ (dt ≠ .other) := by
    unfold BernB.init at hb
    cases l <;> cases p <;> cases dt' <;> simp at hb <;> obtain ⟨rfl, rfl, rfl⟩ := hb <;> simp
  clear hb
  obtain ⟨hs, hd⟩ := hsome
  refine ⟨fun r hr => ?_, fun e he => ?_⟩
  · obtain ⟨i, h1, -, h2, -⟩ := toBatch_ok hok hr
    cases l? with
    | some l =>
      cases p? with
      | some p => simp at hs
      | none =>
        obtain ⟨out, o1, o2, o3⟩ := h2 l rfl
        have hi : BernB.init (some out) none dt = .ok ⟨none, some out, dt⟩ := by cases dt <;> simp_all [BernB.init]
        refine ⟨_, ?_, ⟨_, _, _, hi⟩, o2, fun j hj => ⟨(o3 j hj).1, ?_⟩⟩
        · refine (bind_of_eq h1 _).trans ?_
          exact (bind_of_eq o1 _).trans hi
        · simp only [BernB.ops, BernB.entry, Option.map, (o3 j hj).2]
    | none =>
      cases p? with
      | none => simp at hs
      | some p =>
        obtain ⟨out, o1, o2, o3⟩ := h2 p rfl
        have hi : BernB.init none (some out) dt = .ok ⟨some out, none, dt⟩ := by cases dt <;> simp_all [BernB.init]
        refine ⟨_, ?_, ⟨_, _, _, hi⟩, o2, fun j hj => ⟨(o3 j hj).1, ?_⟩⟩
        · refine (bind_of_eq h1 _).trans ?_
          exact (bind_of_eq o1 _).trans hi
        · simp only [BernB.ops, BernB.entry, Option.map, (o3 j hj).2]
  · exact bind_of_err (toBatch_err he) _

/-- **Dirichlet.** -/
theorem C54_dirichlet (n : ℕ) : SlicesLaw (DirB.ops n) (fun d => DirB.init d.conc = .ok d) := by
  rintro ⟨c⟩ idx hb hok
  have hn : ¬ n < 2 := by intro h; simp [DirB.init, h] at hb
  refine ⟨fun r hr => ?_, fun e he => ?_⟩
  · obtain ⟨i, h1, -, h2, -⟩ := toBatch_ok hok hr
    obtain ⟨out, o1, o2, o3⟩ := h2 c rfl
    refine ⟨⟨out⟩, ?_, by simp [DirB.init, hn], o2, o3⟩
    exact (bind_of_eq h1 _).trans ((bind_of_eq o1 _).trans (if_neg hn))
  · exact bind_of_err (toBatch_err he) _

/-! ### Broadcast parameters: two-parameter families, Multinomial, CategoricalUniform -/

theorem BArr.broadcastTo_ok {α : Type} (a : BArr α) {t : List ℕ} (h : broadcastShapes a.shape t = some t) :
    a.broadcastTo t = .ok ⟨t, fun i => a.data (proj a.shape i)⟩ := if_pos h

/-- Indexing a broadcast parameter. -/
theorem broadcast_index {α : Type} {batch : List ℕ} {i : Index} {r : Sel}
    (h2 : ∀ {α : Type} (a : BArr α), a.shape = batch → ∃ out, a.index i = .ok out ∧ out.shape = r.shape ∧
        ∀ j, InRange r.shape j → InRange batch (r.sel j) ∧ out.data j = a.data (r.sel j))
    (a : BArr α) (h : broadcastShapes a.shape batch = some batch) :
    ∃ b out, a.broadcastTo batch = .ok b ∧ b.index i = .ok out ∧ out.shape = r.shape ∧
      ∀ j, InRange r.shape j → InRange batch (r.sel j) ∧ out.data (proj out.shape j) = a.data (proj a.shape (r.sel j)) := by
  obtain ⟨out, o1, o2, o3⟩ := h2 ⟨batch, fun i => a.data (proj a.shape i)⟩ rfl
  refine ⟨_, out, a.broadcastTo_ok h, o1, o2, fun j hj => ⟨(o3 j hj).1, ?_⟩⟩
  rw [o2, proj_self hj, (o3 j hj).2]

/-- A two-parameter object as its constructor leaves it. -/
def Fam2.Built (d : Fam2) : Prop := Fam2.init d.p d.q = .ok d

/-- View of a plain array as a batched array of scalars. -/
def Arr.toB (a : Arr) : BArr ℝ := ⟨a.shape, a.data⟩

theorem Arr.index_of_toB {a : Arr} {i : Index} {out : BArr ℝ} (h : a.toB.index i = .ok out) :
    a.index i = .ok ⟨out.shape, out.data⟩ := by
  unfold BArr.index at h
  unfold Arr.index
  cases hs : npSelect a.shape i with
  | error e =>
    rw [show a.toB.shape = a.shape from rfl, hs] at h; cases h
  | ok r =>
    rw [show a.toB.shape = a.shape from rfl, hs] at h; cases h; rfl

/-- **Normal, Uniform, Laplace, Logistic, Gumbel, Gamma, Beta, VonMises** (any two broadcastable parameters). -/
theorem C54_two_parameter : SlicesLaw Fam2.ops Fam2.Built := by
  rintro ⟨p, q, batch⟩ idx hb hok
  have hbr : broadcastShapes p.shape q.shape = some batch := by
    unfold Fam2.Built Fam2.init at hb
    revert hb
    cases broadcastShapes p.shape q.shape with
    | none => intro h; cases h
    | some b => intro h; cases h; rfl
  refine ⟨fun r hr => ?_, fun e he => bind_of_err (toBatch_err he) _⟩
  obtain ⟨i, h1, -, h2, -⟩ := toBatch_ok hok hr
  obtain ⟨a, a1, a2, a3⟩ := h2 ⟨batch, fun i => p.data (proj p.shape i)⟩ rfl
  obtain ⟨b, b1, b2, b3⟩ := h2 ⟨batch, fun i => q.data (proj q.shape i)⟩ rfl
  have hp : p.broadcastTo batch = .ok ⟨batch, fun i => p.data (proj p.shape i)⟩ := if_pos (broadcast_absorb_left hbr)
  have hq : q.broadcastTo batch = .ok ⟨batch, fun i => q.data (proj q.shape i)⟩ := if_pos (broadcast_absorb_right hbr)
  have hi : Fam2.init ⟨a.shape, a.data⟩ ⟨b.shape, b.data⟩ = .ok ⟨⟨a.shape, a.data⟩, ⟨b.shape, b.data⟩, r.shape⟩ := by
    unfold Fam2.init
    simp only [a2, b2, broadcastShapes_self]
  refine ⟨_, (bind_of_eq h1 _).trans ((bind_of_eq hp _).trans ((bind_of_eq (Arr.index_of_toB (a := ⟨batch, fun i => p.data (proj p.shape i)⟩) a1) _).trans
    ((bind_of_eq hq _).trans ((bind_of_eq (Arr.index_of_toB (a := ⟨batch, fun i => q.data (proj q.shape i)⟩) b1) _).trans hi)))), hi, rfl, fun j hj => ⟨(a3 j hj).1, ?_⟩⟩
  simp only [Fam2.ops, a2, b2, proj_self hj, (a3 j hj).2, (b3 j hj).2]

/-- Legal `Multinomial` object: as for `Categorical`, with at least two categories and a `total_count` that broadcasts. -/
def MultB.Legal {K : ℕ} (d : MultB K) : Prop :=
  (⟨d.probs?, d.logits?, d.dtype⟩ : CatB K).Legal ∧ 2 ≤ K ∧
    broadcastShapes (MultB.rowShape d.probs? d.logits?) d.total.shape = some d.batch

/-- **Multinomial**, with `total_count` of any broadcastable shape. -/
theorem C54_multinomial (K : ℕ) : SlicesLaw (MultB.ops K) MultB.Legal := by
  rintro ⟨tot, p?, l?, dt, batch⟩ idx ⟨⟨hdt, hleg⟩, hK, hbr⟩ hok
  have hdt' : dt ≠ .other := hdt
  refine ⟨fun r hr => ?_, fun e he => bind_of_err (toBatch_err he) _⟩
  obtain ⟨i, h1, -, h2, -⟩ := toBatch_ok hok hr
  have hbr' : broadcastShapes (MultB.rowShape p? l?) tot.shape = some batch := hbr
  obtain ⟨t0, t, t1, t2, t3, t4⟩ := broadcast_index h2 tot (broadcast_absorb_right hbr')
  rcases hleg with ⟨l, hl1, hl2, hl⟩ | ⟨q, hq1, hq2, hq⟩
  · simp only at hl1 hl2; subst hl1 hl2
    have hab := broadcast_absorb_left hbr'
    obtain ⟨b0, b, b1, b2, b3, b4⟩ := broadcast_index h2 l hab
    have row : ∀ j, InRange r.shape j → ∃ p, IsPmf p ∧ l.data (proj l.shape (r.sel j)) = fun k => xlog (p k) := fun j hj =>
      hl _ (proj_inRange hab (b4 j hj).1)
    have hi : MultB.init t (some b) none dt = .ok ⟨t, none, some (b.map normalizeLogits), dt, r.shape⟩ := by
      unfold MultB.init
      rw [if_neg (by simp), if_neg (by omega), if_neg (by simp), if_neg (by cases dt <;> simp_all)]
      simp only [MultB.rowShape, b3, t3, broadcastShapes_self, Option.map]
    refine ⟨_, (bind_of_eq h1 _).trans ((bind_of_eq t1 _).trans ((bind_of_eq t2 _).trans
      ((bind_of_eq b1 _).trans ((bind_of_eq b2 _).trans hi)))), ⟨⟨hdt, .inl ⟨_, rfl, rfl, fun j hj => ?_⟩⟩, hK, ?_⟩, rfl,
      fun j hj => ⟨(t4 j hj).1, ?_⟩⟩
    · have hj' : InRange r.shape j := by rw [← b3]; exact hj
      obtain ⟨p, p1, p2⟩ := row j hj'
      refine ⟨p, p1, ?_⟩
      have := (b4 j hj').2
      rw [b3, proj_self hj'] at this
      simp only [BArr.map, this, p2]
      exact C17_normalize_logits_fixed p1
    · simp only [MultB.rowShape, BArr.map, b3, t3, broadcastShapes_self]
    · obtain ⟨p, p1, p2⟩ := row j hj
      simp only [MultB.ops, MultB.entry, BArr.map, Option.map, (t4 j hj).2, (b4 j hj).2, p2, C17_normalize_logits_fixed p1]
  · simp only at hq1 hq2; subst hq1 hq2
    have hab := broadcast_absorb_left hbr'
    obtain ⟨b0, b, b1, b2, b3, b4⟩ := broadcast_index h2 q hab
    have row : ∀ j, InRange r.shape j → ∃ p, IsPmf p ∧ q.data (proj q.shape (r.sel j)) = fun k => fin (p k) := fun j hj =>
      hq _ (proj_inRange hab (b4 j hj).1)
    have hi : MultB.init t none (some b) dt = .ok ⟨t, some (b.map normalizeProbs), none, dt, r.shape⟩ := by
      unfold MultB.init
      rw [if_neg (by simp), if_neg (by simp), if_neg (by omega), if_neg (by cases dt <;> simp_all)]
      simp only [MultB.rowShape, b3, t3, broadcastShapes_self, Option.map]
    refine ⟨_, (bind_of_eq h1 _).trans ((bind_of_eq t1 _).trans ((bind_of_eq t2 _).trans
      ((bind_of_eq b1 _).trans ((bind_of_eq b2 _).trans hi)))), ⟨⟨hdt, .inr ⟨_, rfl, rfl, fun j hj => ?_⟩⟩, hK, ?_⟩, rfl,
      fun j hj => ⟨(t4 j hj).1, ?_⟩⟩
    · have hj' : InRange r.shape j := by rw [← b3]; exact hj
      obtain ⟨p, p1, p2⟩ := row j hj'
      refine ⟨p, p1, ?_⟩
      have := (b4 j hj').2
      rw [b3, proj_self hj'] at this
      simp only [BArr.map, this, p2]
      exact normalizeProbs_pmf p1
    · simp only [MultB.rowShape, BArr.map, b3, t3, broadcastShapes_self]
    · obtain ⟨p, p1, p2⟩ := row j hj
      simp only [MultB.ops, MultB.entry, BArr.map, Option.map, (t4 j hj).2, (b4 j hj).2, p2, normalizeProbs_pmf p1]

/-- **CategoricalUniform**, with three parameters of any broadcastable shapes; no condition on the logits. -/
theorem C54_categorical_uniform (K : ℕ) : SlicesLaw (CatUniformB.ops K) (fun d => ∃ b, d.batch? = .ok b) := by
  rintro ⟨lo, hi, lg⟩ idx ⟨b, hb⟩ hok
  have hbat : (CatUniformB.ops K).batch ⟨lo, hi, lg⟩ = b := by simp only [CatUniformB.ops, hb]
  rw [hbat] at hok ⊢
  have hbr : ∃ t, broadcastShapes lo.shape hi.shape = some t ∧ broadcastShapes t lg.shape = some b := by
    unfold CatUniformB.batch? at hb
    revert hb
    simp only
    cases broadcastShapes lo.shape hi.shape with
    | none => intro h; cases h
    | some t =>
      simp only
      cases h2 : broadcastShapes t lg.shape with
      | none => intro h; cases h
      | some b' => intro h; cases h; exact ⟨t, rfl, h2⟩
  obtain ⟨t, ht, htb⟩ := hbr
  have htt := broadcast_absorb_left htb
  refine ⟨fun r hr => ?_, fun e he => (bind_of_eq hb _).trans (bind_of_err (toBatch_err he) _)⟩
  obtain ⟨i, h1, -, h2, -⟩ := toBatch_ok hok hr
  obtain ⟨x0, x, x1, x2, x3, x4⟩ := broadcast_index h2 lo (broadcast_trans (broadcast_absorb_left ht) htt)
  obtain ⟨y0, y, y1, y2, y3, y4⟩ := broadcast_index h2 hi (broadcast_trans (broadcast_absorb_right ht) htt)
  obtain ⟨z0, z, z1, z2, z3, z4⟩ := broadcast_index h2 lg (broadcast_absorb_right htb)
  have hb' : (⟨x, y, z⟩ : CatUniformB K).batch? = .ok r.shape := by
    simp only [CatUniformB.batch?, x3, y3, z3, broadcastShapes_self]
  refine ⟨⟨x, y, z⟩, (bind_of_eq hb _).trans ((bind_of_eq h1 _).trans ((bind_of_eq x1 _).trans ((bind_of_eq x2 _).trans
    ((bind_of_eq y1 _).trans ((bind_of_eq y2 _).trans ((bind_of_eq z1 _).trans ((bind_of_eq z2 _).trans rfl))))))),
    ⟨_, hb'⟩, by simp only [CatUniformB.ops, hb'], fun j hj => ⟨(x4 j hj).1, ?_⟩⟩
  simp only [CatUniformB.ops, CatUniformB.entry, (x4 j hj).2, (y4 j hj).2, (z4 j hj).2]

/-! ### Wrappers: closed under nesting to any depth -/

theorem blockOf_congr {L : Type} {s : List ℕ} {f g : List ℕ → L} {j k : List ℕ}
    (h : ∀ e, InRange s e → f (j ++ e) = g (k ++ e)) : blockOf s f j = blockOf s g k := by
  unfold blockOf
  congr 1
  funext e
  split
  · rename_i he; rw [h e he]
  · rfl

/-- Slicing through an index that was converted for a prefix of the batch axes. -/
theorem Spec.SlicesLaw.outer {D L : Type} {o : SliceOps D L} {Legal : D → Prop} (h : SlicesLaw o Legal) {d : D} (hd : Legal d)
    {outer inner : List ℕ} (hb : o.batch d = outer ++ inner) {idx : Index} (hok : idx.Ok outer) {r : Sel}
    (hr : batchSelect outer idx = .ok r) :
    ∃ i, toBatchShapeIndex outer idx = .ok i ∧ ∃ d', o.getItem d i = .ok d' ∧ Legal d' ∧ o.batch d' = r.shape ++ inner ∧
      ∀ j e, InRange r.shape j → InRange inner e → o.entry d' (j ++ e) = o.entry d (r.sel j ++ e) := by
  obtain ⟨i, h1, -, -, h3⟩ := toBatch_ok hok hr
  obtain ⟨a1, r', a2, a3, a4⟩ := h3 inner
  rw [← hb] at a1 a2
  obtain ⟨d', b1, b2, b3, b4⟩ := (h d i hd a1).1 r' a2
  refine ⟨i, h1, d', b1, b2, b3.trans a3, fun j e hj he => ?_⟩
  rw [(b4 (j ++ e) (by rw [a3]; exact hj.append he)).2, a4 j e hj he]

theorem sel_ok_in {outer : List ℕ} {idx : Index} (hok : idx.Ok outer) {r : Sel} (hr : batchSelect outer idx = .ok r) {j : List ℕ}
    (hj : InRange r.shape j) : InRange outer (r.sel j) := by
  obtain ⟨i, -, -, h2, -⟩ := toBatch_ok hok hr
  obtain ⟨out, -, -, o3⟩ := h2 (⟨outer, fun _ => ()⟩ : BArr Unit) rfl
  exact (o3 j hj).1

/-- **Independent** over anything that slices its law. -/
theorem C54_independent {D L : Type} {o : SliceOps D L} {Legal : D → Prop} (h : SlicesLaw o Legal) :
    SlicesLaw (IndepB.ops o) (fun d => Legal d.inner ∧ d.k ≤ (o.batch d.inner).length) := by
  rintro ⟨x, k⟩ idx ⟨hx, hk⟩ hok
  refine ⟨fun r hr => ?_, fun e he => bind_of_err (toBatch_err he) _⟩
  simp only at hx hk
  set m := (o.batch x).length - k with hm
  have hb : o.batch x = (o.batch x).take m ++ (o.batch x).drop m := (List.take_append_drop _ _).symm
  obtain ⟨i, h1, x', g1, g2, g3, g4⟩ := h.outer hx hb hok hr
  have hlen : ((o.batch x).drop m).length = k := by simp; omega
  have hl' : (o.batch x').length = r.shape.length + k := by rw [g3, List.length_append, hlen]
  have hinit : IndepB.init o x' (some k) = .ok ⟨x', k⟩ := by
    unfold IndepB.init independentNdims
    simp only
    rw [if_neg (by rw [hl']; push_cast; omega), if_neg (by omega)]
    rfl
  have hm' : (o.batch x').length - k = r.shape.length := by omega
  refine ⟨⟨x', k⟩, (bind_of_eq h1 _).trans ((bind_of_eq g1 _).trans hinit), ⟨g2, by show k ≤ (o.batch x').length; omega⟩, ?_,
    fun j hj => ⟨sel_ok_in hok hr hj, ?_⟩⟩
  · show (o.batch x').take ((o.batch x').length - k) = r.shape
    rw [hm', g3, List.take_left]
  · show blockOf ((o.batch x').drop ((o.batch x').length - k)) _ j = blockOf ((o.batch x).drop m) _ _
    rw [hm', g3, List.drop_left]
    exact blockOf_congr fun e he => g4 j e hj he

/-- **MixtureSameFamily**: the weights and the components are sliced together. -/
theorem C54_mixture_same_family {M D P L : Type} {om : SliceOps M P} {oc : SliceOps D L} {LM : M → Prop} {LC : D → Prop}
    (hm : SlicesLaw om LM) (hc : SlicesLaw oc LC) :
    SlicesLaw (MixB.ops om oc)
      (fun d => LM d.mixture ∧ LC d.components ∧ ∃ K, oc.batch d.components = om.batch d.mixture ++ [K]) := by
  rintro ⟨m, c⟩ idx ⟨h1, h2, K, hK⟩ hok
  refine ⟨fun r hr => ?_, fun e he => bind_of_err (toBatch_err he) _⟩
  simp only at h1 h2 hK
  obtain ⟨i, e1, m', m1, m2, m3, m4⟩ := hm.outer (inner := []) h1 (List.append_nil _).symm hok hr
  obtain ⟨i', e1', c', c1, c2, c3, c4⟩ := hc.outer h2 hK hok hr
  have : i' = i := Except.ok.inj (e1'.symm.trans e1)
  subst this
  rw [List.append_nil] at m3
  have hinit : MixB.init om oc m' c' = .ok ⟨m', c'⟩ := by
    unfold MixB.init MixtureSameFamily.check
    rw [m3, c3, List.dropLast_concat]
    simp
  refine ⟨⟨m', c'⟩, (bind_of_eq e1 _).trans ((bind_of_eq m1 _).trans ((bind_of_eq c1 _).trans hinit)),
    ⟨m2, c2, K, by simp only [c3, m3]⟩, m3, fun j hj => ⟨sel_ok_in hok hr hj, ?_⟩⟩
  show (om.entry m' j, blockOf ((oc.batch c').drop (om.batch m').length) (oc.entry c') j) =
    (om.entry m (r.sel j), blockOf ((oc.batch c).drop (om.batch m).length) (oc.entry c) (r.sel j))
  have hmj := m4 j [] hj List.Forall₂.nil
  simp only [List.append_nil] at hmj
  rw [hmj, c3, m3, List.drop_left, hK, List.drop_left]
  congr 1
  exact blockOf_congr fun e he => c4 j e hj he

/-- **MixtureOfTwo**: `prob_a` is a scalar shared by the batch, so it must not be (and is not) sliced. -/
theorem C54_mixture_of_two {A B P Q : Type} {oa : SliceOps A P} {ob : SliceOps B Q} {LA : A → Prop} {LB : B → Prop}
    (ha : SlicesLaw oa LA) (hb : SlicesLaw ob LB) :
    SlicesLaw (Mix2B.ops oa ob) (fun d => LA d.a ∧ LB d.b ∧ oa.batch d.a = ob.batch d.b) := by
  rintro ⟨p, a, b⟩ idx ⟨h1, h2, hab⟩ hok
  refine ⟨fun r hr => ?_, fun e he => bind_of_err (toBatch_err he) _⟩
  simp only at h1 h2 hab
  obtain ⟨i, e1, a', a1, a2, a3, a4⟩ := ha.outer (inner := []) h1 (List.append_nil _).symm hok hr
  obtain ⟨i', e1', b', b1, b2, b3, b4⟩ := hb.outer (inner := []) h2 (by rw [List.append_nil]; exact hab.symm) hok hr
  have : i' = i := Except.ok.inj (e1'.symm.trans e1)
  subst this
  rw [List.append_nil] at a3 b3
  have hinit : Mix2B.init oa ob p a' b' = .ok ⟨p, a', b'⟩ := by
    unfold Mix2B.init; rw [if_neg (by rw [a3, b3]; simp)]
  refine ⟨⟨p, a', b'⟩, (bind_of_eq e1 _).trans ((bind_of_eq a1 _).trans ((bind_of_eq b1 _).trans hinit)),
    ⟨a2, b2, by simp only [a3, b3]⟩, a3, fun j hj => ⟨sel_ok_in hok hr hj, ?_⟩⟩
  have x := a4 j [] hj List.Forall₂.nil
  have y := b4 j [] hj List.Forall₂.nil
  simp only [List.append_nil] at x y
  show (p, oa.entry a' j, ob.entry b' j) = (p, oa.entry a _, ob.entry b _)
  rw [x, y]

/-- **Clipped**: the bounds are sliced with the wrapped distribution. -/
theorem C54_clipped {D L : Type} {o : SliceOps D L} {Legal : D → Prop} (h : SlicesLaw o Legal) :
    SlicesLaw (ClippedB.ops o)
      (fun d => Legal d.inner ∧ d.minimum.shape = o.batch d.inner ∧ d.maximum.shape = o.batch d.inner) := by
  rintro ⟨x, mn, mx⟩ idx ⟨hx, h1, h2⟩ hok
  refine ⟨fun r hr => ?_, fun e he => bind_of_err (toBatch_err he) _⟩
  simp only at hx h1 h2
  obtain ⟨i, e1, x', g1, g2, g3, g4⟩ := h.outer (inner := []) hx (List.append_nil _).symm hok hr
  obtain ⟨i', e1', -, h3, -⟩ := toBatch_ok hok hr
  have : i' = i := Except.ok.inj (e1'.symm.trans e1)
  subst this
  obtain ⟨a, a1, a2, a3⟩ := h3 mn h1
  obtain ⟨b, b1, b2, b3⟩ := h3 mx h2
  rw [List.append_nil] at g3
  have hinit : ClippedB.init o x' a b = .ok ⟨x', ⟨r.shape, fun i => a.data (proj a.shape i)⟩,
      ⟨r.shape, fun i => b.data (proj b.shape i)⟩⟩ := by
    have ha : a.broadcastTo (o.batch x') = .ok ⟨r.shape, fun i => a.data (proj a.shape i)⟩ := by
      rw [g3]; exact a.broadcastTo_ok (by rw [a2, broadcastShapes_self])
    have hb : b.broadcastTo (o.batch x') = .ok ⟨r.shape, fun i => b.data (proj b.shape i)⟩ := by
      rw [g3]; exact b.broadcastTo_ok (by rw [b2, broadcastShapes_self])
    have hc : Clipped.checkShapes [] (o.batch x') a.shape b.shape = .ok () := by
      simp [Clipped.checkShapes, a2, b2, g3]
    exact (bind_of_eq hc _).trans ((bind_of_eq ha _).trans ((bind_of_eq hb _).trans rfl))
  refine ⟨_, (bind_of_eq e1 _).trans ((bind_of_eq g1 _).trans ((bind_of_eq a1 _).trans ((bind_of_eq b1 _).trans hinit))),
    ⟨g2, g3.symm, g3.symm⟩, g3, fun j hj => ⟨sel_ok_in hok hr hj, ?_⟩⟩
  have y := g4 j [] hj List.Forall₂.nil
  simp only [List.append_nil] at y
  show (o.entry x' j, a.data (proj a.shape j), b.data (proj b.shape j)) = (o.entry x _, mn.data _, mx.data _)
  rw [y, a2, b2, proj_self hj, (a3 j hj).2, (b3 j hj).2]

/-- Composed example: a mixture of clipped independent two-parameter laws slices its law, at every batch shape. -/
theorem C54_composed (n : ℕ) : SlicesLaw (MixB.ops (CatB.ops n) (IndepB.ops (ClippedB.ops Fam2.ops)))
    (fun d => d.mixture.Legal ∧ ((d.components.inner.inner.Built ∧
        d.components.inner.minimum.shape = d.components.inner.inner.batch ∧
        d.components.inner.maximum.shape = d.components.inner.inner.batch) ∧
      d.components.k ≤ d.components.inner.inner.batch.length) ∧
      ∃ K, IndepB.batch (ClippedB.ops Fam2.ops) d.components = d.mixture.batch ++ [K]) :=
  C54_mixture_same_family (C54_categorical n) (C54_independent (C54_clipped C54_two_parameter))

/-! ### Non-vacuity -/

/-- A legal two-row `Categorical`, sliced by `[1]`: the single remaining entry is row 1. -/
example : ∃ d d' : CatB 2, d.Legal ∧ d.batch = [2] ∧ d.getItem (.basic [.int 1]) = .ok d' ∧ d'.batch = [] ∧
    d'.entry [] = d.entry [1] := by
  let l : BArr (Fin 2 → XR) := ⟨[2], fun i => if i = [0] then ![fin 0, ninf] else ![fin 1, fin 2]⟩
  obtain ⟨d, -, d2, d3, -⟩ := (C54_categorical_init (n := 2) .integer (by simp)).1 l (by
    intro i _
    by_cases h : i = [0]
    · simp only [l, if_pos h]; exact ⟨by intro i; fin_cases i <;> simp, ⟨0, 0, rfl⟩⟩
    · simp only [l, if_neg h]; exact ⟨by intro i; fin_cases i <;> simp, ⟨0, 1, rfl⟩⟩)
  obtain ⟨r, r1, r2, r3⟩ := C19_int_index 2 [] 1 (by norm_num)
  have hr : batchSelect d.batch (.basic [.int ((1 : ℕ) : ℤ)]) = .ok r := by rw [d3]; exact r1
  obtain ⟨d', e1, -, e3, e4⟩ := (C54_categorical 2 d (.basic [.int ((1 : ℕ) : ℤ)]) d2 trivial).1 r hr
  refine ⟨d, d', d2, d3, e1, e3.trans r2, ?_⟩
  have hn : InRange r.shape [] := by rw [r2]; exact List.Forall₂.nil
  have := (e4 [] hn).2
  rwa [r3 [] List.Forall₂.nil] at this

/-- Legal objects of the other classes exist. -/
example : (∃ d : GreedyB 2, d.Built) ∧ (∃ d : MultB 2, d.Legal ∧ d.batch = [3, 2]) ∧
    (∃ d : CatUniformB 2, d.batch? = .ok [3, 2]) := by
  have hg : ∃ d : GreedyB 2, d.Built := by
    refine ⟨⟨⟨[], fun _ => ![fin 1, fin 2]⟩, ⟨some (((⟨[], fun _ => ![fin 1, fin 2]⟩ : BArr (Fin 2 → XR)).map
      Cat.tieBreak).map normalizeProbs), none, .integer⟩⟩, .integer, ?_⟩
    exact bind_of_eq (CatB.init_probs_ok _ (by simp)) _
  refine ⟨hg, ⟨⟨⟨[3, 1], fun _ => 5⟩, some ⟨[2], fun _ => ![fin (1/2), fin (1/2)]⟩, none, .integer, [3, 2]⟩,
    ⟨⟨by simp, .inr ⟨_, rfl, rfl, fun i _ => ⟨fun _ => 1/2, ⟨fun _ => by norm_num, by simp⟩, ?_⟩⟩⟩, le_rfl, ?_⟩, rfl⟩,
    ⟨⟨[3, 1], fun _ => 0⟩, ⟨[], fun _ => 1⟩, ⟨[2], fun _ _ => fin 0⟩⟩, ?_⟩
  · funext k; fin_cases k <;> simp
  · simp [MultB.rowShape, broadcastShapes, brev, bdim]
  · simp [CatUniformB.batch?, broadcastShapes, brev, bdim]

end Distrax
