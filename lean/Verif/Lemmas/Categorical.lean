import Verif.Spec.Categorical
import Verif.Lemmas.MathUtils
import Mathlib.Data.EReal.Basic
import Mathlib.Tactic.Linarith
import Mathlib.Analysis.SpecialFunctions.Log.NegMulLog

namespace Distrax

open XR Spec Finset

/-! ### Order on non-nan numbers -/

/-- Order embedding of the non-nan numbers. -/
noncomputable def XR.toE : XR → EReal
  | fin a => (a : EReal)
  | pinf => ⊤
  | ninf => ⊥
  | nan => ⊥

theorem XR.ltB_iff {a b : XR} (ha : a ≠ nan) (hb : b ≠ nan) : ltB a b ↔ a.toE < b.toE := by
  cases a <;> cases b <;> simp_all [ltB, toE]

theorem XR.toE_inj {a b : XR} (ha : a ≠ nan) (hb : b ≠ nan) : a.toE = b.toE ↔ a = b := by
  cases a <;> cases b <;> simp_all [toE]

theorem XR.leB_iff {a b : XR} (ha : a ≠ nan) (hb : b ≠ nan) : leB a b ↔ a.toE ≤ b.toE := by
  unfold leB
  rw [XR.ltB_iff ha hb, le_iff_lt_or_eq]
  cases a <;> cases b <;> simp_all [eqB, toE]

theorem XR.better_iff {a b : XR} (ha : a ≠ nan) (hb : b ≠ nan) : XR.better a b ↔ b.toE < a.toE := by
  unfold XR.better
  rw [XR.ltB_iff hb ha]
  simp [ha]

theorem XR.eqB_iff {a b : XR} (ha : a ≠ nan) : eqB a b ↔ a = b := by
  cases a <;> cases b <;> simp_all [eqB]

open Classical in
theorem argmax_foldl {n : ℕ} (x : Fin (n + 1) → XR) (hx : ∀ i, x i ≠ nan) (L : List (Fin (n + 1)))
    (b : Fin (n + 1)) (hL : (b :: L).Pairwise (· ≤ ·)) :
    let r := L.foldl (fun b j => if XR.better (x j) (x b) then j else b) b
    (∀ j ∈ b :: L, (x j).toE ≤ (x r).toE) ∧ (∀ j ∈ b :: L, j < r → (x j).toE < (x r).toE) ∧ r ∈ b :: L := by
  induction L generalizing b with
  | nil => simp
  | cons c L ih =>
    simp only [List.foldl_cons]
    have hbc : b ≤ c := by simp at hL; exact hL.1.1
    by_cases h : XR.better (x c) (x b)
    · rw [if_pos h]
      rw [XR.better_iff (hx _) (hx _)] at h
      obtain ⟨h1, h2, h3⟩ := ih c (List.Pairwise.of_cons hL)
      refine ⟨?_, ?_, List.mem_cons_of_mem _ h3⟩
      · intro j hj
        rcases List.mem_cons.1 hj with rfl | hj
        · exact h.le.trans (h1 c (by simp))
        · exact h1 j hj
      · intro j hj hlt
        rcases List.mem_cons.1 hj with rfl | hj
        · exact h.trans_le (h1 c (by simp))
        · exact h2 j hj hlt
    · rw [if_neg h]
      rw [XR.better_iff (hx _) (hx _), not_lt] at h
      have hL' : (b :: L).Pairwise (· ≤ ·) := by
        simp only [List.pairwise_cons] at hL ⊢
        exact ⟨fun a ha => hL.1 a (by simp [ha]), hL.2.2⟩
      obtain ⟨h1, h2, h3⟩ := ih b hL'
      refine ⟨?_, ?_, ?_⟩
      · intro j hj
        rcases List.mem_cons.1 hj with rfl | hj
        · exact h1 _ (by simp)
        · rcases List.mem_cons.1 hj with rfl | hj
          · exact h.trans (h1 b (by simp))
          · exact h1 j (by simp [hj])
      · intro j hj hlt
        rcases List.mem_cons.1 hj with rfl | hj
        · exact h2 _ (by simp) hlt
        · rcases List.mem_cons.1 hj with rfl | hj
          · exact h.trans_lt (h2 b (by simp) (hbc.trans_lt hlt))
          · exact h2 j (by simp [hj]) hlt
      · rcases List.mem_cons.1 h3 with h3 | h3
        · rw [h3]; simp
        · simp [h3]

/-- `argmax` of a row without nan: maximal, and strictly above every earlier entry. -/
theorem argmaxIdx_spec {n : ℕ} (x : Fin (n + 1) → XR) (hx : ∀ i, x i ≠ nan) :
    (∀ j, (x j).toE ≤ (x (argmaxIdx x)).toE) ∧ ∀ j < argmaxIdx x, (x j).toE < (x (argmaxIdx x)).toE := by
  classical
  have := argmax_foldl x hx (List.finRange (n + 1)) 0 (by
    rw [List.pairwise_cons]
    exact ⟨fun a _ => Fin.zero_le a, (List.pairwise_le_finRange (n + 1))⟩)
  refine ⟨fun j => this.1 j (by simp), fun j hj => this.2.1 j (by simp) hj⟩

theorem foldl_xmax (L : List XR) (hL : ∀ x ∈ L, x ≠ nan) (b : XR) (hb : b ≠ nan) :
    L.foldl XR.max b ≠ nan ∧ (∀ y ∈ b :: L, y.toE ≤ (L.foldl XR.max b).toE) ∧ L.foldl XR.max b ∈ b :: L := by
  classical
  induction L generalizing b with
  | nil => simp [hb]
  | cons c L ih =>
    have hc : c ≠ nan := hL c (by simp)
    have hL' : ∀ x ∈ L, x ≠ nan := fun x hx => hL x (by simp [hx])
    have hm : XR.max b c = if ltB b c then c else b := by
      cases b <;> cases c <;> simp_all [XR.max]
    rw [List.foldl_cons, hm]
    split
    · rename_i h
      rw [XR.ltB_iff hb hc] at h
      obtain ⟨h0, h1, h2⟩ := ih hL' c hc
      refine ⟨h0, ?_, List.mem_cons_of_mem _ h2⟩
      intro y hy
      rcases List.mem_cons.1 hy with rfl | hy
      · exact h.le.trans (h1 c (by simp))
      · exact h1 y hy
    · rename_i h
      rw [XR.ltB_iff hb hc, not_lt] at h
      obtain ⟨h0, h1, h2⟩ := ih hL' b hb
      refine ⟨h0, ?_, ?_⟩
      · intro y hy
        rcases List.mem_cons.1 hy with rfl | hy
        · exact h1 _ (by simp)
        · rcases List.mem_cons.1 hy with rfl | hy
          · exact h.trans (h1 b (by simp))
          · exact h1 y (by simp [hy])
      · rcases List.mem_cons.1 h2 with h2 | h2
        · rw [h2]; simp
        · simp [h2]

/-- The row maximum is attained exactly at the maximal entries. -/
theorem eqB_rowMax {n : ℕ} (x : Fin n → XR) (hx : ∀ i, x i ≠ nan) (i : Fin n) :
    eqB (x i) (rowMax x) ↔ ArgMax x i := by
  have hmem : ∀ y, y ∈ List.ofFn x ↔ ∃ i, x i = y := fun y => List.mem_ofFn' _ _
  obtain ⟨h0, h1, h2⟩ := foldl_xmax (List.ofFn x) (fun y hy => by
    obtain ⟨i, rfl⟩ := (hmem y).1 hy; exact hx i) ninf (by simp)
  change rowMax x ≠ nan at h0
  change ∀ y ∈ ninf :: List.ofFn x, y.toE ≤ (rowMax x).toE at h1
  change rowMax x ∈ ninf :: List.ofFn x at h2
  rw [XR.eqB_iff (hx i)]
  constructor
  · intro h j
    rw [XR.leB_iff (hx j) (hx i), h]
    exact h1 _ (by simp [hmem])
  · intro h
    rw [← XR.toE_inj (hx i) h0]
    refine le_antisymm (h1 _ (by simp [hmem])) ?_
    rcases List.mem_cons.1 h2 with h2 | h2
    · rw [h2]; simp [toE]
    · obtain ⟨j, hj⟩ := (hmem _).1 h2
      rw [← hj]
      exact (XR.leB_iff (hx j) (hx i)).1 (h j)

/-! ### Sums against one-hot vectors -/

theorem sum_single {n : ℕ} (k : Fin n) (f : Fin n → XR) (h : ∀ i, i ≠ k → f i = 0) : ∑ i, f i = f k :=
  Finset.sum_eq_single k (fun i _ hi => h i hi) (by simp)

theorem oneHot_self {n : ℕ} (k : Fin n) : oneHot n (fin (k : ℕ)) k = fin 1 :=
  XR.sel_pos rfl

theorem oneHot_ne {n : ℕ} {k i : Fin n} (h : i ≠ k) : oneHot n (fin (k : ℕ)) i = fin 0 := by
  refine XR.sel_neg ?_
  rw [XR.eqB_fin]
  intro h'; exact h (Fin.ext (by exact_mod_cast h'.symm))

theorem oneHot_none {n : ℕ} {v : XR} (h : ∀ i : Fin n, v ≠ fin (i : ℕ)) (i : Fin n) : oneHot n v i = fin 0 := by
  refine XR.sel_neg ?_
  cases v <;> simp [eqB]
  intro h'; exact h i (by rw [h'])

theorem mnn_one (x : XR) (hx : x = ninf ∨ ∃ a, x = fin a) : multiplyNoNan x (fin 1) = x := by
  have : multiplyNoNan x (fin 1) = x * fin 1 := XR.sel_neg fun h' => by simp [XR.eqB_zero] at h'
  rw [this]
  rcases hx with rfl | ⟨a, rfl⟩
  · show XR.mul _ _ = _
    simp [XR.mul, infOf]
  · simp

theorem mnn_zero (x : XR) : multiplyNoNan x (fin 0) = 0 := XR.sel_pos (XR.eqB_zero.2 rfl)

theorem sum_mnn_oneHot {n : ℕ} (k : Fin n) (f : Fin n → XR) (hf : f k = ninf ∨ ∃ a, f k = fin a) :
    ∑ i, multiplyNoNan (f i) (oneHot n (fin (k : ℕ)) i) = f k := by
  rw [sum_single k _ fun i hi => by rw [oneHot_ne hi, mnn_zero], oneHot_self, mnn_one _ hf]

theorem sum_mnn_none {n : ℕ} {v : XR} (h : ∀ i : Fin n, v ≠ fin (i : ℕ)) (f : Fin n → XR) :
    ∑ i, multiplyNoNan (f i) (oneHot n v i) = 0 :=
  Finset.sum_eq_zero fun i _ => by rw [oneHot_none h, mnn_zero]

theorem xlog_cases (p : ℝ) : xlog p = ninf ∨ ∃ a, xlog p = fin a := by
  unfold xlog; split
  · left; rfl
  · right; exact ⟨_, rfl⟩

theorem xlog_ne_nan (p : ℝ) : xlog p ≠ nan := by
  rcases xlog_cases p with h | ⟨a, h⟩ <;> simp [h]

theorem xlog_toE_le {p q : ℝ} (hp : 0 ≤ p) (hq : 0 ≤ q) : (xlog p).toE ≤ (xlog q).toE ↔ p ≤ q := by
  unfold xlog
  by_cases h1 : p = 0 <;> by_cases h2 : q = 0 <;> simp [h1, h2, toE, hq]
  · exact lt_of_le_of_ne hp (Ne.symm h1)
  · exact Real.log_le_log_iff (lt_of_le_of_ne hp (Ne.symm h1)) (lt_of_le_of_ne hq (Ne.symm h2))

/-- `softmax` of a legal row is the row of normalised weights. -/
theorem xsoftmax_legal {n : ℕ} {l : Fin n → XR} (h : LegalLogits l) (i : Fin n) :
    xsoftmax l i = fin (weight (l i) / ∑ j, weight (l j)) := by
  obtain ⟨m, hm⟩ := h.rowMax
  have hS := h.weight_sum_pos
  unfold xsoftmax
  simp only [hm]
  have e : ∑ j, XR.exp (l j - fin m) = fin ((∑ j, weight (l j)) * Real.exp (-m)) := by
    rw [Finset.sum_mul, ← sum_fin]
    exact Finset.sum_congr rfl fun j _ => weight_sub (h.entry j) m
  rw [e, weight_sub (h.entry i), div_fin (by positivity), mul_div_mul_right _ _ (Real.exp_pos _).ne']

/-! ### Gibbs -/

theorem gibbs_term {p q : ℝ} (hp : 0 ≤ p) (hq : 0 ≤ q) (h : q = 0 → p = 0) :
    0 ≤ p * (Real.log p - Real.log q) - p + q ∧ (p * (Real.log p - Real.log q) - p + q = 0 → p = q) := by
  rcases hp.lt_or_eq with hp | rfl
  · have hq' : 0 < q := lt_of_le_of_ne hq fun e => hp.ne' (h e.symm)
    have hr : 0 < q / p := div_pos hq' hp
    have e : p * (Real.log p - Real.log q) - p + q = p * (q / p - 1 - Real.log (q / p)) := by
      rw [Real.log_div hq'.ne' hp.ne']; field_simp; ring
    rw [e]
    refine ⟨mul_nonneg hp.le (by linarith [Real.log_le_sub_one_of_pos hr]), fun h0 => ?_⟩
    by_contra hne
    have : q / p ≠ 1 := fun h' => hne (by field_simp at h'; exact h'.symm)
    have := Real.log_lt_sub_one_of_pos hr this
    rcases mul_eq_zero.1 h0 with h0 | h0 <;> linarith
  · simp [hq]; intro h; exact h.symm

theorem klDiv_eq_sum {n : ℕ} {p q : Fin n → ℝ} (hp : IsPmf p) (hq : IsPmf q) :
    klDiv p q = ∑ i, (p i * (Real.log (p i) - Real.log (q i)) - p i + q i) := by
  rw [Finset.sum_add_distrib, Finset.sum_sub_distrib, hp.sum_one, hq.sum_one, klDiv]; ring

theorem klDiv_nonneg {n : ℕ} {p q : Fin n → ℝ} (hp : IsPmf p) (hq : IsPmf q) (h : ∀ i, q i = 0 → p i = 0) :
    0 ≤ klDiv p q := by
  rw [klDiv_eq_sum hp hq]
  exact Finset.sum_nonneg fun i _ => (gibbs_term (hp.nonneg i) (hq.nonneg i) (h i)).1

theorem klDiv_eq_zero {n : ℕ} {p q : Fin n → ℝ} (hp : IsPmf p) (hq : IsPmf q) (h : ∀ i, q i = 0 → p i = 0) :
    klDiv p q = 0 ↔ p = q := by
  constructor
  · intro h0
    rw [klDiv_eq_sum hp hq, Finset.sum_eq_zero_iff_of_nonneg fun i _ =>
      (gibbs_term (hp.nonneg i) (hq.nonneg i) (h i)).1] at h0
    funext i
    exact (gibbs_term (hp.nonneg i) (hq.nonneg i) (h i)).2 (h0 i (Finset.mem_univ _))
  · rintro rfl; simp [klDiv]

theorem Spec.IsPmf.pos {n : ℕ} {p : Fin n → ℝ} (h : IsPmf p) : 0 < n := by
  rcases Nat.eq_zero_or_pos n with rfl | hn
  · have := h.sum_one; simp at this
  · exact hn

theorem Spec.IsPmf.exists_pos {n : ℕ} {p : Fin n → ℝ} (h : IsPmf p) : ∃ i, 0 < p i := by
  by_contra hc
  push Not at hc
  have : ∑ i, p i ≤ 0 := Finset.sum_nonpos fun i _ => hc i
  rw [h.sum_one] at this; linarith

theorem Spec.IsPmf.le_one {n : ℕ} {p : Fin n → ℝ} (h : IsPmf p) (i : Fin n) : p i ≤ 1 := by
  rw [← h.sum_one]
  exact Finset.single_le_sum (fun j _ => h.nonneg j) (Finset.mem_univ i)

theorem uniform_pmf {n : ℕ} (hn : 0 < n) : IsPmf fun _ : Fin n => 1 / (n : ℝ) :=
  ⟨fun _ => by positivity, by
    have : (n : ℝ) ≠ 0 := by positivity
    simp [this]⟩

theorem shannon_eq {n : ℕ} {p : Fin n → ℝ} (hp : IsPmf p) :
    shannon p = Real.log n - klDiv p (fun _ => 1 / (n : ℝ)) := by
  have hn : (n : ℝ) ≠ 0 := by have := hp.pos; positivity
  have : klDiv p (fun _ => 1 / (n : ℝ)) = ∑ i, (p i * Real.log (p i)) + Real.log n * ∑ i, p i := by
    rw [klDiv, Finset.mul_sum, ← Finset.sum_add_distrib]
    refine Finset.sum_congr rfl fun i _ => ?_
    rw [one_div, Real.log_inv]; ring
  rw [this, hp.sum_one, shannon]; ring

theorem entropy_term {p : ℝ} (hp : 0 ≤ p) : mulExp (xlog p) (xlog p) = fin (p * Real.log p) := by
  rcases hp.lt_or_eq with hp | rfl
  · have e : xlog p = fin (Real.log p) := by simp [xlog, hp.ne']
    have : ¬ eqB (XR.exp (xlog p)) 0 := by rw [e, XR.eqB_zero]; simp [Real.exp_log hp, hp.ne']
    simp only [mulExp, XR.sel_neg this]
    rw [e]; simp [Real.exp_log hp]; ring
  · have e : xlog 0 = ninf := by simp [xlog]
    simp [mulExp, e, XR.zero_def, XR.sel_pos (show eqB (fin 0) (fin 0) from rfl)]

theorem kl_term_ok {p q : ℝ} (hp : 0 ≤ p) (hq : 0 ≤ q) (h : q = 0 → p = 0) :
    mulExp (xlog p - xlog q) (xlog p) = fin (p * (Real.log p - Real.log q)) := by
  rcases hp.lt_or_eq with hp | rfl
  · have hq' : 0 < q := lt_of_le_of_ne hq fun e => hp.ne' (h e.symm)
    have e : xlog p = fin (Real.log p) := by simp [xlog, hp.ne']
    have e' : xlog q = fin (Real.log q) := by simp [xlog, hq'.ne']
    have : ¬ eqB (XR.exp (xlog p)) 0 := by rw [e, XR.eqB_zero]; simp [Real.exp_log hp, hp.ne']
    simp only [mulExp, XR.sel_neg this]
    rw [e, e']; simp [Real.exp_log hp]; ring
  · have e : xlog 0 = ninf := by simp [xlog]
    simp [mulExp, e, XR.zero_def, XR.sel_pos (show eqB (fin 0) (fin 0) from rfl)]

theorem kl_term_inf {p : ℝ} (hp : 0 < p) : mulExp (xlog p - xlog 0) (xlog p) = pinf := by
  have e : xlog p = fin (Real.log p) := by simp [xlog, hp.ne']
  have e' : xlog 0 = ninf := by simp [xlog]
  have : ¬ eqB (XR.exp (xlog p)) 0 := by rw [e, XR.eqB_zero]; simp [Real.exp_log hp, hp.ne']
  simp only [mulExp, XR.sel_neg this]
  rw [e, e']
  show XR.mul _ _ = _
  simp [XR.mul, infOf, hp, Real.exp_log hp]

end Distrax
