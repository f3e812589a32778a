import Verif.Spec.FloatViterbi
import Verif.Lemmas.FloatHMM
import Verif.Props.FloatAcc4

/-! Helper lemmas for C77. -/

namespace Distrax

open FX
open XR (fin pinf ninf nan leB ltB fin_mul fin_add)

namespace FVit

variable {F : Fmt} {K : ℕ} {O : Type}

/-! ### argmax -/

theorem exists_max [NeZero K] (f : Fin K → FX F) (hf : ∀ i, (f i).Num) : ∃ i, ∀ j, f j ≤ f i := by
  have key : ∀ s : Finset (Fin K), s.Nonempty → ∃ i ∈ s, ∀ j ∈ s, f j ≤ f i := by
    intro s hs
    induction hs using Finset.Nonempty.cons_induction with
    | singleton a => exact ⟨a, by simp, fun j hj => by rw [Finset.mem_singleton.1 hj]; exact rfl' (hf a)⟩
    | cons a s ha hs ih =>
      obtain ⟨i, hi, h⟩ := ih
      rcases FX.le_total (hf a) (hf i) with g | g
      · refine ⟨i, Finset.mem_cons_of_mem hi, fun j hj => ?_⟩
        rcases Finset.mem_cons.1 hj with rfl | hj
        · exact g
        · exact h j hj
      · refine ⟨a, Finset.mem_cons_self _ _, fun j hj => ?_⟩
        rcases Finset.mem_cons.1 hj with rfl | hj
        · exact rfl' (hf _)
        · exact (h j hj).tr g
  obtain ⟨i, -, h⟩ := key Finset.univ Finset.univ_nonempty
  exact ⟨i, fun j => h j (Finset.mem_univ j)⟩

theorem le_argmax [NeZero K] (f : Fin K → FX F) (hf : ∀ i, (f i).Num) (j : Fin K) : f j ≤ f (argmax f) := by
  classical
  obtain ⟨i, hi⟩ := exists_max f hf
  have : ((List.finRange K).find? fun i => decide ((f i).isNan ∨ ∀ j, f j ≤ f i)).isSome := by
    rw [List.find?_isSome]
    exact ⟨i, List.mem_finRange i, by simpa using Or.inr hi⟩
  obtain ⟨k, hk⟩ := Option.isSome_iff_exists.1 this
  have h2 := List.find?_some hk
  have e : argmax f = k := by
    have := congrArg (fun o : Option (Fin K) => o.getD 0) hk
    unfold argmax
    convert this
    rfl
  rw [e]
  rcases (by simpa using h2 : (f k).isNan ∨ ∀ j, f j ≤ f k) with h | h
  · exact absurd h (hf k)
  · exact h j

/-! ### the back-pointers -/

theorem sums_zero {xs : List (FX F)} {s : FX F} (h : SumsTo xs s) (h0 : ∀ x ∈ xs, x = lit 0) : s = lit 0 := by
  induction h with
  | one a => exact h0 a (by simp)
  | add ha hb iha ihb =>
    rw [iha fun x hx => h0 x (List.mem_append_left _ hx), ihb fun x hx => h0 x (List.mem_append_right _ hx), add_zero']
  | perm p _ ih => exact ih fun x hx => h0 x (p.mem_iff.1 hx)

theorem sums_single {xs : List (FX F)} {s : FX F} (h : SumsTo xs s) :
    ∀ {a : FX F} {l : List (FX F)}, xs.Perm (a :: l) → (∀ x ∈ l, x = lit 0) → s = a := by
  induction h with
  | one b =>
    intro a l hp h0
    have := hp.length_eq
    have hl : l = [] := by simpa using this.symm
    subst hl
    simpa using hp
  | @add xs ys b c hb hc ihb ihc =>
    intro a l hp h0
    classical
    have ha : a ∈ xs ++ ys := hp.mem_iff.2 (by simp)
    rcases List.mem_append.1 ha with hx | hy
    · obtain ⟨l1, hl1⟩ : ∃ l1, xs.Perm (a :: l1) := ⟨xs.erase a, List.perm_cons_erase hx⟩
      have q : (l1 ++ ys).Perm l := by
        have := (hl1.append_right ys).symm.trans hp
        exact (List.perm_cons a).1 this
      rw [ihb hl1 fun x hx => h0 x (q.mem_iff.1 (List.mem_append_left _ hx)),
        sums_zero hc fun x hx => h0 x (q.mem_iff.1 (List.mem_append_right _ hx)), add_zero']
    · obtain ⟨l1, hl1⟩ : ∃ l1, ys.Perm (a :: l1) := ⟨ys.erase a, List.perm_cons_erase hy⟩
      have q : (xs ++ l1).Perm l := by
        have h1 : (xs ++ ys).Perm (a :: (xs ++ l1)) := (hl1.append_left xs).trans List.perm_middle
        exact (List.perm_cons a).1 (h1.symm.trans hp)
      rw [ihc hl1 fun x hx => h0 x (q.mem_iff.1 (List.mem_append_right _ hx)),
        sums_zero hb fun x hx => h0 x (q.mem_iff.1 (List.mem_append_left _ hx)), zero_add']
  | perm p _ ih => intro a l hp h0; exact ih (p.trans hp) h0

/-- The one-hot product reads out the back-pointer of the state, in any order of summation. -/
theorem viterbiBackward_eq (hK : IndicesExact F K) {S : (Fin K → FX F) → FX F} (hS : IsSum S) (k : Fin K) (src : Fin K → Fin K) :
    viterbiBackward S ((k : ℕ) : ℤ) src = (((src k : ℕ) : ℤ), ((src k : ℕ) : ℤ)) := by
  classical
  have hl : ∀ i : Fin K, (lit ((i : ℕ) : ℝ) : FX F).1 = fin ((i : ℕ) : ℝ) := fun i => lit_val (hK i i.2)
  set v : Fin K → FX F := fun j => lit ((src j : ℕ) : ℝ) * (if ((j : ℕ) : ℤ) = ((k : ℕ) : ℤ) then lit 1 else lit 0) with hv
  have hk : v k = lit ((src k : ℕ) : ℝ) := by
    apply FX.ext
    simp only [hv, if_true]
    rw [mul_val, hl, lit_one, fin_mul, mul_one]
    exact hK _ (src k).2
  have h0 : ∀ j, j ≠ k → v j = lit 0 := by
    intro j hj
    have : ((j : ℕ) : ℤ) ≠ ((k : ℕ) : ℤ) := by
      intro h; exact hj (Fin.ext (by exact_mod_cast h))
    apply FX.ext
    simp only [hv, if_neg this]
    rw [mul_val, hl, lit_zero, fin_mul, mul_zero]
    exact F.rd_zero
  have hs : S v = lit ((src k : ℕ) : ℝ) := by
    rw [← hk]
    have hmem : v k ∈ List.ofFn v := List.mem_ofFn.2 ⟨k, rfl⟩
    have e : List.ofFn v = (List.finRange K).map v := by rw [List.ofFn_eq_map]
    have p : (List.ofFn v).Perm (v k :: ((List.finRange K).erase k).map v) := by
      rw [e]; exact (List.perm_cons_erase (List.mem_finRange k)).map v
    refine sums_single (hS v) p fun x hx => ?_
    obtain ⟨j, hj, rfl⟩ := List.mem_map.1 hx
    exact h0 j fun h => by
      subst h
      exact (List.nodup_finRange K).not_mem_erase hj
  have ht : toInt (S v) = ((src k : ℕ) : ℤ) := by
    rw [hs]; unfold toInt; rw [hl]; simp
  unfold viterbiBackward
  simp only
  rw [← hv, ht]

/-! ### the tables -/

variable [NeZero K] (h : FVit F K O) (obs : ℕ → O)

/-- The table of best scores after `t + 1` observations. -/
noncomputable def table : ℕ → Fin K → FX F
  | 0 => fun k => h.initLogProbs k + h.obsLogProb (obs 0) k
  | t + 1 => (h.viterbiForward (table t) (obs (t + 1))).1

/-- The back-pointers into step `t`, from step `t + 1`. -/
noncomputable def back (t : ℕ) : Fin K → Fin K := (h.viterbiForward (h.table obs t) (obs (t + 1))).2

theorem scan_table (n s : ℕ) :
    HMM.scan h.viterbiForward (h.table obs s) ((List.range' (s + 1) n).map obs) =
      (h.table obs (s + n), (List.range' s n).map (h.back obs)) := by
  induction n generalizing s with
  | zero => simp [HMM.scan]
  | succ n ih =>
    rw [List.range'_succ, List.range'_succ, List.map_cons, List.map_cons, HMM.scan]
    have e : (h.viterbiForward (h.table obs s) (obs (s + 1))).1 = h.table obs (s + 1) := rfl
    simp only [e, ih (s + 1)]
    refine Prod.ext ?_ ?_
    · show h.table obs (s + 1 + n) = _; congr 1; omega
    · rfl

theorem scanRev_back (hK : IndicesExact F K) {S : (Fin K → FX F) → FX F} (hS : IsSum S) (z : ℕ → Fin K) (n s : ℕ)
    (hz : ∀ t, s ≤ t → t < s + n → z t = h.back obs t (z (t + 1))) :
    HMM.scanRev (viterbiBackward S) ((z (s + n) : ℕ) : ℤ) ((List.range' s n).map (h.back obs)) =
      (((z s : ℕ) : ℤ), (List.range' s n).map fun t => ((z t : ℕ) : ℤ)) := by
  induction n generalizing s with
  | zero => simp [HMM.scanRev]
  | succ n ih =>
    rw [List.range'_succ, List.map_cons, List.map_cons, HMM.scanRev]
    have := ih (s + 1) fun t h1 h2 => hz t (by omega) (by omega)
    rw [show s + 1 + n = s + (n + 1) by omega] at this
    simp only [this, viterbiBackward_eq hK hS, ← hz s le_rfl (by omega)]

/-- The path that follows the back-pointers from state `k` at step `n`, counted from the end. -/
noncomputable def walk (n : ℕ) (k : Fin K) : ℕ → Fin K
  | 0 => k
  | m + 1 => h.back obs (n - (m + 1)) (walk n k m)

/-- The path that follows the back-pointers from state `k` at step `n`. -/
noncomputable def pathTo (n : ℕ) (k : Fin K) (t : ℕ) : Fin K := h.walk obs n k (n - t)

theorem pathTo_last (n : ℕ) (k : Fin K) : h.pathTo obs n k n = k := by simp [pathTo, walk]

theorem pathTo_step {n : ℕ} (k : Fin K) {t : ℕ} (ht : t < n) : h.pathTo obs n k t = h.back obs t (h.pathTo obs n k (t + 1)) := by
  unfold pathTo
  obtain ⟨m, rfl⟩ : ∃ m, n = t + 1 + m := ⟨n - (t + 1), by omega⟩
  rw [show t + 1 + m - t = m + 1 by omega, show t + 1 + m - (t + 1) = m by omega, walk, show t + 1 + m - (m + 1) = t by omega]

theorem returns_pathTo (hK : IndicesExact F K) {S : (Fin K → FX F) → FX F} (hS : IsSum S) (n : ℕ) :
    h.Returns obs S n (h.pathTo obs n (argmax (h.table obs n))) := by
  set z := h.pathTo obs n (argmax (h.table obs n)) with hz
  have hlast : z n = argmax (h.table obs n) := h.pathTo_last obs n _
  unfold Returns viterbi
  cases n with
  | zero => simp [hlast]; rfl
  | succ n =>
    simp only [show n + 1 + 1 ≠ 1 by omega, if_false, List.tail_cons, Nat.add_sub_cancel]
    have e := h.scan_table obs (n + 1) 0
    rw [Nat.zero_add, Nat.zero_add] at e
    have e' : (fun k => h.initLogProbs k + h.obsLogProb (obs 0) k) = h.table obs 0 := rfl
    rw [e', e]
    have r := h.scanRev_back obs hK hS z (n + 1) 0 fun t _ ht => h.pathTo_step obs _ (by omega)
    rw [Nat.zero_add, hlast] at r
    simp only [r]
    rw [List.range_succ, List.map_append, List.map_singleton, hlast, List.range_eq_range']

/-! ### scores along paths -/

theorem floatScore_congr {z z' : ℕ → Fin K} (n : ℕ) (hz : ∀ t ≤ n, z t = z' t) : h.floatScore obs z n = h.floatScore obs z' n := by
  induction n with
  | zero => simp only [floatScore, hz 0 le_rfl]
  | succ n ih =>
    simp only [floatScore, ih fun t ht => hz t (by omega), hz n (by omega), hz (n + 1) le_rfl]

/-- Along the back-pointers the table holds the score. -/
theorem table_eq_score {z : ℕ → Fin K} (n : ℕ) (hz : ∀ t < n, z t = h.back obs t (z (t + 1))) :
    h.table obs n (z n) = h.floatScore obs z n := by
  induction n with
  | zero => rfl
  | succ n ih =>
    rw [floatScore, ← ih fun t ht => hz t (by omega)]
    have e : h.table obs (n + 1) (z (n + 1)) = h.table obs n (h.back obs n (z (n + 1))) +
        h.transLogProbs (h.back obs n (z (n + 1))) (z (n + 1)) + h.obsLogProb (obs (n + 1)) (z (n + 1)) := rfl
    rw [e, ← hz n (by omega)]

theorem table_eq_pathTo (n : ℕ) (k : Fin K) : h.table obs n k = h.floatScore obs (h.pathTo obs n k) n := by
  have := h.table_eq_score obs (z := h.pathTo obs n k) n fun t ht => h.pathTo_step obs k ht
  rwa [h.pathTo_last] at this

theorem num_of_succ {z : ℕ → Fin K} {n : ℕ} (hn : (h.floatScore obs z (n + 1)).Num) : (h.floatScore obs z n).Num :=
  (add_num_iff.1 (add_num_iff.1 hn).1).1

/-- The table holds upper bounds for the scores of all paths. -/
theorem score_le_table {n : ℕ} (hn : ∀ z, (h.floatScore obs z n).Num) (z : ℕ → Fin K) : h.floatScore obs z n ≤ h.table obs n (z n) := by
  induction n with
  | zero => exact rfl' (hn z)
  | succ n ih =>
    have ih := ih fun z => h.num_of_succ obs (hn z)
    have num : ∀ i, (h.table obs n i + h.transLogProbs i (z (n + 1)) + h.obsLogProb (obs (n + 1)) (z (n + 1))).Num := by
      intro i
      have := hn (Function.update (h.pathTo obs n i) (n + 1) (z (n + 1)))
      rw [floatScore, Function.update_self, Function.update_of_ne (by omega), h.pathTo_last] at this
      rw [h.floatScore_congr obs (z' := h.pathTo obs n i) n fun t ht => Function.update_of_ne (by omega) _ _, ← h.table_eq_pathTo obs] at this
      exact this
    have a := le_argmax (fun i => h.table obs n i + h.transLogProbs i (z (n + 1)) + h.obsLogProb (obs (n + 1)) (z (n + 1))) num (z n)
    have hz := hn z
    rw [floatScore] at hz ⊢
    have n1 := (add_num_iff.1 hz).1
    have n2 := (add_num_iff.1 (num (z n))).1
    refine LE.le.tr (FX.add_le_add (FX.add_le_add ih (rfl' (add_num_iff.1 n1).2.1) n1 n2) (rfl' (add_num_iff.1 hz).2.1) hz (num (z n))) ?_
    exact a

theorem table_num {n : ℕ} (hn : ∀ z, (h.floatScore obs z n).Num) (k : Fin K) : (h.table obs n k).Num := by
  rw [h.table_eq_pathTo obs]; exact hn _

end FVit

end Distrax
