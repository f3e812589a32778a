import Verif.Spec.HMMGrad
import Verif.Lemmas.HMM
import Verif.Lemmas.SplineGrad

/-! Helper lemmas for C71. -/

namespace Distrax

open Filter Topology Finset Distrax.Spec

theorem Tracks.tan_zero {x : ℝ → ℝ} {a : Dual} {t : ℝ} (h : Tracks x a t) (hn : ∀ᶠ s in 𝓝 t, 0 ≤ x s) (h0 : x t = 0) :
    a = Dual.const 0 := by
  have hm : IsLocalMin x t := by
    filter_upwards [hn] with s hs
    rw [h0]; exact hs
  ext
  · rw [h.val, h0]; rfl
  · exact hm.hasDerivAt_eq_zero h.deriv

namespace HMM

theorem scan_hom {C C' X Y Y' : Type} (f : C → X → C × Y) (f' : C' → X → C' × Y') (g : C → C') (e : Y → Y')
    (h1 : ∀ c x, g (f c x).1 = (f' (g c) x).1) (h2 : ∀ c x, e (f c x).2 = (f' (g c) x).2) (xs : List X) : ∀ c,
    g (scan f c xs).1 = (scan f' (g c) xs).1 ∧ (scan f c xs).2.map e = (scan f' (g c) xs).2 := by
  induction xs with
  | nil => intro c; exact ⟨rfl, rfl⟩
  | cons x xs ih =>
    intro c
    have := ih (f c x).1
    rw [h1] at this
    exact ⟨this.1, by rw [scan, scan]; simp only [List.map_cons, h2, this.2]⟩

end HMM

namespace HMMD

variable {K : ℕ} {O : Type}

/-- forget the tangents of a vector -/
def vals (u : Fin K → Dual) : Fin K → ℝ := fun k => (u k).val

theorem normalizeD_val (e : ℝ) (u : Fin K → Dual) :
    vals (normalizeD e u).1 = (HMM.normalize e (vals u)).1 ∧ (normalizeD e u).2.val = (HMM.normalize e (vals u)).2 := by
  have hu : ∀ k, (Dual.where_ (decide ((u k).val = 0)) (Dual.const 0)
    (Dual.where_ (decide ((u k).val < e)) (Dual.const e) (u k))).val =
      if vals u k = 0 then 0 else if vals u k < e then e else vals u k := by
    intro k
    simp only [Dual.val_where, Dual.val_const, decide_eq_true_eq, vals]
    congr
  have hc : (normalizeD e u).2.val = (HMM.normalize e (vals u)).2 := by
    simp only [normalizeD, HMM.normalize, Dual.val_where, Dual.val_const, decide_eq_true_eq, Dual.sum, hu]
    congr
  refine ⟨?_, hc⟩
  funext k
  show (Dual.where_ (decide ((u k).val = 0)) (Dual.const 0)
    (Dual.where_ (decide ((u k).val < e)) (Dual.const e) (u k))).val / (normalizeD e u).2.val = _
  rw [hu, hc]
  rfl

theorem normalizeD_zero (e : ℝ) : normalizeD (K := K) e (fun _ => Dual.const 0) = (fun _ => Dual.const 0, Dual.const 1) := by
  have h : (Dual.sum fun _ : Fin K => Dual.const 0) = Dual.const 0 := by
    ext <;> simp [Dual.sum, Dual.const]
  have h2 : (Dual.const 0 / Dual.const 1 : Dual) = Dual.const 0 := by
    ext
    · rw [Dual.val_div, Dual.val_const, Dual.val_const, zero_div]
    · rw [Dual.tan_div, Dual.tan_const, Dual.tan_const, Dual.val_const]; simp
  simp only [normalizeD, Dual.val_const, decide_true, Dual.where_, if_true, h, h2]

theorem normalizeD_tracks {e : ℝ} {x : Fin K → ℝ → ℝ} {u : Fin K → Dual} {t : ℝ} (h : ∀ k, Tracks (x k) (u k) t)
    (hn : ∀ k, ∀ᶠ s in 𝓝 t, 0 ≤ x k s) (hc : ∀ k, x k t = 0 ∨ e ≤ x k t) (hs : ∑ k, x k t ≠ 0) :
    (∀ k, Tracks (fun s => x k s / ∑ j, x j s) ((normalizeD e u).1 k) t) ∧
      Tracks (fun s => ∑ j, x j s) (normalizeD e u).2 t := by
  have hu : (fun k => Dual.where_ (decide ((u k).val = 0)) (Dual.const 0)
      (Dual.where_ (decide ((u k).val < e)) (Dual.const e) (u k))) = u := by
    funext k
    by_cases h0 : x k t = 0
    · rw [(h k).tan_zero (hn k) h0]
      simp [Dual.where_, Dual.val_const]
    · have h1 : ¬ x k t < e := not_lt.2 ((hc k).resolve_left h0)
      simp [Dual.where_, (h k).val, h0, h1]
  have hsum := Tracks.sum h
  have hne : (Dual.sum u).val ≠ 0 := by rw [hsum.val]; exact hs
  have h2 : (normalizeD e u).2 = Dual.sum u := by
    simp only [normalizeD, hu]
    simp [Dual.where_, hne]
  have h1 : ∀ k, (normalizeD e u).1 k = u k / Dual.sum u := by
    intro k
    have : (normalizeD e u).1 k = (Dual.where_ (decide ((u k).val = 0)) (Dual.const 0)
      (Dual.where_ (decide ((u k).val < e)) (Dual.const e) (u k))) / (normalizeD e u).2 := rfl
    rw [this, h2, congrFun hu k]
  refine ⟨fun k => ?_, by rw [h2]; exact hsum⟩
  rw [h1]
  exact (h k).div hsum hs

/-! ### forward -/

/-- The state before the first scanned step. -/
noncomputable def initD (d : HMMD K O) (obs : ℕ → O) : (Fin K → Dual) × Dual :=
  let r := normalizeD HMM.eps (fun k => d.initProbs k * d.obsProb (obs 0) k)
  (r.1, r.2.log)

theorem forwardD_eq (d : HMMD K O) (obs : ℕ → O) (n length : ℕ) :
    d.forwardD obs (n + 1) length =
      ((HMM.iter (forwardStepD d obs length) (initD d obs) 1 n).2,
        (List.range (n + 1)).map fun t => (HMM.iter (forwardStepD d obs length) (initD d obs) 1 t).1) := by
  unfold forwardD
  simp only [Nat.add_sub_cancel]
  rw [show ((normalizeD HMM.eps fun k => d.initProbs k * d.obsProb (obs 0) k).1,
    (normalizeD HMM.eps fun k => d.initProbs k * d.obsProb (obs 0) k).2.log) = initD d obs from rfl]
  rw [HMM.scan_range', List.range_succ_eq_map]
  simp only [List.map_cons, List.map_map, Prod.mk.injEq, true_and, List.cons.injEq]
  refine ⟨rfl, List.map_congr_left fun t _ => ?_⟩
  simp [HMM.iter, forwardStepD]

variable {h : ℝ → HMM K O} {d : HMMD K O} {s0 : ℝ}

theorem marginal_near (hn : NonnegNear h s0) (obs : ℕ → O) (n : ℕ) :
    ∀ᶠ s in 𝓝 s0, ∀ k, 0 ≤ (h s).marginal obs n (Fin.last n) k := by
  induction n with
  | zero =>
    rw [eventually_all]
    intro k
    filter_upwards [hn.init k, hn.obs (obs 0) k] with s h1 h2
    have := (h s).marginal_zero obs k
    rw [this]
    exact mul_nonneg h1 h2
  | succ n ih =>
    rw [eventually_all]
    intro k
    filter_upwards [ih, eventually_all.2 fun i => hn.trans i k, hn.obs (obs (n + 1)) k] with s h1 h2 h3
    rw [HMM.marginal_succ]
    exact mul_nonneg h3 (Finset.sum_nonneg fun i _ => mul_nonneg (h1 i) (h2 i))

theorem predictive_near (hn : NonnegNear h s0) (obs : ℕ → O) (n : ℕ) (k : Fin K) :
    ∀ᶠ s in 𝓝 s0, 0 ≤ (h s).predictive obs n k := by
  filter_upwards [marginal_near hn obs n, marginal_near hn obs (n - 1)] with s h1 h2
  unfold HMM.predictive
  refine div_nonneg (h1 k) ?_
  split_ifs
  · norm_num
  · rw [← (h s).sum_marginal obs (n - 1) (Fin.last _)]
    exact Finset.sum_nonneg fun i _ => h2 i

/-- What the forward scan carries after a possible prefix. -/
theorem iter_tracks (hf : Follows h d s0) (hn : NonnegNear h s0) (hv : (h s0).Valid) {obs : ℕ → O} {length : ℕ} (n : ℕ)
    (hl : n < length) (hc : (h s0).NoClampForward obs (n + 1)) (hp : 0 < (h s0).evidence obs n) :
    (∀ k, Tracks (fun s => (h s).marginal obs n (Fin.last n) k / (h s).evidence obs n)
      ((HMM.iter (forwardStepD d obs length) (initD d obs) 1 n).1 k) s0) ∧
    Tracks (fun s => Real.log ((h s).evidence obs n)) (HMM.iter (forwardStepD d obs length) (initD d obs) 1 n).2 s0 ∧
    ∀ᶠ s in 𝓝 s0, 0 < (h s).evidence obs n := by
  induction n with
  | zero =>
    have hu : ∀ k, Tracks (fun s => (h s).predictive obs 0 k) (d.initProbs k * d.obsProb (obs 0) k) s0 := fun k =>
      ((hf.init k).mul (hf.obs (obs 0) k)).congr fun s => ((h s).predictive_zero obs k).symm
    have hs : ∀ s, ∑ k, (h s).predictive obs 0 k = (h s).evidence obs 0 := by
      intro s
      rw [HMM.sum_predictive, if_pos rfl, div_one]
    have key := normalizeD_tracks (e := HMM.eps) hu (fun k => predictive_near hn obs 0 k)
      (fun k => by simpa [HMM.eps] using hc 0 (by omega) k) (by rw [hs]; exact hp.ne')
    simp only [hs] at key
    refine ⟨fun k => (key.1 k).congr fun s => ?_, key.2.log hp.ne',
      key.2.deriv.continuousAt.eventually (lt_mem_nhds hp)⟩
    simp only [HMM.predictive, if_true, div_one]
  | succ n ih =>
    have hp' := HMM.evidence_pos_of_le hv (Nat.le_succ n) hp
    obtain ⟨i1, i2, i3⟩ := ih (by omega) (fun t ht => hc t (by omega)) hp'
    generalize hS : HMM.iter (forwardStepD d obs length) (initD d obs) 1 n = S at i1 i2
    have hu : ∀ k, Tracks (fun s => (h s).predictive obs (n + 1) k)
        (d.obsProb (obs (n + 1)) k * Dual.sum fun i => S.1 i * d.transProbs i k) s0 := fun k =>
      ((hf.obs (obs (n + 1)) k).mul (Tracks.sum fun i => (i1 i).mul (hf.trans i k))).congr fun s =>
        ((h s).predictive_succ obs n k).symm
    have hs : ∀ s, ∑ k, (h s).predictive obs (n + 1) k = (h s).evidence obs (n + 1) / (h s).evidence obs n := by
      intro s
      rw [HMM.sum_predictive, if_neg (Nat.succ_ne_zero n), Nat.add_sub_cancel]
    have key := normalizeD_tracks (e := HMM.eps) hu (fun k => predictive_near hn obs (n + 1) k)
      (fun k => by simpa [HMM.eps] using hc (n + 1) (by omega) k) (by rw [hs]; exact (div_pos hp hp').ne')
    simp only [hs] at key
    have hstep : HMM.iter (forwardStepD d obs length) (initD d obs) 1 (n + 1) =
        ((normalizeD HMM.eps fun k => d.obsProb (obs (n + 1)) k * Dual.sum fun i => S.1 i * d.transProbs i k).1,
         (normalizeD HMM.eps fun k => d.obsProb (obs (n + 1)) k * Dual.sum fun i => S.1 i * d.transProbs i k).2.log + S.2) := by
      rw [HMM.iter, hS]
      simp only [forwardStepD, Nat.add_comm 1 n, decide_eq_true hl, Dual.where_, if_true]
    have hpos : ∀ᶠ s in 𝓝 s0, 0 < (h s).evidence obs (n + 1) := by
      filter_upwards [i3, key.2.deriv.continuousAt.eventually (lt_mem_nhds (div_pos hp hp'))] with s a b
      exact (div_pos_iff_of_pos_right a).1 b
    rw [hstep]
    refine ⟨fun k => (key.1 k).eventually ?_, ((key.2.log (div_pos hp hp').ne').add i2).eventually ?_, hpos⟩
    · filter_upwards [i3, hpos] with s a b
      simp only [HMM.predictive, Nat.add_sub_cancel, if_neg (Nat.succ_ne_zero n)]
      field_simp
    · filter_upwards [i3, hpos] with s a b
      rw [Real.log_div b.ne' a.ne']
      ring

theorem step_beyondD (d : HMMD K O) (obs : ℕ → O) (length t : ℕ) (ht : length ≤ t) (S : (Fin K → Dual) × Dual) :
    (forwardStepD d obs length S t).1 = (fun _ => Dual.const 0, S.2) := by
  have : (Dual.const 1).log + S.2 = S.2 := by
    ext
    · rw [Dual.val_add, Dual.val_log, Dual.val_const, Real.log_one, zero_add]
    · rw [Dual.tan_add]; simp [Dual.log, Dual.const]
  simp only [forwardStepD, decide_eq_false (not_lt.2 ht), Dual.where_, Bool.false_eq_true, if_false, normalizeD_zero, this]

theorem iter_beyondD (d : HMMD K O) (obs : ℕ → O) (length n m : ℕ) (hn : length ≤ n + 1) :
    HMM.iter (forwardStepD d obs length) (initD d obs) 1 (n + 1 + m) =
      (fun _ => Dual.const 0, (HMM.iter (forwardStepD d obs length) (initD d obs) 1 n).2) := by
  induction m with
  | zero => rw [Nat.add_zero, HMM.iter, step_beyondD _ _ _ _ (by omega)]
  | succ m ih => rw [← Nat.add_assoc, HMM.iter, ih, step_beyondD _ _ _ _ (by omega)]

/-! ### backward -/

/-- The message after `m` backward steps. -/
noncomputable def bIterD (d : HMMD K O) (obs : ℕ → O) (n length m : ℕ) : Fin K → Dual :=
  HMM.iter (fun b x => backwardStepD d obs length b (n + 1 - x)) (fun _ => Dual.const 1) 0 m

theorem backwardD_eq (d : HMMD K O) (obs : ℕ → O) (n length : ℕ) :
    d.backwardD obs (n + 1) length =
      (List.range (n + 1)).map fun t => bIterD d obs n length (n - t) := by
  unfold backwardD
  simp only [Nat.add_sub_cancel, List.reverse_range', HMM.scan_map]
  have e : (fun (c : Fin K → Dual) x => backwardStepD d obs length c (2 + n - 1 - x)) =
      fun c x => backwardStepD d obs length c (n + 1 - x) := by
    funext c x; rw [show 2 + n - 1 - x = n + 1 - x by omega]
  rw [e, List.range_eq_range' (n := n), HMM.scan_range']
  have e2 : ((fun _ : Fin K => Dual.const 1) :: (List.range n).map fun t =>
      (backwardStepD d obs length (HMM.iter (fun c x => backwardStepD d obs length c (n + 1 - x))
        (fun _ => Dual.const 1) 0 t) (n + 1 - (0 + t))).2) =
      (List.range (n + 1)).map fun t => bIterD d obs n length t := by
    rw [List.range_succ_eq_map]
    simp only [List.map_cons, List.map_map, List.cons.injEq]
    exact ⟨rfl, List.map_congr_left fun t _ => rfl⟩
  simp only at e2 ⊢
  rw [e2, ← List.map_reverse, List.range_eq_range', List.reverse_range', List.map_map,
    ← List.range_eq_range']
  apply List.map_congr_left
  intro t _
  simp

theorem future_near (hn : NonnegNear h s0) (obs : ℕ → O) (m : ℕ) : ∀ t,
    ∀ᶠ s in 𝓝 s0, ∀ k, 0 ≤ (h s).future obs t m k := by
  induction m with
  | zero =>
    intro t
    filter_upwards with s k
    rw [HMM.future_zero]
    norm_num
  | succ m ih =>
    intro t
    rw [eventually_all]
    intro k
    filter_upwards [ih (t + 1), eventually_all.2 fun j => hn.trans k j, eventually_all.2 fun j => hn.obs (obs (t + 1)) j]
      with s h1 h2 h3
    rw [HMM.future_succ]
    exact Finset.sum_nonneg fun j _ => by
      have := mul_nonneg (mul_nonneg (h2 j) (h3 j)) (h1 j)
      nlinarith

theorem futureNorm_near (hn : NonnegNear h s0) (obs : ℕ → O) (n t : ℕ) : ∀ᶠ s in 𝓝 s0, 0 ≤ (h s).futureNorm obs n t := by
  filter_upwards [future_near hn obs (n - t) t] with s hs
  unfold HMM.futureNorm
  split_ifs
  · norm_num
  · exact Finset.sum_nonneg fun k _ => hs k

theorem bIter_tracks (hf : Follows h d s0) (hn : NonnegNear h s0) (hv : (h s0).Valid) {obs : ℕ → O} {n : ℕ}
    (hc : (h s0).NoClampBackward obs n) (hp : 0 < (h s0).evidence obs n) (m : ℕ) (hm : m ≤ n) :
    (∀ k, Tracks (fun s => (h s).future obs (n - m) m k / (h s).futureNorm obs n (n - m)) (bIterD d obs n (n + 1) m k) s0) ∧
    ∀ᶠ s in 𝓝 s0, 0 < (h s).futureNorm obs n (n - m) := by
  induction m with
  | zero =>
    refine ⟨fun k => (Tracks.const 1 s0).congr fun s => ?_, ?_⟩
    · simp [HMM.future_zero, HMM.futureNorm]
    · filter_upwards with s
      simp [HMM.futureNorm]
  | succ m ih =>
    obtain ⟨i1, i2⟩ := ih (by omega)
    have hstep : bIterD d obs n (n + 1) (m + 1) =
      (backwardStepD d obs (n + 1) (bIterD d obs n (n + 1) m) (n + 1 - (0 + m))).1 := rfl
    obtain ⟨t, ht⟩ : ∃ t, n - m = t + 1 := ⟨n - m - 1, by omega⟩
    have e1 : n - (m + 1) = t := by omega
    have e2 : n - t = m + 1 := by omega
    have hb : bIterD d obs n (n + 1) (m + 1) = (normalizeD HMM.eps fun i => Dual.sum fun j =>
        bIterD d obs n (n + 1) m j * d.obsProb (obs (t + 1)) j * d.transProbs i j).1 := by
      rw [hstep]
      have e3 : n + 1 - (0 + m) - 1 = t + 1 := by omega
      have e4 : ¬ (n + 1 < n + 1 - (0 + m)) := by omega
      simp only [backwardStepD, e3, decide_eq_false e4, Dual.where_, Bool.false_eq_true, if_false]
    rw [ht] at i1 i2
    rw [hb, e1]
    have hu : ∀ i, Tracks (fun s => (h s).future obs t (m + 1) i / (h s).futureNorm obs n (t + 1))
        (Dual.sum fun j => bIterD d obs n (n + 1) m j * d.obsProb (obs (t + 1)) j * d.transProbs i j) s0 := by
      intro i
      refine (Tracks.sum fun j => ((i1 j).mul (hf.obs (obs (t + 1)) j)).mul (hf.trans i j)).congr fun s => ?_
      rw [HMM.future_succ, HMM.back, Finset.sum_div]
      exact Finset.sum_congr rfl fun j _ => by ring
    have hnn : ∀ i, ∀ᶠ s in 𝓝 s0, 0 ≤ (h s).future obs t (m + 1) i / (h s).futureNorm obs n (t + 1) := by
      intro i
      filter_upwards [future_near hn obs (m + 1) t, i2] with s a b
      exact div_nonneg (a i) b.le
    have hs : ∀ s, ∑ k, (h s).future obs t (m + 1) k / (h s).futureNorm obs n (t + 1) =
        (h s).futureNorm obs n t / (h s).futureNorm obs n (t + 1) := by
      intro s
      rw [← Finset.sum_div]
      congr 1
      rw [HMM.futureNorm, if_neg (by omega), e2]
    have p1 := HMM.futureNorm_pos hv (n := n) (t := t + 1) (by omega) hp
    have p2 := HMM.futureNorm_pos hv (n := n) (t := t) (by omega) hp
    have key := normalizeD_tracks (e := HMM.eps) hu hnn (by
      intro k
      have := hc t (by omega) k
      rw [e2] at this
      simpa [HMM.eps] using this) (by rw [hs]; exact (div_pos p2 p1).ne')
    simp only [hs] at key
    have hpos : ∀ᶠ s in 𝓝 s0, 0 < (h s).futureNorm obs n t := by
      filter_upwards [i2, key.2.deriv.continuousAt.eventually (lt_mem_nhds (div_pos p2 p1))] with s a b
      exact (div_pos_iff_of_pos_right a).1 b
    refine ⟨fun k => (key.1 k).eventually ?_, hpos⟩
    filter_upwards [i2, hpos] with s a b
    field_simp

theorem gamma_tracks (hf : Follows h d s0) (hn : NonnegNear h s0) (hv : (h s0).Valid) {obs : ℕ → O} {n : ℕ}
    (hc : (h s0).NoClampForward obs (n + 1)) (hb : (h s0).NoClampBackward obs n) (hs : (h s0).NoClampSmooth obs n)
    (hp : 0 < (h s0).evidence obs n) (t : ℕ) (ht : t < n + 1) (k : Fin K) :
    Tracks (fun s => (h s).marginal obs n ⟨t, ht⟩ k / (h s).evidence obs n)
      ((normalizeD HMM.eps fun k => (HMM.iter (forwardStepD d obs (n + 1)) (initD d obs) 1 t).1 k *
        bIterD d obs n (n + 1) (n - t) k).1 k) s0 := by
  have he := HMM.evidence_pos_of_le hv (t := t) (n := n) (by omega) hp
  have hf1 := iter_tracks hf hn hv (length := n + 1) t (by omega) (fun s hs => hc s (by omega)) he
  have hfn := iter_tracks hf hn hv (length := n + 1) n (by omega) hc hp
  have hb1 := bIter_tracks hf hn hv hb hp (n - t) (by omega)
  rw [show n - (n - t) = t by omega] at hb1
  have p2 := HMM.futureNorm_pos hv (n := n) (t := t) (by omega) hp
  have hsum : ∀ s, ∑ k, (h s).marginal obs t (Fin.last t) k / (h s).evidence obs t *
      ((h s).future obs t (n - t) k / (h s).futureNorm obs n t) =
      (h s).evidence obs n / ((h s).evidence obs t * (h s).futureNorm obs n t) := by
    intro s
    have hev := (h s).evidence_split obs t (n - t)
    rw [show t + (n - t) = n by omega] at hev
    rw [hev, Finset.sum_div]
    exact Finset.sum_congr rfl fun k _ => div_mul_div_comm _ _ _ _
  have key := normalizeD_tracks (e := HMM.eps) (fun k => (hf1.1 k).mul (hb1.1 k)) (by
    intro k
    filter_upwards [marginal_near hn obs t, hf1.2.2, future_near hn obs (n - t) t, hb1.2] with s a b c e
    exact mul_nonneg (div_nonneg (a k) b.le) (div_nonneg (c k) e.le)) (by
    intro k; simpa [HMM.eps] using hs t (by omega) k) (by
    rw [hsum]; exact (div_pos hp (mul_pos he p2)).ne')
  simp only [hsum] at key
  refine (key.1 k).eventually ?_
  filter_upwards [hf1.2.2, hb1.2, hfn.2.2] with s a b c
  have hm : (h s).marginal obs n ⟨t, ht⟩ k = (h s).marginal obs t (Fin.last t) k * (h s).future obs t (n - t) k := by
    rw [← HMM.marginal_split]
    have gen : ∀ n' (_ : n' = n) (h1 : t < n' + 1),
        (h s).marginal obs n' ⟨t, h1⟩ k = (h s).marginal obs n ⟨t, ht⟩ k := by rintro _ rfl _; rfl
    exact (gen _ (by omega) _).symm
  rw [hm]
  field_simp

/-! ### The score -/

theorem prod_rel {ι : Type} [DecidableEq ι] (S : Finset ι) {f : ι → ℝ → ℝ} {c : ι → ℝ} {t : ℝ}
    (hd : ∀ i ∈ S, HasDerivAt (f i) (f i t * c i) t) :
    HasDerivAt (fun s => ∏ i ∈ S, f i s) ((∏ i ∈ S, f i t) * ∑ i ∈ S, c i) t := by
  induction S using Finset.induction_on with
  | empty => simpa using hasDerivAt_const t (1 : ℝ)
  | insert a S ha ih =>
    have h1 := (hd a (Finset.mem_insert_self _ _)).mul (ih fun i hi => hd i (Finset.mem_insert_of_mem hi))
    simp only [Finset.prod_insert ha, Finset.sum_insert ha]
    exact h1.congr_deriv (by ring)

theorem marginal_expect (g : HMM K O) (obs : ℕ → O) (n : ℕ) (t : Fin (n + 1)) (a : Fin K → ℝ) :
    ∑ k, g.marginal obs n t k * a k = ∑ z : Fin (n + 1) → Fin K, g.joint obs z * a (z t) := by
  simp only [HMM.marginal, Finset.sum_mul]
  rw [Finset.sum_comm]
  refine Finset.sum_congr rfl fun z _ => ?_
  simp [ite_mul]

theorem pairMarginal_expect (g : HMM K O) (obs : ℕ → O) (n : ℕ) (t : Fin n) (b : Fin K → Fin K → ℝ) :
    ∑ i, ∑ j, pairMarginal g obs n t i j * b i j =
      ∑ z : Fin (n + 1) → Fin K, g.joint obs z * b (z t.castSucc) (z t.succ) := by
  have : ∀ i, ∑ j, pairMarginal g obs n t i j * b i j = ∑ z : Fin (n + 1) → Fin K,
      if z t.castSucc = i then g.joint obs z * b i (z t.succ) else 0 := by
    intro i
    simp only [pairMarginal, Finset.sum_mul]
    rw [Finset.sum_comm]
    refine Finset.sum_congr rfl fun z _ => ?_
    by_cases hz : z t.castSucc = i <;> simp [hz, ite_mul]
  simp only [this]
  rw [Finset.sum_comm]
  refine Finset.sum_congr rfl fun z _ => ?_
  simp

theorem score_expect (g : HMM K O) (obs : ℕ → O) (n : ℕ) (a : Fin K → ℝ) (b : Fin K → Fin K → ℝ) (c : O → Fin K → ℝ) :
    score g obs n a b c = (∑ z : Fin (n + 1) → Fin K, g.joint obs z * (a (z 0) +
      (∑ t : Fin n, b (z t.castSucc) (z t.succ)) + ∑ t : Fin (n + 1), c (obs t) (z t))) / g.evidence obs n := by
  have e1 : ∑ k, g.marginal obs n 0 k / g.evidence obs n * a k =
      (∑ z : Fin (n + 1) → Fin K, g.joint obs z * a (z 0)) / g.evidence obs n := by
    rw [← marginal_expect, Finset.sum_div]
    exact Finset.sum_congr rfl fun k _ => by ring
  have e2 : ∑ t : Fin n, ∑ i, ∑ j, pairMarginal g obs n t i j / g.evidence obs n * b i j =
      (∑ z : Fin (n + 1) → Fin K, g.joint obs z * ∑ t : Fin n, b (z t.castSucc) (z t.succ)) / g.evidence obs n := by
    simp only [Finset.mul_sum]
    rw [Finset.sum_comm (s := univ (α := Fin (n + 1) → Fin K)), Finset.sum_div]
    refine Finset.sum_congr rfl fun t _ => ?_
    rw [← pairMarginal_expect, Finset.sum_div]
    refine Finset.sum_congr rfl fun i _ => ?_
    rw [Finset.sum_div]
    exact Finset.sum_congr rfl fun j _ => by ring
  have e3 : ∑ t : Fin (n + 1), ∑ k, g.marginal obs n t k / g.evidence obs n * c (obs t) k =
      (∑ z : Fin (n + 1) → Fin K, g.joint obs z * ∑ t : Fin (n + 1), c (obs t) (z t)) / g.evidence obs n := by
    simp only [Finset.mul_sum]
    rw [Finset.sum_comm (s := univ (α := Fin (n + 1) → Fin K)), Finset.sum_div]
    refine Finset.sum_congr rfl fun t _ => ?_
    rw [← marginal_expect, Finset.sum_div]
    exact Finset.sum_congr rfl fun k _ => by ring
  rw [score, e1, e2, e3, ← add_div, ← add_div, ← Finset.sum_add_distrib, ← Finset.sum_add_distrib]
  congr 1
  exact Finset.sum_congr rfl fun z _ => by ring

theorem evidence_deriv (hf : Follows h d s0) {obs : ℕ → O} {n : ℕ} {a : Fin K → ℝ} {b : Fin K → Fin K → ℝ}
    {c : O → Fin K → ℝ} (ha : ∀ k, (d.initProbs k).tan = (h s0).initProbs k * a k)
    (hb : ∀ i j, (d.transProbs i j).tan = (h s0).transProbs i j * b i j)
    (hc : ∀ o k, (d.obsProb o k).tan = (h s0).obsProb o k * c o k) :
    HasDerivAt (fun s => (h s).evidence obs n) (∑ z : Fin (n + 1) → Fin K, (h s0).joint obs z * (a (z 0) +
      (∑ t : Fin n, b (z t.castSucc) (z t.succ)) + ∑ t : Fin (n + 1), c (obs t) (z t))) s0 := by
  unfold HMM.evidence
  refine HasDerivAt.fun_sum fun z _ => ?_
  unfold HMM.joint
  have d1 : HasDerivAt (fun s => (h s).initProbs (z 0)) ((h s0).initProbs (z 0) * a (z 0)) s0 := by
    rw [← ha]; exact (hf.init (z 0)).deriv
  have d2 := prod_rel (univ : Finset (Fin n)) (f := fun t s => (h s).transProbs (z t.castSucc) (z t.succ))
    (c := fun t => b (z t.castSucc) (z t.succ)) (t := s0) fun t _ => by
      rw [← hb]; exact (hf.trans _ _).deriv
  have d3 := prod_rel (univ : Finset (Fin (n + 1))) (f := fun t s => (h s).obsProb (obs t) (z t))
    (c := fun t => c (obs t) (z t)) (t := s0) fun t _ => by
      rw [← hc]; exact (hf.obs _ _).deriv
  exact ((d1.mul d2).mul d3).congr_deriv (by simp only [Pi.mul_apply]; ring)

end HMMD
end Distrax
