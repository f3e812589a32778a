import Verif.Props.FloatHMM

/-!
C76 continued: the backward pass and the smoothing probabilities.
-/

namespace Distrax

open FX
open XR (fin)

variable {F : Fmt} {u η : ℝ} {K : ℕ} {O : Type} {h : FHMM F K O} {obs : ℕ → O}
  {S Sf Sb : ℕ → Option (Fin K) → (Fin K → FX F) → FX F} {Sg : (Fin K → FX F) → FX F}

namespace FHMM

/-- beta after `m` backward steps -/
noncomputable def bIter (h : FHMM F K O) (obs : ℕ → O) (S : ℕ → Option (Fin K) → (Fin K → FX F) → FX F) (n length m : ℕ) : Fin K → FX F :=
  HMM.iter (fun b x => backwardStep h obs S length b (n + 1 - x)) (fun _ => lit 1) 0 m

theorem backward_eq (n length : ℕ) :
    h.backward obs S (n + 1) length = (List.range (n + 1)).map fun t => bIter h obs S n length (n - t) := by
  unfold backward
  simp only [Nat.add_sub_cancel, List.reverse_range', HMM.scan_map]
  have e : (fun (c : Fin K → FX F) x => backwardStep h obs S length c (2 + n - 1 - x)) =
      fun c x => backwardStep h obs S length c (n + 1 - x) := by
    funext c x; rw [show 2 + n - 1 - x = n + 1 - x by omega]
  rw [e, List.range_eq_range' (n := n), HMM.scan_range']
  have e2 : ((fun _ : Fin K => (lit 1 : FX F)) :: (List.range n).map fun t =>
      (backwardStep h obs S length (HMM.iter (fun c x => backwardStep h obs S length c (n + 1 - x))
        (fun _ => lit 1) 0 t) (n + 1 - (0 + t))).2) =
      (List.range (n + 1)).map fun t => bIter h obs S n length t := by
    rw [List.range_succ_eq_map]
    simp only [List.map_cons, List.map_map, List.cons.injEq]
    exact ⟨rfl, List.map_congr_left fun t _ => rfl⟩
  rw [e2, ← List.map_reverse]
  apply List.ext_getElem
  · simp
  · intro i h1 h2
    simp [List.getElem_reverse]

theorem rowAt_backward {n t length : ℕ} (ht : t ≤ n) : rowAt (h.backward obs S (n + 1) length) t = bIter h obs S n length (n - t) := by
  unfold rowAt
  rw [backward_eq]
  simp [List.getD_eq_getElem?_getD, List.getElem?_map, List.getElem?_range (show t < n + 1 by omega)]

theorem bIter_succ {n t : ℕ} (ht : t < n) :
    bIter h obs S n (n + 1) (n - t) = (normalize (S (t + 2) none) (h.backWeights obs S (t + 2) (bIter h obs S n (n + 1) (n - (t + 1))))).1 := by
  obtain ⟨m, hm⟩ : ∃ m, n - t = m + 1 := ⟨n - t - 1, by omega⟩
  rw [hm, show n - (t + 1) = m by omega]
  show (backwardStep h obs S (n + 1) (bIter h obs S n (n + 1) m) (n + 1 - (0 + m))).1 = _
  rw [show n + 1 - (0 + m) = t + 2 by omega]
  have : ¬ n + 1 < t + 2 := by omega
  simp only [backwardStep, if_neg this]

end FHMM

section
variable (A : F.Acc u η)
include A

open FHMM

theorem backWeights_close (hK : 1 ≤ K) (hp : h.Proper) (hS : ∀ t o, IsSum (S t o)) {t m e : ℕ} {b : Fin K → FX F} {D : ℝ} (hD : 0 < D)
    (b0 : ∀ k, 0 ≤ (b k).val)
    (hc : ∀ k, Close (perturb u) e ((b k).val * D) (h.exact.future obs (t + 1) m k))
    (hr : BackWeightsRegular u η h obs S (t + 2) b) (hf : ∀ i, (h.backWeights obs S (t + 2) b i).finite) (i : Fin K) :
    0 ≤ (h.backWeights obs S (t + 2) b i).val ∧
      Close (perturb u) (e + K + 1) ((h.backWeights obs S (t + 2) b i).val * D) (h.exact.future obs t (m + 1) i) := by
  have p1 := perturb_one_le A
  have c1 : ∀ j, Close (perturb u) 1 (b j * h.obsProb (obs (t + 1)) j).val ((b j).val * (h.obsProb (obs (t + 1)) j).val) ∧
      0 ≤ (b j * h.obsProb (obs (t + 1)) j).val := fun j => close_mul A (b0 j) (hp.obs_nonneg _ j) (hr.product j)
  have c2 : ∀ j, Close (perturb u) 1 (b j * h.obsProb (obs (t + 1)) j * h.transProbs i j).val
      ((b j * h.obsProb (obs (t + 1)) j).val * (h.transProbs i j).val) ∧ 0 ≤ (b j * h.obsProb (obs (t + 1)) j * h.transProbs i j).val :=
    fun j => close_mul A (c1 j).2 (hp.trans_nonneg i j) (hr.product_trans i j)
  obtain ⟨c3, n3⟩ := close_isSum A (hS (t + 2) (some i)) (fun j => b j * h.obsProb (obs (t + 1)) j * h.transProbs i j) (hf i)
    fun j => (c2 j).2
  refine ⟨n3, ?_⟩
  have d1 : Close (perturb u) (1 + (1 + e)) (∑ j, (b j * h.obsProb (obs (t + 1)) j * h.transProbs i j).val * D)
      (h.exact.future obs t (m + 1) i) := by
    rw [HMM.future_succ]
    refine Close.sum _ fun j => ?_
    have x1 := (c2 j).1.mulRight hD.le
    have x2 := ((c1 j).1.mulRight (hp.trans_nonneg i j)).mulRight hD.le
    have x3 := (hc j).mulLeft (mul_nonneg (hp.trans_nonneg i j) (hp.obs_nonneg (obs (t + 1)) j))
    rw [show (b j).val * (h.obsProb (obs (t + 1)) j).val * (h.transProbs i j).val * D =
      (h.transProbs i j).val * (h.obsProb (obs (t + 1)) j).val * ((b j).val * D) by ring] at x2
    exact x1.trans p1 (x2.trans p1 x3)
  have d2 := c3.mulRight hD.le
  rw [Finset.sum_mul] at d2
  have d3 := d2.trans p1 d1
  rwa [show K - 1 + (1 + (1 + e)) = e + K + 1 by omega] at d3

/-- The invariant of the backward pass, with `D` the product of the computed normalisers. -/
theorem backward_invariant (hp : h.Proper) (hS : ∀ t o, IsSum (S t o)) {n : ℕ} (hpos : 0 < h.exact.evidence obs n)
    (hr : BackwardRegular u η h obs S n (h.backward obs S (n + 1) (n + 1))) :
    ∀ m ≤ n, ∃ D : ℝ, 0 < D ∧ ∀ k, (rowAt (h.backward obs S (n + 1) (n + 1)) (n - m) k).finite ∧
      0 ≤ (rowAt (h.backward obs S (n + 1) (n + 1)) (n - m) k).val ∧
      Close (perturb u) (m * (K + 2)) ((rowAt (h.backward obs S (n + 1) (n + 1)) (n - m) k).val * D) (h.exact.future obs (n - m) m k) := by
  have p1 := perturb_one_le A
  have hK := isSum_pos A (hS 0 none)
  intro m
  induction m with
  | zero =>
    intro _
    refine ⟨1, one_pos, fun k => ?_⟩
    rw [rowAt_backward (by omega)]
    have : bIter h obs S n (n + 1) (n - (n - 0)) k = lit 1 := by rw [show n - (n - 0) = 0 by omega]; rfl
    rw [this, val_of lit_one, HMM.future_zero]
    exact ⟨⟨1, lit_one⟩, zero_le_one, by simp [Close]⟩
  | succ m ih =>
    intro hm
    obtain ⟨D, D0, hk⟩ := ih (by omega)
    obtain ⟨t, ht⟩ : ∃ t, n - m = t + 1 := ⟨n - m - 1, by omega⟩
    have e1 : n - (m + 1) = t := by omega
    rw [ht] at hk
    rw [e1]
    have hrt := hr.step t (by omega)
    have hft := hr.sum_finite t (by omega)
    have hnt := hr.step_normalize t (by omega)
    have w : ∀ i, _ := fun i => backWeights_close A hK hp hS D0 (fun k => (hk k).2.1) (fun k => (hk k).2.2) hrt hft i
    set b := rowAt (h.backward obs S (n + 1) (n + 1)) (t + 1) with hb
    have row : rowAt (h.backward obs S (n + 1) (n + 1)) t = (FHMM.normalize (S (t + 2) none) (h.backWeights obs S (t + 2) b)).1 := by
      rw [hb, rowAt_backward (by omega), rowAt_backward (by omega), bIter_succ (by omega)]
    have fp : 0 < ∑ i, h.exact.future obs t (m + 1) i := by
      have := hpos
      rw [show n = t + (m + 1) by omega, HMM.evidence_split] at this
      by_contra hc
      have z : ∑ i, h.exact.future obs t (m + 1) i = 0 :=
        le_antisymm (not_lt.1 hc) (Finset.sum_nonneg fun i _ => exact_future_nonneg hp t (m + 1) i)
      have z' := (Finset.sum_eq_zero_iff_of_nonneg fun i _ => exact_future_nonneg (obs := obs) hp t (m + 1) i).1 z
      rw [Finset.sum_eq_zero fun k hk => by rw [z' k hk, mul_zero]] at this
      exact lt_irrefl _ this
    have cs : Close (perturb u) (m * (K + 2) + K + 1) ((∑ i, (h.backWeights obs S (t + 2) b i).val) * D) (∑ i, h.exact.future obs t (m + 1) i) := by
      rw [Finset.sum_mul]; exact Close.sum _ fun i => (w i).2
    have sp : 0 < ∑ i, (h.backWeights obs S (t + 2) b i).val := (pos_iff_pos_of_mul_pos (cs.pos p1 fp)).2 D0
    obtain ⟨-, c0, -, ck⟩ := close_normalize A (hS (t + 2) none) (fun k => (w k).1) hnt sp
    refine ⟨(S (t + 2) none (h.backWeights obs S (t + 2) b)).val * D, mul_pos c0 D0, fun k => ?_⟩
    rw [row]
    refine ⟨(ck k).1, (ck k).2.1, ?_⟩
    have := ((ck k).2.2.mulRight D0.le).trans p1 (w k).2
    rw [← mul_assoc]
    rwa [show 1 + (m * (K + 2) + K + 1) = (m + 1) * (K + 2) by ring] at this

/-- The backward messages in floating point: row `t` is proportional to `p(x_{t+1..n} | z_t)`, up to `(n-t)(K+2)` relative perturbations. -/
theorem C76_backward (hp : h.Proper) (hS : ∀ t o, IsSum (S t o)) {n : ℕ} (hpos : 0 < h.exact.evidence obs n)
    (hr : BackwardRegular u η h obs S n (h.backward obs S (n + 1) (n + 1))) (t : ℕ) (ht : t ≤ n) :
    ∃ D : ℝ, 0 < D ∧ ∀ k, (rowAt (h.backward obs S (n + 1) (n + 1)) t k).finite ∧
      Close (perturb u) ((n - t) * (K + 2)) ((rowAt (h.backward obs S (n + 1) (n + 1)) t k).val * D) (h.exact.future obs t (n - t) k) := by
  obtain ⟨D, D0, hk⟩ := backward_invariant A hp hS hpos hr (n - t) (by omega)
  rw [show n - (n - t) = t by omega] at hk
  exact ⟨D, D0, fun k => ⟨(hk k).1, (hk k).2.2⟩⟩

/-- Smoothing in floating point: every returned `gamma[t]` is within `(2n+3)(K+2)` relative perturbations of the exact smoothing posterior
`p(z_t | x_0..x_n)`, and adds up to one up to `K` perturbations. -/
theorem C76_smoothing (hp : h.Proper) (hf : ∀ t o, IsSum (Sf t o)) (hb : ∀ t o, IsSum (Sb t o)) (hg : IsSum Sg) {n : ℕ}
    (hpos : 0 < h.exact.evidence obs n)
    (rf : ForwardRegular u η h obs Sf n (h.forwardBackward obs Sf Sb Sg (n + 1) (n + 1)).1)
    (rb : BackwardRegular u η h obs Sb n (h.forwardBackward obs Sf Sb Sg (n + 1) (n + 1)).2.1)
    (rg : ∀ t ≤ n, SmoothRegular u η Sg (rowAt (h.forwardBackward obs Sf Sb Sg (n + 1) (n + 1)).1 t)
      (rowAt (h.forwardBackward obs Sf Sb Sg (n + 1) (n + 1)).2.1 t)) (t : ℕ) (ht : t ≤ n) :
    (∀ k, (rowAt (h.forwardBackward obs Sf Sb Sg (n + 1) (n + 1)).2.2.1 t k).finite ∧
      Close (perturb u) ((2 * n + 3) * (K + 2)) (rowAt (h.forwardBackward obs Sf Sb Sg (n + 1) (n + 1)).2.2.1 t k).val
        (h.exact.marginal obs n ⟨t, by omega⟩ k / h.exact.evidence obs n)) ∧
    Close (perturb u) K (∑ k, (rowAt (h.forwardBackward obs Sf Sb Sg (n + 1) (n + 1)).2.2.1 t k).val) 1 := by
  have p1 := perturb_one_le A
  have hK := isSum_pos A hg
  have e1 : (h.forwardBackward obs Sf Sb Sg (n + 1) (n + 1)).1 = (h.forward obs Sf (n + 1) (n + 1)).2 := rfl
  have e2 : (h.forwardBackward obs Sf Sb Sg (n + 1) (n + 1)).2.1 = h.backward obs Sb (n + 1) (n + 1) := rfl
  have e3 : rowAt (h.forwardBackward obs Sf Sb Sg (n + 1) (n + 1)).2.2.1 t =
      (FHMM.normalize Sg fun k => rowAt (h.forward obs Sf (n + 1) (n + 1)).2 t k * rowAt (h.backward obs Sb (n + 1) (n + 1)) t k).1 := by
    rw [rowAt_forward ht, rowAt_backward ht]
    show rowAt ((List.zipWith (fun a b => fun k => a k * b k) (h.forward obs Sf (n + 1) (n + 1)).2 (h.backward obs Sb (n + 1) (n + 1))).map
      fun x => (FHMM.normalize Sg x).1) t = _
    rw [forward_eq, backward_eq]
    unfold rowAt
    simp [List.getD_eq_getElem?_getD, List.getElem?_map, List.getElem?_range (show t < n + 1 by omega), List.getElem?_zipWith]
  rw [e1] at rf
  rw [e2] at rb
  have rgt := rg t ht
  rw [e1, e2] at rgt
  rw [e3]
  obtain ⟨P, P0, hk, -⟩ := forward_invariant A hp hf (length := n + 1) (by omega) hpos rf (fun t ht => rowAt_forward (by omega))
    (M := ∑ t ∈ Finset.range (n + 1), |Real.log (h.exact.evidence obs t)|)
    (fun t ht => Finset.single_le_sum (f := fun t => |Real.log (h.exact.evidence obs t)|) (fun _ _ => _root_.abs_nonneg _)
      (Finset.mem_range.2 (by omega))) t ht
  rw [← rowAt_forward (n := n) ht] at hk
  obtain ⟨D, D0, hl⟩ := backward_invariant A hp hb hpos rb (n - t) (by omega)
  rw [show n - (n - t) = t by omega] at hl
  generalize rowAt (h.forward obs Sf (n + 1) (n + 1)).2 t = a at *
  generalize rowAt (h.backward obs Sb (n + 1) (n + 1)) t = b at *
  have PD : 0 < P * D := mul_pos P0 D0
  have w : ∀ k, Close (perturb u) 1 (a k * b k).val ((a k).val * (b k).val) ∧ 0 ≤ (a k * b k).val := fun k =>
    close_mul A (hk k).2.1 (hl k).2.1 (rgt.product k)
  have ex : (2 + t * (K + 2)) + (n - t) * (K + 2) = 2 + n * (K + 2) := by
    have : t * (K + 2) + (n - t) * (K + 2) = n * (K + 2) := by rw [← Nat.add_mul]; congr 1; omega
    omega
  have m0 : ∀ k, 0 ≤ h.exact.marginal obs n ⟨t, by omega⟩ k := fun k => exact_marginal_nonneg hp n _ k
  have spl : ∀ k, h.exact.marginal obs n ⟨t, by omega⟩ k = h.exact.marginal obs t (Fin.last t) k * h.exact.future obs t (n - t) k := by
    intro k
    rw [← HMM.marginal_split]
    congr 1 <;> try omega
    have : n = t + (n - t) := by omega
    congr! 2
  have cw : ∀ k, Close (perturb u) (3 + n * (K + 2)) ((a k * b k).val * (P * D)) (h.exact.marginal obs n ⟨t, by omega⟩ k) := by
    intro k
    have x1 := (w k).1.mulRight PD.le
    have x2 := Close.mul p1 (mul_nonneg (hk k).2.1 P0.le) (exact_marginal_nonneg hp t (Fin.last t) k)
      (mul_nonneg (hl k).2.1 D0.le) (exact_future_nonneg hp t (n - t) k) (hk k).2.2 (hl k).2.2
    rw [show (a k).val * (b k).val * (P * D) = (a k).val * P * ((b k).val * D) by ring] at x1
    have := x1.trans p1 x2
    rw [spl k]
    rwa [ex, show 1 + (2 + n * (K + 2)) = 3 + n * (K + 2) by ring] at this
  have cs : Close (perturb u) (3 + n * (K + 2)) ((∑ k, (a k * b k).val) * (P * D)) (h.exact.evidence obs n) := by
    rw [Finset.sum_mul, ← h.exact.sum_marginal obs n ⟨t, by omega⟩]; exact Close.sum _ cw
  have sp : 0 < ∑ k, (a k * b k).val := (pos_iff_pos_of_mul_pos (cs.pos p1 hpos)).2 PD
  obtain ⟨-, c0, cc, ck⟩ := close_normalize A hg (fun k => (w k).2) rgt.normalize sp
  refine ⟨fun k => ⟨(ck k).1, ?_⟩, normalized_sum A hK c0 cc fun k => (ck k).2.2⟩
  have y1 := ((ck k).2.2.mulRight PD.le).trans p1 (cw k)
  have y2 := (cc.mulRight PD.le).trans p1 cs
  have cPD : 0 < (Sg fun k => a k * b k).val * (P * D) := mul_pos c0 PD
  rw [mul_assoc] at y1
  have d := Close.div p1 (mul_nonneg (ck k).2.1 cPD.le) (m0 k) cPD hpos y1 y2
  rw [mul_div_cancel_right₀ _ cPD.ne'] at d
  exact d.mono p1 (ck k).2.1 (div_nonneg (m0 k) hpos.le) (by nlinarith [show K - 1 ≤ K from Nat.sub_le _ _])

end

end Distrax
