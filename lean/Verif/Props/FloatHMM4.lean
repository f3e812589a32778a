import Verif.Props.FloatHMM3
import Mathlib.Analysis.Complex.ExponentialBounds

/-!
C76 continued: the backward pass and the smoothing probabilities of a model with probabilities between `δ` and 1; single precision.
-/

namespace Distrax

open FX Spec
open XR (fin)

variable {F : Fmt} {u η δ : ℝ} {K : ℕ} {O : Type} {h : FHMM F K O} {obs : ℕ → O}
  {S Sf Sb : ℕ → Option (Fin K) → (Fin K → FX F) → FX F} {Sg : (Fin K → FX F) → FX F}

section
variable (A : F.Acc u η)
include A

open FHMM

omit A in
/-- What holds of every row of the backward pass. -/
def BackwardRow (δ : ℝ) (K : ℕ) (b : Fin K → FX F) : Prop :=
  (∀ k, (b k).finite ∧ δ ^ 2 ≤ 1024 * K ^ 2 * (b k).val ∧ (b k).val ≤ 2) ∧ 1 / 2 ≤ ∑ k, (b k).val

theorem backward_step_regular (hp : h.Proper) (hS : ∀ t o, IsSum (S t o)) (δ0 : 0 < δ) (hb : h.Between δ) (hK : perturb u ^ K ≤ 2)
    (htop : 32 * K ^ 2 ≤ F.top) (hcl : 16 * (lit 1e-15 : FX F).val ≤ δ ^ 2) (hη : 2048 * K ^ 2 * η ≤ u * δ ^ 4) {b : Fin K → FX F}
    (ha : BackwardRow δ K b) (t : ℕ) :
    BackWeightsRegular u η h obs S t b ∧ (∀ i, (h.backWeights obs S t b i).finite) ∧
      NormalizeRegular u η (S t none) (h.backWeights obs S t b) ∧
      BackwardRow δ K (FHMM.normalize (S t none) (h.backWeights obs S t b)).1 := by
  have u0 := A.u0
  have η0 := A.η0
  have K1 : 1 ≤ K := isSum_pos A (hS 0 none)
  have Kr : (1 : ℝ) ≤ K := by exact_mod_cast K1
  have δ1 : δ ≤ 1 := (hb.init ⟨0, K1⟩).1.trans (hb.init ⟨0, K1⟩).2
  have tt := F.top_ge
  have K2 : (K : ℝ) ≤ K ^ 2 := by nlinarith
  have b0 : ∀ k, 0 ≤ (b k).val := fun k => by
    have := (ha.1 k).2.1
    have : 0 ≤ 1024 * (K : ℝ) ^ 2 * (b k).val := (by positivity : (0 : ℝ) ≤ δ ^ 2).trans this
    exact (mul_nonneg_iff_of_pos_left (by positivity)).1 this
  have η2 : η ≤ u * (δ ^ 4 / (2048 * K ^ 2)) := by rw [← mul_div_assoc, le_div_iff₀ (by positivity)]; linarith
  set o := obs (t - 1) with ho
  have d43 : δ ^ 4 ≤ δ ^ 3 := pow_le_pow_of_le_one δ0.le δ1 (by norm_num)
  have d42 : δ ^ 4 ≤ δ ^ 2 := pow_le_pow_of_le_one δ0.le δ1 (by norm_num)
  have po : ∀ j, Regular u η (b j * h.obsProb o j) ((b j).val * (h.obsProb o j).val) ∧ (b j).val * δ / 2 ≤ (b j * h.obsProb o j).val ∧
      (b j * h.obsProb o j).val ≤ 4 := by
    intro j
    have lo : δ ^ 4 / (2048 * K ^ 2) ≤ (b j).val * (h.obsProb o j).val := by
      rw [div_le_iff₀ (by positivity)]
      have h1 := mul_le_mul (ha.1 j).2.1 (hb.obs o j).1 δ0.le (mul_nonneg (by positivity) (b0 j))
      have h2 : δ ^ 2 * δ = δ ^ 3 := by ring
      have : 0 ≤ 1024 * (K : ℝ) ^ 2 * (b j).val * (h.obsProb o j).val := mul_nonneg (mul_nonneg (by positivity) (b0 j)) (hp.obs_nonneg _ j)
      linarith [show (b j).val * (h.obsProb o j).val * (2048 * (K : ℝ) ^ 2) = 2 * (1024 * (K : ℝ) ^ 2 * (b j).val * (h.obsProb o j).val) by ring]
    have hi : (b j).val * (h.obsProb o j).val ≤ 2 := by
      have := mul_le_mul (ha.1 j).2.2 (hb.obs o j).2 (hp.obs_nonneg _ j) zero_le_two
      linarith
    have r := reg_mul A (ha.1 j).1 (hp.obs_finite o j) (b0 j) (hp.obs_nonneg _ j) lo hi η2 (by linarith)
    have := mul_le_mul_of_nonneg_left (hb.obs o j).1 (b0 j)
    exact ⟨r.1, by linarith [r.2.1], by linarith [r.2.2]⟩
  have pt : ∀ i j, Regular u η (b j * h.obsProb o j * h.transProbs i j) ((b j * h.obsProb o j).val * (h.transProbs i j).val) ∧
      (b j).val * δ ^ 2 / 4 ≤ (b j * h.obsProb o j * h.transProbs i j).val ∧ (b j * h.obsProb o j * h.transProbs i j).val ≤ 8 := by
    intro i j
    have q0 : 0 ≤ (b j).val * δ / 2 := by have := b0 j; positivity
    have c0 : 0 ≤ (b j * h.obsProb o j).val := q0.trans (po j).2.1
    have l1 : (b j).val * δ / 2 * δ ≤ (b j * h.obsProb o j).val * (h.transProbs i j).val :=
      mul_le_mul (po j).2.1 (hb.trans i j).1 δ0.le c0
    have lo : δ ^ 4 / (2048 * K ^ 2) ≤ (b j * h.obsProb o j).val * (h.transProbs i j).val := by
      refine le_trans ?_ l1
      rw [div_le_iff₀ (by positivity)]
      have := mul_le_mul_of_nonneg_right (ha.1 j).2.1 (sq_nonneg δ)
      linarith [show (b j).val * δ / 2 * δ * (2048 * (K : ℝ) ^ 2) = 1024 * (K : ℝ) ^ 2 * (b j).val * δ ^ 2 by ring, show δ ^ 2 * δ ^ 2 = δ ^ 4 by ring]
    have hi : (b j * h.obsProb o j).val * (h.transProbs i j).val ≤ 4 := by
      have := mul_le_mul (po j).2.2 (hb.trans i j).2 (hp.trans_nonneg i j) (by norm_num)
      linarith
    have r := reg_mul A (po j).1.1 (hp.trans_finite i j) c0 (hp.trans_nonneg i j) lo hi η2 (by linarith)
    exact ⟨r.1, by linarith [r.2.1, show (b j).val * δ / 2 * δ = (b j).val * δ ^ 2 / 2 by ring], by linarith [r.2.2]⟩
  have we : ∀ i, (h.backWeights obs S t b i).finite ∧ δ ^ 2 / 16 ≤ (h.backWeights obs S t b i).val ∧
      (h.backWeights obs S t b i).val ≤ 16 * K := by
    intro i
    have v0 : ∀ j, 0 ≤ (b j * h.obsProb o j * h.transProbs i j).val := fun j => by
      have := (pt i j).2.1
      have : 0 ≤ (b j).val * δ ^ 2 / 4 := by have := b0 j; positivity
      linarith
    have up : ∑ j, (b j * h.obsProb o j * h.transProbs i j).val ≤ 8 * K := by
      have := Finset.sum_le_card_nsmul Finset.univ (fun j => (b j * h.obsProb o j * h.transProbs i j).val) 8 fun j _ => (pt i j).2.2
      simp at this
      linarith
    have lw : δ ^ 2 / 8 ≤ ∑ j, (b j * h.obsProb o j * h.transProbs i j).val := by
      have : ∑ j, δ ^ 2 / 4 * (b j).val ≤ ∑ j, (b j * h.obsProb o j * h.transProbs i j).val := Finset.sum_le_sum fun j _ => by
        have := (pt i j).2.1
        linarith
      rw [← Finset.mul_sum] at this
      have := mul_le_mul_of_nonneg_left ha.2 (by positivity : 0 ≤ δ ^ 2 / 4)
      linarith
    obtain ⟨f, l, r⟩ := reg_sum A (hS t (some i)) hK (fun j => (pt i j).1.1) v0 (by linarith)
    exact ⟨f, by show _ ≤ (S t (some i) fun j => b j * h.obsProb o j * h.transProbs i j).val; linarith,
      by show (S t (some i) fun j => b j * h.obsProb o j * h.transProbs i j).val ≤ _; linarith⟩
  have nr := reg_normalize A (hS t none) hK (w := h.backWeights obs S t b) (lo := δ ^ 2 / 16) (hi := 16 * K) (by positivity)
    (fun j => (we j).1) (fun j => (we j).2.1) (fun j => (we j).2.2) (by linarith) (by nlinarith) (by
      have := mul_le_mul_of_nonneg_left d42 u0
      nlinarith)
  refine ⟨⟨fun j => (po j).1, fun i j => (pt i j).1⟩, fun i => (we i).1, nr.1, fun k => ⟨(nr.2.1 k).1, ?_, ?_⟩, nr.2.2.1⟩
  · have := (nr.2.1 k).2
    nlinarith
  · refine (Finset.single_le_sum (f := fun k => ((FHMM.normalize (S t none) (h.backWeights obs S t b)).1 k).val) (fun k _ => ?_)
      (Finset.mem_univ k)).trans nr.2.2.2
    have h1 := (nr.2.1 k).2
    have h2 : 0 ≤ 4 * (K * (16 * (K : ℝ))) * ((FHMM.normalize (S t none) (h.backWeights obs S t b)).1 k).val :=
      (by positivity : (0 : ℝ) ≤ δ ^ 2 / 16).trans h1
    exact (mul_nonneg_iff_of_pos_left (by positivity)).1 h2

/-- With all probabilities between `δ` and 1, where `δ` is not extremely small, no backward pass overflows, underflows or clamps. -/
theorem C76_backward_regular (hp : h.Proper) (hS : ∀ t o, IsSum (S t o)) (δ0 : 0 < δ) (hb : h.Between δ) (hK : perturb u ^ K ≤ 2)
    (htop : 32 * K ^ 2 ≤ F.top) (hcl : 16 * (lit 1e-15 : FX F).val ≤ δ ^ 2) (hη : 2048 * K ^ 2 * η ≤ u * δ ^ 4) {n : ℕ} :
    BackwardRegular u η h obs S n (h.backward obs S (n + 1) (n + 1)) ∧ ∀ t ≤ n, BackwardRow δ K (rowAt (h.backward obs S (n + 1) (n + 1)) t) := by
  have K1 : 1 ≤ K := isSum_pos A (hS 0 none)
  have Kr : (1 : ℝ) ≤ K := by exact_mod_cast K1
  have δ1 : δ ≤ 1 := (hb.init ⟨0, K1⟩).1.trans (hb.init ⟨0, K1⟩).2
  have rows : ∀ m ≤ n, BackwardRow δ K (rowAt (h.backward obs S (n + 1) (n + 1)) (n - m)) := by
    intro m
    induction m with
    | zero =>
      intro _
      rw [rowAt_backward (by omega)]
      have e : bIter h obs S n (n + 1) (n - (n - 0)) = fun _ => lit 1 := by rw [show n - (n - 0) = 0 by omega]; rfl
      rw [e]
      have v : (lit 1 : FX F).val = 1 := val_of lit_one
      refine ⟨fun k => ⟨⟨1, lit_one⟩, ?_, ?_⟩, ?_⟩
      · rw [v]; nlinarith [sq_nonneg (δ : ℝ)]
      · rw [v]; norm_num
      · simp only [v, Finset.sum_const, Finset.card_univ, Fintype.card_fin, nsmul_eq_mul, mul_one]; linarith
    | succ m ih =>
      intro hm
      obtain ⟨t, ht⟩ : ∃ t, n - m = t + 1 := ⟨n - m - 1, by omega⟩
      have r := ih (by omega)
      rw [ht] at r
      rw [show n - (m + 1) = t by omega, rowAt_backward (by omega), bIter_succ (by omega), ← rowAt_backward (by omega)]
      exact (backward_step_regular A hp hS δ0 hb hK htop hcl hη r (t + 2)).2.2.2
  have row : ∀ t ≤ n, BackwardRow δ K (rowAt (h.backward obs S (n + 1) (n + 1)) t) := fun t ht => by
    have := rows (n - t) (by omega)
    rwa [show n - (n - t) = t by omega] at this
  refine ⟨⟨fun t ht => ?_, fun t ht => ?_, fun t ht => ?_⟩, row⟩
  · exact (backward_step_regular A hp hS δ0 hb hK htop hcl hη (row (t + 1) (by omega)) (t + 2)).1
  · exact (backward_step_regular A hp hS δ0 hb hK htop hcl hη (row (t + 1) (by omega)) (t + 2)).2.1
  · exact (backward_step_regular A hp hS δ0 hb hK htop hcl hη (row (t + 1) (by omega)) (t + 2)).2.2.1

/-- The same for the products of the two passes. -/
theorem C76_smoothing_regular (hp : h.Proper) (hf : ∀ t o, IsSum (Sf t o)) (hs : ∀ t o, IsSum (Sb t o)) (hg : IsSum Sg) (δ0 : 0 < δ)
    (hb : h.Between δ) (hK : perturb u ^ K ≤ 2) (htop : 32 * K ^ 2 ≤ F.top) (hcl : 2 ^ 21 * K ^ 3 * (lit 1e-15 : FX F).val ≤ δ ^ 4)
    (hη : 2 ^ 25 * K ^ 4 * η ≤ u * δ ^ 4) {n : ℕ} :
    ForwardRegular u η h obs Sf n (h.forwardBackward obs Sf Sb Sg (n + 1) (n + 1)).1 ∧
    BackwardRegular u η h obs Sb n (h.forwardBackward obs Sf Sb Sg (n + 1) (n + 1)).2.1 ∧
    ∀ t ≤ n, SmoothRegular u η Sg (rowAt (h.forwardBackward obs Sf Sb Sg (n + 1) (n + 1)).1 t)
      (rowAt (h.forwardBackward obs Sf Sb Sg (n + 1) (n + 1)).2.1 t) := by
  have u0 := A.u0
  have η0 := A.η0
  have tt := F.top_ge
  have K1 : 1 ≤ K := isSum_pos A hg
  have Kr : (1 : ℝ) ≤ K := by exact_mod_cast K1
  have δ1 : δ ≤ 1 := (hb.init ⟨0, K1⟩).1.trans (hb.init ⟨0, K1⟩).2
  have K2 : (K : ℝ) ≤ K ^ 2 := by nlinarith
  have K13 : (1 : ℝ) ≤ K ^ 3 := one_le_pow₀ Kr
  have K24 : (K : ℝ) ^ 2 ≤ K ^ 4 := pow_le_pow_right₀ Kr (by norm_num)
  have K14 : (K : ℝ) ≤ K ^ 4 := K2.trans K24
  have K34 : (K : ℝ) ^ 3 ≤ K ^ 4 := pow_le_pow_right₀ Kr (by norm_num)
  have d43 : δ ^ 4 ≤ δ ^ 3 := pow_le_pow_of_le_one δ0.le δ1 (by norm_num)
  have d42 : δ ^ 4 ≤ δ ^ 2 := pow_le_pow_of_le_one δ0.le δ1 (by norm_num)
  have l0 : 0 ≤ (lit 1e-15 : FX F).val := by
    have e := fin_val (lit_eps_finite (F := F))
    have : XR.leB (F.rd 0) (F.rd 1e-15) := F.mono (by norm_num)
    have e' : F.rd 1e-15 = fin (lit 1e-15 : FX F).val := e
    rw [F.rd_zero, e'] at this
    exact XR.leB_fin.1 this
  have c16 : 16 * (lit 1e-15 : FX F).val ≤ δ ^ 2 := by nlinarith [mul_le_mul_of_nonneg_right K13 l0]
  have e1 := mul_le_mul_of_nonneg_right K14 η0
  have e2 := mul_le_mul_of_nonneg_right K24 η0
  have e3 := mul_le_mul_of_nonneg_right K34 η0
  have d43u := mul_le_mul_of_nonneg_left d43 u0
  have Kη : 0 ≤ (K : ℝ) ^ 4 * η := by positivity
  obtain ⟨rf, rowf⟩ := C76_forward_regular (h := h) (obs := obs) (S := Sf) A hp hf δ0 hb hK (by linarith) c16
    (by linarith) (n := n) le_rfl
  obtain ⟨rb, rowb⟩ := C76_backward_regular (h := h) (obs := obs) (S := Sb) A hp hs δ0 hb hK htop c16 (by linarith) (n := n)
  refine ⟨rf, rb, fun t ht => ?_⟩
  have ra := rowf t ht
  have rc := rowb t ht
  show SmoothRegular u η Sg (rowAt (h.forward obs Sf (n + 1) (n + 1)).2 t) (rowAt (h.backward obs Sb (n + 1) (n + 1)) t)
  generalize rowAt (h.forward obs Sf (n + 1) (n + 1)).2 t = a at ra
  generalize rowAt (h.backward obs Sb (n + 1) (n + 1)) t = b at rc
  have a0 : ∀ k, 0 ≤ (a k).val := fun k => by
    have : 0 ≤ 1024 * K * (a k).val := (by positivity : (0 : ℝ) ≤ δ ^ 2).trans (ra.1 k).2
    exact (mul_nonneg_iff_of_pos_left (by positivity)).1 this
  have b0 : ∀ k, 0 ≤ (b k).val := fun k => by
    have : 0 ≤ 1024 * (K : ℝ) ^ 2 * (b k).val := (by positivity : (0 : ℝ) ≤ δ ^ 2).trans (rc.1 k).2.1
    exact (mul_nonneg_iff_of_pos_left (by positivity)).1 this
  have a2 : ∀ k, (a k).val ≤ 2 := fun k =>
    (Finset.single_le_sum (f := fun k => (a k).val) (fun k _ => a0 k) (Finset.mem_univ k)).trans ra.2.2
  have pr : ∀ k, Regular u η (a k * b k) ((a k).val * (b k).val) ∧ δ ^ 4 / (2 ^ 21 * K ^ 3) ≤ (a k * b k).val ∧ (a k * b k).val ≤ 8 := by
    intro k
    have lo : δ ^ 4 / (2 ^ 20 * K ^ 3) ≤ (a k).val * (b k).val := by
      rw [div_le_iff₀ (by positivity)]
      have := mul_le_mul (ra.1 k).2 (rc.1 k).2.1 (sq_nonneg δ) (mul_nonneg (by positivity) (a0 k))
      linarith [show δ ^ 2 * δ ^ 2 = δ ^ 4 by ring, show 1024 * (K : ℝ) * (a k).val * (1024 * (K : ℝ) ^ 2 * (b k).val) =
        (a k).val * (b k).val * (2 ^ 20 * (K : ℝ) ^ 3) by ring]
    have hi : (a k).val * (b k).val ≤ 4 := by
      have := mul_le_mul (a2 k) (rc.1 k).2.2 (b0 k) zero_le_two
      linarith
    have r := reg_mul A (ra.1 k).1 (rc.1 k).1 (a0 k) (b0 k) lo hi (by
      rw [← mul_div_assoc, le_div_iff₀ (by positivity)]; linarith) (by linarith)
    refine ⟨r.1, ?_, by linarith [r.2.2]⟩
    have : δ ^ 4 / (2 ^ 21 * K ^ 3) = δ ^ 4 / (2 ^ 20 * (K : ℝ) ^ 3) / 2 := by rw [div_div]; congr 1; ring
    rw [this]; linarith [r.2.1]
  refine ⟨fun k => (pr k).1, (reg_normalize A hg hK (w := fun k => a k * b k) (by positivity) (fun k => (pr k).1.1) (fun k => (pr k).2.1)
    (fun k => (pr k).2.2) ?_ ?_ ?_).1⟩
  · rw [le_div_iff₀ (by positivity)]; linarith
  · linarith
  · rw [← mul_div_assoc, le_div_iff₀ (by positivity)]
    linarith [show 2 * ((K : ℝ) * 8) * η * (2 ^ 21 * (K : ℝ) ^ 3) = 2 ^ 25 * (K : ℝ) ^ 4 * η by ring]

omit A in
/-- Observations are possible under such a model. -/
theorem evidence_pos_between (hK : 1 ≤ K) (δ0 : 0 < δ) (hb : h.Between δ) (n : ℕ) : 0 < h.exact.evidence obs n := by
  have := Fin.pos_iff_nonempty.1 hK
  refine Finset.sum_pos (fun z _ => ?_) Finset.univ_nonempty
  exact mul_pos (mul_pos (δ0.trans_le (hb.init _).1) (Finset.prod_pos fun _ _ => δ0.trans_le (hb.trans _ _).1))
    (Finset.prod_pos fun _ _ => δ0.trans_le (hb.obs _ _).1)

end

/-! ### Single precision -/

theorem perturb_pow_le {k : ℕ} {c : ℝ} (hk : (k : ℝ) * (1 / (2 ^ 23 - 1)) ≤ c) (hc : c ≤ 1 / 2) :
    perturb ((2 : ℝ) ^ (-24 : ℤ)) ^ k ≤ 1 + c + c ^ 2 := by
  have e : perturb ((2 : ℝ) ^ (-24 : ℤ)) = 1 + 1 / (2 ^ 23 - 1) := by unfold perturb; norm_num
  have l : perturb ((2 : ℝ) ^ (-24 : ℤ)) ≤ Real.exp (1 / (2 ^ 23 - 1)) := by
    rw [e, add_comm]; exact Real.add_one_le_exp _
  have c0 : 0 ≤ c := le_trans (by positivity) hk
  calc perturb ((2 : ℝ) ^ (-24 : ℤ)) ^ k ≤ Real.exp (1 / (2 ^ 23 - 1)) ^ k :=
        pow_le_pow_left₀ (by rw [e]; norm_num) l k
    _ = Real.exp (k * (1 / (2 ^ 23 - 1))) := (Real.exp_nat_mul _ _).symm
    _ ≤ Real.exp c := Real.exp_le_exp.2 hk
    _ ≤ 1 + c + c ^ 2 := by
      have := Real.abs_exp_sub_one_sub_id_le (x := c) (by rw [abs_of_nonneg c0]; linarith)
      linarith [abs_le.1 this]

/-- Relative closeness as a bound for the relative error. -/
theorem close_error {ρ x y c ε : ℝ} {k : ℕ} (hρ : 1 ≤ ρ) (h : Close ρ k x y) (hp : ρ ^ k ≤ 1 + c + c ^ 2) (hy : 0 ≤ y) (hc : c + c ^ 2 ≤ ε)
    (hε : ε ≤ 1) : |x - y| ≤ ε * y := by
  obtain ⟨a, b⟩ := h
  have hp' : ρ ^ k ≤ 1 + ε := by linarith
  have a' := mul_le_mul_of_nonneg_right hp' hy
  rcases le_or_gt 0 x with x0 | x0
  · have b' := mul_le_mul_of_nonneg_right hp' x0
    rw [abs_le]
    refine ⟨?_, by linarith⟩
    by_cases e0 : 0 ≤ ε
    · nlinarith
    · nlinarith
  · exfalso
    have : 0 ≤ ρ ^ k * x := hy.trans b
    have r0 : 0 < ρ ^ k := by positivity
    nlinarith

theorem lit_eps_le {F : Fmt} (A : F.Acc ((2 : ℝ) ^ (-24 : ℤ)) ((2 : ℝ) ^ (-150 : ℤ))) :
    0 ≤ (lit 1e-15 : FX F).val ∧ (lit 1e-15 : FX F).val ≤ 2e-15 := by
  have := A.err (x := 1e-15) (y := (lit 1e-15 : FX F).val) (fin_val lit_eps_finite)
  rw [abs_of_pos (by norm_num : (0 : ℝ) < 1e-15)] at this
  have := abs_le.1 this
  norm_num at this ⊢
  constructor <;> linarith

/-- In single precision, with at most 30 states, at most 1000 observations and all probabilities between `1e-6` and 1: every filtering
probability that `forward` returns has relative error below one percent, whatever the order of the sums. -/
theorem C76_float32_filtering (rd : ℝ → XR) (hrd : IEEE 24 (-149) 104 rd) : ∃ F : Fmt, F.rd = rd ∧
    ∀ (K : ℕ) (O : Type) (h : FHMM F K O) (obs : ℕ → O) (S : ℕ → Option (Fin K) → (Fin K → FX F) → FX F), K ≤ 30 → h.Proper →
      h.Between 1e-6 → (∀ t o, IsSum (S t o)) → ∀ n T : ℕ, n < 1000 → n + 1 ≤ T → ∀ t ≤ n, ∀ k,
      |(rowAt (h.forward obs S T (n + 1)).2 t k).val - h.exact.marginal obs t (Fin.last t) k / h.exact.evidence obs t| ≤
        0.01 * (h.exact.marginal obs t (Fin.last t) k / h.exact.evidence obs t) := by
  obtain ⟨F, hF, htop⟩ := C61_formats.2.2.1 rd hrd
  have A : F.Acc ((2 : ℝ) ^ (-24 : ℤ)) ((2 : ℝ) ^ (-150 : ℤ)) := by
    have := ieee_acc rd hrd hF (by norm_num) (by norm_num) (by norm_num); norm_num at this ⊢; exact this
  refine ⟨F, hF, fun K O h obs S hK hp hb hS n T hn hT t ht k => ?_⟩
  have K1 : 1 ≤ K := isSum_pos A (hS 0 none)
  have Kr : (K : ℝ) ≤ 30 := by exact_mod_cast hK
  have K0 : (1 : ℝ) ≤ K := by exact_mod_cast K1
  have hpos := evidence_pos_between (obs := obs) K1 (by norm_num) hb n
  have lit15 := (lit_eps_le A).2
  have reg := (C76_forward_regular (h := h) (obs := obs) (S := S) A hp hS (δ := 1e-6) (by norm_num) hb
    ((perturb_pow_le (k := K) (c := 1 / 2) (by norm_num; linarith) le_rfl).trans (by norm_num)) (by rw [htop]; norm_num; linarith)
    (by norm_num at lit15 ⊢; linarith) (by norm_num; linarith) hT).1
  have c := ((C76_forward A hp hS hT hpos reg t ht).1 k).2
  have m0 := FHMM.exact_marginal_nonneg (obs := obs) hp t (Fin.last t) k
  have q0 : 0 ≤ h.exact.marginal obs t (Fin.last t) k / h.exact.evidence obs t := div_nonneg m0 (FHMM.exact_evidence_nonneg hp t)
  have tr : (t : ℝ) + 1 ≤ 1000 := by exact_mod_cast (show t + 1 ≤ 1000 by omega)
  have pw := perturb_pow_le (k := 2 * (t + 1) * (K + 2)) (c := 0.0077) (by
    push_cast
    have : ((t : ℝ) + 1) * (K + 2) ≤ 1000 * 32 := mul_le_mul tr (by linarith) (by linarith) (by norm_num)
    norm_num
    linarith) (by norm_num)
  exact close_error (by unfold perturb; norm_num) c pw q0 (by norm_num) (by norm_num)

/-- In single precision, with at most 8 states, at most 3000 observations and all probabilities between `0.05` and 1: every smoothing
probability that `forward_backward` returns has relative error below one percent. -/
theorem C76_float32_smoothing (rd : ℝ → XR) (hrd : IEEE 24 (-149) 104 rd) : ∃ F : Fmt, F.rd = rd ∧
    ∀ (K : ℕ) (O : Type) (h : FHMM F K O) (obs : ℕ → O) (Sf Sb : ℕ → Option (Fin K) → (Fin K → FX F) → FX F)
      (Sg : (Fin K → FX F) → FX F), K ≤ 8 → h.Proper → h.Between 0.05 → (∀ t o, IsSum (Sf t o)) → (∀ t o, IsSum (Sb t o)) → IsSum Sg →
      ∀ n : ℕ, n < 3000 → ∀ (t : ℕ) (ht : t < n + 1), ∀ k,
      |(rowAt (h.forwardBackward obs Sf Sb Sg (n + 1) (n + 1)).2.2.1 t k).val - h.exact.marginal obs n ⟨t, ht⟩ k / h.exact.evidence obs n| ≤
        0.01 * (h.exact.marginal obs n ⟨t, ht⟩ k / h.exact.evidence obs n) := by
  obtain ⟨F, hF, htop⟩ := C61_formats.2.2.1 rd hrd
  have A : F.Acc ((2 : ℝ) ^ (-24 : ℤ)) ((2 : ℝ) ^ (-150 : ℤ)) := by
    have := ieee_acc rd hrd hF (by norm_num) (by norm_num) (by norm_num); norm_num at this ⊢; exact this
  refine ⟨F, hF, fun K O h obs Sf Sb Sg hK hp hb hf hs hg n hn t ht k => ?_⟩
  have K1 : 1 ≤ K := isSum_pos A hg
  have Kr : (K : ℝ) ≤ 8 := by exact_mod_cast hK
  have K0 : (1 : ℝ) ≤ K := by exact_mod_cast K1
  have p2 : (K : ℝ) ^ 2 ≤ 8 ^ 2 := pow_le_pow_left₀ (by linarith) Kr 2
  have p3 : (K : ℝ) ^ 3 ≤ 8 ^ 3 := pow_le_pow_left₀ (by linarith) Kr 3
  have p4 : (K : ℝ) ^ 4 ≤ 8 ^ 4 := pow_le_pow_left₀ (by linarith) Kr 4
  have hpos := evidence_pos_between (obs := obs) K1 (by norm_num) hb n
  have lit15 := lit_eps_le A
  obtain ⟨rf, rb, rg⟩ := C76_smoothing_regular (h := h) (obs := obs) (Sf := Sf) (Sb := Sb) (Sg := Sg) A hp hf hs hg (δ := 0.05) (by norm_num) hb
    ((perturb_pow_le (k := K) (c := 1 / 2) (by norm_num; linarith) le_rfl).trans (by norm_num)) (by rw [htop]; norm_num; linarith)
    (by
      have : (K : ℝ) ^ 3 * (lit 1e-15 : FX F).val ≤ 8 ^ 3 * 2e-15 :=
        mul_le_mul p3 lit15.2 lit15.1 (by norm_num)
      norm_num at this ⊢; linarith) (by norm_num; linarith) (n := n)
  have c := ((C76_smoothing A hp hf hs hg hpos rf rb rg t (by omega)).1 k).2
  have q0 : 0 ≤ h.exact.marginal obs n ⟨t, ht⟩ k / h.exact.evidence obs n := div_nonneg (FHMM.exact_marginal_nonneg hp n _ k) hpos.le
  have nr : (n : ℝ) + 1 ≤ 3000 := by exact_mod_cast (show n + 1 ≤ 3000 by omega)
  have pw := perturb_pow_le (k := (2 * n + 3) * (K + 2)) (c := 0.0077) (by
    push_cast
    have : (2 * (n : ℝ) + 3) * (K + 2) ≤ 6001 * 10 := mul_le_mul (by linarith) (by linarith) (by linarith) (by norm_num)
    norm_num
    linarith) (by norm_num)
  exact close_error (by unfold perturb; norm_num) c pw q0 (by norm_num) (by norm_num)

/-! ### A concrete case -/

/-- Two states, three possible observations. -/
noncomputable def weather (F : Fmt) : FHMM F 2 (Fin 3) where
  initProbs _ := lit (1 / 2)
  transProbs i j := if i = j then lit 0.7 else lit 0.3
  obsProb o k := if k = 0 then (![lit 0.1, lit 0.4, lit 0.5] : Fin 3 → FX F) o else (![lit 0.6, lit 0.3, lit 0.1] : Fin 3 → FX F) o

theorem lit_between {F : Fmt} (A : F.Acc ((2 : ℝ) ^ (-24 : ℤ)) ((2 : ℝ) ^ (-150 : ℤ))) {c : ℝ} (h0 : 0.1 ≤ c) (h1 : c ≤ 0.9) :
    (lit c : FX F).finite ∧ 0.05 ≤ (lit c : FX F).val ∧ (lit c : FX F).val ≤ 1 := by
  have tt := F.top_ge
  norm_num at h0 h1
  have hf : (lit c : FX F).finite := by
    obtain ⟨y, hy⟩ := F.fits (x := c) (by rw [abs_of_pos (by linarith)]; linarith)
    exact ⟨y, hy⟩
  have := A.err (x := c) (y := (lit c : FX F).val) (fin_val hf)
  rw [abs_of_pos (by linarith : (0 : ℝ) < c)] at this
  have := abs_le.1 this
  norm_num at this
  refine ⟨hf, ?_, ?_⟩ <;> norm_num <;> linarith

theorem weather_between {F : Fmt} (A : F.Acc ((2 : ℝ) ^ (-24 : ℤ)) ((2 : ℝ) ^ (-150 : ℤ))) : (weather F).Proper ∧ (weather F).Between 0.05 := by
  have i : ∀ k, _ := fun k : Fin 2 => (show (((weather F).initProbs k).finite ∧ 0.05 ≤ ((weather F).initProbs k).val ∧
    ((weather F).initProbs k).val ≤ 1) from lit_between A (by norm_num) (by norm_num))
  have t : ∀ i j, ((weather F).transProbs i j).finite ∧ 0.05 ≤ ((weather F).transProbs i j).val ∧ ((weather F).transProbs i j).val ≤ 1 := by
    intro i j
    show ((if i = j then lit 0.7 else lit 0.3 : FX F)).finite ∧ _ ≤ ((if i = j then lit 0.7 else lit 0.3 : FX F)).val ∧
      ((if i = j then lit 0.7 else lit 0.3 : FX F)).val ≤ _
    split_ifs <;> exact lit_between A (by norm_num) (by norm_num)
  have o : ∀ o k, ((weather F).obsProb o k).finite ∧ 0.05 ≤ ((weather F).obsProb o k).val ∧ ((weather F).obsProb o k).val ≤ 1 := by
    intro o k
    fin_cases o <;> fin_cases k <;> exact lit_between A (by norm_num) (by norm_num)
  have p : (0 : ℝ) ≤ 0.05 := by norm_num
  exact ⟨⟨fun k => (i k).1, fun k => p.trans (i k).2.1, fun a b => (t a b).1, fun a b => p.trans (t a b).2.1, fun a b => (o a b).1,
    fun a b => p.trans (o a b).2.1⟩, ⟨fun k => (i k).2, fun a b => (t a b).2, fun a b => (o a b).2⟩⟩

theorem isSum_two {F : Fmt} : IsSum (fun v : Fin 2 → FX F => v 0 + v 1) := fun v => by
  have : List.ofFn v = [v 0] ++ [v 1] := by simp [List.ofFn_succ]
  rw [this]; exact .add (.one _) (.one _)

/-- The hypotheses of `C76_forward`, `C76_backward` and `C76_smoothing` are met by this model in single precision, for every sequence of
observations of every length. -/
example (rd : ℝ → XR) (hrd : IEEE 24 (-149) 104 rd) : ∃ F : Fmt, F.rd = rd ∧ ∃ u η, F.Acc u η ∧ ∀ (obs : ℕ → Fin 3) (n : ℕ),
    (weather F).Proper ∧ 0 < (weather F).exact.evidence obs n ∧
    FHMM.ForwardRegular u η (weather F) obs (fun _ _ v => v 0 + v 1) n
      ((weather F).forwardBackward obs (fun _ _ v => v 0 + v 1) (fun _ _ v => v 0 + v 1) (fun v => v 0 + v 1) (n + 1) (n + 1)).1 ∧
    FHMM.BackwardRegular u η (weather F) obs (fun _ _ v => v 0 + v 1) n
      ((weather F).forwardBackward obs (fun _ _ v => v 0 + v 1) (fun _ _ v => v 0 + v 1) (fun v => v 0 + v 1) (n + 1) (n + 1)).2.1 := by
  obtain ⟨F, hF, htop⟩ := C61_formats.2.2.1 rd hrd
  have A : F.Acc ((2 : ℝ) ^ (-24 : ℤ)) ((2 : ℝ) ^ (-150 : ℤ)) := by
    have := ieee_acc rd hrd hF (by norm_num) (by norm_num) (by norm_num); norm_num at this ⊢; exact this
  refine ⟨F, hF, _, _, A, fun obs n => ?_⟩
  obtain ⟨hp, hb⟩ := weather_between A
  have lit15 := lit_eps_le A
  obtain ⟨rf, rb, -⟩ := C76_smoothing_regular (h := weather F) (obs := obs) (Sf := fun _ _ v => v 0 + v 1) (Sb := fun _ _ v => v 0 + v 1)
    (Sg := fun v => v 0 + v 1) A hp (fun _ _ => isSum_two) (fun _ _ => isSum_two) isSum_two (δ := 0.05) (by norm_num) hb
    ((perturb_pow_le (k := 2) (c := 1 / 2) (by norm_num) le_rfl).trans (by norm_num)) (by rw [htop]; norm_num)
    (by norm_num at lit15 ⊢; linarith) (by norm_num) (n := n)
  exact ⟨hp, evidence_pos_between (by norm_num) (by norm_num) hb n, rf, rb⟩

end Distrax
