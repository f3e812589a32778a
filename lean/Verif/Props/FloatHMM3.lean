import Verif.Props.FloatHMM2
import Verif.Props.FloatAcc4

/-!
C76 continued: a condition on the parameters alone under which no run overflows, underflows or clamps, and concrete formats.
-/

namespace Distrax

open FX
open XR (fin)

variable {F : Fmt} {u η δ : ℝ} {K : ℕ} {O : Type} {h : FHMM F K O} {obs : ℕ → O}
  {S Sf Sb : ℕ → Option (Fin K) → (Fin K → FX F) → FX F} {Sg : (Fin K → FX F) → FX F}

section
variable (A : F.Acc u η)
include A

open FHMM

theorem perturb_le_two : perturb u ≤ 2 := by
  have u0 := A.u0
  have u1 := A.u_le
  unfold perturb
  rw [div_le_iff₀ (by linarith)]; linarith

theorem close_two {x y : ℝ} {k : ℕ} (h : Close (perturb u) k x y) (hk : perturb u ^ k ≤ 2) (hx : 0 ≤ x) (hy : 0 ≤ y) : x ≤ 2 * y ∧ y / 2 ≤ x := by
  have a := mul_le_mul_of_nonneg_right hk hy
  have b := mul_le_mul_of_nonneg_right hk hx
  exact ⟨h.1.trans a, by have := h.2.trans b; linarith⟩

/-- A product between `lo` and `hi`. -/
theorem reg_mul {a b : FX F} {lo hi : ℝ} (fa : a.finite) (fb : b.finite) (a0 : 0 ≤ a.val) (b0 : 0 ≤ b.val) (hlo : lo ≤ a.val * b.val)
    (hhi : a.val * b.val ≤ hi) (hη : η ≤ u * lo) (htop : hi ≤ F.top) :
    Regular u η (a * b) (a.val * b.val) ∧ a.val * b.val / 2 ≤ (a * b).val ∧ (a * b).val ≤ 2 * (a.val * b.val) := by
  have u0 := A.u0
  have p0 : 0 ≤ a.val * b.val := mul_nonneg a0 b0
  have hf : (a * b).finite := by
    obtain ⟨y, hy⟩ := F.fits (x := a.val * b.val) (by rw [abs_of_nonneg p0]; linarith)
    refine ⟨y, ?_⟩
    rw [mul_val, fin_val fa, fin_val fb, XR.fin_mul]; exact hy
  have hr : Regular u η (a * b) (a.val * b.val) := ⟨hf, Or.inr (hη.trans (mul_le_mul_of_nonneg_left hlo u0))⟩
  obtain ⟨c, n⟩ := close_mul A a0 b0 hr
  have := close_two A c (by rw [pow_one]; exact perturb_le_two A) n p0
  exact ⟨hr, this.2, this.1⟩

theorem reg_sum {s : (Fin K → FX F) → FX F} (hs : IsSum s) (hK : perturb u ^ K ≤ 2) {v : Fin K → FX F} (fv : ∀ k, (v k).finite)
    (v0 : ∀ k, 0 ≤ (v k).val) (htop : 2 * ∑ k, (v k).val ≤ F.top) :
    (s v).finite ∧ (∑ k, (v k).val) / 2 ≤ (s v).val ∧ (s v).val ≤ 2 * ∑ k, (v k).val := by
  have u0 := A.u0
  have u1 := A.u_le
  have p1 := perturb_one_le A
  have S0 : 0 ≤ ∑ k, (v k).val := Finset.sum_nonneg fun k _ => v0 k
  have pk : perturb u ^ (K - 1) ≤ 2 := (pow_le_pow_right₀ p1 (Nat.sub_le _ _)).trans hK
  have hf : (s v).finite := by
    refine C63_sum_finite A (hs v) (by intro x hx; obtain ⟨k, rfl⟩ := (List.mem_ofFn' _ _).1 hx; exact fv k) ?_
    rw [List.length_ofFn, List.map_ofFn, List.sum_ofFn]
    have e : ∑ i, ((fun x : FX F => |x.val|) ∘ v) i = ∑ k, (v k).val := Finset.sum_congr rfl fun k _ => abs_of_nonneg (v0 k)
    rw [e]
    have l : 1 + u ≤ perturb u := by
      unfold perturb
      rw [le_div_iff₀ (by linarith)]
      nlinarith
    have := pow_le_pow_left₀ (by linarith : (0 : ℝ) ≤ 1 + u) l (K - 1)
    exact (mul_le_mul_of_nonneg_right (this.trans pk) S0).trans htop
  obtain ⟨c, n⟩ := close_isSum A hs v hf v0
  have := close_two A c pk n S0
  exact ⟨hf, this.2, this.1⟩

theorem reg_normalize {s : (Fin K → FX F) → FX F} (hs : IsSum s) (hK : perturb u ^ K ≤ 2) {w : Fin K → FX F} {lo hi : ℝ} (l0 : 0 < lo)
    (fw : ∀ k, (w k).finite) (hlo : ∀ k, lo ≤ (w k).val) (hhi : ∀ k, (w k).val ≤ hi) (hcl : (lit 1e-15 : FX F).val ≤ lo)
    (htop : 2 * (K * hi) ≤ F.top) (hη : 2 * (K * hi) * η ≤ u * lo) :
    NormalizeRegular u η s w ∧ (∀ k, ((FHMM.normalize s w).1 k).finite ∧ lo ≤ 4 * (K * hi) * ((FHMM.normalize s w).1 k).val) ∧
      1 / 2 ≤ ∑ k, ((FHMM.normalize s w).1 k).val ∧ ∑ k, ((FHMM.normalize s w).1 k).val ≤ 2 := by
  have u0 := A.u0
  have p1 := perturb_one_le A
  have K1 : 1 ≤ K := isSum_pos A hs
  have Kr : (1 : ℝ) ≤ K := by exact_mod_cast K1
  have w0 : ∀ k, 0 ≤ (w k).val := fun k => l0.le.trans (hlo k)
  have hsum : ∑ k, (w k).val ≤ K * hi := by
    have := Finset.sum_le_card_nsmul Finset.univ (fun k => (w k).val) hi fun k _ => hhi k
    simpa using this
  have k0 : Fin K := ⟨0, K1⟩
  have sp : 0 < ∑ k, (w k).val := Finset.sum_pos (fun k _ => l0.trans_le (hlo k)) ⟨k0, Finset.mem_univ _⟩
  obtain ⟨fs, s1, s2⟩ := reg_sum A hs hK fw w0 (by linarith)
  have c0 : 0 < (s w).val := by linarith
  have cle : (s w).val ≤ 2 * (K * hi) := by linarith
  have H0 : 0 < 2 * (K * hi) := c0.trans_le cle
  have q : ∀ k, lo / (2 * (K * hi)) ≤ (w k).val / (s w).val := fun k => div_le_div₀ (w0 k) (hlo k) c0 cle
  have hr : NormalizeRegular u η s w := by
    refine ⟨fun k => Or.inr (hcl.trans (hlo k)), fs, fun k => Or.inr ?_⟩
    refine le_trans ?_ (mul_le_mul_of_nonneg_left (q k) u0)
    rw [← mul_div_assoc, le_div_iff₀ H0]; linarith
  obtain ⟨-, -, cc, ck⟩ := close_normalize A hs w0 hr sp
  refine ⟨hr, fun k => ⟨(ck k).1, ?_⟩, ?_⟩
  · have h2 := (close_two A (ck k).2.2 (by rw [pow_one]; exact perturb_le_two A) (mul_nonneg (ck k).2.1 c0.le) (w0 k)).2
    have h3 := mul_le_mul_of_nonneg_left cle (ck k).2.1
    have h4 := hlo k
    linarith
  · have := normalized_sum A K1 c0 cc fun k => (ck k).2.2
    have := close_two A this hK (Finset.sum_nonneg fun k _ => (ck k).2.1) zero_le_one
    exact ⟨by linarith [this.2], by linarith [this.1]⟩

end

/-- All probabilities of the model lie between `δ` and 1. -/
structure FHMM.Between (h : FHMM F K O) (δ : ℝ) : Prop where
  init : ∀ k, δ ≤ (h.initProbs k).val ∧ (h.initProbs k).val ≤ 1
  trans : ∀ i j, δ ≤ (h.transProbs i j).val ∧ (h.transProbs i j).val ≤ 1
  obs : ∀ o k, δ ≤ (h.obsProb o k).val ∧ (h.obsProb o k).val ≤ 1

section
variable (A : F.Acc u η)
include A

open FHMM

/-- What holds of every row of the forward pass. -/
def ForwardRow (δ : ℝ) (K : ℕ) (a : Fin K → FX F) : Prop :=
  (∀ k, (a k).finite ∧ δ ^ 2 ≤ 1024 * K * (a k).val) ∧ 1 / 2 ≤ ∑ k, (a k).val ∧ ∑ k, (a k).val ≤ 2

theorem forwardRow_of {a : Fin K → FX F} (h : (∀ k, (a k).finite ∧ δ ^ 2 / 16 ≤ 4 * (K * 16) * (a k).val) ∧ 1 / 2 ≤ ∑ k, (a k).val ∧
    ∑ k, (a k).val ≤ 2) : ForwardRow δ K a :=
  ⟨fun k => ⟨(h.1 k).1, by have := (h.1 k).2; linarith⟩, h.2⟩

theorem forward_step_regular (hp : h.Proper) (hS : ∀ t o, IsSum (S t o)) (δ0 : 0 < δ) (hb : h.Between δ) (hK : perturb u ^ K ≤ 2)
    (htop : 32 * K ≤ F.top) (hcl : 16 * (lit 1e-15 : FX F).val ≤ δ ^ 2) (hη : 1024 * K * η ≤ u * δ ^ 3) {a : Fin K → FX F}
    (ha : ForwardRow δ K a) (t : ℕ) :
    WeightsRegular u η h obs S t a ∧ NormalizeRegular u η (S t none) (h.weights obs S t a) ∧
      ForwardRow δ K (FHMM.normalize (S t none) (h.weights obs S t a)).1 := by
  have u0 := A.u0
  have η0 := A.η0
  have K1 : 1 ≤ K := isSum_pos A (hS 0 none)
  have Kr : (1 : ℝ) ≤ K := by exact_mod_cast K1
  have δ1 : δ ≤ 1 := (hb.init ⟨0, K1⟩).1.trans (hb.init ⟨0, K1⟩).2
  have tt := F.top_ge
  have a0 : ∀ k, 0 ≤ (a k).val := fun k => by
    have := (ha.1 k).2
    have : 0 ≤ 1024 * K * (a k).val := (by positivity : (0 : ℝ) ≤ δ ^ 2).trans this
    exact (mul_nonneg_iff_of_pos_left (by positivity)).1 this
  have a2 : ∀ k, (a k).val ≤ 2 := fun k =>
    (Finset.single_le_sum (f := fun k => (a k).val) (fun k _ => a0 k) (Finset.mem_univ k)).trans ha.2.2
  have η2 : η ≤ u * (δ ^ 3 / (1024 * K)) := by rw [← mul_div_assoc, le_div_iff₀ (by positivity)]; linarith
  have pr : ∀ i j, Regular u η (a i * h.transProbs i j) ((a i).val * (h.transProbs i j).val) ∧
      (a i).val * (h.transProbs i j).val / 2 ≤ (a i * h.transProbs i j).val ∧
      (a i * h.transProbs i j).val ≤ 2 * ((a i).val * (h.transProbs i j).val) := by
    intro i j
    refine reg_mul A (ha.1 i).1 (hp.trans_finite i j) (a0 i) (hp.trans_nonneg i j) (lo := δ ^ 3 / (1024 * K)) (hi := 2) ?_ ?_ η2 (by linarith)
    · rw [div_le_iff₀ (by positivity)]
      have h1 := mul_le_mul (ha.1 i).2 (hb.trans i j).1 δ0.le (mul_nonneg (by positivity) (a0 i))
      calc δ ^ 3 = δ ^ 2 * δ := by ring
        _ ≤ _ := h1
        _ = _ := by ring
    · have := mul_le_mul (a2 i) (hb.trans i j).2 (hp.trans_nonneg i j) zero_le_two
      linarith
  have su : ∀ j, (S t (some j) fun i => a i * h.transProbs i j).finite ∧ δ / 8 ≤ (S t (some j) fun i => a i * h.transProbs i j).val ∧
      (S t (some j) fun i => a i * h.transProbs i j).val ≤ 8 := by
    intro j
    have v0 : ∀ i, 0 ≤ (a i * h.transProbs i j).val := fun i => by
      have := (pr i j).2.1
      have := mul_nonneg (a0 i) (hp.trans_nonneg i j)
      linarith
    have up : ∑ i, (a i * h.transProbs i j).val ≤ 4 := by
      have : ∑ i, (a i * h.transProbs i j).val ≤ ∑ i, 2 * (a i).val := Finset.sum_le_sum fun i _ => by
        have := mul_le_mul_of_nonneg_left (hb.trans i j).2 (a0 i)
        have := (pr i j).2.2
        linarith
      rw [← Finset.mul_sum] at this
      linarith [ha.2.2]
    have lw : δ / 4 ≤ ∑ i, (a i * h.transProbs i j).val := by
      have : ∑ i, δ / 2 * (a i).val ≤ ∑ i, (a i * h.transProbs i j).val := Finset.sum_le_sum fun i _ => by
        have := mul_le_mul_of_nonneg_left (hb.trans i j).1 (a0 i)
        have := (pr i j).2.1
        linarith
      rw [← Finset.mul_sum] at this
      have := mul_le_mul_of_nonneg_left ha.2.1 (by positivity : 0 ≤ δ / 2)
      linarith
    obtain ⟨f, l, r⟩ := reg_sum A (hS t (some j)) hK (fun i => (pr i j).1.1) v0 (by linarith)
    exact ⟨f, by linarith, by linarith⟩
  have we : ∀ j, Regular u η (h.weights obs S t a j) ((h.obsProb (obs t) j).val * (S t (some j) fun i => a i * h.transProbs i j).val) ∧
      δ ^ 2 / 16 ≤ (h.weights obs S t a j).val ∧ (h.weights obs S t a j).val ≤ 16 := by
    intro j
    have lo : δ ^ 2 / 8 ≤ (h.obsProb (obs t) j).val * (S t (some j) fun i => a i * h.transProbs i j).val := by
      have := mul_le_mul (hb.obs (obs t) j).1 (su j).2.1 (by positivity) (hp.obs_nonneg _ j)
      linarith [show δ * (δ / 8) = δ ^ 2 / 8 by ring]
    have hi : (h.obsProb (obs t) j).val * (S t (some j) fun i => a i * h.transProbs i j).val ≤ 8 := by
      have := mul_le_mul (hb.obs (obs t) j).2 (su j).2.2 ((by positivity : (0 : ℝ) ≤ δ / 8).trans (su j).2.1) zero_le_one
      linarith
    have := reg_mul A (hp.obs_finite (obs t) j) (su j).1 (hp.obs_nonneg _ j) ((by positivity : (0 : ℝ) ≤ δ / 8).trans (su j).2.1)
      lo hi (η2.trans (mul_le_mul_of_nonneg_left (by
        rw [div_le_div_iff₀ (by positivity) (by norm_num)]
        have : δ ^ 3 ≤ δ ^ 2 := pow_le_pow_of_le_one δ0.le δ1 (by norm_num)
        nlinarith [sq_nonneg δ]) u0)) (by linarith)
    exact ⟨this.1, by have := this.2.1; linarith!, by have := this.2.2; linarith!⟩
  have nr := reg_normalize A (hS t none) hK (w := h.weights obs S t a) (lo := δ ^ 2 / 16) (hi := 16) (by positivity)
    (fun j => (we j).1.1) (fun j => (we j).2.1) (fun j => (we j).2.2) (by linarith) (by linarith) (by
      have : δ ^ 3 ≤ δ ^ 2 := pow_le_pow_of_le_one δ0.le δ1 (by norm_num)
      have := mul_le_mul_of_nonneg_left this u0
      nlinarith)
  exact ⟨⟨fun i j => (pr i j).1, fun j => (su j).1, fun j => (we j).1⟩, nr.1, forwardRow_of A nr.2⟩

/-- With all probabilities between `δ` and 1, where `δ` is not extremely small, no forward pass overflows, underflows or clamps. -/
theorem C76_forward_regular (hp : h.Proper) (hS : ∀ t o, IsSum (S t o)) (δ0 : 0 < δ) (hb : h.Between δ) (hK : perturb u ^ K ≤ 2)
    (htop : 32 * K ≤ F.top) (hcl : 16 * (lit 1e-15 : FX F).val ≤ δ ^ 2) (hη : 1024 * K * η ≤ u * δ ^ 3) {n T : ℕ} (hT : n + 1 ≤ T) :
    ForwardRegular u η h obs S n (h.forward obs S T (n + 1)).2 ∧ ∀ t ≤ n, ForwardRow δ K (rowAt (h.forward obs S T (n + 1)).2 t) := by
  have u0 := A.u0
  have η0 := A.η0
  obtain ⟨m, rfl⟩ := Nat.exists_eq_add_of_le hT
  rw [show n + 1 + m = (n + m) + 1 by ring]
  have K1 : 1 ≤ K := isSum_pos A (hS 0 none)
  have Kr : (1 : ℝ) ≤ K := by exact_mod_cast K1
  have δ1 : δ ≤ 1 := (hb.init ⟨0, K1⟩).1.trans (hb.init ⟨0, K1⟩).2
  have tt := F.top_ge
  have d3 : δ ^ 3 ≤ δ ^ 2 := pow_le_pow_of_le_one δ0.le δ1 (by norm_num)
  have d3u := mul_le_mul_of_nonneg_left d3 u0
  have wi : ∀ k, Regular u η (h.initWeights obs k) ((h.initProbs k).val * (h.obsProb (obs 0) k).val) ∧
      δ ^ 2 / 16 ≤ (h.initWeights obs k).val ∧ (h.initWeights obs k).val ≤ 16 := by
    intro k
    have lo : δ ^ 2 ≤ (h.initProbs k).val * (h.obsProb (obs 0) k).val := by
      have := mul_le_mul (hb.init k).1 (hb.obs (obs 0) k).1 δ0.le (hp.init_nonneg k)
      linarith [show δ * δ = δ ^ 2 by ring]
    have hi : (h.initProbs k).val * (h.obsProb (obs 0) k).val ≤ 1 := by
      have := mul_le_mul (hb.init k).2 (hb.obs (obs 0) k).2 (hp.obs_nonneg _ k) zero_le_one
      linarith
    have := reg_mul A (hp.init_finite k) (hp.obs_finite (obs 0) k) (hp.init_nonneg k) (hp.obs_nonneg _ k) lo hi
      (by nlinarith) (by linarith)
    exact ⟨this.1, by have := this.2.1; show _ ≤ (h.initProbs k * h.obsProb (obs 0) k).val; linarith [sq_nonneg δ],
      by have := this.2.2; show (h.initProbs k * h.obsProb (obs 0) k).val ≤ _; linarith⟩
  have ni := reg_normalize A (hS 0 none) hK (w := h.initWeights obs) (lo := δ ^ 2 / 16) (hi := 16) (by positivity)
    (fun j => (wi j).1.1) (fun j => (wi j).2.1) (fun j => (wi j).2.2) (by linarith) (by linarith) (by nlinarith)
  have rows : ∀ t ≤ n, ForwardRow δ K (fIter h obs S (n + 1) t).1 := by
    intro t
    induction t with
    | zero => intro _; exact forwardRow_of A ni.2
    | succ t ih =>
      intro ht
      rw [fIter_succ (by omega)]
      exact (forward_step_regular A hp hS δ0 hb hK htop hcl hη (ih (by omega)) (t + 1)).2.2
  refine ⟨⟨fun k => (wi k).1, ni.1, fun t ht => ?_, fun t ht => ?_⟩, fun t ht => ?_⟩
  · rw [rowAt_forward (by omega)]
    exact (forward_step_regular A hp hS δ0 hb hK htop hcl hη (rows t (by omega)) (t + 1)).1
  · rw [rowAt_forward (by omega)]
    exact (forward_step_regular A hp hS δ0 hb hK htop hcl hη (rows t (by omega)) (t + 1)).2.1
  · rw [rowAt_forward (by omega)]; exact rows t ht

end

end Distrax
