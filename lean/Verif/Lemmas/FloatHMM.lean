import Verif.Spec.FloatHMM
import Verif.Props.FloatAcc3
import Verif.Lemmas.HMM

/-! Helper lemmas for C76. -/

namespace Distrax

open FX
open XR (fin pinf ninf nan leB ltB fin_mul fin_add)

/-! ### Relative closeness -/

section close

variable {ρ : ℝ} {k l : ℕ} {x y z w : ℝ}

theorem Close.refl (ρ : ℝ) (x : ℝ) : Close ρ 0 x x := by simp [Close]

theorem Close.mono (h1 : 1 ≤ ρ) (hx : 0 ≤ x) (hy : 0 ≤ y) (h : Close ρ k x y) (hk : k ≤ l) : Close ρ l x y := by
  have := pow_le_pow_right₀ h1 hk
  exact ⟨h.1.trans (mul_le_mul_of_nonneg_right this hy), h.2.trans (mul_le_mul_of_nonneg_right this hx)⟩

theorem Close.symm (h : Close ρ k x y) : Close ρ k y x := ⟨h.2, h.1⟩

theorem Close.trans (h1 : 1 ≤ ρ) (h : Close ρ k x y) (h' : Close ρ l y z) : Close ρ (k + l) x z := by
  have p : 0 ≤ ρ ^ k := by positivity
  have q : 0 ≤ ρ ^ l := by positivity
  constructor
  · rw [pow_add, mul_assoc]; exact h.1.trans (mul_le_mul_of_nonneg_left h'.1 p)
  · rw [pow_add, mul_comm (ρ ^ k), mul_assoc]; exact h'.2.trans (mul_le_mul_of_nonneg_left h.2 q)

theorem Close.mul (h1 : 1 ≤ ρ) (hx : 0 ≤ x) (hy : 0 ≤ y) (hz : 0 ≤ z) (hw : 0 ≤ w) (h : Close ρ k x y) (h' : Close ρ l z w) :
    Close ρ (k + l) (x * z) (y * w) := by
  have p : 0 ≤ ρ ^ k := by positivity
  constructor
  · rw [pow_add, mul_mul_mul_comm]; exact mul_le_mul h.1 h'.1 hz (by positivity)
  · rw [pow_add, mul_mul_mul_comm]; exact mul_le_mul h.2 h'.2 hw (by positivity)

theorem Close.mulLeft (hz : 0 ≤ z) (h : Close ρ k x y) : Close ρ k (z * x) (z * y) := by
  constructor
  · rw [mul_left_comm]; exact mul_le_mul_of_nonneg_left h.1 hz
  · rw [mul_left_comm]; exact mul_le_mul_of_nonneg_left h.2 hz

theorem Close.mulRight (hz : 0 ≤ z) (h : Close ρ k x y) : Close ρ k (x * z) (y * z) := by
  rw [mul_comm x, mul_comm y]; exact h.mulLeft hz

theorem Close.sum {ι : Type} (s : Finset ι) {f g : ι → ℝ} (h : ∀ i, Close ρ k (f i) (g i)) : Close ρ k (∑ i ∈ s, f i) (∑ i ∈ s, g i) := by
  constructor
  · rw [Finset.mul_sum]; exact Finset.sum_le_sum fun i _ => (h i).1
  · rw [Finset.mul_sum]; exact Finset.sum_le_sum fun i _ => (h i).2

theorem Close.pos (h1 : 1 ≤ ρ) (h : Close ρ k x y) (hy : 0 < y) : 0 < x := by
  have p : 0 < ρ ^ k := by positivity
  by_contra hc
  have := mul_nonpos_of_nonneg_of_nonpos p.le (not_lt.1 hc)
  linarith [h.2]

theorem Close.div (h1 : 1 ≤ ρ) (hx : 0 ≤ x) (hy : 0 ≤ y) (hz : 0 < z) (hw : 0 < w) (h : Close ρ k x y) (h' : Close ρ l z w) :
    Close ρ (k + l) (x / z) (y / w) := by
  have p : 0 < ρ ^ k := by positivity
  have q : 0 < ρ ^ l := by positivity
  constructor
  · rw [div_le_iff₀ hz]
    calc x ≤ ρ ^ k * y := h.1
      _ = ρ ^ k * y / w * w := by field_simp
      _ ≤ ρ ^ k * y / w * (ρ ^ l * z) := mul_le_mul_of_nonneg_left h'.2 (by positivity)
      _ = _ := by rw [pow_add]; ring
  · rw [div_le_iff₀ hw]
    calc y ≤ ρ ^ k * x := h.2
      _ = ρ ^ k * x / z * z := by field_simp
      _ ≤ ρ ^ k * x / z * (ρ ^ l * w) := mul_le_mul_of_nonneg_left h'.1 (by positivity)
      _ = _ := by rw [pow_add]; ring

theorem Close.log (h1 : 1 ≤ ρ) (hx : 0 < x) (hy : 0 < y) (h : Close ρ k x y) : |Real.log x - Real.log y| ≤ k * Real.log ρ := by
  have r0 : 0 < ρ := by linarith
  have p : 0 < ρ ^ k := by positivity
  have a := Real.log_le_log hx h.1
  have b := Real.log_le_log hy h.2
  rw [Real.log_mul p.ne' hy.ne', Real.log_pow] at a
  rw [Real.log_mul p.ne' hx.ne', Real.log_pow] at b
  rw [abs_le]; constructor <;> linarith

end close

/-! ### Operations -/

variable {F : Fmt} {u η : ℝ}

section
variable (A : F.Acc u η)
include A

theorem perturb_one_le : 1 ≤ perturb u := by
  have u0 := A.u0
  have u1 := A.u_le
  unfold perturb
  rw [le_div_iff₀ (by linarith)]; linarith

/-- One rounding without underflow. -/
theorem close_round {a : FX F} {x : ℝ} (e : a.1 = F.rd x) (hr : Regular u η a x) (hx : 0 ≤ x) :
    Close (perturb u) 1 a.val x ∧ 0 ≤ a.val := by
  have u0 := A.u0
  have u1 := A.u_le
  have hv := fin_val hr.1
  rw [hv] at e
  have d := A.err e.symm
  rw [abs_of_nonneg hx] at d
  have d2 : |a.val - x| ≤ 2 * u * x := by
    rcases hr.2 with h0 | h0
    · subst h0
      have : F.rd 0 = fin 0 := by exact_mod_cast F.small 0 (by norm_num)
      rw [this] at e
      have : a.val = 0 := by injection e
      simp [this]
    · linarith
  have hd := abs_le.1 d2
  have hρ : 0 < 1 - 2 * u := by linarith
  unfold Close perturb
  rw [pow_one]
  refine ⟨⟨?_, ?_⟩, ?_⟩
  · rw [div_mul_eq_mul_div, le_div_iff₀ hρ]
    nlinarith [mul_nonneg u0 hx, mul_nonneg u0 (mul_nonneg u0 hx)]
  · rw [div_mul_eq_mul_div, le_div_iff₀ hρ]; linarith
  · nlinarith [mul_nonneg u0 hx]

theorem close_mul {a b : FX F} (ha : 0 ≤ a.val) (hb : 0 ≤ b.val) (hr : Regular u η (a * b) (a.val * b.val)) :
    Close (perturb u) 1 (a * b).val (a.val * b.val) ∧ 0 ≤ (a * b).val := by
  obtain ⟨fa, fb⟩ := mul_fin hr.1
  refine close_round A ?_ hr (mul_nonneg ha hb)
  rw [mul_val, fin_val fa, fin_val fb, fin_mul]; rfl

theorem close_sums {xs : List (FX F)} {s : FX F} (h : SumsTo xs s) (hf : s.finite) (h0 : ∀ x ∈ xs, 0 ≤ x.val) :
    Close (perturb u) (xs.length - 1) s.val (xs.map FX.val).sum ∧ 0 ≤ s.val := by
  have u0 := A.u0
  have u1 := A.u_le
  have p1 := perturb_one_le A
  have hρ : 0 < 1 - 2 * u := by linarith
  induction h with
  | one a => simpa [Close] using h0
  | @add xs ys a b ha hb iha ihb =>
    have fa := (add_fin hf).1
    have fb := (add_fin hf).2
    obtain ⟨ia, pa⟩ := iha fa fun x hx => h0 x (List.mem_append_left _ hx)
    obtain ⟨ib, pb⟩ := ihb fb fun x hx => h0 x (List.mem_append_right _ hx)
    have la := sums_length ha
    have lb := sums_length hb
    have key : |(a + b).val - (a.val + b.val)| ≤ u * |a.val + b.val| :=
      A.addErr (rep (fin_val fa)) (rep (fin_val fb)) (by
        rw [← fin_val hf, add_val, fin_val fa, fin_val fb, fin_add]; rfl)
    have pab : 0 ≤ a.val + b.val := by linarith
    rw [abs_of_nonneg pab] at key
    have hd := abs_le.1 key
    have c1 : Close (perturb u) 1 (a + b).val (a.val + b.val) := by
      unfold Close perturb
      rw [pow_one]
      constructor
      · rw [div_mul_eq_mul_div, le_div_iff₀ hρ]
        nlinarith [mul_nonneg u0 pab, mul_nonneg u0 (mul_nonneg u0 pab)]
      · rw [div_mul_eq_mul_div, le_div_iff₀ hρ]; nlinarith [mul_nonneg u0 pab, mul_nonneg u0 (mul_nonneg u0 pab)]
    have nn : ∀ l : List (FX F), (∀ x ∈ l, 0 ≤ x.val) → 0 ≤ (l.map FX.val).sum := fun l hl =>
      List.sum_nonneg fun y hy => by obtain ⟨x, hx, rfl⟩ := List.mem_map.1 hy; exact hl x hx
    have nx := nn xs fun x hx => h0 x (List.mem_append_left _ hx)
    have ny := nn ys fun x hx => h0 x (List.mem_append_right _ hx)
    rw [List.map_append, List.sum_append, List.length_append]
    have ma := ia.mono p1 pa nx (l := xs.length + ys.length - 2) (by omega)
    have mb := ib.mono p1 pb ny (l := xs.length + ys.length - 2) (by omega)
    have cs : Close (perturb u) (xs.length + ys.length - 2) (a.val + b.val) ((xs.map FX.val).sum + (ys.map FX.val).sum) := by
      constructor
      · rw [mul_add]; exact add_le_add ma.1 mb.1
      · rw [mul_add]; exact add_le_add ma.2 mb.2
    refine ⟨?_, by nlinarith⟩
    have := c1.trans p1 cs
    rwa [show 1 + (xs.length + ys.length - 2) = xs.length + ys.length - 1 by omega] at this
  | perm p _ ih =>
    have := ih hf fun x hx => h0 x (p.mem_iff.1 hx)
    rwa [(p.map FX.val).sum_eq, p.length_eq] at this

theorem close_isSum {K : ℕ} {s : (Fin K → FX F) → FX F} (hs : IsSum s) (v : Fin K → FX F) (hf : (s v).finite) (h0 : ∀ k, 0 ≤ (v k).val) :
    Close (perturb u) (K - 1) (s v).val (∑ k, (v k).val) ∧ 0 ≤ (s v).val := by
  have := close_sums A (hs v) hf (by intro x hx; obtain ⟨k, rfl⟩ := (List.mem_ofFn' _ _).1 hx; exact h0 k)
  rwa [List.length_ofFn, List.map_ofFn, List.sum_ofFn] at this

/-- A sum of nonnegative floats is at least each of them. -/
theorem sums_ge {xs : List (FX F)} {s : FX F} (h : SumsTo xs s) (hf : s.finite) (h0 : ∀ x ∈ xs, 0 ≤ x.val) :
    ∀ x ∈ xs, x.val ≤ s.val := by
  induction h with
  | one a => intro x hx; rw [List.mem_singleton.1 hx]
  | @add xs ys a b ha hb iha ihb =>
    have fa := (add_fin hf).1
    have fb := (add_fin hf).2
    have ga := iha fa fun x hx => h0 x (List.mem_append_left _ hx)
    have gb := ihb fb fun x hx => h0 x (List.mem_append_right _ hx)
    have pa := (close_sums A ha fa fun x hx => h0 x (List.mem_append_left _ hx)).2
    have pb := (close_sums A hb fb fun x hx => h0 x (List.mem_append_right _ hx)).2
    have e : F.rd (a.val + b.val) = fin (a + b).val := by
      rw [← fin_val hf, add_val, fin_val fa, fin_val fb, fin_add]; rfl
    have l1 : a.val ≤ (a + b).val := by
      have := F.mono (show a.val ≤ a.val + b.val by linarith)
      rw [e, rep (fin_val fa)] at this; exact XR.leB_fin.1 this
    have l2 : b.val ≤ (a + b).val := by
      have := F.mono (show b.val ≤ a.val + b.val by linarith)
      rw [e, rep (fin_val fb)] at this; exact XR.leB_fin.1 this
    intro x hx
    rcases List.mem_append.1 hx with g | g
    · exact (ga x g).trans l1
    · exact (gb x g).trans l2
  | perm p _ ih => intro x hx; exact ih hf (fun x hx => h0 x (p.mem_iff.1 hx)) x (p.mem_iff.2 hx)

omit A in
theorem eq_lit_zero {a : FX F} (hf : a.finite) (h : a.val = 0) : a = lit 0 := by
  apply Subtype.ext; rw [lit_zero, fin_val hf, h]

omit A in
theorem lit_eps_finite : (lit 1e-15 : FX F).finite := by
  obtain ⟨y, hy⟩ := F.fits (x := 1e-15) (by
    have := F.top_ge; rw [abs_of_pos (by norm_num)]; norm_num at *; linarith)
  exact ⟨y, hy⟩

open FHMM in
/-- `_normalize` without overflow, underflow or clamping, of weights that are not all zero. -/
theorem close_normalize {K : ℕ} {s : (Fin K → FX F) → FX F} (hs : IsSum s) {w : Fin K → FX F} (h0 : ∀ k, 0 ≤ (w k).val)
    (hr : NormalizeRegular u η s w) (hp : 0 < ∑ k, (w k).val) :
    (normalize s w).2 = s w ∧ 0 < (s w).val ∧ Close (perturb u) (K - 1) (s w).val (∑ k, (w k).val) ∧
      ∀ k, ((normalize s w).1 k).finite ∧ 0 ≤ ((normalize s w).1 k).val ∧
        Close (perturb u) 1 (((normalize s w).1 k).val * (s w).val) (w k).val := by
  have mem : ∀ k, w k ∈ List.ofFn w := fun k => (List.mem_ofFn' _ _).2 ⟨k, rfl⟩
  have hl : ∀ x ∈ List.ofFn w, 0 ≤ x.val := by
    intro x hx; obtain ⟨k, rfl⟩ := (List.mem_ofFn' _ _).1 hx; exact h0 k
  have hf : ∀ k, (w k).finite := fun k => sums_finite (hs w) hr.sum_finite _ (mem k)
  have hge : ∀ k, (w k).val ≤ (s w).val := fun k => sums_ge A (hs w) hr.sum_finite hl _ (mem k)
  have e1 : (fun k => whr (w k = lit 0) (lit 0) (whr (w k < lit 1e-15) (lit 1e-15) (w k))) = w := by
    funext k
    unfold whr
    by_cases z : w k = lit 0
    · rw [if_pos z, z]
    · rw [if_neg z, if_neg]
      intro hlt
      have hlt : ltB (w k).1 (lit 1e-15 : FX F).1 := hlt
      rw [fin_val (hf k), fin_val lit_eps_finite] at hlt
      have hlt : (w k).val < (lit 1e-15 : FX F).val := hlt
      rcases hr.noClamp k with g | g
      · exact z (eq_lit_zero (hf k) g)
      · linarith
  obtain ⟨cc, -⟩ := close_isSum A hs w hr.sum_finite h0
  have cp := cc.pos (perturb_one_le A) hp
  have ne : s w ≠ lit 0 := by
    intro e
    rw [e, val_of lit_zero] at cp; exact lt_irrefl _ cp
  have e2 : normalize s w = (fun k => w k / s w, s w) := by
    have e3 : whr (s w = lit 0) (lit 1) (s w) = s w := by unfold whr; rw [if_neg ne]
    have e4 : FHMM.normalize s w = (fun k => (fun k => whr (w k = lit 0) (lit 0) (whr (w k < lit 1e-15) (lit 1e-15) (w k))) k /
        whr (s (fun k => whr (w k = lit 0) (lit 0) (whr (w k < lit 1e-15) (lit 1e-15) (w k))) = lit 0) (lit 1)
          (s fun k => whr (w k = lit 0) (lit 0) (whr (w k < lit 1e-15) (lit 1e-15) (w k))),
        whr (s (fun k => whr (w k = lit 0) (lit 0) (whr (w k < lit 1e-15) (lit 1e-15) (w k))) = lit 0) (lit 1)
          (s fun k => whr (w k = lit 0) (lit 0) (whr (w k < lit 1e-15) (lit 1e-15) (w k)))) := rfl
    rw [e4, e1, e3]
  rw [e2]
  refine ⟨rfl, cp, cc, fun k => ?_⟩
  have hd : (w k / s w).1 = F.rd ((w k).val / (s w).val) := by
    rw [div_val, fin_val (hf k), fin_val hr.sum_finite, XR.div_fin cp.ne']; rfl
  have q0 : 0 ≤ (w k).val / (s w).val := div_nonneg (h0 k) cp.le
  have q1 : (w k).val / (s w).val ≤ 1 := (div_le_one cp).2 (hge k)
  have hfin : (w k / s w).finite := by
    obtain ⟨y, hy⟩ := F.fits (x := (w k).val / (s w).val) (by have := F.top_ge; rw [abs_of_nonneg q0]; linarith)
    exact ⟨y, hd.trans hy⟩
  obtain ⟨c1, n1⟩ := close_round A hd ⟨hfin, hr.quotient k⟩ q0
  refine ⟨hfin, n1, ?_⟩
  have := c1.mulRight cp.le
  rwa [div_mul_cancel₀ _ cp.ne'] at this

end

namespace FHMM

variable {K : ℕ} {O : Type} {h : FHMM F K O} {obs : ℕ → O} {S : ℕ → Option (Fin K) → (Fin K → FX F) → FX F}

/-! ### The path sums of a model with nonnegative parameters -/

theorem exact_marginal_nonneg (hp : h.Proper) (n : ℕ) (t : Fin (n + 1)) (k : Fin K) : 0 ≤ h.exact.marginal obs n t k :=
  Finset.sum_nonneg fun z _ => by
    split_ifs
    · exact mul_nonneg (mul_nonneg (hp.init_nonneg _) (Finset.prod_nonneg fun _ _ => hp.trans_nonneg _ _))
        (Finset.prod_nonneg fun _ _ => hp.obs_nonneg _ _)
    · exact le_rfl

theorem exact_future_nonneg (hp : h.Proper) (t m : ℕ) (k : Fin K) : 0 ≤ h.exact.future obs t m k :=
  Finset.sum_nonneg fun _ _ => Finset.prod_nonneg fun _ _ => mul_nonneg (hp.trans_nonneg _ _) (hp.obs_nonneg _ _)

theorem exact_evidence_nonneg (hp : h.Proper) (n : ℕ) : 0 ≤ h.exact.evidence obs n := by
  rw [← h.exact.sum_marginal obs n (Fin.last n)]
  exact Finset.sum_nonneg fun k _ => exact_marginal_nonneg hp n _ k

theorem exact_evidence_pos (hp : h.Proper) {t n : ℕ} (htn : t ≤ n) (hpos : 0 < h.exact.evidence obs n) : 0 < h.exact.evidence obs t := by
  obtain ⟨m, rfl⟩ := Nat.exists_eq_add_of_le htn
  rcases (exact_evidence_nonneg (obs := obs) hp t).eq_or_lt with e | e
  · exfalso
    rw [HMM.evidence_split] at hpos
    have z : ∀ k, h.exact.marginal obs t (Fin.last t) k = 0 := fun k => by
      rw [← h.exact.sum_marginal obs t (Fin.last t)] at e
      exact (Finset.sum_eq_zero_iff_of_nonneg fun k _ => exact_marginal_nonneg hp t _ k).1 e.symm k (Finset.mem_univ k)
    simp [z] at hpos
  · exact e

/-! ### The forward pass -/

/-- The first carry. -/
noncomputable def fInit (h : FHMM F K O) (obs : ℕ → O) (S : ℕ → Option (Fin K) → (Fin K → FX F) → FX F) : (Fin K → FX F) × FX F :=
  let r := normalize (S 0 none) (h.initWeights obs)
  (r.1, FX.log r.2)

/-- The carry after step `t`. -/
noncomputable def fIter (h : FHMM F K O) (obs : ℕ → O) (S : ℕ → Option (Fin K) → (Fin K → FX F) → FX F) (length t : ℕ) :
    (Fin K → FX F) × FX F :=
  HMM.iter (forwardStep h obs S length) (fInit h obs S) 1 t

theorem forward_eq (n length : ℕ) :
    h.forward obs S (n + 1) length =
      ((fIter h obs S length n).2, (List.range (n + 1)).map fun t => (fIter h obs S length t).1) := by
  unfold forward
  simp only [Nat.add_sub_cancel]
  rw [show ((normalize (S 0 none) (h.initWeights obs)).1, FX.log (normalize (S 0 none) (h.initWeights obs)).2) = fInit h obs S from rfl]
  rw [HMM.scan_range', List.range_succ_eq_map]
  simp only [List.map_cons, List.map_map, Prod.mk.injEq, List.cons.injEq]
  refine ⟨rfl, rfl, List.map_congr_left fun t _ => ?_⟩
  simp [fIter, HMM.iter, forwardStep]

theorem rowAt_forward {n t length : ℕ} (ht : t ≤ n) :
    rowAt (h.forward obs S (n + 1) length).2 t = (fIter h obs S length t).1 := by
  unfold rowAt
  rw [forward_eq]
  simp [List.getD_eq_getElem?_getD, List.getElem?_map, List.getElem?_range (show t < n + 1 by omega)]

theorem fIter_succ {length t : ℕ} (ht : t + 1 < length) :
    fIter h obs S length (t + 1) =
      ((normalize (S (t + 1) none) (h.weights obs S (t + 1) (fIter h obs S length t).1)).1,
        FX.log (normalize (S (t + 1) none) (h.weights obs S (t + 1) (fIter h obs S length t).1)).2 + (fIter h obs S length t).2) := by
  show (forwardStep h obs S length (fIter h obs S length t) (1 + t)).1 = _
  rw [Nat.add_comm 1 t]
  simp only [forwardStep, if_pos ht]

end FHMM

end Distrax
