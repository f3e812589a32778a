import Verif.Lemmas.FloatSpline5
import Mathlib.Tactic

/-!
Lemmas for C79: the constructed bins in floating point.
-/

namespace Distrax.FSpline

open XR FX

variable {F : Fmt} {u η : ℝ}

theorem pow_le (u0 : 0 ≤ u) {K n : ℕ} (hn : n ≤ K) (hK : 64 * (K * u) ≤ 1) : (1 + u) ^ n ≤ 1 + 2 * (K * u) := by
  have h0 : 0 ≤ (K : ℝ) * u := by positivity
  have h1 : (1 + u) ^ n ≤ Real.exp (K * u) := by
    calc (1 + u) ^ n ≤ (1 + u) ^ K := pow_le_pow_right₀ (by linarith) hn
      _ ≤ (Real.exp u) ^ K := pow_le_pow_left₀ (by linarith) (by have := Real.add_one_le_exp u; linarith) _
      _ = Real.exp (K * u) := by rw [← Real.exp_nat_mul]
  have h2 := Real.abs_exp_sub_one_sub_id_le (x := K * u) (by rw [abs_of_nonneg h0]; linarith)
  have h3 := (abs_le.1 h2).2
  nlinarith

theorem range_sum (K : ℕ) (g : ℕ → ℝ) : ((List.range K).map g).sum = ∑ i ∈ Finset.range K, g i := by
  induction K with
  | zero => simp
  | succ n ih => rw [List.range_succ, List.map_append, List.sum_append, ih, Finset.sum_range_succ]; simp

theorem maxOf_spec {K : ℕ} (hK : 1 ≤ K) {w : ℕ → FX F} (hw : ∀ i < K, (w i).finite) :
    (∃ k < K, maxOf K w = w k) ∧ ∀ i < K, w i ≤ maxOf K w := by
  have key : ∀ n, n + 1 ≤ K → (∃ k < n + 1, (List.range n).foldl (fun m j => FX.max m (w (j + 1))) (w 0) = w k) ∧
      ∀ i < n + 1, w i ≤ (List.range n).foldl (fun m j => FX.max m (w (j + 1))) (w 0) := by
    intro n
    induction n with
    | zero => intro _; exact ⟨⟨0, by simp, rfl⟩, fun i hi => by
        obtain rfl : i = 0 := by omega
        exact rfl' (hw 0 (by omega)).num⟩
    | succ n ih =>
      intro hn
      obtain ⟨⟨k, hk, e⟩, l⟩ := ih (by omega)
      simp only [List.range_succ, List.foldl_append, List.foldl_cons, List.foldl_nil]
      rw [e] at l ⊢
      rcases max_val (hw k (by omega)).num (hw (n + 1) (by omega)).num with ⟨e', l'⟩ | ⟨e', l'⟩
      · rw [e']
        refine ⟨⟨n + 1, by omega, rfl⟩, fun i hi => ?_⟩
        rcases Nat.lt_or_ge i (n + 1) with h | h
        · exact (l i h).tr l'
        · obtain rfl : i = n + 1 := by omega
          exact rfl' (hw _ (by omega)).num
      · rw [e']
        refine ⟨⟨k, by omega, rfl⟩, fun i hi => ?_⟩
        rcases Nat.lt_or_ge i (n + 1) with h | h
        · exact l i h
        · obtain rfl : i = n + 1 := by omega
          exact l'
  have := key (K - 1) (by omega)
  rw [Nat.sub_add_cancel hK] at this
  exact this

/-- The exponentials inside a softmax. -/
theorem expo_spec {K : ℕ} (hK : 1 ≤ K) {w : ℕ → FX F} (hw : ∀ i < K, (w i).finite) :
    (∀ i < K, ∃ e, (FX.exp (w i - maxOf K w)).1 = fin e ∧ 0 ≤ e ∧ e ≤ 1) ∧ ∃ k < K, (FX.exp (w k - maxOf K w)).1 = fin 1 := by
  obtain ⟨⟨k, hk, e⟩, l⟩ := maxOf_spec hK hw
  constructor
  · intro i hi
    have n : (w i - maxOf K w).Num := sub_num_fin (hw i hi) (by rw [e]; exact (hw k hk).num)
    have n0 := sub_nonpos (l i hi) n
    have h1 := exp_le_one n0
    have h0 := exp_nonneg n
    obtain ⟨y, hy⟩ : ∃ y, (FX.exp (w i - maxOf K w)).1 = fin y := by
      rw [le_def, lit_zero] at h0
      rw [le_def, lit_one] at h1
      cases e' : (FX.exp (w i - maxOf K w)).1 with
      | fin y => exact ⟨y, rfl⟩
      | _ => rw [e'] at h0 h1; simp [leB, ltB, eqB] at h0 h1
    exact ⟨y, hy, by rw [le_def, hy, lit_zero, leB_fin] at h0; exact h0, by rw [le_def, hy, lit_one, leB_fin] at h1; exact h1⟩
  · exact ⟨k, hk, by rw [e, sub_self' (hw k hk), FX.exp_zero, lit_one]⟩

section
variable (A : F.Acc u η)
include A

/-- The entries of a softmax are nonnegative and add up to at most `1 + 5 * K * u`. -/
theorem softmax_spec {sum : List (FX F) → FX F} (hs : AddsUp sum) {K : ℕ} (hK : 1 ≤ K) (hu : 64 * (K * u) ≤ 1) (ht : 2 * (K : ℝ) ≤ F.top)
    {w : ℕ → FX F} (hw : ∀ i < K, (w i).finite) :
    ∃ p : ℕ → ℝ, (∀ i < K, (softmax sum K w i).1 = fin (p i) ∧ 0 ≤ p i) ∧ ∑ i ∈ Finset.range K, p i ≤ 1 + 5 * (K * u) := by
  obtain ⟨he, k, hk, ek⟩ := expo_spec hK hw
  have u0 := A.u0
  have K1 : (1 : ℝ) ≤ K := by exact_mod_cast hK
  have uk : u ≤ K * u := by nlinarith
  set f : ℕ → FX F := fun j => FX.exp (w j - maxOf K w) with hf
  have hfv : ∀ i < K, (f i).1 = fin (f i).val ∧ 0 ≤ (f i).val ∧ (f i).val ≤ 1 := fun i hi => by
    obtain ⟨e, h1, h2, h3⟩ := he i hi
    rw [val_of h1]; exact ⟨h1, h2, h3⟩
  set E := ∑ i ∈ Finset.range K, (f i).val with hE
  have E1 : 1 ≤ E := by
    have := Finset.single_le_sum (f := fun i => (f i).val) (s := Finset.range K) (fun i hi => (hfv i (Finset.mem_range.1 hi)).2.1) (Finset.mem_range.2 hk)
    rwa [val_of ek] at this
  have EK : E ≤ K := by
    calc E ≤ ∑ i ∈ Finset.range K, (1 : ℝ) := Finset.sum_le_sum fun i hi => (hfv i (Finset.mem_range.1 hi)).2.2
      _ = K := by simp
  have s1 : (((List.range K).map f).map FX.val).sum = E := by rw [List.map_map, hE, ← range_sum]; rfl
  have s2 : (((List.range K).map f).map fun x => |x.val|).sum = E := by
    rw [← s1, List.map_map, List.map_map]
    congr 1
    refine List.map_congr_left fun i hi => ?_
    exact abs_of_nonneg (hfv i (List.mem_range.1 hi)).2.1
  have hsum := hs ((List.range K).map f) (by simp; omega)
  have pw := pow_le u0 (K := K) (n := ((List.range K).map f).length - 1) (by simp) hu
  have pw1 : 1 ≤ (1 + u) ^ (((List.range K).map f).length - 1) := one_le_pow₀ (by linarith)
  have hfin : (sum ((List.range K).map f)).finite := C63_sum_finite A hsum (by
      intro x hx; obtain ⟨i, hi, rfl⟩ := List.mem_map.1 hx; exact ⟨_, (hfv i (List.mem_range.1 hi)).1⟩) (by
      rw [s2]
      calc _ ≤ (1 + 2 * (K * u)) * E := mul_le_mul_of_nonneg_right pw (by linarith)
        _ ≤ 2 * K := by nlinarith
        _ ≤ F.top := ht)
  obtain ⟨S, hS, bS⟩ := C63_sum A hsum hfin
  rw [s1, s2] at bS
  have S0 : E * (1 - 2 * (K * u)) ≤ S := by
    have := (abs_le.1 bS).1
    have h2 : ((1 + u) ^ (((List.range K).map f).length - 1) - 1) * E ≤ 2 * (K * u) * E := mul_le_mul_of_nonneg_right (by linarith) (by linarith)
    linarith
  have Sp : 0 < S := lt_of_lt_of_le (mul_pos (by linarith) (by linarith)) S0
  have S12 : 1 / 2 ≤ S := by nlinarith
  have tg := F.top_ge
  have hp : ∀ i < K, ∃ z, (softmax sum K w i).1 = fin z ∧ 0 ≤ z ∧ z ≤ (f i).val / S * (1 + u) + η := fun i hi => by
    obtain ⟨h1, h2, h3⟩ := hfv i hi
    have q0 : 0 ≤ (f i).val / S := div_nonneg h2 Sp.le
    have q2 : (f i).val / S ≤ 2 := by rw [div_le_iff₀ Sp]; linarith
    obtain ⟨z, hz, bz, rz⟩ := op_div A h1 hS Sp.ne' (by rw [abs_of_nonneg q0]; linarith)
    rw [abs_of_nonneg q0] at bz
    exact ⟨z, hz, le_rd rz F.rd_zero q0, by have := (abs_le.1 bz).2; linarith⟩
  choose! p hp using hp
  refine ⟨p, fun i hi => ⟨(hp i hi).1, (hp i hi).2.1⟩, ?_⟩
  have η1 := A.η_le
  have ul := A.u_le
  calc ∑ i ∈ Finset.range K, p i ≤ ∑ i ∈ Finset.range K, ((f i).val / S * (1 + u) + η) :=
        Finset.sum_le_sum fun i hi => (hp i (Finset.mem_range.1 hi)).2.2
    _ = E / S * (1 + u) + K * η := by rw [Finset.sum_add_distrib, ← Finset.sum_mul, ← Finset.sum_div, hE]; simp
    _ ≤ 1 + 5 * (K * u) := by
      have h1 : E / S ≤ 1 + 2 * (K * u) + 5 * (K * u) ^ 2 := by
        rw [div_le_iff₀ Sp]
        have k0 : 0 ≤ K * u := by positivity
        have : 1 ≤ (1 + 2 * (K * u) + 5 * (K * u) ^ 2) * (1 - 2 * (K * u)) := by
          generalize (K : ℝ) * u = κ at *
          nlinarith [mul_nonneg (sq_nonneg κ) k0]
        have h3 := mul_le_mul_of_nonneg_left S0 (show 0 ≤ 1 + 2 * (K * u) + 5 * (K * u) ^ 2 by positivity)
        nlinarith
      have h2 : (K : ℝ) * η ≤ K * u / 256 := by
        have : η ≤ u / 256 := by nlinarith
        calc (K : ℝ) * η ≤ K * (u / 256) := mul_le_mul_of_nonneg_left this (by linarith)
          _ = _ := by ring
      have h4 := mul_le_mul_of_nonneg_right h1 (show 0 ≤ 1 + u by linarith)
      have k0 : 0 ≤ (K : ℝ) * u := by positivity
      generalize (K : ℝ) * u = κ at *
      nlinarith [mul_nonneg k0 u0, mul_nonneg (sq_nonneg κ) u0]

omit A in
theorem final_ineq {κ : ℝ} (u0 : 0 ≤ u) (ul : u ≤ 1 / 256) (k0 : 0 ≤ κ) (k2 : κ ≤ 1 / 64) (uk : u ≤ κ) :
    (1 + 3 * u + 7 * κ * (1 + 3 * u) + u) * (1 + u) ≤ 1 + 16 * κ := by
  have m1 : κ * u ≤ κ / 256 := by nlinarith
  have m2 : u * u ≤ u / 256 := by nlinarith
  have m3 : κ * u * u ≤ κ / 256 := by nlinarith
  nlinarith

set_option maxHeartbeats 1000000 in
/-- The bins: at least the rounded `min_bin_size`, adding up to at most `(rmax - rmin) * (1 + 16 * K * u)`. -/
theorem sizes_spec {sum : List (FX F) → FX F} (hs : AddsUp sum) {K : ℕ} (hK : 1 ≤ K) (hu : 64 * (K * u) ≤ 1) (ht : 2 * (K : ℝ) ≤ F.top)
    {w : ℕ → FX F} (hw : ∀ i < K, (w i).finite) {total mb : ℝ} (hm : u ≤ mb) (hm' : 0 < mb) (hT : 4 * total ≤ F.top) {sz : ℕ → FX F}
    (h : normalizeBinSizes sum K w total mb = .ok sz) :
    ∃ b, (lit mb : FX F).1 = fin b ∧ |b - mb| ≤ 2 * u * mb ∧
    ∃ s : ℕ → ℝ, (∀ i < K, (sz i).1 = fin (s i) ∧ b ≤ s i) ∧ ∑ i ∈ Finset.range K, s i ≤ total * (1 + 16 * (K * u)) := by
  unfold normalizeBinSizes at h
  split_ifs at h with hc
  obtain rfl : (fun i => softmax sum K w i * lit (total - K * mb) + lit mb) = sz := by injection h
  obtain ⟨p, hp, ps⟩ := softmax_spec A hs hK hu ht hw
  have u0 := A.u0
  have ul := A.u_le
  have η0 := A.η0
  have η1 := A.η_le
  have K1 : (1 : ℝ) ≤ K := by exact_mod_cast hK
  have uk : u ≤ K * u := by nlinarith
  have k0 : 0 ≤ (K : ℝ) * u := by positivity
  have hc' : K * mb ≤ total := not_lt.1 hc
  have ηm : η ≤ u * mb := η1.trans (mul_le_mul_of_nonneg_left hm u0)
  have mK : mb ≤ K * mb := by nlinarith
  have tg := F.top_ge
  obtain ⟨b, hb⟩ := F.fits (x := mb) (by rw [abs_of_pos hm']; linarith)
  have eb := A.err hb
  rw [abs_of_pos hm'] at eb
  have eb' : |b - mb| ≤ 2 * u * mb := by linarith
  obtain ⟨t, htt⟩ := F.fits (x := total - K * mb) (by rw [abs_of_nonneg (by linarith)]; linarith)
  have et := A.err htt
  rw [abs_of_nonneg (show 0 ≤ total - K * mb by linarith)] at et
  have b1 := (abs_le.1 eb').2
  have b0 : 0 ≤ b := le_rd hb F.rd_zero hm'.le
  have t1 := (abs_le.1 et).2
  have t0 : 0 ≤ t := le_rd htt F.rd_zero (by linarith)
  have T0 : 0 ≤ total := by linarith
  have p2 : ∀ i < K, p i ≤ 1 + 5 * (K * u) := fun i hi =>
    (Finset.single_le_sum (f := p) (s := Finset.range K) (fun j hj => (hp j (Finset.mem_range.1 hj)).2) (Finset.mem_range.2 hi)).trans ps
  have umb : u * mb ≤ mb / 256 := by nlinarith
  have uT : u * (total - K * mb) ≤ (total - K * mb) / 256 := by nlinarith
  have t2 : t ≤ total * (1 + 1 / 128) - K * mb := by nlinarith
  have key : ∀ i < K, ∃ s, (softmax sum K w i * lit (total - K * mb) + lit mb).1 = fin s ∧ b ≤ s ∧ s ≤ (p i * t * (1 + u) + η + b) * (1 + u) := by
    intro i hi
    obtain ⟨h1, h2⟩ := hp i hi
    have h3 := p2 i hi
    have pt0 : 0 ≤ p i * t := mul_nonneg h2 t0
    have pt1 : p i * t ≤ 2 * (total * (1 + 1 / 128) - K * mb) :=
      mul_le_mul (by linarith) t2 t0 (by norm_num)
    obtain ⟨z, hz, bz, rz⟩ := op_mul A h1 (lit_val htt) (by rw [abs_of_nonneg pt0]; linarith)
    rw [abs_of_nonneg pt0] at bz
    have z0 : 0 ≤ z := le_rd rz F.rd_zero pt0
    have z1 := (abs_le.1 bz).2
    have upt : u * (p i * t) ≤ p i * t / 256 := by nlinarith
    obtain ⟨s, hs', bs, rs⟩ := op_add A hz (lit_val hb) (by rw [abs_of_nonneg (by linarith)]; linarith)
    rw [abs_of_nonneg (show 0 ≤ z + b by linarith)] at bs
    refine ⟨s, hs', le_rd rs (F.idem hb) (by linarith), ?_⟩
    have := (abs_le.1 bs).2
    calc s ≤ (z + b) * (1 + u) := by linarith
      _ ≤ _ := mul_le_mul_of_nonneg_right (by linarith) (by linarith)
  choose! s hs' using key
  refine ⟨b, hb, eb', s, fun i hi => ⟨(hs' i hi).1, (hs' i hi).2.1⟩, ?_⟩
  have kη : (K : ℝ) * η ≤ u * total := by
    calc (K : ℝ) * η ≤ K * (u * mb) := mul_le_mul_of_nonneg_left ηm (by linarith)
      _ = u * (K * mb) := by ring
      _ ≤ _ := mul_le_mul_of_nonneg_left hc' u0
  have η2 : η ≤ u * (K * mb) := ηm.trans (mul_le_mul_of_nonneg_left mK u0)
  calc ∑ i ∈ Finset.range K, s i ≤ ∑ i ∈ Finset.range K, (p i * t * (1 + u) + η + b) * (1 + u) :=
        Finset.sum_le_sum fun i hi => (hs' i (Finset.mem_range.1 hi)).2.2
    _ = ((∑ i ∈ Finset.range K, p i) * t * (1 + u) + K * η + K * b) * (1 + u) := by
      rw [← Finset.sum_mul, Finset.sum_add_distrib, Finset.sum_add_distrib, ← Finset.sum_mul, ← Finset.sum_mul]; simp
    _ ≤ ((1 + 5 * (K * u)) * t * (1 + u) + u * total + K * b) * (1 + u) := by
      refine mul_le_mul_of_nonneg_right ?_ (by linarith)
      have := mul_le_mul_of_nonneg_right ps (show 0 ≤ t * (1 + u) from mul_nonneg t0 (by linarith))
      linarith
    _ ≤ total * (1 + 16 * (K * u)) := by
      have Kb : (K : ℝ) * b ≤ K * mb * (1 + 2 * u) := by nlinarith
      have tt : t ≤ (total - K * mb) * (1 + u) + u * (K * mb) := by linarith
      have q : (1 + 5 * (K * u)) * (1 + u) ≤ 1 + 7 * (K * u) := by nlinarith
      have a1 : (1 + 5 * (K * u)) * t * (1 + u) ≤ (1 + 7 * (K * u)) * t := by
        have := mul_le_mul_of_nonneg_right q t0; linarith
      have tot : t + K * b ≤ total * (1 + 3 * u) := by
        nlinarith [mul_nonneg u0 (sub_nonneg.2 hc')]
      have t3 : t ≤ total * (1 + 3 * u) := by
        have : 0 ≤ (K : ℝ) * b := mul_nonneg (by linarith) b0
        linarith
      have : (1 + 5 * (K * u)) * t * (1 + u) + u * total + K * b ≤ total * ((1 + 3 * u) + 7 * (K * u) * (1 + 3 * u) + u) := by
        have := mul_le_mul_of_nonneg_left t3 (show 0 ≤ 7 * (K * u) by linarith)
        linarith
      have k2 : (K : ℝ) * u ≤ 1 / 64 := by linarith
      refine (mul_le_mul_of_nonneg_right this (by linarith)).trans ?_
      rw [mul_assoc]
      refine mul_le_mul_of_nonneg_left ?_ T0
      exact final_ineq u0 ul k0 k2 uk

end

end Distrax.FSpline
