import Verif.Lemmas.FloatFmt
import Verif.Spec.FloatAcc
import Mathlib.Data.Int.Log

/-! Unit roundoff of the IEEE binary formats. -/

namespace Distrax

open XR Spec

variable {p : ℕ} {emin emax : ℤ}

theorem binary_mul_mem (hp : 1 ≤ p) {k e : ℤ} (hk : |k| ≤ 2 ^ p) (he : emin ≤ e) (he1 : e ≤ emax) (hb : |k| = 2 ^ p → e + 1 ≤ emax) :
    (k : ℝ) * (2 : ℝ) ^ e ∈ binary p emin emax := by
  rcases hk.lt_or_eq with h | h
  · exact ⟨k, e, h, he, he1, rfl⟩
  · obtain ⟨q, rfl⟩ : ∃ q, p = q + 1 := ⟨p - 1, by omega⟩
    have hlt : (2 : ℤ) ^ q < 2 ^ (q + 1) := by rw [pow_succ]; have : (0 : ℤ) < 2 ^ q := by positivity
                                               omega
    have e2 : (2 : ℝ) ^ (e + 1) = 2 ^ e * 2 := by rw [zpow_add₀ (by norm_num), zpow_one]
    rcases abs_choice k with c | c
    · have hk' : k = 2 ^ (q + 1) := by rw [← h, c]
      refine ⟨2 ^ q, e + 1, by rw [abs_of_pos (by positivity)]; exact hlt, by omega, hb h, ?_⟩
      rw [hk', e2]; push_cast; ring
    · have hk' : k = -2 ^ (q + 1) := by rw [← h, c]; ring
      refine ⟨-2 ^ q, e + 1, by rw [abs_neg, abs_of_pos (by positivity)]; exact hlt, by omega, hb h, ?_⟩
      rw [hk', e2]; push_cast; ring

/-- Some representable number is within half a unit in the last place. -/
theorem binary_near (hp : 1 ≤ p) (hle : emin + 1 ≤ emax) {x : ℝ} (hx : |x| < ((2 : ℝ) ^ p - 1 / 2) * (2 : ℝ) ^ emax) :
    ∃ w ∈ binary p emin emax, |x - w| ≤ (2 : ℝ) ^ (-(p : ℤ)) * |x| + (2 : ℝ) ^ (emin - 1) ∧
      ((∃ k : ℤ, x = k * (2 : ℝ) ^ emin) → |x - w| ≤ (2 : ℝ) ^ (-(p : ℤ)) * |x|) := by
  have pp : (0 : ℝ) ≤ (2 : ℝ) ^ (-(p : ℤ)) * |x| := mul_nonneg (two_zpow_pos _).le (abs_nonneg x)
  -- rounding to a multiple of `2^e`
  have grid : ∀ e : ℤ, |x - round (x / (2 : ℝ) ^ e) * (2 : ℝ) ^ e| ≤ (2 : ℝ) ^ (e - 1) := fun e => by
    have pe := two_zpow_pos e
    have h := abs_sub_round (x / (2 : ℝ) ^ e)
    have : x - round (x / (2 : ℝ) ^ e) * (2 : ℝ) ^ e = (x / (2 : ℝ) ^ e - round (x / (2 : ℝ) ^ e)) * (2 : ℝ) ^ e := by field_simp
    rw [this, abs_mul, abs_of_pos pe, zpow_sub₀ (by norm_num), zpow_one]
    have := mul_le_mul_of_nonneg_right h pe.le
    linarith
  have size : ∀ e : ℤ, |x| < (2 : ℝ) ^ (e + p) → |round (x / (2 : ℝ) ^ e)| ≤ (2 : ℤ) ^ p := fun e h => by
    have pe := two_zpow_pos e
    have h1 : |x / (2 : ℝ) ^ e| < 2 ^ p := by
      rw [abs_div, abs_of_pos pe, div_lt_iff₀ pe]
      rwa [zpow_add₀ (by norm_num), zpow_natCast, mul_comm] at h
    have h2 := abs_sub_round (x / (2 : ℝ) ^ e)
    have h3 : ((|round (x / (2 : ℝ) ^ e)| : ℤ) : ℝ) < 2 ^ p + 1 := by
      push_cast
      have := abs_sub_abs_le_abs_sub (round (x / (2 : ℝ) ^ e) : ℝ) (x / (2 : ℝ) ^ e)
      rw [abs_sub_comm] at this
      linarith
    have h4 : |round (x / (2 : ℝ) ^ e)| < (2 : ℤ) ^ p + 1 := by exact_mod_cast h3
    omega
  have topCase : ∀ e : ℤ, e ≤ emax → |round (x / (2 : ℝ) ^ e)| = (2 : ℤ) ^ p → e + 1 ≤ emax := fun e he h => by
    rcases he.lt_or_eq with h' | rfl
    · omega
    · exfalso
      have pe := two_zpow_pos e
      have h2 := abs_sub_round (x / (2 : ℝ) ^ e)
      have h3 : ((|round (x / (2 : ℝ) ^ e)| : ℤ) : ℝ) = 2 ^ p := by rw [h]; push_cast; rfl
      push_cast at h3
      have := abs_sub_abs_le_abs_sub (round (x / (2 : ℝ) ^ e) : ℝ) (x / (2 : ℝ) ^ e)
      rw [abs_sub_comm, h3, abs_div, abs_of_pos pe] at this
      have h5 : (2 : ℝ) ^ p - 1 / 2 ≤ |x| / (2 : ℝ) ^ e := by linarith
      rw [le_div_iff₀ pe] at h5
      linarith
  by_cases small : |x| < (2 : ℝ) ^ (emin + p)
  · by_cases ex : ∃ k : ℤ, x = k * (2 : ℝ) ^ emin
    · obtain ⟨k, rfl⟩ := ex
      refine ⟨_, ⟨k, emin, ?_, le_rfl, by omega, rfl⟩, by rw [sub_self, abs_zero]; have := two_zpow_pos (emin - 1); linarith,
        fun _ => by rwa [sub_self, abs_zero]⟩
      have pe := two_zpow_pos emin
      rw [abs_mul, abs_of_pos pe, zpow_add₀ (by norm_num), zpow_natCast, mul_comm] at small
      have := lt_of_mul_lt_mul_left small pe.le
      exact_mod_cast this
    · exact ⟨_, binary_mul_mem hp (size emin small) le_rfl (by omega) fun _ => hle, (grid emin).trans (by linarith), fun h => absurd h ex⟩
  · push Not at small
    have x0 : 0 < |x| := lt_of_lt_of_le (two_zpow_pos _) small
    set q := Int.log 2 |x| with hq
    have l1 : (2 : ℝ) ^ q ≤ |x| := by have := Int.zpow_log_le_self (b := 2) (by norm_num) x0; exact_mod_cast this
    have l2 : |x| < (2 : ℝ) ^ (q + 1) := by have := Int.lt_zpow_succ_log_self (b := 2) (by norm_num) |x|; exact_mod_cast this
    have hq1 : emin + p ≤ q := by
      have : (2 : ℝ) ^ (emin + p) < (2 : ℝ) ^ (q + 1) := lt_of_le_of_lt small l2
      have := (zpow_lt_zpow_iff_right₀ (by norm_num : (1 : ℝ) < 2)).1 this
      omega
    have hq2 : q < emax + p := by
      have h : (2 : ℝ) ^ q < (2 : ℝ) ^ (emax + p) := by
        refine lt_of_le_of_lt l1 (hx.trans ?_)
        rw [zpow_add₀ (by norm_num), zpow_natCast, mul_comm ((2 : ℝ) ^ emax)]
        exact mul_lt_mul_of_pos_right (by linarith) (two_zpow_pos _)
      exact (zpow_lt_zpow_iff_right₀ (by norm_num : (1 : ℝ) < 2)).1 h
    set e := q + 1 - p with he
    have hs : |x| < (2 : ℝ) ^ (e + p) := by rwa [show e + p = q + 1 by omega]
    have bound : |x - round (x / (2 : ℝ) ^ e) * (2 : ℝ) ^ e| ≤ (2 : ℝ) ^ (-(p : ℤ)) * |x| := by
      refine (grid e).trans ?_
      have : (2 : ℝ) ^ (e - 1) = (2 : ℝ) ^ (-(p : ℤ)) * (2 : ℝ) ^ q := by rw [← zpow_add₀ (by norm_num)]; congr 1; omega
      rw [this]
      exact mul_le_mul_of_nonneg_left l1 (two_zpow_pos _).le
    exact ⟨_, binary_mul_mem hp (size e hs) (by omega) (by omega) (topCase e (by omega)), bound.trans (by have := two_zpow_pos (emin - 1); linarith),
      fun _ => bound⟩

theorem binary_int {x : ℝ} (h : x ∈ binary p emin emax) : ∃ k : ℤ, x = k * (2 : ℝ) ^ emin := by
  obtain ⟨m, e, -, he, -, rfl⟩ := h
  refine ⟨m * 2 ^ (e - emin).toNat, ?_⟩
  push_cast
  rw [mul_assoc, ← zpow_natCast, ← zpow_add₀ (by norm_num), Int.toNat_of_nonneg (by omega)]
  congr 2; ring

/-- The unit roundoff of an IEEE binary format is `2^-p`, and the underflow error `2^(emin-1)`. -/
theorem ieee_acc (rd : ℝ → XR) (h : IEEE p emin emax rd) {F : Fmt} (hF : F.rd = rd) (hp : 8 ≤ p) (he : emin + 1 ≤ emax)
    (hu : emin - 1 ≤ -2 * (p : ℤ)) : F.Acc ((2 : ℝ) ^ (-(p : ℤ))) ((2 : ℝ) ^ (emin - 1)) where
  u0 := (two_zpow_pos _).le
  u_le := by
    have : (2 : ℝ) ^ (-(p : ℤ)) ≤ (2 : ℝ) ^ (-8 : ℤ) := zpow_le_zpow_right₀ (by norm_num) (by omega)
    norm_num at this ⊢; linarith
  η0 := (two_zpow_pos _).le
  η_le := by
    rw [← zpow_add₀ (by norm_num)]
    exact zpow_le_zpow_right₀ (by norm_num) (by omega)
  err := fun {x y} hx => by
    rw [hF] at hx
    obtain ⟨hl, -⟩ := RoundsToNearest.mem h hx
    obtain ⟨y', _, e, hn⟩ := h.near x hl
    rw [e] at hx
    obtain rfl := XR.fin_inj.1 hx
    obtain ⟨w, hw, b, -⟩ := binary_near (by omega) he hl
    rw [abs_sub_comm]
    exact (hn w hw).trans b
  addErr := fun {x y z} hx hy hz => by
    rw [hF] at hx hy hz
    obtain ⟨hl, -⟩ := RoundsToNearest.mem h hz
    obtain ⟨z', _, e, hn⟩ := h.near _ hl
    rw [e] at hz
    obtain rfl := XR.fin_inj.1 hz
    obtain ⟨w, hw, -, b⟩ := binary_near (by omega) he hl
    rw [abs_sub_comm]
    refine (hn w hw).trans (b ?_)
    obtain ⟨k, hk⟩ := binary_int (RoundsToNearest.mem h hx).2
    obtain ⟨l, hl'⟩ := binary_int (RoundsToNearest.mem h hy).2
    exact ⟨k + l, by push_cast; linear_combination hk + hl'⟩

end Distrax
