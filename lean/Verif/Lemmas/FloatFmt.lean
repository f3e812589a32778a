import Verif.Lemmas.Float
import Verif.Spec.Float
import Mathlib.Data.Set.Finite.Lattice
import Mathlib.Data.Set.Finite.Lemmas

/-! Every IEEE binary format with rounding to nearest is a `Fmt`. -/

namespace Distrax

open XR Spec

section

variable {p : ℕ} {emin emax : ℤ}

/-- The largest finite number. -/
noncomputable def ieeeTop (p : ℕ) (emax : ℤ) : ℝ := ((2 : ℝ) ^ p - 1) * (2 : ℝ) ^ emax

theorem binary_neg {x : ℝ} (h : x ∈ binary p emin emax) : -x ∈ binary p emin emax := by
  obtain ⟨m, e, h1, h2, h3, rfl⟩ := h
  exact ⟨-m, e, by rwa [abs_neg], h2, h3, by push_cast; ring⟩

theorem two_zpow_pos (e : ℤ) : (0 : ℝ) < (2 : ℝ) ^ e := zpow_pos (by norm_num) e

theorem binary_le_top {x : ℝ} (h : x ∈ binary p emin emax) : |x| ≤ ieeeTop p emax := by
  obtain ⟨m, e, h1, h2, h3, rfl⟩ := h
  rw [abs_mul, abs_of_pos (two_zpow_pos e), ieeeTop]
  have hm : |(m : ℝ)| ≤ (2 : ℝ) ^ p - 1 := by
    have : |m| ≤ 2 ^ p - 1 := by omega
    have := (Int.cast_le (R := ℝ)).2 this
    push_cast at this; exact this
  have he : (2 : ℝ) ^ e ≤ (2 : ℝ) ^ emax := zpow_le_zpow_right₀ (by norm_num) h3
  exact mul_le_mul hm he (two_zpow_pos e).le (le_trans (abs_nonneg _) hm)

theorem binary_double {x : ℝ} (h : x ∈ binary p emin emax) (ht : |2 * x| ≤ ieeeTop p emax) : 2 * x ∈ binary p emin emax := by
  obtain ⟨m, e, h1, h2, h3, rfl⟩ := h
  rcases h3.lt_or_eq with h3 | h3
  · exact ⟨m, e + 1, h1, by omega, by omega, by rw [zpow_add₀ (by norm_num)]; ring⟩
  · subst h3
    refine ⟨2 * m, e, ?_, h2, le_rfl, by push_cast; ring⟩
    rw [← mul_assoc, abs_mul, abs_of_pos (two_zpow_pos e), ieeeTop] at ht
    have := le_of_mul_le_mul_right ht (two_zpow_pos e)
    have h5 : |(((2 * m : ℤ)) : ℝ)| < (2 : ℝ) ^ p := by push_cast; linarith
    exact_mod_cast h5

theorem binary_nat (hp : 5 ≤ p) (h0 : emin ≤ 0) (h1 : 0 ≤ emax) (n : ℕ) (hn : n ≤ 16) : (n : ℝ) ∈ binary p emin emax := by
  refine ⟨n, 0, ?_, h0, h1, by simp⟩
  rw [abs_of_nonneg (by positivity)]
  have : (2 : ℤ) ^ 5 ≤ 2 ^ p := pow_le_pow_right₀ (by norm_num) hp
  omega

theorem binary_half (hp : 5 ≤ p) (h0 : emin ≤ -1) (h1 : 0 ≤ emax) : (1 / 2 : ℝ) ∈ binary p emin emax := by
  refine ⟨1, -1, ?_, h0, by omega, by norm_num⟩
  have : (2 : ℤ) ^ 5 ≤ 2 ^ p := pow_le_pow_right₀ (by norm_num) hp
  rw [abs_one]; omega

theorem binary_log (h0 : emin ≤ 0) (h1 : 0 ≤ emax) {x : ℝ} (h : x ∈ binary p emin emax) (hx : 0 < x) :
    |Real.log x| ≤ (-emin : ℝ) + p + emax := by
  obtain ⟨m, e, hm, h2, h3, rfl⟩ := h
  have hm0 : 0 < m := by
    have := pos_of_mul_pos_left hx (two_zpow_pos e).le
    exact_mod_cast this
  have hm1 : (1 : ℝ) ≤ m := by exact_mod_cast hm0
  have hm2 : (m : ℝ) ≤ (2 : ℝ) ^ p := by rw [abs_of_pos hm0] at hm; exact_mod_cast hm.le
  have l2 := Real.log_two_lt_d9
  have l0 := Real.log_two_gt_d9
  rw [Real.log_mul (by linarith) (two_zpow_pos e).ne', Real.log_zpow]
  have a0 : 0 ≤ Real.log m := Real.log_nonneg hm1
  have a1 : Real.log m ≤ p * Real.log 2 := by
    have := Real.log_le_log (by linarith) hm2
    rwa [Real.log_pow] at this
  have h2' : (emin : ℝ) ≤ e := by exact_mod_cast h2
  have h3' : (e : ℝ) ≤ emax := by exact_mod_cast h3
  have h0' : (emin : ℝ) ≤ 0 := by exact_mod_cast h0
  have h1' : (0 : ℝ) ≤ emax := by exact_mod_cast h1
  have hpp : (0 : ℝ) ≤ p := Nat.cast_nonneg p
  rw [abs_le]
  constructor <;> nlinarith

/-- Sterbenz' lemma at 1. -/
theorem binary_one_sub (h0 : emin ≤ 0) (h1 : 0 ≤ emax) {x : ℝ} (h : x ∈ binary p emin emax) (l : 1 / 2 ≤ x) (u : x ≤ 1) :
    1 - x ∈ binary p emin emax := by
  obtain ⟨m, e, hm, he0, he1, rfl⟩ := h
  have pe := two_zpow_pos e
  rcases le_or_gt 0 e with c | c
  · -- an integer: it is 1
    obtain ⟨k, rfl⟩ := Int.eq_ofNat_of_zero_le c
    have hk : ((2 : ℝ) ^ (k : ℤ)) = ((2 ^ k : ℤ) : ℝ) := by push_cast; rw [zpow_natCast]
    rw [hk, ← Int.cast_mul] at l u ⊢
    have u' : m * 2 ^ k ≤ 1 := by exact_mod_cast u
    have l' : 0 < m * 2 ^ k := by
      have : (0 : ℝ) < ((m * 2 ^ k : ℤ) : ℝ) := by linarith
      exact_mod_cast this
    have e1 : m * 2 ^ k = 1 := by omega
    rw [e1]
    exact ⟨0, 0, by simp, h0, h1, by simp⟩
  · obtain ⟨k, hk⟩ : ∃ k : ℕ, e = -(k : ℤ) := ⟨e.natAbs, by omega⟩
    subst hk
    have e2 : (2 : ℝ) ^ (-(k : ℤ)) * 2 ^ k = 1 := by rw [zpow_neg, zpow_natCast]; exact inv_mul_cancel₀ (by positivity)
    refine ⟨2 ^ k - m, -(k : ℤ), ?_, he0, he1, by push_cast; linear_combination -e2⟩
    have A : ((m : ℝ)) ≤ 2 ^ k := by
      have := mul_le_mul_of_nonneg_right u (by positivity : (0 : ℝ) ≤ 2 ^ k)
      rwa [mul_assoc, e2, mul_one, one_mul] at this
    have B : (2 : ℝ) ^ k ≤ 2 * m := by
      have := mul_le_mul_of_nonneg_right l (by positivity : (0 : ℝ) ≤ 2 ^ k)
      rw [mul_assoc, e2, mul_one] at this
      linarith
    have A' : m ≤ 2 ^ k := by exact_mod_cast A
    have B' : (2 : ℤ) ^ k ≤ 2 * m := by exact_mod_cast B
    rw [abs_lt] at hm ⊢
    constructor <;> omega

/-- All natural numbers below `2^p` are representable. -/
theorem binary_nat' (h0 : emin ≤ 0) (h1 : 0 ≤ emax) (n : ℕ) (hn : n < 2 ^ p) : (n : ℝ) ∈ binary p emin emax :=
  ⟨n, 0, by rw [abs_of_nonneg (by positivity)]; exact_mod_cast hn, h0, h1, by simp⟩

theorem binary_gap {x y : ℝ} (hx : x ∈ binary p emin emax) (hy : y ∈ binary p emin emax) (h : x < y) : (2 : ℝ) ^ emin ≤ y - x := by
  obtain ⟨m, e, -, he, -, rfl⟩ := hx
  obtain ⟨k, f, -, hf, -, rfl⟩ := hy
  have key : ∀ (m e : ℤ), emin ≤ e → (m : ℝ) * (2 : ℝ) ^ e = ((m * 2 ^ (e - emin).toNat : ℤ) : ℝ) * (2 : ℝ) ^ emin := by
    intro m e he
    push_cast
    rw [mul_assoc, ← zpow_natCast, ← zpow_add₀ (by norm_num), Int.toNat_of_nonneg (by omega)]
    congr 2; ring
  rw [key m e he, key k f hf] at h ⊢
  rw [← sub_mul]
  have h1 := lt_of_mul_lt_mul_right h (two_zpow_pos emin).le
  have h2 : (m * 2 ^ (e - emin).toNat : ℤ) + 1 ≤ k * 2 ^ (f - emin).toNat := by
    have := Int.cast_lt.1 h1
    omega
  have h3 := (Int.cast_le (R := ℝ)).2 h2
  rw [Int.cast_add, Int.cast_one] at h3
  have := two_zpow_pos emin
  nlinarith

theorem RoundsToNearest.mem {R : Set ℝ} {L : ℝ} {rd : ℝ → XR} (h : RoundsToNearest R L rd) {x y : ℝ} (hx : rd x = fin y) :
    |x| < L ∧ y ∈ R := by
  have hl : |x| < L := by
    by_contra g
    push Not at g
    rcases le_abs.1 g with g | g
    · rw [h.above x g] at hx; cases hx
    · rw [h.below x (by linarith)] at hx; cases hx
  obtain ⟨y', hy, e, -⟩ := h.near x hl
  rw [e] at hx
  exact ⟨hl, by rwa [← XR.fin_inj.1 hx]⟩

theorem RoundsToNearest.rep {R : Set ℝ} {L : ℝ} {rd : ℝ → XR} (h : RoundsToNearest R L rd) {y : ℝ} (hy : y ∈ R) (hl : |y| < L) :
    rd y = fin y := by
  obtain ⟨y', hy', e, hn⟩ := h.near y hl
  have := hn y hy
  rw [sub_self, abs_zero] at this
  have : y = y' := by
    have := abs_nonpos_iff.1 this; linarith
  rw [e, ← this]

theorem RoundsToNearest.mono {R : Set ℝ} {L : ℝ} (hL : 0 < L) {rd : ℝ → XR} (h : RoundsToNearest R L rd) {x y : ℝ} (hxy : x ≤ y) :
    leB (rd x) (rd y) := by
  have nn : ∀ x, rd x ≠ nan := by
    intro x hx
    by_cases g : |x| < L
    · obtain ⟨_, _, e, _⟩ := h.near x g; rw [e] at hx; cases hx
    · push Not at g
      rcases le_abs.1 g with g | g
      · rw [h.above x g] at hx; cases hx
      · rw [h.below x (by linarith)] at hx; cases hx
  by_cases gx : x ≤ -L
  · rw [h.below x gx]; exact ninf_leB (nn y)
  by_cases gy : L ≤ y
  · rw [h.above y gy]; exact leB_pinf (nn x)
  push Not at gx gy
  rcases hxy.eq_or_lt with rfl | hlt
  · exact leB_refl (nn x)
  obtain ⟨a, ha, ea, na⟩ := h.near x (by rw [abs_lt]; constructor <;> linarith)
  obtain ⟨b, hb, eb, nb⟩ := h.near y (by rw [abs_lt]; constructor <;> linarith)
  rw [ea, eb, leB_fin]
  by_contra g
  push Not at g
  have h1 := sq_le_sq.2 (na b hb)
  have h2 := sq_le_sq.2 (nb a ha)
  nlinarith

/-- An IEEE binary format with rounding to nearest is a `Fmt`: at least 6 bits of precision, some range, and an exponent range that
is small compared with the largest number. -/
noncomputable def Fmt.ofIEEE (rd : ℝ → XR) (h : IEEE p emin emax rd) (hp : 6 ≤ p) (h0 : emin ≤ -1) (h1 : 5 ≤ emax)
    (hl : (-emin : ℝ) + p + emax ≤ 2 * (2 : ℝ) ^ emax) : Fmt :=
  have P : (64 : ℝ) ≤ (2 : ℝ) ^ p := by
    have : (2 : ℝ) ^ 6 ≤ 2 ^ p := pow_le_pow_right₀ (by norm_num) hp
    linarith
  have E : (32 : ℝ) ≤ (2 : ℝ) ^ emax := by
    have : (2 : ℝ) ^ (5 : ℤ) ≤ (2 : ℝ) ^ emax := zpow_le_zpow_right₀ (by norm_num) h1
    norm_num at this; linarith
  have L : ((2 : ℝ) ^ p - 1 / 2) * (2 : ℝ) ^ emax = ieeeTop p emax + (2 : ℝ) ^ emax / 2 := by unfold ieeeTop; ring
  have T : (256 : ℝ) ≤ ieeeTop p emax := by unfold ieeeTop; nlinarith
  have lt : ∀ x, |x| ≤ ieeeTop p emax → |x| < ((2 : ℝ) ^ p - 1 / 2) * (2 : ℝ) ^ emax := fun x hx => by rw [L]; linarith
  have rep : ∀ x ∈ binary p emin emax, rd x = fin x := fun x hx => RoundsToNearest.rep h hx (lt x (binary_le_top hx))
  { rd := rd
    top := ieeeTop p emax
    top_ge := T
    top_rep := rep _ ⟨2 ^ p - 1, emax, by
      have : (2 : ℤ) ^ 6 ≤ 2 ^ p := pow_le_pow_right₀ (by norm_num) hp
      rw [abs_of_pos (by omega)]; omega, by omega, le_rfl, by unfold ieeeTop; push_cast; ring⟩
    mono := fun hxy => RoundsToNearest.mono (by rw [L]; linarith) h hxy
    odd := h.odd
    idem := fun hx => rep _ (RoundsToNearest.mem h hx).2
    fits := fun {x} hx => by
      obtain ⟨y, -, e, -⟩ := h.near x (by rw [L]; linarith)
      exact ⟨y, e⟩
    range := fun hx => binary_le_top (RoundsToNearest.mem h hx).2
    over := fun {x} hx => h.above x (by
      rw [L]
      have : (2 : ℝ) ^ emax / 2 ≤ ieeeTop p emax := by unfold ieeeTop; nlinarith
      linarith)
    small := fun n hn => rep _ (binary_nat (by omega) (by omega) (by omega) n hn)
    half := rep _ (binary_half (by omega) h0 (by omega))
    double := fun hx ht => rep _ (binary_double (RoundsToNearest.mem h hx).2 ht)
    lb := 2 * (2 : ℝ) ^ emax
    lb_rep := rep _ ⟨2, emax, by
      have : (2 : ℤ) ^ 6 ≤ 2 ^ p := pow_le_pow_right₀ (by norm_num) hp
      rw [abs_of_pos (by norm_num)]; omega, by omega, le_rfl, by norm_num⟩
    lb_le := by unfold ieeeTop; nlinarith
    logs := fun hx hpos => by
      have := binary_log (by omega) (by omega) (RoundsToNearest.mem h hx).2 hpos
      linarith
    gradual := fun {x y} hx hy hxy g => by
      have hb := binary_gap (RoundsToNearest.mem h hx).2 (RoundsToNearest.mem h hy).2 hxy
      have hm : (2 : ℝ) ^ emin ∈ binary p emin emax := ⟨1, emin, by
        rw [abs_one]
        have : (2 : ℤ) ^ 6 ≤ 2 ^ p := pow_le_pow_right₀ (by norm_num) hp
        omega, le_rfl, by omega, by simp⟩
      have := RoundsToNearest.mono (by rw [L]; linarith) h hb
      rw [rep _ hm, g, leB_fin] at this
      exact absurd this (not_le.2 (two_zpow_pos emin))
    oneSub := fun {x} hx l u => rep _ (binary_one_sub (by omega) (by omega) (RoundsToNearest.mem h hx).2 l u) }

theorem binary_finite : (binary p emin emax).Finite := by
  have : binary p emin emax ⊆ (fun q : ℤ × ℤ => (q.1 : ℝ) * (2 : ℝ) ^ q.2) '' (Set.Ioo (-(2 ^ p)) (2 ^ p) ×ˢ Set.Icc emin emax) := by
    rintro x ⟨m, e, h1, h2, h3, rfl⟩
    rw [abs_lt] at h1
    exact ⟨(m, e), ⟨⟨h1.1, h1.2⟩, h2, h3⟩, rfl⟩
  exact Set.Finite.subset (((Set.finite_Ioo _ _).prod (Set.finite_Icc _ _)).image _) this

open Classical in
/-- Such roundings exist. -/
theorem ieee_exists (hle : emin ≤ emax) (hp : 1 ≤ p) : ∃ rd, IEEE p emin emax rd := by
  have P : (2 : ℝ) ≤ (2 : ℝ) ^ p := by
    have : (2 : ℝ) ^ 1 ≤ 2 ^ p := pow_le_pow_right₀ (by norm_num) hp
    linarith
  set L : ℝ := ((2 : ℝ) ^ p - 1 / 2) * (2 : ℝ) ^ emax with hL
  have hLpos : 0 < L := mul_pos (by linarith) (two_zpow_pos _)
  have z : (0 : ℝ) ∈ binary p emin emax := ⟨0, emin, by simp, le_rfl, hle, by simp⟩
  have ex : ∀ x : ℝ, ∃ y ∈ binary p emin emax, ∀ w ∈ binary p emin emax, |x - y| ≤ |x - w| := fun x => by
    obtain ⟨y, hy, hm⟩ := Set.exists_min_image _ (fun w => |x - w|) (binary_finite (p := p) (emin := emin) (emax := emax)) ⟨0, z⟩
    exact ⟨y, hy, hm⟩
  choose n hn1 hn2 using ex
  have n0 : n 0 = 0 := by
    have := hn2 0 0 z
    rw [sub_self, abs_zero] at this
    have := abs_nonpos_iff.1 this; linarith
  refine ⟨fun x => if L ≤ x then pinf else if x ≤ -L then ninf else if 0 ≤ x then fin (n x) else fin (-(n (-x))), ?_, ?_, ?_, ?_⟩
  · intro x hx
    rw [← hL, abs_lt] at hx
    simp only [if_neg (not_le.2 hx.2), if_neg (not_le.2 hx.1)]
    by_cases g : 0 ≤ x
    · exact ⟨n x, hn1 x, if_pos g, hn2 x⟩
    · refine ⟨-(n (-x)), binary_neg (hn1 _), if_neg g, fun w hw => ?_⟩
      have := hn2 (-x) (-w) (binary_neg hw)
      rw [show x - -n (-x) = -(-x - n (-x)) by ring, abs_neg, show x - w = -(-x - -w) by ring, abs_neg]
      exact this
  · intro x hx; simp only [← hL] at hx; simp only [if_pos hx]
  · intro x hx; simp only [← hL] at hx; simp only [if_neg (show ¬ L ≤ x by linarith), if_pos hx]
  · intro x
    rcases lt_trichotomy x 0 with hx | rfl | hx
    · by_cases g : x ≤ -L
      · simp only [if_pos (show L ≤ -x by linarith), if_neg (show ¬ L ≤ x by linarith), if_pos g]; rfl
      · simp only [if_neg (show ¬ L ≤ -x by linarith), if_neg (show ¬ -x ≤ -L by linarith), if_pos (show 0 ≤ -x by linarith),
          if_neg (show ¬ L ≤ x by linarith), if_neg g, if_neg (not_le.2 hx)]
        rw [XR.neg_fin, neg_neg]
    · simp only [neg_zero, le_refl, if_true, if_neg (not_le.2 hLpos), if_neg (show ¬ (0 : ℝ) ≤ -L by linarith), n0, XR.neg_fin]
    · by_cases g : L ≤ x
      · simp only [if_pos g, if_neg (show ¬ L ≤ -x by linarith), if_pos (show -x ≤ -L by linarith)]; rfl
      · simp only [if_neg g, if_neg (show ¬ L ≤ -x by linarith), if_neg (show ¬ -x ≤ -L by linarith), if_neg (show ¬ 0 ≤ -x by linarith),
          if_neg (show ¬ x ≤ -L by linarith), if_pos hx.le, neg_neg, XR.neg_fin]

end

end Distrax
