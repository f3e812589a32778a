import Verif.Spec.DTypes
import Mathlib.Tactic.Linarith
import Mathlib.Tactic.Ring
import Mathlib.Tactic.IntervalCases
import Mathlib.Data.Fintype.Basic

/-! # Lemmas for dtypes -/

namespace Distrax.DTypes

open Spec AV

instance : Fintype DT :=
  ⟨⟨([DT.bool, DT.u8, DT.u16, DT.u32, DT.u64, DT.i8, DT.i16, DT.i32, DT.i64, DT.bf16, DT.f16, DT.f32, DT.f64,
      DT.c64, DT.c128] : List DT), by decide⟩, fun t => by cases t <;> decide⟩

instance : Fintype Node :=
  ⟨⟨Node.all, by decide⟩, fun t => by rcases t with (t | _ | _ | _) <;> [cases t <;> decide; decide; decide; decide]⟩

/-- `join` is the least upper bound of JAX's lattice. -/
theorem join_lub : ∀ a b : Node, (Node.join a b ∈ Node.upper a ∧ Node.join a b ∈ Node.upper b) ∧
    ∀ c, c ∈ Node.upper a → c ∈ Node.upper b → c ∈ Node.upper (Node.join a b) := by decide +kernel

theorem roundBits_exact (p : ℕ) (hp : p ≠ 0) (n : ℤ) (h : n.natAbs ≤ 2 ^ p) : roundBits p n = n := by
  rcases Nat.eq_or_lt_of_le h with h | h
  · have hl : n.natAbs.log2 + 1 - p = 1 := by rw [h, Nat.log2_two_pow]; omega
    have h2 : n % 2 = 0 := by
      have : (2 : ℤ) ∣ n := by
        rw [← Int.dvd_natAbs, h]; push_cast
        exact dvd_pow_self _ hp
      omega
    simp only [roundBits, hl, pow_one, h2]
    norm_num; omega
  · have hl : n.natAbs.log2 + 1 - p = 0 := by
      by_cases h0 : n.natAbs = 0
      · rw [h0]; simp; omega
      · have := (Nat.log2_lt h0).2 h
        omega
    simp [roundBits, hl]

theorem toFloat_exact (p emax : ℕ) (hp : p ≠ 0) (he : p ≤ emax) (n : ℤ) (h : n.natAbs ≤ 2 ^ p) :
    toFloat p emax n = some n := by
  have : ¬ 2 ^ (emax + 1) ≤ n.natAbs := by
    have h1 : 2 ^ p < 2 ^ (emax + 1) := Nat.pow_lt_pow_right (by norm_num) (by omega)
    omega
  simp only [toFloat, roundBits_exact p hp n h, if_neg this]

/-- Every whole number up to the bound survives the cast. -/
theorem cast_exact (t : DT) (n : ℕ) (h : n ≤ exactTo t) : cast t n = some (n : ℤ) := by
  cases t <;> simp only [exactTo] at h
  case bool => interval_cases n <;> rfl
  case bf16 => simp only [cast]; exact toFloat_exact 8 127 (by norm_num) (by norm_num) _ (by simpa using h)
  case f16 => simp only [cast]; exact toFloat_exact 11 15 (by norm_num) (by norm_num) _ (by simpa using h)
  case f32 => simp only [cast]; exact toFloat_exact 24 127 (by norm_num) (by norm_num) _ (by simpa using h)
  case c64 => simp only [cast]; exact toFloat_exact 24 127 (by norm_num) (by norm_num) _ (by simpa using h)
  case f64 => simp only [cast]; exact toFloat_exact 53 1023 (by norm_num) (by norm_num) _ (by simpa using h)
  case c128 => simp only [cast]; exact toFloat_exact 53 1023 (by norm_num) (by norm_num) _ (by simpa using h)
  all_goals (simp only [cast, wrapU, wrapI, Option.some.injEq]; norm_num at h ⊢; omega)

/-- What the first whole number beyond the bound turns into. -/
theorem cast_beyond : ∀ t : DT, cast t (exactTo t + 1) ≠ some (exactTo t + 1 : ℤ) := by decide +kernel

theorem exactTo_pos : ∀ t : DT, 1 ≤ exactTo t := by decide +kernel

/-- Small signed numbers survive in the default float dtype. -/
theorem cast_float_exact (x64 : Bool) (n : ℤ) (h : n.natAbs ≤ 2 ^ 24) : cast (DT.canon x64 .f64) n = some n := by
  cases x64 <;> simp only [DT.canon, cast, if_true, Bool.false_eq_true, if_false]
  · exact toFloat_exact 24 127 (by norm_num) (by norm_num) _ h
  · exact toFloat_exact 53 1023 (by norm_num) (by norm_num) _ (h.trans (by norm_num))

theorem WhileEnds.unique {σ : Type} {cond : σ → Bool} {body : σ → σ} {s a b : σ} (ha : WhileEnds cond body s a)
    (hb : WhileEnds cond body s b) : a = b := by
  induction ha with
  | stop h =>
    cases hb with
    | stop _ => rfl
    | step h' _ => rw [h] at h'; cases h'
  | step h _ ih =>
    cases hb with
    | stop h' => rw [h] at h'; cases h'
    | step _ h' => exact ih h'

theorem tally_succ {K : ℕ} (n : ℕ) (draw : ℕ → Fin K) (k : Fin K) :
    tally (n + 1) draw k = tally n draw k + if draw n = k then 1 else 0 := by
  simp only [tally, List.range_succ, List.filter_append, List.length_append]
  congr 1
  by_cases h : draw n = k <;> simp [h]

theorem tally_le {K : ℕ} (n : ℕ) (draw : ℕ → Fin K) (k : Fin K) : tally n draw k ≤ n := by
  have := List.length_filter_le (fun i => decide (draw i = k)) (List.range n)
  simpa [tally] using this

theorem sum_tally {K : ℕ} (n : ℕ) (draw : ℕ → Fin K) : ∑ k, tally n draw k = n := by
  induction n with
  | zero => simp [tally]
  | succ n ih => simp [tally_succ, Finset.sum_add_distrib, ih]

/-- The loop, in a dtype that holds the total count. -/
theorem loop_ends (t : DT) {K : ℕ} (draw : ℕ → Fin K) (n : ℕ) (hn : n ≤ exactTo t) (m i : ℕ) (hi : i + m = n) :
    WhileEnds (multinomialCond t (some n)) (multinomialBody t draw) (i, fun k => some (tally i draw k : ℤ))
      (n, fun k => some (tally n draw k : ℤ)) := by
  induction m generalizing i with
  | zero =>
    obtain rfl : i = n := by omega
    refine .stop ?_
    simp only [multinomialCond, cast_exact t i hn, less]; simp
  | succ m ih =>
    refine .step ?_ ?_
    · simp only [multinomialCond, cast_exact t i (by omega), less]; simp; omega
    · have := ih (i + 1) (by omega)
      convert this using 1
      simp only [multinomialBody, Prod.mk.injEq, true_and]
      funext k
      have h1 : cast t (if draw i = k then 1 else 0) = some ((if draw i = k then 1 else 0 : ℕ) : ℤ) := by
        rw [← cast_exact t (if draw i = k then 1 else 0) (by have := exactTo_pos t; split <;> omega)]
        split <;> rfl
      have h2 := cast_exact t (tally (i + 1) draw k) ((tally_le _ _ _).trans (by omega))
      rw [h1, ← h2, tally_succ]
      simp [add]

/-! ## Closure of strongly typed floats under promotion -/

/-- Promotion with a strongly typed float is strongly typed and a float. -/
theorem promote_float : ∀ (x64 : Bool) (s : DT) (b : DT) (w : Bool), s.isFloating → (b.isInteger ∨ b.isFloating) →
    (promote x64 (strong s) ⟨b, w⟩ = strong (promote x64 (strong s) ⟨b, w⟩).dt ∧
      (promote x64 (strong s) ⟨b, w⟩).dt.isFloating) ∧
    promote x64 ⟨b, w⟩ (strong s) = promote x64 (strong s) ⟨b, w⟩ := by decide +kernel

/-- Promotion of two floats, weak or not, is a float. -/
theorem promote_floats : ∀ (x64 : Bool) (s t : DT) (v w : Bool), s.isFloating → t.isFloating →
    (promote x64 ⟨s, v⟩ ⟨t, w⟩).dt.isFloating := by decide +kernel

theorem canon_floating : ∀ (x64 : Bool) (t : DT), t.isFloating → (DT.canon x64 t).isFloating := by decide +kernel

theorem asFloat_floating {x64 : Bool} {a b : AV} (h : asFloat x64 a = .ok b) : b.dt.isFloating := by
  unfold asFloat at h
  split at h
  · cases h; assumption
  · split at h
    · cases h; cases x64 <;> rfl
    · cases h

/-- Strongly typed and floating-point. -/
def SF (a : AV) : Prop := a = strong a.dt ∧ a.dt.isFloating

theorem SF.mk' {t : DT} (h : t.isFloating) : SF (strong t) := ⟨rfl, h⟩

theorem SF.left {x64 : Bool} {a b : AV} (h : SF a) (hb : RealAV b) : SF (promote x64 a b) := by
  have := promote_float x64 a.dt b.dt b.weak h.2 hb
  rw [h.1]; exact this.1

theorem SF.right {x64 : Bool} {a b : AV} (h : SF a) (hb : RealAV b) : SF (promote x64 b a) := by
  have := promote_float x64 a.dt b.dt b.weak h.2 hb
  rw [h.1]
  have e : promote x64 b (strong a.dt) = promote x64 (strong a.dt) b := this.2
  rw [e]; exact this.1

theorem SF.real {a : AV} (h : SF a) : RealAV a := Or.inr h.2

theorem bind_ok {α β : Type} {m : Except Err α} {f : α → Except Err β} {b : β} (h : (m >>= f) = .ok b) :
    ∃ a, m = .ok a ∧ f a = .ok b := by
  cases m with
  | error e => cases h
  | ok a => exact ⟨a, rfl, h⟩

theorem locScaleSample_sf {x64 : Bool} {loc scale a : AV} (h : Dist.locScaleSample x64 loc scale = .ok a) :
    SF a := by
  obtain ⟨l, hl, h⟩ := bind_ok h
  obtain ⟨s, hs, h⟩ := bind_ok h
  cases h
  have fl := asFloat_floating hl
  have fs := asFloat_floating hs
  exact ((SF.mk' (promote_floats x64 l.dt s.dt l.weak s.weak fl fs)).right (.inr fs)).left (.inr fl)

theorem forward_sf {x64 : Bool} {b : Bij} (hb : AffineBij b) {a : AV} (h : SF a) : SF (b.forward x64 a) := by
  induction b generalizing a with
  | scalarAffine s t => exact (h.right hb.1).left hb.2
  | shiftBy s => exact h.left hb
  | linear m => exact h.right hb
  | block b ih => exact ih hb h
  | chain o i iho ihi => exact iho hb.1 (ihi hb.2 h)
  | fn f =>
    obtain ⟨t, ht, e⟩ := hb a.dt h.2
    show SF (f a)
    rw [h.1, e]; exact .mk' ht

/-- mvn_from_bijector.py: with a floating-point parameter, everything has the dtype `self._dtype`. -/
theorem mvn_agree : ∀ (x64 : Bool) (s t : DT) (w : Bool), (t.isInteger ∨ t.isFloating) →
    (s.isInteger ∨ s.isFloating) → (t.isFloating ∨ s.isFloating) →
    Dist.both x64 (.mvn ⟨t, w⟩ s) =
      .ok (strong (promote x64 (strong s) (strong t)).dt, (promote x64 (strong s) (strong t)).dt) ∧
    (promote x64 (strong s) (strong t)).dt.isFloating := by decide +kernel

end Distrax.DTypes
