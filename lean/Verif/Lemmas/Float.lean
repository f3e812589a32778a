import Verif.Model.FloatDists
import Verif.Lemmas.XR
import Mathlib.Analysis.SpecialFunctions.Log.Basic
import Mathlib.Analysis.SpecialFunctions.Log.Deriv
import Mathlib.Analysis.Complex.ExponentialBounds

/-! Order and range of floating-point operations. -/

namespace Distrax

open XR

namespace XR

theorem leB_fin {x y : ℝ} : leB (fin x) (fin y) ↔ x ≤ y := by simp [leB, ltB, eqB, le_iff_lt_or_eq]
theorem leB_refl {a : XR} (h : a ≠ nan) : leB a a := by cases a <;> simp_all [leB, ltB, eqB]
theorem leB_left {a b : XR} (h : leB a b) : a ≠ nan := by rintro rfl; cases b <;> simp_all [leB, ltB, eqB]
theorem leB_right {a b : XR} (h : leB a b) : b ≠ nan := by rintro rfl; cases a <;> simp_all [leB, ltB, eqB]
theorem leB_trans {a b c : XR} (h : leB a b) (h' : leB b c) : leB a c := by
  cases a <;> cases b <;> cases c <;> (try simp_all [leB_fin]) <;> (try simp_all [leB, ltB, eqB])
  exact le_trans h h'
theorem leB_antisymm {a b : XR} (h : leB a b) (h' : leB b a) : a = b := by
  cases a <;> cases b <;> (try simp_all [leB_fin]) <;> (try simp_all [leB, ltB, eqB])
  exact le_antisymm h h'
theorem leB_total {a b : XR} (h : a ≠ nan) (h' : b ≠ nan) : leB a b ∨ leB b a := by
  cases a <;> cases b <;> (try simp_all [leB_fin]) <;> (try simp_all [leB, ltB, eqB])
  exact le_total _ _
theorem ltB_iff_not {a b : XR} (h : a ≠ nan) (h' : b ≠ nan) : ltB a b ↔ ¬ leB b a := by
  cases a <;> cases b <;> (try simp_all [leB_fin]) <;> (try simp_all [leB, ltB, eqB])
theorem leB_pinf {a : XR} (h : a ≠ nan) : leB a pinf := by cases a <;> simp_all [leB, ltB, eqB]
theorem ninf_leB {a : XR} (h : a ≠ nan) : leB ninf a := by cases a <;> simp_all [leB, ltB, eqB]
theorem leB_ninf {a : XR} (h : leB a ninf) : a = ninf := by cases a <;> simp_all [leB, ltB, eqB]
theorem pinf_leB {a : XR} (h : leB pinf a) : a = pinf := by cases a <;> simp_all [leB, ltB, eqB]
theorem leB_neg {a b : XR} (h : leB a b) : leB (-b) (-a) := by
  cases a <;> cases b <;> (try simp_all [leB_fin]) <;> (try simp_all [leB, ltB, eqB])
theorem leB_add {a b c d : XR} (h : leB a b) (h' : leB c d) (n : a + c ≠ nan) (n' : b + d ≠ nan) : leB (a + c) (b + d) := by
  cases a <;> cases b <;> cases c <;> cases d <;> (try simp_all [leB_fin, HAdd.hAdd, Add.add, add]) <;> (try simp_all [leB, ltB, eqB])
  exact add_le_add h h'
theorem nan_add_iff {a b : XR} : a + b = nan ↔ a = nan ∨ b = nan ∨ (a = pinf ∧ b = ninf) ∨ (a = ninf ∧ b = pinf) := by
  cases a <;> cases b <;> simp [HAdd.hAdd, Add.add, add]
theorem neg_eq_nan {a : XR} : -a = nan ↔ a = nan := by cases a <;> simp
theorem neg_neg' (a : XR) : - -a = a := by cases a <;> simp
theorem neg_eq_iff {a b : XR} : -a = b ↔ a = -b := by cases a <;> cases b <;> simp <;> constructor <;> intro h <;> linarith

end XR

namespace Fmt
variable (F : Fmt)

theorem rd_ne_nan (x : ℝ) : F.rd x ≠ nan := leB_left (F.mono le_rfl)
theorem r_ne_nan {v : XR} (h : v ≠ nan) : F.r v ≠ nan := by cases v <;> simp_all [r, rd_ne_nan]
theorem r_nan_iff {v : XR} : F.r v = nan ↔ v = nan := ⟨fun h => by_contra fun g => F.r_ne_nan g h, fun h => by rw [h]; rfl⟩
theorem r_mono {a b : XR} (h : leB a b) : leB (F.r a) (F.r b) := by
  cases a with
  | nan => exact absurd rfl (leB_left h)
  | ninf => exact ninf_leB (F.r_ne_nan (leB_right h))
  | pinf => rw [pinf_leB h]; exact leB_refl (by simp [r])
  | fin x =>
    cases b with
    | nan => exact absurd rfl (leB_right h)
    | ninf => exact absurd (leB_ninf h) (by simp)
    | pinf => exact leB_pinf (F.rd_ne_nan x)
    | fin y => exact F.mono (leB_fin.1 h)
theorem r_neg (v : XR) : F.r (-v) = -(F.r v) := by cases v <;> simp [r, F.odd]
theorem rd_nat (n : ℕ) (h : n ≤ 16) : F.rd n = fin n := F.small n h
theorem rd_zero : F.rd 0 = fin 0 := by simpa using F.small 0 (by norm_num)
theorem rd_one : F.rd 1 = fin 1 := by simpa using F.small 1 (by norm_num)
theorem rd_two : F.rd 2 = fin 2 := by simpa using F.small 2 (by norm_num)
theorem rd_four : F.rd 4 = fin 4 := by simpa using F.small 4 (by norm_num)
theorem rd_sixteen : F.rd 16 = fin 16 := by simpa using F.small 16 (by norm_num)
theorem rd_nine : F.rd 9 = fin 9 := by simpa using F.small 9 (by norm_num)
theorem rd_neg {x y : ℝ} (h : F.rd x = fin y) : F.rd (-x) = fin (-y) := by rw [F.odd, h]; rfl

end Fmt

namespace FX
variable {F : Fmt} {a b c d : FX F}

theorem ext {a b : FX F} (h : a.1 = b.1) : a = b := Subtype.ext h

/-- Not `nan`. -/
abbrev Num (a : FX F) : Prop := ¬ a.isNan

theorem add_val (a b : FX F) : (a + b).1 = F.r (a.1 + b.1) := rfl
theorem sub_val (a b : FX F) : (a - b).1 = F.r (a.1 - b.1) := rfl
theorem mul_val (a b : FX F) : (a * b).1 = F.r (a.1 * b.1) := rfl
theorem div_val (a b : FX F) : (a / b).1 = F.r (a.1 / b.1) := rfl
theorem neg_val (a : FX F) : (-a).1 = -a.1 := by show F.r (-a.1) = _; rw [F.r_neg, a.2]
theorem le_def : a ≤ b ↔ leB a.1 b.1 := Iff.rfl
theorem lt_def : a < b ↔ ltB a.1 b.1 := Iff.rfl
theorem rep {x : ℝ} (h : a.1 = fin x) : F.rd x = fin x := by have := a.2; rw [h] at this; exact this
theorem abs_le_top {x : ℝ} (h : a.1 = fin x) : |x| ≤ F.top := F.range (rep h)

theorem _root_.LE.le.numL {a b : FX F} (h : a ≤ b) : a.Num := leB_left h
theorem _root_.LE.le.numR {a b : FX F} (h : a ≤ b) : b.Num := leB_right h
theorem _root_.LE.le.tr {a b c : FX F} (h : a ≤ b) (h' : b ≤ c) : a ≤ c := leB_trans h h'
theorem rfl' (h : a.Num) : a ≤ a := leB_refl h
theorem _root_.LE.le.asymm' {a b : FX F} (h : a ≤ b) (h' : b ≤ a) : a = b := ext (leB_antisymm h h')
theorem le_total (h : a.Num) (h' : b.Num) : a ≤ b ∨ b ≤ a := leB_total h h'
theorem lt_iff (h : a.Num) (h' : b.Num) : a < b ↔ ¬ b ≤ a := ltB_iff_not h h'
theorem _root_.LT.lt.toLe {a b : FX F} (h : a < b) : a ≤ b := Or.inl h
theorem finite.num (h : a.finite) : a.Num := by obtain ⟨x, hx⟩ := h; intro g; change a.1 = nan at g; rw [hx] at g; cases g

/-! Literals. -/

theorem lit_val {x y : ℝ} (h : F.rd x = fin y) : (lit x : FX F).1 = fin y := h
@[simp] theorem lit_zero : (lit 0 : FX F).1 = fin 0 := F.rd_zero
@[simp] theorem lit_one : (lit 1 : FX F).1 = fin 1 := F.rd_one
@[simp] theorem lit_two : (lit 2 : FX F).1 = fin 2 := F.rd_two
@[simp] theorem lit_half : (lit (1 / 2) : FX F).1 = fin (1 / 2) := F.half
@[simp] theorem lit_neg_half : (lit (-(1 / 2)) : FX F).1 = fin (-(1 / 2)) := F.rd_neg F.half
@[simp] theorem lit_neg_one : (lit (-1) : FX F).1 = fin (-1) := F.rd_neg F.rd_one
@[simp] theorem lit_neg_two : (lit (-2) : FX F).1 = fin (-2) := F.rd_neg F.rd_two
@[simp] theorem lit_neg_nine : (lit (-9) : FX F).1 = fin (-9) := F.rd_neg F.rd_nine
theorem lit_num (x : ℝ) : (lit x : FX F).Num := F.rd_ne_nan x
theorem lit_le {x y : ℝ} (h : x ≤ y) : (lit x : FX F) ≤ lit y := F.mono h
theorem lit_finite {x : ℝ} (h : |x| ≤ F.top + 8) : (lit x : FX F).finite := F.fits h

/-! Negation. -/

theorem neg_le (h : a ≤ b) : -b ≤ -a := by rw [le_def, neg_val, neg_val]; exact leB_neg h
theorem neg_num : (-a).Num ↔ a.Num := by show ¬ (-a).1 = nan ↔ ¬ a.1 = nan; rw [neg_val, neg_eq_nan]
theorem neg_neg'' (a : FX F) : - -a = a := ext (by rw [neg_val, neg_val, XR.neg_neg'])
theorem neg_zero' : -(lit 0 : FX F) = lit 0 := ext (by rw [neg_val]; simp)
theorem neg_nonpos (h : lit 0 ≤ a) : -a ≤ lit 0 := by have := neg_le h; rwa [neg_zero'] at this
theorem neg_nonneg (h : a ≤ lit 0) : lit 0 ≤ -a := by have := neg_le h; rwa [neg_zero'] at this
theorem neg_finite : (-a).finite ↔ a.finite := by
  constructor <;> rintro ⟨x, hx⟩
  · exact ⟨-x, by rw [neg_val] at hx; rw [neg_eq_iff] at hx; rw [hx]; rfl⟩
  · exact ⟨-x, by rw [neg_val, hx]; rfl⟩

/-! Addition and subtraction. -/

theorem sub_eq (a b : FX F) : a - b = a + -b := ext (by rw [sub_val, add_val, neg_val]; rfl)
theorem add_comm' (a b : FX F) : a + b = b + a := ext (by rw [add_val, add_val, add_comm])
theorem add_num_iff : (a + b).Num ↔ a.Num ∧ b.Num ∧ ¬ (a.1 = pinf ∧ b.1 = ninf) ∧ ¬ (a.1 = ninf ∧ b.1 = pinf) := by
  show ¬ (a + b).1 = nan ↔ ¬ a.1 = nan ∧ ¬ b.1 = nan ∧ _
  rw [add_val, F.r_nan_iff, nan_add_iff]; tauto
theorem add_le_add (h : a ≤ b) (h' : c ≤ d) (n : (a + c).Num) (n' : (b + d).Num) : a + c ≤ b + d := by
  change ¬ (a + c).1 = nan at n
  change ¬ (b + d).1 = nan at n'
  rw [add_val, F.r_nan_iff] at n n'
  exact F.r_mono (leB_add h h' n n')
theorem add_zero' (a : FX F) : a + lit 0 = a := ext (by
  rw [add_val, lit_zero, show fin 0 = (0 : XR) from rfl, add_zero, a.2])
theorem zero_add' (a : FX F) : lit 0 + a = a := by rw [add_comm', add_zero']
theorem add_num_fin (h : a.finite) (h' : b.Num) : (a + b).Num := by
  obtain ⟨x, hx⟩ := h
  rw [add_num_iff, hx]; refine ⟨finite.num ⟨x, hx⟩, h', ?_, ?_⟩ <;> simp
theorem add_num_fin' (h : a.Num) (h' : b.finite) : (a + b).Num := by rw [add_comm']; exact add_num_fin h' h
theorem sub_num_fin (h : a.finite) (h' : b.Num) : (a - b).Num := by rw [sub_eq]; exact add_num_fin h (neg_num.2 h')
theorem sub_num_fin' (h : a.Num) (h' : b.finite) : (a - b).Num := by rw [sub_eq]; exact add_num_fin' h (neg_finite.2 h')

theorem ne_pinf_of_le {x : ℝ} (h : a ≤ lit x) (hx : |x| ≤ F.top + 8) : a.1 ≠ pinf := by
  intro g; obtain ⟨y, hy⟩ := lit_finite (F := F) hx
  rw [le_def, g] at h; rw [pinf_leB h] at hy; cases hy
theorem ne_ninf_of_le {x : ℝ} (h : lit x ≤ a) (hx : |x| ≤ F.top + 8) : a.1 ≠ ninf := by
  intro g; obtain ⟨y, hy⟩ := lit_finite (F := F) hx
  rw [le_def, g] at h; rw [leB_ninf h] at hy; cases hy
theorem zero_fits : |(0 : ℝ)| ≤ F.top + 8 := by have := F.top_ge; simp; linarith
theorem one_fits : |(1 : ℝ)| ≤ F.top + 8 := by have := F.top_ge; simp; linarith

theorem add_num_nonpos (h : a ≤ lit 0) (h' : b ≤ lit 0) : (a + b).Num := by
  rw [add_num_iff]
  exact ⟨h.numL, h'.numL, fun g => ne_pinf_of_le h zero_fits g.1, fun g => ne_pinf_of_le h' zero_fits g.2⟩
theorem add_num_nonneg (h : lit 0 ≤ a) (h' : lit 0 ≤ b) : (a + b).Num := by
  rw [add_num_iff]
  exact ⟨h.numR, h'.numR, fun g => ne_ninf_of_le h' zero_fits g.2, fun g => ne_ninf_of_le h zero_fits g.1⟩
theorem add_nonpos (h : a ≤ lit 0) (h' : b ≤ lit 0) : a + b ≤ lit 0 := by
  have := add_le_add h h' (add_num_nonpos h h') (by rw [add_zero']; exact lit_num 0)
  rwa [add_zero'] at this
theorem add_nonneg (h : lit 0 ≤ a) (h' : lit 0 ≤ b) : lit 0 ≤ a + b := by
  have := add_le_add h h' (by rw [add_zero']; exact lit_num 0) (add_num_nonneg h h')
  rwa [add_zero'] at this
/-- Adding a nonnegative number to a number above `-inf` does not decrease it. -/
theorem le_add (h : a.Num) (h0 : a.1 ≠ ninf) (h' : lit 0 ≤ b) : a ≤ a + b := by
  have n : (a + b).Num := add_num_iff.2 ⟨h, h'.numR, fun g => ne_ninf_of_le h' zero_fits g.2, fun g => h0 g.1⟩
  have := add_le_add (rfl' h) h' (by rw [add_zero']; exact h) n
  rwa [add_zero'] at this
/-- Adding a nonpositive number to a number below `+inf` does not increase it. -/
theorem add_le (h : a.Num) (h0 : a.1 ≠ pinf) (h' : b ≤ lit 0) : a + b ≤ a := by
  have n : (a + b).Num := add_num_iff.2 ⟨h, h'.numL, fun g => h0 g.1, fun g => ne_pinf_of_le h' zero_fits g.2⟩
  have := add_le_add (rfl' h) h' n (by rw [add_zero']; exact h)
  rwa [add_zero'] at this
theorem sub_nonpos (h : a ≤ b) (n : (a - b).Num) : a - b ≤ lit 0 := by
  change ¬ (a - b).1 = nan at n
  rw [sub_val, F.r_nan_iff] at n
  rw [le_def, sub_val, lit_zero, ← F.rd_zero]
  refine F.r_mono (b := fin 0) ?_
  rw [le_def] at h
  generalize a.1 = x at *; generalize b.1 = y at *
  cases x <;> cases y <;> simp_all [leB_fin, XR.sub_def] <;> simp_all [leB, ltB, eqB, HAdd.hAdd, Add.add, add]
theorem sub_nonneg (h : b ≤ a) (n : (a - b).Num) : lit 0 ≤ a - b := by
  change ¬ (a - b).1 = nan at n
  rw [sub_val, F.r_nan_iff] at n
  rw [le_def, sub_val, lit_zero, ← F.rd_zero]
  refine F.r_mono (a := fin 0) ?_
  rw [le_def] at h
  generalize a.1 = x at *; generalize b.1 = y at *
  cases x <;> cases y <;> simp_all [leB_fin, XR.sub_def] <;> simp_all [leB, ltB, eqB, HAdd.hAdd, Add.add, add]
theorem sub_self' (h : a.finite) : a - a = lit 0 := by
  obtain ⟨x, hx⟩ := h
  exact ext (by rw [sub_val, hx, fin_sub, sub_self, lit_zero]; exact F.rd_zero)

/-! Functions. -/

theorem fn_mono {f : ℝ → XR} {p n : XR} (hf : ∀ x y, x ≤ y → leB (f x) (f y)) (hp : ∀ x, leB (f x) p) (hn : ∀ x, leB n (f x))
    (h : a ≤ b) : fn f p n a ≤ fn f p n b := by
  rw [le_def] at h
  refine F.r_mono ?_
  generalize a.1 = x at *; generalize b.1 = y at *
  have hnp := leB_trans (hn 0) (hp 0)
  have h1 := leB_refl (leB_right hnp)
  have h2 := leB_refl (leB_left hnp)
  cases x <;> cases y <;> (try simp_all [leB_fin]) <;> (try simp_all [leB, ltB, eqB])

theorem exp_mono (h : a ≤ b) : exp a ≤ exp b :=
  fn_mono (fun _ _ h => leB_fin.2 (Real.exp_le_exp.2 h)) (fun _ => leB_pinf (by simp)) (fun _ => leB_fin.2 (Real.exp_pos _).le) h
theorem expm1_mono (h : a ≤ b) : expm1 a ≤ expm1 b :=
  fn_mono (fun _ _ h => leB_fin.2 (by have := Real.exp_le_exp.2 h; linarith)) (fun _ => leB_pinf (by simp))
    (fun x => leB_fin.2 (by have := Real.exp_pos x; linarith)) h
theorem sigmoid_mono (h : a ≤ b) : sigmoid a ≤ sigmoid b :=
  fn_mono (fun x y h => leB_fin.2 (by
      have := Real.exp_pos (-y)
      exact one_div_le_one_div_of_le (by linarith) (by have := Real.exp_le_exp.2 (neg_le_neg h); linarith)))
    (fun x => leB_fin.2 (by
      have := Real.exp_pos (-x)
      rw [div_le_one (by linarith)]; linarith)) (fun x => leB_fin.2 (by positivity)) h
theorem tanh_mono (h : a ≤ b) : tanh a ≤ tanh b :=
  fn_mono (fun x y h => leB_fin.2 (by
      have := Real.exp_pos (2 * x)
      have h2 : Real.exp (2 * x) ≤ Real.exp (2 * y) := Real.exp_le_exp.2 (by linarith)
      have : 2 / (Real.exp (2 * y) + 1) ≤ 2 / (Real.exp (2 * x) + 1) := div_le_div_of_nonneg_left (by norm_num) (by linarith) (by linarith)
      linarith))
    (fun x => leB_fin.2 (by have : 0 < 2 / (Real.exp (2 * x) + 1) := by positivity
                            linarith))
    (fun x => leB_fin.2 (by
      have := Real.exp_pos (2 * x)
      have : 2 / (Real.exp (2 * x) + 1) ≤ 2 := by rw [div_le_iff₀ (by linarith)]; linarith
      linarith)) h
theorem floor_mono (h : a ≤ b) : floor a ≤ floor b :=
  fn_mono (fun _ _ h => leB_fin.2 (by exact_mod_cast Int.floor_le_floor h)) (fun _ => leB_pinf (by simp)) (fun _ => ninf_leB (by simp)) h

theorem xlog_mono {x y : ℝ} (h0 : 0 ≤ x) (h : x ≤ y) : leB (XR.log (fin x)) (XR.log (fin y)) := by
  rcases h0.eq_or_lt with rfl | h0
  · rw [XR.log_fin_zero]
    refine ninf_leB ?_
    rcases h.eq_or_lt with rfl | h
    · simp
    · rw [XR.log_fin_pos h]; simp
  · rw [XR.log_fin_pos h0, XR.log_fin_pos (lt_of_lt_of_le h0 h)]
    exact leB_fin.2 (Real.log_le_log h0 h)

theorem log_mono (h0 : lit 0 ≤ a) (h : a ≤ b) : log a ≤ log b := by
  rw [le_def] at h h0; rw [lit_zero] at h0
  refine F.r_mono ?_
  generalize a.1 = x at *; generalize b.1 = y at *
  cases x with
  | nan => exact absurd rfl (leB_left h)
  | ninf => exact absurd (leB_ninf h0) (by simp)
  | pinf => rw [pinf_leB h]; exact leB_refl (by simp)
  | fin x =>
    rw [leB_fin] at h0
    cases y with
    | nan => exact absurd rfl (leB_right h)
    | ninf => exact absurd (leB_ninf h) (by simp)
    | pinf => exact leB_pinf (leB_right (xlog_mono h0 le_rfl))
    | fin y => exact xlog_mono h0 (leB_fin.1 h)

theorem log1p_mono (h0 : lit (-1) ≤ a) (h : a ≤ b) : log1p a ≤ log1p b := by
  rw [le_def] at h h0; rw [lit_neg_one] at h0
  refine F.r_mono ?_
  generalize a.1 = x at *; generalize b.1 = y at *
  cases x with
  | nan => exact absurd rfl (leB_left h)
  | ninf => exact absurd (leB_ninf h0) (by simp)
  | pinf => rw [pinf_leB h]; exact leB_refl (by simp)
  | fin x =>
    rw [leB_fin] at h0
    cases y with
    | nan => exact absurd rfl (leB_right h)
    | ninf => exact absurd (leB_ninf h) (by simp)
    | pinf => exact leB_pinf (leB_right (xlog_mono (by linarith) le_rfl))
    | fin y => exact xlog_mono (by linarith) (by have := leB_fin.1 h; linarith)

theorem fn_val {f : ℝ → XR} {p n : XR} {x : ℝ} (h : a.1 = fin x) : (fn f p n a).1 = F.r (f x) := by
  show F.r (match a.1 with | fin x => f x | pinf => p | ninf => n | nan => nan) = _
  rw [h]
theorem fn_pinf {f : ℝ → XR} {p n : XR} (h : a.1 = pinf) : (fn f p n a).1 = F.r p := by
  show F.r (match a.1 with | fin x => f x | pinf => p | ninf => n | nan => nan) = _
  rw [h]
theorem fn_ninf {f : ℝ → XR} {p n : XR} (h : a.1 = ninf) : (fn f p n a).1 = F.r n := by
  show F.r (match a.1 with | fin x => f x | pinf => p | ninf => n | nan => nan) = _
  rw [h]
theorem fn_nan {f : ℝ → XR} {p n : XR} (h : a.1 = nan) : (fn f p n a).1 = nan := by
  show F.r (match a.1 with | fin x => f x | pinf => p | ninf => n | nan => nan) = _
  rw [h]; rfl

theorem exp_nonneg (h : a.Num) : lit 0 ≤ exp a := by
  have : (negInf : FX F) ≤ a := ninf_leB h
  have := exp_mono this
  rwa [show exp (negInf : FX F) = lit 0 from ext (fn_ninf rfl)] at this
theorem exp_num (h : a.Num) : (exp a).Num := (exp_nonneg h).numR
theorem exp_zero : exp (lit 0 : FX F) = lit 1 := ext (by rw [exp, fn_val lit_zero, Real.exp_zero]; rfl)
theorem exp_le_one (h : a ≤ lit 0) : exp a ≤ lit 1 := by have := exp_mono h; rwa [exp_zero] at this
theorem log_one : log (lit 1 : FX F) = lit 0 := ext (by
  rw [log, fn_val lit_one, XR.log_fin_pos one_pos, Real.log_one]; rfl)
theorem log1p_zero : log1p (lit 0 : FX F) = lit 0 := ext (by
  rw [log1p, fn_val lit_zero, add_zero, XR.log_fin_pos one_pos, Real.log_one]; rfl)
theorem log_nonneg (h : lit 1 ≤ a) : lit 0 ≤ log a := by
  have := log_mono (lit_le zero_le_one) h; rwa [log_one] at this
theorem log_nonpos (h0 : lit 0 ≤ a) (h : a ≤ lit 1) : log a ≤ lit 0 := by
  have := log_mono h0 h; rwa [log_one] at this
theorem log1p_nonneg (h : lit 0 ≤ a) : lit 0 ≤ log1p a := by
  have := log1p_mono (lit_le (by norm_num)) h; rwa [log1p_zero] at this
theorem log1p_nonpos (h0 : lit (-1) ≤ a) (h : a ≤ lit 0) : log1p a ≤ lit 0 := by
  have := log1p_mono h0 h; rwa [log1p_zero] at this
theorem sigmoid_mem (h : a.Num) : lit 0 ≤ sigmoid a ∧ sigmoid a ≤ lit 1 := by
  have h1 : (negInf : FX F) ≤ a := ninf_leB h
  have h2 : a ≤ (posInf : FX F) := leB_pinf h
  have e1 : sigmoid (negInf : FX F) = lit 0 := ext (fn_ninf rfl)
  have e2 : sigmoid (posInf : FX F) = lit 1 := ext (fn_pinf rfl)
  exact ⟨e1 ▸ sigmoid_mono h1, e2 ▸ sigmoid_mono h2⟩
theorem tanh_mem (h : a.Num) : lit (-1) ≤ tanh a ∧ tanh a ≤ lit 1 := by
  have h1 : (negInf : FX F) ≤ a := ninf_leB h
  have h2 : a ≤ (posInf : FX F) := leB_pinf h
  have e1 : tanh (negInf : FX F) = lit (-1) := ext (fn_ninf rfl)
  have e2 : tanh (posInf : FX F) = lit 1 := ext (fn_pinf rfl)
  exact ⟨e1 ▸ tanh_mono h1, e2 ▸ tanh_mono h2⟩

theorem abs_val (h : a.Num) : (abs a).1 = a.1 ∧ lit 0 ≤ a ∨ (abs a).1 = -a.1 ∧ a ≤ lit 0 := by
  cases e : a.1 with
  | nan => exact absurd e h
  | pinf => exact .inl ⟨fn_pinf e, by rw [le_def, e]; exact leB_pinf (lit_num 0)⟩
  | ninf => exact .inr ⟨fn_ninf e, by rw [le_def, e]; exact ninf_leB (lit_num 0)⟩
  | fin x =>
    rcases _root_.le_total 0 x with hx | hx
    · refine .inl ⟨?_, by rw [le_def, e, lit_zero]; exact leB_fin.2 hx⟩
      rw [abs, fn_val e, abs_of_nonneg hx]; exact rep e
    · refine .inr ⟨?_, by rw [le_def, e, lit_zero]; exact leB_fin.2 hx⟩
      rw [abs, fn_val e, abs_of_nonpos hx]; exact F.rd_neg (rep e)
theorem abs_cases (h : a.Num) : abs a = a ∧ lit 0 ≤ a ∨ abs a = -a ∧ a ≤ lit 0 := by
  rcases abs_val h with ⟨g, g'⟩ | ⟨g, g'⟩
  · exact .inl ⟨ext g, g'⟩
  · exact .inr ⟨ext (by rw [g, neg_val]), g'⟩
theorem abs_nonneg (h : a.Num) : lit 0 ≤ abs a := by
  rcases abs_cases h with ⟨e, g⟩ | ⟨e, g⟩ <;> rw [e]
  · exact g
  · exact neg_nonneg g

open Classical in
theorem max_val (h : a.Num) (h' : b.Num) : max a b = b ∧ a ≤ b ∨ max a b = a ∧ b ≤ a := by
  have e : (max a b).1 = F.r (if ltB a.1 b.1 then b.1 else a.1) := by
    show F.r (XR.max a.1 b.1) = _
    congr 1
    unfold XR.max
    have h1 : a.1 ≠ nan := h
    have h2 : b.1 ≠ nan := h'
    revert h1 h2
    generalize a.1 = x; generalize b.1 = y
    intro h1 h2
    cases x <;> cases y <;> simp_all
  by_cases g : ltB a.1 b.1
  · rw [if_pos g, b.2] at e; exact .inl ⟨ext e, .inl g⟩
  · rw [if_neg g, a.2] at e
    refine .inr ⟨ext e, ?_⟩
    by_contra k
    exact g ((ltB_iff_not h h').2 k)

/-! `logaddexp` and `softplus`. -/

theorem logaddexp_num (h : a.Num) (h' : b.Num) (ha : a.1 ≠ pinf) (hb : b.1 ≠ pinf) :
    a ≤ logaddexp a b ∧ b ≤ logaddexp a b := by
  unfold logaddexp
  simp only [whr]
  split_ifs with g
  · -- both are `-inf`
    have : a.1 = ninf ∧ b.1 = ninf := by
      change (a - b).1 = nan at g
      rw [sub_val, F.r_nan_iff] at g
      have h1 : a.1 ≠ nan := h
      have h2 : b.1 ≠ nan := h'
      revert g h1 h2 ha hb
      generalize a.1 = x; generalize b.1 = y
      intro ha hb g h1 h2
      cases x <;> cases y <;> simp_all [XR.sub_def, HAdd.hAdd, Add.add, add]
    obtain ⟨e1, e2⟩ := this
    have e : a + b = (negInf : FX F) := ext (by rw [add_val, e1, e2]; rfl)
    rw [e]
    exact ⟨by rw [le_def, e1]; exact ninf_leB (by simp [negInf]), by rw [le_def, e2]; exact ninf_leB (by simp [negInf])⟩
  · have n1 : (abs (a - b)).Num := (abs_nonneg g).numR
    have l : lit 0 ≤ log1p (exp (-(abs (a - b)))) := log1p_nonneg (exp_nonneg (neg_num.2 n1))
    have l' : log1p (exp (-(abs (a - b)))) ≤ log1p (lit 1) :=
      log1p_mono (LE.le.tr (lit_le (by norm_num)) (exp_nonneg (neg_num.2 n1))) (exp_le_one (neg_nonpos (abs_nonneg g)))
    have key : ∀ m : FX F, m.Num → m.1 ≠ pinf → m ≤ m + log1p (exp (-(abs (a - b)))) := by
      intro m hm hp
      by_cases hi : m.1 = ninf
      · rw [le_def, hi]
        refine ninf_leB (show (m + log1p (exp (-(abs (a - b))))).Num from add_num_iff.2 ⟨hm, l.numR, fun g => hp g.1, fun k => ?_⟩)
        rw [le_def, k.2] at l'
        have e : (log1p (lit 1 : FX F)).finite := by
          rw [finite, log1p, fn_val lit_one, XR.log_fin_pos (by norm_num)]
          refine F.fits ?_
          have := F.top_ge
          have h2 := Real.log_two_lt_d9
          have h0 := Real.log_two_gt_d9
          rw [show (1 : ℝ) + 1 = 2 by norm_num, abs_of_pos (by linarith)]; linarith
        obtain ⟨x, hx⟩ := e
        rw [pinf_leB l'] at hx; cases hx
      · exact le_add hm hi l
    rcases max_val h h' with ⟨e, g'⟩ | ⟨e, g'⟩ <;> rw [e]
    · exact ⟨g'.tr (key b h' hb), key b h' hb⟩
    · exact ⟨key a h ha, g'.tr (key a h ha)⟩

theorem softplus_pinf (h : a.1 = pinf) : (softplus a).1 = pinf := by
  have hn : a.Num := by show a.1 ≠ nan; rw [h]; simp
  have d : (a - lit 0).1 = pinf := by rw [sub_val, h, lit_zero]; rfl
  have e : (abs (a - lit 0)).1 = pinf := by rw [abs, fn_pinf d]; rfl
  have e2 : (exp (-(abs (a - lit 0)))) = lit 0 := ext (by rw [exp, fn_ninf (by rw [neg_val, e]; rfl)]; rfl)
  unfold softplus logaddexp
  simp only [whr]
  rw [if_neg (by show ¬ _ = nan; rw [d]; simp), e2, log1p_zero, add_zero']
  rcases max_val hn (lit_num 0) with ⟨g, g'⟩ | ⟨g, g'⟩
  · rw [le_def, h] at g'; have := pinf_leB g'; simp at this
  · rw [g, h]

theorem softplus_ninf (h : a.1 = ninf) : softplus a = lit 0 := by
  have hn : a.Num := by show a.1 ≠ nan; rw [h]; simp
  have d : (a - lit 0).1 = ninf := by rw [sub_val, h, lit_zero]; rfl
  have e : (abs (a - lit 0)).1 = pinf := by rw [abs, fn_ninf d]; rfl
  have e2 : (exp (-(abs (a - lit 0)))) = lit 0 := ext (by rw [exp, fn_ninf (by rw [neg_val, e]; rfl)]; rfl)
  unfold softplus logaddexp
  simp only [whr]
  rw [if_neg (by show ¬ _ = nan; rw [d]; simp), e2, log1p_zero, add_zero']
  rcases max_val hn (lit_num 0) with ⟨g, g'⟩ | ⟨g, g'⟩
  · rw [g]
  · rw [le_def, h] at g'; have := leB_ninf g'; simp at this

theorem log1p_exp_le (h : a ≤ lit 0) : lit 0 ≤ log1p (exp a) ∧ log1p (exp a) ≤ lit 1 := by
  refine ⟨log1p_nonneg (exp_nonneg h.numL), LE.le.tr (log1p_mono (LE.le.tr (lit_le (by norm_num)) (exp_nonneg h.numL)) (exp_le_one h)) ?_⟩
  rw [le_def, log1p, fn_val lit_one, XR.log_fin_pos (by norm_num)]
  refine F.mono ?_
  have h2 := Real.log_two_lt_d9
  rw [show (1 : ℝ) + 1 = 2 by norm_num]; linarith

/-- A finite number plus something in `[0, 1]` is finite: the format absorbs small additions at the top. -/
theorem add_small_finite (ha : a.finite) (h0 : lit 0 ≤ b) (h1 : b ≤ lit 1) : (a + b).finite := by
  obtain ⟨x, hx⟩ := ha
  obtain ⟨y, hy⟩ : b.finite := by
    cases e : b.1 with
    | nan => exact absurd e h0.numR
    | pinf => exact absurd e (ne_pinf_of_le h1 one_fits)
    | ninf => exact absurd e (ne_ninf_of_le h0 zero_fits)
    | fin y => exact ⟨y, e⟩
  rw [le_def, lit_zero, hy, leB_fin] at h0
  rw [le_def, lit_one, hy, leB_fin] at h1
  rw [finite, add_val, hx, hy]
  refine F.fits ?_
  have := abs_le.1 (abs_le_top hx)
  rw [abs_le]; constructor <;> linarith

/-- `softplus` of a finite float is finite, nonnegative and at least its argument. -/
theorem softplus_finite (h : a.finite) : (softplus a).finite ∧ lit 0 ≤ softplus a ∧ a ≤ softplus a := by
  have hp : a.1 ≠ pinf := by obtain ⟨x, hx⟩ := h; rw [hx]; simp
  obtain ⟨l1, l2⟩ := logaddexp_num h.num (lit_num 0) hp (by simp)
  refine ⟨?_, l2, l1⟩
  have f0 : (lit 0 : FX F).finite := ⟨0, lit_zero⟩
  have hd : (a - lit 0).Num := sub_num_fin h (lit_num 0)
  unfold softplus logaddexp
  simp only [whr]
  rw [if_neg hd]
  obtain ⟨m0, m1⟩ := log1p_exp_le (neg_nonpos (abs_nonneg hd))
  rcases max_val h.num (lit_num 0) with ⟨e, -⟩ | ⟨e, -⟩ <;> rw [e]
  · exact add_small_finite f0 m0 m1
  · exact add_small_finite h m0 m1

theorem softplus_nonneg (h : a.Num) : lit 0 ≤ softplus a := by
  cases e : a.1 with
  | nan => exact absurd e h
  | pinf => rw [le_def, softplus_pinf e]; exact leB_pinf (lit_num 0)
  | ninf => rw [softplus_ninf e]; exact rfl' (lit_num 0)
  | fin x => exact (softplus_finite ⟨x, e⟩).2.1

/-! Sums in any order. -/

theorem sums_nonneg {xs : List (FX F)} {s : FX F} (h : SumsTo xs s) (h0 : ∀ x ∈ xs, lit 0 ≤ x) :
    lit 0 ≤ s ∧ ∀ x ∈ xs, x ≤ s := by
  induction h with
  | one a => exact ⟨h0 a (by simp), fun x hx => by rw [List.mem_singleton.1 hx]; exact rfl' (h0 a (by simp)).numR⟩
  | @add xs ys a b _ _ iha ihb =>
    obtain ⟨a0, ax⟩ := iha fun x hx => h0 x (by simp [hx])
    obtain ⟨b0, bx⟩ := ihb fun x hx => h0 x (by simp [hx])
    refine ⟨add_nonneg a0 b0, fun x hx => ?_⟩
    rcases List.mem_append.1 hx with hx | hx
    · exact (ax x hx).tr (le_add a0.numR (ne_ninf_of_le a0 zero_fits) b0)
    · rw [add_comm']; exact (bx x hx).tr (le_add b0.numR (ne_ninf_of_le b0 zero_fits) a0)
  | perm hp _ ih =>
    obtain ⟨a0, ax⟩ := ih fun x hx => h0 x (hp.mem_iff.1 hx)
    exact ⟨a0, fun x hx => ax x (hp.mem_iff.2 hx)⟩

theorem sums_nonpos {xs : List (FX F)} {s : FX F} (h : SumsTo xs s) (h0 : ∀ x ∈ xs, x ≤ lit 0) : s ≤ lit 0 := by
  induction h with
  | one a => exact h0 a (by simp)
  | add _ _ iha ihb => exact add_nonpos (iha fun x hx => h0 x (by simp [hx])) (ihb fun x hx => h0 x (by simp [hx]))
  | perm hp _ ih => exact ih fun x hx => h0 x (hp.mem_iff.1 hx)

/-! Products and quotients. -/

theorem fin_or (h : a.Num) : a.finite ∨ a.1 = pinf ∨ a.1 = ninf := by
  cases e : a.1 with
  | nan => exact absurd e h
  | pinf => exact .inr (.inl rfl)
  | ninf => exact .inr (.inr rfl)
  | fin x => exact .inl ⟨x, e⟩

/-- A float between two finite literals is finite. -/
theorem finite_of_le {x y : ℝ} (h1 : lit x ≤ a) (h2 : a ≤ lit y) (hx : |x| ≤ F.top + 8) (hy : |y| ≤ F.top + 8) : a.finite := by
  rcases fin_or h1.numR with h | h | h
  · exact h
  · exact absurd h (ne_pinf_of_le h2 hy)
  · exact absurd h (ne_ninf_of_le h1 hx)

theorem xmul_pos_le {x y : XR} {c : ℝ} (hc : 0 < c) (h : leB x y) : leB (fin c * x) (fin c * y) := by
  cases x <;> cases y <;> first
    | exact absurd rfl (leB_left h)
    | exact absurd rfl (leB_right h)
    | (rw [leB_fin] at h; exact leB_fin.2 (mul_le_mul_of_nonneg_left h hc.le))
    | (simp_all [HMul.hMul, Mul.mul, mul, infOf, leB, ltB, eqB]; done)
    | (simp_all [HMul.hMul, Mul.mul, mul, infOf, leB, ltB, eqB, not_lt.2 hc.le])

theorem mul_pos_mono {x : ℝ} (hc : c.1 = fin x) (hx : 0 < x) (h : a ≤ b) : c * a ≤ c * b := by
  rw [le_def, mul_val, mul_val, hc]; exact F.r_mono (xmul_pos_le hx h)

theorem mul_pos_zero {x : ℝ} (hc : c.1 = fin x) : c * lit 0 = lit 0 := ext (by
  rw [mul_val, hc, lit_zero, fin_mul, mul_zero]; exact F.rd_zero)

theorem xmul_comm (x y : XR) : x * y = y * x := by
  cases x <;> cases y <;> first
    | rfl
    | exact congrArg fin (_root_.mul_comm _ _)
theorem mul_comm' (a b : FX F) : a * b = b * a := ext (by rw [mul_val, mul_val, xmul_comm])
theorem mul_one' (a : FX F) : a * lit 1 = a := ext (by
  rw [mul_val, lit_one]
  conv_rhs => rw [← a.2]
  congr 1
  generalize a.1 = x
  cases x with
  | fin x => exact congrArg fin (_root_.mul_one x)
  | _ => simp [HMul.hMul, Mul.mul, mul, infOf])
theorem one_mul' (a : FX F) : lit 1 * a = a := by rw [mul_comm', mul_one']

theorem square_nonneg (h : a.Num) : lit 0 ≤ square a := by
  have : (square a).1 = F.r (a.1 * a.1) := rfl
  rw [le_def, this, lit_zero, ← F.rd_zero]
  refine F.r_mono (a := fin 0) ?_
  cases e : a.1 with
  | nan => exact absurd e h
  | pinf => simp [HMul.hMul, Mul.mul, mul, leB, ltB]
  | ninf => simp [HMul.hMul, Mul.mul, mul, leB, ltB]
  | fin x => exact leB_fin.2 (mul_self_nonneg x)

theorem neg_half_mul (h : lit 0 ≤ a) : lit (-(1 / 2)) * a ≤ lit 0 := by
  rw [le_def, mul_val, lit_neg_half, lit_zero, ← F.rd_zero]
  refine F.r_mono (b := fin 0) ?_
  rw [le_def, lit_zero] at h
  revert h; generalize a.1 = x; intro h
  cases x with
  | nan => exact absurd rfl (leB_right h)
  | ninf => exact absurd (leB_ninf h) (by simp)
  | pinf => norm_num [HMul.hMul, Mul.mul, mul, infOf, leB, ltB]
  | fin x => rw [leB_fin] at h; exact leB_fin.2 (by linarith)

theorem xdiv_pos_le {x y : XR} {c : ℝ} (hc : 0 < c) (h : leB x y) : leB (x / fin c) (y / fin c) := by
  cases x <;> cases y <;> first
    | exact absurd rfl (leB_left h)
    | exact absurd rfl (leB_right h)
    | (rw [leB_fin] at h; rw [XR.div_fin hc.ne', XR.div_fin hc.ne']; exact leB_fin.2 (div_le_div_of_nonneg_right h hc.le))
    | (simp_all [HDiv.hDiv, Div.div, div, leB, ltB, eqB, not_lt.2 hc.le, hc.ne'])

theorem div_pos_mono {x : ℝ} (hc : c.1 = fin x) (hx : 0 < x) (h : a ≤ b) : a / c ≤ b / c := by
  rw [le_def, div_val, div_val, hc]; exact F.r_mono (xdiv_pos_le hx h)
theorem zero_div' {x : ℝ} (hc : c.1 = fin x) (hx : 0 < x) : lit 0 / c = lit 0 := ext (by
  rw [div_val, hc, lit_zero, XR.div_fin hx.ne', zero_div]; exact F.rd_zero)
theorem neg_div' {x : ℝ} (hc : c.1 = fin x) (hx : 0 < x) : -a / c = -(a / c) := ext (by
  rw [neg_val, div_val, neg_val, div_val, ← F.r_neg, hc]
  congr 1
  generalize a.1 = y
  cases y with
  | fin y => rw [neg_fin, XR.div_fin hx.ne', XR.div_fin hx.ne', neg_fin, neg_div]
  | _ => simp [HDiv.hDiv, Div.div, div, not_lt.2 hx.le])

/-- The logarithm of a positive finite float is finite. -/
theorem log_finite {x : ℝ} (h : a.1 = fin x) (hx : 0 < x) : ∃ y, (log a).1 = fin y ∧ |y| ≤ F.lb := by
  have e : (log a).1 = F.rd (Real.log x) := by rw [log, fn_val h, XR.log_fin_pos hx]; rfl
  have hl := F.logs (rep h) hx
  have ht := F.top_ge
  have h0 := (_root_.abs_nonneg (Real.log x)).trans hl
  have hb := F.lb_le
  obtain ⟨y, hy⟩ := F.fits (x := Real.log x) (by linarith)
  refine ⟨y, by rw [e, hy], ?_⟩
  have m1 := F.mono (abs_le.1 hl).2
  have m2 := F.mono (abs_le.1 hl).1
  rw [hy, F.lb_rep, leB_fin] at m1
  rw [hy, F.rd_neg F.lb_rep, leB_fin] at m2
  exact abs_le.2 ⟨m2, m1⟩

end FX

end Distrax
