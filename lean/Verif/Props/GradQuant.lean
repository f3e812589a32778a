import Verif.Spec.GradQuant
import Verif.Props.Grad
import Mathlib.Analysis.SpecialFunctions.Log.Deriv

/-! # C66 for Quantized and Clipped: gradients next to the cutoffs -/

namespace Distrax

open XR Spec Grad

noncomputable section

/-! ### The differentiated programs compute the modelled methods -/

/-- The values are those of the model of `Quantized.log_prob`, for every base, cutoffs, `eps` and value. -/
theorem C66_quantized_values (d : Quantized) (pc ps : ℝ → XR → XR) (v : ℝ) :
    (quantLogProb d.low d.high d.eps (fun y => (d.base.logCdf y, pc y)) (fun y => (d.base.logSurvival y, ps y)) v).1 =
      d.logProb v := by
  obtain ⟨b, low, high, eps⟩ := d
  have hc : ∀ w, (quantLogCdf low high (fun y => (b.logCdf y, pc y)) w).1 = Quantized.logCdf ⟨b, low, high, eps⟩ w := by
    intro w
    cases low <;> cases high <;>
      simp only [quantLogCdf, Quantized.logCdf, Quantized.ifBelow, Quantized.ifNotBelow, whereC, sel] <;>
      split_ifs <;> simp_all
  have hs : ∀ w, (quantLogSurvival low high (fun y => (b.logSurvival y, ps y)) w).1 =
      Quantized.logSurvival ⟨b, low, high, eps⟩ w := by
    intro w
    cases low <;> cases high <;>
      simp only [quantLogSurvival, Quantized.logSurvival, Quantized.ifBelow, Quantized.ifNotBelow, whereC, sel] <;>
      split_ifs <;> simp_all
  simp only [quantLogProb, Quantized.logProb]
  rw [← hc v, ← hc (v - 1), ← hs v, ← hs (v - 1)]
  generalize (quantLogCdf low high (fun y => (b.logCdf y, pc y)) v).1 = x1
  generalize (quantLogCdf low high (fun y => (b.logCdf y, pc y)) (v - 1)).1 = x2
  generalize (quantLogSurvival low high (fun y => (b.logSurvival y, ps y)) v).1 = x3
  generalize (quantLogSurvival low high (fun y => (b.logSurvival y, ps y)) (v - 1)).1 = x4
  by_cases ho : Quantized.isInf x1 ∨ Quantized.isInf x4
  · exact (XR.sel_pos ho).trans (if_pos ho).symm
  refine (XR.sel_neg ho).trans (Eq.trans ?_ (if_neg ho).symm)
  by_cases hv : v > (⌊v⌋ : ℤ)
  · exact (XR.sel_neg (by simpa using hv)).trans (if_pos hv).symm
  · exact (XR.sel_pos hv).trans (if_neg hv).symm

/-! ### Pieces -/

/-- What is known of the four differentiated numbers `log_prob` starts from: `log q` with its gradient, or a constant
`-inf` through which no cotangent passes. -/
structure Piece (q : ℝ → ℝ) (q' θ : ℝ) (r : RevP) : Prop where
  deriv : HasDerivAt q q' θ
  val : r.1 = XR.log (fin (q θ))
  nonneg : 0 ≤ q θ
  pull : 0 < q θ → ∀ c, r.2 (fin c) = fin (c * (q' / q θ))
  dead : q θ = 0 → q' = 0 ∧ ∀ g, r.2 g = fin 0

theorem Piece.zero {q : ℝ → ℝ} {q' θ : ℝ} {r : RevP} (h : Piece q q' θ r) : r.2 0 = fin 0 := by
  rcases h.nonneg.eq_or_lt with e | e
  · exact (h.dead e.symm).2 _
  · have := h.pull e 0
    rwa [zero_mul] at this

/-- The pull of a piece multiplied by its value: no division is left. -/
theorem Piece.times {q : ℝ → ℝ} {q' θ : ℝ} {r : RevP} (h : Piece q q' θ r) (c : ℝ) :
    r.2 (fin (c * q θ)) = fin (c * q') := by
  rcases h.nonneg.eq_or_lt with e | e
  · rw [(h.dead e.symm).2, (h.dead e.symm).1, mul_zero]
  · rw [h.pull e, mul_assoc, mul_div_cancel₀ _ e.ne']

variable {F : ℝ → ℝ → ℝ} {F' : ℝ → ℝ} {θ : ℝ} {lc ls : ℝ → RevP}

theorem zero_ninf_log : XR.log (fin 0) = ninf := by simp [XR.log]

theorem one_fin_log : XR.log (fin 1) = fin 0 := by rw [log_fin_pos one_pos, Real.log_one]

/-- The derivative of the quantized distribution function. -/
def quantCdf' (low high : Option ℤ) (F' : ℝ → ℝ) (n : ℤ) : ℝ :=
  open Classical in if ∃ h ∈ high, h ≤ n then 0 else if ∃ l ∈ low, n < l then 0 else F' n


theorem cut_some (l : ℤ) : cut (some l) = some (l : ℝ) := rfl

theorem cut_none : cut none = none := rfl

theorem blocked (hb : SmoothBase F F' θ lc ls) (y : ℝ) : (lc y).2 0 = fin 0 ∧ (ls y).2 0 = fin 0 := by
  have h1 := hb.logCdf_pull y 0
  have h2 := hb.logSf_pull y 0
  rw [zero_mul] at h1 h2
  exact ⟨h1, h2⟩

theorem cdf_dead (hb : SmoothBase F F' θ lc ls) (low high : Option ℤ) (w : ℝ)
    (h : (∃ h ∈ high, h ≤ ⌊w⌋) ∨ ∃ l ∈ low, ⌊w⌋ < l) (g : XR) :
    (quantLogCdf (cut low) (cut high) lc w).2 g = fin 0 := by
  have hz := (blocked hb (⌊w⌋ : ℤ)).1
  cases low <;> cases high <;>
    simp only [quantLogCdf, cut_some, cut_none, whereC, sel, Int.cast_lt, not_lt, Option.mem_def, Option.some.injEq,
      exists_eq_left', reduceCtorEq, false_and, exists_false, false_or, or_false] at h ⊢ <;>
    split_ifs <;> first | exact hz | (exfalso; omega)

theorem sf_dead (hb : SmoothBase F F' θ lc ls) (low high : Option ℤ) (w : ℝ)
    (h : (∃ h ∈ high, h ≤ ⌊w⌋) ∨ ∃ l ∈ low, ⌊w⌋ < l) (g : XR) :
    (quantLogSurvival (cut low) (cut high) ls w).2 g = fin 0 := by
  have hz := (blocked hb (⌊w⌋ : ℤ)).2
  cases low <;> cases high <;>
    simp only [quantLogSurvival, cut_some, cut_none, whereC, sel, Int.cast_lt, not_lt, Option.mem_def, Option.some.injEq,
      exists_eq_left', reduceCtorEq, false_and, exists_false, false_or, or_false] at h ⊢ <;>
    split_ifs <;> first | exact hz | (exfalso; omega)

theorem cdf_live (low high : Option ℤ) (w : ℝ) (h : ¬ ∃ h ∈ high, h ≤ ⌊w⌋) (h' : ¬ ∃ l ∈ low, ⌊w⌋ < l) (lc : ℝ → RevP) :
    quantLogCdf (cut low) (cut high) lc w = lc (⌊w⌋ : ℤ) ∧ quantLogSurvival (cut low) (cut high) lc w = lc (⌊w⌋ : ℤ) := by
  cases low <;> cases high <;>
    simp only [quantLogCdf, quantLogSurvival, cut_some, cut_none, whereC, sel, Int.cast_lt, not_lt, Option.mem_def, Option.some.injEq,
      exists_eq_left', reduceCtorEq, false_and, exists_false, not_false_eq_true, not_le] at h h' ⊢ <;>
    refine ⟨?_, ?_⟩ <;> first | trivial | (split_ifs <;> first | rfl | (exfalso; omega))

theorem cdf_masked (low high : Option ℤ) (w : ℝ) (r : ℝ → RevP) :
    ((∃ h ∈ high, h ≤ ⌊w⌋) → (quantLogCdf (cut low) (cut high) r w).1 = fin 0 ∧
      (quantLogSurvival (cut low) (cut high) r w).1 = ninf) ∧
    ((¬ ∃ h ∈ high, h ≤ ⌊w⌋) → (∃ l ∈ low, ⌊w⌋ < l) → (quantLogCdf (cut low) (cut high) r w).1 = ninf ∧
      (quantLogSurvival (cut low) (cut high) r w).1 = fin 0) := by
  cases low <;> cases high <;>
    simp only [quantLogCdf, quantLogSurvival, cut_some, cut_none, whereC, sel, Int.cast_lt, not_lt, Option.mem_def, Option.some.injEq,
      exists_eq_left', reduceCtorEq, false_and, exists_false, not_false_eq_true, not_le] <;>
    constructor <;> intros <;> simp_all

theorem quantCdf_high {low high : Option ℤ} {n : ℤ} (h : ∃ h ∈ high, h ≤ n) (G : ℝ → ℝ) : quantCdf low high G n = 1 :=
  if_pos h

theorem quantCdf_low {low high : Option ℤ} {n : ℤ} (h : ¬ ∃ h ∈ high, h ≤ n) (h' : ∃ l ∈ low, n < l) (G : ℝ → ℝ) :
    quantCdf low high G n = 0 := (if_neg h).trans (if_pos h')

theorem quantCdf_mid {low high : Option ℤ} {n : ℤ} (h : ¬ ∃ h ∈ high, h ≤ n) (h' : ¬ ∃ l ∈ low, n < l) (G : ℝ → ℝ) :
    quantCdf low high G n = G n := (if_neg h).trans (if_neg h')

theorem piece_cdf (hb : SmoothBase F F' θ lc ls) (low high : Option ℤ) (w : ℝ) :
    ∃ q', Piece (fun t => quantCdf low high (F t) ⌊w⌋) q' θ (quantLogCdf (cut low) (cut high) lc w) ∧
      Piece (fun t => 1 - quantCdf low high (F t) ⌊w⌋) (-q') θ (quantLogSurvival (cut low) (cut high) ls w) := by
  by_cases h : ∃ h ∈ high, h ≤ ⌊w⌋
  · refine ⟨0, ⟨?_, ?_, ?_, ?_, ?_⟩, ⟨?_, ?_, ?_, ?_, ?_⟩⟩ <;> simp only [quantCdf_high h]
    · exact hasDerivAt_const _ _
    · rw [((cdf_masked low high w lc).1 h).1, one_fin_log]
    · exact zero_le_one
    · intro _ c; rw [cdf_dead hb low high w (.inl h)]; simp
    · intro h; exact absurd h one_ne_zero
    · simpa using hasDerivAt_const θ (1 - 1 : ℝ)
    · rw [((cdf_masked low high w ls).1 h).2, sub_self, zero_ninf_log]
    · simp
    · intro h; simp at h
    · exact fun _ => ⟨neg_zero, sf_dead hb low high w (.inl h)⟩
  · by_cases h' : ∃ l ∈ low, ⌊w⌋ < l
    · refine ⟨0, ⟨?_, ?_, ?_, ?_, ?_⟩, ⟨?_, ?_, ?_, ?_, ?_⟩⟩ <;> simp only [quantCdf_low h h']
      · exact hasDerivAt_const _ _
      · rw [((cdf_masked low high w lc).2 h h').1, zero_ninf_log]
      · exact le_rfl
      · intro h; exact absurd h (lt_irrefl _)
      · exact fun _ => ⟨trivial, cdf_dead hb low high w (.inr h')⟩
      · simpa using hasDerivAt_const θ (1 - 0 : ℝ)
      · rw [((cdf_masked low high w ls).2 h h').2, sub_zero, one_fin_log]
      · simp
      · intro _ c; rw [sf_dead hb low high w (.inr h')]; simp
      · intro h; simp at h
    · have hp := hb.pos (⌊w⌋ : ℤ)
      have hl := hb.lt_one (⌊w⌋ : ℤ)
      refine ⟨F' (⌊w⌋ : ℤ), ⟨?_, ?_, ?_, ?_, ?_⟩, ⟨?_, ?_, ?_, ?_, ?_⟩⟩ <;>
        simp only [quantCdf_mid h h', (cdf_live low high w h h' lc).1, (cdf_live low high w h h' ls).2]
      · exact hb.deriv _
      · rw [hb.logCdf_val, log_fin_pos hp]
      · exact hp.le
      · exact fun _ c => hb.logCdf_pull _ c
      · exact fun h => absurd h hp.ne'
      · exact (hb.deriv _).const_sub 1
      · rw [hb.logSf_val, log_fin_pos (by linarith)]
      · linarith
      · exact fun _ c => hb.logSf_pull _ c
      · exact fun h => absurd h (ne_of_gt (by linarith))

/-! ### The difference of two exponentials -/

theorem logDiff_live {a b : ℝ} (hb : 0 ≤ b) (h : b < a) :
    (logDiffV (XR.log (fin a)) (XR.log (fin b))).1 = fin (Real.log (a - b)) ∧
      ∀ c, (logDiffV (XR.log (fin a)) (XR.log (fin b))).2 (fin c) = (fin (c / (a - b) * a), fin (-(c / (a - b)) * b)) := by
  have ha : 0 < a := hb.trans_lt h
  have he : XR.exp (XR.log (fin b) - XR.log (fin a)) = fin (b / a) := by
    rw [log_fin_pos ha]
    rcases hb.eq_or_lt with e | e
    · rw [← e, zero_ninf_log, zero_div]; rfl
    · rw [log_fin_pos e]
      show fin (Real.exp (Real.log b + -Real.log a)) = _
      rw [← sub_eq_add_neg, Real.exp_sub, Real.exp_log e, Real.exp_log ha]
  have h1 : 1 - b / a = (a - b) / a := by field_simp
  have hpos : 0 < 1 - b / a := by rw [h1]; exact div_pos (by linarith) ha
  have hd : (1 : XR) + -fin (b / a) = fin (1 - b / a) := by show fin (1 + -(b / a)) = _; rw [← sub_eq_add_neg]
  constructor
  · simp only [logDiffV, he, log1p, hd]
    rw [log_fin_pos hpos, log_fin_pos ha, fin_add, h1, Real.log_div (by linarith) ha.ne']
    congr 1; ring
  · intro c
    have hcd : fin c / fin (1 - b / a) = fin (c / (1 - b / a)) := if_neg hpos.ne'
    have hab : a - b ≠ 0 := by linarith
    simp only [logDiffV, he, hd, hcd]
    simp only [neg_fin, fin_mul, fin_add, h1]
    refine Prod.ext ?_ ?_ <;> simp only [XR.fin.injEq] <;> field_simp <;> ring

/-! ### `log_prob` from the four numbers -/

/-- The body of `quantLogProb` from the four differentiated numbers. -/
def combine (eps : Option ℝ) (v : ℝ) (r1 r2 r3 r4 : RevP) : RevP :=
  let useSf := ltB r3.1 r1.1
  let big := XR.sel useSf r4.1 r1.1
  let small := XR.sel useSf r3.1 r2.1
  let big' := match eps with
    | none => big
    | some e => XR.sel (ltB (fin e) (big - small)) big (small + fin e)
  let out := logDiffV big' small
  let isInteger := ¬v > (⌊v⌋ : ℤ)
  let isOutside := Quantized.isInf r1.1 ∨ Quantized.isInf r4.1
  (XR.sel isOutside ninf (XR.sel isInteger out.1 ninf), fun g =>
    let g1 := XR.sel isOutside 0 g
    let g2 := XR.sel isInteger g1 0
    let c := out.2 g2
    let cBig := match eps with
      | none => c.1
      | some e => XR.sel (ltB (fin e) (big - small)) c.1 0
    r1.2 (XR.sel useSf 0 cBig) + r2.2 (XR.sel useSf 0 c.2)
      + r3.2 (XR.sel useSf c.2 0) + r4.2 (XR.sel useSf cBig 0))

theorem combine_eq (low high eps : Option ℝ) (lc ls : ℝ → RevP) (v : ℝ) :
    quantLogProb low high eps lc ls v = combine eps v (quantLogCdf low high lc v) (quantLogCdf low high lc (v - 1))
      (quantLogSurvival low high ls v) (quantLogSurvival low high ls (v - 1)) := rfl

/-- The four pieces of an outcome that can happen. -/
structure Four (A B : ℝ → ℝ) (A' B' θ : ℝ) (r1 r2 r3 r4 : RevP) : Prop where
  p1 : Piece A A' θ r1
  p2 : Piece B B' θ r2
  p3 : Piece (fun t => 1 - A t) (-A') θ r3
  p4 : Piece (fun t => 1 - B t) (-B') θ r4

theorem gq_ltB_log {a b : ℝ} (ha : 0 ≤ a) (hb : 0 ≤ b) : ltB (XR.log (fin a)) (XR.log (fin b)) ↔ a < b := by
  rcases ha.eq_or_lt with e | e <;> rcases hb.eq_or_lt with e' | e'
  · subst e; subst e'; simp [ltB]
  · subst e; rw [zero_ninf_log, log_fin_pos e']; simp [ltB, e']
  · subst e'; rw [zero_ninf_log, log_fin_pos e]; simp [ltB]; exact e.le
  · rw [log_fin_pos e, log_fin_pos e']; exact Real.log_lt_log_iff e e'

theorem gq_isInf_log {a : ℝ} (ha : 0 ≤ a) : Quantized.isInf (XR.log (fin a)) ↔ a = 0 := by
  rcases ha.eq_or_lt with e | e
  · subst e; simp [Quantized.isInf]
  · rw [log_fin_pos e]; simp [Quantized.isInf, e.ne']

variable {A B : ℝ → ℝ} {A' B' : ℝ} {r1 r2 r3 r4 : RevP}

/-- When the clamp is off, an outcome of positive probability gets the log of its probability and its derivative; a
non-integer value of the same cell gets `-inf` and derivative zero. -/
theorem combine_live (h : Four A B A' B' θ r1 r2 r3 r4) (hA : 0 < A θ) (hB : B θ < 1) (hBA : B θ < A θ)
    (eps : Option ℝ) (v : ℝ)
    (hoff : ∀ e ∈ eps, (1 - A θ < A θ → Real.exp e * (1 - A θ) < 1 - B θ) ∧
      (A θ ≤ 1 - A θ → Real.exp e * B θ < A θ)) :
    (v = (⌊v⌋ : ℤ) → (combine eps v r1 r2 r3 r4).1 = fin (Real.log (A θ - B θ)) ∧
      ∀ c, (combine eps v r1 r2 r3 r4).2 (fin c) = fin (c * ((A' - B') / (A θ - B θ)))) ∧
    (v ≠ (⌊v⌋ : ℤ) → (combine eps v r1 r2 r3 r4).1 = ninf ∧
      ∀ c, (combine eps v r1 r2 r3 r4).2 (fin c) = fin 0) := by
  have n1 := h.p1.nonneg
  have n2 := h.p2.nonneg
  have n3 : 0 ≤ 1 - A θ := h.p3.nonneg
  have n4 : 0 ≤ 1 - B θ := h.p4.nonneg
  have hout : ¬(Quantized.isInf r1.1 ∨ Quantized.isInf r4.1) := by
    rw [h.p1.val, h.p4.val, gq_isInf_log n1, gq_isInf_log n4]
    rintro (e | e) <;> linarith
  have hcl : ∀ e ∈ eps, ltB (fin e) (XR.sel (ltB r3.1 r1.1) r4.1 r1.1 - XR.sel (ltB r3.1 r1.1) r3.1 r2.1) := by
    intro e he
    have := hoff e he
    rw [h.p1.val, h.p2.val, h.p3.val, h.p4.val]
    by_cases hu : 1 - A θ < A θ
    · have hu' := (gq_ltB_log n3 n1).2 hu
      rw [XR.sel_pos hu', XR.sel_pos hu', log_fin_pos (show 0 < 1 - B θ by linarith)]
      rcases n3.eq_or_lt with e0 | e0
      · rw [← e0, zero_ninf_log]; trivial
      · rw [log_fin_pos e0]
        have := Real.log_lt_log (by positivity) (this.1 hu)
        rw [Real.log_mul (Real.exp_pos e).ne' e0.ne', Real.log_exp] at this
        show e < Real.log (1 - B θ) + -Real.log (1 - A θ); linarith
    · have hu' := mt (gq_ltB_log n3 n1).1 hu
      rw [XR.sel_neg hu', XR.sel_neg hu', log_fin_pos hA]
      rcases n2.eq_or_lt with e0 | e0
      · rw [← e0, zero_ninf_log]; trivial
      · rw [log_fin_pos e0]
        have := Real.log_lt_log (by positivity) (this.2 (by linarith))
        rw [Real.log_mul (Real.exp_pos e).ne' e0.ne', Real.log_exp] at this
        show e < Real.log (A θ) + -Real.log (B θ); linarith
  have hcomb : combine eps v r1 r2 r3 r4 = combine none v r1 r2 r3 r4 := by
    cases eps with
    | none => rfl
    | some e =>
      have hce := hcl e rfl
      simp only [combine, XR.sel_pos hce]
  rw [hcomb]
  have hz1 := h.p1.zero
  have hz2 := h.p2.zero
  have hz3 := h.p3.zero
  have hz4 := h.p4.zero
  have hd : A θ - B θ ≠ 0 := by linarith
  by_cases hu : 1 - A θ < A θ
  · have hu' : ltB r3.1 r1.1 := by rw [h.p1.val, h.p3.val]; exact (gq_ltB_log n3 n1).2 hu
    obtain ⟨o1, o2⟩ := logDiff_live (a := 1 - B θ) (b := 1 - A θ) n3 (by linarith)
    have hab : 1 - B θ - (1 - A θ) = A θ - B θ := by ring
    rw [hab] at o1 o2
    constructor
    · intro hv
      have hv' : ¬v > (⌊v⌋ : ℤ) := by rw [← hv]; exact lt_irrefl _
      simp only [combine, XR.sel_neg hout, XR.sel_pos hv', XR.sel_pos hu']
      rw [h.p3.val, h.p4.val]
      refine ⟨o1, fun c => ?_⟩
      rw [o2, hz1, hz2]
      show _ + _ + r3.2 (fin (-(c / (A θ - B θ)) * (1 - A θ))) + r4.2 (fin (c / (A θ - B θ) * (1 - B θ))) = _
      rw [h.p3.times, h.p4.times, fin_add, fin_add, fin_add]
      congr 1; field_simp; ring
    · intro hv
      have hv' : v > (⌊v⌋ : ℤ) := lt_of_le_of_ne (Int.floor_le v) (Ne.symm hv)
      have hv'' : ¬¬v > (⌊v⌋ : ℤ) := not_not.2 hv'
      simp only [combine, XR.sel_neg hout, XR.sel_neg hv'', XR.sel_pos hu']
      rw [h.p3.val, h.p4.val]
      refine ⟨trivial, fun c => ?_⟩
      rw [zero_def, o2, ← zero_def, hz1, hz2]
      show _ + _ + r3.2 (fin (-(0 / (A θ - B θ)) * (1 - A θ))) + r4.2 (fin (0 / (A θ - B θ) * (1 - B θ))) = _
      rw [h.p3.times, h.p4.times, fin_add, fin_add, fin_add]
      congr 1; simp
  · have hu' : ¬ltB r3.1 r1.1 := by rw [h.p1.val, h.p3.val]; exact mt (gq_ltB_log n3 n1).1 hu
    obtain ⟨o1, o2⟩ := logDiff_live (a := A θ) (b := B θ) n2 hBA
    constructor
    · intro hv
      have hv' : ¬v > (⌊v⌋ : ℤ) := by rw [← hv]; exact lt_irrefl _
      simp only [combine, XR.sel_neg hout, XR.sel_pos hv', XR.sel_neg hu']
      rw [h.p1.val, h.p2.val]
      refine ⟨o1, fun c => ?_⟩
      rw [o2, hz3, hz4]
      show r1.2 (fin (c / (A θ - B θ) * A θ)) + r2.2 (fin (-(c / (A θ - B θ)) * B θ)) + _ + _ = _
      rw [h.p1.times, h.p2.times, fin_add, fin_add, fin_add]
      congr 1; field_simp; ring
    · intro hv
      have hv' : v > (⌊v⌋ : ℤ) := lt_of_le_of_ne (Int.floor_le v) (Ne.symm hv)
      have hv'' : ¬¬v > (⌊v⌋ : ℤ) := not_not.2 hv'
      simp only [combine, XR.sel_neg hout, XR.sel_neg hv'', XR.sel_neg hu']
      rw [h.p1.val, h.p2.val]
      refine ⟨trivial, fun c => ?_⟩
      rw [zero_def, o2, ← zero_def, hz3, hz4]
      show r1.2 (fin (0 / (A θ - B θ) * A θ)) + r2.2 (fin (-(0 / (A θ - B θ)) * B θ)) + _ + _ = _
      rw [h.p1.times, h.p2.times, fin_add, fin_add, fin_add]
      congr 1; simp

/-- An outcome that cannot happen gets `-inf` and derivative zero: whatever the intermediate cotangents (they are `nan`),
none passes the masks. -/
theorem combine_below (h1 : r1.1 = ninf) (d1 : ∀ g, r1.2 g = fin 0) (d2 : ∀ g, r2.2 g = fin 0) (h3 : r3.1 = fin 0)
    (z3 : r3.2 0 = fin 0) (z4 : r4.2 0 = fin 0) (eps : Option ℝ) (v : ℝ) :
    (combine eps v r1 r2 r3 r4).1 = ninf ∧ ∀ c, (combine eps v r1 r2 r3 r4).2 c = fin 0 := by
  have hu : ¬ltB r3.1 r1.1 := by rw [h1, h3]; simp [ltB]
  have ho : Quantized.isInf r1.1 ∨ Quantized.isInf r4.1 := .inl (.inr h1)
  simp only [combine, XR.sel_pos ho, XR.sel_neg hu, d1, d2, z3, z4, fin_add, add_zero]
  exact ⟨trivial, fun _ => trivial⟩

theorem combine_above (h1 : r1.1 = fin 0) (h3 : r3.1 = ninf) (h4 : r4.1 = ninf) (d3 : ∀ g, r3.2 g = fin 0)
    (d4 : ∀ g, r4.2 g = fin 0) (z1 : r1.2 0 = fin 0) (z2 : r2.2 0 = fin 0) (eps : Option ℝ) (v : ℝ) :
    (combine eps v r1 r2 r3 r4).1 = ninf ∧ ∀ c, (combine eps v r1 r2 r3 r4).2 c = fin 0 := by
  have hu : ltB r3.1 r1.1 := by rw [h1, h3]; simp [ltB]
  have ho : Quantized.isInf r1.1 ∨ Quantized.isInf r4.1 := .inr (.inr h4)
  simp only [combine, XR.sel_pos ho, XR.sel_pos hu, d3, d4, z1, z2, fin_add, add_zero]
  exact ⟨trivial, fun _ => trivial⟩

theorem logDiff_clamped {b e : ℝ} (hb : 0 < b) (he : 0 < e) :
    (logDiffV (fin (Real.log b) + fin e) (fin (Real.log b))).1 = fin (Real.log (b * (Real.exp e - 1))) ∧
      ∀ c, ((logDiffV (fin (Real.log b) + fin e) (fin (Real.log b))).2 (fin c)).2 = fin (-(c / (Real.exp e - 1))) := by
  have h1 : XR.log (fin (b * Real.exp e)) = fin (Real.log b) + fin e := by
    rw [log_fin_pos (by positivity), Real.log_mul hb.ne' (Real.exp_pos e).ne', Real.log_exp, fin_add]
  have h2 : XR.log (fin b) = fin (Real.log b) := log_fin_pos hb
  have h3 : 1 < Real.exp e := by simpa using Real.exp_lt_exp.2 he
  have h4 := logDiff_live hb.le (show b < b * Real.exp e by nlinarith)
  rw [h1, h2] at h4
  have h5 : b * Real.exp e - b = b * (Real.exp e - 1) := by ring
  have h6 : Real.exp e - 1 ≠ 0 := by linarith
  refine ⟨by rw [h4.1, h5], fun c => ?_⟩
  rw [h4.2, h5]
  show fin _ = fin _
  congr 1; field_simp

/-- Where the clamp is on, only the smaller tail is differentiated, with a factor that depends on nothing but `eps`. -/
theorem combine_clamped (h : Four A B A' B' θ r1 r2 r3 r4) (hA : 0 < A θ) (hB : B θ < 1)
    {e : ℝ} (he : 0 < e) (v : ℝ) (hv : v = (⌊v⌋ : ℤ)) :
    (1 - A θ < A θ → 1 - B θ ≤ Real.exp e * (1 - A θ) →
      (combine (some e) v r1 r2 r3 r4).1 = fin (Real.log ((1 - A θ) * (Real.exp e - 1))) ∧
      ∀ c, (combine (some e) v r1 r2 r3 r4).2 (fin c) = fin (-(c / (Real.exp e - 1)) * (-A' / (1 - A θ)))) ∧
    (A θ ≤ 1 - A θ → A θ ≤ Real.exp e * B θ →
      (combine (some e) v r1 r2 r3 r4).1 = fin (Real.log (B θ * (Real.exp e - 1))) ∧
      ∀ c, (combine (some e) v r1 r2 r3 r4).2 (fin c) = fin (-(c / (Real.exp e - 1)) * (B' / B θ))) := by
  have n1 := h.p1.nonneg
  have n2 := h.p2.nonneg
  have n3 : 0 ≤ 1 - A θ := h.p3.nonneg
  have n4 : 0 ≤ 1 - B θ := h.p4.nonneg
  have hout : ¬(Quantized.isInf r1.1 ∨ Quantized.isInf r4.1) := by
    rw [h.p1.val, h.p4.val, gq_isInf_log n1, gq_isInf_log n4]
    rintro (e | e) <;> linarith
  have hz1 := h.p1.zero
  have hz2 := h.p2.zero
  have hz3 := h.p3.zero
  have hz4 := h.p4.zero
  have hv' : ¬v > (⌊v⌋ : ℤ) := by rw [← hv]; exact lt_irrefl _
  have hexp := Real.exp_pos e
  constructor
  · intro hu hc
    have hu' : ltB r3.1 r1.1 := by rw [h.p1.val, h.p3.val]; exact (gq_ltB_log n3 n1).2 hu
    have e0 : 0 < 1 - A θ := by
      rcases n3.eq_or_lt with e0 | e0
      · rw [← e0] at hc; linarith
      · exact e0
    have v3 : r3.1 = fin (Real.log (1 - A θ)) := by rw [h.p3.val, log_fin_pos e0]
    have v4 : r4.1 = fin (Real.log (1 - B θ)) := by
      rw [h.p4.val, log_fin_pos (show 0 < 1 - B θ by linarith)]
    have hoff : ¬ltB (fin e) (r4.1 - r3.1) := by
      rw [v3, v4]
      have := Real.log_le_log (by linarith) hc
      rw [Real.log_mul hexp.ne' e0.ne', Real.log_exp] at this
      show ¬ e < Real.log (1 - B θ) + -Real.log (1 - A θ)
      linarith
    simp only [combine, XR.sel_neg hout, XR.sel_pos hv', XR.sel_pos hu', XR.sel_neg hoff]
    obtain ⟨o1, o2⟩ := logDiff_clamped e0 he
    refine ⟨by rw [v3]; exact o1, fun c => ?_⟩
    rw [hz1, hz2, hz4, v3, o2, h.p3.pull e0, fin_add, fin_add, fin_add]
    congr 1; ring
  · intro hu hc
    have hu' : ¬ltB r3.1 r1.1 := by
      rw [h.p1.val, h.p3.val]; exact mt (gq_ltB_log n3 n1).1 (not_lt.2 hu)
    have e0 : 0 < B θ := by
      rcases n2.eq_or_lt with e0 | e0
      · rw [← e0] at hc; linarith
      · exact e0
    have v1 : r1.1 = fin (Real.log (A θ)) := by rw [h.p1.val, log_fin_pos hA]
    have v2 : r2.1 = fin (Real.log (B θ)) := by rw [h.p2.val, log_fin_pos e0]
    have hoff : ¬ltB (fin e) (r1.1 - r2.1) := by
      rw [v1, v2]
      have := Real.log_le_log hA hc
      rw [Real.log_mul hexp.ne' e0.ne', Real.log_exp] at this
      show ¬ e < Real.log (A θ) + -Real.log (B θ)
      linarith
    simp only [combine, XR.sel_neg hout, XR.sel_pos hv', XR.sel_neg hu', XR.sel_neg hoff]
    obtain ⟨o1, o2⟩ := logDiff_clamped e0 he
    refine ⟨by rw [v2]; exact o1, fun c => ?_⟩
    rw [hz1, hz3, hz4, v2, o2, h.p2.pull e0, fin_add, fin_add, fin_add]
    congr 1; ring

/-- A value that is not whole, where the clamp is on. -/
theorem combine_clamped_frac (h : Four A B A' B' θ r1 r2 r3 r4) (hA : 0 < A θ) (hB : B θ < 1)
    {e : ℝ} (he : 0 < e) (v : ℝ) (hv : v ≠ (⌊v⌋ : ℤ))
    (hc : (1 - A θ < A θ ∧ 1 - B θ ≤ Real.exp e * (1 - A θ)) ∨ (A θ ≤ 1 - A θ ∧ A θ ≤ Real.exp e * B θ)) (c : ℝ) :
    (combine (some e) v r1 r2 r3 r4).1 = ninf ∧ (combine (some e) v r1 r2 r3 r4).2 (fin c) = fin 0 := by
  have n1 := h.p1.nonneg
  have n2 := h.p2.nonneg
  have n3 : 0 ≤ 1 - A θ := h.p3.nonneg
  have n4 : 0 ≤ 1 - B θ := h.p4.nonneg
  have hout : ¬(Quantized.isInf r1.1 ∨ Quantized.isInf r4.1) := by
    rw [h.p1.val, h.p4.val, gq_isInf_log n1, gq_isInf_log n4]
    rintro (e | e) <;> linarith
  have hz1 := h.p1.zero
  have hz2 := h.p2.zero
  have hz3 := h.p3.zero
  have hz4 := h.p4.zero
  have hv' : v > (⌊v⌋ : ℤ) := lt_of_le_of_ne (Int.floor_le v) (Ne.symm hv)
  have hv'' : ¬¬v > (⌊v⌋ : ℤ) := not_not.2 hv'
  have hexp := Real.exp_pos e
  rcases hc with ⟨hu, hc⟩ | ⟨hu, hc⟩
  · have hu' : ltB r3.1 r1.1 := by rw [h.p1.val, h.p3.val]; exact (gq_ltB_log n3 n1).2 hu
    have e0 : 0 < 1 - A θ := by
      rcases n3.eq_or_lt with e0 | e0
      · rw [← e0] at hc; linarith
      · exact e0
    have v3 : r3.1 = fin (Real.log (1 - A θ)) := by rw [h.p3.val, log_fin_pos e0]
    have v4 : r4.1 = fin (Real.log (1 - B θ)) := by
      rw [h.p4.val, log_fin_pos (show 0 < 1 - B θ by linarith)]
    have hoff : ¬ltB (fin e) (r4.1 - r3.1) := by
      rw [v3, v4]
      have := Real.log_le_log (by linarith) hc
      rw [Real.log_mul hexp.ne' e0.ne', Real.log_exp] at this
      show ¬ e < Real.log (1 - B θ) + -Real.log (1 - A θ)
      linarith
    simp only [combine, XR.sel_neg hout, XR.sel_neg hv'', XR.sel_pos hu', XR.sel_neg hoff]
    obtain ⟨o1, o2⟩ := logDiff_clamped e0 he
    refine ⟨trivial, ?_⟩
    have o3 := o2 0
    rw [zero_div, neg_zero, ← zero_def, ← v3] at o3
    rw [o3, hz1, hz2, hz3, hz4, fin_add, fin_add, fin_add]
    simp
  · have hu' : ¬ltB r3.1 r1.1 := by
      rw [h.p1.val, h.p3.val]; exact mt (gq_ltB_log n3 n1).1 (not_lt.2 hu)
    have e0 : 0 < B θ := by
      rcases n2.eq_or_lt with e0 | e0
      · rw [← e0] at hc; linarith
      · exact e0
    have v1 : r1.1 = fin (Real.log (A θ)) := by rw [h.p1.val, log_fin_pos hA]
    have v2 : r2.1 = fin (Real.log (B θ)) := by rw [h.p2.val, log_fin_pos e0]
    have hoff : ¬ltB (fin e) (r1.1 - r2.1) := by
      rw [v1, v2]
      have := Real.log_le_log hA hc
      rw [Real.log_mul hexp.ne' e0.ne', Real.log_exp] at this
      show ¬ e < Real.log (A θ) + -Real.log (B θ)
      linarith
    simp only [combine, XR.sel_neg hout, XR.sel_neg hv'', XR.sel_neg hu', XR.sel_neg hoff]
    obtain ⟨o1, o2⟩ := logDiff_clamped e0 he
    refine ⟨trivial, ?_⟩
    have o3 := o2 0
    rw [zero_div, neg_zero, ← zero_def, ← v2] at o3
    rw [o3, hz1, hz2, hz3, hz4, fin_add, fin_add, fin_add]
    simp

/-! ### The theorems -/

theorem four (hb : SmoothBase F F' θ lc ls) (low high : Option ℤ) (v : ℝ) :
    ∃ A' B', Four (fun t => quantCdf low high (F t) ⌊v⌋) (fun t => quantCdf low high (F t) (⌊v⌋ - 1)) A' B' θ
      (quantLogCdf (cut low) (cut high) lc v) (quantLogCdf (cut low) (cut high) lc (v - 1))
      (quantLogSurvival (cut low) (cut high) ls v) (quantLogSurvival (cut low) (cut high) ls (v - 1)) := by
  obtain ⟨A', h1, h3⟩ := piece_cdf hb low high v
  obtain ⟨B', h2, h4⟩ := piece_cdf hb low high (v - 1)
  have : ⌊v - 1⌋ = ⌊v⌋ - 1 := Int.floor_sub_one v
  rw [this] at h2 h4
  exact ⟨A', B', h1, h2, h3, h4⟩

theorem between_strict (hb : SmoothBase F F' θ lc ls) {low high : Option ℤ} {n : ℤ} (h : Between low high n) :
    0 < quantCdf low high (F θ) n ∧ quantCdf low high (F θ) (n - 1) < 1 ∧
      quantCdf low high (F θ) (n - 1) < quantCdf low high (F θ) n := by
  have hl : ¬ ∃ l ∈ low, n < l := by rintro ⟨l, hl, h'⟩; have := h.1 l hl; omega
  have hh : ¬ ∃ h ∈ high, h ≤ n - 1 := by rintro ⟨l, hl, h'⟩; have := h.2 l hl; omega
  have hB : quantCdf low high (F θ) (n - 1) < 1 ∧ (quantCdf low high (F θ) (n - 1) < F θ n) := by
    by_cases h2 : ∃ l ∈ low, n - 1 < l
    · rw [quantCdf_low hh h2]; exact ⟨one_pos, hb.pos _⟩
    · rw [quantCdf_mid hh h2]; exact ⟨hb.lt_one _, hb.mono (by push_cast; linarith)⟩
  by_cases h1 : ∃ h ∈ high, h ≤ n
  · rw [quantCdf_high h1]; exact ⟨one_pos, hB.1, hB.1⟩
  · rw [quantCdf_mid h1 hl]; exact ⟨hb.pos _, hB.1, hB.2⟩

/-- For a whole number between the cutoffs, where `eps` (if given) does not replace the larger tail, `log_prob` is the
logarithm of the probability of the cell and its gradient with respect to the base's parameter is the derivative of that
logarithm: finite and correct at and next to both cutoffs, on either side of the median. -/
theorem C66_quantized_log_prob (hb : SmoothBase F F' θ lc ls) (low high : Option ℤ) (eps : Option ℝ) (n : ℤ)
    (hn : Between low high n) (heps : ∀ e ∈ eps, ¬Clamps e (tails low high (F θ) n)) :
    (quantLogProb (cut low) (cut high) eps lc ls n).1 = fin (Real.log (quantProb low high (F θ) n)) ∧
      DerivAt (fun t => Real.log (quantProb low high (F t) n)) θ (quantLogProb (cut low) (cut high) eps lc ls n).2 := by
  obtain ⟨A', B', h⟩ := four hb low high n
  rw [Int.floor_intCast] at h
  obtain ⟨hA, hB, hBA⟩ := between_strict hb hn
  have hoff : ∀ e ∈ eps, (1 - quantCdf low high (F θ) n < quantCdf low high (F θ) n →
        Real.exp e * (1 - quantCdf low high (F θ) n) < 1 - quantCdf low high (F θ) (n - 1)) ∧
      (quantCdf low high (F θ) n ≤ 1 - quantCdf low high (F θ) n →
        Real.exp e * quantCdf low high (F θ) (n - 1) < quantCdf low high (F θ) n) := by
    intro e he
    have := heps e he
    constructor <;> intro hu
    · rwa [Clamps, tails, if_pos hu, not_le] at this
    · rwa [Clamps, tails, if_neg (not_lt.2 hu), not_le] at this
  have := (combine_live h hA hB hBA eps n hoff).1 (by simp)
  rw [combine_eq]
  refine ⟨this.1, _, this.2, ?_⟩
  exact (h.p1.deriv.sub h.p2.deriv).log (by simp only [Pi.sub_apply]; linarith)

/-- Values that cannot happen — not whole, below the low cutoff or above the high one — have log-probability `-inf` and
gradient exactly zero, never `nan`. -/
theorem C66_quantized_impossible (hb : SmoothBase F F' θ lc ls) (low high : Option ℤ) (ho : Ordered low high)
    (eps : Option ℝ) (heps : ∀ e ∈ eps, 0 < e) (v : ℝ) (hv : v ≠ (⌊v⌋ : ℤ) ∨ ¬Between low high ⌊v⌋) (c : ℝ) :
    (quantLogProb (cut low) (cut high) eps lc ls v).1 = ninf ∧
      (quantLogProb (cut low) (cut high) eps lc ls v).2 (fin c) = fin 0 := by
  have hfl : ⌊v - 1⌋ = ⌊v⌋ - 1 := Int.floor_sub_one v
  obtain ⟨A', B', h⟩ := four hb low high v
  rw [combine_eq]
  by_cases hn : Between low high ⌊v⌋
  · replace hv := hv.resolve_right (not_not.2 hn)
    obtain ⟨hA, hB, hBA⟩ := between_strict hb hn
    cases eps with
    | none =>
      have := (combine_live h hA hB hBA none v (by simp)).2 hv
      exact ⟨this.1, this.2 c⟩
    | some e =>
      by_cases hc : (1 - quantCdf low high (F θ) ⌊v⌋ < quantCdf low high (F θ) ⌊v⌋ ∧
            1 - quantCdf low high (F θ) (⌊v⌋ - 1) ≤ Real.exp e * (1 - quantCdf low high (F θ) ⌊v⌋)) ∨
          (quantCdf low high (F θ) ⌊v⌋ ≤ 1 - quantCdf low high (F θ) ⌊v⌋ ∧
            quantCdf low high (F θ) ⌊v⌋ ≤ Real.exp e * quantCdf low high (F θ) (⌊v⌋ - 1))
      · exact combine_clamped_frac h hA hB (heps e rfl) v hv hc c
      · rw [not_or, not_and, not_and, not_le, not_le] at hc
        have := (combine_live h hA hB hBA (some e) v (by rintro _ ⟨⟩; exact hc)).2 hv
        exact ⟨this.1, this.2 c⟩
  · by_cases h1 : ∃ l ∈ low, ⌊v⌋ < l
    · have h2 : ¬ ∃ h ∈ high, h ≤ ⌊v⌋ := by
        rintro ⟨b, hb, hb'⟩; obtain ⟨l, hl, hl'⟩ := h1; have := ho l hl b hb; omega
      have h3 : ∃ l ∈ low, ⌊v - 1⌋ < l := by obtain ⟨l, hl, hl'⟩ := h1; exact ⟨l, hl, by omega⟩
      have := combine_below ((cdf_masked low high v lc).2 h2 h1).1 (cdf_dead hb low high v (.inr h1))
        (cdf_dead hb low high (v - 1) (.inr h3)) ((cdf_masked low high v ls).2 h2 h1).2
        (sf_dead hb low high v (.inr h1) 0) (sf_dead hb low high (v - 1) (.inr h3) 0) eps v
      exact ⟨this.1, this.2 _⟩
    · have h2 : ∃ h ∈ high, h ≤ ⌊v - 1⌋ := by
        by_contra h2
        refine hn ⟨fun l hl => ?_, fun b hb => ?_⟩
        · by_contra h3; exact h1 ⟨l, hl, by omega⟩
        · by_contra h3; exact h2 ⟨b, hb, by omega⟩
      have h3 : ∃ h ∈ high, h ≤ ⌊v⌋ := by obtain ⟨l, hl, hl'⟩ := h2; exact ⟨l, hl, by omega⟩
      have := combine_above ((cdf_masked low high v lc).1 h3).1 ((cdf_masked low high v ls).1 h3).2
        ((cdf_masked low high (v - 1) ls).1 h2).2
        (sf_dead hb low high v (.inl h3)) (sf_dead hb low high (v - 1) (.inl h2))
        (cdf_dead hb low high v (.inl h3) 0) (cdf_dead hb low high (v - 1) (.inl h2) 0) eps v
      exact ⟨this.1, this.2 _⟩

/-- Where `eps` replaces the larger tail, the value is `log (small · (exp eps - 1))`, and the gradient is not blocked
although the source says so: it is the gradient of `-log small / (exp eps - 1)`, which follows the smaller tail downwards
(with a factor that grows without bound as `eps` shrinks). -/
theorem C66_quantized_eps (hb : SmoothBase F F' θ lc ls) (low high : Option ℤ) (n : ℤ) (hn : Between low high n)
    {e : ℝ} (he : 0 < e) (hc : Clamps e (tails low high (F θ) n)) :
    0 < (tails low high (F θ) n).2 ∧
    (quantLogProb (cut low) (cut high) (some e) lc ls n).1 =
      fin (Real.log ((tails low high (F θ) n).2 * (Real.exp e - 1))) ∧
    ∃ s' : ℝ, HasDerivAt (fun t => if 1 - quantCdf low high (F θ) n < quantCdf low high (F θ) n then
        1 - quantCdf low high (F t) n else quantCdf low high (F t) (n - 1)) s' θ ∧
      ∀ c, (quantLogProb (cut low) (cut high) (some e) lc ls n).2 (fin c) =
        fin (c * (-(1 / (Real.exp e - 1)) * (s' / (tails low high (F θ) n).2))) := by
  obtain ⟨A', B', h⟩ := four hb low high n
  rw [Int.floor_intCast] at h
  obtain ⟨hA, hB, hBA⟩ := between_strict hb hn
  have hexp := Real.exp_pos e
  have key := combine_clamped h hA hB he n (by simp)
  rw [combine_eq]
  by_cases hu : 1 - quantCdf low high (F θ) n < quantCdf low high (F θ) n
  · have ht : tails low high (F θ) n =
        (1 - quantCdf low high (F θ) (n - 1), 1 - quantCdf low high (F θ) n) := if_pos hu
    rw [ht] at hc ⊢
    have k := key.1 hu hc
    have hpos : 0 < 1 - quantCdf low high (F θ) n := by
      have : 1 - quantCdf low high (F θ) (n - 1) ≤ Real.exp e * (1 - quantCdf low high (F θ) n) := hc
      by_contra h0
      nlinarith [h.p3.nonneg]
    refine ⟨hpos, k.1, -A', ?_, fun c => ?_⟩
    · simp only [if_pos hu]; exact h.p3.deriv
    · rw [k.2 c]; congr 1; ring
  · have ht : tails low high (F θ) n = (quantCdf low high (F θ) n, quantCdf low high (F θ) (n - 1)) := if_neg hu
    rw [ht] at hc ⊢
    have k := key.2 (not_lt.1 hu) hc
    have hpos : 0 < quantCdf low high (F θ) (n - 1) := by
      have : quantCdf low high (F θ) n ≤ Real.exp e * quantCdf low high (F θ) (n - 1) := hc
      by_contra h0
      nlinarith [h.p2.nonneg]
    refine ⟨hpos, k.1, B', ?_, fun c => ?_⟩
    · simp only [if_neg hu]; exact h.p2.deriv
    · rw [k.2 c]; congr 1; ring

/-! ### The logistic base -/

theorem sig_strictMono : StrictMono sig := by
  intro a b h
  unfold sig
  have := Real.exp_lt_exp.2 (neg_lt_neg h)
  have := Real.exp_pos (-b)
  exact one_div_lt_one_div_of_lt (by linarith) (by linarith)

theorem one_sub_sig (z : ℝ) : 1 - sig z = sig (-z) := by have := sig_add_neg z; linarith

/-- `Logistic(loc, scale)` as a function of `loc` satisfies the hypotheses. -/
theorem C66_logistic_loc (loc : ℝ) {scale : ℝ} (hs : 0 < scale) :
    SmoothBase (fun t y => sig ((y - t) / scale))
      (fun y => -(sig ((y - loc) / scale) * (1 - sig ((y - loc) / scale)) / scale)) loc
      (fun y => logisticLogCdf (standardizeLoc scale y loc)) (fun y => logisticLogSurvival (standardizeLoc scale y loc)) where
  pos _ := sig_pos _
  lt_one _ := sig_lt_one _
  mono := sig_strictMono.comp fun a b h => by
    show (a - loc) / scale < (b - loc) / scale
    exact div_lt_div_of_pos_right (by linarith) hs
  deriv y := by
    have h1 : HasDerivAt (fun t => (y - t) / scale) (-1 / scale) loc := ((hasDerivAt_id loc).const_sub y).div_const scale
    have h2 := (sig_deriv ((y - loc) / scale)).comp loc h1
    exact h2.congr_deriv (by field_simp)
  logCdf_val y := by
    simp only [logisticLogCdf, standardizeLoc, neg_fin, softplusV_val, neg_neg]
  logCdf_pull y c := by
    have hd : ∀ a, fin a / fin scale = fin (a / scale) := fun a => if_neg hs.ne'
    have := sig_pos ((y - loc) / scale)
    simp only [logisticLogCdf, standardizeLoc, neg_fin, softplusV_pull, hd, ← one_sub_sig]
    congr 1; field_simp
  logSf_val y := by
    simp only [logisticLogSurvival, standardizeLoc, neg_fin, softplusV_val, neg_neg, one_sub_sig]
  logSf_pull y c := by
    have hd : ∀ a, fin a / fin scale = fin (a / scale) := fun a => if_neg hs.ne'
    have : 1 - sig ((y - loc) / scale) ≠ 0 := by have := sig_lt_one ((y - loc) / scale); linarith
    simp only [logisticLogSurvival, standardizeLoc, neg_fin, softplusV_pull, hd]
    congr 1; field_simp

/-- `Logistic(loc, scale)` as a function of `scale` satisfies the hypotheses. -/
theorem C66_logistic_scale (loc : ℝ) {scale : ℝ} (hs : 0 < scale) :
    SmoothBase (fun t y => sig ((y - loc) / t))
      (fun y => -(sig ((y - loc) / scale) * (1 - sig ((y - loc) / scale)) * (y - loc) / scale ^ 2)) scale
      (fun y => logisticLogCdf (standardizeScale loc y scale)) (fun y => logisticLogSurvival (standardizeScale loc y scale)) where
  pos _ := sig_pos _
  lt_one _ := sig_lt_one _
  mono := sig_strictMono.comp fun a b h => by
    show (a - loc) / scale < (b - loc) / scale
    exact div_lt_div_of_pos_right (by linarith) hs
  deriv y := by
    have h1 : HasDerivAt (fun t => (y - loc) / t) ((0 * scale - (y - loc) * 1) / scale ^ 2) scale :=
      (hasDerivAt_const scale (y - loc)).div (hasDerivAt_id scale) hs.ne'
    have h2 := (sig_deriv ((y - loc) / scale)).comp scale h1
    exact h2.congr_deriv (by field_simp; ring)
  logCdf_val y := by
    simp only [logisticLogCdf, standardizeScale, neg_fin, softplusV_val, neg_neg]
  logCdf_pull y c := by
    have hd : ∀ a, fin a / fin (scale * scale) = fin (a / (scale * scale)) := fun a => if_neg (mul_ne_zero hs.ne' hs.ne')
    have := sig_pos ((y - loc) / scale)
    simp only [logisticLogCdf, standardizeScale, neg_fin, softplusV_pull, fin_mul, hd, ← one_sub_sig]
    congr 1; field_simp
  logSf_val y := by
    simp only [logisticLogSurvival, standardizeScale, neg_fin, softplusV_val, neg_neg, one_sub_sig]
  logSf_pull y c := by
    have hd : ∀ a, fin a / fin (scale * scale) = fin (a / (scale * scale)) := fun a => if_neg (mul_ne_zero hs.ne' hs.ne')
    have : 1 - sig ((y - loc) / scale) ≠ 0 := by have := sig_lt_one ((y - loc) / scale); linarith
    simp only [logisticLogSurvival, standardizeScale, neg_fin, softplusV_pull, fin_mul, hd]
    congr 1; field_simp

/-- The differentiated logistic `log_cdf` and `log_survival_function` have the values of the model of the class. -/
theorem C66_logistic_values (loc scale y : ℝ) :
    (logisticLogCdf (standardizeLoc scale y loc)).1 = (Logistic.toBase ⟨loc, scale⟩).logCdf y ∧
    (logisticLogSurvival (standardizeLoc scale y loc)).1 = (Logistic.toBase ⟨loc, scale⟩).logSurvival y ∧
    (logisticLogCdf (standardizeScale loc y scale)).1 = (Logistic.toBase ⟨loc, scale⟩).logCdf y ∧
    (logisticLogSurvival (standardizeScale loc y scale)).1 = (Logistic.toBase ⟨loc, scale⟩).logSurvival y := by
  refine ⟨?_, ?_, ?_, ?_⟩ <;>
    simp only [logisticLogCdf, logisticLogSurvival, standardizeLoc, standardizeScale, neg_fin, softplusV_val, neg_neg,
      Logistic.toBase, Logistic.logCdf, Logistic.logSurvival, Logistic.standardize, rsoftplus, softplus_log]

/-- So `Quantized(Logistic(loc, scale), low, high)` has finite, correct gradients with respect to both parameters at every
whole number between the cutoffs. -/
theorem C66_quantized_logistic (loc : ℝ) {scale : ℝ} (hs : 0 < scale) (low high : Option ℤ) (n : ℤ)
    (hn : Between low high n) :
    DerivAt (fun t => Real.log (quantProb low high (fun y => sig ((y - t) / scale)) n)) loc
      (quantLogProb (cut low) (cut high) none (fun y => logisticLogCdf (standardizeLoc scale y loc))
        (fun y => logisticLogSurvival (standardizeLoc scale y loc)) n).2 ∧
    DerivAt (fun t => Real.log (quantProb low high (fun y => sig ((y - loc) / t)) n)) scale
      (quantLogProb (cut low) (cut high) none (fun y => logisticLogCdf (standardizeScale loc y scale))
        (fun y => logisticLogSurvival (standardizeScale loc y scale)) n).2 :=
  ⟨(C66_quantized_log_prob (C66_logistic_loc loc hs) low high none n hn (by simp)).2,
    (C66_quantized_log_prob (C66_logistic_scale loc hs) low high none n hn (by simp)).2⟩

/-- Hypotheses: cutoffs -3 and 4, both included. -/
example : Between (some (-3)) (some 4) (-3) ∧ Between (some (-3)) (some 4) 4 ∧ Ordered (some (-3)) (some 4) ∧
    ¬Between (some (-3)) (some 4) 5 := by
  refine ⟨⟨?_, ?_⟩, ⟨?_, ?_⟩, ?_, fun h => ?_⟩
  any_goals simp [Ordered]
  have := h.2 4 rfl
  omega

/-- Hypotheses of the clamp: the right tail of the standard logistic, where neighbouring cells have nearly equal tails:
`eps = 2` replaces the larger tail at `n = 5`. -/
example : Clamps 2 (tails none none (fun y => sig y) 5) ∧ ¬Clamps 1e-3 (tails none none (fun y => sig y) 0) := by
  have hq : ∀ n : ℤ, quantCdf none none (fun y => sig y) n = sig n := fun n => by
    rw [quantCdf_mid (by simp) (by simp)]
  constructor
  · have h : 1 - sig ((5 : ℤ) : ℝ) < sig ((5 : ℤ) : ℝ) := by
      rw [one_sub_sig]; exact sig_strictMono (by norm_num)
    simp only [Clamps, tails, hq]
    rw [if_pos h]
    simp only [one_sub_sig]
    norm_num
    unfold sig
    have e1 : (1 : ℝ) ≤ Real.exp 4 := Real.one_le_exp (by norm_num)
    have e2 : Real.exp 5 = Real.exp 4 * Real.exp 1 := by rw [← Real.exp_add]; norm_num
    have e3 : Real.exp 2 = Real.exp 1 * Real.exp 1 := by rw [← Real.exp_add]; norm_num
    have e4 : (2 : ℝ) ≤ Real.exp 1 := by have := Real.add_one_le_exp (1 : ℝ); linarith
    rw [neg_neg, neg_neg, mul_one_div, div_le_div_iff₀ (by positivity) (by positivity), e2, e3]
    nlinarith [mul_nonneg (sub_nonneg.2 e1) (sub_nonneg.2 e4), Real.exp_pos 4, Real.exp_pos 1]
  · have h : ¬(1 - sig ((0 : ℤ) : ℝ) < sig ((0 : ℤ) : ℝ)) := by
      rw [one_sub_sig]; simp
    simp only [Clamps, tails, hq]
    rw [if_neg h]
    norm_num
    unfold sig
    have e1 : Real.exp (1 / 1000) ≤ 1.01 := by
      have := Real.exp_bound_div_one_sub_of_interval (x := 1 / 1000) (by norm_num) (by norm_num)
      refine this.trans ?_
      norm_num
    have e4 : (2 : ℝ) ≤ Real.exp 1 := by have := Real.add_one_le_exp (1 : ℝ); linarith
    rw [mul_one_div, div_lt_div_iff₀ (by positivity) (by positivity)]
    norm_num
    nlinarith

/-! ### A base with a kink: the uniform distribution -/

/-- The differentiated uniform tails have the values of the model of the class. -/
theorem C66_uniform_values {high : ℝ} (hh : 0 < high) (x : ℝ) :
    (uniformLogCdf x high).1 = XR.log (fin ((⟨0, high⟩ : Uniform).cdf x)) ∧
    (uniformLogSurvival x high).1 = XR.log1p (-fin ((⟨0, high⟩ : Uniform).cdf x)) := by
  have hd : fin x / fin high = fin (x / high) := if_neg hh.ne'
  have : (whereC (x > high) (fin 1) (whereC (x < 0) (fin 0) (fin x / fin high, fun g => -g * fin x / (fin high * fin high)))).1 =
      fin ((⟨0, high⟩ : Uniform).cdf x) := by
    simp only [whereC, sel, Uniform.cdf, Uniform.range, sub_zero, hd]
    split_ifs <;> rfl
  simp only [uniformLogCdf, uniformLogSurvival, this]
  exact ⟨trivial, trivial⟩

/-- `Quantized(Uniform(0, high))` at the first cell with positive probability: the probability of `1` is `1 / high`, the
value is right, but the gradient with respect to `high` is `nan`, for every cotangent, without cutoff, with the cutoff
`low = 0` and even with `low = 1`, where the cell below is masked: the derivative of `log(cdf(0)) = log 0` divides zero by
zero, and the mask does not hide that. -/
theorem C66_quantized_uniform_nan {high : ℝ} (hh : 2 < high) (c : ℝ) :
    (quantLogProb none none none (fun y => uniformLogCdf y high) (fun y => uniformLogSurvival y high) 1).1 =
      fin (Real.log (1 / high)) ∧
    (quantLogProb none none none (fun y => uniformLogCdf y high) (fun y => uniformLogSurvival y high) 1).2 (fin c) =
      nan ∧
    (quantLogProb (some 0) none none (fun y => uniformLogCdf y high) (fun y => uniformLogSurvival y high) 1).2 (fin c) =
      nan ∧
    (quantLogProb (some 1) none none (fun y => uniformLogCdf y high) (fun y => uniformLogSurvival y high) 1).2 (fin c) =
      nan := by
  have hp : 0 < high := by linarith
  have f1 : ⌊(1 : ℝ)⌋ = 1 := by simp
  have f0 : ⌊(1 : ℝ) - 1⌋ = 0 := by simp
  have hd : ∀ a, fin a / fin high = fin (a / high) := fun a => if_neg hp.ne'
  have hd2 : ∀ a, fin a / fin (high * high) = fin (a / (high * high)) := fun a => if_neg (by positivity)
  have k1 : ¬(1 : ℝ) > high := by linarith
  have k2 : ¬(1 : ℝ) < 0 := by norm_num
  have k3 : ¬(0 : ℝ) > high := by linarith
  have k4 : ¬(0 : ℝ) < 0 := by norm_num
  have c1 : uniformLogCdf 1 high = (fin (Real.log (1 / high)), fun g => -(g / fin (1 / high)) * fin 1 / fin (high * high)) := by
    simp only [uniformLogCdf, whereC, XR.sel_neg k1, XR.sel_neg k2, hd, fin_mul]
    rw [log_fin_pos (by positivity)]
  have c0 : uniformLogCdf 0 high = (ninf, fun g => -(g / fin 0) * fin 0 / fin (high * high)) := by
    simp only [uniformLogCdf, whereC, XR.sel_neg k3, XR.sel_neg k4, hd, fin_mul, zero_div, zero_ninf_log]
  have one_sub : ∀ a, (1 : XR) + -fin a = fin (1 - a) := fun a => by show fin (1 + -a) = _; rw [← sub_eq_add_neg]
  have hq : 1 / high < 1 := by rw [div_lt_one hp]; linarith
  have s1 : uniformLogSurvival 1 high = (fin (Real.log (1 - 1 / high)),
      fun g => -(-(g / fin (1 - 1 / high))) * fin 1 / fin (high * high)) := by
    simp only [uniformLogSurvival, whereC, XR.sel_neg k1, XR.sel_neg k2, hd, fin_mul, log1p, one_sub]
    rw [log_fin_pos (by linarith)]
  have s0 : uniformLogSurvival 0 high = (fin 0, fun g => -(-(g / fin 1)) * fin 0 / fin (high * high)) := by
    simp only [uniformLogSurvival, whereC, XR.sel_neg k3, XR.sel_neg k4, hd, fin_mul, zero_div, log1p, one_sub, sub_zero,
      one_fin_log]
  have hu : ¬ltB (fin (Real.log (1 - 1 / high))) (fin (Real.log (1 / high))) := by
    have : 1 / high < 1 / 2 := one_div_lt_one_div_of_lt (by norm_num) hh
    have := Real.log_lt_log (by positivity) (show 1 / high < 1 - 1 / high by linarith)
    exact not_lt.2 this.le
  have hout : ¬(Quantized.isInf (fin (Real.log (1 / high))) ∨ Quantized.isInf (fin (0 : ℝ))) := by
    simp [Quantized.isInf]
  have hint : ¬(1 : ℝ) > ((⌊(1 : ℝ)⌋ : ℤ) : ℝ) := by simp
  have dead : ∀ x : XR, x + nan = nan ∧ nan + x = nan := fun x => by cases x <;> exact ⟨rfl, rfl⟩
  have n0 : ∀ x : XR, x = fin 0 → -(x / fin 0) * fin 0 / fin (high * high) = nan := by
    rintro _ rfl; simp [HDiv.hDiv, Div.div, XR.div, infOf]; rfl
  have hlow : ¬((0 : ℝ) < 0) := lt_irrefl _
  have hlow' : ¬((1 : ℝ) < 0) := by norm_num
  have e0 : XR.exp (ninf - fin (Real.log (1 / high))) = fin 0 := rfl
  have o1 : (logDiffV (fin (Real.log (1 / high))) ninf).1 = fin (Real.log (1 / high)) := by
    simp only [logDiffV, e0, log1p, one_sub, sub_zero, one_fin_log, fin_add, add_zero]
  have o2 : ((logDiffV (fin (Real.log (1 / high))) ninf).2 (fin c)).2 = fin 0 := by
    have : fin c / fin 1 = fin c := by show (if (1 : ℝ) = 0 then _ else fin (c / 1)) = _; rw [if_neg one_ne_zero, div_one]
    simp only [logDiffV, e0, one_sub, sub_zero, this]
    simp only [neg_fin, fin_mul, mul_zero]
  have q1 : quantLogCdf none none (fun y => uniformLogCdf y high) 1 = uniformLogCdf 1 high := by
    simp only [quantLogCdf, f1, Int.cast_one]
  have q0 : quantLogCdf none none (fun y => uniformLogCdf y high) (1 - 1) = uniformLogCdf 0 high := by
    simp only [quantLogCdf, f0, Int.cast_zero]
  have t1 : quantLogSurvival none none (fun y => uniformLogSurvival y high) 1 = uniformLogSurvival 1 high := by
    simp only [quantLogSurvival, f1, Int.cast_one]
  have t0 : quantLogSurvival none none (fun y => uniformLogSurvival y high) (1 - 1) = uniformLogSurvival 0 high := by
    simp only [quantLogSurvival, f0, Int.cast_zero]
  have m1 : quantLogCdf (some 0) none (fun y => uniformLogCdf y high) 1 = uniformLogCdf 1 high := by
    simp only [quantLogCdf, f1, Int.cast_one, whereC, XR.sel_neg hlow']
  have m0 : quantLogCdf (some 0) none (fun y => uniformLogCdf y high) (1 - 1) = uniformLogCdf 0 high := by
    simp only [quantLogCdf, f0, Int.cast_zero, whereC, XR.sel_neg hlow]
  have u1 : quantLogSurvival (some 0) none (fun y => uniformLogSurvival y high) 1 = uniformLogSurvival 1 high := by
    simp only [quantLogSurvival, f1, Int.cast_one, whereC, XR.sel_neg hlow']
  have u0 : quantLogSurvival (some 0) none (fun y => uniformLogSurvival y high) (1 - 1) = uniformLogSurvival 0 high := by
    simp only [quantLogSurvival, f0, Int.cast_zero, whereC, XR.sel_neg hlow]
  have low0 : (0 : ℝ) < 1 := one_pos
  have low1 : ¬(1 : ℝ) < 1 := lt_irrefl _
  have l1 : quantLogCdf (some 1) none (fun y => uniformLogCdf y high) 1 = uniformLogCdf 1 high := by
    simp only [quantLogCdf, f1, Int.cast_one, whereC, XR.sel_neg low1]
  have l0 : quantLogCdf (some 1) none (fun y => uniformLogCdf y high) (1 - 1) =
      (ninf, fun _ => (uniformLogCdf 0 high).2 0) := by
    simp only [quantLogCdf, f0, Int.cast_zero, whereC, XR.sel_pos low0]
  have v1 : quantLogSurvival (some 1) none (fun y => uniformLogSurvival y high) 1 = uniformLogSurvival 1 high := by
    simp only [quantLogSurvival, f1, Int.cast_one, whereC, XR.sel_neg low1]
  have v0 : quantLogSurvival (some 1) none (fun y => uniformLogSurvival y high) (1 - 1) =
      (fin 0, fun _ => (uniformLogSurvival 0 high).2 0) := by
    simp only [quantLogSurvival, f0, Int.cast_zero, whereC, XR.sel_pos low0]
  have key : (combine none 1 (uniformLogCdf 1 high) (uniformLogCdf 0 high) (uniformLogSurvival 1 high)
      (uniformLogSurvival 0 high)).2 (fin c) = nan := by
    rw [c1, c0, s1, s0]
    simp only [combine, XR.sel_neg hu, XR.sel_neg hout, XR.sel_pos hint]
    rw [n0 _ o2]
    simp only [(dead _).1, (dead _).2]
  refine ⟨?_, ?_, ?_, ?_⟩
  · rw [combine_eq, q1, q0, t1, t0, c1, c0, s1, s0]
    simp only [combine, XR.sel_neg hu, XR.sel_neg hout, XR.sel_pos hint, o1]
  · rw [combine_eq, q1, q0, t1, t0]; exact key
  · rw [combine_eq, m1, m0, u1, u0]; exact key
  · rw [combine_eq, l1, l0, v1, v0, c1, c0, s1, s0]
    simp only [combine, XR.sel_neg hu, XR.sel_neg hout, XR.sel_pos hint]
    rw [n0 0 rfl]
    simp only [(dead _).1, (dead _).2]

/-! ### Clipped -/

/-- The values are those of the model of `Clipped.log_prob`. -/
theorem C66_clipped_values (base : Base) (minimum maximum : ℝ) (pc ps pl : ℝ → XR → XR) (v : ℝ) :
    (clipLogProb minimum maximum (fun y => (base.logCdf y, pc y)) (fun y => (base.logSurvival y, ps y))
      (fun y => (base.logProb y, pl y)) v).1 = (Clipped.init base minimum maximum).logProb v := by
  simp only [clipLogProb, Clipped.logProb, Clipped.init, sel]
  by_cases h1 : v < minimum ∨ v > maximum
  · rw [if_pos h1]; exact (if_pos h1).symm
  rw [if_neg h1]
  refine Eq.trans ?_ (if_neg h1).symm
  by_cases h2 : v = minimum
  · rw [if_pos h2]; exact (if_pos h2).symm
  rw [if_neg h2]
  refine Eq.trans ?_ (if_neg h2).symm
  by_cases h3 : v = maximum
  · rw [if_pos h3]; exact (if_pos h3).symm
  · rw [if_neg h3]; exact (if_neg h3).symm

/-- `Clipped.log_prob` has finite, correct gradients everywhere: that of the base's log-density between the bounds, that of
the log of the lower tail at the minimum, that of the log of the upper tail at the maximum, and zero outside. -/
theorem C66_clipped (hb : SmoothBase F F' θ lc ls) {minimum maximum : ℝ} (hm : minimum < maximum)
    {L : ℝ → ℝ → ℝ} {lp : ℝ → RevP} (hl : ∀ y, (lp y).1 = fin (L θ y) ∧ DerivAt (fun t => L t y) θ (lp y).2) :
    ((clipLogProb minimum maximum lc ls lp minimum).1 = fin (Real.log (F θ minimum)) ∧
      DerivAt (fun t => Real.log (F t minimum)) θ (clipLogProb minimum maximum lc ls lp minimum).2) ∧
    ((clipLogProb minimum maximum lc ls lp maximum).1 = fin (Real.log (1 - F θ maximum)) ∧
      DerivAt (fun t => Real.log (1 - F t maximum)) θ (clipLogProb minimum maximum lc ls lp maximum).2) ∧
    (∀ v, minimum < v → v < maximum → (clipLogProb minimum maximum lc ls lp v).1 = fin (L θ v) ∧
      DerivAt (fun t => L t v) θ (clipLogProb minimum maximum lc ls lp v).2) ∧
    ∀ v, v < minimum ∨ maximum < v → (clipLogProb minimum maximum lc ls lp v).1 = ninf ∧
      ∀ c, (clipLogProb minimum maximum lc ls lp v).2 (fin c) = fin 0 := by
  have zl : ∀ y, (lp y).2 0 = fin 0 := fun y => by
    obtain ⟨-, d, h, -⟩ := hl y
    have := h 0
    rwa [zero_mul] at this
  have z1 := fun y => (blocked hb y).1
  have z2 := fun y => (blocked hb y).2
  refine ⟨?_, ?_, fun v h1 h2 => ?_, fun v h => ?_⟩
  · have ho : ¬(minimum < minimum ∨ minimum > maximum) := by rintro (h | h) <;> linarith
    simp only [clipLogProb, XR.sel_neg ho, XR.sel_pos trivial, eq_self, XR.sel_neg hm.ne]
    refine ⟨hb.logCdf_val _, _, fun c => ?_, (hb.deriv minimum).log (hb.pos _).ne'⟩
    show (lc minimum).2 (fin c) + _ + _ = _
    rw [z2, zl, hb.logCdf_pull, fin_add, fin_add, add_zero, add_zero]
  · have ho : ¬(maximum < minimum ∨ maximum > maximum) := by rintro (h | h) <;> linarith
    simp only [clipLogProb, XR.sel_neg ho, XR.sel_pos trivial, eq_self, XR.sel_neg hm.ne']
    have := hb.lt_one maximum
    refine ⟨hb.logSf_val _, _, fun c => ?_, ((hb.deriv maximum).const_sub 1).log (by linarith)⟩
    show _ + (ls maximum).2 (fin c) + _ = _
    rw [z1, zl, hb.logSf_pull, fin_add, fin_add, add_zero, zero_add]
  · have ho : ¬(v < minimum ∨ v > maximum) := by rintro (h | h) <;> linarith
    simp only [clipLogProb, XR.sel_neg ho, XR.sel_neg h1.ne', XR.sel_neg h2.ne]
    obtain ⟨hv, d, h, hd⟩ := hl v
    refine ⟨hv, d, fun c => ?_, hd⟩
    show _ + _ + (lp v).2 (fin c) = _
    rw [z1, z2, h, fin_add, fin_add, zero_add, zero_add]
  · have ho : v < minimum ∨ v > maximum := h
    have s1 : XR.sel (v = minimum) (0 : XR) 0 = 0 := by simp [sel]
    have s2 : XR.sel (v = maximum) (0 : XR) 0 = 0 := by simp [sel]
    simp only [clipLogProb, XR.sel_pos ho, s1, s2, z1, z2, zl, fin_add, add_zero]
    exact ⟨trivial, fun _ => trivial⟩

/-- The logistic log-density satisfies the hypothesis on the base (as a function of `loc`). -/
theorem C66_logistic_log_prob (loc : ℝ) {scale : ℝ} (hs : 0 < scale) (y : ℝ) :
    (logisticLogProbLoc scale y loc).1 = (Logistic.toBase ⟨loc, scale⟩).logProb y ∧
    (logisticLogProbLoc scale y loc).1 = fin ((⟨loc, scale⟩ : Logistic).logProb y) ∧
      DerivAt (fun t => (⟨t, scale⟩ : Logistic).logProb y) loc (logisticLogProbLoc scale y loc).2 := by
  have hval : (logisticLogProbLoc scale y loc).1 = fin ((⟨loc, scale⟩ : Logistic).logProb y) := by
    simp only [logisticLogProbLoc, standardizeLoc, neg_fin, softplusV_val, fin_mul, log_fin_pos hs, Logistic.logProb,
      Logistic.standardize, rsoftplus, softplus_log, neg_neg]
    rfl
  refine ⟨hval, hval, (1 - 2 * (1 - sig ((y - loc) / scale))) / scale, fun c => ?_, ?_⟩
  · have hd : ∀ a, fin a / fin scale = fin (a / scale) := fun a => if_neg hs.ne'
    simp only [logisticLogProbLoc, standardizeLoc, neg_fin, fin_mul, softplusV_pull, fin_add, hd, ← one_sub_sig]
    congr 1; ring
  · have h1 : HasDerivAt (fun t => (y - t) / scale) (-1 / scale) loc := ((hasDerivAt_id loc).const_sub y).div_const scale
    have h2 : HasDerivAt (fun t => Real.log (sig ((y - t) / scale))) ((1 - sig ((y - loc) / scale)) * (-1 / scale)) loc :=
      HasDerivAt.comp (h₂ := fun x => Real.log (sig x)) loc (log_sig_deriv ((y - loc) / scale)) h1
    have h3 := ((h1.neg).add (h2.const_mul 2)).sub_const (Real.log scale)
    refine HasDerivAt.congr_deriv (h3.congr_of_eventuallyEq (.of_forall fun t => ?_)) (by field_simp; ring)
    simp only [Logistic.logProb, Logistic.standardize, rsoftplus, softplus_log, neg_neg, Pi.add_apply, Pi.neg_apply]
    ring

/-- So `Clipped(Logistic(loc, scale), minimum, maximum)` has finite gradients in `loc` at every value, equal to the
derivative of `log_prob` wherever that is a finite number. -/
theorem C66_clipped_logistic (loc : ℝ) {scale minimum maximum : ℝ} (hs : 0 < scale) (hm : minimum < maximum) (v c : ℝ) :
    ∃ g, (clipLogProb minimum maximum (fun y => logisticLogCdf (standardizeLoc scale y loc))
      (fun y => logisticLogSurvival (standardizeLoc scale y loc)) (fun y => logisticLogProbLoc scale y loc) v).2 (fin c) =
      fin g := by
  obtain ⟨h1, h2, h3, h4⟩ := C66_clipped (C66_logistic_loc loc hs) hm
    (L := fun t y => (⟨t, scale⟩ : Logistic).logProb y) (fun y => (C66_logistic_log_prob loc hs y).2)
  rcases lt_trichotomy v minimum with h | rfl | h
  · exact ⟨_, (h4 v (.inl h)).2 c⟩
  · obtain ⟨_, d, h, _⟩ := h1; exact ⟨_, h c⟩
  rcases lt_trichotomy v maximum with h' | rfl | h'
  · obtain ⟨_, d, h, _⟩ := h3 v h h'; exact ⟨_, h c⟩
  · obtain ⟨_, d, h, _⟩ := h2; exact ⟨_, h c⟩
  · exact ⟨_, (h4 v (.inr h')).2 c⟩

end

end Distrax
