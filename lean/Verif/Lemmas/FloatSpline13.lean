import Verif.Lemmas.FloatSpline12
import Mathlib.Tactic

/-!
Lemmas for C79: accuracy of one segment of the inverse map: the coefficients of the quadratic and its discriminant.
-/

namespace Distrax.FSpline

open XR FX

variable {F : Fmt} {u η B : ℝ}

/-- The coefficients of the quadratic, with their errors. -/
theorem coeffs_acc (A : F.Acc u η) {slope d0 d1 w : FX F} {S a0 a1 ω τ σ W T : ℝ} (hS : slope.1 = fin S) (hd0 : d0.1 = fin a0)
    (hw : w.1 = fin ω) (hτ : (d1 + d0 - lit 2 * slope).1 = fin τ)
    (bτ : |τ - (a1 + a0 - 2 * S)| ≤ u * (3 * (a1 + a0) + 2 * S)) (σp : 0 < σ) (p0 : 0 < a0) (p1 : 0 < a1) (sl : |S - σ| ≤ 4 * (u * σ)) (hT : T = σ + a0 + a1)
    (W0 : 0 ≤ W) (W1 : W ≤ 1) (w0 : 0 ≤ ω) (w1 : ω ≤ 1) (we : |ω - W| ≤ 4 * u) (top : 64 * T ≤ F.top) (eS : η ≤ u * σ / 32) :
    ∃ α β γ, (-slope * w).1 = fin γ ∧ (d0 - (d1 + d0 - lit 2 * slope) * w).1 = fin β ∧
      (slope - (d0 - (d1 + d0 - lit 2 * slope) * w)).1 = fin α ∧
      |γ - -(σ * W)| ≤ 10 * (u * σ) ∧ |β - (a0 - (a0 + a1 - 2 * σ) * W)| ≤ 30 * (u * T) ∧ |α - (σ - (a0 - (a0 + a1 - 2 * σ) * W))| ≤ 40 * (u * T) := by
  have u0 := A.u0
  have ul := A.u_le
  have uσ : u * σ ≤ σ / 256 := by have := mul_le_mul_of_nonneg_right ul σp.le; linarith
  have uσ0 : 0 ≤ u * σ := by positivity
  have ua0 : 0 ≤ u * a0 := by positivity
  have ua1 : 0 ≤ u * a1 := by positivity
  have uT : u * T = u * σ + u * a0 + u * a1 := by rw [hT]; ring
  have ulT : u * T ≤ T / 256 := by have := mul_le_mul_of_nonneg_right ul (show 0 ≤ T by linarith); linarith
  obtain ⟨s1, s2⟩ := abs_le.1 sl
  have S0 : 0 ≤ S := by linarith
  -- γ
  have nS : (-slope).1 = fin (-S) := by rw [neg_val, hS]; rfl
  have Sw0 : 0 ≤ S * ω := mul_nonneg S0 w0
  have Sw1 : S * ω ≤ S := mul_le_of_le_one_right S0 w1
  obtain ⟨γ, hγ, bγ, -⟩ := op_mul A nS hw (by rw [neg_mul, abs_neg, abs_of_nonneg Sw0]; linarith)
  rw [neg_mul, abs_neg, abs_of_nonneg Sw0] at bγ
  have eγ : |γ - -(σ * W)| ≤ 10 * (u * σ) := by
    have g1 : |S * ω - σ * W| ≤ 4 * (u * σ) * ω + σ * (4 * u) := prod_err sl we σp.le w0
    have g2 : 4 * (u * σ) * ω ≤ 4 * (u * σ) := mul_le_of_le_one_right (by positivity) w1
    have g3 : u * (S * ω) ≤ u * (102 / 100 * σ) := mul_le_mul_of_nonneg_left (by linarith) u0
    obtain ⟨f1, f2⟩ := abs_le.1 g1
    obtain ⟨f3, f4⟩ := abs_le.1 bγ
    rw [abs_le]; constructor <;> linarith
  -- τ
  have tτ : |τ - (a0 + a1 - 2 * σ)| ≤ 12 * (u * T) := by
    have g3 : u * (3 * (a1 + a0) + 2 * S) ≤ u * (3 * (a1 + a0) + 2 * (102 / 100 * σ)) := mul_le_mul_of_nonneg_left (by linarith) u0
    obtain ⟨f3, f4⟩ := abs_le.1 bτ
    rw [abs_le]; constructor <;> linarith
  have tm : |a0 + a1 - 2 * σ| ≤ 2 * T := by rw [abs_le]; constructor <;> linarith
  have τm : |τ| ≤ 206 / 100 * T := by
    obtain ⟨f1, f2⟩ := abs_le.1 tτ
    obtain ⟨f3, f4⟩ := abs_le.1 tm
    rw [abs_le]; constructor <;> linarith
  have τw : |τ * ω| ≤ 206 / 100 * T := by
    rw [abs_mul, abs_of_nonneg w0]
    exact (mul_le_of_le_one_right (_root_.abs_nonneg _) w1).trans τm
  obtain ⟨p, hp, bp, -⟩ := op_mul A hτ hw (by linarith)
  have ep : |p - (a0 + a1 - 2 * σ) * W| ≤ 23 * (u * T) := by
    have e : τ * ω - (a0 + a1 - 2 * σ) * W = (τ - (a0 + a1 - 2 * σ)) * ω + (a0 + a1 - 2 * σ) * (ω - W) := by ring
    have g1 : |τ * ω - (a0 + a1 - 2 * σ) * W| ≤ 12 * (u * T) + 2 * T * (4 * u) := by
      rw [e]
      refine (abs_add_le _ _).trans (_root_.add_le_add ?_ ?_)
      · rw [abs_mul, abs_of_nonneg w0]
        exact (mul_le_of_le_one_right (_root_.abs_nonneg _) w1).trans tτ
      · rw [abs_mul]
        exact mul_le_mul tm we (_root_.abs_nonneg _) (by linarith)
    have g2 := mul_le_mul_of_nonneg_left τw u0
    obtain ⟨f1, f2⟩ := abs_le.1 g1
    obtain ⟨f3, f4⟩ := abs_le.1 bp
    rw [abs_le]; constructor <;> linarith
  have tW : |(a0 + a1 - 2 * σ) * W| ≤ 2 * T := by
    rw [abs_mul, abs_of_nonneg W0]
    exact (mul_le_of_le_one_right (_root_.abs_nonneg _) W1).trans tm
  obtain ⟨m1, m2⟩ := abs_le.1 tW
  obtain ⟨p1', p2'⟩ := abs_le.1 ep
  have am : |a0 - p| ≤ 32 / 10 * T := by rw [abs_le]; constructor <;> linarith
  obtain ⟨β, hβ, bβ, -⟩ := op_sub A hd0 hp (by linarith)
  have eβ : |β - (a0 - (a0 + a1 - 2 * σ) * W)| ≤ 30 * (u * T) := by
    have g2 := mul_le_mul_of_nonneg_left am u0
    obtain ⟨f3, f4⟩ := abs_le.1 bβ
    rw [abs_le]; constructor <;> linarith
  obtain ⟨b1, b2⟩ := abs_le.1 eβ
  have sm : |S - β| ≤ 42 / 10 * T := by rw [abs_le]; constructor <;> linarith
  obtain ⟨α, hα, bα, -⟩ := op_sub A hS hβ (by linarith)
  refine ⟨α, β, γ, hγ, hβ, hα, eγ, eβ, ?_⟩
  have g2 := mul_le_mul_of_nonneg_left sm u0
  obtain ⟨f3, f4⟩ := abs_le.1 bα
  rw [abs_le]; constructor <;> linarith

/-- The discriminant, with its error. -/
theorem disc_acc (A : F.Acc u η) {a b c : FX F} {α β γ a' b' c' T : ℝ} (ha : a.1 = fin α) (hb : b.1 = fin β) (hc : c.1 = fin γ) (T0 : 0 < T)
    (ea : |α - a'| ≤ 40 * (u * T)) (eb : |β - b'| ≤ 30 * (u * T)) (ec : |γ - c'| ≤ 10 * (u * T)) (ma : |a'| ≤ 4 * T) (mb : |b'| ≤ 3 * T) (mc : |c'| ≤ T)
    (hu : u ≤ 1 / 4096) (hη : η ≤ u * T ^ 2) (hη' : η ≤ u * T) (top : 64 * T ≤ F.top) (top2 : 64 * T ^ 2 ≤ F.top) :
    ∃ v, (b * b - lit 4 * a * c).1 = fin v ∧ |v - (b' ^ 2 - 4 * a' * c')| ≤ 700 * (u * T ^ 2) := by
  have u0 := A.u0
  have e0 := A.η0
  have uT : u * T ≤ T / 4096 := by have := mul_le_mul_of_nonneg_right hu T0.le; linarith
  have uT0 : 0 ≤ u * T := by positivity
  have uT2 : 0 ≤ u * T ^ 2 := by positivity
  have uT2' : u * T ^ 2 ≤ T ^ 2 / 4096 := by have := mul_le_mul_of_nonneg_right hu (sq_nonneg T); linarith
  have bnd : ∀ {x y M N : ℝ}, |x| ≤ M → |y| ≤ N → |x * y| ≤ M * N := fun {x y M N} h1 h2 => by
    rw [abs_mul]; exact mul_le_mul h1 h2 (_root_.abs_nonneg _) ((_root_.abs_nonneg _).trans h1)
  have pe : ∀ {x y x' y' M N ε δ : ℝ}, |x - x'| ≤ ε → |y - y'| ≤ δ → |x'| ≤ M → |y| ≤ N → |x * y - x' * y'| ≤ ε * N + M * δ := fun {x y x' y' M N ε δ} h1 h2 h3 h4 => by
    have e : x * y - x' * y' = (x - x') * y + x' * (y - y') := by ring
    rw [e]
    exact (abs_add_le _ _).trans (_root_.add_le_add (bnd h1 h4) (bnd h3 h2))
  have grow : ∀ {x x' M ε : ℝ}, |x - x'| ≤ ε → |x'| ≤ M → |x| ≤ M + ε := fun {x x' M ε} h1 h2 => by
    have := abs_add_le x' (x - x')
    rw [show x' + (x - x') = x by ring] at this
    linarith
  have mα : |α| ≤ 41 / 10 * T := (grow ea ma).trans (by linarith)
  have mβ : |β| ≤ 31 / 10 * T := (grow eb mb).trans (by linarith)
  have mγ : |γ| ≤ 11 / 10 * T := (grow ec mc).trans (by linarith)
  have q1 := bnd mβ mβ
  obtain ⟨p, hp, bp, -⟩ := op_mul A hb hb (q1.trans (by linarith))
  have ep : |p - b' ^ 2| ≤ 195 * (u * T ^ 2) := by
    have g1 := pe eb eb mb mβ
    have g2 := mul_le_mul_of_nonneg_left q1 u0
    obtain ⟨f1, f2⟩ := abs_le.1 g1
    obtain ⟨f3, f4⟩ := abs_le.1 bp
    rw [pow_two b', abs_le]; constructor <;> linarith
  have h4 : (lit 4 : FX F).1 = fin 4 := by
    have := F.double (F.rd_two) (by norm_num; have := F.top_ge; linarith)
    rw [show (2 : ℝ) * 2 = 4 by norm_num] at this
    exact lit_val this
  have q4 : |4 * α| ≤ 164 / 10 * T := (bnd (x := 4) (by norm_num : |(4 : ℝ)| ≤ 4) mα).trans (le_of_eq (by ring))
  obtain ⟨f, hf, bf, -⟩ := op_mul A h4 ha (q4.trans (by linarith))
  have ef : |f - 4 * a'| ≤ 178 * (u * T) := by
    have g2 := mul_le_mul_of_nonneg_left q4 u0
    obtain ⟨f1, f2⟩ := abs_le.1 ea
    obtain ⟨f3, f4⟩ := abs_le.1 bf
    rw [abs_le]; constructor <;> linarith
  have m4 : |4 * a'| ≤ 16 * T := (bnd (x := 4) (by norm_num : |(4 : ℝ)| ≤ 4) ma).trans (le_of_eq (by ring))
  have mf : |f| ≤ 165 / 10 * T := (grow ef m4).trans (by linarith)
  have q5 := bnd mf mγ
  obtain ⟨g, hg, bg, -⟩ := op_mul A hf hc (q5.trans (by linarith))
  have eg : |g - 4 * a' * c'| ≤ 380 * (u * T ^ 2) := by
    have g1 := pe ef ec m4 mγ
    have g2 := mul_le_mul_of_nonneg_left q5 u0
    obtain ⟨f1, f2⟩ := abs_le.1 g1
    obtain ⟨f3, f4⟩ := abs_le.1 bg
    rw [abs_le]; constructor <;> linarith
  have mp : |p| ≤ 10 * T ^ 2 := by
    have g2 := mul_le_mul_of_nonneg_left q1 u0
    have := grow bp q1
    linarith
  have mg : |g| ≤ 19 * T ^ 2 := by
    have g2 := mul_le_mul_of_nonneg_left q5 u0
    have := grow bg q5
    linarith
  have mpg : |p - g| ≤ 29 * T ^ 2 := (abs_sub _ _).trans (by linarith)
  obtain ⟨v, hv, bv, -⟩ := op_sub A hp hg (mpg.trans (by linarith))
  refine ⟨v, hv, ?_⟩
  have g2 := mul_le_mul_of_nonneg_left mpg u0
  obtain ⟨f1, f2⟩ := abs_le.1 ep
  obtain ⟨f3, f4⟩ := abs_le.1 eg
  obtain ⟨f5, f6⟩ := abs_le.1 bv
  rw [abs_le]; constructor <;> linarith

end Distrax.FSpline
