import Verif.Props.Coupling
import Verif.Lemmas.JacobianArr

/-! C07, C08: the log-dets reported by the coupling layers are the logs of the true Jacobian determinants, although the
parameters of the inner bijector depend on the (unchanged part of the) input. -/

namespace Distrax

namespace MaskedCoupling
variable {P : Type}

/-- **C07 (true Jacobian).** The input has shape `b0 ++ b1 ++ e`: batch axes `b0`, event axes `b1 ++ e`, of which `e` are the
inner bijector's.  For every conditioner whatsoever, if for every parameter value the inner bijector acts event by event and
reports the log of its own Jacobian determinants on unmasked events, then the coupling layer reports, for every batch position,
`log |det|` of the Jacobian of the whole event map (which includes the dependence through the conditioner), wherever that map
is differentiable. -/
theorem C07_log_det_is_jacobian (c : MaskedCoupling P) (b0 b1 e : List ℕ) (hc : c.Fits (b0 ++ b1) e)
    (hev : c.eventNdims = b1.length + e.length) (x : Arr) (hx : x.shape = b0 ++ b1 ++ e)
    (hin : ∀ p, (c.bijector p).ndimsIn = c.innerEventNdims ∧ (c.bijector p).ndimsOut = c.innerEventNdims)
    (hD : ∀ p, ∃ φ D, ActsEventwise (c.bijector p).fwd (b0 ++ b1) e x (fun i => c.mask.at i = false) φ D)
    (i0 : List ℕ) (hi0 : InRange b0 i0) : ReportsLogDet c.fwdAndLd x (b1 ++ e) i0 := by
  classical
  intro φ J hφ hJ y l hy
  have hok : ∀ x' : Arr, x'.shape = b0 ++ b1 ++ e → ∀ p, ∃ y l, (c.bijector p).fwd x' = .ok (y, l) ∧
      y.shape = b0 ++ b1 ++ e ∧ l.shape = b0 ++ b1 := by
    intro x' hx' p
    obtain ⟨φ, D, h⟩ := hD p
    obtain ⟨y, l, h1, h2, h3, _⟩ := h.ok x' hx'
    exact ⟨y, l, h1, h2, h3⟩
  obtain ⟨q, y0, ld, y', l', hq, hqs, hb0, hfw, -, -, hls, hl⟩ := C07_forward c (b0 ++ b1) e hc x hx hin (hok x hx)
  rw [hfw] at hy
  obtain ⟨rfl, rfl⟩ : y' = y ∧ l' = l := by simpa using hy
  obtain ⟨ψ, D, hA⟩ := hD (c.conditioner q.canon)
  have hn : c.eventNdims - c.innerEventNdims = b1.length := by rw [hev, ← hc.inner]; omega
  have htake : (b0 ++ b1).take ((b0 ++ b1).length - (c.eventNdims - c.innerEventNdims)) = b0 := by
    rw [hn, List.length_append, Nat.add_sub_cancel]; simp
  have hdrop : (b0 ++ b1).drop ((b0 ++ b1).length - (c.eventNdims - c.innerEventNdims)) = b1 := by
    rw [hn, List.length_append, Nat.add_sub_cancel]; simp
  rw [htake] at hls
  rw [hdrop, hls] at hl
  rw [hl i0 hi0, sum_allIdx]
  -- rename coordinates
  obtain ⟨J', hJ', hdet⟩ := hasFDerivAt_rename (Idx.split b1 e) hJ
  rw [← hdet]
  have hmask := det_masked (ι := Idx b1) (κ := Idx e) (fun i => c.mask.at (i0 ++ i.1) = true) hJ' ?_
    (fun i => ψ (i0 ++ i.1)) (fun i => D (i0 ++ i.1)) ?_ ?_
  · rw [hmask, Finset.abs_prod, Real.log_prod]
    · refine Finset.sum_congr rfl fun i _ => ?_
      by_cases h : c.mask.at (i0 ++ i.1) = true
      · simp [h]
      · have h' : c.mask.at (i0 ++ i.1) = false := by simpa using h
        simp only [h']
        rw [hA.logdet _ _ hb0 _ (hi0.append i.2) h']
        simp
    · intro i _
      by_cases h : c.mask.at (i0 ++ i.1) = true
      · simp [h]
      · have h' : c.mask.at (i0 ++ i.1) = false := by simpa using h
        simp only [h']
        simpa using (hA.deriv _ (hi0.append i.2) h').2
  · -- masked blocks are copied
    intro w i k hm
    obtain ⟨y1, l1, h1, h2⟩ := hφ (fun a => w ((Idx.split b1 e) a))
    obtain ⟨_, y01, ld1, y1', l1', _, _, _, hf1, _, hy1, _⟩ :=
      C07_forward c (b0 ++ b1) e hc (x.withEvent (b1 ++ e) i0 (fun a => w ((Idx.split b1 e) a))) hx hin (hok _ hx)
    rw [hf1] at h1
    obtain ⟨rfl, rfl⟩ : y1' = y1 ∧ l1' = l1 := by simpa using h1
    have := hy1 (i0 ++ i.1) k.1 (hi0.append i.2) k.2
    rw [if_pos hm] at this
    have e1 := congrFun h2 ((Idx.split b1 e).symm (i, k))
    simp only [Arr.event, Idx.split_symm_val] at e1
    have e2 := withEvent_at (x := x) (i := i0) (fun a => w ((Idx.split b1 e) a)) ((Idx.split b1 e).symm (i, k))
    simp only [Idx.split_symm_val, Equiv.apply_symm_apply] at e2
    rw [← e1, ← List.append_assoc, this, List.append_assoc, e2]
  · intro i hi
    have h' : c.mask.at (i0 ++ i.1) = false := by simpa using hi
    have := (hA.deriv _ (hi0.append i.2) h').1
    have e1 : x.event e (i0 ++ i.1) = fun k => x.event (b1 ++ e) i0 ((Idx.split b1 e).symm (i, k)) := by
      funext k
      simp only [Arr.event, Idx.split_symm_val, List.append_assoc]
    rw [e1] at this
    exact this
  · intro w hw i k hi
    have h' : c.mask.at (i0 ++ i.1) = false := by simpa using hi
    set v : Idx (b1 ++ e) → ℝ := fun a => w ((Idx.split b1 e) a) with hv
    obtain ⟨y1, l1, h1, h2⟩ := hφ v
    obtain ⟨q1, y01, ld1, y1', l1', hq1, hqs1, hb1, hf1, _, hy1, _⟩ :=
      C07_forward c (b0 ++ b1) e hc (x.withEvent (b1 ++ e) i0 v) hx hin (hok _ hx)
    rw [hf1] at h1
    obtain ⟨rfl, rfl⟩ : y1' = y1 ∧ l1' = l1 := by simpa using h1
    -- the conditioner sees the same array
    have hcanon : q1.canon = q.canon := by
      apply canon_congr
      refine ⟨by rw [hqs1, hqs]; rfl, fun kk hkk => ?_⟩
      rw [hqs1] at hkk
      have hkk' : InRange (b0 ++ b1 ++ e) kk := by rw [← hx]; exact hkk
      obtain ⟨a, j, rfl, ha, hj⟩ := inRange_append_split hkk'
      rw [hq1 _ _ ha hj, hq _ _ ha hj]
      by_cases hm : c.mask.at a = true
      · rw [if_pos hm, if_pos hm]
        obtain ⟨a0, a1, rfl, ha0, ha1⟩ := inRange_append_split ha
        by_cases hp : a0 = i0
        · subst hp
          have := withEvent_at (x := x) (i := a0) v ((Idx.split b1 e).symm (⟨a1, ha1⟩, ⟨j, hj⟩))
          simp only [Idx.split_symm_val] at this
          rw [List.append_assoc, this, hv]
          simp only [Equiv.apply_symm_apply]
          rw [hw ⟨a1, ha1⟩ ⟨j, hj⟩ hm]
          simp only [Arr.event, Idx.split_symm_val]
        · rw [withEvent_off]
          intro hpre
          apply hp
          rw [List.append_assoc] at hpre
          have := List.prefix_iff_eq_take.1 hpre
          rw [List.take_left' (by rw [ha0.length, hi0.length])] at this
          exact this.symm
      · rw [if_neg hm, if_neg hm]
    rw [hcanon] at hb1
    obtain ⟨y2, l2, hf2, _, _, hy2⟩ := hA.ok (x.withEvent (b1 ++ e) i0 v) hx
    rw [hf2] at hb1
    obtain ⟨rfl, rfl⟩ : y2 = y01 ∧ l2 = ld1 := by simpa using hb1
    have e0 := hy1 (i0 ++ i.1) k.1 (hi0.append i.2) k.2
    rw [if_neg (by simpa using hi)] at e0
    have e1 := congrFun h2 ((Idx.split b1 e).symm (i, k))
    simp only [Arr.event, Idx.split_symm_val] at e1
    rw [← e1, ← List.append_assoc, e0]
    have e2 := congrFun (hy2 (i0 ++ i.1) (hi0.append i.2)) k
    simp only [Arr.event] at e2
    rw [e2]
    congr 1
    funext k'
    have := withEvent_at (x := x) (i := i0) v ((Idx.split b1 e).symm (i, k'))
    simp only [Idx.split_symm_val, ← List.append_assoc] at this
    show (x.withEvent (b1 ++ e) i0 v).data (i0 ++ i.1 ++ k'.1) = _
    rw [this, hv]
    simp

/-- An elementwise inner bijector `x ↦ x * exp(p) + p` for the examples. -/
noncomputable def affInner (p : ℝ) : Inner :=
  ⟨0, 0, fun x => .ok (⟨x.shape, fun i => x.data i * Real.exp p + p⟩, ⟨x.shape, fun _ => p⟩),
    fun y => .ok (⟨y.shape, fun i => (y.data i - p) / Real.exp p⟩, ⟨y.shape, fun _ => -p⟩)⟩

/-- A real-NVP style layer on events of shape `(2,)`: entry 0 is copied and parametrises the affine map of entry 1. -/
noncomputable def exNvp : MaskedCoupling ℝ := ⟨⟨[2], fun i => i.headD 0 == 0⟩, fun q => q.data [0], affInner, 1, 0⟩

theorem affInner_eventwise (p : ℝ) (s : List ℕ) (x : Arr) (A : List ℕ → Prop) :
    ∃ φ D, ActsEventwise (affInner p).fwd s [] x A φ D := by
  have hcard : Module.finrank ℝ (Idx [] → ℝ) = 1 := by
    rw [Module.finrank_fintype_fun_eq_card, Fintype.card_eq_one_iff]
    exact ⟨⟨[], List.Forall₂.nil⟩, fun ⟨i, hi⟩ => Subtype.ext (by cases hi; rfl)⟩
  have hdet : LinearMap.det ((Real.exp p • ContinuousLinearMap.id ℝ (Idx [] → ℝ) : (Idx [] → ℝ) →L[ℝ] (Idx [] → ℝ)) :
      (Idx [] → ℝ) →ₗ[ℝ] (Idx [] → ℝ)) = Real.exp p := by
    have : ((Real.exp p • ContinuousLinearMap.id ℝ (Idx [] → ℝ) : (Idx [] → ℝ) →L[ℝ] (Idx [] → ℝ)) :
      (Idx [] → ℝ) →ₗ[ℝ] (Idx [] → ℝ)) = Real.exp p • LinearMap.id := rfl
    rw [this, LinearMap.det_smul, hcard]; simp
  refine ⟨fun _ v j => v j * Real.exp p + p, fun _ => Real.exp p • ContinuousLinearMap.id ℝ _, ?_, ?_, ?_⟩
  · intro x' hx'
    refine ⟨_, _, rfl, hx', by simpa using hx', fun i _ => rfl⟩
  · intro i _ _
    refine ⟨?_, by rw [hdet]; exact (Real.exp_pos p).ne'⟩
    rw [hasFDerivAt_pi']
    intro j
    have h1 : HasFDerivAt (fun v : Idx [] → ℝ => v j) (ContinuousLinearMap.proj (R := ℝ) j) (x.event [] i) :=
      (ContinuousLinearMap.proj (R := ℝ) (φ := fun _ : Idx [] => ℝ) j).hasFDerivAt
    have := (h1.mul_const (Real.exp p)).add_const p
    exact this
  · intro y l h i _ _
    simp only [affInner, Except.ok.injEq, Prod.mk.injEq] at h
    obtain ⟨-, rfl⟩ := h
    rw [hdet, abs_of_pos (Real.exp_pos p), Real.log_exp]

/-- Non-vacuity: the hypotheses of `C07_log_det_is_jacobian` hold for this layer at every input, and its event map is
differentiable (so the conclusion is about an actual Jacobian, of `x ↦ (x₀, x₁ e^{x₀} + x₀)`). -/
example (x : Arr) (hx : x.shape = [2]) :
    ReportsLogDet exNvp.fwdAndLd x [2] [] ∧
    ∃ (φ : (Idx [2] → ℝ) → (Idx [2] → ℝ)) (J : (Idx [2] → ℝ) →L[ℝ] (Idx [2] → ℝ)),
      EventMap exNvp.fwdAndLd x [2] [] φ ∧ HasFDerivAt φ J (x.event [2] []) := by
  have hfit : exNvp.Fits ([] ++ [2]) [] :=
    ⟨rfl, by simp [exNvp, broadcastShapes, brev, bdim], by simp [exNvp], by simp [exNvp]⟩
  constructor
  · exact C07_log_det_is_jacobian exNvp [] [2] [] hfit rfl x hx (fun p => ⟨rfl, rfl⟩)
      (fun p => affInner_eventwise p _ _ _) [] List.Forall₂.nil
  · have h0 : InRange [2] [0] := List.Forall₂.cons (by norm_num) List.Forall₂.nil
    let z : Idx [2] := ⟨[0], h0⟩
    let φ : (Idx [2] → ℝ) → (Idx [2] → ℝ) := fun v j => if j = z then v z else v j * Real.exp (v z) + v z
    have hd : Differentiable ℝ φ := by
      rw [differentiable_pi]
      intro j
      by_cases h : j = z
      · simp only [φ, h, if_true]; fun_prop
      · simp only [φ, h, if_false]; fun_prop
    refine ⟨φ, fderiv ℝ φ (x.event [2] []), fun v => ?_, (hd _).hasFDerivAt⟩
    obtain ⟨q, y0, ld, y, l, hq, hqs, hb, hf, -, hy, -⟩ := C07_forward exNvp ([] ++ [2]) [] hfit (x.withEvent [2] [] v) hx
      (fun p => ⟨rfl, rfl⟩) (fun p => ⟨_, _, rfl, hx, hx⟩)
    refine ⟨y, l, hf, ?_⟩
    have hq0 : q.canon.data [0] = v z := by
      have hr : InRange q.shape [0] := by rw [hqs]; show InRange x.shape [0]; rw [hx]; exact h0
      have e1 := hq [0] [] h0 List.Forall₂.nil
      have e2 := withEvent_at (x := x) (i := []) v z
      simp only [List.append_nil] at e1
      rw [if_pos (by simp [Mask.at, exNvp, proj])] at e1
      simp only [Arr.canon, hr, if_true, e1]
      exact e2
    funext j
    have e1 := hy j.1 [] j.2 List.Forall₂.nil
    have e2 := withEvent_at (x := x) (i := []) v j
    simp only [List.nil_append, List.append_nil] at e1 e2
    have hb' : y0.data j.1 = (x.withEvent [2] [] v).data j.1 * Real.exp (q.canon.data [0]) + q.canon.data [0] := by
      simp only [exNvp, affInner, Except.ok.injEq, Prod.mk.injEq] at hb
      rw [← hb.1]
    show y.data ([] ++ j.1) = φ v j
    rw [List.nil_append, e1, hb', hq0, e2]
    have hj : exNvp.mask.at j.1 = true ↔ j = z := by
      have hz : j = z ↔ j.1 = [0] := ⟨fun h => by rw [h], fun h => Subtype.ext h⟩
      rw [hz]
      have hj2 := j.2
      generalize j.1 = jj at hj2
      cases hj2 with
      | cons hk ht => cases ht; simp [Mask.at, exNvp, proj]
    by_cases h : j = z
    · rw [if_pos (hj.2 h), h]; simp [φ]
    · rw [if_neg (fun hh => h (hj.1 hh))]; simp [φ, h]

end MaskedCoupling

namespace SplitCoupling
variable {P : Type}

/-- helper: positions of the transformed part inside the event. -/
noncomputable def movedIdx (c : SplitCoupling P) (t1 s2 : List ℕ) (d : ℕ) (hi : c.splitIndex ≤ d) :
    Idx (t1 ++ c.movedSize d :: s2) ≃
      {j : Idx (t1 ++ d :: s2) // ¬ ∃ k < c.keptSize d, j.1.getD t1.length 0 = c.keptPos k} := by
  refine Equiv.ofBijective (fun i => ⟨⟨i.1.modify t1.length c.movedPos, ?_⟩, ?_⟩) ⟨?_, ?_⟩
  · obtain ⟨i1, k, i2, h, h1, hk, h2⟩ := inRange_mid i.2
    rw [h, modify_mid h1.length]
    refine inRange_mid' h1 ?_ h2
    unfold movedPos; unfold movedSize at hk
    split_ifs at hk ⊢ <;> omega
  · obtain ⟨i1, k, i2, h, h1, hk, h2⟩ := inRange_mid i.2
    rintro ⟨k', hk', he⟩
    simp only [h] at he
    rw [modify_mid h1.length, getD_mid h1.length] at he
    unfold movedPos keptPos at he; unfold movedSize at hk; unfold keptSize at hk'
    split_ifs at hk hk' he <;> omega
  · intro a b hab
    have hab' : a.1.modify t1.length c.movedPos = b.1.modify t1.length c.movedPos := by
      simpa using hab
    obtain ⟨i1, k, i2, h, h1, hk, h2⟩ := inRange_mid a.2
    obtain ⟨j1, k', j2, h', h1', hk', h2'⟩ := inRange_mid b.2
    rw [h, h', modify_mid h1.length, modify_mid h1'.length] at hab'
    obtain ⟨e1, e2⟩ := List.append_inj hab' (by rw [h1.length, h1'.length])
    obtain ⟨e3, e4⟩ := List.cons.inj e2
    refine Subtype.ext ?_
    rw [h, h', e1, e4]
    have : k = k' := by
      unfold movedPos at e3
      split_ifs at e3 <;> omega
    rw [this]
  · rintro ⟨j, hj⟩
    obtain ⟨i1, k, i2, h, h1, hk, h2⟩ := inRange_mid j.2
    rw [h, getD_mid h1.length] at hj
    have : ∃ k', k' < c.movedSize d ∧ c.movedPos k' = k := by
      unfold keptSize keptPos at hj
      unfold movedSize movedPos
      cases hs : c.swap
      · simp only [hs, Bool.false_eq_true, if_false] at hj ⊢
        refine ⟨k - c.splitIndex, ?_, ?_⟩
        · have : c.splitIndex ≤ k := by
            by_contra hh; exact hj ⟨k, by omega, rfl⟩
          omega
        · have : c.splitIndex ≤ k := by
            by_contra hh; exact hj ⟨k, by omega, rfl⟩
          omega
      · simp only [hs, if_true] at hj ⊢
        refine ⟨k, ?_, rfl⟩
        by_contra hh; exact hj ⟨k - c.splitIndex, by omega, by omega⟩
    obtain ⟨k', hk', rfl⟩ := this
    refine ⟨⟨i1 ++ k' :: i2, inRange_mid' h1 hk' h2⟩, ?_⟩
    refine Subtype.ext (Subtype.ext ?_)
    simp only
    rw [modify_mid h1.length, h]

theorem movedIdx_val (c : SplitCoupling P) (t1 s2 : List ℕ) (d : ℕ) (hi : c.splitIndex ≤ d)
    (i : Idx (t1 ++ c.movedSize d :: s2)) : (c.movedIdx t1 s2 d hi i).1.1 = i.1.modify t1.length c.movedPos := rfl

/-- **C08 (true Jacobian).** The input has shape `b0 ++ t1 ++ d :: s2`: batch axes `b0`, event axes `t1 ++ d :: s2`, split along
the axis of size `d`.  For every conditioner whatsoever, if for every parameter value the (blocked) inner bijector acts event by
event and reports the log of its own Jacobian determinants, then the layer reports `log |det|` of the Jacobian of the whole
event map, dependence through the conditioner included, wherever that map is differentiable. -/
theorem C08_log_det_is_jacobian (c : SplitCoupling P) (b0 t1 s2 : List ℕ) (d : ℕ)
    (hax : c.axisFromEnd = s2.length + 1) (hi : c.splitIndex ≤ d) (x : Arr)
    (hx : x.shape = b0 ++ (t1 ++ d :: s2)) (hev : c.eventNdims = (t1 ++ d :: s2).length)
    (hD : ∀ p, ∃ b φ, c.innerBijector p = .ok b ∧ ∀ x2 : Arr, x2.shape = b0 ++ (t1 ++ c.movedSize d :: s2) →
      (∀ i1 k i2, i1.length = (b0 ++ t1).length → x2.data (i1 ++ k :: i2) = x.data (i1 ++ c.movedPos k :: i2)) →
      ∃ D, ActsEventwise b.fwd b0 (t1 ++ c.movedSize d :: s2) x2 (fun _ => True) φ D)
    (i0 : List ℕ) (hi0 : InRange b0 i0) : ReportsLogDet c.fwdAndLd x (t1 ++ d :: s2) i0 := by
  classical
  intro φ J hφ hJ y l hy
  have hr : ¬ x.shape.length < c.eventNdims := by rw [hx, hev]; simp
  -- shape of one forward pass
  have run : ∀ x' : Arr, x'.shape = b0 ++ (t1 ++ d :: s2) → ∀ y l, c.fwdAndLd x' = .ok (y, l) →
      ∃ (x1 x2 : Arr) (b : Inner) (y2 : Arr), x1.shape = (b0 ++ t1) ++ c.keptSize d :: s2 ∧ x2.shape = b0 ++ (t1 ++ c.movedSize d :: s2) ∧
        (∀ i1 k i2, i1.length = (b0 ++ t1).length → x1.data (i1 ++ k :: i2) = x'.data (i1 ++ c.keptPos k :: i2)) ∧
        (∀ i1 k i2, i1.length = (b0 ++ t1).length → x2.data (i1 ++ k :: i2) = x'.data (i1 ++ c.movedPos k :: i2)) ∧
        c.innerBijector (c.conditioner x1.canon) = .ok b ∧ b.fwd x2 = .ok (y2, l) ∧
        (y2.shape = b0 ++ (t1 ++ c.movedSize d :: s2) →
          (∀ i1 k i2, i1.length = (b0 ++ t1).length → k < c.keptSize d →
            y.data (i1 ++ c.keptPos k :: i2) = x'.data (i1 ++ c.keptPos k :: i2)) ∧
          (∀ i1 k i2, i1.length = (b0 ++ t1).length → k < c.movedSize d →
            y.data (i1 ++ c.movedPos k :: i2) = y2.data (i1 ++ k :: i2))) := by
    intro x' hx' y l h
    have hx'' : x'.shape = (b0 ++ t1) ++ d :: s2 := by rw [hx', List.append_assoc]
    obtain ⟨x1, x2, a1, a2, a3, a4, a5⟩ := split_ok c (b0 ++ t1) s2 d hax hi x' hx''
    have hr' : ¬ x'.shape.length < c.eventNdims := by rw [hx', hev]; simp
    unfold fwdAndLd at h
    rw [if_neg hr', a1] at h
    simp only [bind, Except.bind] at h
    cases hb : c.innerBijector (c.conditioner x1.canon) with
    | error er => rw [hb] at h; simp at h
    | ok b =>
      rw [hb] at h
      simp only at h
      cases hf : b.fwd x2 with
      | error er => rw [hf] at h; simp at h
      | ok yl =>
        rw [hf] at h
        simp only at h
        cases hrc : c.recombine x1 yl.1 with
        | error er => rw [hrc] at h; simp at h
        | ok yy =>
          rw [hrc] at h
          simp only [Except.ok.injEq, Prod.mk.injEq] at h
          obtain ⟨rfl, rfl⟩ := h
          refine ⟨x1, x2, b, yl.1, a2, by rw [a3, List.append_assoc], a4, a5, hb, hf, fun hy2 => ?_⟩
          obtain ⟨y', r1, r2, r3, r4⟩ := recombine_ok c (b0 ++ t1) s2 d hax hi x1 yl.1 a2 (by rw [hy2, List.append_assoc])
          rw [hrc] at r1
          obtain rfl : yy = y' := by simpa using r1
          exact ⟨fun i1 k i2 h hk => by rw [r3 i1 k i2 h hk, a4 i1 k i2 h], r4⟩
  obtain ⟨x1, x2, b, y2, hs1, hs2, hx1, hx2, hb, hf, -⟩ := run x hx y l hy
  obtain ⟨b', ψ, hb', hA'⟩ := hD (c.conditioner x1.canon)
  rw [hb] at hb'
  obtain rfl : b = b' := by simpa using hb'
  obtain ⟨D, hA⟩ := hA' x2 hs2 hx2
  rw [hA.logdet _ _ hf i0 hi0 trivial]
  let kept : Idx (t1 ++ d :: s2) → Prop := fun j => ∃ k < c.keptSize d, j.1.getD t1.length 0 = c.keptPos k
  obtain ⟨D', hD', hdet⟩ := hasFDerivAt_rename (c.movedIdx t1 s2 d hi) (hA.deriv i0 hi0 trivial).1
  rw [← hdet]
  have hbase : (fun p => x2.event (t1 ++ c.movedSize d :: s2) i0 ((c.movedIdx t1 s2 d hi).symm p)) =
      fun p : {j : Idx (t1 ++ d :: s2) // ¬ kept j} => x.event (t1 ++ d :: s2) i0 p.1 := by
    funext p
    obtain ⟨i, rfl⟩ := (c.movedIdx t1 s2 d hi).surjective p
    rw [Equiv.symm_apply_apply]
    simp only [Arr.event, movedIdx_val]
    obtain ⟨j1, k, j2, h, h1, hk, h2⟩ := inRange_mid i.2
    rw [h, modify_mid h1.length, ← List.append_assoc, ← List.append_assoc, hx2]
    rw [List.length_append, List.length_append, hi0.length, h1.length]
  rw [hbase] at hD'
  rw [det_coupling (fun j => kept j) hJ ?_ _ _ hD' ?_]
  · -- kept entries are copied
    rintro v j ⟨k, hk, hjk⟩
    obtain ⟨y1, l1, h1, h2⟩ := hφ v
    obtain ⟨x1', x2', b1, y2', _, hs2', _, _, hb1, hf1, hcopy⟩ := run (x.withEvent (t1 ++ d :: s2) i0 v) hx _ _ h1
    obtain ⟨b1', ψ', hb1', hA1⟩ := hD (c.conditioner x1'.canon)
    rw [hb1] at hb1'
    obtain rfl : b1 = b1' := by simpa using hb1'
    obtain ⟨D1, hA1⟩ := hA1 x2 hs2 hx2
    obtain ⟨y3, l3, hf3, hs3, _, _⟩ := hA1.ok x2' hs2'
    rw [hf1] at hf3
    obtain ⟨rfl, rfl⟩ : y2' = y3 ∧ l1 = l3 := by simpa using hf3
    obtain ⟨j1, k', j2, hj, hj1, hk', hj2⟩ := inRange_mid j.2
    rw [hj, getD_mid hj1.length] at hjk
    subst hjk
    have e1 := congrFun h2 j
    rw [← e1]
    have e2 := (hcopy hs3).1 (i0 ++ j1) k j2 (by rw [List.length_append, List.length_append, hi0.length, hj1.length]) hk
    show y1.data (i0 ++ j.1) = v j
    rw [← withEvent_at (x := x) (i := i0) v j, hj, ← List.append_assoc]
    exact e2
  · -- with kept entries fixed, the moved ones are mapped by the inner bijector
    intro v hv p
    obtain ⟨i, rfl⟩ := (c.movedIdx t1 s2 d hi).surjective p
    obtain ⟨y1, l1, h1, h2⟩ := hφ v
    obtain ⟨x1', x2', b1, y2', hs1', hs2', hx1', hx2', hb1, hf1, hcopy⟩ := run (x.withEvent (t1 ++ d :: s2) i0 v) hx _ _ h1
    have hcanon : x1'.canon = x1.canon := by
      apply canon_congr
      refine ⟨by rw [hs1', hs1], fun kk hkk => ?_⟩
      rw [hs1'] at hkk
      obtain ⟨a1, k, a2, rfl, ha1, hk, ha2⟩ := inRange_mid hkk
      rw [hx1' _ _ _ ha1.length, hx1 _ _ _ ha1.length]
      obtain ⟨c0, c1, rfl, hc0, hc1⟩ := inRange_append_split ha1
      have hlt : c.keptPos k < d := by
        unfold keptPos; unfold keptSize at hk; split_ifs at hk ⊢ <;> omega
      by_cases hp : c0 = i0
      · subst hp
        have e1 := withEvent_at (x := x) (i := c0) v ⟨c1 ++ c.keptPos k :: a2, inRange_mid' hc1 hlt ha2⟩
        simp only [← List.append_assoc] at e1
        rw [e1, hv]
        · simp [Arr.event]
        · refine ⟨k, hk, ?_⟩
          simp only
          rw [getD_mid hc1.length]
      · rw [withEvent_off]
        intro hpre
        apply hp
        rw [List.append_assoc] at hpre
        have := List.prefix_iff_eq_take.1 hpre
        rw [List.take_left' (by rw [hc0.length, hi0.length])] at this
        exact this.symm
    rw [hcanon, hb] at hb1
    obtain rfl : b = b1 := by simpa using hb1
    obtain ⟨y3, l3, hf3, hs3, _, hy3⟩ := hA.ok x2' hs2'
    rw [hf1] at hf3
    obtain ⟨rfl, rfl⟩ : y2' = y3 ∧ l1 = l3 := by simpa using hf3
    rw [Equiv.symm_apply_apply]
    have e1 := congrFun h2 (c.movedIdx t1 s2 d hi i).1
    rw [← e1]
    have e3 := congrFun (hy3 i0 hi0) i
    have e4 : x2'.event (t1 ++ c.movedSize d :: s2) i0 =
        fun a => v (c.movedIdx t1 s2 d hi a).1 := by
      funext a
      obtain ⟨j1, k, j2, h, h1, hk, h2⟩ := inRange_mid a.2
      have hl : (i0 ++ j1).length = (b0 ++ t1).length := by
        rw [List.length_append, List.length_append, hi0.length, h1.length]
      rw [← withEvent_at (x := x) (i := i0) v]
      simp only [Arr.event, movedIdx_val]
      rw [h, modify_mid h1.length, ← List.append_assoc, ← List.append_assoc, hx2' _ _ _ hl]
    rw [e4] at e3
    rw [← e3]
    obtain ⟨j1, k, j2, h, h1, hk, h2⟩ := inRange_mid i.2
    have hl : (i0 ++ j1).length = (b0 ++ t1).length := by
      rw [List.length_append, List.length_append, hi0.length, h1.length]
    simp only [Arr.event, movedIdx_val]
    rw [h, modify_mid h1.length, ← List.append_assoc, ← List.append_assoc, (hcopy hs3).2 _ _ _ hl hk]

/-- Non-vacuity: a layer on events of shape `(3,)` split after the first entry, whose kept entry parametrises an affine map of
the other two. -/
example (x : Arr) (hx : x.shape = [3]) : ReportsLogDet
    (fwdAndLd ⟨1, 1, fun q => q.data [0], MaskedCoupling.affInner, false, 1⟩ : Arr → _) x [3] [] := by
  refine C08_log_det_is_jacobian ⟨1, 1, fun q => q.data [0], MaskedCoupling.affInner, false, 1⟩ [] [] [] 3 rfl (by norm_num)
    x hx rfl (fun p => ?_) [] List.Forall₂.nil
  have hcard : Module.finrank ℝ (Idx ([] ++ [2]) → ℝ) = 2 := by
    rw [Module.finrank_fintype_fun_eq_card]
    have := sum_allIdx [2] (fun _ => 1)
    simp [allIdx, List.range, List.range.loop] at this
    have h2 : ((Fintype.card (Idx [2]) : ℕ) : ℝ) = 2 := by rw [← this]; norm_num
    exact_mod_cast h2
  have hdet : LinearMap.det ((Real.exp p • ContinuousLinearMap.id ℝ (Idx ([] ++ [2]) → ℝ) : (Idx ([] ++ [2]) → ℝ) →L[ℝ] _) :
      (Idx ([] ++ [2]) → ℝ) →ₗ[ℝ] (Idx ([] ++ [2]) → ℝ)) = Real.exp p ^ 2 := by
    have : ((Real.exp p • ContinuousLinearMap.id ℝ (Idx ([] ++ [2]) → ℝ) : (Idx ([] ++ [2]) → ℝ) →L[ℝ] _) :
      (Idx ([] ++ [2]) → ℝ) →ₗ[ℝ] (Idx ([] ++ [2]) → ℝ)) = Real.exp p • LinearMap.id := rfl
    rw [this, LinearMap.det_smul, hcard]; simp
  have hfw : ∀ x' : Arr, x'.shape = [2] → ((MaskedCoupling.affInner p).block 1).fwd x' =
      .ok (⟨x'.shape, fun i => x'.data i * Real.exp p + p⟩, ⟨[], fun _ => p + p⟩) := by
    intro x' h1
    simp only [Inner.block, MaskedCoupling.affInner, h1, Arr.sumLast, bind, Except.bind]
    simp [allIdx, List.range, List.range.loop]
  refine ⟨(MaskedCoupling.affInner p).block 1, fun _ v j => v j * Real.exp p + p, rfl, fun x2 hs _ => ?_⟩
  refine ⟨fun _ => Real.exp p • ContinuousLinearMap.id ℝ _, ?_, ?_, ?_⟩
  · intro x' hx'
    exact ⟨_, _, hfw x' hx', hx', rfl, fun i _ => rfl⟩
  · intro i _ _
    refine ⟨?_, ?_⟩
    · rw [hasFDerivAt_pi']
      intro j
      have h1 : HasFDerivAt (fun v : Idx ([] ++ [2]) → ℝ => v j) (ContinuousLinearMap.proj (R := ℝ) j)
          (x2.event ([] ++ [2]) i) :=
        (ContinuousLinearMap.proj (R := ℝ) (φ := fun _ : Idx ([] ++ [2]) => ℝ) j).hasFDerivAt
      exact (h1.mul_const (Real.exp p)).add_const p
    · show LinearMap.det ((Real.exp p • ContinuousLinearMap.id ℝ (Idx ([] ++ [2]) → ℝ) : (Idx ([] ++ [2]) → ℝ) →L[ℝ] _) :
        (Idx ([] ++ [2]) → ℝ) →ₗ[ℝ] (Idx ([] ++ [2]) → ℝ)) ≠ 0
      rw [hdet]; positivity
  · intro y l h i hi _
    have : l.data i = p + p := by
      rw [hfw x2 hs] at h
      simp only [Except.ok.injEq, Prod.mk.injEq] at h
      rw [← h.2]
    show l.data i = Real.log |LinearMap.det ((Real.exp p • ContinuousLinearMap.id ℝ (Idx ([] ++ [2]) → ℝ) :
        (Idx ([] ++ [2]) → ℝ) →L[ℝ] _) : (Idx ([] ++ [2]) → ℝ) →ₗ[ℝ] (Idx ([] ++ [2]) → ℝ))|
    rw [hdet, this, abs_of_pos (by positivity), Real.log_pow, Real.log_exp]
    push_cast; ring

end SplitCoupling
end Distrax
