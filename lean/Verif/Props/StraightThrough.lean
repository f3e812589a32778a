import Verif.Model.StraightThrough
import Verif.Lemmas.Broadcast
import Verif.Lemmas.Bijector
import Verif.Lemmas.Shape
import Mathlib.Analysis.SpecialFunctions.ExpDeriv
import Mathlib.Analysis.Calculus.Deriv.Inv
import Mathlib.Analysis.Calculus.Deriv.Add

/-! # C52: straight-through sampling does not change values -/

namespace Distrax

theorem pad_spec (p : DArr) (n : ℕ) :
    (DArr.newAxis^[n] p).shape = List.replicate n 1 ++ p.shape ∧
    (∀ i, (DArr.newAxis^[n] p).val i = p.val (i.drop n)) ∧ ∀ i, (DArr.newAxis^[n] p).tan i = p.tan (i.drop n) := by
  induction n generalizing p with
  | zero => exact ⟨rfl, fun _ => rfl, fun _ => rfl⟩
  | succ n ih =>
    rw [Function.iterate_succ_apply']
    obtain ⟨h1, h2, h3⟩ := ih p
    refine ⟨?_, fun i => ?_, fun i => ?_⟩
    · show 1 :: _ = _
      rw [h1, List.replicate_succ]; rfl
    · show (DArr.newAxis^[n] p).val i.tail = _
      rw [h2, List.drop_tail]
    · show (DArr.newAxis^[n] p).tan i.tail = _
      rw [h3, List.drop_tail]

theorem brev_ones_st : ∀ s : List ℕ, brev s (List.replicate s.length 1) = some s
  | [] => rfl
  | a :: s => by
    rw [List.length_cons, List.replicate_succ]
    have : bdim a 1 = some a := by
      unfold bdim
      split_ifs <;> simp_all
    simp [brev, this, brev_ones_st s]

theorem broadcastShapes_ones_st (s : List ℕ) : broadcastShapes s (List.replicate s.length 1) = some s := by
  unfold broadcastShapes
  rw [List.reverse_replicate, show s.length = s.reverse.length by simp, brev_ones_st]
  simp

variable {K : Type}

/-- The shift `probs - stop_gradient(probs)`: value zero, tangent that of `probs`. -/
theorem shift_spec (p : DArr) : ∃ q, p.sub p.stopGradient = .ok q ∧ q.shape = p.shape ∧
    (∀ i, q.val i = 0) ∧ ∀ i, q.tan i = p.tan (proj p.shape i) := by
  refine ⟨⟨p.shape, fun i => p.val (proj p.shape i) - p.val (proj p.shape i), fun i => p.tan (proj p.shape i) - 0⟩,
    by simp only [DArr.sub, DArr.stopGradient, broadcastShapes_self], rfl, fun i => sub_self _, fun i => sub_zero _⟩

/-- **One-hot distributions.**  With samples of shape `S + B + (K,)` and probabilities of shape `B + (K,)`: the wrapped sample
has the shape and, at every entry, exactly the value of the underlying sample, and its tangent there is the tangent of the
probability of that category in that batch entry — for every sample shape, batch shape, seed and direction. -/
theorem C52_one_hot_partial (obj : STObj K) (hc : obj.isCategorical = true) (seed : Seed K) (ss : SampleShape) (s : Arr)
    (S E : List ℕ) (h : obj.sample seed ss = .ok s) (hs : s.shape = S ++ E) (hp : obj.probs.shape = E) :
    ∃ r, straightThroughSample obj seed ss = .ok r ∧ r.shape = s.shape ∧
      (∀ i, InRange s.shape i → r.val i = s.data i) ∧
      ∀ i j, InRange S i → InRange E j → r.tan (i ++ j) = obj.probs.tan j := by
  obtain ⟨p1, p2, p3⟩ := pad_spec obj.probs S.length
  have hpad : obj.probs.pad s.shape = DArr.newAxis^[S.length] obj.probs := by
    unfold DArr.pad
    rw [hs, hp, List.length_append, Nat.add_sub_cancel]
  rw [hp] at p1
  obtain ⟨q, q1, q2, q3, q4⟩ := shift_spec (DArr.newAxis^[S.length] obj.probs)
  rw [p1] at q2 q4
  have hbr : broadcastShapes (DArr.const s).shape q.shape = some s.shape := by
    show broadcastShapes s.shape q.shape = _
    rw [q2, hs, broadcast_append, broadcastShapes_ones_st]; rfl
  refine ⟨⟨s.shape, fun i => s.data (proj s.shape i) + q.val (proj q.shape i), fun i => 0 + q.tan (proj q.shape i)⟩, ?_,
    rfl, fun i hi => ?_, fun i j hi hj => ?_⟩
  · simp only [straightThroughSample, hc, if_true, h, Bij.bind_ok, hpad, q1, DArr.add, hbr]
    rfl
  · show s.data (proj s.shape i) + q.val _ = _
    rw [q3, add_zero, proj_self hi]
  · show 0 + q.tan _ = _
    have hr : ∀ (m : ℕ) (i : List ℕ), m = i.length → proj (List.replicate m 1) i = List.replicate m 0 := by
      intro m i hm
      unfold proj
      rw [List.length_replicate, ← hm, Nat.sub_self, List.drop_zero]
      subst hm
      induction i with
      | nil => rfl
      | cons a i ih => simp only [List.length_cons, List.replicate_succ, List.zipWith_cons_cons, if_true, ih]
    have hrr : ∀ m : ℕ, proj (List.replicate m 1) (List.replicate m 0) = List.replicate m 0 := fun m => hr m _ (by simp)
    rw [q4, q2, zero_add, proj_append hj (by rw [List.length_replicate, hi.length]), hr _ _ hi.length.symm,
      proj_append hj (by simp), hrr, p3]
    congr 1
    rw [List.drop_append_of_le_length (by simp)]
    simp

/-- **The derivative.**  If the probabilities depend differentiably on a parameter `θ`, the derivative that JAX computes for the
wrapped sample at entry `(s, b, k)` is `d probs[b, k] / d θ`, although the sample itself is piecewise constant. -/
theorem C52_derivative_partial (sample : Seed K → SampleShape → Except Err Arr) (p : ℝ → List ℕ → ℝ) (θ : ℝ) (E S : List ℕ)
    (hd : ∀ j, InRange E j → DifferentiableAt ℝ (fun t => p t j) θ) (seed : Seed K) (ss : SampleShape) (s : Arr)
    (h : sample seed ss = .ok s) (hs : s.shape = S ++ E) :
    ∃ r, straightThroughSample ⟨true, sample, ⟨E, p θ, fun j => deriv (fun t => p t j) θ⟩⟩ seed ss = .ok r ∧
      (∀ i, InRange s.shape i → r.val i = s.data i) ∧
      ∀ i j, InRange S i → InRange E j → HasDerivAt (fun t => p t j) (r.tan (i ++ j)) θ := by
  obtain ⟨r, h1, _, h3, h4⟩ := C52_one_hot_partial ⟨true, sample, ⟨E, p θ, fun j => deriv (fun t => p t j) θ⟩⟩ rfl seed ss s S E h hs
    rfl
  refine ⟨r, h1, h3, fun i j hi hj => ?_⟩
  rw [h4 i j hi hj]
  exact (hd j hj).hasDerivAt

/-- For softmax probabilities of logits `l`, moving along a direction `l'`: entry `k` of every wrapped sample moves with
`p_k (l'_k - Σ_j p_j l'_j)`. -/
theorem C52_softmax (n : ℕ) (l l' : ℕ → ℝ) (sample : Seed K → SampleShape → Except Err Arr) (seed : Seed K)
    (ss : SampleShape) (s : Arr) (S : List ℕ) (h : sample seed ss = .ok s) (hs : s.shape = S ++ [n]) :
    let p : ℝ → List ℕ → ℝ := fun t j =>
      Real.exp (l (j.headD 0) + t * l' (j.headD 0)) / ∑ m ∈ Finset.range n, Real.exp (l m + t * l' m)
    ∃ r, straightThroughSample ⟨true, sample, ⟨[n], p 0, fun j => deriv (fun t => p t j) 0⟩⟩ seed ss = .ok r ∧
      (∀ i, InRange s.shape i → r.val i = s.data i) ∧
      ∀ i k, InRange S i → k < n →
        r.tan (i ++ [k]) = p 0 [k] * (l' k - ∑ m ∈ Finset.range n, p 0 [m] * l' m) := by
  intro p
  have hd : ∀ k, k < n → HasDerivAt (fun t => p t [k]) (p 0 [k] * (l' k - ∑ m ∈ Finset.range n, p 0 [m] * l' m)) 0 := by
    intro k hk
    have he : ∀ m, HasDerivAt (fun t : ℝ => Real.exp (l m + t * l' m)) (Real.exp (l m + 0 * l' m) * l' m) 0 := by
      intro m
      have : HasDerivAt (fun t : ℝ => l m + t * l' m) (l' m) 0 := by
        simpa using ((hasDerivAt_id (0 : ℝ)).mul_const (l' m)).const_add (l m)
      exact this.exp
    have hsum : HasDerivAt (fun t : ℝ => ∑ m ∈ Finset.range n, Real.exp (l m + t * l' m))
        (∑ m ∈ Finset.range n, Real.exp (l m + 0 * l' m) * l' m) 0 := by
      exact HasDerivAt.fun_sum fun m _ => he m
    have hpos : (0 : ℝ) < ∑ m ∈ Finset.range n, Real.exp (l m + 0 * l' m) :=
      Finset.sum_pos (fun m _ => Real.exp_pos _) ⟨k, Finset.mem_range.2 hk⟩
    have hq := (he k).div hsum hpos.ne'
    refine hq.congr_deriv ?_
    simp only [p, List.headD_cons]
    have : (∑ m ∈ Finset.range n, Real.exp (l m + 0 * l' m) / (∑ m ∈ Finset.range n, Real.exp (l m + 0 * l' m)) * l' m) =
        (∑ m ∈ Finset.range n, Real.exp (l m + 0 * l' m) * l' m) / ∑ m ∈ Finset.range n, Real.exp (l m + 0 * l' m) := by
      rw [div_eq_mul_inv, Finset.sum_mul]
      exact Finset.sum_congr rfl fun m _ => by ring
    rw [this]
    generalize (∑ m ∈ Finset.range n, Real.exp (l m + 0 * l' m) * l' m) = A
    generalize hZ : (∑ m ∈ Finset.range n, Real.exp (l m + 0 * l' m)) = Z at hpos ⊢
    have hZ' : Z ≠ 0 := hpos.ne'
    field_simp
  have hin : ∀ j, InRange [n] j → ∃ k, k < n ∧ j = [k] := by
    intro j hj
    cases hj with
    | cons h1 h2 => cases h2; exact ⟨_, h1, rfl⟩
  obtain ⟨r, h1, h2, h3⟩ := C52_derivative_partial sample p 0 [n] S (fun j hj => by
    obtain ⟨k, hk, rfl⟩ := hin j hj
    exact (hd k hk).differentiableAt) seed ss s h hs
  refine ⟨r, h1, h2, fun i k hi hk => ?_⟩
  exact (h3 i [k] hi (List.Forall₂.cons hk List.Forall₂.nil)).unique (hd k hk)

/-- Only subclasses of `Categorical` are accepted. -/
theorem C52_rejects (obj : STObj K) (hc : obj.isCategorical = false) (seed : Seed K) (ss : SampleShape) :
    straightThroughSample obj seed ss = .error .assertionError := by
  simp only [straightThroughSample, hc, Bool.false_eq_true, if_false]

/-- **Wrapping a plain `Categorical` is not value-preserving**: its samples are indices without the category axis.  A single
sample comes back as a vector of `n` copies; `m` samples raise unless `m`, `n` can be broadcast; and if `m = n` the result has
the right values but sample `i` gets the derivative of category `i`'s probability. -/
theorem C52_plain_categorical (obj : STObj K) (hc : obj.isCategorical = true) (seed : Seed K) (ss : SampleShape) (s : Arr)
    (n : ℕ) (h : obj.sample seed ss = .ok s) (hp : obj.probs.shape = [n]) :
    (s.shape = [] → ∃ r, straightThroughSample obj seed ss = .ok r ∧ r.shape = [n] ∧
      ∀ k, k < n → r.val [k] = s.data [] ∧ r.tan [k] = obj.probs.tan [k]) ∧
    (∀ m, s.shape = [m] → m ≠ n → m ≠ 1 → n ≠ 1 → straightThroughSample obj seed ss = .error .typeError) ∧
    (s.shape = [n] → ∃ r, straightThroughSample obj seed ss = .ok r ∧ r.shape = [n] ∧
      ∀ k, k < n → r.val [k] = s.data [k] ∧ r.tan [k] = obj.probs.tan [k]) := by
  obtain ⟨q, q1, q2, q3, q4⟩ := shift_spec obj.probs
  rw [hp] at q2 q4
  have hk1 : ∀ k, k < n → proj [n] [k] = [k] := fun k hk => proj_self (List.Forall₂.cons hk List.Forall₂.nil)
  refine ⟨fun hs => ?_, fun m hs h1 h2 h3 => ?_, fun hs => ?_⟩
  · have hpad : obj.probs.pad s.shape = obj.probs := by
      unfold DArr.pad; rw [hs, hp]; rfl
    have hbr : broadcastShapes (DArr.const s).shape q.shape = some [n] := by
      show broadcastShapes s.shape q.shape = _
      rw [hs, q2, broadcastShapes_nil]
    refine ⟨⟨[n], fun i => s.data (proj s.shape i) + q.val (proj q.shape i), fun i => 0 + q.tan (proj q.shape i)⟩, ?_, rfl,
      fun k hk => ⟨?_, ?_⟩⟩
    · simp only [straightThroughSample, hc, if_true, h, Bij.bind_ok, hpad, q1, DArr.add, hbr]; rfl
    · show s.data (proj s.shape [k]) + q.val _ = _
      rw [q3, hs, add_zero]; rfl
    · show 0 + q.tan (proj q.shape [k]) = _
      rw [q4, q2, hk1 k hk, hk1 k hk, zero_add]
  · have hpad : obj.probs.pad s.shape = obj.probs := by
      unfold DArr.pad; rw [hs, hp]; rfl
    have hbr : broadcastShapes (DArr.const s).shape q.shape = none := by
      show broadcastShapes s.shape q.shape = _
      rw [hs, q2]
      simp [broadcastShapes, brev, bdim, h1, h2, h3]
    simp only [straightThroughSample, hc, if_true, h, Bij.bind_ok, hpad, q1, DArr.add, hbr]
  · obtain ⟨r, h1, h2, h3, h4⟩ := C52_one_hot_partial obj hc seed ss s [] [n] h (by simpa using hs) hp
    refine ⟨r, h1, h2.trans hs, fun k hk => ⟨h3 [k] (by rw [hs]; exact List.Forall₂.cons hk List.Forall₂.nil), ?_⟩⟩
    exact h4 [] [k] List.Forall₂.nil (List.Forall₂.cons hk List.Forall₂.nil)

/-- Non-vacuity: two one-hot draws over three categories. -/
example : ∃ r, straightThroughSample (K := ℕ) ⟨true, fun _ _ => .ok ⟨[2, 3], fun i => if i.getD 1 0 = 1 then 1 else 0⟩,
      ⟨[3], fun _ => 1 / 3, fun j => if j = [0] then 1 else 0⟩⟩ (.key 0) (.int 2) = .ok r ∧
    r.val [0, 1] = 1 ∧ r.val [0, 0] = 0 ∧ r.tan [1, 0] = 1 ∧ r.tan [1, 2] = 0 := by
  obtain ⟨r, h1, h2, h3, h4⟩ := C52_one_hot_partial (K := ℕ) ⟨true, fun _ _ => .ok ⟨[2, 3], fun i => if i.getD 1 0 = 1 then 1 else 0⟩,
      ⟨[3], fun _ => 1 / 3, fun j => if j = [0] then 1 else 0⟩⟩ rfl (.key 0) (.int 2) _ [2] [3] rfl rfl rfl
  have ir : ∀ a b, a < 2 → b < 3 → InRange [2, 3] [a, b] := fun a b ha hb =>
    List.Forall₂.cons ha (List.Forall₂.cons hb List.Forall₂.nil)
  refine ⟨r, h1, ?_, ?_, ?_, ?_⟩
  · rw [h3 [0, 1] (ir 0 1 (by omega) (by omega))]; simp
  · rw [h3 [0, 0] (ir 0 0 (by omega) (by omega))]; simp
  · have := h4 [1] [0] (List.Forall₂.cons (by omega) List.Forall₂.nil) (List.Forall₂.cons (by omega) List.Forall₂.nil)
    simpa using this
  · have := h4 [1] [2] (List.Forall₂.cons (by omega) List.Forall₂.nil) (List.Forall₂.cons (by omega) List.Forall₂.nil)
    simpa using this

end Distrax
