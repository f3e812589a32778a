import Verif.Props.Chain

/-! C03/C15 for `Chain` over arbitrary bijector objects: flags and ranks reported by the constructed object. -/

namespace Distrax.BObj

variable {V L : Type}

/-- A chain reports a constant Jacobian (log-det) exactly when every component does. -/
theorem C03_chain_flags [Add L] (bs : List (BObj V L)) (c : BObj V L) (h : mkChain bs = .ok c) :
    (c.constJac = true ↔ ∀ b ∈ bs, b.constJac = true) ∧ (c.constLogDet = true ↔ ∀ b ∈ bs, b.constLogDet = true) := by
  unfold mkChain at h
  split at h
  · split at h
    · injection h with h; subst h; simp
    · cases h
  · cases h

/-- A chain takes its input rank from its last (first applied) component and its output rank from the first. -/
theorem C15_chain_ranks [Add L] (b : BObj V L) (bs : List (BObj V L)) (c : BObj V L) (h : mkChain (b :: bs) = .ok c) :
    c.ndimsOut = b.ndimsOut ∧ c.ndimsIn = ((b :: bs).getLast (List.cons_ne_nil _ _)).ndimsIn := by
  unfold mkChain at h
  rw [List.getLast?_eq_getLast_of_ne_nil (List.cons_ne_nil b bs)] at h
  simp only [List.head?_cons] at h
  split at h
  · injection h with h; subst h; exact ⟨rfl, rfl⟩
  · cases h

/-- Two components, only one constant: hypotheses of both theorems are met. -/
example : ∃ (b d c : BObj ℤ ℤ), mkChain [b, d] = .ok c ∧ c.constJac = false ∧ c.ndimsIn = 1 ∧ c.ndimsOut = 3 := by
  let b : BObj ℤ ℤ := ⟨2, 3, true, true, .ok, .ok, fun _ => .ok 0, fun _ => .ok 0, fun x => .ok (x, 0), fun x => .ok (x, 0)⟩
  let d : BObj ℤ ℤ := ⟨1, 2, false, true, .ok, .ok, fun _ => .ok 0, fun _ => .ok 0, fun x => .ok (x, 0), fun x => .ok (x, 0)⟩
  exact ⟨b, d, _, rfl, rfl, rfl, rfl⟩

end Distrax.BObj
