import Verif.Spec.Joint
import Verif.Lemmas.Broadcast
import Verif.Props.Transformed

/-! Nested structures: `flatten`, `map_structure`, `unflatten_as`. -/

namespace Distrax

variable {α β γ : Type}

mutual
theorem Tree.sameStructure_iff : ∀ (a : Tree α) (b : Tree β), Tree.sameStructure true a b = .ok () ↔ a.skel = b.skel
  | .leaf _, .leaf _ => by simp [Tree.sameStructure, Tree.skel, pure, Except.pure]
  | .leaf _, .node .. => by simp [Tree.sameStructure, Tree.skel]
  | .node .., .leaf _ => by simp [Tree.sameStructure, Tree.skel]
  | .node t es, .node t' es' => by
    simp only [Tree.sameStructure, Tree.skel, Bool.true_and, bne_iff_ne, ne_eq, Tree.node.injEq]
    by_cases h : t = t'
    · simp [h, Forest.sameStructure_iff es es']
    · simp [h]
theorem Forest.sameStructure_iff : ∀ (a : Forest α) (b : Forest β),
    Forest.sameStructure true a b = .ok () ↔ a.skel = b.skel
  | .nil, .nil => by simp [Forest.sameStructure, Forest.skel, pure, Except.pure]
  | .nil, .cons .. => by simp [Forest.sameStructure, Forest.skel]
  | .cons .., .nil => by simp [Forest.sameStructure, Forest.skel]
  | .cons k t r, .cons k' t' r' => by
    simp only [Forest.sameStructure, Forest.skel, Forest.cons.injEq]
    by_cases h : k = k'
    · rw [if_neg (not_not.2 h)]
      have h1 := Tree.sameStructure_iff t t'
      have h2 := Forest.sameStructure_iff r r'
      simp only [bind, Except.bind]
      cases hs : Tree.sameStructure true t t' with
      | error e =>
        rw [hs] at h1
        have : t.skel ≠ t'.skel := fun h => by have := h1.2 h; cases this
        simp [this]
      | ok u =>
        have : t.skel = t'.skel := h1.1 (by rw [hs])
        simp only [h, this, true_and, h2]
    · simp [h]
end

mutual
theorem Tree.sameStructure_keys : ∀ (a : Tree α) (b : Tree β), Tree.sameStructure false a b = .ok () ↔ a.keys = b.keys
  | .leaf _, .leaf _ => by simp [Tree.sameStructure, Tree.keys, pure, Except.pure]
  | .leaf _, .node .. => by simp [Tree.sameStructure, Tree.keys]
  | .node .., .leaf _ => by simp [Tree.sameStructure, Tree.keys]
  | .node t es, .node t' es' => by
    simp [Tree.sameStructure, Tree.keys, Forest.sameStructure_keys es es']
theorem Forest.sameStructure_keys : ∀ (a : Forest α) (b : Forest β),
    Forest.sameStructure false a b = .ok () ↔ a.keys = b.keys
  | .nil, .nil => by simp [Forest.sameStructure, Forest.keys, pure, Except.pure]
  | .nil, .cons .. => by simp [Forest.sameStructure, Forest.keys]
  | .cons .., .nil => by simp [Forest.sameStructure, Forest.keys]
  | .cons k t r, .cons k' t' r' => by
    simp only [Forest.sameStructure, Forest.keys, Forest.cons.injEq]
    by_cases h : k = k'
    · rw [if_neg (not_not.2 h)]
      have h1 := Tree.sameStructure_keys t t'
      have h2 := Forest.sameStructure_keys r r'
      simp only [bind, Except.bind]
      cases hs : Tree.sameStructure false t t' with
      | error e =>
        rw [hs] at h1
        have : t.keys ≠ t'.keys := fun h => by have := h1.2 h; cases this
        simp [this]
      | ok u =>
        have : t.keys = t'.keys := h1.1 (by rw [hs])
        simp only [h, this, true_and, h2]
    · simp [h]
end

mutual
theorem Tree.flatten_length_skel : ∀ a : Tree α, a.skel.flatten.length = a.flatten.length
  | .leaf _ => rfl
  | .node _ es => by simp only [Tree.skel, Tree.flatten]; exact Forest.flatten_length_skel es
theorem Forest.flatten_length_skel : ∀ a : Forest α, a.skel.flatten.length = a.flatten.length
  | .nil => rfl
  | .cons k t r => by
    simp only [Forest.skel, Forest.flatten, List.length_append, Tree.flatten_length_skel t, Forest.flatten_length_skel r]
end

mutual
theorem Tree.flatten_length_keys : ∀ a : Tree α, a.keys.flatten.length = a.flatten.length
  | .leaf _ => rfl
  | .node _ es => by simp only [Tree.keys, Tree.flatten]; exact Forest.flatten_length_keys es
theorem Forest.flatten_length_keys : ∀ a : Forest α, a.keys.flatten.length = a.flatten.length
  | .nil => rfl
  | .cons k t r => by
    simp only [Forest.keys, Forest.flatten, List.length_append, Tree.flatten_length_keys t, Forest.flatten_length_keys r]
end

theorem Tree.length_of_skel {a : Tree α} {b : Tree β} (h : a.skel = b.skel) : a.flatten.length = b.flatten.length := by
  rw [← a.flatten_length_skel, ← b.flatten_length_skel, h]

theorem Tree.length_of_keys {a : Tree α} {b : Tree β} (h : a.keys = b.keys) : a.flatten.length = b.flatten.length := by
  rw [← a.flatten_length_keys, ← b.flatten_length_keys, h]

mutual
theorem Tree.unflattenAux_ok : ∀ (t : Tree α) (bs rest : List β), bs.length = t.flatten.length →
    ∃ r, t.unflattenAux (bs ++ rest) = .ok (r, rest) ∧ r.flatten = bs ∧ r.skel = t.skel
  | .leaf a, bs, rest, h => by
    match bs, h with
    | [b], _ => exact ⟨.leaf b, rfl, rfl, rfl⟩
  | .node tag es, bs, rest, h => by
    obtain ⟨r, h1, h2, h3⟩ := Forest.unflattenAux_ok es bs rest h
    exact ⟨.node tag r, by simp [Tree.unflattenAux, h1, bind, Except.bind, pure, Except.pure], h2, by simp [Tree.skel, h3]⟩
theorem Forest.unflattenAux_ok : ∀ (t : Forest α) (bs rest : List β), bs.length = t.flatten.length →
    ∃ r, t.unflattenAux (bs ++ rest) = .ok (r, rest) ∧ r.flatten = bs ∧ r.skel = t.skel
  | .nil, bs, rest, h => by
    match bs, h with
    | [], _ => exact ⟨.nil, rfl, rfl, rfl⟩
  | .cons k t r, bs, rest, h => by
    simp only [Forest.flatten, List.length_append] at h
    obtain ⟨a, ha1, ha2, ha3⟩ := Tree.unflattenAux_ok t (bs.take t.flatten.length) (bs.drop t.flatten.length ++ rest)
      (by rw [List.length_take]; omega)
    obtain ⟨b, hb1, hb2, hb3⟩ := Forest.unflattenAux_ok r (bs.drop t.flatten.length) rest (by rw [List.length_drop]; omega)
    rw [← List.append_assoc, List.take_append_drop] at ha1
    refine ⟨.cons k a b, ?_, ?_, ?_⟩
    · simp [Forest.unflattenAux, ha1, hb1, bind, Except.bind, pure, Except.pure]
    · simp [Forest.flatten, ha2, hb2]
    · simp [Forest.skel, ha3, hb3]
end

theorem Tree.unflattenAs_ok (t : Tree α) (bs : List β) (h : bs.length = t.flatten.length) :
    ∃ r, t.unflattenAs bs = .ok r ∧ r.flatten = bs ∧ r.skel = t.skel := by
  obtain ⟨r, h1, h2, h3⟩ := t.unflattenAux_ok bs [] h
  rw [List.append_nil] at h1
  exact ⟨r, by simp [Tree.unflattenAs, h, h1, bind, Except.bind, pure, Except.pure], h2, h3⟩

mutual
theorem Tree.ext_flat : ∀ (a b : Tree α), a.skel = b.skel → a.flatten = b.flatten → a = b
  | .leaf a, .leaf b, _, h => by simp [Tree.flatten] at h; rw [h]
  | .leaf _, .node .., h, _ => by simp [Tree.skel] at h
  | .node .., .leaf _, h, _ => by simp [Tree.skel] at h
  | .node t es, .node t' es', h, h' => by
    simp only [Tree.skel, Tree.node.injEq] at h
    rw [h.1, Forest.ext_flat es es' h.2 h']
theorem Forest.ext_flat : ∀ (a b : Forest α), a.skel = b.skel → a.flatten = b.flatten → a = b
  | .nil, .nil, _, _ => rfl
  | .nil, .cons .., h, _ => by simp [Forest.skel] at h
  | .cons .., .nil, h, _ => by simp [Forest.skel] at h
  | .cons k t r, .cons k' t' r', h, h' => by
    simp only [Forest.skel, Forest.cons.injEq] at h
    simp only [Forest.flatten] at h'
    have hl := Tree.length_of_skel h.2.1
    obtain ⟨h1, h2⟩ := List.append_inj h' hl
    rw [h.1, Tree.ext_flat t t' h.2.1 h1, Forest.ext_flat r r' h.2.2 h2]
end

/-- `map_structure` of two structures: succeeds with `r` exactly if the structures agree and `r` has that structure and the
leafwise results. -/
theorem Tree.map2_ok {f : α → β → Except Err γ} {a : Tree α} {b : Tree β} {r : Tree γ} :
    Tree.map2 f a b = .ok r ↔ a.skel = b.skel ∧ r.skel = a.skel ∧
      List.Forall₂ (fun p c => f p.1 p.2 = .ok c) (a.flatten.zip b.flatten) r.flatten := by
  unfold Tree.map2
  simp only [bind, Except.bind]
  have hs := Tree.sameStructure_iff a b
  cases h : Tree.sameStructure true a b with
  | error e =>
    rw [h] at hs
    have : a.skel ≠ b.skel := fun h => by have := hs.2 h; cases this
    simp [this]
  | ok u =>
    have hab : a.skel = b.skel := hs.1 (by rw [h])
    simp only [hab, true_and]
    cases hm : (a.flatten.zip b.flatten).mapM (fun p => f p.1 p.2) with
    | error e =>
      simp only
      constructor
      · intro h; cases h
      · rintro ⟨-, h⟩; rw [mapM_ok.2 h] at hm; cases hm
    | ok rs =>
      simp only
      have hF := mapM_ok.1 hm
      have hl : rs.length = a.flatten.length := by
        rw [← hF.length_eq, List.length_zip, Tree.length_of_skel hab, min_self]
      obtain ⟨r', h1, h2, h3⟩ := a.unflattenAs_ok rs hl
      rw [h1]
      constructor
      · intro h; injection h with h; subst h; exact ⟨h3.trans hab, by rw [h2]; exact hF⟩
      · rintro ⟨k1, k2⟩
        have : r'.flatten = r.flatten := by
          rw [h2]
          have := mapM_ok.2 k2
          rw [hm] at this
          injection this
        rw [Tree.ext_flat r' r (by rw [h3, k1, hab]) this]

mutual
theorem Tree.mapE_ok {f : α → Except Err β} : ∀ (a : Tree α) (r : Tree β),
    Tree.mapE f a = .ok r ↔ r.skel = a.skel ∧ List.Forall₂ (fun p c => f p = .ok c) a.flatten r.flatten
  | .leaf a, r => by
    simp only [Tree.mapE, bind, Except.bind, pure, Except.pure]
    cases hf : f a with
    | error e =>
      simp only
      constructor
      · intro h; cases h
      · rintro ⟨h1, h2⟩
        cases r with
        | leaf b => simp [Tree.flatten, hf] at h2
        | node => simp [Tree.skel] at h1
    | ok b =>
      simp only
      constructor
      · intro h; injection h with h; subst h; simp [Tree.skel, Tree.flatten, hf]
      · rintro ⟨h1, h2⟩
        cases r with
        | leaf b' => simp [Tree.flatten, hf] at h2; rw [h2]
        | node => simp [Tree.skel] at h1
  | .node tag es, r => by
    simp only [Tree.mapE, bind, Except.bind, pure, Except.pure]
    cases r with
    | leaf b =>
      constructor
      · intro h; split at h <;> cases h
      · rintro ⟨h1, -⟩; simp [Tree.skel] at h1
    | node tag' es' =>
      have ih := Forest.mapE_ok (f := f) es es'
      simp only [Tree.skel, Tree.flatten, Tree.node.injEq]
      constructor
      · intro h
        cases hm : Forest.mapE f es with
        | error e => rw [hm] at h; cases h
        | ok es2 =>
          rw [hm] at h
          injection h with h
          injection h with h1 h2
          subst h1 h2
          have := ih.1 hm
          exact ⟨⟨rfl, this.1⟩, this.2⟩
      · rintro ⟨⟨h0, h1⟩, h2⟩
        rw [ih.2 ⟨h1, h2⟩, h0]
theorem Forest.mapE_ok {f : α → Except Err β} : ∀ (a : Forest α) (r : Forest β),
    Forest.mapE f a = .ok r ↔ r.skel = a.skel ∧ List.Forall₂ (fun p c => f p = .ok c) a.flatten r.flatten
  | .nil, r => by
    cases r with
    | nil => simp [Forest.mapE, Forest.skel, Forest.flatten, pure, Except.pure]
    | cons => simp [Forest.mapE, Forest.skel, pure, Except.pure]
  | .cons k t es, r => by
    simp only [Forest.mapE, bind, Except.bind, pure, Except.pure]
    cases r with
    | nil =>
      constructor
      · intro h
        split at h
        · cases h
        · split at h <;> cases h
      · rintro ⟨h1, -⟩; simp [Forest.skel] at h1
    | cons k' t' es' =>
      have ih1 := Tree.mapE_ok (f := f) t t'
      have ih2 := Forest.mapE_ok (f := f) es es'
      simp only [Forest.skel, Forest.flatten, Forest.cons.injEq]
      constructor
      · intro h
        cases hm : Tree.mapE f t with
        | error e => rw [hm] at h; cases h
        | ok t2 =>
          rw [hm] at h
          simp only at h
          cases hm2 : Forest.mapE f es with
          | error e => rw [hm2] at h; cases h
          | ok es2 =>
            rw [hm2] at h
            injection h with h
            injection h with h1 h2 h3
            subst h1 h2 h3
            have a1 := ih1.1 hm
            have a2 := ih2.1 hm2
            exact ⟨⟨rfl, a1.1, a2.1⟩, List.rel_append a1.2 a2.2⟩
      · rintro ⟨⟨h0, h1, h2⟩, h3⟩
        have hl : t.flatten.length = t'.flatten.length := Tree.length_of_skel h1.symm
        obtain ⟨p1, p2⟩ : List.Forall₂ (fun p c => f p = .ok c) t.flatten t'.flatten ∧
            List.Forall₂ (fun p c => f p = .ok c) es.flatten es'.flatten := by
          have := List.forall₂_iff_get.1 h3
          constructor
          · have := List.forall₂_take t.flatten.length h3
            simpa [List.take_left, hl, List.take_left' hl.symm] using this
          · have := List.forall₂_drop t.flatten.length h3
            simpa [List.drop_left, hl, List.drop_left' hl.symm] using this
        rw [ih1.2 ⟨h1, p1⟩]
        simp only
        rw [ih2.2 ⟨h2, p2⟩, h0]
end

mutual
theorem Tree.join_leaf : ∀ (t : Tree (Tree α)) (vs : List α), t.flatten = vs.map Tree.leaf →
    t.join.skel = t.skel ∧ t.join.flatten = vs
  | .leaf a, vs, h => by
    match vs, h with
    | [v], h =>
      simp [Tree.flatten] at h
      subst h
      exact ⟨rfl, rfl⟩
    | [], h => simp [Tree.flatten] at h
    | _ :: _ :: _, h => simp [Tree.flatten] at h
  | .node tag es, vs, h => by
    have := Forest.join_leaf es vs h
    simp only [Tree.join, Tree.skel, Tree.flatten]
    exact ⟨by rw [this.1], this.2⟩
theorem Forest.join_leaf : ∀ (t : Forest (Tree α)) (vs : List α), t.flatten = vs.map Tree.leaf →
    t.join.skel = t.skel ∧ t.join.flatten = vs
  | .nil, vs, h => by
    simp only [Forest.flatten] at h
    have : vs = [] := by simpa using h.symm
    subst this
    exact ⟨rfl, rfl⟩
  | .cons k t es, vs, h => by
    simp only [Forest.flatten] at h
    have h1 : t.flatten = (vs.take t.flatten.length).map Tree.leaf := by
      rw [List.map_take, ← h, List.take_left' rfl]
    have h2 : es.flatten = (vs.drop t.flatten.length).map Tree.leaf := by
      rw [List.map_drop, ← h, List.drop_left' rfl]
    have a := Tree.join_leaf t _ h1
    have b := Forest.join_leaf es _ h2
    simp only [Forest.join, Forest.skel, Forest.flatten, a.1, b.1, a.2, b.2, List.take_append_drop, and_self]
end

end Distrax
