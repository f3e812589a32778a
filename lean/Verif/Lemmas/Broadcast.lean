import Verif.Lemmas.Arr

/-! Laws of numpy broadcasting of shapes and of the index projection. -/

namespace Distrax

theorem brev_absorb_left : ∀ (a b t : List ℕ), brev a b = some t → brev a t = some t
  | [], b, t, _ => by simp [brev]
  | a :: as, [], t, h => by
    simp [brev] at h; subst h; exact brev_self _
  | a :: as, b :: bs, t, h => by
    simp only [brev] at h
    rcases h1 : bdim a b with _ | d <;> rcases h2 : brev as bs with _ | r <;> simp [h1, h2] at h
    subst h
    have h3 := brev_absorb_left as bs r h2
    have h4 : bdim a d = some d := by
      simp only [bdim] at *; split_ifs at * <;> simp_all
    simp [brev, h3, h4]

theorem brev_absorb_right (a b t : List ℕ) (h : brev a b = some t) : brev b t = some t :=
  brev_absorb_left b a t (by rw [brev_comm]; exact h)

theorem broadcast_absorb_left {a b t : List ℕ} (h : broadcastShapes a b = some t) :
    broadcastShapes a t = some t := by
  rw [broadcastShapes_iff] at *
  exact brev_absorb_left _ _ _ h

theorem broadcast_absorb_right {a b t : List ℕ} (h : broadcastShapes a b = some t) :
    broadcastShapes b t = some t := by
  rw [broadcastShapes_comm] at h; exact broadcast_absorb_left h

/-- Associativity, in the direction needed for composition. -/
theorem brev_assoc : ∀ (a b c s t : List ℕ), brev a b = some s → brev s c = some t →
    ∃ u, brev b c = some u ∧ brev a u = some t
  | [], b, c, s, t, h1, h2 => by
    simp [brev] at h1; subst h1; exact ⟨t, h2, by simp [brev]⟩
  | a :: as, [], c, s, t, h1, h2 => by
    simp [brev] at h1; subst h1; exact ⟨c, by simp [brev], h2⟩
  | a :: as, b :: bs, [], s, t, h1, h2 => by
    rw [brev_nil_right] at h2
    simp at h2; subst h2
    exact ⟨b :: bs, by simp [brev], h1⟩
  | a :: as, b :: bs, c :: cs, s, t, h1, h2 => by
    simp only [brev] at h1
    rcases e1 : bdim a b with _ | d <;> rcases e2 : brev as bs with _ | r <;> simp [e1, e2] at h1
    subst h1
    simp only [brev] at h2
    rcases e3 : bdim d c with _ | f <;> rcases e4 : brev r cs with _ | q <;> simp [e3, e4] at h2
    subst h2
    obtain ⟨u, hu1, hu2⟩ := brev_assoc as bs cs r q e2 e4
    have : ∃ g, bdim b c = some g ∧ bdim a g = some f := by
      simp only [bdim] at *; split_ifs at * <;> simp_all
    obtain ⟨g, hg1, hg2⟩ := this
    exact ⟨g :: u, by simp [brev, hg1, hu1], by simp [brev, hg2, hu2]⟩

theorem broadcast_assoc {a b c s t : List ℕ} (h1 : broadcastShapes a b = some s)
    (h2 : broadcastShapes s c = some t) :
    ∃ u, broadcastShapes b c = some u ∧ broadcastShapes a u = some t := by
  rw [broadcastShapes_iff] at h1 h2
  obtain ⟨u, hu1, hu2⟩ := brev_assoc _ _ _ _ _ h1 h2
  exact ⟨u.reverse, by rw [broadcastShapes_iff]; simpa using hu1,
    by rw [broadcastShapes_iff]; simpa using hu2⟩

theorem broadcast_assoc' {a b c s t : List ℕ} (h1 : broadcastShapes b c = some s)
    (h2 : broadcastShapes a s = some t) :
    ∃ u, broadcastShapes a b = some u ∧ broadcastShapes u c = some t := by
  rw [broadcastShapes_comm] at h1 h2
  obtain ⟨u, hu1, hu2⟩ := broadcast_assoc h1 h2
  exact ⟨u, by rw [broadcastShapes_comm]; exact hu1, by rw [broadcastShapes_comm]; exact hu2⟩

theorem brev_length_le : ∀ (a b t : List ℕ), brev a b = some t → a.length ≤ t.length
  | [], _, _, _ => by simp
  | a :: as, [], t, h => by simp [brev] at h; subst h; simp
  | a :: as, b :: bs, t, h => by
    simp only [brev] at h
    rcases e1 : bdim a b with _ | d <;> rcases e2 : brev as bs with _ | r <;> simp [e1, e2] at h
    subst h
    have := brev_length_le as bs r e2
    simpa using this

theorem broadcast_length_le {a b t : List ℕ} (h : broadcastShapes a b = some t) :
    a.length ≤ t.length := by
  rw [broadcastShapes_iff] at h
  simpa using brev_length_le _ _ _ h

/-- `proj` on lists stored last axis first. -/
def projRev (s i : List ℕ) : List ℕ := List.zipWith (fun d k => if d = 1 then 0 else k) s i

theorem zipWith_take_right {α β γ : Type} (f : α → β → γ) : ∀ (s : List α) (i : List β),
    List.zipWith f s (i.take s.length) = List.zipWith f s i
  | [], _ => by simp
  | _ :: _, [] => by simp
  | a :: s, b :: i => by simp [zipWith_take_right f s i]

theorem proj_reverse {s i : List ℕ} (h : s.length ≤ i.length) :
    (proj s i).reverse = projRev s.reverse i.reverse := by
  unfold proj projRev
  rw [← zipWith_take_right (fun d k => if d = 1 then 0 else k) s.reverse i.reverse]
  rw [List.reverse_zipWith (by simp; omega)]
  congr 1
  rw [List.length_reverse, List.take_reverse]

theorem projRev_projRev : ∀ (a b t i : List ℕ), brev a b = some t →
    projRev a (projRev t i) = projRev a i
  | [], _, _, _, _ => by simp [projRev]
  | a :: as, [], t, i, h => by
    simp [brev] at h; subst h
    cases i with
    | nil => simp [projRev]
    | cons k i =>
      have ih := projRev_projRev as [] as i (by rw [brev_nil_right])
      simp only [projRev, List.zipWith_cons_cons] at *
      rw [ih]; congr 1; split_ifs <;> rfl
  | a :: as, b :: bs, t, i, h => by
    simp only [brev] at h
    rcases e1 : bdim a b with _ | d <;> rcases e2 : brev as bs with _ | r <;> simp [e1, e2] at h
    subst h
    cases i with
    | nil => simp [projRev]
    | cons k i =>
      have ih := projRev_projRev as bs r i e2
      simp only [projRev, List.zipWith_cons_cons] at *
      rw [ih]; congr 1
      simp only [bdim] at e1
      split_ifs at * <;> simp_all

theorem proj_length {s i : List ℕ} (h : s.length ≤ i.length) : (proj s i).length = s.length := by
  simp [proj]; omega

theorem proj_proj {a b t i : List ℕ} (h : broadcastShapes a b = some t) (hi : t.length ≤ i.length) :
    proj a (proj t i) = proj a i := by
  have hl := broadcast_length_le h
  rw [broadcastShapes_iff] at h
  apply List.reverse_injective
  rw [proj_reverse (by rw [proj_length hi]; exact hl), proj_reverse hi, proj_reverse (by omega)]
  exact projRev_projRev _ _ _ _ h

theorem inRange_reverse {s i : List ℕ} : InRange s.reverse i.reverse ↔ InRange s i := by
  unfold InRange
  exact List.forall₂_reverse_iff

theorem projRev_inRange : ∀ (a t i : List ℕ), brev a t = some t → InRange t i →
    InRange a (projRev a i)
  | [], _, _, _, _ => by simp [projRev, InRange]
  | a :: as, [], _, h, _ => by simp [brev] at h
  | a :: as, d :: t, i, h, hi => by
    simp only [brev] at h
    rcases e1 : bdim a d with _ | d' <;> rcases e2 : brev as t with _ | r <;> simp [e1, e2] at h
    obtain ⟨rfl, rfl⟩ := h
    unfold InRange at hi
    cases hi with
    | @cons k _ i _ hk hi =>
      have ih := projRev_inRange as r i e2 hi
      refine List.Forall₂.cons ?_ ih
      simp only [bdim] at e1
      split_ifs at * <;> simp_all
      split_ifs <;> omega

theorem proj_inRange {a t i : List ℕ} (h : broadcastShapes a t = some t) (hi : InRange t i) :
    InRange a (proj a i) := by
  have hl := broadcast_length_le h
  rw [broadcastShapes_iff] at h
  rw [← inRange_reverse, proj_reverse (by rw [hi.length]; exact hl)]
  exact projRev_inRange _ _ _ h (inRange_reverse.2 hi)

/-- Broadcasting acts separately on a common trailing block of equal dimensions. -/
theorem brev_append (e : List ℕ) : ∀ (a b : List ℕ), brev (e ++ a) (e ++ b) = (brev a b).map (e ++ ·) := by
  induction e with
  | nil => intro a b; simp
  | cons d e ih =>
    intro a b
    simp only [List.cons_append, brev, bdim_self, ih]
    cases brev a b <;> simp

theorem broadcast_append (e a b : List ℕ) :
    broadcastShapes (a ++ e) (b ++ e) = (broadcastShapes a b).map (· ++ e) := by
  unfold broadcastShapes
  rw [List.reverse_append, List.reverse_append, brev_append]
  cases brev a.reverse b.reverse <;> simp

theorem proj_append {a e i k : List ℕ} (hk : InRange e k) (hl : a.length ≤ i.length) :
    proj (a ++ e) (i ++ k) = proj a i ++ k := by
  have h2 := proj_self hk
  have hke := hk.length
  unfold proj at *
  rw [hke] at h2
  simp only [Nat.sub_self, List.drop_zero] at h2
  have e1 : (i ++ k).length - (a ++ e).length = i.length - a.length := by simp [hke]; omega
  rw [e1, List.drop_append_of_le_length (by omega), List.zipWith_append (by simp; omega), h2]

theorem proj_nil (i : List ℕ) : proj [] i = [] := by simp [proj]

/-- A shape that broadcasts against `b ++ e` into it, having at least rank of `e`... trailing block. -/
theorem broadcast_nil_right (s : List ℕ) : broadcastShapes s [] = some s := by
  rw [broadcastShapes_comm]; exact broadcastShapes_nil s

end Distrax
