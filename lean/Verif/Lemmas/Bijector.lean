import Verif.Spec.Bijector
import Verif.Lemmas.Scalar
import Verif.Lemmas.Arr

/-!
Refinement: on well-formed bijectors whose parameters broadcast into the input's shape, all six methods
of the model act entry by entry through scalar functions `den`.
-/

namespace Distrax
namespace Bij

/-- Scalar maps of a bijector at one array entry. -/
structure SB where
  F : ℝ → ℝ
  G : ℝ → ℝ
  L : ℝ → ℝ
  M : ℝ → ℝ

def SB.id : SB := ⟨fun x => x, fun x => x, fun _ => 0, fun _ => 0⟩
def SB.comp (a b : SB) : SB :=
  ⟨fun x => a.F (b.F x), fun y => b.G (a.G y), fun x => b.L x + a.L (b.F x),
   fun y => a.M y + b.M (a.G y)⟩
def SB.swap (a : SB) : SB := ⟨a.G, a.F, a.M, a.L⟩

/-- Parameter entry read at output index `i`. -/
def Ref.at (r : Ref) (i : List ℕ) : ℝ := r.val.data (proj r.val.shape i)

mutual
noncomputable def den : Bij → List ℕ → SB
  | scalarAffine sh sc is ls, i =>
      ⟨fun x => Ref.at sc i * x + Ref.at sh i, fun y => Ref.at is i * (y - Ref.at sh i),
        fun _ => Ref.at ls i, fun _ => -Ref.at ls i⟩
  | shift s, i => ⟨fun x => x + Ref.at s i, fun y => y - Ref.at s i, fun _ => 0, fun _ => 0⟩
  | tanh, _ => ⟨Real.tanh, Real.artanh, tanhFldj, fun y => -tanhFldj (Real.artanh y)⟩
  | sigmoid, _ => ⟨moreStableSigmoid, sigmoidInv, sigmoidFldj, fun y => -sigmoidFldj (sigmoidInv y)⟩
  | gumbelCDF, _ => ⟨gumbelCdfFwd, gumbelCdfInv, gumbelCdfFldj, gumbelCdfIldj⟩
  | user u, _ => ⟨u.fwd, u.inv, u.fldj, u.ildj⟩
  | chain bs, i => denAll bs i
  | inverse b, i => (den b i).swap
  | block b _, i => den b i
noncomputable def denAll : List Bij → List ℕ → SB
  | [], _ => SB.id
  | b :: bs, i => (den b i).comp (denAll bs i)
end

mutual
/-- Well-formed objects: exactly what the constructors produce (`mk_wf` lemmas). -/
def WF : Bij → Prop
  | scalarAffine _ sc is ls =>
      is.val.shape = sc.val.shape ∧ ls.val.shape = sc.val.shape ∧
      (∀ i, is.val.data i = 1 / sc.val.data i) ∧ (∀ i, ls.val.data i = Real.log |sc.val.data i|)
  | user u => u.constJac = true → u.constLogDet = true
  | chain bs => bs ≠ [] ∧ adjacentOk bs = true ∧ WFAll bs
  | inverse b => b.WF
  | block b _ => b.WF
  | _ => True
def WFAll : List Bij → Prop
  | [] => True
  | b :: bs => b.WF ∧ WFAll bs
end

mutual
theorem ndims_eq : ∀ (b : Bij), b.WF → b.ndimsIn = b.ndimsOut
  | scalarAffine .., _ => by simp [ndimsIn, ndimsOut]
  | shift _, _ => by simp [ndimsIn, ndimsOut]
  | tanh, _ => by simp [ndimsIn, ndimsOut]
  | sigmoid, _ => by simp [ndimsIn, ndimsOut]
  | gumbelCDF, _ => by simp [ndimsIn, ndimsOut]
  | user _, _ => by simp [ndimsIn, ndimsOut]
  | chain bs, h => by
      simp only [WF] at h
      simp only [ndimsIn, ndimsOut]
      exact ndims_eq_list bs h.2.1 h.2.2
  | inverse b, h => by
      simp only [WF] at h
      simp only [ndimsIn, ndimsOut]
      exact (ndims_eq b h).symm
  | block b n, h => by
      simp only [WF] at h
      simp only [ndimsIn, ndimsOut, ndims_eq b h]
theorem ndims_eq_list : ∀ (bs : List Bij), adjacentOk bs = true → WFAll bs →
    ndimsInLast bs = ndimsOutHead bs
  | [], _, _ => by simp [ndimsInLast, ndimsOutHead]
  | [b], _, h => by
      simp only [WFAll] at h
      simp only [ndimsInLast, ndimsOutHead]
      exact ndims_eq b h.1
  | b :: c :: bs, ha, h => by
      simp only [WFAll] at h
      simp only [adjacentOk, Bool.and_eq_true, beq_iff_eq] at ha
      have h1 := ndims_eq_list (c :: bs) ha.2 (by simp only [WFAll]; exact h.2)
      have h2 := ndims_eq b h.1
      simp only [ndimsInLast, ndimsOutHead] at *
      omega
end

/-- `y` is `x` mapped entrywise through `F`, over shape `s`. -/
def Elem (s : List ℕ) (F : List ℕ → ℝ → ℝ) (x y : Arr) : Prop :=
  y.shape = s ∧ ∀ i, InRange s i → y.data i = F i (x.data i)

/-- `l` is the entrywise `L` of `x`, summed over the last `nd` axes. -/
def Ld (s : List ℕ) (nd : ℕ) (L : List ℕ → ℝ → ℝ) (x l : Arr) : Prop :=
  l.shape = s.take (s.length - nd) ∧
  ∀ i, InRange (s.take (s.length - nd)) i →
    l.data i = ((allIdx (s.drop (s.length - nd))).map (fun j => L (i ++ j) (x.data (i ++ j)))).sum

theorem Ld_zero {s : List ℕ} {L : List ℕ → ℝ → ℝ} {x l : Arr}
    (hs : l.shape = s) (h : ∀ i, InRange s i → l.data i = L i (x.data i)) : Ld s 0 L x l := by
  refine ⟨by simp [hs], ?_⟩
  intro i hi
  simp only [Nat.sub_zero, List.take_length] at hi
  simp [h i hi, allIdx]

theorem Ld_block {s : List ℕ} {nd n : ℕ} {L : List ℕ → ℝ → ℝ} {x l : Arr}
    (h : Ld s nd L x l) (hn : n + nd ≤ s.length) :
    ∃ l', l.sumLast n = .ok l' ∧ Ld s (n + nd) L x l' := by
  obtain ⟨hsh, hd⟩ := h
  have hlen : l.shape.length = s.length - nd := by simp [hsh]
  have hle : n ≤ l.shape.length := by omega
  have e1 : l.shape.length - n = s.length - (n + nd) := by omega
  refine ⟨_, by simp only [Arr.sumLast, hle, if_true, e1]; rfl, ?_, ?_⟩
  · simp only [hsh, List.take_take]
    congr 1; omega
  · intro i hi
    simp only [hsh]
    have e2 : s.drop (s.length - (n + nd)) =
        (s.take (s.length - nd)).drop (s.length - (n + nd)) ++ s.drop (s.length - nd) := by
      have h0 : s.drop (s.length - (n + nd)) =
          (s.take (s.length - nd) ++ s.drop (s.length - nd)).drop (s.length - (n + nd)) := by
        rw [List.take_append_drop]
      rw [h0, List.drop_append_of_le_length]
      simp only [List.length_take]; omega
    rw [e2, sum_allIdx_append]
    congr 1
    apply List.map_congr_left
    intro j hj
    rw [mem_allIdx] at hj
    have e3 : s.take (s.length - nd) = s.take (s.length - (n + nd)) ++
        (s.take (s.length - nd)).drop (s.length - (n + nd)) := by
      conv_lhs => rw [← List.take_append_drop (s.length - (n + nd)) (s.take (s.length - nd))]
      rw [List.take_take]; congr 2; omega
    rw [hd (i ++ j) (by rw [e3]; exact hi.append hj)]
    simp

/-- All six methods of `b` act entrywise through `den b` on arrays of shape `s`. -/
structure Refines (b : Bij) (s : List ℕ) : Prop where
  fwd : ∀ x : Arr, x.shape = s →
    ∃ y, b.forward x = .ok y ∧ Elem s (fun i => (b.den i).F) x y
  inv : ∀ x : Arr, x.shape = s →
    ∃ y, b.inv x = .ok y ∧ Elem s (fun i => (b.den i).G) x y
  fld : ∀ x : Arr, x.shape = s →
    ∃ l, b.fldj x = .ok l ∧ Ld s b.ndimsIn (fun i => (b.den i).L) x l
  ild : ∀ x : Arr, x.shape = s →
    ∃ l, b.ildj x = .ok l ∧ Ld s b.ndimsIn (fun i => (b.den i).M) x l
  fwdLd : ∀ x : Arr, x.shape = s →
    ∃ y l, b.fwdAndLd x = .ok (y, l) ∧ Elem s (fun i => (b.den i).F) x y ∧
      Ld s b.ndimsIn (fun i => (b.den i).L) x l
  invLd : ∀ x : Arr, x.shape = s →
    ∃ y l, b.invAndLd x = .ok (y, l) ∧ Elem s (fun i => (b.den i).G) x y ∧
      Ld s b.ndimsIn (fun i => (b.den i).M) x l

theorem bind_ok {α β : Type} (a : α) (f : α → Except Err β) : (Except.ok a >>= f) = f a := rfl

theorem saForward_ref (sh sc : Ref) (s : List ℕ) (h1 : broadcastShapes sh.val.shape s = some s)
    (h2 : broadcastShapes sc.val.shape s = some s) (x : Arr) (hx : x.shape = s) :
    ∃ y, saForward sh sc x = .ok y ∧
      Elem s (fun i x => Ref.at sc i * x + Ref.at sh i) x y := by
  obtain ⟨t, ht, hts⟩ := broadcastShapes_join _ _ _ h1 h2
  obtain ⟨p, hp, hps, hpd⟩ := bin_same (· * ·)
    ⟨s, fun i => sc.val.data (proj sc.val.shape i)⟩ x s rfl hx
  obtain ⟨q, hq, hqs, hqd⟩ := bin_same (· + ·) p
    ⟨s, fun i => sh.val.data (proj sh.val.shape i)⟩ s hps rfl
  refine ⟨q, ?_, hqs, ?_⟩
  · simp only [saForward, ht, hx, hts, Arr.broadcastTo, h1, h2, if_true, bind_ok, hp, hq]
  · intro i hi
    simp only [hqd i hi, hpd i hi, Ref.at]

theorem saInverse_ref (sh sc is : Ref) (s : List ℕ) (h1 : broadcastShapes sh.val.shape s = some s)
    (h2 : broadcastShapes sc.val.shape s = some s) (h3 : is.val.shape = sc.val.shape)
    (x : Arr) (hx : x.shape = s) :
    ∃ y, saInverse sh sc is x = .ok y ∧
      Elem s (fun i y => Ref.at is i * (y - Ref.at sh i)) x y := by
  obtain ⟨t, ht, hts⟩ := broadcastShapes_join _ _ _ h1 h2
  obtain ⟨p, hp, hps, hpd⟩ := bin_same (· - ·) x
    ⟨s, fun i => sh.val.data (proj sh.val.shape i)⟩ s hx rfl
  obtain ⟨q, hq, hqs, hqd⟩ := bin_same (· * ·)
    ⟨s, fun i => is.val.data (proj is.val.shape i)⟩ p s rfl hps
  have h4 : broadcastShapes is.val.shape s = some s := by rw [h3]; exact h2
  refine ⟨q, ?_, hqs, ?_⟩
  · simp only [saInverse, ht, hx, hts, Arr.broadcastTo, h1, h4, if_true, bind_ok, hp, hq]
  · intro i hi
    simp only [hqd i hi, hpd i hi, Ref.at]

theorem saFldj_ref (sh sc ls : Ref) (s : List ℕ) (h1 : broadcastShapes sh.val.shape s = some s)
    (h2 : broadcastShapes sc.val.shape s = some s) (h3 : ls.val.shape = sc.val.shape)
    (x : Arr) (hx : x.shape = s) :
    ∃ y, saFldj sh sc ls x = .ok y ∧ Ld s 0 (fun i _ => Ref.at ls i) x y := by
  obtain ⟨t, ht, hts⟩ := broadcastShapes_join _ _ _ h1 h2
  have h4 : broadcastShapes ls.val.shape s = some s := by rw [h3]; exact h2
  refine ⟨⟨s, fun i => ls.val.data (proj ls.val.shape i)⟩, ?_, ?_⟩
  · simp only [saFldj, ht, hx, hts, Arr.broadcastTo, h4, if_true, bind_ok]
  · exact Ld_zero rfl (fun i _ => rfl)

theorem saIldj_ref (sh sc ls : Ref) (s : List ℕ) (h1 : broadcastShapes sh.val.shape s = some s)
    (h2 : broadcastShapes sc.val.shape s = some s) (h3 : ls.val.shape = sc.val.shape)
    (x : Arr) (hx : x.shape = s) :
    ∃ y, saIldj sh sc ls x = .ok y ∧ Ld s 0 (fun i _ => -Ref.at ls i) x y := by
  obtain ⟨t, ht, hts⟩ := broadcastShapes_join _ _ _ h1 h2
  have h4 : broadcastShapes ls.val.shape s = some s := by rw [h3]; exact h2
  refine ⟨⟨s, fun i => -ls.val.data (proj ls.val.shape i)⟩, ?_, ?_⟩
  · simp only [saIldj, ht, hx, hts, Arr.broadcastTo, Arr.map, h4, if_true, bind_ok]
  · exact Ld_zero rfl (fun i _ => rfl)

theorem shiftFldj_ref (p : Ref) (s : List ℕ) (h : broadcastShapes p.val.shape s = some s)
    (x : Arr) (hx : x.shape = s) :
    ∃ l, shiftFldj p x = .ok l ∧ Ld s 0 (fun _ _ => 0) x l :=
  ⟨Arr.zeros s, by simp [shiftFldj, hx, h], Ld_zero rfl (fun _ _ => rfl)⟩

theorem bin_bcast (f : ℝ → ℝ → ℝ) (p : Ref) (s : List ℕ) (h : broadcastShapes p.val.shape s = some s)
    (x : Arr) (hx : x.shape = s) :
    ∃ y, Arr.bin f x p.val = .ok y ∧ Elem s (fun i x => f x (Ref.at p i)) x y := by
  refine ⟨⟨s, fun i => f (x.data (proj x.shape i)) (p.val.data (proj p.val.shape i))⟩, ?_, rfl, ?_⟩
  · simp [Arr.bin, hx, broadcastShapes_comm s, h]
  · intro i hi
    simp [hx, proj_self hi, Ref.at]

theorem map_elem (s : List ℕ) (F : ℝ → ℝ) (x : Arr) (hx : x.shape = s) :
    Elem s (fun _ => F) x (x.map F) := ⟨hx, fun _ _ => rfl⟩

theorem map_ld (s : List ℕ) (F : ℝ → ℝ) (x : Arr) (hx : x.shape = s) :
    Ld s 0 (fun _ => F) x (x.map F) := Ld_zero hx (fun _ _ => rfl)

theorem Elem.comp {s : List ℕ} {F G : List ℕ → ℝ → ℝ} {x y z : Arr}
    (h1 : Elem s F x y) (h2 : Elem s G y z) : Elem s (fun i x => G i (F i x)) x z :=
  ⟨h2.1, fun i hi => by rw [h2.2 i hi, h1.2 i hi]⟩

theorem take_drop_inRange {s i j : List ℕ} {k : ℕ} (hi : InRange (s.take k) i)
    (hj : InRange (s.drop k) j) : InRange s (i ++ j) := by
  have := hi.append hj
  rwa [List.take_append_drop] at this

theorem Ld.add {s : List ℕ} {nd : ℕ} {F L M : List ℕ → ℝ → ℝ} {x y l m : Arr}
    (h1 : Elem s F x y) (hl : Ld s nd L x l) (hm : Ld s nd M y m) :
    ∃ r, Arr.bin (· + ·) l m = .ok r ∧ Ld s nd (fun i x => L i x + M i (F i x)) x r := by
  obtain ⟨r, hr, hrs, hrd⟩ := bin_same (· + ·) l m _ hl.1 hm.1
  refine ⟨r, hr, hrs, fun i hi => ?_⟩
  rw [hrd i hi, hl.2 i hi, hm.2 i hi, list_sum_add]
  congr 2
  apply List.map_congr_left
  intro j hj
  rw [mem_allIdx] at hj
  rw [h1.2 _ (take_drop_inRange hi hj)]

/-- Facts about one chain loop, for a nonempty list with matching ranks. -/
structure ChainRefines (bs : List Bij) (s : List ℕ) : Prop where
  fwd : ∀ x : Arr, x.shape = s →
    ∃ y, chainForward bs x = .ok y ∧ Elem s (fun i => (denAll bs i).F) x y
  inv : ∀ x : Arr, x.shape = s →
    ∃ y, chainInv bs x = .ok y ∧ Elem s (fun i => (denAll bs i).G) x y
  fwdLd : bs ≠ [] → ∀ x : Arr, x.shape = s →
    ∃ y l, chainFwdAndLd bs x = .ok (y, l) ∧ Elem s (fun i => (denAll bs i).F) x y ∧
      Ld s (ndimsOutHead bs) (fun i => (denAll bs i).L) x l
  invLoop : ∀ (nd : ℕ), (bs ≠ [] → nd = ndimsOutHead bs) →
    ∀ (K M0 : List ℕ → ℝ → ℝ) (w y l : Arr), w.shape = s → Elem s K w y →
    Ld s nd M0 w l →
    ∃ x l', chainInvLoop bs y l = .ok (x, l') ∧
      Elem s (fun i v => (denAll bs i).G (K i v)) w x ∧
      Ld s nd (fun i v => M0 i v + (denAll bs i).M (K i v)) w l'

mutual
theorem refines : ∀ (b : Bij) (s : List ℕ), b.WF → b.Fits s → b.ndimsIn ≤ s.length → Refines b s
  | scalarAffine sh sc is ls, s, hw, hf, _ => by
      simp only [WF] at hw
      simp only [Fits] at hf
      refine ⟨fun x hx => ?_, fun x hx => ?_, fun x hx => ?_, fun x hx => ?_, fun x hx => ?_,
        fun x hx => ?_⟩
      · simpa only [forward, den] using saForward_ref sh sc s hf.1 hf.2 x hx
      · simpa only [Bij.inv, den] using saInverse_ref sh sc is s hf.1 hf.2 hw.1 x hx
      · simpa only [fldj, den, ndimsIn] using saFldj_ref sh sc ls s hf.1 hf.2 hw.2.1 x hx
      · simpa only [ildj, den, ndimsIn] using saIldj_ref sh sc ls s hf.1 hf.2 hw.2.1 x hx
      · obtain ⟨y, h1, h2⟩ := saForward_ref sh sc s hf.1 hf.2 x hx
        obtain ⟨l, h3, h4⟩ := saFldj_ref sh sc ls s hf.1 hf.2 hw.2.1 x hx
        exact ⟨y, l, by simp only [fwdAndLd, h1, h3, bind_ok]; rfl, by simpa only [den] using h2,
          by simpa only [den, ndimsIn] using h4⟩
      · obtain ⟨y, h1, h2⟩ := saInverse_ref sh sc is s hf.1 hf.2 hw.1 x hx
        obtain ⟨l, h3, h4⟩ := saIldj_ref sh sc ls s hf.1 hf.2 hw.2.1 x hx
        exact ⟨y, l, by simp only [invAndLd, h1, h3, bind_ok]; rfl, by simpa only [den] using h2,
          by simpa only [den, ndimsIn] using h4⟩
  | shift p, s, _, hf, _ => by
      simp only [Fits] at hf
      refine ⟨fun x hx => ?_, fun x hx => ?_, fun x hx => ?_, fun x hx => ?_, fun x hx => ?_,
        fun x hx => ?_⟩
      · simpa only [forward, den] using bin_bcast (· + ·) p s hf x hx
      · simpa only [Bij.inv, den] using bin_bcast (· - ·) p s hf x hx
      · simpa only [fldj, den, ndimsIn] using shiftFldj_ref p s hf x hx
      · simpa only [ildj, den, ndimsIn] using shiftFldj_ref p s hf x hx
      · obtain ⟨y, h1, h2⟩ := bin_bcast (· + ·) p s hf x hx
        obtain ⟨l, h3, h4⟩ := shiftFldj_ref p s hf x hx
        exact ⟨y, l, by simp only [fwdAndLd, h1, h3, bind_ok]; rfl, by simpa only [den] using h2,
          by simpa only [den, ndimsIn] using h4⟩
      · obtain ⟨y, h1, h2⟩ := bin_bcast (· - ·) p s hf x hx
        obtain ⟨l, h3, h4⟩ := shiftFldj_ref p s hf x hx
        exact ⟨y, l, by simp only [invAndLd, h1, h3, bind_ok]; rfl, by simpa only [den] using h2,
          by simpa only [den, ndimsIn] using h4⟩
  | tanh, s, _, _, _ => by
      refine ⟨fun x hx => ?_, fun x hx => ?_, fun x hx => ?_, fun x hx => ?_, fun x hx => ?_,
        fun x hx => ?_⟩
      · exact ⟨_, by simp only [forward, fwdAndLd, bind_ok]; rfl, by simpa only [den] using map_elem s _ x hx⟩
      · exact ⟨_, by simp only [Bij.inv, invAndLd, bind_ok]; rfl, by simpa only [den] using map_elem s _ x hx⟩
      · exact ⟨_, by simp only [fldj]; rfl, by simpa only [den, ndimsIn] using map_ld s _ x hx⟩
      · exact ⟨_, by simp only [ildj, invAndLd, bind_ok]; rfl,
          by simp only [den, ndimsIn]; exact Ld_zero hx (fun _ _ => rfl)⟩
      · exact ⟨_, _, by simp only [fwdAndLd]; rfl, by simpa only [den] using map_elem s _ x hx,
          by simpa only [den, ndimsIn] using map_ld s _ x hx⟩
      · exact ⟨_, _, by simp only [invAndLd]; rfl, by simpa only [den] using map_elem s _ x hx,
          by simp only [den, ndimsIn]; exact Ld_zero hx (fun _ _ => rfl)⟩
  | sigmoid, s, _, _, _ => by
      refine ⟨fun x hx => ?_, fun x hx => ?_, fun x hx => ?_, fun x hx => ?_, fun x hx => ?_,
        fun x hx => ?_⟩
      · exact ⟨_, by simp only [forward, fwdAndLd, bind_ok]; rfl, by simpa only [den] using map_elem s _ x hx⟩
      · exact ⟨_, by simp only [Bij.inv, invAndLd, bind_ok]; rfl, by simpa only [den] using map_elem s _ x hx⟩
      · exact ⟨_, by simp only [fldj]; rfl, by simpa only [den, ndimsIn] using map_ld s _ x hx⟩
      · exact ⟨_, by simp only [ildj, invAndLd, bind_ok]; rfl,
          by simp only [den, ndimsIn]; exact Ld_zero hx (fun _ _ => rfl)⟩
      · exact ⟨_, _, by simp only [fwdAndLd]; rfl, by simpa only [den] using map_elem s _ x hx,
          by simpa only [den, ndimsIn] using map_ld s _ x hx⟩
      · exact ⟨_, _, by simp only [invAndLd]; rfl, by simpa only [den] using map_elem s _ x hx,
          by simp only [den, ndimsIn]; exact Ld_zero hx (fun _ _ => rfl)⟩
  | gumbelCDF, s, _, _, _ => by
      refine ⟨fun x hx => ?_, fun x hx => ?_, fun x hx => ?_, fun x hx => ?_, fun x hx => ?_,
        fun x hx => ?_⟩
      · exact ⟨_, by simp only [forward, fwdAndLd, bind_ok]; rfl, by simpa only [den] using map_elem s _ x hx⟩
      · exact ⟨_, by simp only [Bij.inv, invAndLd, bind_ok]; rfl, by simpa only [den] using map_elem s _ x hx⟩
      · exact ⟨_, by simp only [fldj, fwdAndLd, bind_ok]; rfl, by simpa only [den, ndimsIn] using map_ld s _ x hx⟩
      · exact ⟨_, by simp only [ildj, invAndLd, bind_ok]; rfl,
          by simpa only [den, ndimsIn] using map_ld s _ x hx⟩
      · exact ⟨_, _, by simp only [fwdAndLd]; rfl, by simpa only [den] using map_elem s _ x hx,
          by simpa only [den, ndimsIn] using map_ld s _ x hx⟩
      · exact ⟨_, _, by simp only [invAndLd]; rfl, by simpa only [den] using map_elem s _ x hx,
          by simpa only [den, ndimsIn] using map_ld s _ x hx⟩
  | user u, s, _, _, _ => by
      refine ⟨fun x hx => ?_, fun x hx => ?_, fun x hx => ?_, fun x hx => ?_, fun x hx => ?_,
        fun x hx => ?_⟩
      · exact ⟨_, by simp only [forward]; rfl, by simpa only [den] using map_elem s _ x hx⟩
      · exact ⟨_, by simp only [Bij.inv]; rfl, by simpa only [den] using map_elem s _ x hx⟩
      · exact ⟨_, by simp only [fldj]; rfl, by simpa only [den, ndimsIn] using map_ld s _ x hx⟩
      · exact ⟨_, by simp only [ildj]; rfl, by simpa only [den, ndimsIn] using map_ld s _ x hx⟩
      · exact ⟨_, _, by simp only [fwdAndLd]; rfl, by simpa only [den] using map_elem s _ x hx,
          by simpa only [den, ndimsIn] using map_ld s _ x hx⟩
      · exact ⟨_, _, by simp only [invAndLd]; rfl, by simpa only [den] using map_elem s _ x hx,
          by simpa only [den, ndimsIn] using map_ld s _ x hx⟩
  | inverse b, s, hw, hf, hn => by
      simp only [WF] at hw
      simp only [Fits] at hf
      have e := ndims_eq b hw
      simp only [ndimsIn] at hn
      have r := refines b s hw hf (by omega)
      refine ⟨fun x hx => ?_, fun x hx => ?_, fun x hx => ?_, fun x hx => ?_, fun x hx => ?_,
        fun x hx => ?_⟩
      · simpa only [forward, den, SB.swap] using r.inv x hx
      · simpa only [Bij.inv, den, SB.swap] using r.fwd x hx
      · simpa only [fldj, den, SB.swap, ndimsIn, ← e] using r.ild x hx
      · simpa only [ildj, den, SB.swap, ndimsIn, ← e] using r.fld x hx
      · simpa only [fwdAndLd, den, SB.swap, ndimsIn, ← e] using r.invLd x hx
      · simpa only [invAndLd, den, SB.swap, ndimsIn, ← e] using r.fwdLd x hx
  | block b n, s, hw, hf, hn => by
      simp only [WF] at hw
      simp only [Fits] at hf
      have e := ndims_eq b hw
      simp only [ndimsIn] at hn
      have r := refines b s hw hf (by omega)
      have hc : ∀ x : Arr, x.shape = s → checkFwd (n + b.ndimsIn) x = .ok () := by
        intro x hx
        simp only [checkFwd, hx]; rw [if_neg (by omega)]
      refine ⟨fun x hx => ?_, fun x hx => ?_, fun x hx => ?_, fun x hx => ?_, fun x hx => ?_,
        fun x hx => ?_⟩
      · simpa only [forward, den, hc x hx, bind_ok] using r.fwd x hx
      · simpa only [Bij.inv, den, ← e, hc x hx, bind_ok] using r.inv x hx
      · obtain ⟨l, h1, h2⟩ := r.fld x hx
        obtain ⟨l', h3, h4⟩ := Ld_block h2 hn
        exact ⟨l', by simp only [fldj, hc x hx, bind_ok, h1, h3], by simpa only [den, ndimsIn] using h4⟩
      · obtain ⟨l, h1, h2⟩ := r.ild x hx
        obtain ⟨l', h3, h4⟩ := Ld_block h2 hn
        exact ⟨l', by simp only [ildj, ← e, hc x hx, bind_ok, h1, h3],
          by simpa only [den, ndimsIn] using h4⟩
      · obtain ⟨y, l, h1, h2, h5⟩ := r.fwdLd x hx
        obtain ⟨l', h3, h4⟩ := Ld_block h5 hn
        exact ⟨y, l', by simp only [fwdAndLd, hc x hx, bind_ok, h1, h3]; rfl,
          by simpa only [den] using h2, by simpa only [den, ndimsIn] using h4⟩
      · obtain ⟨y, l, h1, h2, h5⟩ := r.invLd x hx
        obtain ⟨l', h3, h4⟩ := Ld_block h5 hn
        exact ⟨y, l', by simp only [invAndLd, ← e, hc x hx, bind_ok, h1, h3]; rfl,
          by simpa only [den] using h2, by simpa only [den, ndimsIn] using h4⟩
  | chain bs, s, hw, hf, hn => by
      simp only [WF] at hw
      simp only [Fits] at hf
      simp only [ndimsIn] at hn
      have e := ndims_eq_list bs hw.2.1 hw.2.2
      have r := chainRefines bs s hw.2.1 hw.2.2 hf (by intro _; omega)
      have hfl : ∀ x : Arr, x.shape = s → ∃ y l, (chain bs).fwdAndLd x = .ok (y, l) ∧
          Elem s (fun i => (denAll bs i).F) x y ∧
          Ld s (ndimsInLast bs) (fun i => (denAll bs i).L) x l := by
        intro x hx
        simpa only [fwdAndLd, e] using r.fwdLd hw.1 x hx
      have hil : ∀ x : Arr, x.shape = s → ∃ y l, (chain bs).invAndLd x = .ok (y, l) ∧
          Elem s (fun i => (denAll bs i).G) x y ∧
          Ld s (ndimsInLast bs) (fun i => (denAll bs i).M) x l := by
        intro x hx
        match bs, hw, hf, hn, e with
        | b :: bs, hw, hf, hn, e =>
          simp only [WFAll] at hw
          simp only [FitsAll] at hf
          have rb := refines b s hw.2.2.1 hf.1 (by
            rw [ndims_eq b hw.2.2.1]; simp only [ndimsOutHead] at e; omega)
          have ha : adjacentOk bs = true ∧ (bs ≠ [] → b.ndimsIn = ndimsOutHead bs) := by
            rcases bs with _ | ⟨c, cs⟩
            · simp [adjacentOk]
            · have := hw.2.1
              simp only [adjacentOk, Bool.and_eq_true, beq_iff_eq] at this
              exact ⟨this.2, fun _ => by simp only [ndimsOutHead]; exact this.1⟩
          have rbs := chainRefines bs s ha.1 hw.2.2.2 hf.2 (by
            intro h; rw [← ha.2 h]
            rw [ndims_eq b hw.2.2.1]; simp only [ndimsOutHead] at e; omega)
          obtain ⟨y, l, h1, h2, h3⟩ := rb.invLd x hx
          obtain ⟨z, l', h4, h5, h6⟩ := rbs.invLoop b.ndimsIn ha.2 _ _ x y l hx h2 h3
          refine ⟨z, l', by simp only [invAndLd, h1, bind_ok, h4], ?_, ?_⟩
          · simpa only [denAll, SB.comp] using h5
          · have : ndimsInLast (b :: bs) = b.ndimsIn := by
              rw [e]; simp only [ndimsOutHead]; exact (ndims_eq b hw.2.2.1).symm
            rw [this]
            simpa only [denAll, SB.comp] using h6
      refine ⟨fun x hx => ?_, fun x hx => ?_, fun x hx => ?_, fun x hx => ?_, fun x hx => ?_,
        fun x hx => ?_⟩
      · simpa only [forward, den] using r.fwd x hx
      · simpa only [Bij.inv, den] using r.inv x hx
      · obtain ⟨y, l, h1, _, h3⟩ := hfl x hx
        exact ⟨l, by simp only [fldj, h1, bind_ok]; rfl, by simpa only [den, ndimsIn] using h3⟩
      · obtain ⟨y, l, h1, _, h3⟩ := hil x hx
        exact ⟨l, by simp only [ildj, h1, bind_ok]; rfl, by simpa only [den, ndimsIn] using h3⟩
      · simpa only [den, ndimsIn] using hfl x hx
      · simpa only [den, ndimsIn] using hil x hx
theorem chainRefines : ∀ (bs : List Bij) (s : List ℕ), adjacentOk bs = true → WFAll bs →
    FitsAll bs s → (bs ≠ [] → ndimsOutHead bs ≤ s.length) → ChainRefines bs s
  | [], s, _, _, _, _ => by
      refine ⟨fun x hx => ?_, fun x hx => ?_, fun h => absurd rfl h, ?_⟩
      · exact ⟨x, by simp only [chainForward], hx, fun i _ => by simp only [denAll, SB.id]⟩
      · exact ⟨x, by simp only [chainInv], hx, fun i _ => by simp only [denAll, SB.id]⟩
      · intro nd _ K M0 w y l hw h1 h2
        refine ⟨y, l, by simp only [chainInvLoop], ?_, ?_⟩
        · simpa only [denAll, SB.id] using h1
        · simpa only [denAll, SB.id, add_zero] using h2
  | b :: bs, s, ha, hw, hf, hn => by
      simp only [WFAll] at hw
      simp only [FitsAll] at hf
      have hn' := hn (by simp)
      simp only [ndimsOutHead] at hn'
      have eb := ndims_eq b hw.1
      have ha' : adjacentOk bs = true ∧ (bs ≠ [] → b.ndimsIn = ndimsOutHead bs) := by
        rcases bs with _ | ⟨c, cs⟩
        · simp [adjacentOk]
        · simp only [adjacentOk, Bool.and_eq_true, beq_iff_eq] at ha
          exact ⟨ha.2, fun _ => by simp only [ndimsOutHead]; exact ha.1⟩
      have rb := refines b s hw.1 hf.1 (by omega)
      have rbs := chainRefines bs s ha'.1 hw.2 hf.2 (by intro h; rw [← ha'.2 h]; omega)
      refine ⟨fun x hx => ?_, fun x hx => ?_, fun _ x hx => ?_, ?_⟩
      · obtain ⟨y, h1, h2⟩ := rbs.fwd x hx
        obtain ⟨z, h3, h4⟩ := rb.fwd y h2.1
        exact ⟨z, by simp only [chainForward, h1, bind_ok, h3],
          by simpa only [denAll, SB.comp] using h2.comp h4⟩
      · obtain ⟨y, h1, h2⟩ := rb.inv x hx
        obtain ⟨z, h3, h4⟩ := rbs.inv y h2.1
        exact ⟨z, by simp only [chainInv, h1, bind_ok, h3],
          by simpa only [denAll, SB.comp] using h2.comp h4⟩
      · match bs, ha', rbs with
        | [], _, _ =>
          obtain ⟨y, l, h1, h2, h3⟩ := rb.fwdLd x hx
          refine ⟨y, l, by simp only [chainFwdAndLd, h1], ?_, ?_⟩
          · simpa only [denAll, SB.comp, SB.id] using h2
          · simpa only [denAll, SB.comp, SB.id, zero_add, ndimsOutHead, ← eb] using h3
        | c :: cs, ha', rbs =>
          obtain ⟨y, l, h1, h2, h3⟩ := rbs.fwdLd (by simp) x hx
          obtain ⟨z, m, h4, h5, h6⟩ := rb.fwdLd y h2.1
          have e2 := ha'.2 (by simp)
          rw [← e2] at h3
          obtain ⟨r, h7, h8⟩ := h3.add h2 h6
          refine ⟨z, r, by simp only [chainFwdAndLd, h1, bind_ok, h4, h7]; rfl, ?_, ?_⟩
          · simpa only [denAll, SB.comp] using h2.comp h5
          · simpa only [denAll, SB.comp, ndimsOutHead, ← eb] using h8
      · intro nd hnd K M0 w y l hws h1 h2
        have e3 := hnd (by simp)
        simp only [ndimsOutHead] at e3
        obtain ⟨z, m, h4, h5, h6⟩ := rb.invLd y h1.1
        rw [eb, ← e3] at h6
        obtain ⟨r, h7, h8⟩ := h2.add h1 h6
        obtain ⟨x, l', h9, h10, h11⟩ := rbs.invLoop nd (by
          intro h; rw [← ha'.2 h]; omega) _ _ w z r hws (h1.comp h5) h8
        refine ⟨x, l', by simp only [chainInvLoop, h4, bind_ok, h7, h9], ?_, ?_⟩
        · simpa only [denAll, SB.comp] using h10
        · simpa only [denAll, SB.comp, add_assoc] using h11
end

/-! ### Constructed objects are well formed -/

theorem wfAll_of_mem : ∀ (bs : List Bij), (∀ c ∈ bs, c.WF) → WFAll bs
  | [], _ => by simp only [WFAll]
  | b :: bs, h => by
      simp only [WFAll]
      exact ⟨h b (by simp), wfAll_of_mem bs (fun c hc => h c (by simp [hc]))⟩

theorem mkScalarAffine_wf {oneId zeroId a1 a2 : ℕ} {sh : Ref} {sc ls : Option Ref} {b : Bij}
    (h : mkScalarAffine oneId zeroId a1 a2 sh sc ls = .ok b) : b.WF := by
  unfold mkScalarAffine at h
  split at h
  · cases h
    simp [WF, Arr.scalar]
  · split at h
    · cases h
    · cases h
      simp [WF, Arr.map]
  · split at h
    · cases h
    · cases h
      simp [WF, Arr.map, Real.exp_neg]
  · cases h

theorem Built.wf {b : Bij} (h : Built b) : b.WF := by
  induction h with
  | scalarAffine h => exact mkScalarAffine_wf h
  | shift s => simp only [WF]
  | tanh => simp only [WF]
  | sigmoid => simp only [WF]
  | gumbelCDF => simp only [WF]
  | user u h =>
    simp only [WF]
    intro hj
    by_contra hl
    simp [Meta.init, hj, hl] at h
  | chain h hb ih =>
    unfold mkChain at h
    split at h
    · cases h
    · split at h
      · cases h
        simp only [WF]
        exact ⟨by rintro rfl; simp at *, by assumption, wfAll_of_mem _ ih⟩
      · cases h
  | inverse hb ih => simpa only [WF] using ih
  | block h hb ih =>
    unfold mkBlock at h
    split at h
    · cases h
    · cases h
      simpa only [WF] using ih

/-! ### Scalar laws -/

/-- `G` undoes `F` at `v` and the log-dets cancel. -/
def LawF (a : SB) (v : ℝ) : Prop := a.G (a.F v) = v ∧ a.M (a.F v) = -a.L v
def LawG (a : SB) (v : ℝ) : Prop := a.F (a.G v) = v ∧ a.L (a.G v) = -a.M v
/-- `L` is the log-derivative of `F` at `v`. -/
def DerF (a : SB) (v : ℝ) : Prop := ∃ d, d ≠ 0 ∧ HasDerivAt a.F d v ∧ a.L v = Real.log |d|
def DerG (a : SB) (v : ℝ) : Prop := ∃ d, d ≠ 0 ∧ HasDerivAt a.G d v ∧ a.M v = Real.log |d|

theorem DerF.comp {a b : SB} {v : ℝ} (hb : DerF b v) (ha : DerF a (b.F v)) : DerF (a.comp b) v := by
  obtain ⟨d, hd, h1, h2⟩ := hb
  obtain ⟨e, he, h3, h4⟩ := ha
  refine ⟨e * d, mul_ne_zero he hd, ?_, ?_⟩
  · exact HasDerivAt.comp (h₂ := a.F) (h := b.F) v h3 h1
  · simp only [SB.comp, h2, h4]
    rw [abs_mul, Real.log_mul (abs_ne_zero.2 he) (abs_ne_zero.2 hd)]; ring

theorem DerG.comp {a b : SB} {v : ℝ} (ha : DerG a v) (hb : DerG b (a.G v)) : DerG (a.comp b) v := by
  obtain ⟨d, hd, h1, h2⟩ := hb
  obtain ⟨e, he, h3, h4⟩ := ha
  refine ⟨d * e, mul_ne_zero hd he, ?_, ?_⟩
  · exact HasDerivAt.comp (h₂ := b.G) (h := a.G) v h1 h3
  · simp only [SB.comp, h2, h4]
    rw [abs_mul, Real.log_mul (abs_ne_zero.2 hd) (abs_ne_zero.2 he)]; ring

theorem LawF.comp {a b : SB} {v : ℝ} (hb : LawF b v) (ha : LawF a (b.F v)) : LawF (a.comp b) v := by
  refine ⟨by simp only [SB.comp, ha.1, hb.1], ?_⟩
  simp only [SB.comp, ha.1, ha.2, hb.2]; ring

theorem LawG.comp {a b : SB} {v : ℝ} (ha : LawG a v) (hb : LawG b (a.G v)) : LawG (a.comp b) v := by
  refine ⟨by simp only [SB.comp, ha.1, hb.1], ?_⟩
  simp only [SB.comp, hb.1, ha.2, hb.2]; ring

/-- A scalar predicate scheme that holds for every class and is closed under composition. -/
structure Scheme (P Q : UserScalar → ℝ → Prop) (LF LG : SB → ℝ → Prop) : Prop where
  aff : ∀ sc sh is ls : ℝ, sc ≠ 0 → is = 1 / sc → ls = Real.log |sc| → ∀ v,
    LF ⟨fun x => sc * x + sh, fun y => is * (y - sh), fun _ => ls, fun _ => -ls⟩ v ∧
    LG ⟨fun x => sc * x + sh, fun y => is * (y - sh), fun _ => ls, fun _ => -ls⟩ v
  shift : ∀ s v : ℝ, LF ⟨fun x => x + s, fun y => y - s, fun _ => 0, fun _ => 0⟩ v ∧
    LG ⟨fun x => x + s, fun y => y - s, fun _ => 0, fun _ => 0⟩ v
  tanhF : ∀ v, LF (den Bij.tanh []) v
  tanhG : ∀ v, -1 < v → v < 1 → LG (den Bij.tanh []) v
  sigF : ∀ v, -9 < v → LF (den Bij.sigmoid []) v
  sigG : ∀ v, 1 / (1 + Real.exp 9) < v → v < 1 → LG (den Bij.sigmoid []) v
  gumF : ∀ v, LF (den Bij.gumbelCDF []) v
  gumG : ∀ v, 0 < v → v < 1 → LG (den Bij.gumbelCDF []) v
  userF : ∀ u v, P u v → LF (den (Bij.user u) []) v
  userG : ∀ u v, Q u v → LG (den (Bij.user u) []) v
  idF : ∀ v, LF SB.id v
  idG : ∀ v, LG SB.id v
  compF : ∀ a b v, LF b v → LF a (b.F v) → LF (a.comp b) v
  compG : ∀ a b v, LG a v → LG b (a.G v) → LG (a.comp b) v
  swapF : ∀ a v, LG a v → LF a.swap v
  swapG : ∀ a v, LF a v → LG a.swap v

section
variable {P Q : UserScalar → ℝ → Prop} {LF LG : SB → ℝ → Prop} (S : Scheme P Q LF LG)
include S

mutual
theorem scheme_den : ∀ (b : Bij) (s : List ℕ), b.WF → b.Fits s → b.ndimsIn ≤ s.length →
    ∀ x : Arr, x.shape = s → (b.Dom P Q x → ∀ i, InRange s i → LF (b.den i) (x.data i)) ∧
      (b.Cod P Q x → ∀ i, InRange s i → LG (b.den i) (x.data i))
  | scalarAffine sh sc is ls, s, hw, hf, _, x, hx => by
      simp only [WF] at hw
      refine ⟨fun hd i _ => ?_, fun hd i _ => ?_⟩ <;> simp only [Dom, Cod] at hd
      · simp only [den]
        refine (S.aff _ _ _ _ (hd _) ?_ ?_ _).1
        · simp only [Ref.at, hw.2.2.1, hw.1]
        · simp only [Ref.at, hw.2.2.2, hw.2.1]
      · simp only [den]
        refine (S.aff _ _ _ _ (hd _) ?_ ?_ _).2
        · simp only [Ref.at, hw.2.2.1, hw.1]
        · simp only [Ref.at, hw.2.2.2, hw.2.1]
  | Bij.shift p, s, _, _, _, x, _ => by
      refine ⟨fun _ i _ => ?_, fun _ i _ => ?_⟩ <;> simp only [den]
      · exact (S.shift _ _).1
      · exact (S.shift _ _).2
  | Bij.tanh, s, _, _, _, x, hx => by
      refine ⟨fun _ i _ => ?_, fun hd i hi => ?_⟩
      · simpa only [den] using S.tanhF (x.data i)
      · simp only [Cod, AllEntries] at hd
        have := hd i (hx ▸ hi)
        simpa only [den] using S.tanhG (x.data i) this.1 this.2
  | Bij.sigmoid, s, _, _, _, x, hx => by
      refine ⟨fun hd i hi => ?_, fun hd i hi => ?_⟩
      · simp only [Dom, AllEntries] at hd
        simpa only [den] using S.sigF (x.data i) (hd i (hx ▸ hi))
      · simp only [Cod, AllEntries] at hd
        have := hd i (hx ▸ hi)
        simpa only [den] using S.sigG (x.data i) this.1 this.2
  | Bij.gumbelCDF, s, _, _, _, x, hx => by
      refine ⟨fun _ i _ => ?_, fun hd i hi => ?_⟩
      · simpa only [den] using S.gumF (x.data i)
      · simp only [Cod, AllEntries] at hd
        have := hd i (hx ▸ hi)
        simpa only [den] using S.gumG (x.data i) this.1 this.2
  | Bij.user u, s, _, _, _, x, hx => by
      refine ⟨fun hd i hi => ?_, fun hd i hi => ?_⟩
      · simp only [Dom, AllEntries] at hd
        simpa only [den] using S.userF u (x.data i) (hd i (hx ▸ hi))
      · simp only [Cod, AllEntries] at hd
        simpa only [den] using S.userG u (x.data i) (hd i (hx ▸ hi))
  | Bij.inverse b, s, hw, hf, hn, x, hx => by
      simp only [WF] at hw
      simp only [Fits] at hf
      simp only [ndimsIn] at hn
      have e := ndims_eq b hw
      have r := scheme_den b s hw hf (by omega) x hx
      refine ⟨fun hd i hi => ?_, fun hd i hi => ?_⟩
      · simp only [Dom] at hd
        simpa only [den] using S.swapF _ _ (r.2 hd i hi)
      · simp only [Cod] at hd
        simpa only [den] using S.swapG _ _ (r.1 hd i hi)
  | Bij.block b n, s, hw, hf, hn, x, hx => by
      simp only [WF] at hw
      simp only [Fits] at hf
      simp only [ndimsIn] at hn
      have r := scheme_den b s hw hf (by omega) x hx
      refine ⟨fun hd i hi => ?_, fun hd i hi => ?_⟩
      · simp only [Dom] at hd
        simpa only [den] using r.1 hd i hi
      · simp only [Cod] at hd
        simpa only [den] using r.2 hd i hi
  | Bij.chain bs, s, hw, hf, hn, x, hx => by
      simp only [WF] at hw
      simp only [Fits] at hf
      simp only [ndimsIn] at hn
      have e := ndims_eq_list bs hw.2.1 hw.2.2
      have r := scheme_denAll bs s hw.2.1 hw.2.2 hf (by intro _; omega) x hx
      refine ⟨fun hd i hi => ?_, fun hd i hi => ?_⟩
      · simp only [Dom] at hd
        simpa only [den] using r.1 hd i hi
      · simp only [Cod] at hd
        simpa only [den] using r.2 hd i hi
theorem scheme_denAll : ∀ (bs : List Bij) (s : List ℕ), adjacentOk bs = true → WFAll bs →
    FitsAll bs s → (bs ≠ [] → ndimsOutHead bs ≤ s.length) →
    ∀ x : Arr, x.shape = s → (DomAll P Q bs x → ∀ i, InRange s i → LF (denAll bs i) (x.data i)) ∧
      (CodAll P Q bs x → ∀ i, InRange s i → LG (denAll bs i) (x.data i))
  | [], s, _, _, _, _, x, hx => by
      refine ⟨fun _ i _ => ?_, fun _ i _ => ?_⟩ <;> simp only [denAll]
      · exact S.idF _
      · exact S.idG _
  | b :: bs, s, ha, hw, hf, hn, x, hx => by
      simp only [WFAll] at hw
      simp only [FitsAll] at hf
      have hn' := hn (by simp)
      simp only [ndimsOutHead] at hn'
      have eb := ndims_eq b hw.1
      have ha' : adjacentOk bs = true ∧ (bs ≠ [] → b.ndimsIn = ndimsOutHead bs) := by
        rcases bs with _ | ⟨c, cs⟩
        · simp [adjacentOk]
        · simp only [adjacentOk, Bool.and_eq_true, beq_iff_eq] at ha
          exact ⟨ha.2, fun _ => by simp only [ndimsOutHead]; exact ha.1⟩
      have rb := refines b s hw.1 hf.1 (by omega)
      have rbs := chainRefines bs s ha'.1 hw.2 hf.2 (by intro h; rw [← ha'.2 h]; omega)
      refine ⟨fun hd i hi => ?_, fun hd i hi => ?_⟩
      · simp only [DomAll] at hd
        obtain ⟨y, h1, h2⟩ := rbs.fwd x hx
        have := (scheme_den b s hw.1 hf.1 (by omega) y h2.1).1 (hd.2 y h1) i hi
        rw [h2.2 i hi] at this
        have h3 := (scheme_denAll bs s ha'.1 hw.2 hf.2 (by intro h; rw [← ha'.2 h]; omega) x hx).1
          hd.1 i hi
        simpa only [denAll] using S.compF _ _ _ h3 this
      · simp only [CodAll] at hd
        obtain ⟨y, h1, h2⟩ := rb.inv x hx
        have := (scheme_den b s hw.1 hf.1 (by omega) x hx).2 hd.1 i hi
        have h3 := (scheme_denAll bs s ha'.1 hw.2 hf.2 (by intro h; rw [← ha'.2 h]; omega) y h2.1).2
          (hd.2 y h1) i hi
        rw [h2.2 i hi] at h3
        simpa only [denAll] using S.compG _ _ _ this h3
end
end

theorem sig9_pos : (0:ℝ) < 1 / (1 + Real.exp 9) := by positivity

theorem sig9_lt {v : ℝ} (h : 1 / (1 + Real.exp 9) < v) (h1 : v < 1) : -9 < sigmoidInv v := by
  have h0 : 0 < v := sig9_pos.trans h
  have := sigmoid_sigmoidInv h0 h1
  rw [← this] at h
  have e : (1 / (1 + Real.exp 9)) = Real.sigmoid (-9) := by simp [Real.sigmoid_def]
  rw [e, Real.sigmoid_lt_iff] at h
  exact h

theorem lawScheme : Scheme UserInvFwd UserFwdInv LawF LawG where
  aff := by
    intro sc sh is ls h0 h1 h2 v
    subst h1 h2
    refine ⟨⟨?_, rfl⟩, ⟨?_, by simp⟩⟩
    · field_simp; ring
    · field_simp; ring
  shift := by intro s v; simp [LawF, LawG]
  tanhF := by
    intro v
    simp only [LawF, den, Real.artanh_tanh, and_self]
  tanhG := by
    intro v h1 h2
    simp only [LawG, den, neg_neg, and_true]
    exact Real.tanh_artanh ⟨h1, h2⟩
  sigF := by
    intro v h
    simp only [LawF, den, moreStableSigmoid_of_ge h.le, sigmoidInv_sigmoid, and_self]
  sigG := by
    intro v h1 h2
    simp only [LawG, den, neg_neg, and_true]
    rw [moreStableSigmoid_of_ge (sig9_lt h1 h2).le, sigmoid_sigmoidInv (sig9_pos.trans h1) h2]
  gumF := by
    intro v
    simp only [LawF, den, gumbelInv_fwd, gumbelIldj_fwd, and_self]
  gumG := by
    intro v h1 h2
    simp only [LawG, den, gumbel_fwd_inv h1 h2, gumbelFldj_inv h1 h2, and_self]
  userF := by intro u v h; simpa only [LawF, den, UserInvFwd] using h
  userG := by intro u v h; simpa only [LawG, den, UserFwdInv] using h
  idF := by intro v; simp [LawF, SB.id]
  idG := by intro v; simp [LawG, SB.id]
  compF := fun _ _ _ h1 h2 => h1.comp h2
  compG := fun _ _ _ h1 h2 => h1.comp h2
  swapF := fun _ _ h => h
  swapG := fun _ _ h => h

theorem derScheme : Scheme UserFldjOk UserIldjOk DerF DerG where
  aff := by
    intro sc sh is ls h0 h1 h2 v
    subst h1 h2
    refine ⟨⟨sc, h0, ?_, rfl⟩, ⟨1 / sc, by simpa using h0, ?_, ?_⟩⟩
    · simpa using ((hasDerivAt_id v).const_mul sc).add_const sh
    · simpa using ((hasDerivAt_id v).sub_const sh).const_mul (1 / sc)
    · simp [abs_inv]
  shift := by
    intro s v
    refine ⟨⟨1, one_ne_zero, ?_, by simp⟩, ⟨1, one_ne_zero, ?_, by simp⟩⟩
    · simpa using (hasDerivAt_id v).add_const s
    · simpa using (hasDerivAt_id v).sub_const s
  tanhF := by
    intro v
    simp only [DerF, den]
    have hc := Real.cosh_pos v
    exact ⟨_, by positivity, hasDerivAt_tanh v, by rw [tanhFldj_eq, abs_of_pos (by positivity)]⟩
  tanhG := by
    intro v h1 h2
    simp only [DerG, den]
    have hp : 0 < 1 - v ^ 2 := by nlinarith
    refine ⟨_, by positivity, hasDerivAt_artanh h1 h2, ?_⟩
    rw [tanhFldj_eq, Real.cosh_artanh ⟨h1, h2⟩, abs_of_pos (by positivity), ← Real.log_inv]
    congr 1
    rw [div_pow, Real.sq_sqrt hp.le]
    field_simp
  sigF := by
    intro v h
    simp only [DerF, den]
    have h0 := Real.sigmoid_pos v
    have h1 := Real.sigmoid_lt_one v
    have hp : 0 < Real.sigmoid v * (1 - Real.sigmoid v) := mul_pos h0 (by linarith)
    exact ⟨_, hp.ne', hasDerivAt_moreStableSigmoid h, by rw [sigmoidFldj_eq, abs_of_pos hp]⟩
  sigG := by
    intro v h1 h2
    simp only [DerG, den]
    have h0 := sig9_pos.trans h1
    have hp : 0 < v * (1 - v) := mul_pos h0 (by linarith)
    refine ⟨_, by positivity, hasDerivAt_sigmoidInv h0 h2, ?_⟩
    rw [sigmoidFldj_eq, sigmoid_sigmoidInv h0 h2, abs_of_pos (by positivity), one_div, Real.log_inv]
  gumF := by
    intro v
    simp only [DerF, den]
    exact ⟨_, by positivity, hasDerivAt_gumbelFwd v,
      by rw [gumbelFldj_eq, abs_of_pos (by positivity)]⟩
  gumG := by
    intro v h1 h2
    simp only [DerG, den]
    have hl : 0 < -Real.log v := by linarith [Real.log_neg h1 h2]
    have hp : 0 < 1 / (v * -Real.log v) := by positivity
    exact ⟨_, hp.ne', hasDerivAt_gumbelInv h1 h2, by rw [gumbelIldj_eq h1 h2, abs_of_pos hp]⟩
  userF := by intro u v h; simpa only [DerF, den, UserFldjOk] using h
  userG := by intro u v h; simpa only [DerG, den, UserIldjOk] using h
  idF := by intro v; exact ⟨1, one_ne_zero, hasDerivAt_id v, by simp [SB.id]⟩
  idG := by intro v; exact ⟨1, one_ne_zero, hasDerivAt_id v, by simp [SB.id]⟩
  compF := fun _ _ _ h1 h2 => h1.comp h2
  compG := fun _ _ _ h1 h2 => h1.comp h2
  swapF := fun _ _ h => h
  swapG := fun _ _ h => h

/-! ### Constant flags -/

mutual
theorem flag_imp : ∀ b : Bij, b.WF → b.constJac = true → b.constLogDet = true
  | scalarAffine .., _, _ => by simp only [constLogDet]
  | Bij.shift _, _, _ => by simp only [constLogDet]
  | Bij.tanh, _, h => by simp [constJac] at h
  | Bij.sigmoid, _, h => by simp [constJac] at h
  | Bij.gumbelCDF, _, h => by simp [constJac] at h
  | Bij.user u, hw, h => by
      simp only [WF] at hw; simp only [constJac] at h; simpa only [constLogDet] using hw h
  | Bij.chain bs, hw, h => by
      simp only [WF] at hw; simp only [constJac] at h
      simpa only [constLogDet] using flag_imp_all bs hw.2.2 h
  | Bij.inverse b, hw, h => by
      simp only [WF] at hw; simp only [constJac] at h; simpa only [constLogDet] using flag_imp b hw h
  | Bij.block b _, hw, h => by
      simp only [WF] at hw; simp only [constJac] at h; simpa only [constLogDet] using flag_imp b hw h
theorem flag_imp_all : ∀ bs : List Bij, WFAll bs → constJacAll bs = true → constLogDetAll bs = true
  | [], _, _ => by simp only [constLogDetAll]
  | b :: bs, hw, h => by
      simp only [WFAll] at hw
      simp only [constJacAll, Bool.and_eq_true] at h
      simp only [constLogDetAll, Bool.and_eq_true]
      exact ⟨flag_imp b hw.1 h.1, flag_imp_all bs hw.2 h.2⟩
end

mutual
theorem const_ld : ∀ b : Bij, b.Honest → b.constLogDet = true → ∀ i,
    (∀ v w, (b.den i).L v = (b.den i).L w) ∧ (∀ v w, (b.den i).M v = (b.den i).M w)
  | scalarAffine .., _, _, _ => by simp [den]
  | Bij.shift _, _, _, _ => by simp [den]
  | Bij.tanh, _, h, _ => by simp [constLogDet] at h
  | Bij.sigmoid, _, h, _ => by simp [constLogDet] at h
  | Bij.gumbelCDF, _, h, _ => by simp [constLogDet] at h
  | Bij.user u, hh, h, _ => by
      simp only [Honest] at hh; simp only [constLogDet] at h
      simpa only [den] using hh.1 h
  | Bij.chain bs, hh, h, i => by
      simp only [Honest] at hh; simp only [constLogDet] at h
      simpa only [den] using const_ld_all bs hh h i
  | Bij.inverse b, hh, h, i => by
      simp only [Honest] at hh; simp only [constLogDet] at h
      have := const_ld b hh h i
      simpa only [den, SB.swap] using And.intro this.2 this.1
  | Bij.block b _, hh, h, i => by
      simp only [Honest] at hh; simp only [constLogDet] at h
      simpa only [den] using const_ld b hh h i
theorem const_ld_all : ∀ bs : List Bij, HonestAll bs → constLogDetAll bs = true → ∀ i,
    (∀ v w, (denAll bs i).L v = (denAll bs i).L w) ∧ (∀ v w, (denAll bs i).M v = (denAll bs i).M w)
  | [], _, _, _ => by simp [denAll, SB.id]
  | b :: bs, hh, h, i => by
      simp only [HonestAll] at hh
      simp only [constLogDetAll, Bool.and_eq_true] at h
      have h1 := const_ld b hh.1 h.1 i
      have h2 := const_ld_all bs hh.2 h.2 i
      simp only [denAll, SB.comp]
      exact ⟨fun v w => by rw [h2.1 v w, h1.1 _ ((denAll bs i).F w)], fun v w => by rw [h1.2 v w, h2.2 _ ((b.den i).G w)]⟩
end

theorem affine_comp {f g : ℝ → ℝ} (hf : ∃ a b, ∀ v, f v = a * v + b) (hg : ∃ a b, ∀ v, g v = a * v + b) :
    ∃ a b, ∀ v, f (g v) = a * v + b := by
  obtain ⟨a, b, h1⟩ := hf
  obtain ⟨c, d, h2⟩ := hg
  exact ⟨a * c, a * d + b, fun v => by rw [h2, h1]; ring⟩

mutual
theorem const_jac : ∀ b : Bij, b.Honest → b.constJac = true → ∀ i,
    (∃ p q, ∀ v, (b.den i).F v = p * v + q) ∧ (∃ p q, ∀ v, (b.den i).G v = p * v + q)
  | scalarAffine _ _ _ _, _, _, _ => by
      simp only [den]
      exact ⟨⟨_, _, fun _ => rfl⟩, ⟨_, _, fun v => by rw [mul_sub, sub_eq_add_neg]⟩⟩
  | Bij.shift _, _, _, _ => by
      simp only [den]
      exact ⟨⟨1, _, fun _ => by rw [one_mul]⟩, ⟨1, _, fun v => by rw [one_mul, sub_eq_add_neg]⟩⟩
  | Bij.tanh, _, h, _ => by simp [constJac] at h
  | Bij.sigmoid, _, h, _ => by simp [constJac] at h
  | Bij.gumbelCDF, _, h, _ => by simp [constJac] at h
  | Bij.user u, hh, h, _ => by
      simp only [Honest] at hh; simp only [constJac] at h
      simpa only [den] using hh.2 h
  | Bij.chain bs, hh, h, i => by
      simp only [Honest] at hh; simp only [constJac] at h
      simpa only [den] using const_jac_all bs hh h i
  | Bij.inverse b, hh, h, i => by
      simp only [Honest] at hh; simp only [constJac] at h
      have := const_jac b hh h i
      simpa only [den, SB.swap] using And.intro this.2 this.1
  | Bij.block b _, hh, h, i => by
      simp only [Honest] at hh; simp only [constJac] at h
      simpa only [den] using const_jac b hh h i
theorem const_jac_all : ∀ bs : List Bij, HonestAll bs → constJacAll bs = true → ∀ i,
    (∃ p q, ∀ v, (denAll bs i).F v = p * v + q) ∧ (∃ p q, ∀ v, (denAll bs i).G v = p * v + q)
  | [], _, _, _ => by
      simp only [denAll, SB.id]
      exact ⟨⟨1, 0, fun _ => by ring⟩, ⟨1, 0, fun _ => by ring⟩⟩
  | b :: bs, hh, h, i => by
      simp only [HonestAll] at hh
      simp only [constJacAll, Bool.and_eq_true] at h
      have h1 := const_jac b hh.1 h.1 i
      have h2 := const_jac_all bs hh.2 h.2 i
      simp only [denAll, SB.comp]
      exact ⟨affine_comp h1.1 h2.1, affine_comp h2.2 h1.2⟩
end

/-! ### `same_as` -/

theorem Arr.ext' {a b : Arr} (h1 : a.shape = b.shape) (h2 : ∀ i, a.data i = b.data i) : a = b := by
  cases a; cases b; simp only [Arr.mk.injEq] at *; exact ⟨h1, funext h2⟩

/-- Extensional equality of the four combined methods. -/
def SameMeth (f g : Bij) : Prop :=
  (∀ x, f.forward x = g.forward x) ∧ (∀ x, f.inv x = g.inv x) ∧
  (∀ x, f.fwdAndLd x = g.fwdAndLd x) ∧ (∀ x, f.invAndLd x = g.invAndLd x) ∧
  f.ndimsIn = g.ndimsIn ∧ f.ndimsOut = g.ndimsOut ∧
  (∀ i, f.den i = g.den i)

theorem chain_singleton_same (b : Bij) : SameMeth (chain [b]) b := by
  refine ⟨fun x => ?_, fun x => ?_, fun x => ?_, fun x => ?_, ?_, ?_, ?_⟩
  · simp only [forward, chainForward, bind_ok]
  · simp only [Bij.inv, chainInv]
    cases b.inv x <;> rfl
  · simp only [fwdAndLd, chainFwdAndLd]
  · simp only [invAndLd, chainInvLoop]
    cases b.invAndLd x <;> rfl
  · simp only [ndimsIn, ndimsInLast]
  · simp only [ndimsOut, ndimsOutHead]
  · intro i
    simp [den, denAll, SB.comp, SB.id]

theorem SameMeth.trans {f g h : Bij} (a : SameMeth f g) (b : SameMeth g h) : SameMeth f h :=
  ⟨fun x => (a.1 x).trans (b.1 x), fun x => (a.2.1 x).trans (b.2.1 x),
   fun x => (a.2.2.1 x).trans (b.2.2.1 x), fun x => (a.2.2.2.1 x).trans (b.2.2.2.1 x),
   a.2.2.2.2.1.trans b.2.2.2.2.1, a.2.2.2.2.2.1.trans b.2.2.2.2.2.1,
   fun i => (a.2.2.2.2.2.2 i).trans (b.2.2.2.2.2.2 i)⟩

/-- Extensional equality of the chain loops. -/
def SameLoop (bs cs : List Bij) : Prop :=
  (∀ x, chainForward bs x = chainForward cs x) ∧ (∀ x, chainInv bs x = chainInv cs x) ∧
  (∀ x, chainFwdAndLd bs x = chainFwdAndLd cs x) ∧
  (∀ x, (chain bs).invAndLd x = (chain cs).invAndLd x) ∧
  (∀ x l, chainInvLoop bs x l = chainInvLoop cs x l) ∧
  ndimsInLast bs = ndimsInLast cs ∧ ndimsOutHead bs = ndimsOutHead cs ∧
  (∀ i, denAll bs i = denAll cs i)

mutual
theorem sameAs_sound : ∀ (f g : Bij), f.WF → g.WF → Coherent f g → f.sameAs g = true → SameMeth f g
  | scalarAffine a b c d, g, hf, hg, hc, h => by
      cases g with
      | scalarAffine a' b' c' d' =>
        simp only [sameAs, Bool.and_eq_true, beq_iff_eq] at h
        simp only [WF] at hf hg
        simp only [Coherent, refs] at hc
        have ha := hc a (by simp) a' (by simp) h.1.1
        have hb := hc b (by simp) b' (by simp) h.1.2
        have hd := hc d (by simp) d' (by simp) h.2
        have hcc : c.val = c'.val := Arr.ext' (by rw [hf.1, hg.1, hb])
          (fun i => by rw [hf.2.2.1, hg.2.2.1, hb])
        refine ⟨fun x => ?_, fun x => ?_, fun x => ?_, fun x => ?_, ?_, ?_, ?_⟩
        · simp only [forward, saForward, ha, hb]
        · simp only [Bij.inv, saInverse, ha, hb, hcc]
        · simp only [fwdAndLd, saForward, saFldj, ha, hb, hd]
        · simp only [invAndLd, saInverse, saIldj, ha, hb, hcc, hd]
        · simp only [ndimsIn]
        · simp only [ndimsOut]
        · intro i; simp only [den, Ref.at, ha, hb, hcc, hd]
      | _ => simp [sameAs] at h
  | Bij.shift s, g, hf, hg, hc, h => by
      cases g with
      | shift s' =>
        simp only [sameAs, beq_iff_eq] at h
        simp only [Coherent, refs] at hc
        have ha := hc s (by simp) s' (by simp) h
        refine ⟨fun x => ?_, fun x => ?_, fun x => ?_, fun x => ?_, ?_, ?_, ?_⟩
        · simp only [forward, ha]
        · simp only [Bij.inv, ha]
        · simp only [fwdAndLd, shiftFldj, ha]
        · simp only [invAndLd, shiftFldj, ha]
        · simp only [ndimsIn]
        · simp only [ndimsOut]
        · intro i; simp only [den, Ref.at, ha]
      | _ => simp [sameAs] at h
  | Bij.tanh, g, _, _, _, h => by
      cases g with
      | tanh => exact ⟨fun _ => rfl, fun _ => rfl, fun _ => rfl, fun _ => rfl, rfl, rfl, fun _ => rfl⟩
      | _ => simp [sameAs] at h
  | Bij.sigmoid, g, _, _, _, h => by
      cases g with
      | sigmoid => exact ⟨fun _ => rfl, fun _ => rfl, fun _ => rfl, fun _ => rfl, rfl, rfl, fun _ => rfl⟩
      | _ => simp [sameAs] at h
  | Bij.gumbelCDF, g, _, _, _, h => by
      cases g with
      | gumbelCDF => exact ⟨fun _ => rfl, fun _ => rfl, fun _ => rfl, fun _ => rfl, rfl, rfl, fun _ => rfl⟩
      | _ => simp [sameAs] at h
  | Bij.user u, g, _, _, _, h => by simp [sameAs] at h
  | Bij.inverse b, g, hf, hg, hc, h => by
      cases g with
      | inverse b' =>
        simp only [sameAs] at h
        simp only [WF] at hf hg
        have hc' : Coherent b b' := by simpa only [Coherent, refs] using hc
        have r := sameAs_sound b b' hf hg hc' h
        refine ⟨fun x => ?_, fun x => ?_, fun x => ?_, fun x => ?_, ?_, ?_, ?_⟩
        · simp only [forward, r.2.1]
        · simp only [Bij.inv, r.1]
        · simp only [fwdAndLd, r.2.2.2.1]
        · simp only [invAndLd, r.2.2.1]
        · simp only [ndimsIn, r.2.2.2.2.2.1]
        · simp only [ndimsOut, r.2.2.2.2.1]
        · intro i; simp only [den, r.2.2.2.2.2.2]
      | _ => simp [sameAs] at h
  | Bij.block b n, g, hf, hg, hc, h => by
      cases g with
      | block b' n' =>
        simp only [sameAs, Bool.and_eq_true, beq_iff_eq] at h
        obtain ⟨h, rfl⟩ := h
        simp only [WF] at hf hg
        have hc' : Coherent b b' := by simpa only [Coherent, refs] using hc
        have r := sameAs_sound b b' hf hg hc' h
        refine ⟨fun x => ?_, fun x => ?_, fun x => ?_, fun x => ?_, ?_, ?_, ?_⟩
        · simp only [forward, r.1, r.2.2.2.2.1]
        · simp only [Bij.inv, r.2.1, r.2.2.2.2.2.1]
        · simp only [fwdAndLd, r.2.2.1, r.2.2.2.2.1]
        · simp only [invAndLd, r.2.2.2.1, r.2.2.2.2.2.1]
        · simp only [ndimsIn, r.2.2.2.2.1]
        · simp only [ndimsOut, r.2.2.2.2.2.1]
        · intro i; simp only [den, r.2.2.2.2.2.2]
      | _ => simp [sameAs] at h
  | Bij.chain bs, g, hf, hg, hc, h => by
      simp only [WF] at hf
      by_cases hg' : ∃ cs, g = chain cs
      · obtain ⟨cs, rfl⟩ := hg'
        simp only [sameAs] at h
        split_ifs at h with hl
        simp only [WF] at hg
        have hc' : ∀ r ∈ refsAll bs, ∀ r' ∈ refsAll cs, r.addr = r'.addr → r.val = r'.val := by
          simpa only [Coherent, refs] using hc
        have r := sameAsAll_sound bs cs (by simpa using hl) hf.2.2 hg.2.2 hc' h
        refine ⟨fun x => ?_, fun x => ?_, fun x => ?_, fun x => ?_, ?_, ?_, ?_⟩
        · simp only [forward, r.1]
        · simp only [Bij.inv, r.2.1]
        · simp only [fwdAndLd, r.2.2.1]
        · exact r.2.2.2.1 x
        · simp only [ndimsIn, r.2.2.2.2.2.1]
        · simp only [ndimsOut, r.2.2.2.2.2.2.1]
        · intro i; simp only [den, r.2.2.2.2.2.2.2]
      · match bs, hf, hc, h with
        | [b], hf, hc, h =>
          have h' : b.sameAs g = true := by
            cases g with
            | chain cs => exact absurd ⟨cs, rfl⟩ hg'
            | _ => simpa only [sameAs] using h
          simp only [WFAll, and_true] at hf
          have hc' : Coherent b g := by simpa only [Coherent, refs, refsAll, List.append_nil] using hc
          exact (chain_singleton_same b).trans (sameAs_sound b g hf.2.2 hg hc' h')
        | [], hf, _, _ => exact absurd rfl hf.1
        | _ :: _ :: _, _, _, h =>
          exfalso
          cases g with
          | chain cs => exact absurd ⟨cs, rfl⟩ hg'
          | _ => simp [sameAs] at h
theorem sameAsAll_sound : ∀ (bs cs : List Bij), bs.length = cs.length → WFAll bs → WFAll cs →
    (∀ r ∈ refsAll bs, ∀ r' ∈ refsAll cs, r.addr = r'.addr → r.val = r'.val) →
    sameAsAll bs cs = true → SameLoop bs cs
  | [], [], _, _, _, _, _ =>
      ⟨fun _ => rfl, fun _ => rfl, fun _ => rfl, fun _ => rfl, fun _ _ => rfl, rfl, rfl, fun _ => rfl⟩
  | [], _ :: _, hl, _, _, _, _ => by simp at hl
  | _ :: _, [], hl, _, _, _, _ => by simp at hl
  | b :: bs, c :: cs, hl, hb, hc, hcoh, h => by
      simp only [sameAsAll] at h
      split_ifs at h with h1
      simp only [WFAll] at hb hc
      simp only [refsAll, List.mem_append] at hcoh
      have rb := sameAs_sound b c hb.1 hc.1
        (fun r hr r' hr' => hcoh r (Or.inl hr) r' (Or.inl hr')) (by simpa using h1)
      have rbs := sameAsAll_sound bs cs (by simpa using hl) hb.2 hc.2
        (fun r hr r' hr' => hcoh r (Or.inr hr) r' (Or.inr hr')) h
      refine ⟨fun x => ?_, fun x => ?_, fun x => ?_, fun x => ?_, fun x l => ?_, ?_, ?_, ?_⟩
      · simp only [chainForward, rbs.1, rb.1]
      · simp only [chainInv, rbs.2.1, rb.2.1]
      · match bs, cs, hl, rbs with
        | [], [], _, _ => simp only [chainFwdAndLd, rb.2.2.1]
        | d :: ds, e :: es, _, rbs => simp only [chainFwdAndLd, rb.2.2.1, rbs.2.2.1]
        | [], _ :: _, hl, _ => simp at hl
        | _ :: _, [], hl, _ => simp at hl
      · simp only [invAndLd, rb.2.2.2.1, rbs.2.2.2.2.1]
      · simp only [chainInvLoop, rb.2.2.2.1, rbs.2.2.2.2.1]
      · match bs, cs, hl, rbs with
        | [], [], _, _ => simp only [ndimsInLast, rb.2.2.2.2.1]
        | d :: ds, e :: es, _, rbs => simp only [ndimsInLast]; exact rbs.2.2.2.2.2.1
        | [], _ :: _, hl, _ => simp at hl
        | _ :: _, [], hl, _ => simp at hl
      · simp only [ndimsOutHead, rb.2.2.2.2.2.1]
      · intro i; simp only [denAll, rb.2.2.2.2.2.2, rbs.2.2.2.2.2.2.2]
end

mutual
theorem sameAs_refl : ∀ b : Bij, b.NoUser → b.sameAs b = true
  | scalarAffine .., _ => by simp [sameAs]
  | Bij.shift _, _ => by simp [sameAs]
  | Bij.tanh, _ => by simp [sameAs]
  | Bij.sigmoid, _ => by simp [sameAs]
  | Bij.gumbelCDF, _ => by simp [sameAs]
  | Bij.user _, h => by simp [NoUser] at h
  | Bij.inverse b, h => by simp only [NoUser] at h; simp [sameAs, sameAs_refl b h]
  | Bij.block b _, h => by simp only [NoUser] at h; simp [sameAs, sameAs_refl b h]
  | Bij.chain bs, h => by
      simp only [NoUser] at h; simp [sameAs, sameAsAll_refl bs h]
theorem sameAsAll_refl : ∀ bs : List Bij, NoUserAll bs → sameAsAll bs bs = true
  | [], _ => by simp [sameAsAll]
  | b :: bs, h => by
      simp only [NoUserAll] at h
      simp [sameAsAll, sameAs_refl b h.1, sameAsAll_refl bs h.2]
end

end Bij
end Distrax
