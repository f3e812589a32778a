import Verif.Spec.Jaxpr
import Mathlib.Tactic.FieldSimp
import Mathlib.Tactic.Linarith

namespace Distrax.Jaxpr

variable {P : Type}

theorem write_same (env : Env) (n : ℕ) (v : ℝ) : write env n v n = some v := by simp [write]
theorem write_ne (env : Env) {n m : ℕ} (v : ℝ) (h : m ≠ n) : write env n v m = env m := by simp [write, h]

theorem writes_not_mem : ∀ (ns : List ℕ) (vs : List ℝ) (env : Env) {m : ℕ}, m ∉ ns →
    writes env ns vs m = env m
  | [], _, _, _, _ => by simp [writes]
  | n :: ns, [], _, _, _ => by simp [writes]
  | n :: ns, v :: vs, env, m, h => by
    simp only [List.mem_cons, not_or] at h
    rw [writes, writes_not_mem ns vs _ h.2, write_ne _ _ h.1]

/-- A variable written by `writes` either keeps its value or is one of the names. -/
theorem writes_dom (ns : List ℕ) (vs : List ℝ) (env : Env) {m : ℕ} (h : writes env ns vs m ≠ none) :
    env m ≠ none ∨ m ∈ ns := by
  by_cases hm : m ∈ ns
  · exact Or.inr hm
  · left; rwa [writes_not_mem ns vs env hm] at h

theorem readAll_length : ∀ (as : List Atom) (env : Env) {vs : List ℝ}, readAll env as = some vs →
    vs.length = as.length
  | [], _, vs, h => by simp [readAll] at h; simp [← h]
  | a :: as, env, vs, h => by
    rw [readAll] at h
    split at h
    · rename_i v vs' h1 h2
      obtain rfl := Option.some.inj h
      simp [readAll_length as env h2]
    · simp at h

/-- Environment extension. -/
def Sub (e e' : Env) : Prop := ∀ v a, e v = some a → e' v = some a

theorem Sub.readAtom {e e' : Env} (h : Sub e e') {a : Atom} {v : ℝ} (hr : readAtom e a = some v) :
    Jaxpr.readAtom e' a = some v := by
  cases a with
  | var n => exact h _ _ hr
  | lit c => exact hr

theorem Sub.readAll {e e' : Env} (h : Sub e e') : ∀ {as : List Atom} {vs : List ℝ},
    Jaxpr.readAll e as = some vs → Jaxpr.readAll e' as = some vs
  | [], vs, hr => hr
  | a :: as, vs, hr => by
    rw [Jaxpr.readAll] at hr
    split at hr
    · rename_i v vs' h1 h2
      rw [Jaxpr.readAll, h.readAtom h1, h.readAll h2]
      exact hr
    · simp at hr

/-- Running does not change variables already defined. -/
theorem run_keeps (ev : P → List ℝ → Option (List ℝ)) : ∀ (p : Prog P) (S : Set ℕ) (env env' : Env),
    SSA p S → run ev p env = some env' → ∀ v ∈ S, env' v = env v
  | .done, S, env, env', _, h, v, _ => by simp [run] at h; rw [h]
  | .prim p ins outs rest, S, env, env', hs, h, v, hv => by
    simp only [run] at h
    obtain ⟨_, h2, h3⟩ := hs
    split at h
    · simp at h
    · split at h
      · simp at h
      · split at h
        · rw [run_keeps ev rest _ _ _ h3 h v (Or.inl hv)]
          exact writes_not_mem _ _ _ fun ho => h2 v ho hv
        · simp at h
  | .call _ cs bIn bOut body ins outs rest, S, env, env', hs, h, v, hv => by
    simp only [run] at h
    obtain ⟨_, _, _, h2, h3⟩ := hs
    split at h
    · simp at h
    · split at h
      · split at h
        · simp at h
        · split at h
          · simp at h
          · split at h
            · rw [run_keeps ev rest _ _ _ h3 h v (Or.inl hv)]
              exact writes_not_mem _ _ _ fun ho => h2 v ho hv
            · simp at h
      · simp at h

theorem writes_single (env : Env) (o : ℕ) (ys : List ℝ) (h : ys.length = [o].length) :
    ∃ y, ys = [y] ∧ writes env [o] ys = write env o y := by
  match ys, h with
  | [y], _ => exact ⟨y, rfl, rfl⟩

theorem readAll_one {env : Env} {a : Atom} {vals : List ℝ} (h : readAll env [a] = some vals) :
    ∃ x, readAtom env a = some x ∧ vals = [x] := by
  simp only [readAll] at h
  split at h
  · rename_i v vs h1 h2
    simp at h2; subst h2
    exact ⟨v, h1, (Option.some.inj h).symm⟩
  · simp at h

theorem readAll_two {env : Env} {a b : Atom} {vals : List ℝ} (h : readAll env [a, b] = some vals) :
    ∃ x y, readAtom env a = some x ∧ readAtom env b = some y ∧ vals = [x, y] := by
  rw [readAll] at h
  split at h
  · rename_i v vs h1 h2
    obtain ⟨y, hy, rfl⟩ := readAll_one h2
    exact ⟨v, y, h1, hy, (Option.some.inj h).symm⟩
  · simp at h

/-- The heart of C13: inverting a straight-line program recovers the forward values. `env` is the environment
before, `env'` after the forward run; `e` a part of `env'` containing the output. -/
theorem interp_straight {ev : P → List ℝ → Option (List ℝ)} {D : P → ℕ → List ℝ → Prop}
    {R : P → Option Rule} (hR : RegistryCorrect ev D R) {p : Prog P} {a b : ℕ}
    (hst : Straight (fun p => R p ≠ none) p a b) :
    ∀ (S : Set ℕ) (env env' e : Env), SSA p S → a ∈ S → (∀ v, env v ≠ none → v ∈ S) →
      run ev p env = some env' → InDomain ev D p env → Sub e env' → e b ≠ none → env a ≠ none →
      ∃ e', interpInv R p e = .ok e' ∧ Sub e' env' ∧ e' a = env a := by
  induction hst with
  | done a =>
    intro S env env' e _ _ _ hrun _ hsub hb ha
    simp [run] at hrun; subst hrun
    refine ⟨e, rfl, hsub, ?_⟩
    cases h : e a with
    | none => exact absurd h hb
    | some v => rw [hsub _ _ h]
  | @unary q a o b rest hk _ ih =>
    intro S env env' e hssa haS hS hrun hdom hsub hb ha
    obtain ⟨x, hx⟩ := Option.ne_none_iff_exists'.1 ha
    have hrd : readAll env [.var a] = some [x] := by simp [readAll, readAtom, hx]
    have hkeep := run_keeps ev _ S env env' hssa hrun a haS
    simp only [run, hrd] at hrun
    obtain ⟨hnd, hfr, hssa'⟩ := hssa
    split at hrun
    · simp at hrun
    rename_i ys hev
    split at hrun
    · rename_i hlen
      obtain ⟨y, rfl, hw⟩ := writes_single env o ys hlen
      obtain ⟨d1, d2⟩ := hdom _ hrd
      have hd2 := d2 _ hev
      rw [hw] at hrun hd2
      obtain ⟨e1, he1, hs1, ho1⟩ := ih _ _ _ e hssa' (Or.inr (by simp)) (by
        intro v hv
        by_cases hvo : v = o
        · exact Or.inr (by simp [hvo])
        · rw [write_ne _ _ hvo] at hv; exact Or.inl (hS v hv)) hrun hd2 hsub hb (by simp [write_same])
      rw [write_same] at ho1
      obtain ⟨rule, hrule⟩ := Option.ne_none_iff_exists'.1 hk
      have hinv := (hR q rule hrule).1 x y hev (d1 0 rfl)
      refine ⟨write e1 a x, ?_, ?_, ?_⟩
      · simp [interpInv, he1, identify, hrule, readAll, readAtom, ho1, invArgs, litVals, hinv, writeAtom]
      · intro v w hv
        by_cases hva : v = a
        · subst hva; rw [write_same] at hv; rw [hkeep, hx, hv]
        · rw [write_ne _ _ hva] at hv; exact hs1 _ _ hv
      · rw [write_same, hx]
    · simp at hrun
  | @left q a c o b rest hk _ ih =>
    intro S env env' e hssa haS hS hrun hdom hsub hb ha
    obtain ⟨x, hx⟩ := Option.ne_none_iff_exists'.1 ha
    have hrd : readAll env [.var a, .lit c] = some [x, c] := by simp [readAll, readAtom, hx]
    have hkeep := run_keeps ev _ S env env' hssa hrun a haS
    simp only [run, hrd] at hrun
    obtain ⟨hnd, hfr, hssa'⟩ := hssa
    split at hrun
    · simp at hrun
    rename_i ys hev
    split at hrun
    · rename_i hlen
      obtain ⟨y, rfl, hw⟩ := writes_single env o ys hlen
      obtain ⟨d1, d2⟩ := hdom _ hrd
      have hd2 := d2 _ hev
      rw [hw] at hrun hd2
      obtain ⟨e1, he1, hs1, ho1⟩ := ih _ _ _ e hssa' (Or.inr (by simp)) (by
        intro v hv
        by_cases hvo : v = o
        · exact Or.inr (by simp [hvo])
        · rw [write_ne _ _ hvo] at hv; exact Or.inl (hS v hv)) hrun hd2 hsub hb (by simp [write_same])
      rw [write_same] at ho1
      obtain ⟨rule, hrule⟩ := Option.ne_none_iff_exists'.1 hk
      have hinv := (hR q rule hrule).2.1 x c y hev (d1 0 rfl)
      refine ⟨write e1 a x, ?_, ?_, ?_⟩
      · simp [interpInv, he1, identify, hrule, readAll, readAtom, ho1, invArgs, litVals, hinv, writeAtom]
      · intro v w hv
        by_cases hva : v = a
        · subst hva; rw [write_same] at hv; rw [hkeep, hx, hv]
        · rw [write_ne _ _ hva] at hv; exact hs1 _ _ hv
      · rw [write_same, hx]
    · simp at hrun
  | @right q a c o b rest hk _ ih =>
    intro S env env' e hssa haS hS hrun hdom hsub hb ha
    obtain ⟨x, hx⟩ := Option.ne_none_iff_exists'.1 ha
    have hrd : readAll env [.lit c, .var a] = some [c, x] := by simp [readAll, readAtom, hx]
    have hkeep := run_keeps ev _ S env env' hssa hrun a haS
    simp only [run, hrd] at hrun
    obtain ⟨hnd, hfr, hssa'⟩ := hssa
    split at hrun
    · simp at hrun
    rename_i ys hev
    split at hrun
    · rename_i hlen
      obtain ⟨y, rfl, hw⟩ := writes_single env o ys hlen
      obtain ⟨d1, d2⟩ := hdom _ hrd
      have hd2 := d2 _ hev
      rw [hw] at hrun hd2
      obtain ⟨e1, he1, hs1, ho1⟩ := ih _ _ _ e hssa' (Or.inr (by simp)) (by
        intro v hv
        by_cases hvo : v = o
        · exact Or.inr (by simp [hvo])
        · rw [write_ne _ _ hvo] at hv; exact Or.inl (hS v hv)) hrun hd2 hsub hb (by simp [write_same])
      rw [write_same] at ho1
      obtain ⟨rule, hrule⟩ := Option.ne_none_iff_exists'.1 hk
      have hinv := (hR q rule hrule).2.2 x c y hev (d1 1 rfl)
      refine ⟨write e1 a x, ?_, ?_, ?_⟩
      · simp [interpInv, he1, identify, hrule, readAll, readAtom, ho1, invArgs, litVals, hinv, writeAtom]
      · intro v w hv
        by_cases hva : v = a
        · subst hva; rw [write_same] at hv; rw [hkeep, hx, hv]
        · rw [write_ne _ _ hva] at hv; exact hs1 _ _ hv
      · rw [write_same, hx]
    · simp at hrun
  | @call k cs a x y o b body rest _ _ ihb ih =>
    intro S env env' e hssa haS hS hrun hdom hsub hb ha
    obtain ⟨vx, hx⟩ := Option.ne_none_iff_exists'.1 ha
    have hrd : readAll env [.var a] = some [vx] := by simp [readAll, readAtom, hx]
    have hkeep := run_keeps ev _ S env env' hssa hrun a haS
    simp only [run, hrd, List.length_cons, List.length_nil, if_true] at hrun
    obtain ⟨hnb, hssab, hnd, hfr, hssa'⟩ := hssa
    split at hrun
    · simp at hrun
    rename_i benv hbrun
    split at hrun
    · simp at hrun
    rename_i ys hys
    split at hrun
    · rename_i hlen
      obtain ⟨vy, rfl, hw⟩ := writes_single env o ys hlen
      obtain ⟨d1, d2⟩ := hdom _ hrd
      have hd2 := d2 _ hbrun _ hys
      rw [hw] at hrun hd2
      obtain ⟨e1, he1, hs1, ho1⟩ := ih _ _ _ e hssa' (Or.inr (by simp)) (by
        intro v hv
        by_cases hvo : v = o
        · exact Or.inr (by simp [hvo])
        · rw [write_ne _ _ hvo] at hv; exact Or.inl (hS v hv)) hrun hd2 hsub hb (by simp [write_same])
      rw [write_same] at ho1
      obtain ⟨vy', hvy', hvyeq⟩ := readAll_one hys
      obtain rfl : vy = vy' := by simpa using hvyeq
      simp only [readAtom] at hvy'
      -- the body
      have hb0 : ∀ v, writes (writeConsts (fun _ => none) cs) [x] [vx] v ≠ none →
          v ∈ {v | v ∈ cs.map Prod.fst ++ [x]} := by
        intro v hv
        rcases writes_dom _ _ _ hv with h | h
        · rcases writes_dom _ _ _ h with h | h
          · exact absurd rfl h
          · exact List.mem_append_left _ h
        · exact List.mem_append_right _ h
      have hkeepb := run_keeps ev _ _ _ _ hssab hbrun
      have hsubb : Sub (writeConsts (writeAtoms (fun _ => none) [.var y] [vy]) cs) benv := by
        intro v w hv
        by_cases hvc : v ∈ cs.map Prod.fst
        · have hvx : v ∉ [x] := fun hh => (List.disjoint_of_nodup_append hnb hvc hh).elim
          rw [hkeepb v (List.mem_append_left _ hvc), writes_not_mem _ _ _ hvx]
          have aux : ∀ (ns : List ℕ) (vs : List ℝ) (e1 e2 : Env), ns.length = vs.length → v ∈ ns →
              writes e1 ns vs v = writes e2 ns vs v := by
            intro ns
            induction ns with
            | nil => intro _ _ _ _ h; simp at h
            | cons n ns ihn =>
              intro vs e1 e2 hl hm
              match vs, hl with
              | u :: us, hl =>
                simp only [writes]
                by_cases hmn : v ∈ ns
                · exact ihn us _ _ (by simpa using hl) hmn
                · have : v = n := by simpa [hmn] using hm
                  subst this
                  rw [writes_not_mem _ _ _ hmn, writes_not_mem _ _ _ hmn, write_same, write_same]
          rw [← hv]
          exact aux _ _ _ _ (by simp) hvc
        · rw [writeConsts, writes_not_mem _ _ _ hvc] at hv
          simp only [writeAtoms, writeAtom] at hv
          by_cases hvy : v = y
          · subst hvy; rw [write_same] at hv; rw [hvy', hv]
          · rw [write_ne _ _ hvy] at hv; simp at hv
      have hby : writeConsts (writeAtoms (fun _ => none) [.var y] [vy]) cs y ≠ none := by
        intro hn
        by_cases hyc : y ∈ cs.map Prod.fst
        · have aux : ∀ (ns : List ℕ) (vs : List ℝ) (e1 : Env), e1 y ≠ none → writes e1 ns vs y ≠ none := by
            intro ns
            induction ns with
            | nil => intro vs e1 h; simpa [writes] using h
            | cons n ns ihn =>
              intro vs e1 h
              cases vs with
              | nil => simpa [writes] using h
              | cons u us =>
                simp only [writes]
                apply ihn
                by_cases hyn : y = n
                · subst hyn; simp [write_same]
                · rwa [write_ne _ _ hyn]
          exact aux _ _ _ (by simp [writeAtoms, writeAtom, write_same]) hn
        · rw [writeConsts, writes_not_mem _ _ _ hyc] at hn
          simp [writeAtoms, writeAtom, write_same] at hn
      obtain ⟨e2, he2, hs2, hx2⟩ := ihb _ _ _ _ hssab (by simp) hb0 hbrun d1 hsubb hby
        (by simp [writes, write_same])
      simp only [writes, write_same] at hx2
      refine ⟨write e1 a vx, ?_, ?_, ?_⟩
      · have hst : start cs [.var y] [vy] = .ok (writeConsts (writeAtoms (fun _ => none) [.var y] [vy]) cs) := by
          simp [start]
        have hfin : finish [x] e2 = .ok [vx] := by simp [finish, readAll, readAtom, hx2]
        have hro : readAll e1 ([o].map .var) = some [vy] := by simp [readAll, readAtom, ho1]
        simp only [interpInv, he1, identify, hro, List.length_cons, List.length_nil, if_true, hst, he2, hfin]
        rfl
      · intro v w hv
        by_cases hva : v = a
        · subst hva; rw [write_same] at hv; rw [hkeep, hx, hv]
        · rw [write_ne _ _ hva] at hv; exact hs1 _ _ hv
      · rw [write_same, hx]
    · simp at hrun

/-! ### Dependence analysis -/

/-- Two environments agree outside a set. -/
def AgreeOff (d : Set ℕ) (e1 e2 : Env) : Prop := ∀ v, v ∉ d → e1 v = e2 v

theorem readAtom_agree {d : Set ℕ} {e1 e2 : Env} (h : AgreeOff d e1 e2) {a : Atom}
    (ha : ∀ n, a = .var n → n ∉ d) : readAtom e1 a = readAtom e2 a := by
  cases a with
  | var n => exact h n (ha n rfl)
  | lit c => rfl

theorem readAll_agree {d : Set ℕ} {e1 e2 : Env} (h : AgreeOff d e1 e2) : ∀ {as : List Atom},
    (∀ n, Atom.var n ∈ as → n ∉ d) → readAll e1 as = readAll e2 as
  | [], _ => rfl
  | a :: as, ha => by
    rw [readAll, readAll, readAtom_agree h (a := a) (fun n hn => ha n (by simp [hn])),
      readAll_agree h (as := as) (fun n hn => ha n (by simp [hn]))]

theorem writes_agree {d d' : Set ℕ} : ∀ (ns : List ℕ) (v1 v2 : List ℝ) (e1 e2 : Env), AgreeOff d e1 e2 →
    v1.length = ns.length → v2.length = ns.length → (∀ v, v ∉ d' → v ∉ d) →
    (∀ (i : ℕ) n a b, ns[i]? = some n → v1[i]? = some a → v2[i]? = some b → n ∉ d' → a = b) →
    AgreeOff d' (writes e1 ns v1) (writes e2 ns v2)
  | [], [], [], e1, e2, h, _, _, hd, _ => fun v hv => h v (hd v hv)
  | n :: ns, a :: v1, b :: v2, e1, e2, h, h1, h2, hd, hv => by
    rw [writes, writes]
    refine writes_agree (d := d') ns v1 v2 _ _ ?_ (by simpa using h1) (by simpa using h2) (fun _ h => h) ?_
    · intro v hvd
      by_cases hvn : v = n
      · subst hvn
        rw [write_same, write_same, hv 0 v a b rfl rfl rfl hvd]
      · rw [write_ne _ _ hvn, write_ne _ _ hvn]; exact h v (hd v hvd)
    · intro i m a' b' hm ha hb hmd
      exact hv (i + 1) m a' b' (by simpa using hm) (by simpa using ha) (by simpa using hb) hmd

theorem readAll_get : ∀ {as : List Atom} {env : Env} {vs : List ℝ}, readAll env as = some vs →
    ∀ (i : ℕ) a v, as[i]? = some a → vs[i]? = some v → readAtom env a = some v
  | [], env, vs, _, i, a, v, ha, _ => by simp at ha
  | b :: as, env, vs, h, i, a, v, ha, hv => by
    rw [readAll] at h
    split at h
    · rename_i u us h1 h2
      obtain rfl := Option.some.inj h
      cases i with
      | zero =>
        simp at ha hv; subst ha hv; exact h1
      | succ i =>
        simp at ha hv
        exact readAll_get h2 i a v ha hv
    · simp at h

theorem dictGet_nodup : ∀ (ks : List Atom) (vs : List ℕ), (vars ks).Nodup → ∀ (i : ℕ) n v, ks[i]? = some (Atom.var n) →
    vs[i]? = some v → dictGet ks vs n = some v
  | [], _, _, i, n, v, h, _ => by simp at h
  | .lit c :: ks, [], _, i, n, v, _, h => by simp at h
  | .var m :: ks, [], _, i, n, v, _, h => by simp at h
  | .lit c :: ks, w :: vs, hn, i, n, v, hk, hv => by
    cases i with
    | zero => simp at hk
    | succ i =>
      simp at hk hv
      rw [dictGet]
      exact dictGet_nodup ks vs (by simpa [vars] using hn) i n v hk hv
  | .var m :: ks, w :: vs, hn, i, n, v, hk, hv => by
    rw [vars, List.nodup_cons] at hn
    cases i with
    | zero =>
      simp at hk hv; subst hk hv
      rw [dictGet]
      have hnone : ∀ (ks : List Atom) (vs : List ℕ), m ∉ vars ks → dictGet ks vs m = none := by
        intro ks
        induction ks with
        | nil => intro vs _; rw [dictGet]; all_goals simp
        | cons k ks ih =>
          intro vs hm
          cases vs with
          | nil => cases k <;> (rw [dictGet]; all_goals simp)
          | cons u us =>
            cases k with
            | lit c => rw [dictGet]; exact ih us (by simpa [vars] using hm)
            | var q =>
              simp only [vars, List.mem_cons, not_or] at hm
              rw [dictGet, ih us hm.2]
              simp [Ne.symm hm.1]
      rw [hnone ks vs hn.1]
      simp
    | succ i =>
      simp at hk hv
      rw [dictGet, dictGet_nodup ks vs hn.2 i n v hk hv]

/-- Soundness of the dependence analysis. -/
theorem dependent_sound (ev : P → List ℝ → Option (List ℝ)) : ∀ (p : Prog P), NoRepeats p →
    ∀ (d : Set ℕ) (e1 e2 f1 f2 : Env), AgreeOff d e1 e2 → run ev p e1 = some f1 → run ev p e2 = some f2 →
    AgreeOff (dependent p d) f1 f2
  | .done, _, d, e1, e2, f1, f2, h, h1, h2 => by
    simp [run] at h1 h2; subst h1 h2; exact h
  | .prim q ins outs rest, hn, d, e1, e2, f1, f2, h, h1, h2 => by
    rw [dependent]
    simp only [run] at h1 h2
    split at h1; · simp at h1
    rename_i v1 hv1
    split at h1; · simp at h1
    rename_i y1 hy1
    split at h1
    swap; · simp at h1
    rename_i l1
    split at h2; · simp at h2
    rename_i v2 hv2
    split at h2; · simp at h2
    rename_i y2 hy2
    split at h2
    swap; · simp at h2
    rename_i l2
    refine dependent_sound ev rest hn _ _ _ _ _ ?_ h1 h2
    refine writes_agree outs y1 y2 e1 e2 h l1 l2 (fun v hv hd => hv (Or.inl hd)) ?_
    intro i n a b hi ha hb hnd
    have hno : ∀ m, Atom.var m ∈ ins → m ∉ d := fun m hm hmd =>
      hnd (Or.inr ⟨List.mem_of_getElem? hi, m, hm, hmd⟩)
    have := readAll_agree h hno
    rw [hv1, hv2] at this
    obtain rfl := Option.some.inj this
    rw [hy1] at hy2
    obtain rfl := Option.some.inj hy2
    rw [ha] at hb; exact Option.some.inj hb
  | .call true cs bIn bOut body ins outs rest, hn, d, e1, e2, f1, f2, h, h1, h2 => by
    rw [dependent]
    obtain ⟨n1, n2, nb, nr⟩ := hn
    simp only [run] at h1 h2
    split at h1; · simp at h1
    rename_i v1 hv1
    split at h1
    swap; · simp at h1
    rename_i lb1
    split at h1; · simp at h1
    rename_i g1 hg1
    split at h1; · simp at h1
    rename_i y1 hy1
    split at h1
    swap; · simp at h1
    rename_i l1
    split at h2; · simp at h2
    rename_i v2 hv2
    split at h2
    swap; · simp at h2
    rename_i lb2
    split at h2; · simp at h2
    rename_i g2 hg2
    split at h2; · simp at h2
    rename_i y2 hy2
    split at h2
    swap; · simp at h2
    rename_i l2
    have hbody := dependent_sound ev body nb
      {b | ∃ a, Atom.var a ∈ ins ∧ a ∈ d ∧ dictGet ins bIn a = some b} _ _ _ _ ?_ hg1 hg2
    · refine dependent_sound ev rest nr _ _ _ _ _ ?_ h1 h2
      refine writes_agree outs y1 y2 e1 e2 h l1 l2 (fun v hv hd => hv (Or.inl hd)) ?_
      intro i n a b hi ha hb hnd
      have hlen := readAll_length _ _ hy1
      have hib : i < bOut.length := by
        rw [← hlen]; exact (List.getElem?_eq_some_iff.1 ha).1
      obtain ⟨o, ho⟩ : ∃ o, bOut[i]? = some o := ⟨bOut[i], List.getElem?_eq_getElem hib⟩
      have r1 := readAll_get hy1 i o a ho ha
      have r2 := readAll_get hy2 i o b ho hb
      cases o with
      | lit c => simp only [readAtom] at r1 r2; rw [← Option.some.inj r1, ← Option.some.inj r2]
      | var m =>
        simp only [readAtom] at r1 r2
        have : g1 m = g2 m := hbody m fun hm =>
          hnd (Or.inr ⟨m, List.mem_of_getElem? ho, hm, dictGet_nodup _ _ n2 i m n ho hi⟩)
        rw [r1, r2] at this; exact Option.some.inj this
    · refine writes_agree (d := ∅) bIn v1 v2 _ _ (fun _ _ => rfl) lb1 lb2 (fun v _ => by simp) ?_
      intro i n a b hi ha hb hnd
      have hlen := readAll_length _ _ hv1
      have hib : i < ins.length := by
        rw [← hlen]; exact (List.getElem?_eq_some_iff.1 ha).1
      obtain ⟨o, ho⟩ : ∃ o, ins[i]? = some o := ⟨ins[i], List.getElem?_eq_getElem hib⟩
      have r1 := readAll_get hv1 i o a ho ha
      have r2 := readAll_get hv2 i o b ho hb
      cases o with
      | lit c => simp only [readAtom] at r1 r2; rw [← Option.some.inj r1, ← Option.some.inj r2]
      | var m =>
        simp only [readAtom] at r1 r2
        have : e1 m = e2 m := h m fun hm =>
          hnd ⟨m, List.mem_of_getElem? ho, hm, dictGet_nodup _ _ n1 i m n ho hi⟩
        rw [r1, r2] at this; exact Option.some.inj this
  | .call false cs bIn bOut body ins outs rest, hn, d, e1, e2, f1, f2, h, h1, h2 => by
    rw [dependent]
    obtain ⟨n1, n2, nb, nr⟩ := hn
    simp only [run] at h1 h2
    split at h1; · simp at h1
    rename_i v1 hv1
    split at h1
    swap; · simp at h1
    rename_i lb1
    split at h1; · simp at h1
    rename_i g1 hg1
    split at h1; · simp at h1
    rename_i y1 hy1
    split at h1
    swap; · simp at h1
    rename_i l1
    split at h2; · simp at h2
    rename_i v2 hv2
    split at h2
    swap; · simp at h2
    rename_i lb2
    split at h2; · simp at h2
    rename_i g2 hg2
    split at h2; · simp at h2
    rename_i y2 hy2
    split at h2
    swap; · simp at h2
    rename_i l2
    refine dependent_sound ev rest nr _ _ _ _ _ ?_ h1 h2
    refine writes_agree outs y1 y2 e1 e2 h l1 l2 (fun v hv hd => hv (Or.inl hd)) ?_
    intro i n a b hi ha hb hnd
    have hno : ∀ m, Atom.var m ∈ ins → m ∉ d := fun m hm hmd =>
      hnd (Or.inr ⟨List.mem_of_getElem? hi, m, hm, hmd⟩)
    have := readAll_agree h hno
    rw [hv1, hv2] at this
    obtain rfl := Option.some.inj this
    rw [hg1] at hg2
    obtain rfl := Option.some.inj hg2
    rw [hy1] at hy2
    obtain rfl := Option.some.inj hy2
    rw [ha] at hb; exact Option.some.inj hb

end Distrax.Jaxpr
