import Verif.Model.MathUtils

/-!
# Categorical, OneHotCategorical, Greedy, EpsilonGreedy, Softmax

One batch element (one row of parameters); batching is the subject of the shape model.
Entries are `XR`.  Values passed to `log_prob`/`prob`/`cdf` may be any number, including non-integers.
-/

namespace Distrax

open XR

noncomputable section

/-- Class of the `dtype` argument (categorical.py:56-60). -/
inductive DType where
  | integer
  | floating
  | other
  deriving DecidableEq

/-- `jax.nn.one_hot(value, n)`: compares with `arange(n)`. [external; called e.g. at categorical.py:103] -/
def oneHot (n : ℕ) (value : XR) : Fin n → XR := fun i => XR.sel (eqB value (fin i)) 1 0

/-- numpy order used by `argmax`: nan counts as the largest. [no line of its own; part of the model of categorical.py:33-159] -/
def XR.better (a b : XR) : Prop := (a = nan ∧ b ≠ nan) ∨ ltB b a

open Classical in
/-- `jnp.argmax(x, axis=-1)` of a nonempty row: the first index of the largest entry. [external; called e.g. at categorical.py:128] -/
def argmaxIdx {n : ℕ} (x : Fin (n + 1) → XR) : Fin (n + 1) :=
  (List.finRange (n + 1)).foldl (fun b j => if XR.better (x j) (x b) then j else b) 0

/-- `jnp.cumsum`. [external; called e.g. at categorical.py:143] -/
def xcumsum {n : ℕ} (x : Fin n → XR) (i : Fin n) : XR := ∑ j ∈ Finset.univ.filter (· ≤ i), x j

/-- `jax.nn.softmax` of a row: `exp(x - max) / sum(exp(x - max))`. [external; called e.g. at categorical.py:83] -/
def xsoftmax {n : ℕ} (x : Fin n → XR) : Fin n → XR :=
  let un := fun i => XR.exp (x i - rowMax x)
  fun i => un i / ∑ j, un j

/-- Attributes of a `Categorical` set at categorical.py:62-64, one row. -/
structure Cat (n : ℕ) where
  probs? : Option (Fin n → XR)
  logits? : Option (Fin n → XR)

namespace Cat

variable {n : ℕ}

/-- categorical.py:38-64 `Categorical.__init__`. -/
def init (logits probs : Option (Fin n → XR)) (dtype : DType) : Except Err (Cat n) :=
  if logits.isNone = probs.isNone then .error .valueError
  else if ¬(dtype = .integer ∨ dtype = .floating) then .error .valueError
  else .ok ⟨probs.map normalizeProbs, logits.map normalizeLogits⟩

/-- categorical.py:72-76 `logits`.  (`none, none` is unreachable; it yields nan.) -/
def logits (d : Cat n) : Fin n → XR :=
  match d.logits?, d.probs? with
  | some l, _ => l
  | none, some p => fun i => XR.log (p i)
  | none, none => fun _ => nan

/-- categorical.py:79-83 `probs`. -/
def probs (d : Cat n) : Fin n → XR :=
  match d.probs?, d.logits? with
  | some p, _ => p
  | none, some l => xsoftmax l
  | none, none => fun _ => nan

/-- categorical.py:95-96 `is_valid`. -/
def isValid (d : Cat n) : Prop := (∀ i, isFinite (d.probs i)) ∧ ∀ i, leB 0 (d.probs i)

open Classical in
/-- categorical.py:92-99 `_sample_n`, one draw.  `jax.random.categorical` is `argmax(gumbel + logits)`;
`g` is the Gumbel noise (arbitrary reals).  The result is an integer (`dtype` cast not modelled). -/
def sample {n : ℕ} (d : Cat (n + 1)) (g : Fin (n + 1) → ℝ) : ℤ :=
  if d.isValid then ((argmaxIdx fun i => fin (g i) + d.logits i : Fin (n + 1)) : ℕ) else -1

open Classical in
/-- categorical.py:101-109 `log_prob`. -/
def logProb (d : Cat n) (value : XR) : XR :=
  if ltB value 0 ∨ ltB (fin ((n : ℝ) - 1)) value then ninf
  else ∑ i, multiplyNoNan (d.logits i) (oneHot n value i)

/-- categorical.py:111-115 `prob`. -/
def prob (d : Cat n) (value : XR) : XR := ∑ i, multiplyNoNan (d.probs i) (oneHot n value i)

/-- categorical.py:117-123 `entropy`. -/
def entropy (d : Cat n) : XR :=
  let lp := (match d.logits?, d.probs? with
    | none, some p => fun i => XR.log (p i)
    | some l, _ => logSoftmax l
    | none, none => fun _ => nan);
  -∑ i, mulExp (lp i) (lp i)

/-- categorical.py:125-128 `mode`. -/
def mode {n : ℕ} (d : Cat (n + 1)) : Fin (n + 1) :=
  argmaxIdx (match d.logits?, d.probs? with
    | none, some p => p
    | some l, _ => l
    | none, none => fun _ => nan)

open Classical in
/-- `jnp.clip(v, lo, hi)`. [external; called e.g. at categorical.py:139] -/
def xclip (v lo hi : XR) : XR :=
  if v = nan then nan else if ltB v lo then lo else if ltB hi v then hi else v

open Classical in
/-- categorical.py:130-144 `cdf`. -/
def cdf (d : Cat n) (value : XR) : XR :=
  let K1 : XR := fin ((n : ℝ) - 1)
  let v := xclip value 0 K1
  let c := ∑ i, multiplyNoNan (xcumsum d.probs i) (oneHot n v i)
  if ltB value 0 then 0 else if leB K1 value then 1 else c

/-- categorical.py:146-148 `log_cdf`. -/
def logCdf (d : Cat n) (value : XR) : XR := XR.log (d.cdf value)

/-- categorical.py:165-200 `_kl_divergence_categorical_categorical`. -/
def kl {m n : ℕ} (d1 : Cat m) (d2 : Cat n) : Except Err XR :=
  if h : m ≠ n then .error .valueError
  else
    let lp1 := logSoftmax d1.logits
    let lp2 := logSoftmax d2.logits
    .ok (∑ i, mulExp (lp1 i - lp2 (Fin.cast (not_not.1 h) i)) (lp1 i))

/-! ### OneHotCategorical -/

open Classical in
/-- one_hot_categorical.py:60-70 `_sample_n`, one draw. -/
def ohSample {n : ℕ} (d : Cat (n + 1)) (g : Fin (n + 1) → ℝ) : Fin (n + 1) → XR :=
  let draw := argmaxIdx fun i => fin (g i) + d.logits i
  if d.isValid then oneHot (n + 1) (fin (draw : ℕ)) else fun _ => fin (-1)

/-- one_hot_categorical.py:72-74 `log_prob`. -/
def ohLogProb (d : Cat n) (value : Fin n → XR) : XR := ∑ i, multiplyNoNan (d.logits i) (value i)

/-- one_hot_categorical.py:76-78 `prob`. -/
def ohProb (d : Cat n) (value : Fin n → XR) : XR := ∑ i, multiplyNoNan (d.probs i) (value i)

/-- one_hot_categorical.py:80-85 `mode`. -/
def ohMode {n : ℕ} (d : Cat (n + 1)) : Fin (n + 1) → XR := oneHot (n + 1) (fin (d.mode : ℕ))

/-- one_hot_categorical.py:87-90 `cdf`. -/
def ohCdf (d : Cat n) (value : Fin n → XR) : XR := ∑ i, multiplyNoNan (xcumsum d.probs i) (value i)

/-! ### Greedy, EpsilonGreedy, Softmax -/

/-- greedy.py:28-31 (and epsilon_greedy.py:28-31) `_argmax_with_random_tie_breaking`. -/
def tieBreak (prefs : Fin n → XR) : Fin n → XR :=
  let opt : Fin n → XR := fun i => XR.sel (eqB (prefs i) (rowMax prefs)) 1 0
  fun i => opt i / ∑ j, opt j

/-- greedy.py:42-53 `Greedy.__init__`. -/
def greedy (prefs : Fin n → XR) (dtype : DType) : Except Err (Cat n) :=
  init none (some (tieBreak prefs)) dtype

/-- epsilon_greedy.py:34-38 `_mix_probs_with_uniform`. -/
def mixUniform (p : Fin n → XR) (eps : XR) : Fin n → XR :=
  fun i => (1 - eps) * p i + eps * (1 / fin n)

/-- epsilon_greedy.py:48-63 `EpsilonGreedy.__init__`. -/
def epsilonGreedy (prefs : Fin n → XR) (eps : XR) (dtype : DType) : Except Err (Cat n) :=
  init none (some (mixUniform (tieBreak prefs) eps)) dtype

/-- softmax.py:37-51 `Softmax.__init__`. -/
def softmaxDist (logits : Fin n → XR) (temperature : XR) (dtype : DType) : Except Err (Cat n) :=
  init (some fun i => logits i / temperature) none dtype

end Cat

end

end Distrax
