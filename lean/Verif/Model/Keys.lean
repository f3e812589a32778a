import Verif.Model.Mixture
import Verif.Model.Quantized
import Verif.Model.Multinomial
import Verif.Model.HMM
import Verif.Model.VonMises
import Verif.Model.Slice

/-! PRNG keys: which key every sampler of the library draws from and how composite samplers derive keys for their parts.

A key is the list of child numbers that leads to it from a root key: `jax.random.split(key, num)` returns the keys
`key ++ [0], …, key ++ [num - 1]`.  (In jax the children also depend on `num`; here child `i` of a key is the same whatever
`num` is, which makes key reuse easier to commit: a sampler that is right here uses no key twice in jax either.)
The generator is a function `ω` that gives the randomness `ω key` seen by a primitive call (`jax.random.normal(key, …)` etc.). -/

namespace Distrax.Keys

/-- A PRNG key, by its path from the root. [no line of its own; part of the model of distribution.py:49-309] -/
abbrev PKey := List ℕ

/-- `jax.random.split(key, num)[i]`. [external; called e.g. at hmm.py:132] -/
def split (key : PKey) (i : ℕ) : PKey := key ++ [i]

/-- A distribution as far as `_sample_n(key, n)` is concerned: the `n` draws (each a full batch of events, of type `X`)
as a function of the generator, the key and `n`. [distribution.py:54-55] -/
structure Sampler (U X : Type) where
  sampleN : (PKey → U) → PKey → (n : ℕ) → Fin n → X

variable {U X Y : Type}

namespace Sampler

/-- distribution.py:144-162 `sample(seed=key, sample_shape=shape)`: entry `i` of the result (`i` an index of the row-major
array of shape `shape`, whose elements are full draws). -/
def sample (d : Sampler U X) (ω : PKey → U) (key : PKey) (shape : List ℕ) (i : {i // InRange shape i})
    (h : ravel shape i.1 < shape.prod) : X :=
  d.sampleN ω key shape.prod ⟨ravel shape i.1, h⟩

/-- distribution.py:144-162 `sample(seed=key)`: one draw, without a leading axis. -/
def sample1 (d : Sampler U X) (ω : PKey → U) (key : PKey) : X := d.sampleN ω key 1 0

/-- A distribution whose `_sample_n` makes one call of `jax.random` with the key it is given (normal.py:73-76 and all other
primitive families but VonMises and Multinomial): `g n` turns the randomness of the call into `n` draws. -/
def prim (g : (n : ℕ) → U → Fin n → X) : Sampler U X where
  sampleN ω key n := g n (ω key)

/-- A primitive call that turns uniform numbers into draws: draw `i` is computed by `f` from the `m` numbers
`i·m, …, i·m + m - 1` of the stream behind the key (uniform.py:76-81, logistic.py:77-84 with `m` the number of batch entries;
`jax.random.bernoulli` is `uniform < p`; `jax.random.categorical` is `argmax(gumbel + logits)` with `gumbel = -log(-log(uniform))`). -/
def rows (m : ℕ) (f : (Fin m → ℝ) → X) : Sampler (ℕ → ℝ) X := prim fun _ u i => f fun j => u (i * m + j)

/-- deterministic.py:80-84 `_sample_n`: no randomness, the key is not used. -/
def deterministic (loc : X) : Sampler U X where
  sampleN _ _ _ _ := loc

/-- independent.py:98-100 `_sample_n`. -/
def independent (d : Sampler U X) : Sampler U X where
  sampleN ω key n := d.sampleN ω key n

/-- transformed.py:166-170 `_sample_n`: `jax.vmap(bijector.forward)` of the base samples. -/
def transformed (forward : X → Y) (d : Sampler U X) : Sampler U Y where
  sampleN ω key n :=
    let x := d.sampleN ω key n
    fun i => forward (x i)

/-- quantized.py:126-137 `_sample_n` for a batch `B` of scalars; `q b` is the quantizer at batch position `b`. -/
noncomputable def quantized {B : Type} (q : B → Quantized) (d : Sampler U (B → ℝ)) : Sampler U (B → ℝ) where
  sampleN ω key n :=
    let samples := d.sampleN ω key n
    fun i b => (q b).sample (samples i b)

/-- clipped.py:69-72 `_sample_n` for a batch `B` of scalars. -/
noncomputable def clipped {B : Type} (c : B → Clipped) (d : Sampler U (B → ℝ)) : Sampler U (B → ℝ) where
  sampleN ω key n :=
    let rawSample := d.sampleN ω key n
    fun i b => (c b).sample (rawSample i b)

/-- joint.py:68-75 `_sample_n`; the `m` leaves of the (flattened) structure, leaf `i` with events of type `X i`. -/
def joint {m : ℕ} {X : Fin m → Type} (d : (i : Fin m) → Sampler U (X i)) : Sampler U ((i : Fin m) → X i) where
  sampleN ω key n := fun j i => (d i).sampleN ω (split key i) n j

/-- mixture_of_two.py:74-81 `_sample_n`.  `mask` is `jax.random.bernoulli(·, p=prob_a, shape=[n])`: one flag per draw,
used for the whole batch of the draw. -/
def mixtureOfTwo (mask : Sampler U Bool) {B E : Type} (a b : Sampler U (B → E)) : Sampler U (B → E) where
  sampleN ω key n :=
    let keyA := split key 1
    let keyB := split key 2
    let maskKey := split key 3
    let maskFromA := mask.sampleN ω maskKey n
    let sampleA := a.sampleN ω keyA n
    let sampleB := b.sampleN ω keyB n
    MixtureOfTwo.sampleN maskFromA sampleA sampleB

/-- mixture_same_family.py:93-114 `_sample_n`: the batch of the mixture is `B`, the components have batch `B × Fin K` and events
indexed by `ι`; `mix` draws a component number for every batch position.  (Finite samples: reals.) -/
noncomputable def mixtureSameFamily {B ι : Type} {K : ℕ} (mix : Sampler U (B → ℕ)) (components : Sampler U (B → Fin K → ι → ℝ)) :
    Sampler U (B → ι → ℝ) where
  sampleN ω key n :=
    let keyMix := split key 0
    let keyComponents := split key 1
    let mixSample := mix.sampleN ω keyMix n
    let samplesAll := components.sampleN ω keyComponents n
    let mask : Fin n → B → Fin K → ℝ := fun i b k => if mixSample i b = (k : ℕ) then 1 else 0
    fun i b j => ∑ k, samplesAll i b k j * mask i b k

/-- multinomial.py:164-181 the `lax.while_loop` of `_sample_n_scalar` with its key: `left` more iterations, `agg` the
aggregated counts of the `n` draws. -/
def multinomialLoop {K : ℕ} (categorical : Sampler U (Fin K)) (ω : PKey → U) (n : ℕ) :
    (left : ℕ) → (keyI : PKey) → (agg : Fin n → Fin K → ℕ) → Fin n → Fin K → ℕ
  | 0, _, agg => agg
  | left + 1, keyI, agg =>
    let currentKey := split keyI 1
    let keyI := split keyI 0
    let sampleI := categorical.sampleN ω currentKey n
    multinomialLoop categorical ω n left keyI fun i k => agg i k + if sampleI i = k then 1 else 0

/-- multinomial.py:152-162 `_sample_n`: batch of `B` entries, flattened; `categorical b` is
`jax.random.categorical(·, logits[b], shape=(n,))`. -/
def multinomial {B K : ℕ} (total : Fin B → ℕ) (categorical : Fin B → Sampler U (Fin K)) : Sampler U (Fin B → Fin K → ℕ) where
  sampleN ω key n := fun i b => multinomialLoop (categorical b) ω n (total b) (split key b) (fun _ _ => 0) i

end Sampler

/-- hmm.py:117-150 `HMM.sample`. -/
def hmmSample {K : ℕ} {O : Type} (initDist : Sampler U (Fin K)) (transDist : Sampler U (Fin K → Fin K))
    (obsDist : Sampler U (Fin K → O)) (ω : PKey → U) (seed : PKey) (seqLen : ℕ) : List (Fin K) × List O :=
  let rngKey := split seed 0
  let rngInit := split seed 1
  let rngState := split rngKey 0
  let rngObs := split rngKey 1
  HMM.sample (initDist.sample1 ω rngInit) (fun t => transDist.sample1 ω (split rngState t))
    (fun t => obsDist.sample1 ω (split rngObs t)) seqLen

/-- von_mises.py:242-276: the keys of the rounds of the rejection loop: round `t` draws `u` and `v` with children 0 and 1 of the
loop's key and hands child 2 to the next round.  `rounds` is the number of rounds the counter still allows. -/
def vonMisesDraws {m : ℕ} (uniformPm uniform01 : U → Fin m → ℝ) (ω : PKey → U) : (rounds : ℕ) → (seed : PKey) → List (Fin m → ℝ × ℝ)
  | 0, _ => []
  | rounds + 1, seed =>
    let uSeed := split seed 0
    let vSeed := split seed 1
    let nextSeed := split seed 2
    (fun i => (uniformPm (ω uSeed) i, uniform01 (ω vSeed) i)) :: vonMisesDraws uniformPm uniform01 ω rounds nextSeed

/-- von_mises.py:145-151 `_sample_n`, flattened to the `m = n · |batch|` entries. -/
noncomputable def vonMisesSampleN {m : ℕ} (uniformPm uniform01 : U → Fin m → ℝ) (cutoff : ℝ) (d : Fin m → VonMises) (ω : PKey → U)
    (key : PKey) : Fin m → ℝ :=
  VonMises.sampleN cutoff d (vonMisesDraws uniformPm uniform01 ω 100 key)

end Distrax.Keys
