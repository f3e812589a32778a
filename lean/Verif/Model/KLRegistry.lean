import Verif.Model.Arr
import Mathlib.Data.List.Basic

/-!
# Dispatch of `kl_divergence`

Distrax registers its KL functions with TFP's registry (`tfd.RegisterKL`) and `Distribution.kl_divergence`
(distribution.py:179-189) calls TFP's dispatcher.  Classes are modelled by name, a type by its method resolution order.
The dispatcher is TFP's `_registered_kl` and `kl_divergence` (kullback_leibler.py of TFP), which is not part of this
repository: it is modelled from TFP's source.
-/

namespace Distrax

/-- The distribution classes of Distrax (`class` statements of distributions/*.py). -/
inductive DCls where
  | distribution
  | bernoulli | beta | categorical | categoricalUniform | clipped | clippedNormal | clippedLogistic | deterministic
  | dirichlet | epsilonGreedy | gamma | greedy | gumbel | independent | joint | laplace | logStddevNormal | logistic
  | mixtureOfTwo | mixtureSameFamily | multinomial | mvnDiag | mvnDiagPlusLowRank | mvnFromBijector
  | mvnFullCovariance | mvnTri | normal | oneHotCategorical | quantized | softmax | transformed | uniform | vonMises
deriving DecidableEq

/-- TFP's distribution classes that Distrax's registrations, or their subclasses, mention; `misc n` are all the others.
[external (TFP); reached through the registrations such as normal.py:171] -/
inductive TCls where
  | bernoulli | beta | categorical | deterministic | dirichlet | gamma | gumbel | independent | laplace | normal
  | oneHotCategorical | transformed | uniform | vonMises | mvnLinearOperator
  | mvnDiag | mvnTriL | mvnFullCovariance | mvnDiagPlusLowRank
  | misc (n : ℕ)
deriving DecidableEq

/-- A python class: of Distrax, of TFP, or any other one (`Jittable`, `Generic`, `object`, a user's subclass, a class made
by a wrapper). [external (TFP); reached through the registrations such as normal.py:171] -/
inductive Cls where
  | dx (c : DCls)
  | tf (c : TCls)
  | other (n : ℕ)
deriving DecidableEq

/-- The KL functions of Distrax; `tfp n` are TFP's own. [external (TFP); reached through the registrations such as normal.py:171] -/
inductive KLFn where
  | bernoulli | beta | categorical | deterministic | dirichlet | gamma | gumbel | independent | joint | laplace
  | logStddevNormal | mvn | normal | transformed | uniform | vonMises
  | tfp (n : ℕ)
deriving DecidableEq

/-- The three classes every Distrax distribution inherits from in the end (distribution.py:49-50). -/
def rootMro : List Cls := [.other 0, .other 1, .other 2]

/-- The single base class in the `class` statement, for those that do not inherit from `Distribution` directly:
greedy.py:34, clipped.py:126,135, mvn_diag_plus_low_rank.py:88, mvn_from_bijector.py:51, mvn_tri.py:62,
log_stddev_normal.py:34, one_hot_categorical.py:35, mvn_diag.py:51, softmax.py:28, epsilon_greedy.py:41,
mvn_full_covariance.py:61.  Here with all further ancestors. -/
def DCls.ancestors : DCls → List DCls
  | .distribution => []
  | .greedy | .oneHotCategorical | .softmax | .epsilonGreedy => [.categorical, .distribution]
  | .clippedNormal | .clippedLogistic => [.clipped, .distribution]
  | .logStddevNormal => [.normal, .distribution]
  | .mvnFromBijector => [.transformed, .distribution]
  | .mvnDiag | .mvnDiagPlusLowRank | .mvnTri => [.mvnFromBijector, .transformed, .distribution]
  | .mvnFullCovariance => [.mvnTri, .mvnFromBijector, .transformed, .distribution]
  | _ => [.distribution]

/-- `cls.__mro__` of a Distrax class. [external (TFP); reached through the registrations such as normal.py:171] -/
def DCls.mro (c : DCls) : List Cls := (c :: c.ancestors).map .dx ++ rootMro

/-- `class Sub(base)`: also `TFPCompatibleDistribution` (tfp_compatible_distribution.py:61). -/
def subclassMro (n : ℕ) (base : List Cls) : List Cls := .other n :: base

/-- `class DistributionFromTFP(Distribution, tfp_class)` (distribution_from_tfp.py:49-50); `base` is the resolution order
of the TFP class without its last entry `object`. -/
def fromTfpMro (n : ℕ) (base : List Cls) : List Cls :=
  .other n :: .dx .distribution :: .other 0 :: .other 1 :: (base ++ [.other 2])

/-- A registry: pairs of classes and their functions. [external (TFP); reached through the registrations such as normal.py:171] -/
abbrev KLRegistry := List ((Cls × Cls) × KLFn)

/-- `_DIVERGENCES.get((a, b), None)`. [external (TFP); reached through the registrations such as normal.py:171] -/
def KLRegistry.get (r : KLRegistry) (a b : Cls) : Option KLFn := (r.find? fun e => e.1 = (a, b)).map (·.2)

/-- `RegisterKL(a, b)(fn)`: a second registration of a pair is a ValueError.
[external (TFP); reached through the registrations such as normal.py:171] -/
def KLRegistry.register (r : KLRegistry) (e : (Cls × Cls) × KLFn) : Except Err KLRegistry :=
  match r.get e.1.1 e.1.2 with
  | some _ => .error .valueError
  | none => .ok (r ++ [e])

/-- A Distrax class with itself and, both ways, with its TFP counterpart. [external (TFP); reached through the registrations such as normal.py:171] -/
def registerTriple (d : DCls) (t : TCls) (f : KLFn) : KLRegistry :=
  [((.dx d, .dx d), f), ((.dx d, .tf t), f), ((.tf t, .dx d), f)]

/-- All `tfd.RegisterKL` statements: bernoulli.py:215-220, beta.py:196-198, categorical.py:204-215,
deterministic.py:176-181, dirichlet.py:210-221, gamma.py:159-161, gumbel.py:156-158, independent.py:190-194, joint.py:152,
laplace.py:173-175, log_stddev_normal.py:105, mvn_from_bijector.py:257-265, normal.py:171-173, transformed.py:310-314,
uniform.py:165-167, von_mises.py:489-495. -/
def distraxKLs : KLRegistry :=
  registerTriple .bernoulli .bernoulli .bernoulli ++
  registerTriple .beta .beta .beta ++
  registerTriple .categorical .categorical .categorical ++
  [((.dx .categorical, .tf .oneHotCategorical), .categorical), ((.tf .oneHotCategorical, .dx .categorical), .categorical)] ++
  registerTriple .deterministic .deterministic .deterministic ++
  registerTriple .dirichlet .dirichlet .dirichlet ++
  [((.dx .dirichlet, .dx .beta), .dirichlet), ((.dx .beta, .dx .dirichlet), .dirichlet),
   ((.dx .dirichlet, .tf .beta), .dirichlet), ((.tf .beta, .dx .dirichlet), .dirichlet),
   ((.tf .dirichlet, .dx .beta), .dirichlet), ((.dx .beta, .tf .dirichlet), .dirichlet)] ++
  registerTriple .gamma .gamma .gamma ++
  registerTriple .gumbel .gumbel .gumbel ++
  registerTriple .independent .independent .independent ++
  [((.dx .joint, .dx .joint), .joint)] ++
  registerTriple .laplace .laplace .laplace ++
  [((.dx .logStddevNormal, .dx .logStddevNormal), .logStddevNormal)] ++
  registerTriple .mvnFromBijector .mvnLinearOperator .mvn ++
  registerTriple .normal .normal .normal ++
  registerTriple .transformed .transformed .transformed ++
  registerTriple .uniform .uniform .uniform ++
  registerTriple .vonMises .vonMises .vonMises

/-- One round of the double loop of TFP's `_registered_kl`: the state is the best distance so far and its function.
[external (TFP); reached through the registrations such as normal.py:171] -/
def klStep (st : Option (ℕ × KLFn)) (c : ℕ × Option KLFn) : Option (ℕ × KLFn) :=
  match st with
  | none => c.2.map fun f => (c.1, f)
  | some (d, f) =>
    match c.2 with
    | none => some (d, f)
    | some g => if c.1 < d then some (c.1, g) else some (d, f)

/-- The candidates in the order of the double loop over the two resolution orders.
[external (TFP); reached through the registrations such as normal.py:171] -/
def klCandidates (r : KLRegistry) (ma mb : List Cls) : List (ℕ × Option KLFn) :=
  ma.zipIdx.flatMap fun p => mb.zipIdx.map fun q => (p.2 + q.2, r.get p.1 q.1)

/-- TFP's `_registered_kl(type_a, type_b)`. [external (TFP); reached through the registrations such as normal.py:171] -/
def registeredKl (r : KLRegistry) (ma mb : List Cls) : Option KLFn :=
  ((klCandidates r ma mb).foldl klStep none).map (·.2)

/-- `kl_divergence` (distribution.py:179-189, distribution_from_tfp.py:101-104): the function called, or
NotImplementedError. -/
def klDispatch (r : KLRegistry) (ma mb : List Cls) : Except Err KLFn :=
  match registeredKl r ma mb with
  | some f => .ok f
  | none => .error .notImplemented

end Distrax
