import Verif.Model.KLRegistry

/-! Specification of the KL dispatch: which pairs of distribution types have a closed-form KL, and which formula it is.
Written with families, without resolution orders or registration. -/

namespace Distrax.Spec

/-- Families of distributions with a closed-form KL. -/
inductive Family where
  | bernoulli | beta | categorical | deterministic | dirichlet | gamma | gumbel | independent | joint | laplace | mvn
  | normal | transformed | uniform | vonMises
deriving DecidableEq

/-- The kinds of TFP distributions that matter: a listed class, an unrelated one, or some other class below TFP's
`TransformedDistribution`. -/
inductive TKind where
  | bernoulli | beta | categorical | deterministic | dirichlet | gamma | gumbel | independent | laplace | normal
  | oneHotCategorical | transformed | uniform | vonMises | mvnLinearOperator
  | mvnDiag | mvnTriL | mvnFullCovariance | mvnDiagPlusLowRank
  | otherTransformed | unrelated
deriving DecidableEq

/-- What a distribution is: a Distrax one or a TFP one (possibly wrapped, possibly of a user's subclass). -/
inductive Kind where
  | distrax (c : DCls)
  | tfp (c : TKind)
deriving DecidableEq

/-- The family a Distrax distribution belongs to. -/
def dxFamily : DCls → Option Family
  | .bernoulli => some .bernoulli
  | .beta => some .beta
  | .categorical | .oneHotCategorical | .greedy | .epsilonGreedy | .softmax => some .categorical
  | .deterministic => some .deterministic
  | .dirichlet => some .dirichlet
  | .gamma => some .gamma
  | .gumbel => some .gumbel
  | .independent => some .independent
  | .joint => some .joint
  | .laplace => some .laplace
  | .mvnDiag | .mvnDiagPlusLowRank | .mvnFromBijector | .mvnFullCovariance | .mvnTri => some .mvn
  | .normal | .logStddevNormal => some .normal
  | .transformed => some .transformed
  | .uniform => some .uniform
  | .vonMises => some .vonMises
  | .distribution | .categoricalUniform | .clipped | .clippedNormal | .clippedLogistic | .logistic | .mixtureOfTwo
  | .mixtureSameFamily | .multinomial | .quantized => none

/-- The family a TFP distribution belongs to. -/
def tfFamily : TKind → Option Family
  | .bernoulli => some .bernoulli
  | .beta => some .beta
  | .categorical | .oneHotCategorical => some .categorical
  | .deterministic => some .deterministic
  | .dirichlet => some .dirichlet
  | .gamma => some .gamma
  | .gumbel => some .gumbel
  | .independent => some .independent
  | .laplace => some .laplace
  | .mvnLinearOperator | .mvnDiag | .mvnTriL | .mvnFullCovariance | .mvnDiagPlusLowRank => some .mvn
  | .normal => some .normal
  | .transformed | .otherTransformed => some .transformed
  | .uniform => some .uniform
  | .vonMises => some .vonMises
  | .unrelated => none

/-- Whether a distribution of the kind is also an object of a transformed-distribution class: TFP's Gumbel is. -/
def isTransformed : Kind → Bool
  | .distrax c => dxFamily c = some .mvn || dxFamily c = some .transformed
  | .tfp c => tfFamily c = some .mvn || tfFamily c = some .transformed || c = .gumbel

def family : Kind → Option Family
  | .distrax c => dxFamily c
  | .tfp c => tfFamily c

/-- The formula of a family. -/
def formula : Family → KLFn
  | .bernoulli => .bernoulli
  | .beta => .beta
  | .categorical => .categorical
  | .deterministic => .deterministic
  | .dirichlet => .dirichlet
  | .gamma => .gamma
  | .gumbel => .gumbel
  | .independent => .independent
  | .joint => .joint
  | .laplace => .laplace
  | .mvn => .mvn
  | .normal => .normal
  | .transformed => .transformed
  | .uniform => .uniform
  | .vonMises => .vonMises

/-- The formula for a pair of kinds, at least one of them Distrax's: that of the common family; `LogStddevNormal` with
itself has its own; Beta with Dirichlet is treated as a pair of Dirichlets; otherwise two transformed distributions use the
formula for those; otherwise there is none. -/
def klFormula (a b : Kind) : Option KLFn :=
  if a = .distrax .logStddevNormal ∧ b = .distrax .logStddevNormal then some .logStddevNormal
  else if family a = family b ∧ family a ≠ none then (family a).map formula
  else if (family a = some .beta ∧ family b = some .dirichlet) ∨ (family a = some .dirichlet ∧ family b = some .beta) then
    some .dirichlet
  else if isTransformed a ∧ isTransformed b then some .transformed
  else none

/-- The registered classes among the ancestors of a kind, nearest first. -/
def skeleton : Kind → List Cls
  | .distrax c => ((c :: c.ancestors).filter fun x => x ∈ [DCls.bernoulli, .beta, .categorical, .deterministic, .dirichlet,
      .gamma, .gumbel, .independent, .joint, .laplace, .logStddevNormal, .mvnFromBijector, .normal, .transformed, .uniform,
      .vonMises]).map .dx
  | .tfp .bernoulli => [.tf .bernoulli]
  | .tfp .beta => [.tf .beta]
  | .tfp .categorical => [.tf .categorical]
  | .tfp .deterministic => [.tf .deterministic]
  | .tfp .dirichlet => [.tf .dirichlet]
  | .tfp .gamma => [.tf .gamma]
  | .tfp .gumbel => [.tf .gumbel, .tf .transformed]
  | .tfp .independent => [.tf .independent]
  | .tfp .laplace => [.tf .laplace]
  | .tfp .normal => [.tf .normal]
  | .tfp .oneHotCategorical => [.tf .oneHotCategorical]
  | .tfp .transformed | .tfp .otherTransformed => [.tf .transformed]
  | .tfp .uniform => [.tf .uniform]
  | .tfp .vonMises => [.tf .vonMises]
  | .tfp .mvnLinearOperator | .tfp .mvnDiag | .tfp .mvnTriL | .tfp .mvnFullCovariance | .tfp .mvnDiagPlusLowRank =>
    [.tf .mvnLinearOperator, .tf .transformed]
  | .tfp .unrelated => []

/-- Classes that occur in a Distrax registration. -/
def keyed : Cls → Bool
  | .dx c => c ∈ [DCls.bernoulli, .beta, .categorical, .deterministic, .dirichlet,
      .gamma, .gumbel, .independent, .joint, .laplace, .logStddevNormal, .mvnFromBijector, .normal, .transformed, .uniform,
      .vonMises]
  | .tf c => c ∈ [TCls.bernoulli, .beta, .categorical, .deterministic, .dirichlet, .gamma, .gumbel, .independent, .laplace,
      .normal, .oneHotCategorical, .transformed, .uniform, .vonMises, .mvnLinearOperator]
  | .other _ => false

/-- `m` is a possible resolution order of a type of kind `k`: no repetitions, the registered classes on it are those of
the kind in their order (anything may stand in between: base classes, users' classes), and a Distrax type has no TFP class
on it. -/
structure IsType (k : Kind) (m : List Cls) : Prop where
  nodup : m.Nodup
  keys : m.filter keyed = skeleton k
  noTfp : ∀ c, k = .distrax c → ∀ t, Cls.tf t ∉ m
  noDx : ∀ c, k = .tfp c → ∀ d, Cls.dx d ∈ m → d = .distribution

/-- TFP's own registrations: pairs of TFP classes only. -/
def TfpOnly (r : KLRegistry) : Prop := ∀ e ∈ r, (∃ a, e.1.1 = .tf a) ∧ (∃ b, e.1.2 = .tf b)

end Distrax.Spec
