import Verif.Lemmas.Arr
import Verif.Lemmas.Bijector
import Verif.Lemmas.Broadcast
import Verif.Lemmas.CatUniArr
import Verif.Lemmas.Categorical
import Verif.Lemmas.Continuous
import Verif.Lemmas.Coupling
import Verif.Lemmas.DTypes
import Verif.Lemmas.Dirichlet
import Verif.Lemmas.FamArr
import Verif.Lemmas.Float
import Verif.Lemmas.FloatAcc
import Verif.Lemmas.FloatFmt
import Verif.Lemmas.FloatGrad
import Verif.Lemmas.FloatHMM
import Verif.Lemmas.FloatSpline
import Verif.Lemmas.FloatSpline10
import Verif.Lemmas.FloatSpline11
import Verif.Lemmas.FloatSpline12
import Verif.Lemmas.FloatSpline13
import Verif.Lemmas.FloatSpline14
import Verif.Lemmas.FloatSpline15
import Verif.Lemmas.FloatSpline2
import Verif.Lemmas.FloatSpline3
import Verif.Lemmas.FloatSpline4
import Verif.Lemmas.FloatSpline5
import Verif.Lemmas.FloatSpline6
import Verif.Lemmas.FloatSpline7
import Verif.Lemmas.FloatSpline8
import Verif.Lemmas.FloatSpline9
import Verif.Lemmas.FloatViterbi
import Verif.Lemmas.GammaBeta
import Verif.Lemmas.Gauss
import Verif.Lemmas.Grad
import Verif.Lemmas.GumbelMax
import Verif.Lemmas.HMM
import Verif.Lemmas.HMMGrad
import Verif.Lemmas.Jacobian
import Verif.Lemmas.JacobianArr
import Verif.Lemmas.Jaxpr
import Verif.Lemmas.Joint
import Verif.Lemmas.KLGrad
import Verif.Lemmas.Keys
import Verif.Lemmas.Linear
import Verif.Lemmas.MVN
import Verif.Lemmas.MVNGrad
import Verif.Lemmas.MVNGrad2
import Verif.Lemmas.MVNGrad3
import Verif.Lemmas.MVNGrad4
import Verif.Lemmas.MVNKL
import Verif.Lemmas.MathUtils
import Verif.Lemmas.Multinomial
import Verif.Lemmas.Pathwise
import Verif.Lemmas.Scalar
import Verif.Lemmas.ScoreGrad
import Verif.Lemmas.ScoreGrad2
import Verif.Lemmas.ScoreGrad3
import Verif.Lemmas.ScoreGrad4
import Verif.Lemmas.Shape
import Verif.Lemmas.Spline
import Verif.Lemmas.SplineGrad
import Verif.Lemmas.StdLaws
import Verif.Lemmas.StdLaws2
import Verif.Lemmas.StdLaws3
import Verif.Lemmas.Tame
import Verif.Lemmas.Transformed
import Verif.Lemmas.VecArr
import Verif.Lemmas.VonMises
import Verif.Lemmas.VonMisesSample
import Verif.Lemmas.VonMisesSeries
import Verif.Lemmas.WrapArr
import Verif.Lemmas.XR
import Verif.Model.Arr
import Verif.Model.ArrayLaw
import Verif.Model.Bernoulli
import Verif.Model.Bijector
import Verif.Model.Categorical
import Verif.Model.CategoricalUniform
import Verif.Model.Chain
import Verif.Model.Continuous
import Verif.Model.Conversion
import Verif.Model.Coupling
import Verif.Model.DTypes
import Verif.Model.Defaults
import Verif.Model.FamArr
import Verif.Model.FloatArith
import Verif.Model.FloatDists
import Verif.Model.FloatGrad
import Verif.Model.FloatHMM
import Verif.Model.FloatSample
import Verif.Model.FloatSpline
import Verif.Model.FloatViterbi
import Verif.Model.GammaBeta
import Verif.Model.Grad
import Verif.Model.GradQuant
import Verif.Model.HMM
import Verif.Model.HMMGrad
import Verif.Model.Jaxpr
import Verif.Model.Jittable
import Verif.Model.Joint
import Verif.Model.KLGrad
import Verif.Model.KLRegistry
import Verif.Model.Keys
import Verif.Model.Lambda
import Verif.Model.Linear
import Verif.Model.MVN
import Verif.Model.MVNGrad
import Verif.Model.MVNSlice
import Verif.Model.MathUtils
import Verif.Model.Mixture
import Verif.Model.MonteCarlo
import Verif.Model.Multinomial
import Verif.Model.Pathwise
import Verif.Model.Quantized
import Verif.Model.ScoreGrad
import Verif.Model.Shape
import Verif.Model.Slice
import Verif.Model.Spline
import Verif.Model.SplineGrad
import Verif.Model.StraightThrough
import Verif.Model.Transformed
import Verif.Model.TransformedArr
import Verif.Model.VecArr
import Verif.Model.VonMises
import Verif.Model.WrapArr
import Verif.Model.Wrapper
import Verif.Model.XR
import Verif.Props.ArrayLaw
import Verif.Props.ArrayLaw2
import Verif.Props.Bernoulli
import Verif.Props.BetaDirichlet
import Verif.Props.Bijector
import Verif.Props.CatUniArr
import Verif.Props.Categorical
import Verif.Props.CategoricalUniform
import Verif.Props.Chain
import Verif.Props.ChainJacobian
import Verif.Props.ChainMeta
import Verif.Props.Clipped
import Verif.Props.Consistency
import Verif.Props.Conversion
import Verif.Props.Coupling
import Verif.Props.CouplingJacobian
import Verif.Props.DTypes
import Verif.Props.Defaults
import Verif.Props.DirichletLaw
import Verif.Props.Equivalent
import Verif.Props.Equivalent2
import Verif.Props.FamArr
import Verif.Props.FamArr2
import Verif.Props.FamArr3
import Verif.Props.Float
import Verif.Props.Float2
import Verif.Props.Float3
import Verif.Props.Float4
import Verif.Props.Float5
import Verif.Props.FloatAcc
import Verif.Props.FloatAcc2
import Verif.Props.FloatAcc3
import Verif.Props.FloatAcc4
import Verif.Props.FloatGrad
import Verif.Props.FloatGrad2
import Verif.Props.FloatGrad3
import Verif.Props.FloatHMM
import Verif.Props.FloatHMM2
import Verif.Props.FloatHMM3
import Verif.Props.FloatHMM4
import Verif.Props.FloatSample
import Verif.Props.FloatSample2
import Verif.Props.FloatSample3
import Verif.Props.FloatSample4
import Verif.Props.FloatSample5
import Verif.Props.FloatSpline
import Verif.Props.FloatSpline2
import Verif.Props.FloatSpline3
import Verif.Props.FloatSpline4
import Verif.Props.FloatSpline5
import Verif.Props.FloatSpline6
import Verif.Props.FloatSpline7
import Verif.Props.FloatSpline8
import Verif.Props.FloatViterbi
import Verif.Props.Gamma
import Verif.Props.Grad
import Verif.Props.GradQuant
import Verif.Props.HMM
import Verif.Props.HMMClamp
import Verif.Props.HMMGrad
import Verif.Props.HMMSample
import Verif.Props.Jaxpr
import Verif.Props.Jittable
import Verif.Props.Joint
import Verif.Props.KLGrad
import Verif.Props.KLGrad2
import Verif.Props.KLGrad3
import Verif.Props.KLRegistry
import Verif.Props.Keys
import Verif.Props.Keys2
import Verif.Props.Keys3
import Verif.Props.Lambda
import Verif.Props.Linear
import Verif.Props.LocScale
import Verif.Props.MVN
import Verif.Props.MVN2
import Verif.Props.MVNGrad
import Verif.Props.MVNSlice
import Verif.Props.MathUtils
import Verif.Props.Mixture
import Verif.Props.MonteCarlo
import Verif.Props.MonteCarloGrad
import Verif.Props.Multinomial
import Verif.Props.Normal
import Verif.Props.Pathwise
import Verif.Props.PathwiseVM
import Verif.Props.Quantized
import Verif.Props.SampleLaw
import Verif.Props.ScoreGrad
import Verif.Props.ScoreGrad2
import Verif.Props.ScoreGrad3
import Verif.Props.ScoreGrad4
import Verif.Props.Shape
import Verif.Props.ShapeIndex
import Verif.Props.ShapeJoint
import Verif.Props.Slice
import Verif.Props.Spline
import Verif.Props.SplineGrad
import Verif.Props.StraightThrough
import Verif.Props.Transformed
import Verif.Props.TransformedKL
import Verif.Props.Variance
import Verif.Props.VecArr
import Verif.Props.VecArr2
import Verif.Props.VecArr3
import Verif.Props.VonMises
import Verif.Props.VonMisesGrad
import Verif.Props.VonMisesGradAcc
import Verif.Props.VonMisesNormal
import Verif.Props.VonMisesNormalAcc
import Verif.Props.VonMisesNormalGrad
import Verif.Props.VonMisesSample
import Verif.Props.VonMisesSeries
import Verif.Props.WrapArr
import Verif.Props.Wrapper
import Verif.Spec.ArrayLaw
import Verif.Spec.Bernoulli
import Verif.Spec.Bijector
import Verif.Spec.Categorical
import Verif.Spec.CategoricalUniform
import Verif.Spec.Cholesky
import Verif.Spec.Continuous
import Verif.Spec.Conversion
import Verif.Spec.Coupling
import Verif.Spec.DTypes
import Verif.Spec.Density
import Verif.Spec.Dirichlet
import Verif.Spec.Equivalent
import Verif.Spec.FamArr
import Verif.Spec.Float
import Verif.Spec.FloatAcc
import Verif.Spec.FloatHMM
import Verif.Spec.FloatSample
import Verif.Spec.FloatSpline
import Verif.Spec.FloatViterbi
import Verif.Spec.Grad
import Verif.Spec.GradQuant
import Verif.Spec.HMM
import Verif.Spec.HMMGrad
import Verif.Spec.Jacobian
import Verif.Spec.Jaxpr
import Verif.Spec.Jittable
import Verif.Spec.Joint
import Verif.Spec.KLGrad
import Verif.Spec.KLRegistry
import Verif.Spec.Keys
import Verif.Spec.Lambda
import Verif.Spec.Linear
import Verif.Spec.MVN
import Verif.Spec.MVNGrad
import Verif.Spec.MVNObj
import Verif.Spec.MathUtils
import Verif.Spec.Mixture
import Verif.Spec.MonteCarlo
import Verif.Spec.Multinomial
import Verif.Spec.Noise
import Verif.Spec.Pathwise
import Verif.Spec.Quantized
import Verif.Spec.ScoreGrad
import Verif.Spec.Shape
import Verif.Spec.Slice
import Verif.Spec.Spline
import Verif.Spec.SplineGrad
import Verif.Spec.Transformed
import Verif.Spec.VecArr
import Verif.Spec.VonMises
import Verif.Spec.WrapArr
import Verif.Spec.Wrapper
