# Formal model of distrax in Lean 4 — design

Source modelled: `/repo/distrax/_src/**` (non-test python).  Lean project: `/verif/lean`.

## Layout

* `Verif/Model/*.lean` — the model.  One definition per python function/method; each cites file and lines.
* `Verif/Spec/*.lean` — small, model-independent specifications (brute-force sums over HMM paths, law of a
  clipped variable, ...).
* `Verif/Lemmas/*.lean` — helper lemmas.
* `Verif/Props/*.lean` — the property theorems `Cxx_...`, each with a non-vacuity `example` beside it.
* `MANIFEST.json` — property → theorem names.  `seeded/LOG.jsonl` — mutation experiments.

## Trusted base

* Lean 4.33.0 kernel; axioms `propext`, `Classical.choice`, `Quot.sound` only (checked with `#print axioms`).
* My reading of the python source (the code is not run here).
* **Floating point is idealised**: `float32/64` values are real numbers with exact arithmetic and the true
  transcendental functions.  Where the code's branches are *about* inf/nan, the model uses the type
  `XR = fin r | +inf | -inf | nan` with IEEE special-value rules and exact finite arithmetic.
  Rounding, overflow and underflow are modelled in C61, C62 and C63 only: there every operation of the scalar formulas is followed by
  a rounding about which only what every IEEE binary format with round-to-nearest satisfies is assumed (`Fmt`, instances in
  `Lemmas/FloatFmt.lean`); `exp`, `log`, `log1p`, `expm1`, `logistic`, `tanh` count as one correctly rounded operation, subnormals
  are kept (no flush-to-zero), zeros are unsigned, the compiler does not fuse operations, sums may be taken in any order.
* JAX/TFP primitives are modelled by their mathematical meaning (`jnp.exp`, `log`, `where`, `cumsum`,
  `softmax`, `logsumexp`, `vmap`, `scan`, broadcasting, row-major `reshape`).  `jit`, tracing, autodiff
  (`jacfwd`), PRNG, sharding and dtypes are not modelled: PRNG draws are arbitrary arguments;
  `jnp.linalg.cholesky`, `solve`, `lgamma`, `igamma`, `i0e`, `ndtr` are either the Mathlib function or a
  parameter with the assumed property listed in the theorem's hypotheses.
* Python exceptions are values (`Except Err`).

## Plan per property

| id | model | proof |
|----|-------|-------|
| C01 | AST of bijectors (`ScalarAffine/Shift/Tanh/Sigmoid/GumbelCDF/Lambda`, `Chain`, `Inverse`, `Block`) evaluated on shaped arrays with broadcasting and errors | structural induction over the AST |
| C02 | the same AST; list folds as in chain.py | list induction |
| C03 | flag properties computed as in constructors | induction + pointwise derivative facts |
| C04 | `same_as` on AST with object identities (addresses) and a heap | double induction |
| C05 | scalar functions on ℝ | `HasDerivAt` |
| C06 | three-branch sigmoid | negation witness at −9, `_partial` for x ≥ −9 |
| C07, C08 | coupling layers over arbitrary index types / lists with arbitrary conditioner | algebra, finite sums; `|det Df|` of the true Fréchet derivative (`Props/CouplingJacobian`, `Props/ChainJacobian` for C02) via block-triangular determinants |
| C09, C10 | Mathlib matrices | `det_of_upperTriangular`, `det_one_add_mul_comm`, Woodbury |
| C11, C12 | list/`Fin n` knots, cumulative sums, quadratic root with guard | real analysis, monotonicity, `HasDerivAt` |
| C13, C14 | jaxprs as lists of equations, environments | reverse induction; non-interference |
| C15 | integer rank logic with `Except` | case analysis + AST induction |
| C16 | `XR` arithmetic | case analysis; `HasDerivAt` |
| C17 | `Fin n → ℝ` | finite sums |
| C18–C20 | shapes as `List ℕ`, row-major ravel | list induction |
| C21–C23 | distributions as records of functions; trees | change of variables, induction over trees |
| C24–C27 | `Fin n → ℝ` / `XR` | Gibbs inequality (`log x ≤ x−1`) |
| C28–C31 | scalar formulas | Mathlib `gaussianReal`, derivatives, integrals |
| C32, C33 | arbitrary probability measure on ℝ with its cdf | measure theory |
| C34, C35 | finite sums, piecewise densities | algebra, integrals |
| C36 | multinomial theorem | `Finset.sum_pow` |
| C37 | Mathlib matrices | trace/det identities |
| C38–C40 | closed formulas; the Dirichlet law on the simplex coordinates `Spec/Dirichlet` | algebra, `gammaPDFReal`, stick-breaking induction over the dimension for normalisation, moments, entropy, KL |
| C41–C46 | recursion over time with `Fin K` states, sums over all paths | induction over time |
| C47, C48 | laws with densities against a common reference measure; n independent draws (product measure), and infinite streams of independent draws | change of variables for densities, linearity of the integral; strong law of large numbers for consistency |
| C49–C53 | decision logic on input kinds, attribute trees, rank arithmetic, dual numbers, cached methods as a state machine | case analysis, induction over conversion sequences, trees and call histories |
| C54 | slicing of the array-level multivariate normals (`MVNSlice`) and of the row-parameter and wrapper classes (`Slice`) | broadcasting algebra, the index theorems of C19, idempotent normalisation |
| C56 | the loop of `_von_mises_cdf_series` with its derivative variables, the two `custom_jvp` tangents | loop coefficients satisfy the Bessel recurrence, so the sum solves the density's ODE up to one residual term; mean-value inequality; implicit function theorem; normal recipe: density comparison, Riccati bounds on the Bessel ratio, Gaussian tails; its concentration derivative by comparing the two derivatives' densities (moments of the half angle up to order 6) plus the effect of the correction term |
| C55 | `Defaults`: cross entropy, default prob/cdf/survival/stddev per entry, default `batch_shape` from leaf shapes | from the entropy and KL theorems of each family (integral linearity, Gibbs); measure complement; list algebra |
| C57 | classes as names, types as resolution orders, the list of registrations, TFP's dispatch loop | least-pair lemma for the loop by induction; the finite table of library classes by kernel evaluation over the whole table, lifted to all resolution orders by order preservation of filtering |
| C58 | `FamArr`: every method of the scalar families as the array expression it is in the source (`_scale` vs `scale`, `expand_dims`, `broadcast_to`, `full_like`, `where`) | a calculus of entrywise expressions (`EW`) closed under the operations; broadcasting is a join of shapes |
| C59 | `ArrayLaw`: `sample` on the whole noise array (flat draw, entrywise map, reshape); whole-array categorical sampler; `VonMises.whileLoop` | noise = product measure over positions; entrywise maps push product measures to product measures, reshape is a bijection of positions; per-entry laws from C24, C27-C29, C39; von Mises by induction over rounds of the shared loop |
| C60 | `TransformedArr`: the methods of `Transformed` on whole arrays, over the bijector tree and `FamArr` distributions | refinement of the bijector tree to entrywise functions (C05), entrywise contracts of C58, one algebraic identity per family; the discrete identities from the pmf theorems of each class |
| C61 | `FloatArith`: formats, rounded operations, JAX's `logaddexp`/`softplus`/`log_softmax`, sums in any order; `FloatDists`: the formulas of the scalar bijectors and distributions, `Quantized`, `MixtureOfTwo`, the HMM forward pass, operation by operation | case analysis on inf/finite plus monotonicity of rounding; induction over summation trees and time; negations with the largest float as witness |
| C62 | as C61 | monotonicity of each rounded operation, gluing at branch boundaries |
| C63 | as C61, with the standard rounding model `Fmt.Acc` derived from round-to-nearest | forward error analysis: each operation's error in units of u, Lipschitz bounds for softplus/log/exp, induction over summation trees |
| C64 | `VecArr`: the methods on whole arrays of any rank: reductions over the last axis with and without `keepdims`, `expand_dims`, one-hot, cumulative sums, outer products, broadcasting | a calculus of arrays with a broadcastable leading part and a fixed trailing block (`EWT`), giving each array method as the row method of `Categorical`, `Multinomial`, `GammaBeta`, `Mixture` at every position; components of mixtures enter through the specification `RowWise`, proved for Normal and preserved by Independent |
| C65 | `WrapArr`: quantized.py, clipped.py, categorical_uniform.py on whole arrays: stored versus broadcast cutoffs, linspace/diff/concatenate along the last axis | the calculus of C58/C64 extended with methods of an entrywise base, optional cutoffs, slices and concatenation |
| C66 | `Grad`: each line of the source replaced by value and jax's transposed derivative rule, cotangents accumulated at each intermediate array, entries in `XR` so that 0·inf and 0/0 are nan; values proved equal to the models of C24–C27 | closed form of the pullback of `log_softmax` on rows with −inf entries, of `mul_exp` and `multiply_no_nan`; directional derivatives of softmax, entropy, KL and mixture log-density by calculus; negations by evaluation; `GradQuant`: `log_prob` of Quantized and Clipped with the base's differentiated tails as parameters; the four tail pieces are either a log with its gradient or masked constants through which nothing passes |
| C67 | `Keys`: a key is its path of child numbers from the root; every `_sample_n` with the keys it hands to its parts (joint, mixtures, multinomial loop, von Mises loop, HMM, wrappers), a primitive call reads the randomness `ω key` | spec `IdealPRNG` (independence promised only for families of keys none of which extends another), `FreshDraws` (reads unrelated descendants of its key only, law under independence); calculus: read, map, child, pair, infinite family (sigma-indexed product measures); closure theorem per combinator, inductive predicate `Composed` for arbitrary nesting, HMM through C46's law, von Mises through C59's loop law with measurability of the loop; adversarial ideal generator in which child 0 repeats its parent |
| C68 | `DTypes`: JAX's promotion lattice with weak types; the dtype of `sample` and of the `dtype` property for every distribution and wrapper as one recursive function; `astype` of whole numbers (wrap-around, round to nearest even); the multinomial `while_loop` run in the requested dtype | induction over the nesting for `dtype` = dtype of samples and for strongly typed floats; exhaustive kernel evaluation over the finite set of dtypes for the promotion facts; loop invariant (counts = tallies) for the multinomial; the exact range of every dtype and what happens one beyond it |
| C69 | `Pathwise`: `jax.jvp` through every differentiable `_sample_n` as dual numbers (value and tangent), the noise constant; ties of `clip`/`minimum` with an arbitrary share | one dominated-convergence lemma for samplers that are locally Lipschitz in the parameter with a square-integrable bound and differentiable for almost all noise; dual numbers that track a differentiable function, operation by operation; clamped form of the piecewise-linear quantile function; integration by parts for von Mises; exact missing terms and counterexamples for mixture weights and for the cut of the circle |
| C70 | `SplineGrad`: the scalar forward, inverse and quadratic-root functions and the constructor on dual numbers; ties of `jnp.clip` pass an arbitrary share | bins are fixed near a point off the knots, so each output tracks a differentiable expression; the two forms of the quadratic root agree where both are defined, which settles `b = 0`; at knots a function that always agrees with one of two functions with equal value and derivative is differentiable. Full claim false on interior knots: negation proved for every valid spline and for the identity initialisation |
| C71 | `HMMGrad`: `_normalize`, `forward`, `backward`, `forward_backward` on dual numbers, `where` passing the tangent of the branch taken | induction over the scan: carried duals track marginal/evidence and log evidence (sums over all paths); a zero weight is a local minimum, so its dropped tangent is 0; score formula by differentiating the path sum; negations by explicit models |
| C72 | `FloatGrad`: value and pullback of the scalar bijectors, log-densities, distribution functions of the location-scale families and Uniform, every operation of the backward pass rounded | case analysis on overflow (`0*inf`, `0/inf`), monotone rounding for sizes (cotangent times factor in [0,1]), `Fmt.Acc` for agreement with derivatives; concrete thresholds for float16/float32 |
| C73 | `ScoreGrad`: `log_prob` of the real-line families, of nested mixtures, of VonMises and Uniform, the terms of the two Monte-Carlo KL estimators, as values with tangents | `Tame`: a calculus of parametrised functions with local Lipschitz bounds by powers of a gauge (`1+|x|`, with `exp(-x)` added for Gumbel), closed under the operations of the code; dominated convergence once for all; mixtures of different gauges by linearity and uniqueness of derivatives; reparameterised estimators by change of variables; independence by product measures; Gamma, Beta and Dirichlet (`gammaLogProb`, `betaLogProb`, `dirichletLogProb`) with gauges in `|log x|` and dominating densities with halved concentrations |
| C74 | `MVNGrad`: the four multivariate normals with their scale bijectors (DiagLinear, TriangularLinear, DiagPlusLowRankLinear) and the Cholesky factor, on numbers with tangents | every scale bijector equals one matrix with tangents (identities of dual numbers from identities of real curves by uniqueness of derivatives; Woodbury; Jacobi's formula; smoothness of the Cholesky factor by induction on the size); the log-density is `Tame` and dominated by products of exponentials; vector version of differentiation under the expectation |
| C75 | `KLGrad`: `entropy` and the registered divergences of all closed-form families on numbers with tangents, with jax's rules for digamma, lgamma, i0e, i1e, abs, where | the reported value is the integral (C28-C40, C37) along the whole parameter curve, the reported tangent tracks the formula (`Tracks` / `CA` calculus), so it is the derivative of the integral by uniqueness; kinks by one-sided analysis; Bessel functions by differentiating under the integral; VonMises at 0 by explicit computation (negation) |
| C76 | `FloatHMM`: `_normalize`, `forward`, `backward`, `forward_backward` with every operation rounded in an abstract format and the sums as arbitrary summation orders | relative-perturbation calculus `Close ρ k` (products add, sums of nonnegative terms keep, normalisation doubles), induction over the scan against the exact recursion of C41/C43; the regularity of a run by an invariant of the rows |
| C77 | `FloatViterbi`: `viterbi` with rounded additions, `jnp.max` / `jnp.argmax` with their nan rules, the one-hot read-out of back-pointers in floats | rounding is monotone, so the table bounds the rounded score of every path and is attained along the back-pointers; the evaluation error of one path (additions only) then bounds the loss |
| C78 | `FloatSample`: `_sample_n` and `_sample_n_and_log_prob` of Uniform, Bernoulli, Normal, Laplace, Gumbel, Logistic, Categorical (Gumbel-max), Quantized, Transformed (Sigmoid, Tanh) with every operation rounded; draws are arguments restricted by `UnitDraw` / `OpenUnitDraw` (values of `jax.random.uniform`, from memory) | monotone rounding for the support; the standard error model for accuracy; rounding to nearest for the bound on own samples and for saturation; counting the equally likely draws for the Bernoulli frequency; witnesses for the failures |
| C79 | `FloatSpline`: constructor, `_rational_quadratic_spline_fwd`, `_rational_quadratic_spline_inv`, `_safe_quadratic_root`, softmax, slopes, with every operation rounded and every sum in any order | each subexpression of a segment is bounded away from 0 and from overflow by the standard error model (`seg_den`, `seg_arg`, `root_num`, `seg_coeffs`); knots by an error analysis of softmax and cumsum; the collapsed bin is an explicit `float32` computation; accuracy of a segment (`segFwd_acc`) composes the errors of slope, position, numerator, denominator and quotient (`seg_inner`, `seg_arg_acc`, `logs_acc3` for the log-determinant, compared with the derivative of the exact segment, `rqSegment_deriv`); the inverse by perturbation of the coefficients, the discriminant (which is the square of the derivative at the root, `exact_root`) and the branch of the root formula (`root_acc`, `segInv_acc`); the parameter blocks by congruence |

## What is modelled, file by file

Every definition in `Verif/Model` cites file and lines.  "Per entry" means: the python code acts entrywise after broadcasting;
the formula is modelled for one entry, and shapes, broadcasting and slicing are modelled once, generically (C18–C20); `FamArr` (C58)
proves for the scalar families that the array expressions in the source are exactly those entrywise formulas.

| python file | model | not modelled |
|---|---|---|
| bijectors/bijector.py | `Bijector`, `Chain`, `Shape` (constructor checks, flags, rank checks, defaults) | `__call__` conveniences, `name` |
| bijectors/{scalar_affine,shift,tanh,sigmoid,gumbel_cdf,chain,inverse,block}.py | `Bijector`, `Chain` (arrays, broadcasting, errors, `same_as` with object identities) | dtype promotion; `jnp.exp(log_scale)` overflow |
| bijectors/lambda_bijector.py | `Lambda` (state machine with caches), `UserScalar` inside chains | — |
| bijectors/{linear,diag_linear,triangular_linear,unconstrained_affine,lower_upper_triangular_affine,diag_plus_low_rank_linear}.py | `Linear` | `vectorize` signature strings; `solve_triangular` is exact |
| bijectors/{masked_coupling,split_coupling}.py | `Coupling` | — (any conditioner, any inner bijector) |
| bijectors/rational_quadratic_spline.py | `Spline` | `jnp.vectorize` plumbing; range constants exact reals |
| bijectors/{tfp_compatible_bijector,bijector_from_tfp}.py | `Wrapper` | `name`, `parameters`, `dtype`, `__getattr__` details |
| distributions/distribution.py | `Shape` (sampling, seeds, batch slicing), `Slice`, `MVNSlice` (`__getitem__`), `Conversion`, `Defaults` (derived methods, default `batch_shape`) | `dtype` through `eval_shape`; nested events only in `Joint` and `Defaults` |
| distributions/{normal,log_stddev_normal,laplace,logistic,gumbel,uniform,deterministic}.py | `Continuous` per entry, `FamArr` on whole arrays | — |
| distributions/{gamma,beta,dirichlet}.py | `GammaBeta` per entry, `FamArr` (gamma, beta) and `VecArr` (dirichlet) on whole arrays | `jax.random.gamma/beta/dirichlet` are trusted samplers where the code just calls them |
| distributions/{categorical,one_hot_categorical,greedy,epsilon_greedy,softmax}.py | `Categorical` per batch row, on `XR`; `VecArr` on whole arrays; `ArrayLaw` the sampler on whole arrays | dtype conversion of samples |
| distributions/bernoulli.py, multinomial.py, categorical_uniform.py | `Bernoulli` (`FamArr` on whole arrays), `Multinomial` (`VecArr` on whole arrays), `CategoricalUniform` (`WrapArr` on whole arrays, with quantized.py and clipped.py) | — |
| distributions/{quantized,clipped}.py | `Quantized` over an arbitrary base law | float rounding of `cdf` differences |
| distributions/{mixture_of_two,mixture_same_family}.py | `Mixture` per entry, `VecArr` on whole arrays | — |
| distributions/{independent,joint,transformed}.py | `Shape`, `VecArr` (independent), `Joint`, `Transformed`, `TransformedArr` | TFP's KL registry is a parameter |
| distributions/mvn_*.py | `MVN` on arrays and matrices | Cholesky is a contract |
| distributions/von_mises.py | `VonMises` (rejection loop and `custom_jvp` tangents included; Bessel functions are integrals) | derivative of the series at concentration 0 (nan in floats) |
| distributions/straight_through.py | `StraightThrough` (dual numbers) | class creation |
| distributions/{distribution_from_tfp,tfp_compatible_distribution}.py | `Conversion`, `KLRegistry` (KL dispatch) | `experimental_local_measure`, `__getitem__` of the wrappers |
| utils/hmm.py | `HMM`, `HMMGrad` | learning-related wrappers do not exist in this file |
| utils/math.py | `MathUtils` | `jnp` primitives exact |
| utils/transformations.py | `Jaxpr` (straight-line jaxprs with calls) | control-flow primitives; jax's own tracing |
| utils/{importance_sampling,monte_carlo}.py | `MonteCarlo` | — |
| utils/conversion.py, jittable.py | `Conversion`, `Jittable` | — |
| (keys of `_sample_n` in joint.py, mixture_of_two.py, mixture_same_family.py, multinomial.py, von_mises.py, hmm.py, wrappers) | `Keys` | `jax.random` (ideal generator, hypothesis `IdealPRNG`); in jax the children of a key also depend on the number split off, in the model they do not (so reuse is easier to commit in the model) |
| (dtypes of `sample` and of the `dtype` property in all distributions, the `dtype` arguments) | `DTypes` | 8-bit floats and 4-bit integers; Quantized; TFP distributions; dtypes of methods other than `sample`, `dtype` and Deterministic's `log_prob` |
| (reverse-mode derivatives) | `Grad`: categorical.py, one_hot_categorical.py, bernoulli.py `log_prob`/`prob`/`entropy`/KL, mixture_same_family.py `log_prob`; `GradQuant`: quantized.py and clipped.py `log_prob`, logistic.py and uniform.py tails; utils/math.py derivative rules | derivatives of the other methods (except C16, C52, C56); jax's own rules for its primitives are assumed as listed in the file |
| (forward-mode derivatives of samples) | `Pathwise`: `_sample_n` of normal.py, log_stddev_normal.py, laplace.py, logistic.py, gumbel.py, uniform.py, clipped.py, quantized.py, categorical_uniform.py, mixture_of_two.py, mixture_same_family.py, von_mises.py | gamma.py, beta.py, dirichlet.py (jax.random's own implicit derivatives), MVN, `sample_and_log_prob` |
| (forward-mode derivatives of the spline) | `SplineGrad`: all scalar functions of rational_quadratic_spline.py and `__init__` on accepted arguments | `jnp.vectorize` (entry by entry) |
| (all of the above in floating point) | `FloatArith`, `FloatDists`: sigmoid.py, tanh.py, gumbel_cdf.py, scalar_affine.py, normal.py, laplace.py, logistic.py, gumbel.py, uniform.py, bernoulli.py, categorical.py, mixture_of_two.py, quantized.py `log_prob`, hmm.py `forward` | all other methods in floating point; errors of the library functions |
| (score functions, Monte-Carlo KL gradients) | `ScoreGrad`: `log_prob` of normal.py, log_stddev_normal.py, laplace.py, logistic.py, gumbel.py, uniform.py, von_mises.py, mixtures, independent.py; `_sample_n_and_log_prob`; monte_carlo.py | values per scalar entry |
| (gradients of the multivariate normals) | `MVNGrad`: mvn_diag.py, mvn_tri.py, mvn_full_covariance.py, mvn_diag_plus_low_rank.py, mvn_from_bijector.py with transformed.py `log_prob`, `_sample_n`, `_sample_n_and_log_prob`, diag_linear.py, triangular_linear.py, diag_plus_low_rank_linear.py, chain.py; one batch entry, differentiation in any direction of parameter space | forward mode only (reverse mode computes the same derivatives); batching is C09/C37 |
| (gradients of entropies and divergences) | `KLGrad`: `entropy` and `_kl_divergence_*` of normal.py, log_stddev_normal.py, laplace.py, logistic.py, gumbel.py, uniform.py, gamma.py, beta.py, dirichlet.py, von_mises.py, mvn_from_bijector.py, transformed.py `entropy` | per batch entry; forward mode; the derivative rules of `digamma`, `lgamma`, `i0e`, `i1e` are jax's, from memory |
| `_sample_n`, `_sample_n_and_log_prob` (floating point) | `FloatSample`: uniform.py, bernoulli.py, normal.py, laplace.py, gumbel.py, logistic.py, categorical.py, quantized.py, transformed.py (scalar bijectors Sigmoid and Tanh) | draws of the generator are arguments (ranges of `jax.random.uniform` and `jax.random.gumbel` from memory); one batch entry; operations correctly rounded, no fused multiply-add |
| rational_quadratic_spline.py (floating point) | `FloatSpline`: the constructor and all functions of the file for one scalar input, every operation rounded, sums and cumulative sums in any order | `** 2` is one multiplication; square root correctly rounded; range and minima exact until they meet an array; no fused multiply-add; `jnp.vectorize` plumbing |
| utils/hmm.py (floating point) | `FloatHMM`, `FloatViterbi`: `_normalize`, `HMM.forward`, `HMM.backward`, `HMM.forward_backward`, `HMM.viterbi` | component probabilities are given floats; operations correctly rounded (log with the accuracy of `Fmt.Acc`), no fused multiply-add; sums over states in any order |
| (reverse mode in floating point) | `FloatGrad`: sigmoid.py, tanh.py, gumbel_cdf.py, log-densities and distribution functions of the scalar families, uniform.py | one entry; order of the backward operations as stated in the file |
| utils/equivalence.py | — | test helper |

## Assumptions about libraries that appear as hypotheses

`CholeskyContract` (MVN full covariance), exact linear solves, `erf`/`erf_inv` mutually inverse (C13), TFP's promise that a sample of shape
`S` is `prod(S)` samples reshaped (`TfpSamples`, C49), the truth value of a TFP `TensorShape` (a parameter in C49), jax's uniform
noise being uniform on (0,1) and keys independent (C36, C46, sampling laws), arrays of noise having independent entries (C59), `split` returning the requested number of keys (C23),
TFP's dispatch loop `_registered_kl` and the ancestors of TFP's classes (C57), numpy's indexing of an array depending on its shape only (C19),
JAX's formulas for `logaddexp` (`max + log1p(exp(-|difference|))`, the sum when the difference is nan), `softplus` and `log_softmax`, and correct
rounding of its elementary functions (C61, C62, C63), a generator that gives independent numbers at keys none of which is derived from another
(`IdealPRNG`, C67), JAX's promotion lattice, weak types and conversion of whole numbers (C68),
jax's derivative rules for the elementary operations (C66, C69, C70, C71, C72, C73, C74, C75; listed at the head of `Model/Grad`, `Model/Pathwise`, `Model/SplineGrad`, `Model/HMMGrad`, `Model/ScoreGrad`, `Model/MVNGrad`, `Model/KLGrad` and `Model/FloatGrad`, the latter also with the order of operations of the backward pass).

## Disagreements between the code and its documentation (proved unless marked)

1. chain.py: docstring lines 31-32 say `fN o ... o f1`; the code (and its NOTE) compute `f1(f2(...))` (C02).
2. sigmoid.py:77-84: below −9 forward is `exp(x)`, so the map is neither injective nor monotone at −9 (`C06_sigmoid_not_injective`).
3. rational_quadratic_spline.py `_safe_quadratic_root`: the clamp at `tiny` breaks exact inversion for extreme parameters (`C12_guard_needed`).
4. transformations.py: `c ** x` is inverted as if it were `x ** c` (`C13_variable_exponent_wrong`); repeated call operands defeat the
   constant-Jacobian test (`C14_repeated_operand_missed`).
5. math.py: `power_no_nan`'s jvp is nan at 0 (C16); `multiply_no_nan`'s documented ValueError is not raised; `log_expbig_minus_expsmall(-inf,-inf)` is nan (C17).
6. distribution.py: a scalar batch accepts any index silently (`C19_scalar_accepts_anything`).
7. transformed.py:293-306: KL equality of bijectors compares printed jaxprs, which omit captured constants (`C22_captured_constants_collide`).
8. joint.py:58: leading `()` batch shapes are not compared (`C23_mixed_batch_accepted`); `log_cdf` truncates (`C23_log_cdf_truncates`);
   a nested `Joint` cannot score its samples (`C23_nested_log_prob_fails`).
9. categorical.py: a non-integer value inside the range has `log_prob = 0` but `prob = 0` (`C24_non_integer_disagree`); OneHot all-zero value
   has `log_prob = 0`; Softmax with temperature 0 samples −1 (C26); Bernoulli does not check its values (C27).
10. log_stddev_normal.py `__getitem__` applies `max_scale` twice (`C28_slice_shrinks_scale`).
11. quantized.py forgets `eps` when sliced and ignores it when sampling (`C32_eps_forgotten`); clipped.py: atoms at the maximum and `min >= max`
   (`C33_boundary`, `C33_degenerate`).
12. mixture_same_family.py: an infinite draw of an unselected component leaks (nan); counts unchecked; mixture_of_two.py shares the component
   choice over the batch (C34).
13. categorical_uniform.py: interior edges counted twice; zero-weight bins give nan samples (C35).
14. multinomial.py: the total of a value is not checked (`C36_total_unchecked`).
15. mvn: negative `scale_diag` is accepted and `cdf` then returns the survival probability (`C37_negative_scale_cdf`); both-`None` raises AssertionError
   for MVNDiag, ValueError elsewhere (`C37_diag_rejects`).
16. beta/dirichlet/gamma: nan at the boundary of the support for unit concentrations, nan modes (C38, C39).
17. von_mises.py: `pi + 4 pi m` is mapped to `pi`, outside the documented half-open range (`C40_angle_exceptions`); negative concentration accepted (C40); from
   concentration 10.5 on `cdf + survival_function < 1` in exact arithmetic (`C56_normal_recipe_deficit`).
18. hmm.py: impossible observations get a finite log-likelihood (`C42_impossible_is_finite`); smoothing with `length < T` returns zeros
   (`C44_short_smoothing_is_zero`); the 1e-15 floor can inflate the evidence by a factor over 9 (`C41_clamp_witness`, with the general
   bound in `C41_forward_bounds`); `length=0` behaves as `length=1` (`C44_length_zero`).
19. monte_carlo.py: a proposal sample outside the support of `a` makes the estimate nan (`C48_outside_support_nan`).
20. tfp_compatible_distribution.py: default survival functions of scalar distributions are refused (`C49_survival_lost`, given TensorFlow's truth value of
   shapes); `to_tfp` wraps its own results again (harmless: `C49_distribution_conversions`); bijector_from_tfp.py forgets
   `is_constant_log_det` (`C49_const_log_det_forgotten`).
21. straight_through.py: wrapping a plain `Categorical` changes shape and value (`C52_plain_categorical`); the dtype argument is dropped (not modelled).
22. lambda_bijector.py: a missing log-det with event rank > 0 is only reported at first use (`C53_no_scalar_log_det`).
23. `same_as`: `ScalarAffine` recomputes arrays so two objects built from the same scale are not `same_as`; `Chain.same_as` is not symmetric (C04).
24. gumbel.py:99-101 `entropy` and von_mises.py `variance`/`entropy` read the stored parameter instead of the broadcast one, so their shape is not
   `batch_shape` (`C58_summary_shape_negation`); `Independent(Gumbel(loc of shape [n], scale of shape [1]), 1).entropy()` is the entropy of one
   coordinate, not of n (`C58_independent_gumbel_entropy`).
25. deterministic.py: the constructor only checks the ranks of the tolerances; shapes that do not broadcast are accepted and every `prob`/`cdf` call
   raises (`C58_deterministic_bad_tolerance`).
26. transformed.py: `batch_shape` is that of the bijector's output but noise is drawn with the batch shape of the base: `Transformed(Normal(0., 1.),
   ScalarAffine(shift=array))` has one batch entry per shift whose samples are perfectly dependent (`C60_small_base_shares_noise`).
27. normal.py `_kl_divergence_normal_normal` divides both locations by the scale before subtracting: `KL(p || p)` of `Normal(3e38, 0.5)` in float32 is
   nan, not 0 (`C61_normal_kl_self`, `C61_normal_kl_nan`).
28. logistic.py and gumbel.py `log_prob` return nan, not −inf, for finite values whose standardised value overflows on the left
   (`C61_left_tail_nan`; `C61_logistic`, `C61_gumbel` are the exact conditions).
29. uniform.py `cdf` at `high` and `KL(p || p)` are nan when `high - low` overflows (`C61_uniform_cdf_nan`, `C61_uniform_kl_nan`).
30. tanh.py log-determinant at −inf is nan although at +inf it is −inf (`C61_tanh_infinite`).
31. quantized.py checks only the rank of `low`/`high`: a cutoff that does not broadcast to the batch shape is accepted, then `cdf`, `log_cdf` and sampling raise (`C65_quantized_bad_cutoff`) while `survival_function` reads the unbroadcast cutoff; categorical_uniform.py checks no shapes at all (`C65_categorical_uniform_rejects`).
32. With `probs` as parameters, reverse-mode gradients are nan whenever a probability is 0 (`log`'s rule computes 0/0): `Categorical(probs=[1., 0.]).log_prob(0)` and `.entropy()` have gradient nan in every entry (`C66_probs_log_prob_nan`, `C66_probs_entropy_nan`), likewise `Bernoulli(probs=0.)` and `probs=1.` (`C66_bernoulli_probs_nan`); with logits the gradients are right. `Bernoulli(logits=±inf).entropy()` has gradient nan (`C66_bernoulli_entropy_inf_nan`), and a mixture's `log_prob` at a value no component can produce has gradient nan (`C66_mixture_impossible_nan`).
33. MixtureOfTwo draws one mask per draw, shared by the whole batch: the batch entries of one draw are dependent, although a batch of distributions is documented as independent (`C67_mixture_of_two_batch_dependent`; the deterministic side is `C34_two_batch_shares_mask`).  MixtureSameFamily draws a component per batch entry and has independent entries (`C67_mixture_same_family`).
34. `Transformed.dtype` can differ from the dtype of its samples when the base samples are weakly typed: `Transformed(Transformed(Categorical(...), ScalarAffine(0., scale=1.5)), Shift(bfloat16 array))` reports float32 and samples bfloat16 (`C68_weak_samples`).
35. `MultivariateNormalFromBijector` with integer `loc` and integer scale samples floats and reports an integer dtype (`C68_integer_mvn`); `MultivariateNormalTri/Diag/...` convert their arguments and are not affected.
36. `Categorical(dtype=t)` returns another number for categories beyond the range of `t` (int8 with more than 128 categories, float16 with more than 2049: `C68_category_survives`), and in unsigned dtypes the marker `-1` of invalid parameters is the largest number of the dtype, a legal category if there are that many (`C68_invalid_marker`). `Multinomial(dtype=t)` casts `total_count` itself: one trial more than `t` holds and the counts no longer sum to `total_count` (`C68_multinomial_overflow`).
37. `VonMises` with bfloat16 parameters raises `KeyError` from a table of cutoffs when sampling (`C68_von_mises`); `MixtureSameFamily` of integer (or half-precision) components returns float32 samples, rounding integers beyond 2^24 (`C68_mixture_same_family`, `C68_mixture_values_rounded`).
38. `Deterministic.sample_and_log_prob` returns the log-probability in the dtype of `loc` (an integer array for integer `loc`), `log_prob` a float (`C68_deterministic_log_prob`).
39. `Quantized(..., eps)` says "use stop_gradient to block updating in this case", but where `eps` replaces the larger tail the gradient is not blocked: `small` still reaches `log_expbig_minus_expsmall` undetached, and the result has the gradient of `-log(small) / (exp(eps) - 1)`, about `-1/eps` times the gradient of the smaller tail — ascent on `log_prob` pushes the smaller tail down (`C66_quantized_eps`).
40. `Quantized(Uniform(0., high))` has log-probability `-log(high)` at 1 but gradient nan with respect to `high`, whatever the cutoffs, because `log(cdf(0))` is differentiated at 0 even where it is masked (`C66_quantized_uniform_nan`).
41. Samples of `MixtureOfTwo` and `MixtureSameFamily` pass no gradient to the mixing weights: `jax.grad` of `f(sample)` misses the term `sum_k w_k' E_k[f]`, for instance the gradient of the mean with respect to `prob_a` is always 0 (`C69_mixture_weights_biased`).  `stop_gradient` or a score-function term is left to the user; the docstrings do not say so.
42. `VonMises.sample` wraps angles into one turn and differentiates the wrap as the identity: the gradient with respect to `loc` is right for functions on the circle (`C69_von_mises_loc_circle`) and misses `(f(pi) - f(-pi)) * prob(pi)` for all others (`C69_von_mises_loc`, `C69_von_mises_loc_biased`), for instance for the sample itself.
43. `RationalQuadraticSpline`: with an input exactly on a knot strictly inside the range, `jnp.clip(z, 0., 1.)` is in a tie and jax passes half of the tangent, so `jax.grad` of `forward` is half of the derivative (and of `exp(forward_log_det_jacobian)`); in `inverse` two clips are in a tie and a quarter is passed (`C70_forward_knot_wrong`, `C70_inverse_knot_wrong`).  With all parameters zero the spline is the identity and with an even number of bins the middle of the range is such a knot (`C70_identity_init_wrong`).
44. `HMM.forward`: `_normalize` replaces weights in `(0, 1e-15)` by the constant `1e-15` and weights equal to 0 by the constant 0, so `jax.grad` drops the contribution of such states.  If an observation has density below `1e-15` in every state (common for vector-valued observations) the gradient of the log-likelihood is exactly 0 (`C71_clamped_vanishes`, `C71_clamped_wrong`); at the edge of the simplex its sign can be wrong (`C71_boundary_wrong`).
45. `Sigmoid`: `jnp.where(x < -9, jnp.exp(x), jax.nn.sigmoid(x))` differentiates both branches, so `jax.grad` of `forward` is `0 * inf = nan` wherever `exp(x)` overflows: in float32 from 88.8 on (proved from 90 on), in float16 from 11.1 on, although `forward` is 1 there (`C72_sigmoid_forward_partial`, `C72_sigmoid_nan`).  The same for both log-determinants, at both ends (`C72_sigmoid_log_det_partial`), and for `inverse_log_det_jacobian` near 0 in float16 (`C72_sigmoid_inverse_nan`).
46. `GumbelCDF.forward` and `Gumbel.cdf` have gradient nan where `exp(-x)` overflows, although the value is 0 (`C72_gumbel_cdf_partial`, `C72_cdf_partial`).
47. The scale gradients of `log_prob` of Normal, Laplace, Logistic and Gumbel at `value == loc` are nan once `1 / scale**2` overflows: scales up to `2**-65` in float32, up to `2**-9` in float16; the log-probability is finite (`C72_small_scale_nan`, `C72_small_scale_formats`).
48. `Laplace.cdf` is written with `sign(z)`; its gradient at `value == loc` is 0 instead of `1 / (2 * scale)` (`C72_laplace_cdf_at_loc`).
49. `Uniform.log_prob` is constant inside the support, so score-function gradients (and `mc_estimate_kl` gradients) with respect to `low` and `high` miss the contribution of the moving ends: the bias is exactly `(f(high) * high' - f(low) * low') / (high - low)`; for the mean of `Uniform(0, s)` the estimate has the wrong sign (`C73_uniform_bias`, `C73_uniform_biased`).
50. `mc_estimate_kl_with_reparameterized` checks reparameterisability of TFP distributions only.  Distrax distributions whose samples carry no gradient (mixing weights of `MixtureOfTwo`/`MixtureSameFamily`, discrete distributions) are accepted and the reported gradient has average zero (`C73_reparam_not_reparameterized`, `C73_reparam_mixture_weight_wrong`).
51. `VonMises.entropy` and the VonMises divergence at concentration 0 (the uniform distribution): jax's rule for `i0e` is `i1e(x) - sign(x) * i0e(x)` and `sign(0) = 0`, so the compensating `+ concentration` terms are not cancelled: `jax.grad` of the entropy with respect to the concentration is 1 where the derivative is 0, and the divergence of two equal uniforms has reported derivative -1 instead of 0 (`C75_von_mises_entropy_zero`, `C75_von_mises_kl_zero`).
52. Uniform divergence with a common edge: the reported derivative is the inward one-sided derivative; moving the first distribution outwards makes the divergence infinite at once, which the gradient does not show (`C75_uniform_kl_edge`).
53. `Uniform(low, high)` with finite bounds whose difference overflows: every sample is `nan` or above `high` (`C78_uniform_overflow`).
54. `Bernoulli.sample` compares the probability with a 23-bit uniform draw (float32): an event of positive probability below `2^-23` is drawn with probability exactly `2^-23`, however small its probability is (`C78_bernoulli_rare`).  Conversely `Categorical.sample` adds Gumbel noise between about -4.5 and 16: a category whose logit is more than about 20.5 below the largest is never drawn (`C78_categorical_never`).
55. `Normal.sample_and_log_prob` reports the density of the unrounded sample: with `|loc|` large compared with `scale` it disagrees with `log_prob` of the returned sample by any amount (`C78_joint_disagree`).
56. Saturation of `Sigmoid` and `Tanh` in `Transformed` (documented in both classes) starts at 17.4 and 9.02 in float32; the result of `log_prob` is then `nan`, not `-inf` or a large negative number (`C78_saturates`, `C78_saturated_nan`).
57. `RationalQuadraticSpline` promises "no bin less than min_bin_size": in float32 with the range [2048, 4096] and the default `min_bin_size` 1e-4 a bin of the minimal size has width zero after the cumulative sum (adding 1e-4 to 2048 changes nothing); the constructor accepts, and `inverse` is `nan` on the whole corresponding bin (`C79_min_bin_size_lost`, `C79_zero_width_nan`).  With `min_bin_size` at least 128*K roundoffs of the range every bin keeps half of it (`C79_knots`).
