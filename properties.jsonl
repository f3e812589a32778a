{"id": "C01", "title": "Composed bijectors are invertible and their log-dets cancel", "statement": "For every bijector built by nesting Chain, Inverse and Block around elementwise bijectors, inverse(forward(x)) == x for x in the domain, forward(inverse(y)) == y for y in the image, and the inverse log-det at forward(x) is minus the forward log-det at x.", "quantifier": "all bijector expressions of any nesting depth and length, all event sizes, all points of the domain", "why_tests_cant": "the expressions are an unbounded inductive family; tests instantiate a handful of short chains", "anchors": ["distrax/_src/bijectors/chain.py:Chain", "distrax/_src/bijectors/inverse.py:Inverse", "distrax/_src/bijectors/block.py:Block", "distrax/_src/bijectors/bijector.py:Bijector"]}
{"id": "C02", "title": "Chain applies the last bijector first and sums log-dets", "statement": "Chain([f1,...,fN]).forward(x) = f1(f2(...fN(x))), its log-det is the sum over i of fi's log-det at the intermediate value fi actually receives, inverse runs f1^-1 first, forward/inverse/forward_log_det/inverse_log_det agree with the combined methods, Chain(fs+gs) = Chain([Chain(fs),Chain(gs)]), and an empty list or mismatching event ranks raise ValueError.", "quantifier": "all finite lists of bijectors, all inputs", "why_tests_cant": "needs induction over the list length and over arbitrary bijectors", "anchors": ["distrax/_src/bijectors/chain.py:Chain", "distrax/_src/bijectors/bijector.py:Bijector"]}
{"id": "C03", "title": "Constant-Jacobian and constant-log-det flags never lie", "statement": "If a composed bijector reports is_constant_jacobian then it reports is_constant_log_det, and if it reports is_constant_log_det then its forward log-det takes the same value at every input; if it reports is_constant_jacobian, the derivative of the map is the same at every input.", "quantifier": "all bijector expressions, all pairs of inputs", "why_tests_cant": "the flag is propagated through arbitrary nestings and constrains an uncountable set of input pairs", "anchors": ["distrax/_src/bijectors/bijector.py:Bijector.__init__", "distrax/_src/bijectors/chain.py:Chain.__init__", "distrax/_src/bijectors/inverse.py:Inverse", "distrax/_src/bijectors/block.py:Block"]}
{"id": "C04", "title": "same_as is sound", "statement": "If f.same_as(g) returns True then f and g compute the same forward, inverse and log-dets at every input; same_as is reflexive on object identity for the identity-comparing bijectors; it need not be symmetric.", "quantifier": "all pairs of bijector expressions, all inputs", "why_tests_cant": "two unbounded inductive arguments and a for-all over inputs", "anchors": ["distrax/_src/bijectors/chain.py:Chain.same_as", "distrax/_src/bijectors/inverse.py:Inverse.same_as", "distrax/_src/bijectors/block.py:Block.same_as", "distrax/_src/bijectors/scalar_affine.py:ScalarAffine.same_as", "distrax/_src/bijectors/shift.py:Shift.same_as", "distrax/_src/bijectors/triangular_linear.py:TriangularLinear.same_as"]}
{"id": "C05", "title": "Elementwise bijectors report the log of their derivative", "statement": "ScalarAffine, Shift, Tanh, GumbelCDF, Lambda-wrapped exp/softplus and the sigmoid's log-det: forward_log_det(x) = log|d/dx forward(x)| at every x in the domain, inverse is a two-sided inverse onto the image, and inverse_log_det(y) = -forward_log_det(inverse(y)).", "quantifier": "all real inputs, all parameter values (nonzero scale)", "why_tests_cant": "derivatives at every real point; finite differences on samples only approximate", "anchors": ["distrax/_src/bijectors/scalar_affine.py:ScalarAffine", "distrax/_src/bijectors/shift.py:Shift", "distrax/_src/bijectors/tanh.py:Tanh", "distrax/_src/bijectors/gumbel_cdf.py:GumbelCDF"]}
{"id": "C06", "title": "Sigmoid forward is a strictly increasing bijection onto (0,1)", "statement": "Sigmoid.forward is strictly increasing and injective, inverse(forward(x)) == x, its values lie in (0,1), and its log-det is the log-derivative of the logistic function. (The numerically motivated exp branch below -9 breaks strict monotonicity and the exact round trip; outside that branch it holds.)", "quantifier": "all real inputs, on both sides of every branch threshold", "why_tests_cant": "the failure lives in an interval of width about 1e-4 next to a branch threshold", "anchors": ["distrax/_src/bijectors/sigmoid.py:Sigmoid", "distrax/_src/bijectors/sigmoid.py:_more_stable_sigmoid", "distrax/_src/bijectors/sigmoid.py:_more_stable_softplus"]}
{"id": "C07", "title": "Masked coupling leaves masked entries unchanged and is invertible for any conditioner", "statement": "MaskedCoupling.forward leaves entries with mask True untouched, transforms each other entry by the inner bijector with parameters computed from masked entries only, inverse(forward(x)) == x for every conditioner whatsoever, inverse log-det is minus forward log-det, masked entries contribute 0 to the log-det, and the constructor rejects non-boolean masks and negative/oversized event ranks.", "quantifier": "all masks, all conditioner functions, all invertible elementwise inner bijectors, all event sizes, all inputs", "why_tests_cant": "the conditioner is an arbitrary (possibly non-continuous) function and the event size is unbounded", "anchors": ["distrax/_src/bijectors/masked_coupling.py:MaskedCoupling"]}
{"id": "C08", "title": "Split coupling transforms exactly one side and is invertible for any conditioner", "statement": "SplitCoupling.forward keeps one side of the split (the first split_index entries, or the rest when swap=True) unchanged, transforms the other side by the bijector conditioned on the kept side, inverse undoes it and the log-dets negate; negative split_index, bad split axis and too-large inner event rank raise ValueError.", "quantifier": "all split indices, both swap settings, all conditioner functions, all inputs", "why_tests_cant": "arbitrary function argument and unbounded sizes", "anchors": ["distrax/_src/bijectors/split_coupling.py:SplitCoupling"]}
{"id": "C09", "title": "Linear and affine bijectors: log-det is log|det| and inverse solves", "statement": "DiagLinear, TriangularLinear, UnconstrainedAffine and LowerUpperTriangularAffine: forward is multiplication by the stated matrix (plus bias), the reported log-det equals log|det| of that matrix, inverse(forward(x)) == x when the diagonal/determinant is nonzero, only the named triangle of the given matrix is used, and LowerUpperTriangularAffine built from the identity matrix and zero bias is the identity.", "quantifier": "all dimensions n, all matrices with nonzero determinant, all vectors", "why_tests_cant": "dimension is unbounded; determinant identities need induction on n", "anchors": ["distrax/_src/bijectors/linear.py:Linear", "distrax/_src/bijectors/diag_linear.py:DiagLinear", "distrax/_src/bijectors/triangular_linear.py:TriangularLinear", "distrax/_src/bijectors/unconstrained_affine.py:UnconstrainedAffine", "distrax/_src/bijectors/lower_upper_triangular_affine.py:LowerUpperTriangularAffine"]}
{"id": "C10", "title": "Diagonal-plus-low-rank bijector agrees with its dense matrix", "statement": "DiagPlusLowRankLinear(d,U,V) acts as multiplication by diag(d)+U V^T, its log-det (computed with a K x K capacitance matrix) equals log|det(diag(d)+U V^T)|, and its O(NK) inverse is the inverse of the dense matrix whenever that is invertible.", "quantifier": "all N, K, all d with nonzero entries, all U, V with invertible capacitance", "why_tests_cant": "matrix determinant lemma and Woodbury identity for every N and K", "anchors": ["distrax/_src/bijectors/diag_plus_low_rank_linear.py:DiagPlusLowRankLinear", "distrax/_src/bijectors/diag_plus_low_rank_linear.py:_get_small_matrix", "distrax/_src/bijectors/diag_plus_low_rank_linear.py:_get_logdet", "distrax/_src/bijectors/diag_plus_low_rank_linear.py:_inverse"]}
{"id": "C11", "title": "Spline parameters are always a valid knot sequence", "statement": "For every real parameter vector, the rational-quadratic spline's x- and y-knots start at range_min, end at range_max, are strictly increasing with every bin at least min_bin_size wide, slopes are at least min_knot_slope, the boundary options fix the first/last slopes as documented, and zero parameters give the identity spline; invalid constructor arguments raise ValueError.", "quantifier": "all unconstrained parameter vectors, all bin counts, all ranges and minima accepted by the constructor", "why_tests_cant": "unbounded number of bins and real parameters", "anchors": ["distrax/_src/bijectors/rational_quadratic_spline.py:RationalQuadraticSpline.__init__", "distrax/_src/bijectors/rational_quadratic_spline.py:_normalize_bin_sizes", "distrax/_src/bijectors/rational_quadratic_spline.py:_normalize_knot_slopes"]}
{"id": "C12", "title": "Rational-quadratic spline is a strictly increasing C1 bijection with exact inverse and log-det", "statement": "The spline maps range_min and range_max to themselves, hits every knot, is strictly increasing on the real line, its inverse recovers x exactly (away from the underflow guard the code puts on the quadratic formula), its log-det is the log of its derivative inside every bin and on the linear tails, and the derivative at interior knots equals the knot slope from both sides.", "quantifier": "all valid knot sequences and slopes, all real inputs", "why_tests_cant": "a quadratic root selection must be right for every parameter combination", "anchors": ["distrax/_src/bijectors/rational_quadratic_spline.py:_rational_quadratic_spline_fwd", "distrax/_src/bijectors/rational_quadratic_spline.py:_rational_quadratic_spline_inv", "distrax/_src/bijectors/rational_quadratic_spline.py:_safe_quadratic_root"]}
{"id": "C13", "title": "Automatic inversion of scalar programs", "statement": "distrax.inv(f) for a function traced to single-use primitives from the inverse registry returns g with g(f(x)) == x; a primitive with two variable operands or without a registered inverse raises NotImplementedError; for binary primitives it picks the rule for the side the variable is on.", "quantifier": "all straight-line programs over the registry, all inputs in the domain", "why_tests_cant": "programs are an unbounded inductive family", "anchors": ["distrax/_src/utils/transformations.py:inv", "distrax/_src/utils/transformations.py:_interpret_inverse", "distrax/_src/utils/transformations.py:register_inverse"]}
{"id": "C14", "title": "Constant-Jacobian detection does not miss dependencies", "statement": "If is_constant_jacobian(f) returns True, then the Jacobian of f does not depend on x: every variable that (through any path, including nested calls) depends non-linearly on the input is tracked.", "quantifier": "all traced programs, all inputs", "why_tests_cant": "soundness of a static analysis quantifies over all programs", "anchors": ["distrax/_src/utils/transformations.py:is_constant_jacobian", "distrax/_src/utils/transformations.py:_dependent_variables", "distrax/_src/utils/transformations.py:_extract_call_jaxpr"]}
{"id": "C15", "title": "Rank bookkeeping of bijectors and transformed distributions", "statement": "Bijector constructors derive event_ndims_out = event_ndims_in by default, reject negative ranks and inconsistent constant flags, Block adds its ndims to both ranks and rejects negative ndims, Inverse swaps ranks, Chain needs adjacent ranks to match, TransformedDistribution requires the base event rank to equal the bijector's input rank and its event rank is the output rank.", "quantifier": "all integer arguments and all nestings", "why_tests_cant": "integers and nestings are unbounded", "anchors": ["distrax/_src/bijectors/bijector.py:Bijector.__init__", "distrax/_src/bijectors/block.py:Block.__init__", "distrax/_src/bijectors/inverse.py:Inverse.__init__", "distrax/_src/bijectors/chain.py:Chain.__init__", "distrax/_src/distributions/transformed.py:Transformed.__init__"]}
{"id": "C16", "title": "No-nan arithmetic helpers", "statement": "multiply_no_nan(x,y) is 0 whenever y == 0 for every x including inf and nan and equals x*y otherwise; mul_exp(x,logp) is 0 at p=0 even for infinite x and x*exp(logp) otherwise; power_no_nan gives 1 for y==0 and x**y otherwise; their custom derivatives are the true partial derivatives away from the singular points.", "quantifier": "all extended-real arguments, including nan and both infinities", "why_tests_cant": "case analysis over the full extended domain rather than samples", "anchors": ["distrax/_src/utils/math.py:multiply_no_nan", "distrax/_src/utils/math.py:mul_exp", "distrax/_src/utils/math.py:power_no_nan"]}
{"id": "C17", "title": "normalize and log-space helpers", "statement": "normalize(probs=p) sums to one for any nonnegative p with positive sum, normalize(logits=l) gives log-probabilities whose exponentials sum to one, is idempotent and invariant under shifting/scaling, and both agree; sum_last(x,n) equals the sum over the last n axes with n=0 the identity; log_expbig_minus_expsmall(a,b)=log(e^a-e^b) for a>=b.", "quantifier": "all vectors of any length", "why_tests_cant": "unbounded length and real values", "anchors": ["distrax/_src/utils/math.py:normalize", "distrax/_src/utils/math.py:sum_last", "distrax/_src/utils/math.py:log_expbig_minus_expsmall"]}
{"id": "C18", "title": "Sampling shape and layout", "statement": "d.sample(seed, sample_shape) has shape sample_shape + batch_shape + event_shape, an int n is the same as (n,), and entry (i1..ik) of the result is exactly the row-major corresponding draw of the flat n1*...*nk draws; sample_and_log_prob has the same layout for samples and log_probs.", "quantifier": "all sample shapes of any rank (including zero-size and empty), all batch/event shapes", "why_tests_cant": "shapes are unbounded lists of naturals", "anchors": ["distrax/_src/distributions/distribution.py:Distribution.sample", "distrax/_src/distributions/distribution.py:Distribution.sample_and_log_prob", "distrax/_src/distributions/distribution.py:convert_seed_and_sample_shape"]}
{"id": "C19", "title": "Batch slicing selects batch elements", "statement": "Indexing a distribution whose parameters were given with smaller, broadcastable shapes returns the distribution with parameters broadcast-then-indexed: d[i].log_prob(x) is d.log_prob(x)[i] and d[i].batch_shape is the indexed batch_shape; out-of-range indices into a nonempty batch fail.", "quantifier": "all batch shapes, all in-range index tuples, all broadcast patterns", "why_tests_cant": "quantifies over shapes and broadcast patterns", "anchors": ["distrax/_src/distributions/distribution.py:to_batch_shape_index", "distrax/_src/distributions/normal.py:Normal.__getitem__"]}
{"id": "C20", "title": "Independent moves batch axes into the event", "statement": "Independent(d,k): batch_shape ++ event_shape is d.batch_shape ++ d.event_shape with the split moved k axes left, log_prob/entropy/KL are sums over exactly the last k batch axes, k=0 changes nothing, Independent(Independent(d,j),k)=Independent(d,j+k), and the default k keeps the first axis only.", "quantifier": "all batch shapes, all k up to the batch rank, all log-prob arrays", "why_tests_cant": "shapes and ranks unbounded", "anchors": ["distrax/_src/distributions/independent.py:Independent"]}
{"id": "C21", "title": "Transformed distribution implements change of variables", "statement": "Transformed(d,f).log_prob(y) = d.log_prob(f^-1 y) + ildj(y); sample_and_log_prob returns a sample f(x) with log-prob equal to log_prob at that sample; the density integrates to the base mass; entropy = base entropy + log-det when the log-det is constant; mean/mode are available only if the Jacobian/log-det is constant and then equal f(mean)/f(mode); nested Transformed equals Transformed by the Chain.", "quantifier": "all base densities, all bijectors satisfying the bijector laws, all points", "why_tests_cant": "second-order quantification over bijectors and densities", "anchors": ["distrax/_src/distributions/transformed.py:Transformed"]}
{"id": "C22", "title": "KL between transformed distributions is only computed for equal bijectors", "statement": "kl_divergence(Transformed(p,f),Transformed(q,g)) returns KL(p||q) only if f and g are the same transformation, otherwise NotImplementedError.", "quantifier": "all pairs of bijectors, including ones with captured array parameters", "why_tests_cant": "needs all pairs; the printed-program comparison fails only for particular captured constants", "anchors": ["distrax/_src/distributions/transformed.py:_kl_divergence_transformed_transformed"]}
{"id": "C23", "title": "Joint distributions factorise over their leaves", "statement": "Joint(tree).log_prob(values) is the sum of leaf log_probs, entropy and KL are sums over leaves, sample_and_log_prob agrees with log_prob, sampling returns the same tree structure, and constructor only accepts leaves with one common batch shape.", "quantifier": "all trees of distributions, all values", "why_tests_cant": "trees are an unbounded inductive family", "anchors": ["distrax/_src/distributions/joint.py:Joint"]}
{"id": "C24", "title": "Categorical probabilities, log-probabilities and cdf agree", "statement": "Categorical: probs sum to one for logits or probs input, prob(k)=exp(log_prob(k)), out-of-range values have probability 0 / log_prob -inf, cdf(k) is the sum of prob(j) for j<=k and lies in [0,1] with cdf 0 below and 1 above the range, mode is the argmax, logits are only defined up to a shift.", "quantifier": "all category counts, all logits (including -inf entries), all integer values and all out-of-range values (non-integer in-range values are recorded as a finding)", "why_tests_cant": "unbounded category count and values outside the support", "anchors": ["distrax/_src/distributions/categorical.py:Categorical"]}
{"id": "C25", "title": "Categorical entropy and KL", "statement": "Categorical.entropy lies in [0, log K] with value log K exactly for uniform, KL is >= 0, is 0 iff the two probability vectors coincide, is +inf if p puts mass where q has none, and zero-probability categories contribute 0 rather than nan.", "quantifier": "all category counts, all pairs of probability vectors", "why_tests_cant": "Gibbs inequality over all dimensions", "anchors": ["distrax/_src/distributions/categorical.py:Categorical.entropy", "distrax/_src/distributions/categorical.py:_kl_divergence_categorical_categorical"]}
{"id": "C26", "title": "OneHotCategorical, Greedy, EpsilonGreedy and Softmax are the stated categoricals", "statement": "OneHotCategorical.log_prob of the one-hot of k equals Categorical.log_prob(k), its samples are one-hot; Greedy puts equal mass on exactly the argmax set and none elsewhere; EpsilonGreedy has eps/K + (1-eps)*greedy mass; Softmax(prefs,T) has logits prefs/T; all sum to one.", "quantifier": "all preference vectors incl. ties, all K, eps in [0,1], T>0", "why_tests_cant": "ties and dimensions unbounded", "anchors": ["distrax/_src/distributions/one_hot_categorical.py:OneHotCategorical", "distrax/_src/distributions/greedy.py:_argmax_with_random_tie_breaking", "distrax/_src/distributions/greedy.py:Greedy", "distrax/_src/distributions/epsilon_greedy.py:EpsilonGreedy", "distrax/_src/distributions/softmax.py:Softmax"]}
{"id": "C27", "title": "Bernoulli consistency", "statement": "Bernoulli: prob(0)+prob(1)=1, log_prob(v)=log prob(v) incl. p in {0,1}, probs parameterisation and logits parameterisation agree, mean=p, variance=p(1-p), entropy in [0, log 2], KL>=0 with 0 iff equal, cdf steps at 0 and 1, mode maximises prob.", "quantifier": "all p in [0,1] and all real or infinite logits", "why_tests_cant": "boundary values and continuum of parameters", "anchors": ["distrax/_src/distributions/bernoulli.py:Bernoulli"]}
{"id": "C28", "title": "Normal and LogStddevNormal", "statement": "exp(Normal.log_prob) is the Gaussian density (integrates to 1), cdf is its integral, prob/log_prob/log_cdf/survival agree, sample is loc+scale*eps, entropy is -E[log_prob], KL is E_p[log p - log q] >= 0 with 0 iff equal; LogStddevNormal computes exactly the same KL as Normal; max_scale never yields a scale above max_scale; slicing keeps the distribution.", "quantifier": "all loc, all scale>0, all x", "why_tests_cant": "integrals over the real line", "anchors": ["distrax/_src/distributions/normal.py:Normal", "distrax/_src/distributions/log_stddev_normal.py:LogStddevNormal"]}
{"id": "C29", "title": "Location-scale families: cdf, density and sampler describe one law", "statement": "For Logistic, Gumbel, Laplace and Uniform: exp(log_prob) is the derivative of cdf, cdf is increasing with limits 0 and 1, survival function is 1-cdf, log_cdf=log cdf, sample is the inverse cdf of its uniform noise where used, sample_and_log_prob equals log_prob of the sample, mode maximises the density, median splits the mass in half.", "quantifier": "all parameters with positive scale / low<high, all real x, all noise values", "why_tests_cant": "pointwise derivative identity for every real x and parameter", "anchors": ["distrax/_src/distributions/logistic.py:Logistic", "distrax/_src/distributions/gumbel.py:Gumbel", "distrax/_src/distributions/laplace.py:Laplace", "distrax/_src/distributions/uniform.py:Uniform"]}
{"id": "C30", "title": "KL divergences are nonnegative and vanish only on equal distributions", "statement": "kl_divergence for Laplace, Gumbel, Uniform and Deterministic (Normal at C28, Categorical at C25, Bernoulli at C27, Gamma at C39, Beta and Dirichlet at C38, MVN at C37, VonMises at C40): closed forms are the true divergences, are >= 0, are 0 exactly for equal parameters, Uniform/Deterministic are +inf when the support is not included.", "quantifier": "all parameter pairs", "why_tests_cant": "inequality over a continuum", "anchors": ["distrax/_src/distributions/laplace.py:_kl_divergence_laplace_laplace", "distrax/_src/distributions/uniform.py:_kl_divergence_uniform_uniform", "distrax/_src/distributions/deterministic.py:_kl_divergence_deterministic_deterministic", "distrax/_src/distributions/gumbel.py:_kl_divergence_gumbel_gumbel", "distrax/_src/distributions/normal.py:_kl_divergence_normal_normal"]}
{"id": "C31", "title": "Uniform and Deterministic support handling", "statement": "Uniform.prob is 1/(high-low) on [low,high] and 0 elsewhere, sample lies in [low,high), cdf clips to [0,1]; Deterministic.prob is 1 exactly for |v-loc|<=atol+rtol|loc| and 0 otherwise, cdf is the matching step; log_prob is log of prob including -inf.", "quantifier": "all parameters, all values", "why_tests_cant": "boundary points of a continuum", "anchors": ["distrax/_src/distributions/uniform.py:Uniform", "distrax/_src/distributions/deterministic.py:Deterministic"]}
{"id": "C32", "title": "Quantized follows the law of the rounded-up clipped base", "statement": "Quantized(base,low,high): prob(k)=P(clip(ceil(X),low,high)=k) computed from the base cdf, cdf and survival function sum to one and match that law, out-of-range and non-integer values behave as documented, probabilities over [low,high] sum to one, sample = clip(ceil(base sample)), sample_and_log_prob equals log_prob at the sample, slicing and batch handling keep all settings.", "quantifier": "all base cdfs, all (possibly missing or non-integer) cutoffs, all values", "why_tests_cant": "arbitrary base law and cutoffs", "anchors": ["distrax/_src/distributions/quantized.py:Quantized"]}
{"id": "C33", "title": "Clipped distribution follows the law of the clipped base", "statement": "Clipped(base,min,max): samples lie in [min,max], probability mass at min is P(X<=min) and at max P(X>=max), interior density is the base density, outside is -inf, so the total mass is one.", "quantifier": "all base laws, all min<max, all values", "why_tests_cant": "arbitrary base law incl. atoms", "anchors": ["distrax/_src/distributions/clipped.py:Clipped"]}
{"id": "C34", "title": "Mixtures", "statement": "MixtureOfTwo.prob = p*a.prob+(1-p)*b.prob including p in {0,1}; MixtureSameFamily.log_prob = log sum_k w_k exp(log_prob_k), its mean is the weighted mean, its variance obeys the law of total variance, sample returns exactly the selected component's (finite) sample; mixtures of normalised densities are normalised.", "quantifier": "all component counts, all weights, all component densities", "why_tests_cant": "unbounded component count and arbitrary components", "anchors": ["distrax/_src/distributions/mixture_of_two.py:MixtureOfTwo", "distrax/_src/distributions/mixture_same_family.py:MixtureSameFamily"]}
{"id": "C35", "title": "CategoricalUniform is a piecewise-constant density on (low,high)", "statement": "CategoricalUniform over K equal bins has density p_k*K/(high-low) inside bin k and 0 outside [low,high], integrates to one, mean/variance/entropy equal those of that density, and inverse_cdf inverts its cdf.", "quantifier": "all K, all weights, all x including bin edges", "why_tests_cant": "bin edges are a null set that random tests never hit", "anchors": ["distrax/_src/distributions/categorical_uniform.py:CategoricalUniform"]}
{"id": "C36", "title": "Multinomial", "statement": "Multinomial(n,p): log_prob is the log multinomial pmf, the pmf sums to 1 over count vectors with total n, samples are count vectors with total exactly n, mean is n p, covariance rows sum to zero with diagonal n p (1-p), and the entropy formula equals -E[log_prob].", "quantifier": "all K, n, p", "why_tests_cant": "sums over all compositions of n", "anchors": ["distrax/_src/distributions/multinomial.py:Multinomial"]}
{"id": "C37", "title": "Multivariate normal consistency across parameterisations", "statement": "MultivariateNormalFromBijector and its Diag, Tri, FullCovariance and DiagPlusLowRank variants: log_prob of x equals the Gaussian log-density with covariance A A^T, reported covariance/variance/stddev equal A A^T, its diagonal and its root, entropy is k/2(1+log 2pi)+log|det A|, KL equals the closed form, is zero for equal parameters and nonnegative, and the variants agree when their matrices agree.", "quantifier": "all dimensions, all invertible scale matrices, all x", "why_tests_cant": "all dimensions; matrix identities", "anchors": ["distrax/_src/distributions/mvn_from_bijector.py:MultivariateNormalFromBijector", "distrax/_src/distributions/mvn_diag.py:MultivariateNormalDiag", "distrax/_src/distributions/mvn_tri.py:MultivariateNormalTri", "distrax/_src/distributions/mvn_full_covariance.py:MultivariateNormalFullCovariance", "distrax/_src/distributions/mvn_diag_plus_low_rank.py:MultivariateNormalDiagPlusLowRank"]}
{"id": "C38", "title": "Dirichlet and Beta moments", "statement": "Dirichlet mean sums to one, its covariance is symmetric with zero row sums, variance is its diagonal, mode lies in the simplex when all concentrations exceed 1 and is nan otherwise; Beta(a,b) agrees with Dirichlet([a,b]) in log_prob (at every interior point, and at a boundary point unless the exponent there is zero), mean, variance, entropy and KL; Beta mode is in [0,1] and maximises the density in each documented case.", "quantifier": "all dimensions, all positive concentrations", "why_tests_cant": "all dimensions and a continuum of parameters", "anchors": ["distrax/_src/distributions/dirichlet.py:Dirichlet", "distrax/_src/distributions/beta.py:Beta"]}
{"id": "C39", "title": "Gamma", "statement": "exp(Gamma.log_prob) is the gamma density and integrates to one, mean/variance/mode are its moments and maximiser, log_prob is a number (not nan) at every x > 0, KL of equal parameters is zero.", "quantifier": "all positive concentration and rate, all x in the support", "why_tests_cant": "continuum, boundary point x=0", "anchors": ["distrax/_src/distributions/gamma.py:Gamma"]}
{"id": "C40", "title": "Von Mises periodicity and angle conversion", "statement": "VonMises log_prob/prob are 2pi-periodic and prob = exp(log_prob); angle conversion returns the representative in [-pi,pi) congruent mod 2pi; mode is the (converted) loc and maximises the density; variance, entropy and KL have the stated closed forms and KL(d||d)=0.", "quantifier": "all angles, all concentrations >= 0", "why_tests_cant": "boundary angle pi and continuum", "anchors": ["distrax/_src/distributions/von_mises.py:VonMises", "distrax/_src/distributions/von_mises.py:_convert_angle_to_standard"]}
{"id": "C41", "title": "HMM forward algorithm computes the filtering posterior and the evidence", "statement": "HMM.forward returns alphas[t] = p(z_t | x_1..x_t) and log_prob = log p(x_1..x_T) as defined by summing the joint over all state paths, exactly when no predictive weight falls strictly between 0 and the 1e-15 floor; in every case the log-likelihood is never too small, the evidence is too large by at most (1+1e-15 K)^T-1 for observation probabilities at most one, every alpha row is a distribution and its zeros are exactly the impossible states.", "quantifier": "all state counts, all sequence lengths, all initial/transition/observation probabilities with possible observations", "why_tests_cant": "sum over exponentially many paths; any T", "anchors": ["distrax/_src/utils/hmm.py:HMM.forward", "distrax/_src/utils/hmm.py:_normalize"]}
{"id": "C42", "title": "HMM impossible observations", "statement": "If the observation sequence has probability zero under the model, HMM.forward's log-likelihood is -inf.", "quantifier": "all models and sequences of zero probability", "why_tests_cant": "only visible on zero-probability inputs that random tests never produce", "anchors": ["distrax/_src/utils/hmm.py:HMM.forward", "distrax/_src/utils/hmm.py:_normalize"]}
{"id": "C43", "title": "HMM backward and forward-backward smoothing posterior", "statement": "HMM.forward_backward returns gammas[t] = p(z_t | x_1..x_T), each row summing to one, and the same log-likelihood as forward (exact when no weight falls strictly between 0 and the 1e-15 floor); backward's betas are proportional to p(x_{t+1..T}|z_t).", "quantifier": "all models, all T", "why_tests_cant": "sum over exponentially many paths", "anchors": ["distrax/_src/utils/hmm.py:HMM.backward", "distrax/_src/utils/hmm.py:HMM.forward_backward"]}
{"id": "C44", "title": "HMM variable-length sequences", "statement": "With length=L, forward returns the log-likelihood and alphas of the first L observations and ignores the rest; forward_backward with length=L returns the smoothing posterior of the first L observations.", "quantifier": "all L<=T and all paddings", "why_tests_cant": "all lengths and paddings", "anchors": ["distrax/_src/utils/hmm.py:HMM.forward", "distrax/_src/utils/hmm.py:HMM.backward", "distrax/_src/utils/hmm.py:HMM.forward_backward"]}
{"id": "C45", "title": "Viterbi returns a most likely path", "statement": "HMM.viterbi returns a state path whose joint log-probability with the observations is maximal among all paths, including T=1 and -inf log-probabilities.", "quantifier": "all models, all T", "why_tests_cant": "max over exponentially many paths", "anchors": ["distrax/_src/utils/hmm.py:HMM.viterbi"]}
{"id": "C46", "title": "HMM sampling follows the chain", "statement": "HMM.sample returns states of length T (of which the first is drawn from the initial distribution and each later from the transition row of its predecessor) and one observation per state drawn from that state's observation distribution; constructor rejects mismatched state counts.", "quantifier": "all T, all random keys", "why_tests_cant": "all T and keys", "anchors": ["distrax/_src/utils/hmm.py:HMM.sample", "distrax/_src/utils/hmm.py:HMM.__init__"]}
{"id": "C47", "title": "Importance sampling ratios reweight expectations", "statement": "E_q[rho f] = E_p[f] for rho=importance_sampling_ratios(p,q), whenever q>0 where p>0; off_policy/on-policy ratio is 1 where p=q. Along almost every infinite run of independent draws from q the reweighted averages converge to E_p[f].", "quantifier": "all p, q with densities with respect to a common reference measure (discrete or continuous) and all integrable f", "why_tests_cant": "arbitrary functions f and distributions", "anchors": ["distrax/_src/utils/importance_sampling.py:importance_sampling_ratios"]}
{"id": "C48", "title": "Monte Carlo KL is unbiased and best-effort KL prefers the analytic form", "statement": "mc_estimate_kl(a,b) has expectation KL(a||b) for every number of samples, and with a proposal has the same expectation; along almost every infinite run of independent draws the estimates converge to KL(a||b); estimate_kl_best_effort returns the analytic KL when registered and the Monte Carlo estimate otherwise; mc_estimate_mode returns a sampled value of maximal log-prob among the samples.", "quantifier": "all sample counts n>=1, all a, b and proposals with densities with respect to a common reference measure", "why_tests_cant": "expectation over all sample tuples of any size n", "anchors": ["distrax/_src/utils/monte_carlo.py:mc_estimate_kl", "distrax/_src/utils/monte_carlo.py:estimate_kl_best_effort", "distrax/_src/utils/monte_carlo.py:mc_estimate_kl_with_reparameterized", "distrax/_src/utils/monte_carlo.py:mc_estimate_mode"]}
{"id": "C49", "title": "Conversion helpers", "statement": "as_bijector/as_distribution return distrax objects unchanged (idempotent), wrap TFP objects and callables, to_tfp then as_distribution/as_bijector gives back the same behaviour, unsupported inputs raise TypeError; as_float_array converts integers, keeps floats, rejects booleans and is idempotent.", "quantifier": "all input kinds and nestings of wrappers", "why_tests_cant": "wrappers can be nested arbitrarily", "anchors": ["distrax/_src/utils/conversion.py:as_bijector", "distrax/_src/utils/conversion.py:as_distribution", "distrax/_src/utils/conversion.py:to_tfp", "distrax/_src/utils/conversion.py:as_float_array"]}
{"id": "C50", "title": "Jittable objects survive flattening", "statement": "Flattening a Jittable object to its array leaves and metadata and rebuilding it gives back an object with the same attributes, and replacing the leaves changes exactly the array attributes.", "quantifier": "all attribute dictionaries with nested containers", "why_tests_cant": "attribute trees are unbounded", "anchors": ["distrax/_src/utils/jittable.py:Jittable"]}
{"id": "C51", "title": "Event-rank arithmetic of the TFP wrappers", "statement": "tfp_compatible_bijector reports forward_min_event_ndims equal to the distrax input rank; for event_ndims n >= that minimum its log-det is the distrax log-det summed over exactly the n - min extra trailing axes; smaller n raises; bijector_from_tfp returns log-dets broadcast to the batch shape of the input.", "quantifier": "all event ranks, all shapes", "why_tests_cant": "ranks unbounded", "anchors": ["distrax/_src/bijectors/tfp_compatible_bijector.py:tfp_compatible_bijector", "distrax/_src/bijectors/bijector_from_tfp.py:BijectorFromTFP"]}
{"id": "C52", "title": "Straight-through sampling does not change values", "statement": "straight_through_wrapper(dist).sample returns exactly the wrapped distribution's sample value (the added probs minus stop_gradient(probs) term is zero in value) while its derivative with respect to the parameters is the derivative of probs.", "quantifier": "all distributions with probs, all seeds", "why_tests_cant": "value and derivative identity for every input", "anchors": ["distrax/_src/distributions/straight_through.py:straight_through_wrapper"]}
{"id": "C53", "title": "Lambda bijector: derived functions and history independence", "statement": "Lambda built from a forward (or inverse) function alone inverts it automatically; supplied functions are kept as given; a missing log-det is derived by differentiating the scalar function (only for event rank 0, otherwise the first use raises ValueError); the derived functions do not depend on which method was called first or how often.", "quantifier": "all function arguments, all histories of method calls", "why_tests_cant": "the object caches lazily: every order of calls must give the same answers", "anchors": ["distrax/_src/bijectors/lambda_bijector.py:Lambda", "distrax/_src/utils/transformations.py:log_det_scalar", "distrax/_src/utils/transformations.py:inv"]}
{"id": "C54", "title": "Slicing a batch slices the law", "statement": "d[index] of a batched distribution is a distribution whose batch shape is that of numpy indexing of batch_shape by index and whose entry j has exactly the law (parameters, log_prob, moments) of the entry of d that the index selects for j; event dimensions, shared parameters and inner distributions are not disturbed; an index that numpy rejects is rejected. Holds for the multivariate normals, Categorical, OneHotCategorical, Bernoulli, Multinomial, Dirichlet, Greedy, EpsilonGreedy, Softmax, CategoricalUniform, Independent, MixtureSameFamily, MixtureOfTwo and Clipped.", "quantifier": "all parameter shapes (broadcast or not), all batch ranks, all legal numpy indices", "why_tests_cant": "batch shapes and indices are unbounded; parameters may be given with broadcastable lower ranks", "anchors": ["distrax/_src/distributions/mvn_diag.py:MultivariateNormalDiag.__getitem__", "distrax/_src/distributions/mvn_tri.py:MultivariateNormalTri.__getitem__", "distrax/_src/distributions/categorical.py:Categorical.__getitem__", "distrax/_src/distributions/multinomial.py:Multinomial.__getitem__", "distrax/_src/distributions/independent.py:Independent.__getitem__", "distrax/_src/distributions/distribution.py:to_batch_shape_index"]}
{"id": "C55", "title": "Methods the base class derives from others", "statement": "p.cross_entropy(q) is minus the expectation under p of log q's density or mass: it is p's entropy plus the KL divergence, never below p's entropy, equal to it exactly when both have the same law, +inf when q vanishes somewhere p does not, and raises when either ingredient is unavailable. The default prob, cdf, survival_function, log_survival_function and stddev agree with the quantities they are derived from (P[X > x] and its log, including -inf at probability 0), and survival functions are refused for non-scalar events. The default batch_shape, inferred from the shape of one sample and the event shape, is the batch shape the sampler uses, for every event rank and nested event; leaves with inconsistent batch shapes are rejected.", "quantifier": "all parameters of all families with closed-form entropy and KL; all laws on the line; all batch and event shapes, nested events", "why_tests_cant": "integrals over all parameters; shapes and nesting unbounded", "anchors": ["distrax/_src/distributions/distribution.py:Distribution.cross_entropy", "distrax/_src/distributions/distribution.py:Distribution.survival_function", "distrax/_src/distributions/distribution.py:Distribution.log_survival_function", "distrax/_src/distributions/distribution.py:Distribution.batch_shape", "distrax/_src/distributions/distribution.py:Distribution.stddev"]}
{"id": "C56", "title": "Von Mises CDF: numerical accuracy and derivative rules", "statement": "VonMises.cdf and survival_function agree with the exact CDF and survival function of the law on one turn up to an explicit error, for every location, value and concentration: 2e-7 for concentrations k below the cutoff 10.5, 1/(2k^2) from the cutoff on. Their custom derivative rule returns the derivative of the CDF with respect to value and concentration, up to 3e-7 (below the cutoff) or 2/k^3 (from it on) times the concentration's rate, and the sampler's custom rule returns, up to the same error over the density, the implicit-reparameterisation derivative: the derivative of the sample along the curve on which the CDF stays constant as the concentration varies.", "quantifier": "all locations, all values (inside and outside the turn), all concentrations, all samples", "why_tests_cant": "continuum of parameters; the error bound is about an infinite series truncated after 20 terms; derivatives", "anchors": ["distrax/_src/distributions/von_mises.py:_von_mises_cdf_series", "distrax/_src/distributions/von_mises.py:_von_mises_cdf_jvp", "distrax/_src/distributions/von_mises.py:_von_mises_sample_jvp", "distrax/_src/distributions/von_mises.py:VonMises.cdf", "distrax/_src/distributions/von_mises.py:VonMises.survival_function"]}
{"id": "C57", "title": "kl_divergence picks the formula of the right family", "statement": "a.kl_divergence(b), when at least one of the two is a Distrax distribution, evaluates the closed-form KL of their common family, whichever of the two is from TFP and in either order; Beta and Dirichlet mix; multivariate normals use their own formula among themselves and the one for transformed distributions against other transformed distributions; every other pair raises NotImplementedError instead of using another family's formula. Subclasses written by users and the classes made by the TFP wrappers behave as the class they wrap, and importing the library registers every formula without conflict, whatever TFP registers itself.", "quantifier": "all pairs of distribution types, including arbitrary user subclasses and wrapper classes with any resolution order; all registries of TFP", "why_tests_cant": "class hierarchies are open-ended; dispatch searches two resolution orders", "anchors": ["distrax/_src/distributions/distribution.py:Distribution.kl_divergence", "distrax/_src/distributions/normal.py:_kl_divergence_normal_normal", "distrax/_src/distributions/categorical.py:_kl_divergence_categorical_categorical", "distrax/_src/distributions/dirichlet.py:_kl_divergence_dirichlet_dirichlet", "distrax/_src/distributions/mvn_from_bijector.py:_kl_divergence_mvn_mvn", "distrax/_src/distributions/transformed.py:_kl_divergence_transformed_transformed", "distrax/_src/distributions/tfp_compatible_distribution.py:tfp_compatible_distribution", "distrax/_src/distributions/distribution_from_tfp.py:distribution_from_tfp"]}
{"id": "C58", "title": "Methods of the scalar families act entry by entry with numpy broadcasting", "statement": "For Normal, LogStddevNormal, Laplace, Logistic, Gumbel, Uniform, Gamma, Beta, VonMises, Deterministic and Bernoulli built from arrays of any broadcastable shapes: summaries (mean, variance, stddev, mode, median, entropy) have shape batch_shape; log_prob, prob, cdf and the other value methods have the broadcast of batch_shape and the value's shape; samples have shape (n,)+batch_shape; the KL of two batches has the broadcast of both batch shapes; and each entry is the scalar method applied to the parameters, value and noise that numpy broadcasting assigns to it. Parameters whose shapes do not broadcast are rejected at construction, values that do not broadcast raise.", "quantifier": "all parameter and value shapes of any rank, all entries", "why_tests_cant": "ranks and shapes are unbounded; a wrong broadcast only shows for particular combinations of shapes", "anchors": ["distrax/_src/distributions/normal.py:Normal", "distrax/_src/distributions/log_stddev_normal.py:LogStddevNormal", "distrax/_src/distributions/laplace.py:Laplace", "distrax/_src/distributions/logistic.py:Logistic", "distrax/_src/distributions/gumbel.py:Gumbel.entropy", "distrax/_src/distributions/uniform.py:Uniform", "distrax/_src/distributions/gamma.py:Gamma", "distrax/_src/distributions/beta.py:Beta", "distrax/_src/distributions/von_mises.py:VonMises.variance", "distrax/_src/distributions/von_mises.py:VonMises.entropy", "distrax/_src/distributions/deterministic.py:Deterministic", "distrax/_src/distributions/bernoulli.py:Bernoulli"]}
{"id": "C59", "title": "Sample arrays consist of independent draws from the entries' laws", "statement": "sample(seed, sample_shape) of Normal, LogStddevNormal, Laplace, Gumbel, Logistic, Uniform, Gamma, Bernoulli, Categorical (and the classes that inherit its sampler) and VonMises, for every seed and sample shape, is an array of shape sample_shape + batch_shape whose entries are jointly independent, each distributed with the law (density or mass function) of its own batch entry - provided the generator returns arrays of independent numbers with the documented law. No two entries share noise, no entry reads another entry's noise or parameters, and reshaping loses or repeats nothing.", "quantifier": "all parameter arrays of broadcastable shapes, all sample shapes, all seeds, all events about any set of entries", "why_tests_cant": "a joint law over an unbounded number of entries; a correlation between entries or a reused draw is invisible in marginal statistics", "anchors": ["distrax/_src/distributions/distribution.py:Distribution.sample", "distrax/_src/distributions/normal.py:Normal._sample_n", "distrax/_src/distributions/laplace.py:Laplace._sample_n", "distrax/_src/distributions/gumbel.py:Gumbel._sample_n", "distrax/_src/distributions/logistic.py:Logistic._sample_n", "distrax/_src/distributions/uniform.py:Uniform._sample_n", "distrax/_src/distributions/gamma.py:Gamma._sample_n", "distrax/_src/distributions/bernoulli.py:Bernoulli._sample_n", "distrax/_src/distributions/categorical.py:Categorical._sample_n", "distrax/_src/distributions/von_mises.py:_von_mises_sample"]}
{"id": "C60", "title": "Different constructions of the same distribution agree", "statement": "Transformed(D(loc, scale), ScalarAffine(shift, c)) for D among Normal, Laplace, Logistic, Gumbel cannot be told from D(c*loc+shift, |c|*scale): log_prob agrees for every value and every broadcastable shapes (any nonzero c; c > 0 for Gumbel), and when the base has the full batch shape and c > 0 so do batch_shape, event_shape, sample and sample_and_log_prob from the same key, entropy and mean. When the shift array enlarges the batch, log_prob and batch_shape still agree but all entries of a sample share the base's noise. Standard Gumbel through GumbelCDF and standard Logistic through Sigmoid have the log_prob of Uniform(0,1). Bernoulli(p) is Categorical([1-p, p]); MixtureOfTwo is MixtureSameFamily with weights (p, 1-p); a mixture of one component is the component; Multinomial with one trial is OneHotCategorical; EpsilonGreedy with epsilon 0 is Greedy and with epsilon 1 is uniform; Softmax with temperature 1 is Categorical; Beta(1,1) is Uniform(0,1); a one-step HMM is a mixture and a one-state HMM has independent observations. KL divergences do not change when both arguments go through the same affine map.", "quantifier": "all parameters, all parameter and value shapes of any rank, all keys and sample sizes, all numbers of categories, all observation sequences", "why_tests_cant": "two code paths must agree on a continuum of inputs and on every shape; a sign or a log-det slip cancels on symmetric test values", "anchors": ["distrax/_src/distributions/transformed.py:Transformed.log_prob", "distrax/_src/distributions/transformed.py:Transformed._sample_n", "distrax/_src/distributions/transformed.py:Transformed._sample_n_and_log_prob", "distrax/_src/distributions/transformed.py:Transformed.entropy", "distrax/_src/distributions/transformed.py:Transformed.mean", "distrax/_src/distributions/transformed.py:Transformed._infer_shapes_and_dtype", "distrax/_src/bijectors/scalar_affine.py:ScalarAffine", "distrax/_src/distributions/mixture_of_two.py:MixtureOfTwo.log_prob", "distrax/_src/distributions/mixture_same_family.py:MixtureSameFamily", "distrax/_src/distributions/multinomial.py:Multinomial", "distrax/_src/distributions/one_hot_categorical.py:OneHotCategorical", "distrax/_src/distributions/epsilon_greedy.py:EpsilonGreedy", "distrax/_src/distributions/softmax.py:Softmax", "distrax/_src/distributions/beta.py:Beta", "distrax/_src/distributions/bernoulli.py:Bernoulli", "distrax/_src/utils/hmm.py:HMM.forward"]}
{"id": "C61", "title": "Finite inputs do not produce nan in floating point", "statement": "Evaluated in floating point (any binary format with round-to-nearest: float16, bfloat16, float32, float64; any order of summation), the methods meant to be numerically stable never return nan on legal finite inputs: the Sigmoid, Tanh and GumbelCDF log-determinants, Normal, Laplace, Logistic, Gumbel and Uniform log_prob, entropy and KL, Bernoulli (logits or probs, end points and infinite logits included) log_prob, entropy and KL, Categorical log-probabilities, probs and entropy (-inf logits allowed, any number of categories), MixtureOfTwo.log_prob, Quantized.log_prob with any bounds, and the HMM forward pass on sequences of any length including impossible observations; Sigmoid's log-determinant is finite for every finite input and log-probabilities of discrete distributions are at most 0.", "quantifier": "all floating-point formats, all finite parameters and values up to the largest float, all numbers of categories and states, all sequence lengths, all orders of summation", "why_tests_cant": "overflow and cancellation occur at extreme inputs of a particular format and depend on the compiler's order of summation", "anchors": ["distrax/_src/bijectors/sigmoid.py:Sigmoid", "distrax/_src/bijectors/tanh.py:Tanh", "distrax/_src/bijectors/gumbel_cdf.py:GumbelCDF", "distrax/_src/distributions/normal.py:Normal", "distrax/_src/distributions/normal.py:_kl_divergence_normal_normal", "distrax/_src/distributions/laplace.py:Laplace", "distrax/_src/distributions/logistic.py:Logistic.log_prob", "distrax/_src/distributions/gumbel.py:Gumbel.log_prob", "distrax/_src/distributions/uniform.py:Uniform", "distrax/_src/distributions/bernoulli.py:Bernoulli", "distrax/_src/distributions/categorical.py:Categorical", "distrax/_src/distributions/mixture_of_two.py:MixtureOfTwo.log_prob", "distrax/_src/distributions/quantized.py:Quantized.log_prob", "distrax/_src/utils/hmm.py:HMM.forward", "distrax/_src/utils/math.py:multiply_no_nan"]}
{"id": "C62", "title": "Order properties survive rounding", "statement": "Evaluated in floating point, cdf of Logistic, Laplace, Gumbel and Uniform (range not overflowing) lies in [0, 1] and is nondecreasing in the value; survival functions and the derived log_cdf, survival_function and log_survival_function are ordered accordingly; Quantized keeps the order for any bounds; the KL divergences of Normal and Uniform are nonnegative (unless an intermediate quotient or range overflows); Normal and Laplace log_prob are largest at loc and unimodal; ScalarAffine with positive scale, Tanh and GumbelCDF never reverse the order of two inputs.", "quantifier": "all floating-point formats, all legal finite parameters, all pairs of finite values", "why_tests_cant": "a violation needs two neighbouring floats at a branch boundary of one format; tests compare with tolerances", "anchors": ["distrax/_src/distributions/logistic.py:Logistic.cdf", "distrax/_src/distributions/laplace.py:Laplace.cdf", "distrax/_src/distributions/laplace.py:_log_cdf_laplace", "distrax/_src/distributions/gumbel.py:Gumbel.log_cdf", "distrax/_src/distributions/uniform.py:Uniform.cdf", "distrax/_src/distributions/uniform.py:_kl_divergence_uniform_uniform", "distrax/_src/distributions/distribution.py:Distribution.log_survival_function", "distrax/_src/distributions/quantized.py:Quantized.log_cdf", "distrax/_src/distributions/normal.py:_kl_divergence_normal_normal", "distrax/_src/bijectors/scalar_affine.py:ScalarAffine.forward"]}
{"id": "C63", "title": "Rounding errors of the stable formulas are a few units of roundoff", "statement": "In binary floating point with unit roundoff u (float16 2^-11, bfloat16 2^-8, float32 2^-24, float64 2^-53), with correctly rounded elementary functions, whenever the computed result is finite it is close to the real-number value: softplus and Bernoulli(logits).log_prob within u(|result|+2) for every finite argument; Sigmoid's log-determinant within u(3|result|+5), Tanh's within u(24|x|+16); with z = (value-loc)/scale, Normal.log_prob within u(4z^2+4|log scale|+4), Laplace.log_prob within u(5|z|+4|log scale|+4), Logistic.log_prob within u(17|z|+4|log scale|+12), Logistic.log_cdf and log_survival_function within u(4|z|+3), Gumbel.log_prob within u((5|z|+4)e^-z+5|z|+3|log scale|+2), Uniform.cdf within 4u; a sum of n entries in any order within ((1+u)^(n-1)-1) times the sum of magnitudes; Categorical's log_softmax of n logits within u(3(max-x_i)+10n); ScalarAffine.inverse(forward(x)) within u(6|x|+2|shift/scale|+0.1) of x.", "quantifier": "every format with the standard rounding model, every finite parameter and value, every number of entries and every summation order", "why_tests_cant": "tests compare a few values with a tolerance; a cancellation or an overflow in one region of the input space escapes them", "anchors": ["distrax/_src/utils/math.py", "distrax/_src/bijectors/sigmoid.py:Sigmoid.forward_log_det_jacobian", "distrax/_src/bijectors/tanh.py:Tanh.forward_log_det_jacobian", "distrax/_src/distributions/normal.py:Normal.log_prob", "distrax/_src/distributions/normal.py:Normal.entropy", "distrax/_src/distributions/laplace.py:Laplace.log_prob", "distrax/_src/distributions/logistic.py:Logistic.log_prob", "distrax/_src/distributions/gumbel.py:Gumbel.log_prob", "distrax/_src/distributions/uniform.py:Uniform.cdf", "distrax/_src/distributions/bernoulli.py:Bernoulli.log_prob", "distrax/_src/distributions/categorical.py:Categorical.logits", "distrax/_src/distributions/independent.py:Independent.log_prob", "distrax/_src/bijectors/scalar_affine.py:ScalarAffine.inverse"]}
{"id": "C64", "title": "Vector-parameter families and mixtures act row by row", "statement": "A Categorical, OneHotCategorical, Greedy, EpsilonGreedy, Softmax, Multinomial or Dirichlet built from a parameter array of shape B+(K,) (and a count array) behaves at every batch position like the single distribution built from that position's row: log_prob, prob, cdf, log_cdf, entropy, mode, mean, variance, covariance, samples and the pairwise KL divergences have the broadcast batch shape and each entry depends only on the row of parameters and the value that numpy broadcasting assigns to it. The same holds for MixtureSameFamily and MixtureOfTwo over components that act entry by entry, and Independent turns an entry-by-entry distribution into one whose log_prob sums over the reinterpreted axes. Constructors fail exactly when the single-row constructor fails, when the batch shapes differ, or when reinterpreted_batch_ndims is out of range.", "quantifier": "all ranks and sizes of batch, event and value shapes, all numbers of categories and components, all parameters including infinite logits, all noise arrays", "why_tests_cant": "axis and broadcasting slips (a missing keepdims, an expand_dims on the wrong axis) cancel on the square or rank-one shapes tests use", "anchors": ["distrax/_src/distributions/categorical.py:Categorical", "distrax/_src/distributions/one_hot_categorical.py:OneHotCategorical", "distrax/_src/distributions/greedy.py:Greedy", "distrax/_src/distributions/epsilon_greedy.py:EpsilonGreedy", "distrax/_src/distributions/softmax.py:Softmax", "distrax/_src/distributions/multinomial.py:Multinomial", "distrax/_src/distributions/dirichlet.py:Dirichlet", "distrax/_src/distributions/dirichlet.py:_kl_divergence_dirichlet_dirichlet", "distrax/_src/distributions/beta.py", "distrax/_src/distributions/mixture_same_family.py:MixtureSameFamily", "distrax/_src/distributions/mixture_of_two.py:MixtureOfTwo", "distrax/_src/distributions/independent.py:Independent"]}
{"id": "C65", "title": "Quantized, Clipped and CategoricalUniform act entry by entry on arrays", "statement": "Given a base distribution whose methods act entry by entry (a batched Normal or Logistic does) and cutoffs that broadcast to its batch shape, Quantized(...).log_prob, prob, cdf, log_cdf, survival_function and log_survival_function have the broadcast of the batch and value shapes and each entry is that of the single-entry quantized distribution with that entry's base and cutoffs; samples (and their log-probs) have the base's sample shape, entry by entry. The same holds for Clipped (ClippedNormal, ClippedLogistic): log_prob and samples. CategoricalUniform with low, high and logits whose batch parts broadcast to B has batch shape B, and log_prob, mean, variance, entropy and samples use at each entry its own limits and its own row of logits. Constructors reject a non-scalar event, boundaries of too high a rank (Clipped also boundaries that do not broadcast) and scalar logits; what they fail to reject - a Quantized cutoff of acceptable rank that does not broadcast, CategoricalUniform parameters that do not broadcast - raises later, in cdf, log_cdf and sampling, or in every method.", "quantifier": "all ranks and sizes of batch and value shapes, all cutoff arrays (or none), all numbers of bins, all base samples and uniform draws", "why_tests_cant": "some methods read the cutoffs as stored and others broadcast to the batch shape; a slip shows only for particular shape combinations", "anchors": ["distrax/_src/distributions/quantized.py:Quantized", "distrax/_src/distributions/clipped.py:Clipped", "distrax/_src/distributions/clipped.py:ClippedNormal", "distrax/_src/distributions/clipped.py:ClippedLogistic", "distrax/_src/distributions/categorical_uniform.py:CategoricalUniform"]}
{"id": "C66", "title": "Gradients stay correct next to impossible outcomes", "statement": "Reverse-mode gradients (jax.grad) of log_prob, prob, entropy and the KL divergence of Categorical, OneHotCategorical and Bernoulli, and of log_prob of a mixture, with respect to the parameters are finite and equal the true gradient, also when some categories are impossible (logit -inf or probability 0): an impossible category contributes nothing to the gradient of the entropy or of the KL divergence; log_prob of an impossible category has value -inf and a finite gradient; a value outside the range has zero gradient; components of a mixture that exclude the value do not disturb the gradient. Likewise the gradient of Quantized(base, low, high).log_prob with respect to a parameter of the base is the derivative of the log-probability of the cell at every whole number between the cutoffs (cutoffs included) and zero at impossible values, blocked where eps replaces the larger tail; and the gradient of Clipped.log_prob is that of the base's density inside, of the log tail mass at the bounds and zero outside.", "quantifier": "all numbers of categories and components, all logits with finite and -inf entries, all probabilities, all values, all output cotangents and directions of differentiation", "why_tests_cant": "a nan arises from 0*inf or 0/0 in a derivative rule whose forward value is fine; tests compare forward values, or gradients at interior points", "anchors": ["distrax/_src/utils/math.py:multiply_no_nan_jvp", "distrax/_src/utils/math.py:mul_exp", "distrax/_src/utils/math.py:normalize", "distrax/_src/distributions/categorical.py:Categorical.log_prob", "distrax/_src/distributions/categorical.py:Categorical.entropy", "distrax/_src/distributions/categorical.py:_kl_divergence_categorical_categorical", "distrax/_src/distributions/one_hot_categorical.py:OneHotCategorical.log_prob", "distrax/_src/distributions/bernoulli.py:Bernoulli.log_prob", "distrax/_src/distributions/bernoulli.py:Bernoulli.entropy", "distrax/_src/distributions/bernoulli.py:_kl_divergence_bernoulli_bernoulli", "distrax/_src/distributions/mixture_same_family.py:MixtureSameFamily.log_prob"]}
{"id": "C67", "title": "Composite samplers use every random key once and draw from the composite law", "statement": "Joint, MixtureOfTwo, MixtureSameFamily, Multinomial, Independent, Transformed, Quantized and Clipped, nested in any way, VonMises and HMM never draw twice with one PRNG key, nor both draw with a key and split it. Hence, with a generator that is only good at unrelated keys, for every seed and sample shape, sample returns independent draws from the law the composition stands for: a Joint's leaves are independent; a MixtureOfTwo draw is from a with probability prob_a and else from b; a MixtureSameFamily draw, independently at every batch position, from component k with its weight; a Multinomial draw counts independent categorical draws and equals c with probability exp(log_prob(c)); HMM.sample returns a state path and observations with the model's joint law; VonMises entries are independent with density prob given acceptance. Calls with unrelated keys are independent.", "quantifier": "all nestings, all component laws, batch and event types, seeds, sample shapes, numbers of draws, of leaves, of components, of iterations, and every generator that gives independent numbers at unrelated keys", "why_tests_cant": "a reused key makes outputs correlated, not wrong one by one; every sample of a test still looks right and means and variances match", "anchors": ["distrax/_src/distributions/joint.py:Joint._sample_n", "distrax/_src/distributions/mixture_of_two.py:MixtureOfTwo._sample_n", "distrax/_src/distributions/mixture_same_family.py:MixtureSameFamily._sample_n", "distrax/_src/distributions/multinomial.py:Multinomial._sample_n", "distrax/_src/distributions/multinomial.py:Multinomial._sample_n_scalar", "distrax/_src/distributions/transformed.py:Transformed._sample_n", "distrax/_src/distributions/independent.py:Independent._sample_n", "distrax/_src/distributions/quantized.py:Quantized._sample_n", "distrax/_src/distributions/clipped.py:Clipped._sample_n", "distrax/_src/distributions/von_mises.py:_von_mises_sample_fwd", "distrax/_src/utils/hmm.py:HMM.sample", "distrax/_src/distributions/distribution.py:Distribution.sample"]}
{"id": "C68", "title": "Dtypes: the dtype property describes the samples, requested dtypes are honoured, and counts survive them", "statement": "For every nesting of distributions the dtype property is the dtype of the arrays sample returns and raises exactly when sampling raises (the two exceptions are named: a Transformed on top of weakly typed samples, an MVN built from integer loc and integer scale). Real-valued distributions, however nested, return strongly typed floating-point samples; two-parameter families return the narrowest dtype holding both parameters, Python numbers do not widen it, integer parameters give the default float dtype, boolean and complex ones are rejected; VonMises rejects bfloat16; MixtureOfTwo rejects components of different dtypes; MixtureSameFamily widens to at least the default float dtype. Bernoulli, Categorical (OneHot, Greedy, ...) and Multinomial accept exactly the documented dtypes and return samples of the requested one. A drawn category or a multinomial count comes back unchanged exactly when the requested dtype holds 0..K-1 resp. 0..total_count; 0/1 samples always do.", "quantifier": "every nesting of distributions and bijectors, every dtype and weak-type combination of the parameters, every requested dtype, x64 mode on or off, every number of categories, every total count and every sequence of draws", "why_tests_cant": "tests use float32 parameters, int32 samples and small counts; promotions differ only for particular combinations, wrap-around and rounding only beyond the range of a narrow dtype", "anchors": ["distrax/_src/distributions/distribution.py:Distribution.dtype", "distrax/_src/distributions/transformed.py:Transformed._infer_shapes_and_dtype", "distrax/_src/distributions/joint.py:Joint.dtype", "distrax/_src/distributions/mvn_from_bijector.py:MultivariateNormalFromBijector.__init__", "distrax/_src/distributions/bernoulli.py:Bernoulli._sample_n", "distrax/_src/distributions/categorical.py:Categorical._sample_n", "distrax/_src/distributions/one_hot_categorical.py:OneHotCategorical._sample_n", "distrax/_src/distributions/multinomial.py:Multinomial._sample_n_scalar", "distrax/_src/distributions/mixture_of_two.py:MixtureOfTwo.__init__", "distrax/_src/distributions/mixture_same_family.py:MixtureSameFamily._sample_n", "distrax/_src/distributions/von_mises.py:_von_mises_sample_fwd", "distrax/_src/distributions/uniform.py:Uniform._sample_n", "distrax/_src/distributions/deterministic.py:Deterministic._sample_n_and_log_prob", "distrax/_src/utils/conversion.py:as_float_array"]}
{"id": "C69", "title": "Gradients through samples are unbiased", "statement": "For Normal, LogStddevNormal, Laplace, Logistic, Gumbel, Uniform, ClippedNormal, ClippedLogistic and CategoricalUniform, the gradient jax.grad reports for f(sample) with respect to the parameters, averaged over the noise, exists and is the gradient of the expectation of f, for every differentiable f whose derivative grows at most linearly and along every differentiable way of moving the parameters; ties in clip and minimum do not matter. The components of a mixture pass unbiased gradients. Samples of Quantized, Categorical and Bernoulli carry no gradient, and averaging f(sample) * grad(log_prob(sample)) gives the gradient of the expectation. For VonMises the custom rule gives the gradient of the expectation with respect to loc and, up to 3e-7 (2/k^3 from concentration 10.5 on) times the total variation of f, with respect to the concentration. (False of the code, and proved so: the gradient with respect to the mixing weights is lost; the gradient of VonMises with respect to loc is biased for every f with f(pi) != f(-pi).)", "quantifier": "all differentiable test functions with derivative of linear growth, all continuously differentiable parameter curves, all points of them with legal parameters, all numbers of bins, categories and components, all component samplers", "why_tests_cant": "unbiasedness is a statement about an integral over all noise; tests differentiate one sample, or compare noisy averages", "anchors": ["distrax/_src/distributions/normal.py:Normal._sample_n", "distrax/_src/distributions/log_stddev_normal.py:LogStddevNormal.__init__", "distrax/_src/distributions/laplace.py:Laplace._sample_n", "distrax/_src/distributions/logistic.py:Logistic._sample_n", "distrax/_src/distributions/gumbel.py:Gumbel._sample_n", "distrax/_src/distributions/uniform.py:Uniform._sample_n", "distrax/_src/distributions/clipped.py:Clipped._sample_n", "distrax/_src/distributions/quantized.py:Quantized._sample_n", "distrax/_src/distributions/categorical_uniform.py:CategoricalUniform._inverse_cdf", "distrax/_src/distributions/mixture_of_two.py:MixtureOfTwo._sample_n", "distrax/_src/distributions/mixture_same_family.py:MixtureSameFamily._sample_n", "distrax/_src/distributions/von_mises.py:_von_mises_sample_jvp", "distrax/_src/distributions/von_mises.py:VonMises._sample_n", "distrax/_src/distributions/categorical.py:Categorical.log_prob", "distrax/_src/distributions/bernoulli.py:Bernoulli.log_prob"]}
{"id": "C70", "title": "Gradients through the rational-quadratic spline", "statement": "jax.jvp / jax.grad through forward_and_log_det and inverse_and_log_det of RationalQuadraticSpline, with respect to the input, the knots and slopes, and the constructor's parameters together, return the derivatives of the outputs: at every input that is not on a knot for all four outputs, and for the forward output also on the two end knots. On a knot strictly inside the range the full claim fails: jnp.clip is in a tie there, forward gradients are half and inverse gradients a quarter of the derivative, for every spline, the identity initialisation included.", "quantifier": "all valid knot sequences with any number of bins, all differentiable motions of knots, slopes, parameters and input, all inputs, all boundary options, every share that a tie of clip may pass", "why_tests_cant": "the forward values are right everywhere; gradients are wrong only at isolated points that random tests never hit but regular grids and symmetric initialisations do", "anchors": ["distrax/_src/bijectors/rational_quadratic_spline.py:_rational_quadratic_spline_fwd", "distrax/_src/bijectors/rational_quadratic_spline.py:_rational_quadratic_spline_inv", "distrax/_src/bijectors/rational_quadratic_spline.py:_safe_quadratic_root", "distrax/_src/bijectors/rational_quadratic_spline.py:RationalQuadraticSpline.__init__", "distrax/_src/bijectors/rational_quadratic_spline.py:_normalize_bin_sizes", "distrax/_src/bijectors/rational_quadratic_spline.py:_normalize_knot_slopes"]}
{"id": "C71", "title": "Gradients through the hidden Markov model", "statement": "jax.jvp / jax.grad through HMM.forward and HMM.forward_backward, with respect to initial, transition and observation probabilities together, return the derivatives of the exact log-likelihood of the first length observations, of every filtering posterior and (full sequence) of every smoothing posterior. The derivative in a direction moving log-probabilities is the posterior expectation of the move along the hidden path; with respect to log obs_dist.prob(o)[k] it is the sum of the returned smoothing weights of state k over the times o was observed. Observations after length contribute nothing. After an impossible observation the derivative stays finite and is that of the last possible prefix. (The full claim fails, and is proved to: where a state has weight exactly 0 and the parameters are at the edge of their range, and where a weight lies strictly between 0 and 1e-15, the contribution of that state is dropped; if all weights do, the whole gradient is 0.)", "quantifier": "all numbers of states, sequence lengths, valid lengths and observation sequences, all differentiable families of models, all directions, possible and impossible observations", "why_tests_cant": "finite-difference tests probe generic parameters of small models; the where-branches of _normalize change derivatives only at zeros and below 1e-15, which long or high-dimensional sequences reach", "anchors": ["distrax/_src/utils/hmm.py:_normalize", "distrax/_src/utils/hmm.py:HMM.forward", "distrax/_src/utils/hmm.py:HMM.backward", "distrax/_src/utils/hmm.py:HMM.forward_backward"]}
{"id": "C72", "title": "Gradients in floating point", "statement": "With every operation of the forward and of the backward pass rounded (any IEEE binary format): wherever the value is a number, is the gradient? Tanh.forward and its log-determinant: yes, for all inputs resp. all finite inputs, of size at most a small multiple of the cotangent. Normal, Laplace, Logistic and Gumbel log_prob and Laplace/Logistic cdf: the gradients with respect to value, loc and scale are never nan as long as value-loc does not overflow and 1/scale**2 neither overflows nor underflows; Uniform.log_prob: never nan under the same condition on high-low, and 0 outside the support. Away from overflow the gradients of Sigmoid, Tanh and of the log-densities of Normal, Laplace and Logistic equal the exact derivatives up to a few units of rounding. (The full claim fails, and is proved to: Sigmoid.forward and its log-determinants have gradient nan wherever exp(x) overflows - float32 from 90 on, float16 from 12 on - although the values are finite; likewise GumbelCDF.forward and Gumbel.cdf far in the left tail; scale gradients at value == loc are nan for scales up to 2**-65 in float32 and 2**-9 in float16; Laplace.cdf has gradient 0 at value == loc, where its slope is 1/(2 scale).)", "quantifier": "all formats with round-to-nearest, all inputs and cotangents representable in them, all legal parameters", "why_tests_cant": "the nan comes from 0*inf in a branch that jnp.where discards, or from an overflow in an intermediate of the backward pass; values are right, and gradients are right for moderate inputs", "anchors": ["distrax/_src/bijectors/sigmoid.py:_more_stable_sigmoid", "distrax/_src/bijectors/sigmoid.py:_more_stable_softplus", "distrax/_src/bijectors/sigmoid.py:Sigmoid.forward_log_det_jacobian", "distrax/_src/bijectors/sigmoid.py:Sigmoid.inverse_and_log_det", "distrax/_src/bijectors/tanh.py:Tanh.forward_log_det_jacobian", "distrax/_src/bijectors/gumbel_cdf.py:GumbelCDF.forward_and_log_det", "distrax/_src/distributions/normal.py:Normal.log_prob", "distrax/_src/distributions/laplace.py:Laplace.log_prob", "distrax/_src/distributions/laplace.py:Laplace.cdf", "distrax/_src/distributions/logistic.py:Logistic.log_prob", "distrax/_src/distributions/logistic.py:Logistic.cdf", "distrax/_src/distributions/gumbel.py:Gumbel.log_prob", "distrax/_src/distributions/gumbel.py:Gumbel.log_cdf", "distrax/_src/distributions/uniform.py:Uniform.prob"]}
{"id": "C73", "title": "Score-function gradients and gradients of the Monte-Carlo KL estimators are unbiased", "statement": "For every distribution over the reals built from Normal, LogStddevNormal, Laplace, Logistic and Gumbel by arbitrarily nested MixtureOfTwo / MixtureSameFamily, and for VonMises, Gamma, Beta and Dirichlet (any dimension): the average over samples of f(sample) * grad(log_prob(sample)) is the gradient of the expectation of f, with respect to every parameter (mixing weights and logits included), for every f of polynomial growth (for Gamma, Beta and Dirichlet: in the entries and their logarithms), continuous or not; in particular the average score is zero. The same for Independent over vectors of any length of such distributions without Gumbel components. mc_estimate_kl (any number of samples, the default or any other proposal with a finite log-density) returns an estimate whose expectation is the divergence and whose jax.grad has the gradient of the divergence as expectation (for Gamma, Beta and Dirichlet: the value and gradient of the closed form of kl_divergence); mc_estimate_kl_with_reparameterized does so for Normal, LogStddevNormal, Laplace, Logistic and Gumbel as first argument. Exceptions, proved: for Uniform the score-function gradient misses exactly the contribution of the moving ends of the support; mc_estimate_kl_with_reparameterized does not reject distrax distributions whose samples are not reparameterised and then reports a gradient of average zero, e.g. for mixing weights.", "quantifier": "all nestings of mixtures, all continuously differentiable parameter curves and all points of them with legal parameters, all measurable test functions of polynomial growth, all numbers of samples, all proposals with finite log-density, all vector lengths", "why_tests_cant": "unbiasedness is a statement about an integral over the whole real line and about exchanging derivative and integral; tests compare noisy averages at a few parameters", "anchors": ["distrax/_src/utils/monte_carlo.py:mc_estimate_kl", "distrax/_src/utils/monte_carlo.py:mc_estimate_kl_with_reparameterized", "distrax/_src/distributions/normal.py:Normal.log_prob", "distrax/_src/distributions/normal.py:Normal._sample_n_and_log_prob", "distrax/_src/distributions/log_stddev_normal.py:LogStddevNormal.__init__", "distrax/_src/distributions/laplace.py:Laplace.log_prob", "distrax/_src/distributions/laplace.py:Laplace._sample_n_and_log_prob", "distrax/_src/distributions/logistic.py:Logistic.log_prob", "distrax/_src/distributions/gumbel.py:Gumbel.log_prob", "distrax/_src/distributions/gumbel.py:Gumbel._sample_n_and_log_prob", "distrax/_src/distributions/mixture_of_two.py:MixtureOfTwo.log_prob", "distrax/_src/distributions/mixture_same_family.py:MixtureSameFamily.log_prob", "distrax/_src/distributions/independent.py:Independent.log_prob", "distrax/_src/distributions/von_mises.py:VonMises.log_prob", "distrax/_src/distributions/uniform.py:Uniform.log_prob", "distrax/_src/distributions/gamma.py:Gamma.log_prob", "distrax/_src/distributions/beta.py:Beta.log_prob", "distrax/_src/distributions/dirichlet.py:Dirichlet.log_prob"]}
{"id": "C74", "title": "Gradients of the multivariate normal distributions", "statement": "For MultivariateNormalDiag, MultivariateNormalTri (lower or upper), MultivariateNormalFullCovariance and MultivariateNormalDiagPlusLowRank of any dimension and rank, with respect to loc and every entry of the scale parameters: the derivative of log_prob that jax reports is the true one, also with respect to the value; gradients through samples are unbiased for every differentiable f of polynomial growth; score-function gradients are unbiased for every f of polynomial growth; and mc_estimate_kl (any proposal) and mc_estimate_kl_with_reparameterized between any two of the classes are unbiased for the KL divergence together with its gradient. Samples have the documented Gaussian law, and sample_and_log_prob returns the log-density of the sample.", "quantifier": "all dimensions and ranks, all continuously differentiable motions of the parameters and all points where the scale is invertible (covariance positive definite), all test functions, numbers of draws and proposals", "why_tests_cant": "unbiasedness is a statement about an integral over all noise, and the derivative passes through a Cholesky factor, a triangular solve, a log-determinant and the Woodbury identity; tests compare one gradient at a few matrices", "anchors": ["distrax/_src/distributions/mvn_diag.py:MultivariateNormalDiag.__init__", "distrax/_src/distributions/mvn_tri.py:MultivariateNormalTri.__init__", "distrax/_src/distributions/mvn_full_covariance.py:MultivariateNormalFullCovariance.__init__", "distrax/_src/distributions/mvn_diag_plus_low_rank.py:MultivariateNormalDiagPlusLowRank.__init__", "distrax/_src/distributions/mvn_from_bijector.py:MultivariateNormalFromBijector.__init__", "distrax/_src/distributions/transformed.py:Transformed.log_prob", "distrax/_src/distributions/transformed.py:Transformed._sample_n_and_log_prob", "distrax/_src/bijectors/diag_linear.py:DiagLinear", "distrax/_src/bijectors/triangular_linear.py:TriangularLinear", "distrax/_src/bijectors/diag_plus_low_rank_linear.py:DiagPlusLowRankLinear", "distrax/_src/utils/monte_carlo.py:mc_estimate_kl", "distrax/_src/utils/monte_carlo.py:mc_estimate_kl_with_reparameterized"]}
{"id": "C75", "title": "Gradients of closed-form entropies and KL divergences", "statement": "jax.jvp / jax.grad of entropy() and kl_divergence() of Normal, LogStddevNormal, Laplace, Logistic (entropy), Gumbel, Uniform, Gamma, Beta, Dirichlet (any dimension), VonMises and the four multivariate normals (any dimension and rank), with respect to all parameters of both distributions together, return the derivative of the differential entropy / Kullback-Leibler divergence of the distributions themselves (integrals over the densities), including the points where the formulas have kinks (equal locations of two Laplace distributions, nested Uniforms with a common edge, VonMises with concentration 0).", "quantifier": "all differentiable motions of the parameters of both distributions, all legal parameters at which the divergence is finite, all dimensions and ranks", "why_tests_cant": "the closed forms contain abs, sign, where, digamma and Bessel functions with hand-written derivative rules; finite-difference tests at generic parameters do not visit the kinks, and compare with the formula and not with the integral", "anchors": ["distrax/_src/distributions/normal.py:Normal.entropy", "distrax/_src/distributions/normal.py:_kl_divergence_normal_normal", "distrax/_src/distributions/log_stddev_normal.py:_kl_logstddevnormal_logstddevnormal", "distrax/_src/distributions/laplace.py:Laplace.entropy", "distrax/_src/distributions/laplace.py:_kl_divergence_laplace_laplace", "distrax/_src/distributions/logistic.py:Logistic.entropy", "distrax/_src/distributions/gumbel.py:Gumbel.entropy", "distrax/_src/distributions/gumbel.py:_kl_divergence_gumbel_gumbel", "distrax/_src/distributions/uniform.py:Uniform.entropy", "distrax/_src/distributions/uniform.py:_kl_divergence_uniform_uniform", "distrax/_src/distributions/gamma.py:Gamma.entropy", "distrax/_src/distributions/gamma.py:_kl_divergence_gamma_gamma", "distrax/_src/distributions/beta.py:Beta.entropy", "distrax/_src/distributions/beta.py:_kl_divergence_beta_beta", "distrax/_src/distributions/dirichlet.py:Dirichlet.entropy", "distrax/_src/distributions/dirichlet.py:_kl_divergence_dirichlet_dirichlet", "distrax/_src/distributions/von_mises.py:VonMises.entropy", "distrax/_src/distributions/von_mises.py:_kl_divergence_vonmises_vonmises", "distrax/_src/distributions/mvn_from_bijector.py:_kl_divergence_mvn_mvn", "distrax/_src/distributions/transformed.py:Transformed.entropy"]}
{"id": "C76", "title": "HMM filtering, smoothing and likelihood in floating point", "statement": "In any IEEE format, with every product, quotient and logarithm rounded and the sums over the K states taken in any order: as long as nothing overflows or underflows and the clamp of the normalisation does not act, every entry of alpha[t] returned by HMM.forward is the filtering posterior of the exact model up to 2(t+1)(K+2) relative perturbations of size 1/(1-2u), every row of alpha sums to one up to K of them, every entry of gamma returned by forward_backward for n+1 observations is the smoothing posterior up to (2n+3)(K+2) of them, zero entries are exactly the impossible states, and the error of the log-likelihood grows linearly with the number of observations. Rows after `length` are exactly zero and padding changes neither the other rows nor the log-likelihood in any bit. If all probabilities lie in [delta, 1] the provisos hold for every observation sequence of every length. In float32: with up to 30 states, up to 1000 observations and probabilities in [1e-6, 1] the relative error of every filtering probability is below 1 percent; with up to 8 states, up to 3000 observations and probabilities in [0.05, 1] that of every smoothing probability is.", "quantifier": "all formats, all summation orders, all numbers of states, all lengths, all observation sequences, all models with finite nonnegative parameters", "why_tests_cant": "rounding errors compound over the recursion; a test compares one model and one sequence with a float64 reference and cannot bound the drift for every length", "anchors": ["distrax/_src/utils/hmm.py:_normalize", "distrax/_src/utils/hmm.py:HMM.forward", "distrax/_src/utils/hmm.py:HMM.backward", "distrax/_src/utils/hmm.py:HMM.forward_backward"]}
{"id": "C77", "title": "Viterbi decoding in floating point", "statement": "In any IEEE format and for any number of states and observations: unless some path evaluates to nan, HMM.viterbi returns a list of state indices whose log joint probability, evaluated in floating point from left to right, is the largest of all paths; with log-probabilities at most zero (categorical initial and transition distributions through log_softmax, discrete observations, -inf allowed) this needs no proviso. Consequently the exact log joint probability of the returned path is within twice the rounding error of the evaluation of the best possible path (a relative excess of the negative log joint probability of at most (1/(1-2u))^(2(2n+1)) for log-probabilities at most zero; 2((1+u)^(2n+1)-1)*2(n+1)*M for log-densities of size at most M that do not overflow), an impossible path is never returned when a possible one exists, and a path that beats all others by more than that error is returned exactly. In float32 with up to 2^24 states and up to 1000 observations the negative log joint probability is within 0.1 percent of the smallest.", "quantifier": "all formats, all numbers of states whose indices are exact in the format, all lengths, all observation sequences, all models, all summation orders of the one-hot read-out", "why_tests_cant": "a rounding that flips one comparison changes a back-pointer and with it the rest of the path; that such flips can never cost more than the evaluation error holds for every model only by an argument about all paths", "anchors": ["distrax/_src/utils/hmm.py:HMM.viterbi"]}
{"id": "C78", "title": "Sampling in floating point", "statement": "In any IEEE format and for every draw of the generator: a distribution accepts its own samples. Uniform samples lie in [low, high], are the requested quantile up to rounding, and log_prob(sample) and the log-probability returned by sample_and_log_prob are both -log(high - low) up to rounding. Bernoulli samples are 0 or 1, a value of probability zero is never drawn, log_prob of the sample is finite (infinite logits included), and 1 is drawn with frequency ceil(p 2^m)/2^m, within 2^-m of p. Normal, Laplace, Gumbel and Logistic samples are loc + scale * draw up to rounding; sample_and_log_prob reports the log-density of the unrounded sample up to rounding and log_prob(sample) differs from it by no more than the rounding of the sample explains; the standardised sample is never more than about twice the draw. A category of logit -inf is never drawn by Categorical. Quantized samples are integers within the bounds. For Transformed with Sigmoid or Tanh, sample_and_log_prob never returns nan (as documented) and log_prob of a sample strictly inside the unit interval is not nan.", "quantifier": "all formats, all admissible parameters, all draws of the generator, all numbers of categories, all bounds", "why_tests_cant": "a test draws a few thousand samples; the rounding of the one sample that lands on an end point, or saturates, is what matters, and whether any of the 2^23 draws and all parameters can do so is a statement about all of them", "anchors": ["distrax/_src/distributions/uniform.py:Uniform._sample_n", "distrax/_src/distributions/uniform.py:Uniform._sample_n_and_log_prob", "distrax/_src/distributions/bernoulli.py:Bernoulli._sample_n", "distrax/_src/distributions/normal.py:Normal._sample_n_and_log_prob", "distrax/_src/distributions/laplace.py:Laplace._sample_n_and_log_prob", "distrax/_src/distributions/gumbel.py:Gumbel._sample_n_and_log_prob", "distrax/_src/distributions/logistic.py:Logistic._sample_n", "distrax/_src/distributions/categorical.py:Categorical._sample_n", "distrax/_src/distributions/quantized.py:Quantized._sample_n", "distrax/_src/distributions/transformed.py:Transformed._sample_n_and_log_prob"]}
{"id": "C79", "title": "The rational-quadratic spline in floating point", "statement": "RationalQuadraticSpline with every operation rounded, in any IEEE format and any order of the sums. (a) The constructor keeps its promises: for finite parameters the knots start and end at range_min and range_max, increase strictly on both axes, no bin is smaller than min_bin_size (up to rounding) and no slope below min_knot_slope; boundary slopes of the identity options are exactly one. (b) forward, inverse and both log-determinants are finite at every finite input whose tail value does not overflow: the quadratic formula, the quotient of slopes and the three logarithms never produce nan or inf, whatever the bin. (c) forward maps every knot exactly to its knot, inverse maps it exactly back, a point of a bin stays in the corresponding bin up to rounding, in both directions. (d) Outside the range both directions are the linear tails with the slope of the nearest end, up to an explicit rounding error, and monotone. (e) Inside a bin, forward is the exact rational-quadratic function and its log-determinant the logarithm of the derivative, up to explicit rounding errors, and inverse is the exact inverse up to an explicit error that grows with the condition number of the bin; at the knots the log-determinants of the two directions are opposite up to rounding; the first K parameters affect only the x knots, the next K only the y knots, the last K + 1 only the slopes.", "quantifier": "all formats, all finite parameters, all numbers of bins, all ranges and minima satisfying the size conditions, all inputs, all orders of summation", "why_tests_cant": "a cancellation in b*b - 4ac, a clipped quotient or a collapsed bin shows only at particular parameters and inputs; a test visits a handful of both", "anchors": ["distrax/_src/bijectors/rational_quadratic_spline.py:RationalQuadraticSpline.__init__", "distrax/_src/bijectors/rational_quadratic_spline.py:_rational_quadratic_spline_fwd", "distrax/_src/bijectors/rational_quadratic_spline.py:_rational_quadratic_spline_inv", "distrax/_src/bijectors/rational_quadratic_spline.py:_safe_quadratic_root", "distrax/_src/bijectors/rational_quadratic_spline.py:_normalize_bin_sizes", "distrax/_src/bijectors/rational_quadratic_spline.py:_normalize_knot_slopes"]}
