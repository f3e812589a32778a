{
 "C06": {
  "status": "partial",
  "note": "The full claim is false of the code: below -9 forward is exp(x) (C06_sigmoid_not_injective). Proved: everything on [-9, inf), the log-det everywhere, and the exact size of the defect."
 },
 "C41": {
  "note": "C41_forward exact under the guard that no predictive weight lies strictly between 0 and 1e-15 (the code clamps there); C41_forward_bounds and C41_forward_rows need no guard; C41_clamp_witness shows the guard matters (evidence too large by a factor over 9)."
 },
 "C42": {
  "status": "partial",
  "note": "False of the code: impossible sequences get the finite log-likelihood of their longest possible prefix (C42_impossible_is_finite, C42_impossible_at_start, C42_witness). Proved instead: the last row detects impossibility."
 },
 "C43": {
  "note": "Exact under the no-clamp guards for forward, backward and smoothing weights, and positive evidence, full length; C43_rows (row sums, same log-likelihood and alphas as forward, betas as backward) needs no guard."
 },
 "C44": {
  "status": "partial",
  "note": "Proved for forward. False of forward_backward: with length < seq_len all gammas are zero (C44_short_smoothing_is_zero); length = 0 is treated as length = 1 (C44_length_zero)."
 },
 "C46": {
  "note": "Structure for every outcome of the draws; law for arbitrary measurable key and observation spaces with independent keys (PRNG independence assumed)."
 },
 "C12": {
  "note": "Exact inverse under the guard Resolved (the code clamps a discriminant at finfo.tiny); C12_guard_needed shows the guard cannot be dropped; C12_defaults discharges it for the default settings."
 },
 "C13": {
  "status": "partial",
  "note": "Proved for every straight-line program on each primitive's principal domain. False of the code for a variable exponent c**x (C13_variable_exponent_wrong) and outside principal branches (C13_square_branch). erf/erf_inv enter as a contract."
 },
 "C14": {
  "status": "partial",
  "note": "Sound when no call equation repeats an operand or result variable; otherwise false (C14_repeated_operand_missed). jax's jacfwd/tracing are trusted."
 },
 "C16": {
  "note": "power_no_nan's derivative is nan at base 0 (C16_power_no_nan_jvp_nan_at_zero): a finding, outside the claim's domain x>0."
 },
 "C24": {
  "note": "Per batch row. Non-integer in-range values are a finding (C24_non_integer_disagree)."
 },
 "C26": {
  "note": "Findings: all-zero one-hot vector (C26_one_hot_zero_vector), temperature 0 (C26_softmax_zero_temperature)."
 },
 "C27": {
  "note": "Finding: values outside {0,1} (C27_off_support_finding)."
 },
 "C18": {
  "note": "Generic over every distribution whose _sample_n stacks draws; sample_and_log_prob under the per-event contract on log_prob, both for the inherited _sample_n_and_log_prob and for any override that pairs its draws with their log-probabilities (C18_sample_and_log_prob_override)."
 },
 "C19": {
  "note": "Basic indices (ints, slices with any step, Ellipsis, tuples) and coordinate-array indices; boolean masks and newaxis not modelled. Finding: C19_scalar_accepts_anything."
 },
 "C20": {
  "note": "Generic over the wrapped distribution."
 },
 "C28": {
  "status": "partial",
  "note": "Law, sampling, moments, KL, max_scale proved. False of the code: slicing with max_scale re-applies the cap and shrinks the scale (C28_slice_shrinks_scale); C28_slice_partial is the case without max_scale."
 },
 "C30": {
  "note": "Laplace, Gumbel, Uniform, Deterministic here; Normal at C28_normal_kl*, Categorical/Bernoulli at C25/C27, other families at their own property."
 },
 "C32": {
  "status": "partial",
  "note": "Law, pmf, cdf, survival, sampling proved for every base law. False of the code when eps is set: slicing drops it and sample_and_log_prob ignores it (C32_eps_forgotten); C32_sample_and_log_prob_ae is the eps=None case."
 },
 "C33": {
  "status": "partial",
  "note": "Full for bases with a density and min<max. For bases with an atom at max the code reports P(X>max) instead of P(X>=max) (C33_boundary); min>=max is accepted (C33_degenerate)."
 },
 "C34": {
  "note": "Sampling exactness is for finite component draws (C34_same_family_sample). Findings: an infinite draw of an unselected component gives nan (C34_same_family_inf_leaks); number of weights vs components unchecked (C34_same_family_count_unchecked); MixtureOfTwo batch entries share the component choice (C34_two_batch_shares_mask)."
 },
 "C35": {
  "status": "partial",
  "note": "Density off the edges, normalisation, moments, entropy, inverse cdf and sampling law (positive weights) proved. False of the code: interior edges are double counted (C35_edges_double_count); a zero-weight bin makes every sample nan (C35_zero_weight_sample_nan)."
 },
 "C22": {
  "status": "partial",
  "note": "The KL equality test falls back on the printed jaxpr, which omits captured constants (C22_captured_constants_collide); proved when bijectors are the same object or close over no constants (C22_printed_sound_partial)."
 },
 "C23": {
  "status": "partial",
  "note": "False of the code in corners: leading () batch shapes are accepted (C23_mixed_batch_accepted), log_cdf truncates (C23_log_cdf_truncates), a nested Joint cannot score its own samples (C23_nested_log_prob_fails). Everything else proved for every tree."
 },
 "C40": {
  "status": "partial",
  "note": "Everything is proved except the documented half-open range of the angle conversion, which the code violates: C40_angle_exceptions characterises exactly the angles (pi + 4 pi m) that are sent to pi instead of -pi; C40_angle_partial gives the closed range. The CDF theorem C40_cdf_exact is for an exact recipe; the code's own recipe is C56 (within 2e-7 below the cutoff 10.5), and C40_series, C40_cdf_ends and C40_cdf_survival hold for it unconditionally. Negative concentrations, accepted by the constructor, break prob = exp log_prob (C40_negative_concentration)."
 },
 "C48": {
  "status": "partial",
  "note": "Unbiasedness is false of the code for a proposal that can leave the support of a: one such sample makes the estimate nan (C48_outside_support_nan). Proved for every proposal with the support of a (C48_unbiased), for the default proposal and for the reparameterised estimator. The expected derivative of the estimate is the derivative of the divergence: C48_gradient for finite supports, C48_gradient_law for any support under the usual domination condition (met by Normals with any positive proposal, C48_gradient_normal), and C48_reparam_gradient (C48_reparam_gradient_normal) for the reparameterised estimator. Consistency: C48_consistent and C48_reparam_consistent (almost every infinite run, by the strong law of large numbers)."
 },
 "C49": {
  "status": "partial",
  "note": "All conversions and every listed method proved for arbitrary conversion sequences; survival functions of TFP-compatible wrappers only when the class overrides them or empty TensorShapes are falsy (C49_survival_partial); C49_survival_lost proves they are refused under TensorFlow's truthiness."
 },
 "C52": {
  "status": "partial",
  "note": "Proved for one-hot events (samples carrying the category axis), every shape, seed and direction. False of the code for a plain Categorical (C52_plain_categorical): the value is broadcast against the probabilities."
 },
 "C50": {
  "status": "proved",
  "note": "Holds for every leaf classification isData; treedef equality is structural (python's == on metadata, e.g. True == 1, is not modelled)."
 },
 "C56": {
  "status": "proved",
  "note": "Below the concentration cutoff 10.5 the code's series is within 1e-7 of the exact CDF, cdf/survival within 2e-7 (C56_series_accuracy, C56_cdf_accuracy), and the returned concentration derivative is the derivative of the returned value (C56_series_gradient) and within 3e-7 of the derivative of the exact CDF (C56_gradient_accuracy), so the shipped jvp rules of the CDF and the sampler are accurate too (C56_cdf_jvp_accuracy, C56_sample_jvp_accuracy). The jvp rules of the CDF and of the sampler are exact when the recipe's concentration derivative is (C56_cdf_jvp, C56_sample_jvp). From 10.5 on the normal recipe is within 1/(4 k^2) of the exact CDF (C56_normal_accuracy), cdf/survival within 1/(2 k^2) (C56_cdf_accuracy_large); this bound is proved, not sharp (measured errors are far smaller). Its concentration derivative exists and is within 2/k^3 of that of the exact CDF (C56_normal_gradient_accuracy), so the shipped jvp rules are accurate there too (C56_cdf_jvp_accuracy_large, C56_sample_jvp_accuracy_large). In exact arithmetic the normal recipe makes cdf + survival < 1 (C56_normal_recipe_deficit)."
 },
 "C58": {
  "status": "partial",
  "note": "Proved for every method of the eleven families except three, for which the claim is false of the code: Gumbel.entropy has the shape of the stored scale (C58_gumbel_entropy), VonMises.variance and entropy that of the stored concentration (C58_von_mises_summaries); C58_summary_shape_negation is the counterexample and C58_independent_gumbel_entropy its consequence for Independent.entropy. Deterministic accepts tolerances that do not broadcast and raises later (C58_deterministic_bad_tolerance). C58_contracts ties the whole arrays to the generic contracts of C18 and C20."
 },
 "C59": {
  "status": "proved",
  "note": "Noise arrays are product measures over positions (assumption about jax.random: independent entries, split keys independent). Von Mises: the loop is cut after n rounds (100 in the code), so the statement gives the joint probability of acceptance of all entries and of the samples lying in given sets; given acceptance the samples are independent with exact densities. Concentration 0 is C40_zero_law. C59_meaning spells out IndependentEntries as marginals, mutual independence and product probabilities."
 },
 "C60": {
  "status": "proved",
  "note": "Array level, through the models of Transformed (TransformedArr), the bijector tree and FamArr. Indistinguishable covers every method the two objects share except mode (Transformed.mode is in C21) and KL (C22; C60_kl_affine for the parameter formulas). C60_small_base_shares_noise is the case of a base with a smaller batch. Gumbel entropy needs the scale array at full batch shape (C58)."
 },
 "C61": {
  "status": "partial",
  "note": "The claim as stated is false of the code in five places, each proved with a witness in every format and with the exact condition: Normal KL when loc/scale2 overflows (C61_normal_kl_nan, normal_kl, C61_normal_kl_self), Logistic and Gumbel log_prob when the standardised value overflows to -inf (C61_left_tail_nan, C61_logistic and C61_gumbel are iffs), Uniform.cdf and Uniform KL when high - low overflows (C61_uniform_cdf_nan, C61_uniform_kl_nan), Tanh's log-determinant at -inf (C61_tanh_infinite; finite inputs are fine). Everything else in the claim is proved without exceptions. Primitives are assumed correctly rounded; no flush-to-zero, no fusion."
 },
 "C62": {
  "status": "proved",
  "note": "Under abstract monotone rounding (Fmt; C61_formats shows every IEEE binary format is an instance). Logistic log_cdf/log_survival_function: only the bound (<= 0, not nan) is claimed and proved. Sigmoid.forward is not order-preserving at -9, see C06."
 },
 "C63": {
  "status": "proved",
  "note": "Fmt.Acc is the standard rounding model (Spec/FloatAcc.lean); C63_formats proves it, with the unit roundoffs named in the claim, for round-to-nearest in every IEEE binary format from the definition of nearest. The exact sides are the real-number models of C28, C29, C31 (Normal.logProb etc.). Finiteness of the computed result is the only range condition (the affine round trip also keeps the scale away from the subnormal range, Gumbel asks u|z| <= 1/4, Tanh that 2x does not overflow); C63_normal_log_prob_finite, C63_sum_finite, C63_log_softmax_finite show how wide that range is. Assumes exp, log, log1p, expm1 are correctly rounded, which XLA does not promise; a library error of k ulp would enlarge the constants."
 },
 "C64": {
  "status": "proved",
  "note": "Rows are the per-row models of C24-C26, C34, C36, C38. Mixture components enter through RowWise (Spec/VecArr.lean), proved for Normal (C64_normal_rowwise) and preserved by Independent (C64_independent). MixtureSameFamily is for equal numbers of weights and components; the unchecked mismatch is C34_same_family_count_unchecked."
 },
 "C65": {
  "status": "proved",
  "note": "The per-entry distributions are the models of C32, C33 and C35. A Quantized cutoff of acceptable rank that does not broadcast is accepted (C65_quantized_bad_cutoff); CategoricalUniform checks no shapes (C65_categorical_uniform_rejects). Zero bins are excluded (softmax of an empty axis raises)."
 },
 "C66": {
  "status": "partial",
  "note": "Proved for logits as parameters: Categorical and OneHotCategorical log_prob, prob, entropy, KL (both arguments), mixtures, Bernoulli log_prob (infinite logits included), Bernoulli entropy and KL at finite logits. The claim is false of the code elsewhere, with proofs: with probs as parameters one zero probability makes the whole gradient of log_prob and entropy nan (C66_probs_log_prob_nan, C66_probs_entropy_nan; interior case in the _partial theorems, prob is fine everywhere), Bernoulli entropy at infinite logits and Bernoulli log_prob/entropy at probs 0 or 1 (C66_bernoulli_entropy_inf_nan, C66_bernoulli_probs_nan), a mixture at a value no component can produce (C66_mixture_impossible_nan). Quantized and Clipped (any base with correct differentiated tails; Logistic proved to be one, in loc and scale): correct everywhere without eps and where eps is inactive, zero at impossible values. False of the code: where eps is active the gradient is -1/(e^eps-1) times that of the log of the smaller tail, not blocked (C66_quantized_eps), and Quantized(Uniform) has gradient nan in its first cell, with any cutoff (C66_quantized_uniform_nan)."
 },
 "C67": {
  "status": "proved",
  "note": "The unit of independence is a whole draw (all batch entries): C67_mixture_of_two_batch_dependent proves that the batch entries of one MixtureOfTwo draw are not independent of each other (one mask per draw, finding 33). jax.random itself is the ideal-generator hypothesis IdealPRNG (independent numbers at unrelated keys only); C67_reuse_is_caught shows the hypothesis is weak enough to detect reuse."
 },
 "C68": {
  "status": "proved",
  "note": "JAX's promotion lattice, weak types, canonicalisation and astype are modelled from memory of jax (Model/DTypes.lean). The exceptions named in the statement are theorems too (C68_weak_samples, C68_integer_mvn, C68_deterministic_log_prob, C68_multinomial_overflow; findings 34-38). Quantized is left out of the dtype model (jnp.ceil of integers changed between JAX versions); Python integers out of range of the dtype are taken to wrap like arrays do (recent JAX raises instead)."
 },
 "C69": {
  "status": "partial",
  "note": "Proved in full for the location-scale families, LogStddevNormal, the clipped families, CategoricalUniform, mixture components, the score function of Categorical and Bernoulli, and VonMises on circular functions. False of the code, with proofs: mixture weights (C69_mixture_weights_biased; the exact missing term is in C69_mixture_same_family and C69_mixture_of_two), VonMises loc for functions that differ at the two ends of the turn (C69_von_mises_loc_biased; exact missing term in C69_von_mises_loc). jax.random noise is a constant of differentiation; jax's derivative rules are assumptions stated in Model/Pathwise."
 },
 "C70": {
  "status": "partial",
  "note": "The derivative claim is proved off the knots (and on the end knots for the forward output), for moving knots, slopes, parameters and inputs together (C70_forward_partial, C70_inverse_partial, C70_spline_forward_partial, C70_spline_inverse_partial). The full claim is false of the code: on knots strictly inside the range the computed tangent is the share tie (forward) or tie^2 (inverse) of the derivative (C70_forward_knot, C70_inverse_knot, C70_forward_knot_wrong, C70_inverse_knot_wrong, C70_identity_init_wrong)."
 },
 "C71": {
  "status": "partial",
  "note": "Derivatives of log-likelihood, filtering and smoothing posteriors proved for every differentiable family of models, under the guards of C41/C43 at the point and with the point inside the range of nonnegative parameters (C71_forward_partial, C71_smoothing_partial, C71_score_partial, C71_observation_gradient_partial). The full claim is false: C71_boundary_wrong (wrong sign at the edge of the simplex), C71_clamped_wrong / C71_clamped_vanishes (zero gradient below the 1e-15 clamp)."
 },
 "C72": {
  "status": "partial",
  "note": "Positive part proved for every format: C72_tanh_forward, C72_tanh_log_det, C72_log_prob_partial, C72_cdf_partial, C72_uniform_partial, exact nan conditions for Sigmoid and GumbelCDF (C72_sigmoid_*_partial, C72_gumbel_cdf_partial), agreement with the exact derivatives (C72_*_accurate). The full claim is false of the code: C72_sigmoid_nan, C72_sigmoid_inverse_nan, C72_small_scale_nan, C72_small_scale_formats, C72_laplace_cdf_at_loc."
 },
 "C73": {
  "status": "proved",
  "note": "Full statement, exceptions included: C73_score (all nested mixtures), C73_score_zero, C73_von_mises, C73_gamma, C73_beta, C73_dirichlet, C73_{gamma,beta,dirichlet}_mc_kl, C73_independent_score, C73_mc_kl, C73_mc_kl_default, C73_independent_mc_kl, C73_reparam_{normal,log_stddev_normal,laplace,logistic,gumbel}; exceptions C73_uniform_bias / C73_uniform_biased, C73_reparam_not_reparameterized / C73_reparam_mixture_weight_wrong. For the KL estimators a Gumbel component in b is allowed when a has Normal/LogStddevNormal/Gumbel components only (otherwise the divergence can be infinite). jax's derivative rules are assumptions stated in Model/Pathwise and Model/ScoreGrad."
 },
 "C74": {
  "status": "proved",
  "note": "Full statement: C74_values, C74_sample_values, C74_log_prob_deriv, C74_pathwise, C74_score, C74_mc_kl, C74_reparam_kl; C74_kl_closed identifies the divergence with the closed form that kl_divergence computes, C74_cholesky shows that the hypothesis on the Cholesky routine can be met. Derivative rules of solve, slogdet and cholesky are jax's (from memory, stated at the head of Model/MVNGrad); that they are the true derivatives is proved (CA.solve, CA.slogdet, CA.cholesky)."
 },
 "C75": {
  "status": "partial",
  "note": "Proved against the integrals for every family and every legal parameter at which the divergence is finite: C75_normal_*, C75_log_stddev_normal_*, C75_laplace_* (also at equal locations), C75_logistic_entropy, C75_gumbel_*, C75_uniform_* (within the set where the divergence is finite; C75_uniform_kl_edge says what happens across the edge), C75_gamma_*, C75_beta_*, C75_dirichlet_*, C75_mvn_*, and C75_von_mises_entropy(_partial) / C75_von_mises_kl(_partial) for positive concentrations above the switch point of jax's rule for i1e. The full claim is false of the code at VonMises concentration 0 (the uniform distribution): C75_von_mises_entropy_zero, C75_von_mises_kl_zero."
 },
 "C76": {
  "status": "proved",
  "note": "C76_forward, C76_log_likelihood, C76_padding, C76_backward, C76_smoothing for every format, order of summation, number of states, model and length, under the stated provisos; C76_forward_regular, C76_backward_regular, C76_smoothing_regular show that the provisos hold for all sequences when the probabilities are bounded away from zero; C76_float32_filtering and C76_float32_smoothing are the single-precision numbers. The component probabilities are floats given to the recursion; the error is against the model these floats describe exactly. What happens when the clamp acts is C42."
 },
 "C77": {
  "status": "proved",
  "note": "C77_maximises (exact optimality for the rounded score), C77_discrete and C77_categorical (no proviso), C77_relative, C77_absolute, C77_exact, C77_float32. The log-probabilities are the floats that log_softmax and obs_dist.log_prob return; their own rounding is C63_log_softmax."
 },
 "C78": {
  "status": "partial",
  "note": "Proved as stated for Bernoulli, location-scale families, Logistic noise, Categorical, Quantized, sample_and_log_prob of Transformed. False of the code, with proofs: Uniform whose range overflows (C78_uniform_overflow: nan or samples above high; C78_uniform_partial and C78_uniform_joint_partial need a finite range), agreement of log_prob(sample) with sample_and_log_prob when |loc| >> scale (C78_joint_disagree; C78_normal_own_partial and C78_laplace_own_partial give the exact extent), log_prob of saturated samples of Sigmoid/Tanh-transformed distributions (C78_saturates, C78_saturated_nan; documented; C78_interior_partial excludes the ends), frequencies of events rarer than 2^-m (C78_bernoulli_rare) and categories whose logit is far below the largest (C78_categorical_unreachable, C78_categorical_never). C78_float32 instantiates the main parts."
 },
 "C79": {
  "status": "partial",
  "note": "Proved for every format with the standard error model: finiteness, knots exact, bins, tails (under GoodKnots and Room), and that a constructed spline has good knots when min_bin_size is at least 128*K roundoffs of the range (C79_knots, C79_slopes, C79_constructed, C79_constructed_finite); the ends exactly (C79_ends). Without that condition the promise about min_bin_size is false of the code (C79_min_bin_size_lost, float32, range [2048, 4096], min_bin_size 1e-4: a bin of width zero, and the inverse is nan inside the range; C79_zero_width_nan in general). Inside a bin the forward value is within u*(|y| + 256*(h + w*(d0+d1))) of the exact rational-quadratic value y (C79_forward_accurate); each block of parameters affects only its own part (C79_split). At every knot both log-determinants are plus or minus the logarithm of its slope up to 8*u*log(4*B^2) (C79_knot_logdets), and inside a bin the forward log-determinant is the logarithm of the derivative of the exact segment up to u*(24*log(64*B^2) + 600*T/rho) as long as 256*u*T <= rho, T the sum and rho the least of the three slopes (C79_forward_logdet). The computed inverse is within u*(|x| + 1000*w*(T/rho)^4) of the exact x as long as 8192*u*(T/rho)^4 <= 1 (C79_inverse_accurate). Missing: an accuracy bound for the inverse log-determinant inside a bin, and monotonicity inside a bin (not claimed)."
 }
}