{
 "claims": [
  {
   "property": "C01",
   "status": "proved",
   "theorems": [
    "Distrax.Bij.C01_inverse_forward",
    "Distrax.Bij.C01_forward_inverse"
   ],
   "note": ""
  },
  {
   "property": "C02",
   "status": "proved",
   "theorems": [
    "Distrax.BObj.C02_chain_order",
    "Distrax.BObj.C02_chain_consistent",
    "Distrax.BObj.C02_chain_lawful",
    "Distrax.BObj.C02_chain_flatten",
    "Distrax.BObj.C02_chain_constructor",
    "Distrax.BObj.C02_chain_jacobian",
    "Distrax.BObj.C02_inverse_jacobian"
   ],
   "note": ""
  },
  {
   "property": "C03",
   "status": "proved",
   "theorems": [
    "Distrax.Bij.C03_flags_ordered",
    "Distrax.Bij.C03_constant_log_det",
    "Distrax.Bij.C03_constant_jacobian",
    "Distrax.BObj.C03_chain_flags"
   ],
   "note": ""
  },
  {
   "property": "C04",
   "status": "proved",
   "theorems": [
    "Distrax.Bij.C04_same_as_sound",
    "Distrax.Bij.C04_same_as_refl",
    "Distrax.Bij.C04_lambda_never_same",
    "Distrax.Bij.C04_same_as_not_symmetric",
    "Distrax.Bij.C04_scalar_affine_incomplete"
   ],
   "note": ""
  },
  {
   "property": "C05",
   "status": "proved",
   "theorems": [
    "Distrax.Bij.C05_log_det_is_log_derivative",
    "Distrax.Bij.C05_inverse_log_det_is_log_derivative",
    "Distrax.Bij.C05_methods_agree"
   ],
   "note": ""
  },
  {
   "property": "C06",
   "status": "partial",
   "theorems": [
    "Distrax.Bij.C06_sigmoid_partial",
    "Distrax.Bij.C06_sigmoid_log_det",
    "Distrax.Bij.C06_sigmoid_not_injective",
    "Distrax.Bij.C06_sigmoid_roundtrip_error"
   ],
   "note": "The full claim is false of the code: below -9 forward is exp(x) (C06_sigmoid_not_injective). Proved: everything on [-9, inf), the log-det everywhere, and the exact size of the defect."
  },
  {
   "property": "C07",
   "status": "proved",
   "theorems": [
    "Distrax.MaskedCoupling.C07_forward",
    "Distrax.MaskedCoupling.C07_inverse_forward",
    "Distrax.MaskedCoupling.C07_constructor",
    "Distrax.MaskedCoupling.C07_constructor_accepts",
    "Distrax.MaskedCoupling.C07_log_det_is_jacobian"
   ],
   "note": ""
  },
  {
   "property": "C08",
   "status": "proved",
   "theorems": [
    "Distrax.SplitCoupling.C08_inverse_forward",
    "Distrax.SplitCoupling.C08_block_invertible",
    "Distrax.SplitCoupling.C08_inner_rank",
    "Distrax.SplitCoupling.C08_constructor",
    "Distrax.SplitCoupling.C08_log_det_is_jacobian"
   ],
   "note": ""
  },
  {
   "property": "C09",
   "status": "proved",
   "theorems": [
    "Distrax.C09_log_det_is_log_det_of_jacobian",
    "Distrax.C09_diag_linear",
    "Distrax.C09_triangular_linear",
    "Distrax.C09_triangular_uses_only_its_triangle",
    "Distrax.C09_unconstrained_affine",
    "Distrax.C09_lower_upper_affine",
    "Distrax.C09_lower_upper_identity",
    "Distrax.C09_constructor_checks"
   ],
   "note": ""
  },
  {
   "property": "C10",
   "status": "proved",
   "theorems": [
    "Distrax.C10_diag_plus_low_rank",
    "Distrax.C10_invertible_iff_capacitance",
    "Distrax.C10_constructor_checks"
   ],
   "note": ""
  },
  {
   "property": "C11",
   "status": "proved",
   "theorems": [
    "Distrax.Spline.C11_ctor_ok_iff",
    "Distrax.Spline.C11_knots",
    "Distrax.Spline.C11_bin_sizes",
    "Distrax.Spline.C11_boundary",
    "Distrax.Spline.C11_zero_params_identity",
    "Distrax.Spline.C11_all_zeros_identity"
   ],
   "note": ""
  },
  {
   "property": "C12",
   "status": "proved",
   "theorems": [
    "Distrax.Spline.C12_knots",
    "Distrax.Spline.C12_increasing_bijection",
    "Distrax.Spline.C12_logdet",
    "Distrax.Spline.C12_tails",
    "Distrax.Spline.C12_inverse",
    "Distrax.Spline.C12_constructed_resolved",
    "Distrax.Spline.C12_defaults",
    "Distrax.Spline.C12_guard_needed"
   ],
   "note": "Exact inverse under the guard Resolved (the code clamps a discriminant at finfo.tiny); C12_guard_needed shows the guard cannot be dropped; C12_defaults discharges it for the default settings."
  },
  {
   "property": "C13",
   "status": "partial",
   "theorems": [
    "Distrax.Jaxpr.C13_inverse_of_straight",
    "Distrax.Jaxpr.C13_default_registry_correct",
    "Distrax.Jaxpr.C13_register",
    "Distrax.Jaxpr.C13_refusals",
    "Distrax.Jaxpr.C13_refused_anywhere",
    "Distrax.Jaxpr.C13_no_variable",
    "Distrax.Jaxpr.C13_variable_exponent_wrong",
    "Distrax.Jaxpr.C13_square_branch"
   ],
   "note": "Proved for every straight-line program on each primitive's principal domain. False of the code for a variable exponent c**x (C13_variable_exponent_wrong) and outside principal branches (C13_square_branch). erf/erf_inv enter as a contract."
  },
  {
   "property": "C14",
   "status": "partial",
   "theorems": [
    "Distrax.Jaxpr.C14_constant_sound_partial",
    "Distrax.Jaxpr.C14_constant_means_affine_partial",
    "Distrax.Jaxpr.C14_repeated_operand_missed",
    "Distrax.Jaxpr.C14_input_is_dependent"
   ],
   "note": "Sound when no call equation repeats an operand or result variable; otherwise false (C14_repeated_operand_missed). jax's jacfwd/tracing are trusted."
  },
  {
   "property": "C15",
   "status": "proved",
   "theorems": [
    "Distrax.Bij.C15_base_constructor",
    "Distrax.Bij.C15_composite_meta_ok",
    "Distrax.Bij.C15_block",
    "Distrax.Bij.C15_inverse_chain",
    "Distrax.Bij.C15_block_rejects_small_rank",
    "Distrax.BObj.C15_chain_ranks",
    "Distrax.C15_transformed_ctor"
   ],
   "note": ""
  },
  {
   "property": "C16",
   "status": "proved",
   "theorems": [
    "Distrax.C16_multiply_no_nan_zero",
    "Distrax.C16_multiply_no_nan_else",
    "Distrax.C16_multiply_no_nan_jvp",
    "Distrax.C16_multiply_no_nan_jvp_symbolic",
    "Distrax.C16_power_no_nan_zero",
    "Distrax.C16_power_no_nan_else",
    "Distrax.C16_power_no_nan_real",
    "Distrax.C16_power_no_nan_int",
    "Distrax.C16_power_no_nan_jvp",
    "Distrax.C16_power_no_nan_jvp_nan_at_zero",
    "Distrax.C16_mul_exp_zero",
    "Distrax.C16_mul_exp_else",
    "Distrax.C16_mul_exp_zero_gradient",
    "Distrax.C16_mul_exp_jvp"
   ],
   "note": "power_no_nan's derivative is nan at base 0 (C16_power_no_nan_jvp_nan_at_zero): a finding, outside the claim's domain x>0."
  },
  {
   "property": "C17",
   "status": "proved",
   "theorems": [
    "Distrax.C17_normalize_probs",
    "Distrax.C17_normalize_probs_scale",
    "Distrax.C17_normalize_probs_zero",
    "Distrax.C17_normalize_logits",
    "Distrax.C17_normalize_logits_fixed",
    "Distrax.C17_normalize_logits_idem",
    "Distrax.C17_normalize_logits_shift",
    "Distrax.C17_normalize_agree",
    "Distrax.C17_sum_last_zero",
    "Distrax.C17_sum_last_add",
    "Distrax.C17_sum_last_one",
    "Distrax.C17_sum_last_rank",
    "Distrax.C17_log_exp_minus_exp",
    "Distrax.C17_log_exp_minus_zero",
    "Distrax.C17_log_exp_minus_ninf",
    "Distrax.C17_log_beta",
    "Distrax.C17_log_beta_two",
    "Distrax.C17_log_beta_multivariate_cons"
   ],
   "note": ""
  },
  {
   "property": "C18",
   "status": "proved",
   "theorems": [
    "Distrax.C18_sample_layout",
    "Distrax.C18_int_sample_shape",
    "Distrax.C18_empty_sample_shape",
    "Distrax.C18_zero_size",
    "Distrax.C18_sample_and_log_prob",
    "Distrax.C18_sample_and_log_prob_override"
   ],
   "note": "Generic over every distribution whose _sample_n stacks draws; sample_and_log_prob under the per-event contract on log_prob, both for the inherited _sample_n_and_log_prob and for any override that pairs its draws with their log-probabilities (C18_sample_and_log_prob_override)."
  },
  {
   "property": "C19",
   "status": "proved",
   "theorems": [
    "Distrax.C19_index_batch_axes",
    "Distrax.C19_bad_index",
    "Distrax.C19_out_of_range",
    "Distrax.C19_scalar_accepts_anything",
    "Distrax.C19_int_index",
    "Distrax.C19_slice_method",
    "Distrax.C19_slice_scalar_value",
    "Distrax.C19_newaxis",
    "Distrax.C19_mask",
    "Distrax.C19_mask_too_long",
    "Distrax.C19_slice_method_mask"
   ],
   "note": "Basic indices (ints, slices with any step, Ellipsis, tuples) and coordinate-array indices; boolean masks and newaxis not modelled. Finding: C19_scalar_accepts_anything."
  },
  {
   "property": "C20",
   "status": "proved",
   "theorems": [
    "Distrax.C20_shapes",
    "Distrax.C20_constructor",
    "Distrax.C20_default",
    "Distrax.C20_reduce",
    "Distrax.C20_sample",
    "Distrax.C20_zero",
    "Distrax.C20_nested",
    "Distrax.C20_kl",
    "Distrax.C20_getitem",
    "Distrax.C20_contracts",
    "Distrax.C20_sample_and_log_prob"
   ],
   "note": "Generic over the wrapped distribution."
  },
  {
   "property": "C21",
   "status": "proved",
   "theorems": [
    "Distrax.C21_log_prob",
    "Distrax.C21_sample_and_log_prob",
    "Distrax.C21_sample_shape",
    "Distrax.C21_not_implemented",
    "Distrax.C21_nested",
    "Distrax.C21_nested_entropy",
    "Distrax.C21_density",
    "Distrax.C21_expectation",
    "Distrax.C21_mean",
    "Distrax.C21_mode",
    "Distrax.C21_entropy"
   ],
   "note": ""
  },
  {
   "property": "C22",
   "status": "partial",
   "theorems": [
    "Distrax.C22_outcomes",
    "Distrax.C22_kl_invariant",
    "Distrax.C22_same_object_sound",
    "Distrax.C22_printed_sound_partial",
    "Distrax.C22_captured_constants_collide"
   ],
   "note": "The KL equality test falls back on the printed jaxpr, which omits captured constants (C22_captured_constants_collide); proved when bijectors are the same object or close over no constants (C22_printed_sound_partial)."
  },
  {
   "property": "C23",
   "status": "partial",
   "theorems": [
    "Distrax.C23_ctor",
    "Distrax.C23_common_batch_partial",
    "Distrax.C23_log_prob",
    "Distrax.C23_log_prob_structure",
    "Distrax.C23_sample",
    "Distrax.C23_sample_and_log_prob",
    "Distrax.C23_entropy",
    "Distrax.C23_kl",
    "Distrax.C23_mode",
    "Distrax.C23_summaries",
    "Distrax.C23_slice",
    "Distrax.C23_mixed_batch_accepted",
    "Distrax.C23_log_cdf_truncates",
    "Distrax.C23_log_cdf",
    "Distrax.C23_nested_log_prob_fails"
   ],
   "note": "False of the code in corners: leading () batch shapes are accepted (C23_mixed_batch_accepted), log_cdf truncates (C23_log_cdf_truncates), a nested Joint cannot score its own samples (C23_nested_log_prob_fails). Everything else proved for every tree."
  },
  {
   "property": "C24",
   "status": "proved",
   "theorems": [
    "Distrax.C24_constructor_errors",
    "Distrax.C24_from_logits",
    "Distrax.C24_from_probs",
    "Distrax.C24_logits_shift",
    "Distrax.C24_on_support",
    "Distrax.C24_off_range",
    "Distrax.C24_total",
    "Distrax.C24_non_integer_disagree",
    "Distrax.C24_cdf",
    "Distrax.C24_cdf_range",
    "Distrax.C24_mode",
    "Distrax.C24_sample_support",
    "Distrax.C24_sample_reachable",
    "Distrax.C24_sample_invalid",
    "Distrax.C24_sample_law"
   ],
   "note": "Per batch row. Non-integer in-range values are a finding (C24_non_integer_disagree)."
  },
  {
   "property": "C25",
   "status": "proved",
   "theorems": [
    "Distrax.C25_entropy",
    "Distrax.C25_entropy_bounds",
    "Distrax.C25_kl_size",
    "Distrax.C25_kl",
    "Distrax.C25_kl_inf"
   ],
   "note": ""
  },
  {
   "property": "C26",
   "status": "proved",
   "theorems": [
    "Distrax.C26_one_hot",
    "Distrax.C26_one_hot_zero_vector",
    "Distrax.C26_one_hot_sample",
    "Distrax.C26_one_hot_mode",
    "Distrax.C26_greedy",
    "Distrax.C26_epsilon_greedy",
    "Distrax.C26_softmax",
    "Distrax.C26_softmax_ninf",
    "Distrax.C26_softmax_zero_temperature",
    "Distrax.C26_one_hot_sample_law"
   ],
   "note": "Findings: all-zero one-hot vector (C26_one_hot_zero_vector), temperature 0 (C26_softmax_zero_temperature)."
  },
  {
   "property": "C27",
   "status": "proved",
   "theorems": [
    "Distrax.C27_constructor_errors",
    "Distrax.C27_constructor",
    "Distrax.C27_logits",
    "Distrax.C27_log_prob",
    "Distrax.C27_cdf",
    "Distrax.C27_moments",
    "Distrax.C27_sample_law",
    "Distrax.C27_entropy",
    "Distrax.C27_kl",
    "Distrax.C27_off_support_finding"
   ],
   "note": "Finding: values outside {0,1} (C27_off_support_finding)."
  },
  {
   "property": "C28",
   "status": "partial",
   "theorems": [
    "Distrax.C28_normal_law",
    "Distrax.C28_normal_sample",
    "Distrax.C28_normal_moments",
    "Distrax.C28_normal_kl",
    "Distrax.C28_normal_kl_nonneg",
    "Distrax.C28_log_stddev",
    "Distrax.C28_log_stddev_kl",
    "Distrax.C28_max_scale",
    "Distrax.C28_max_scale_rejects",
    "Distrax.C28_slice_partial",
    "Distrax.C28_slice_shrinks_scale"
   ],
   "note": "Law, sampling, moments, KL, max_scale proved. False of the code: slicing with max_scale re-applies the cap and shrinks the scale (C28_slice_shrinks_scale); C28_slice_partial is the case without max_scale."
  },
  {
   "property": "C29",
   "status": "proved",
   "theorems": [
    "Distrax.C29_laplace_law",
    "Distrax.C29_laplace_sample",
    "Distrax.C29_laplace_moments",
    "Distrax.C29_logistic_law",
    "Distrax.C29_logistic_sample",
    "Distrax.C29_logistic_moments",
    "Distrax.C29_gumbel_law",
    "Distrax.C29_gumbel_sample",
    "Distrax.C29_gumbel_moments",
    "Distrax.C29_uniform_law",
    "Distrax.C29_uniform_sample",
    "Distrax.C29_uniform_moments",
    "Distrax.C29_logistic_variance",
    "Distrax.C29_gumbel_variance"
   ],
   "note": ""
  },
  {
   "property": "C30",
   "status": "proved",
   "theorems": [
    "Distrax.C30_laplace_kl",
    "Distrax.C30_gumbel_kl",
    "Distrax.C30_uniform_kl",
    "Distrax.C30_deterministic_kl"
   ],
   "note": "Laplace, Gumbel, Uniform, Deterministic here; Normal at C28_normal_kl*, Categorical/Bernoulli at C25/C27, other families at their own property."
  },
  {
   "property": "C31",
   "status": "proved",
   "theorems": [
    "Distrax.C31_uniform_support",
    "Distrax.C31_deterministic_slack",
    "Distrax.C31_deterministic",
    "Distrax.C31_deterministic_sample",
    "Distrax.C31_deterministic_ctor"
   ],
   "note": ""
  },
  {
   "property": "C32",
   "status": "partial",
   "theorems": [
    "Distrax.C32_sample",
    "Distrax.C32_cdf",
    "Distrax.C32_prob",
    "Distrax.C32_log_prob",
    "Distrax.C32_total",
    "Distrax.C32_sample_and_log_prob",
    "Distrax.C32_sample_and_log_prob_ae",
    "Distrax.C32_eps",
    "Distrax.C32_eps_forgotten",
    "Distrax.C32_ctor"
   ],
   "note": "Law, pmf, cdf, survival, sampling proved for every base law. False of the code when eps is set: slicing drops it and sample_and_log_prob ignores it (C32_eps_forgotten); C32_sample_and_log_prob_ae is the eps=None case."
  },
  {
   "property": "C33",
   "status": "partial",
   "theorems": [
    "Distrax.C33_sample",
    "Distrax.C33_outside",
    "Distrax.C33_law",
    "Distrax.C33_total",
    "Distrax.C33_boundary",
    "Distrax.C33_degenerate",
    "Distrax.C33_ctor",
    "Distrax.C33_normal_logistic"
   ],
   "note": "Full for bases with a density and min<max. For bases with an atom at max the code reports P(X>max) instead of P(X>=max) (C33_boundary); min>=max is accepted (C33_degenerate)."
  },
  {
   "property": "C34",
   "status": "proved",
   "theorems": [
    "Distrax.C34_two_log_prob",
    "Distrax.C34_two_normalised",
    "Distrax.C34_two_sample",
    "Distrax.C34_two_law",
    "Distrax.C34_two_batch_shares_mask",
    "Distrax.C34_two_ctor",
    "Distrax.C34_same_family_log_prob",
    "Distrax.C34_same_family_normalised",
    "Distrax.C34_same_family_moments",
    "Distrax.C34_same_family_sample",
    "Distrax.C34_same_family_inf_leaks",
    "Distrax.C34_same_family_count_unchecked",
    "Distrax.C34_same_family_ctor",
    "Distrax.C34_same_family_law"
   ],
   "note": "Sampling exactness is for finite component draws (C34_same_family_sample). Findings: an infinite draw of an unselected component gives nan (C34_same_family_inf_leaks); number of weights vs components unchecked (C34_same_family_count_unchecked); MixtureOfTwo batch entries share the component choice (C34_two_batch_shares_mask)."
  },
  {
   "property": "C35",
   "status": "partial",
   "theorems": [
    "Distrax.C35_density",
    "Distrax.C35_documented_density",
    "Distrax.C35_edges_double_count",
    "Distrax.C35_moments",
    "Distrax.C35_entropy",
    "Distrax.C35_inverse_cdf",
    "Distrax.C35_sample",
    "Distrax.C35_zero_weight_sample_nan",
    "Distrax.C35_ctor"
   ],
   "note": "Density off the edges, normalisation, moments, entropy, inverse cdf and sampling law (positive weights) proved. False of the code: interior edges are double counted (C35_edges_double_count); a zero-weight bin makes every sample nan (C35_zero_weight_sample_nan)."
  },
  {
   "property": "C36",
   "status": "proved",
   "theorems": [
    "Distrax.C36_ctor",
    "Distrax.C36_log_prob",
    "Distrax.C36_total",
    "Distrax.C36_support",
    "Distrax.C36_total_unchecked",
    "Distrax.C36_negative_count",
    "Distrax.C36_sample_counts",
    "Distrax.C36_sample_support",
    "Distrax.C36_sample_law",
    "Distrax.C36_mean",
    "Distrax.C36_covariance",
    "Distrax.C36_variance",
    "Distrax.C36_entropy",
    "Distrax.C36_entropy_variants",
    "Distrax.C36_sample_law_noise"
   ],
   "note": ""
  },
  {
   "property": "C37",
   "status": "proved",
   "theorems": [
    "Distrax.C37_methods",
    "Distrax.C37_gaussian",
    "Distrax.C37_kl",
    "Distrax.C37_kl_meaning",
    "Distrax.C37_kl_nonneg",
    "Distrax.C37_kl_dims",
    "Distrax.C37_from_bijector",
    "Distrax.C37_from_bijector_rejects",
    "Distrax.C37_diag",
    "Distrax.C37_tri",
    "Distrax.C37_full_covariance",
    "Distrax.C37_low_rank",
    "Distrax.C37_variants_agree",
    "Distrax.C37_diag_tri_full_agree",
    "Distrax.C37_tri_rejects",
    "Distrax.C37_full_covariance_rejects",
    "Distrax.C37_diag_rejects",
    "Distrax.C37_low_rank_rejects",
    "Distrax.C37_diag_cdf",
    "Distrax.C37_negative_scale_cdf"
   ],
   "note": ""
  },
  {
   "property": "C38",
   "status": "proved",
   "theorems": [
    "Distrax.C38_beta_boundary",
    "Distrax.C38_beta_law",
    "Distrax.C38_beta_moments",
    "Distrax.C38_beta_kl",
    "Distrax.C38_beta_mode",
    "Distrax.C38_beta_mode_nan",
    "Distrax.C38_beta_no_nan",
    "Distrax.C38_dirichlet_ctor",
    "Distrax.C38_dirichlet_mean",
    "Distrax.C38_dirichlet_covariance",
    "Distrax.C38_dirichlet_log_prob",
    "Distrax.C38_dirichlet_mode",
    "Distrax.C38_beta_dirichlet_log_prob",
    "Distrax.C38_dirichlet_boundary_nan",
    "Distrax.C38_beta_dirichlet",
    "Distrax.C38_dirichlet_kl",
    "Distrax.C38_dirichlet_law",
    "Distrax.C38_dirichlet_moments",
    "Distrax.C38_dirichlet_entropy",
    "Distrax.C38_dirichlet_kl_meaning"
   ],
   "note": ""
  },
  {
   "property": "C39",
   "status": "proved",
   "theorems": [
    "Distrax.C39_log_prob",
    "Distrax.C39_boundary",
    "Distrax.C39_law",
    "Distrax.C39_sample",
    "Distrax.C39_moments",
    "Distrax.C39_mode",
    "Distrax.C39_kl"
   ],
   "note": ""
  },
  {
   "property": "C40",
   "status": "partial",
   "theorems": [
    "Distrax.C40_periodic",
    "Distrax.C40_location_periodic",
    "Distrax.C40_prob_exp",
    "Distrax.C40_density",
    "Distrax.C40_uniform",
    "Distrax.C40_negative_concentration",
    "Distrax.C40_mean_variance",
    "Distrax.C40_mode",
    "Distrax.C40_entropy",
    "Distrax.C40_kl",
    "Distrax.C40_kl_self",
    "Distrax.C40_angle_partial",
    "Distrax.C40_angle_exceptions",
    "Distrax.C40_angle_pi",
    "Distrax.C40_sample_range",
    "Distrax.C40_cdf_range",
    "Distrax.C40_cdf_exact",
    "Distrax.C40_series",
    "Distrax.C40_cdf_ends",
    "Distrax.C40_cdf_survival",
    "Distrax.C40_array_entry",
    "Distrax.C40_others_independent",
    "Distrax.C40_proposal_valid",
    "Distrax.C40_sample_law",
    "Distrax.C40_zero_never_accepts",
    "Distrax.C40_zero_law"
   ],
   "note": "Everything is proved except the documented half-open range of the angle conversion, which the code violates: C40_angle_exceptions characterises exactly the angles (pi + 4 pi m) that are sent to pi instead of -pi; C40_angle_partial gives the closed range. The CDF theorem C40_cdf_exact is for an exact recipe; the code's own recipe is C56 (within 2e-7 below the cutoff 10.5), and C40_series, C40_cdf_ends and C40_cdf_survival hold for it unconditionally. Negative concentrations, accepted by the constructor, break prob = exp log_prob (C40_negative_concentration)."
  },
  {
   "property": "C41",
   "status": "proved",
   "theorems": [
    "Distrax.HMM.C41_forward",
    "Distrax.HMM.C41_forward_rows",
    "Distrax.HMM.C41_forward_bounds",
    "Distrax.HMM.C41_clamp_witness"
   ],
   "note": "C41_forward exact under the guard that no predictive weight lies strictly between 0 and 1e-15 (the code clamps there); C41_forward_bounds and C41_forward_rows need no guard; C41_clamp_witness shows the guard matters (evidence too large by a factor over 9)."
  },
  {
   "property": "C42",
   "status": "partial",
   "theorems": [
    "Distrax.HMM.C42_impossible_is_finite",
    "Distrax.HMM.C42_impossible_at_start",
    "Distrax.HMM.C42_last_row_detects_impossible_partial",
    "Distrax.HMM.C42_witness"
   ],
   "note": "False of the code: impossible sequences get the finite log-likelihood of their longest possible prefix (C42_impossible_is_finite, C42_impossible_at_start, C42_witness). Proved instead: the last row detects impossibility."
  },
  {
   "property": "C43",
   "status": "proved",
   "theorems": [
    "Distrax.HMM.C43_backward",
    "Distrax.HMM.C43_forward_backward",
    "Distrax.HMM.C43_rows"
   ],
   "note": "Exact under the no-clamp guards for forward, backward and smoothing weights, and positive evidence, full length; C43_rows (row sums, same log-likelihood and alphas as forward, betas as backward) needs no guard."
  },
  {
   "property": "C44",
   "status": "partial",
   "theorems": [
    "Distrax.HMM.C44_forward_length",
    "Distrax.HMM.C44_short_smoothing_is_zero",
    "Distrax.HMM.C44_length_zero"
   ],
   "note": "Proved for forward. False of forward_backward: with length < seq_len all gammas are zero (C44_short_smoothing_is_zero); length = 0 is treated as length = 1 (C44_length_zero)."
  },
  {
   "property": "C45",
   "status": "proved",
   "theorems": [
    "Distrax.HMM.C45_viterbi"
   ],
   "note": ""
  },
  {
   "property": "C46",
   "status": "proved",
   "theorems": [
    "Distrax.HMM.C46_sample_structure",
    "Distrax.HMM.C46_sample_law",
    "Distrax.HMM.C46_constructor",
    "Distrax.HMM.C46_sample_law_general"
   ],
   "note": "Structure for every outcome of the draws; law for arbitrary measurable key and observation spaces with independent keys (PRNG independence assumed)."
  },
  {
   "property": "C47",
   "status": "proved",
   "theorems": [
    "Distrax.C47_consistent",
    "Distrax.C47_ratio",
    "Distrax.C47_on_policy",
    "Distrax.C47_reweight",
    "Distrax.C47_categorical",
    "Distrax.C47_needs_support"
   ],
   "note": ""
  },
  {
   "property": "C48",
   "status": "partial",
   "theorems": [
    "Distrax.C48_consistent",
    "Distrax.C48_reparam_consistent",
    "Distrax.C48_unbiased",
    "Distrax.C48_unbiased_default",
    "Distrax.C48_reparam_unbiased",
    "Distrax.C48_outside_support_nan",
    "Distrax.C48_infinite",
    "Distrax.C48_dice_expectation",
    "Distrax.C48_gradient",
    "Distrax.C48_gradient_default",
    "Distrax.C48_best_effort",
    "Distrax.C48_estimate_value",
    "Distrax.C48_rejects",
    "Distrax.C48_reparam_dispatch",
    "Distrax.C48_mode",
    "Distrax.C48_categorical",
    "Distrax.C48_gradient_law",
    "Distrax.C48_reparam_gradient",
    "Distrax.C48_gradient_normal",
    "Distrax.C48_reparam_gradient_normal"
   ],
   "note": "Unbiasedness is false of the code for a proposal that can leave the support of a: one such sample makes the estimate nan (C48_outside_support_nan). Proved for every proposal with the support of a (C48_unbiased), for the default proposal and for the reparameterised estimator. The expected derivative of the estimate is the derivative of the divergence: C48_gradient for finite supports, C48_gradient_law for any support under the usual domination condition (met by Normals with any positive proposal, C48_gradient_normal), and C48_reparam_gradient (C48_reparam_gradient_normal) for the reparameterised estimator. Consistency: C48_consistent and C48_reparam_consistent (almost every infinite run, by the strong law of large numbers)."
  },
  {
   "property": "C49",
   "status": "partial",
   "theorems": [
    "Distrax.C49_unchanged",
    "Distrax.C49_idempotent",
    "Distrax.C49_wraps",
    "Distrax.C49_bijector_conversions",
    "Distrax.C49_tfp_bijector_conversions",
    "Distrax.C49_bijector_round_trip",
    "Distrax.C49_const_log_det_forgotten",
    "Distrax.C49_convention_holds",
    "Distrax.C49_distribution_conversions",
    "Distrax.C49_tfp_distribution_conversions",
    "Distrax.C49_from_tfp",
    "Distrax.C49_names",
    "Distrax.C49_survival_partial",
    "Distrax.C49_survival_lost",
    "Distrax.C49_base_defaults",
    "Distrax.C49_as_float_array"
   ],
   "note": "All conversions and every listed method proved for arbitrary conversion sequences; survival functions of TFP-compatible wrappers only when the class overrides them or empty TensorShapes are falsy (C49_survival_partial); C49_survival_lost proves they are refused under TensorFlow's truthiness."
  },
  {
   "property": "C50",
   "status": "proved",
   "theorems": [
    "C50_tree_map",
    "C50_round_trip",
    "C50_leaves",
    "C50_structure_kept",
    "C50_cache_key",
    "C50_flatten_injective",
    "C50_classification"
   ],
   "note": "Holds for every leaf classification isData; treedef equality is structural (python's == on metadata, e.g. True == 1, is not modelled)."
  },
  {
   "property": "C51",
   "status": "proved",
   "theorems": [
    "Distrax.C51_min_ranks",
    "Distrax.C51_forward_log_det",
    "Distrax.C51_inverse_log_det",
    "Distrax.C51_event_ndims",
    "Distrax.C51_event_ndims_inverse",
    "Distrax.C51_event_shape",
    "Distrax.C51_is_block",
    "Distrax.C51_from_tfp_broadcast",
    "Distrax.C51_from_tfp_broadcast_inverse",
    "Distrax.C51_from_tfp_other"
   ],
   "note": ""
  },
  {
   "property": "C52",
   "status": "partial",
   "theorems": [
    "Distrax.C52_one_hot_partial",
    "Distrax.C52_derivative_partial",
    "Distrax.C52_softmax",
    "Distrax.C52_rejects",
    "Distrax.C52_plain_categorical"
   ],
   "note": "Proved for one-hot events (samples carrying the category axis), every shape, seed and direction. False of the code for a plain Categorical (C52_plain_categorical): the value is broadcast against the probabilities."
  },
  {
   "property": "C53",
   "status": "proved",
   "theorems": [
    "Distrax.C53_constructor",
    "Distrax.C53_flag",
    "Distrax.C53_history_independent",
    "Distrax.C53_supplied_kept",
    "Distrax.C53_paired_methods",
    "Distrax.C53_derived",
    "Distrax.C53_derived_from_inverse",
    "Distrax.C53_no_scalar_log_det",
    "Distrax.C53_round_trip",
    "Distrax.C53_automatic_inverse"
   ],
   "note": ""
  },
  {
   "property": "C54",
   "status": "proved",
   "theorems": [
    "Distrax.C54_mvn_diag",
    "Distrax.C54_mvn_tri",
    "Distrax.C54_mvn_full_covariance",
    "Distrax.C54_mvn_low_rank",
    "Distrax.C54_categorical_init",
    "Distrax.C54_categorical",
    "Distrax.C54_greedy",
    "Distrax.C54_epsilon_greedy",
    "Distrax.C54_softmax",
    "Distrax.C54_bernoulli",
    "Distrax.C54_dirichlet",
    "Distrax.C54_two_parameter",
    "Distrax.C54_multinomial",
    "Distrax.C54_categorical_uniform",
    "Distrax.C54_independent",
    "Distrax.C54_mixture_same_family",
    "Distrax.C54_mixture_of_two",
    "Distrax.C54_clipped",
    "Distrax.C54_composed"
   ],
   "note": ""
  },
  {
   "property": "C55",
   "status": "proved",
   "theorems": [
    "Distrax.C55_cross_entropy_density",
    "Distrax.C55_cross_entropy_real",
    "Distrax.C55_normal",
    "Distrax.C55_laplace",
    "Distrax.C55_gumbel",
    "Distrax.C55_gamma",
    "Distrax.C55_beta",
    "Distrax.C55_uniform",
    "Distrax.C55_von_mises",
    "Distrax.C55_dirichlet",
    "Distrax.C55_mvn",
    "Distrax.C55_categorical",
    "Distrax.C55_bernoulli",
    "Distrax.C55_missing",
    "Distrax.C55_survival",
    "Distrax.C55_prob_cdf",
    "Distrax.C55_stddev",
    "Distrax.C55_batch_shape",
    "Distrax.C55_batch_shape_nested"
   ],
   "note": ""
  },
  {
   "property": "C56",
   "status": "proved",
   "theorems": [
    "Distrax.C56_series_gradient",
    "Distrax.C56_series_gradient_ends",
    "Distrax.C56_cdf_jvp",
    "Distrax.C56_sample_jvp",
    "Distrax.C56_gradient_accuracy",
    "Distrax.C56_cdf_jvp_accuracy",
    "Distrax.C56_sample_jvp_accuracy",
    "Distrax.C56_normal_recipe",
    "Distrax.C56_normal_recipe_deficit",
    "Distrax.C56_normal_accuracy",
    "Distrax.C56_cdf_accuracy_large",
    "Distrax.C56_normal_gradient_accuracy",
    "Distrax.C56_cdf_jvp_accuracy_large",
    "Distrax.C56_sample_jvp_accuracy_large",
    "Distrax.C56_series_converges",
    "Distrax.C56_series_accuracy",
    "Distrax.C56_cdf_accuracy"
   ],
   "note": "Below the concentration cutoff 10.5 the code's series is within 1e-7 of the exact CDF, cdf/survival within 2e-7 (C56_series_accuracy, C56_cdf_accuracy), and the returned concentration derivative is the derivative of the returned value (C56_series_gradient) and within 3e-7 of the derivative of the exact CDF (C56_gradient_accuracy), so the shipped jvp rules of the CDF and the sampler are accurate too (C56_cdf_jvp_accuracy, C56_sample_jvp_accuracy). The jvp rules of the CDF and of the sampler are exact when the recipe's concentration derivative is (C56_cdf_jvp, C56_sample_jvp). From 10.5 on the normal recipe is within 1/(4 k^2) of the exact CDF (C56_normal_accuracy), cdf/survival within 1/(2 k^2) (C56_cdf_accuracy_large); this bound is proved, not sharp (measured errors are far smaller). Its concentration derivative exists and is within 2/k^3 of that of the exact CDF (C56_normal_gradient_accuracy), so the shipped jvp rules are accurate there too (C56_cdf_jvp_accuracy_large, C56_sample_jvp_accuracy_large). In exact arithmetic the normal recipe makes cdf + survival < 1 (C56_normal_recipe_deficit)."
  },
  {
   "property": "C57",
   "status": "proved",
   "theorems": [
    "Distrax.C57_subclass",
    "Distrax.C57_dispatch",
    "Distrax.C57_registration",
    "Distrax.C57_types",
    "Distrax.C57_wrapped_tfp",
    "Distrax.C57_register_once"
   ],
   "note": ""
  },
  {
   "property": "C58",
   "status": "partial",
   "theorems": [
    "Distrax.C58_init",
    "Distrax.C58_normal",
    "Distrax.C58_laplace",
    "Distrax.C58_logistic",
    "Distrax.C58_gumbel_partial",
    "Distrax.C58_uniform",
    "Distrax.C58_gamma",
    "Distrax.C58_beta",
    "Distrax.C58_von_mises_partial",
    "Distrax.C58_kl",
    "Distrax.C58_gumbel_entropy",
    "Distrax.C58_von_mises_summaries",
    "Distrax.C58_summary_shape_negation",
    "Distrax.C58_independent_gumbel_entropy",
    "Distrax.C58_contracts",
    "Distrax.C58_log_stddev_normal",
    "Distrax.C58_log_stddev_normal_bad",
    "Distrax.C58_log_stddev_normal_kl",
    "Distrax.C58_deterministic",
    "Distrax.C58_deterministic_bad_tolerance",
    "Distrax.C58_bernoulli"
   ],
   "note": "Proved for every method of the eleven families except three, for which the claim is false of the code: Gumbel.entropy has the shape of the stored scale (C58_gumbel_entropy), VonMises.variance and entropy that of the stored concentration (C58_von_mises_summaries); C58_summary_shape_negation is the counterexample and C58_independent_gumbel_entropy its consequence for Independent.entropy. Deterministic accepts tolerances that do not broadcast and raises later (C58_deterministic_bad_tolerance). C58_contracts ties the whole arrays to the generic contracts of C18 and C20."
  },
  {
   "property": "C59",
   "status": "proved",
   "theorems": [
    "Distrax.C59_meaning",
    "Distrax.C59_normal",
    "Distrax.C59_log_stddev_normal",
    "Distrax.C59_laplace",
    "Distrax.C59_gumbel",
    "Distrax.C59_logistic",
    "Distrax.C59_uniform",
    "Distrax.C59_gamma",
    "Distrax.C59_bernoulli",
    "Distrax.C59_categorical",
    "Distrax.C59_categorical_logits",
    "Distrax.C59_categorical_probs",
    "Distrax.C59_von_mises"
   ],
   "note": "Noise arrays are product measures over positions (assumption about jax.random: independent entries, split keys independent). Von Mises: the loop is cut after n rounds (100 in the code), so the statement gives the joint probability of acceptance of all entries and of the samples lying in given sets; given acceptance the samples are independent with exact densities. Concentration 0 is C40_zero_law. C59_meaning spells out IndependentEntries as marginals, mutual independence and product probabilities."
  },
  {
   "property": "C60",
   "status": "proved",
   "theorems": [
    "Distrax.C60_affine_normal",
    "Distrax.C60_affine_laplace",
    "Distrax.C60_affine_logistic",
    "Distrax.C60_affine_gumbel",
    "Distrax.C60_normal_object",
    "Distrax.C60_laplace_object",
    "Distrax.C60_logistic_object",
    "Distrax.C60_gumbel_object",
    "Distrax.C60_small_base_shares_noise",
    "Distrax.C60_bernoulli_categorical",
    "Distrax.C60_mixture_of_two",
    "Distrax.C60_single_component",
    "Distrax.C60_multinomial_one",
    "Distrax.C60_epsilon_greedy_limits",
    "Distrax.C60_softmax_one",
    "Distrax.C60_beta_uniform",
    "Distrax.C60_gumbel_cdf_uniform",
    "Distrax.C60_logistic_sigmoid_uniform",
    "Distrax.C60_kl_affine",
    "Distrax.C60_hmm_one_step",
    "Distrax.C60_hmm_one_state"
   ],
   "note": "Array level, through the models of Transformed (TransformedArr), the bijector tree and FamArr. Indistinguishable covers every method the two objects share except mode (Transformed.mode is in C21) and KL (C22; C60_kl_affine for the parameter formulas). C60_small_base_shares_noise is the case of a base with a smaller batch. Gumbel entropy needs the scale array at full batch shape (C58)."
  },
  {
   "property": "C61",
   "status": "partial",
   "theorems": [
    "Distrax.C61_formats",
    "Distrax.C61_sigmoid",
    "Distrax.C61_sigmoid_inverse",
    "Distrax.C61_naive_log_det",
    "Distrax.C61_tanh",
    "Distrax.C61_tanh_infinite",
    "Distrax.C61_gumbel_cdf",
    "Distrax.C61_scalar_affine",
    "Distrax.C61_normal",
    "Distrax.C61_normal_kl_self",
    "Distrax.C61_normal_kl_nan",
    "Distrax.C61_laplace",
    "Distrax.C61_logistic",
    "Distrax.C61_left_tail_nan",
    "Distrax.C61_gumbel",
    "Distrax.C61_uniform",
    "Distrax.C61_uniform_cdf_nan",
    "Distrax.C61_bernoulli_logits",
    "Distrax.C61_bernoulli_probs",
    "Distrax.C61_bernoulli_kl",
    "Distrax.C61_log_softmax",
    "Distrax.C61_softmax",
    "Distrax.C61_categorical_entropy",
    "Distrax.C61_mixture_of_two",
    "Distrax.C61_quantized",
    "Distrax.C61_hmm_forward",
    "Distrax.C61_hmm_float32",
    "Distrax.C61_uniform_kl_nan"
   ],
   "note": "The claim as stated is false of the code in five places, each proved with a witness in every format and with the exact condition: Normal KL when loc/scale2 overflows (C61_normal_kl_nan, normal_kl, C61_normal_kl_self), Logistic and Gumbel log_prob when the standardised value overflows to -inf (C61_left_tail_nan, C61_logistic and C61_gumbel are iffs), Uniform.cdf and Uniform KL when high - low overflows (C61_uniform_cdf_nan, C61_uniform_kl_nan), Tanh's log-determinant at -inf (C61_tanh_infinite; finite inputs are fine). Everything else in the claim is proved without exceptions. Primitives are assumed correctly rounded; no flush-to-zero, no fusion."
  },
  {
   "property": "C62",
   "status": "proved",
   "theorems": [
    "Distrax.C62_logistic",
    "Distrax.C62_gumbel",
    "Distrax.C62_laplace_cdf",
    "Distrax.C62_laplace_log",
    "Distrax.C62_uniform_cdf",
    "Distrax.C62_derived",
    "Distrax.C62_quantized",
    "Distrax.C62_quantized_bases",
    "Distrax.C62_normal_kl",
    "Distrax.C62_uniform_kl",
    "Distrax.C62_mode",
    "Distrax.C62_unimodal",
    "Distrax.C62_forward"
   ],
   "note": "Under abstract monotone rounding (Fmt; C61_formats shows every IEEE binary format is an instance). Logistic log_cdf/log_survival_function: only the bound (<= 0, not nan) is claimed and proved. Sigmoid.forward is not order-preserving at -9, see C06."
  },
  {
   "property": "C63",
   "status": "proved",
   "theorems": [
    "Distrax.C63_softplus",
    "Distrax.C63_sigmoid_log_det",
    "Distrax.C63_normal_log_prob",
    "Distrax.C63_normal_entropy",
    "Distrax.C63_laplace_log_prob",
    "Distrax.C63_logistic_log_cdf",
    "Distrax.C63_logistic_log_prob",
    "Distrax.C63_gumbel_log_prob",
    "Distrax.C63_sum",
    "Distrax.C63_independent",
    "Distrax.C63_bernoulli_log_prob",
    "Distrax.C63_uniform_cdf",
    "Distrax.C63_affine_roundtrip",
    "Distrax.C63_tanh_log_det",
    "Distrax.C63_log_softmax",
    "Distrax.C63_normal_log_prob_finite",
    "Distrax.C63_sum_finite",
    "Distrax.C63_log_softmax_finite",
    "Distrax.C63_formats"
   ],
   "note": "Fmt.Acc is the standard rounding model (Spec/FloatAcc.lean); C63_formats proves it, with the unit roundoffs named in the claim, for round-to-nearest in every IEEE binary format from the definition of nearest. The exact sides are the real-number models of C28, C29, C31 (Normal.logProb etc.). Finiteness of the computed result is the only range condition (the affine round trip also keeps the scale away from the subnormal range, Gumbel asks u|z| <= 1/4, Tanh that 2x does not overflow); C63_normal_log_prob_finite, C63_sum_finite, C63_log_softmax_finite show how wide that range is. Assumes exp, log, log1p, expm1 are correctly rounded, which XLA does not promise; a library error of k ulp would enlarge the constants."
  },
  {
   "property": "C64",
   "status": "proved",
   "theorems": [
    "Distrax.C64_categorical",
    "Distrax.C64_categorical_constructor",
    "Distrax.C64_greedy",
    "Distrax.C64_epsilon_greedy",
    "Distrax.C64_softmax",
    "Distrax.C64_categorical_kl",
    "Distrax.C64_multinomial",
    "Distrax.C64_dirichlet",
    "Distrax.C64_dirichlet_kl",
    "Distrax.C64_beta_dirichlet_kl",
    "Distrax.C64_mixture_same_family",
    "Distrax.C64_mixture_same_family_rejects",
    "Distrax.C64_mixture_of_two",
    "Distrax.C64_mixture_of_two_rejects",
    "Distrax.C64_independent",
    "Distrax.C64_independent_ndims",
    "Distrax.C64_normal_rowwise"
   ],
   "note": "Rows are the per-row models of C24-C26, C34, C36, C38. Mixture components enter through RowWise (Spec/VecArr.lean), proved for Normal (C64_normal_rowwise) and preserved by Independent (C64_independent). MixtureSameFamily is for equal numbers of weights and components; the unchecked mismatch is C34_same_family_count_unchecked."
  },
  {
   "property": "C65",
   "status": "proved",
   "theorems": [
    "Distrax.C65_categorical_uniform",
    "Distrax.C65_categorical_uniform_rejects",
    "Distrax.C65_quantized",
    "Distrax.C65_quantized_rejects",
    "Distrax.C65_quantized_bad_cutoff",
    "Distrax.C65_clipped",
    "Distrax.C65_clipped_rejects",
    "Distrax.C65_normal_entrywise",
    "Distrax.C65_clipped_normal"
   ],
   "note": "The per-entry distributions are the models of C32, C33 and C35. A Quantized cutoff of acceptable rank that does not broadcast is accepted (C65_quantized_bad_cutoff); CategoricalUniform checks no shapes (C65_categorical_uniform_rejects). Zero bins are excluded (softmax of an empty axis raises)."
  },
  {
   "property": "C66",
   "status": "partial",
   "theorems": [
    "Distrax.C66_values",
    "Distrax.C66_bernoulli_values",
    "Distrax.C66_categorical_log_prob",
    "Distrax.C66_categorical_log_prob_impossible",
    "Distrax.C66_categorical_log_prob_outside",
    "Distrax.C66_one_hot_log_prob",
    "Distrax.C66_categorical_prob",
    "Distrax.C66_entropy",
    "Distrax.C66_kl",
    "Distrax.C66_kl_infinite",
    "Distrax.C66_probs_prob",
    "Distrax.C66_probs_log_prob_partial",
    "Distrax.C66_probs_entropy_partial",
    "Distrax.C66_probs_log_prob_nan",
    "Distrax.C66_probs_entropy_nan",
    "Distrax.C66_bernoulli_log_prob",
    "Distrax.C66_bernoulli_log_prob_inf",
    "Distrax.C66_bernoulli_entropy_partial",
    "Distrax.C66_bernoulli_kl_partial",
    "Distrax.C66_bernoulli_entropy_inf_nan",
    "Distrax.C66_bernoulli_probs_partial",
    "Distrax.C66_bernoulli_probs_nan",
    "Distrax.C66_mixture",
    "Distrax.C66_mixture_impossible_nan",
    "Distrax.C66_quantized_values",
    "Distrax.C66_quantized_log_prob",
    "Distrax.C66_quantized_impossible",
    "Distrax.C66_quantized_eps",
    "Distrax.C66_logistic_loc",
    "Distrax.C66_logistic_scale",
    "Distrax.C66_logistic_values",
    "Distrax.C66_quantized_logistic",
    "Distrax.C66_uniform_values",
    "Distrax.C66_quantized_uniform_nan",
    "Distrax.C66_clipped_values",
    "Distrax.C66_clipped",
    "Distrax.C66_logistic_log_prob",
    "Distrax.C66_clipped_logistic"
   ],
   "note": "Proved for logits as parameters: Categorical and OneHotCategorical log_prob, prob, entropy, KL (both arguments), mixtures, Bernoulli log_prob (infinite logits included), Bernoulli entropy and KL at finite logits. The claim is false of the code elsewhere, with proofs: with probs as parameters one zero probability makes the whole gradient of log_prob and entropy nan (C66_probs_log_prob_nan, C66_probs_entropy_nan; interior case in the _partial theorems, prob is fine everywhere), Bernoulli entropy at infinite logits and Bernoulli log_prob/entropy at probs 0 or 1 (C66_bernoulli_entropy_inf_nan, C66_bernoulli_probs_nan), a mixture at a value no component can produce (C66_mixture_impossible_nan). Quantized and Clipped (any base with correct differentiated tails; Logistic proved to be one, in loc and scale): correct everywhere without eps and where eps is inactive, zero at impossible values. False of the code: where eps is active the gradient is -1/(e^eps-1) times that of the log of the smaller tail, not blocked (C66_quantized_eps), and Quantized(Uniform) has gradient nan in its first cell, with any cutoff (C66_quantized_uniform_nan)."
  },
  {
   "property": "C67",
   "status": "proved",
   "theorems": [
    "Distrax.Keys.C67_meaning",
    "Distrax.Keys.C67_separate_keys",
    "Distrax.Keys.C67_primitive",
    "Distrax.Keys.C67_deterministic",
    "Distrax.Keys.C67_independent",
    "Distrax.Keys.C67_transformed",
    "Distrax.Keys.C67_joint",
    "Distrax.Keys.C67_mixture_of_two",
    "Distrax.Keys.C67_mixture_of_two_batch_dependent",
    "Distrax.Keys.C67_mixture_same_family",
    "Distrax.Keys.C67_multinomial",
    "Distrax.Keys.C67_hmm",
    "Distrax.Keys.C67_von_mises",
    "Distrax.Keys.C67_reuse_is_caught",
    "Distrax.Keys.C67_rows",
    "Distrax.Keys.C67_bernoulli_call",
    "Distrax.Keys.C67_categorical_call",
    "Distrax.Keys.C67_multinomial_log_prob",
    "Distrax.Keys.C67_nested",
    "Distrax.Keys.C67_sample_shape"
   ],
   "note": "The unit of independence is a whole draw (all batch entries): C67_mixture_of_two_batch_dependent proves that the batch entries of one MixtureOfTwo draw are not independent of each other (one mask per draw, finding 33). jax.random itself is the ideal-generator hypothesis IdealPRNG (independent numbers at unrelated keys only); C67_reuse_is_caught shows the hypothesis is weak enough to detect reuse."
  },
  {
   "property": "C68",
   "status": "proved",
   "theorems": [
    "Distrax.DTypes.C68_dtype_is_sample_dtype",
    "Distrax.DTypes.C68_weak_samples",
    "Distrax.DTypes.C68_integer_mvn",
    "Distrax.DTypes.C68_joint",
    "Distrax.DTypes.C68_real_valued",
    "Distrax.DTypes.C68_common_dtype",
    "Distrax.DTypes.C68_python_scalars",
    "Distrax.DTypes.C68_other_parameters",
    "Distrax.DTypes.C68_von_mises",
    "Distrax.DTypes.C68_mixture_same_family",
    "Distrax.DTypes.C68_mixture_of_two",
    "Distrax.DTypes.C68_requested_dtype",
    "Distrax.DTypes.C68_requested_width",
    "Distrax.DTypes.C68_category_survives",
    "Distrax.DTypes.C68_bits_survive",
    "Distrax.DTypes.C68_invalid_marker",
    "Distrax.DTypes.C68_multinomial_counts",
    "Distrax.DTypes.C68_multinomial_refines",
    "Distrax.DTypes.C68_multinomial_overflow",
    "Distrax.DTypes.C68_mixture_values",
    "Distrax.DTypes.C68_mixture_values_rounded",
    "Distrax.DTypes.C68_deterministic_log_prob"
   ],
   "note": "JAX's promotion lattice, weak types, canonicalisation and astype are modelled from memory of jax (Model/DTypes.lean). The exceptions named in the statement are theorems too (C68_weak_samples, C68_integer_mvn, C68_deterministic_log_prob, C68_multinomial_overflow; findings 34-38). Quantized is left out of the dtype model (jnp.ceil of integers changed between JAX versions); Python integers out of range of the dtype are taken to wrap like arrays do (recent JAX raises instead)."
  },
  {
   "property": "C69",
   "status": "partial",
   "theorems": [
    "Distrax.C69_values",
    "Distrax.C69_normal",
    "Distrax.C69_laplace",
    "Distrax.C69_gumbel",
    "Distrax.C69_logistic",
    "Distrax.C69_uniform",
    "Distrax.C69_log_stddev_normal",
    "Distrax.C69_clipped_normal",
    "Distrax.C69_clipped_logistic",
    "Distrax.C69_clipped_values",
    "Distrax.C69_quantized",
    "Distrax.C69_mixture_same_family",
    "Distrax.C69_mixture_of_two",
    "Distrax.C69_mixture_components",
    "Distrax.C69_mixture_weights_biased",
    "Distrax.C69_score_categorical",
    "Distrax.C69_score_bernoulli",
    "Distrax.C69_categorical_uniform_value",
    "Distrax.C69_categorical_uniform",
    "Distrax.C69_von_mises_value",
    "Distrax.C69_von_mises_loc",
    "Distrax.C69_von_mises_loc_circle",
    "Distrax.C69_von_mises_loc_biased",
    "Distrax.C69_von_mises_concentration",
    "Distrax.C69_von_mises_concentration_large"
   ],
   "note": "Proved in full for the location-scale families, LogStddevNormal, the clipped families, CategoricalUniform, mixture components, the score function of Categorical and Bernoulli, and VonMises on circular functions. False of the code, with proofs: mixture weights (C69_mixture_weights_biased; the exact missing term is in C69_mixture_same_family and C69_mixture_of_two), VonMises loc for functions that differ at the two ends of the turn (C69_von_mises_loc_biased; exact missing term in C69_von_mises_loc). jax.random noise is a constant of differentiation; jax's derivative rules are assumptions stated in Model/Pathwise."
  },
  {
   "property": "C70",
   "status": "partial",
   "theorems": [
    "Distrax.Spline.C70_values",
    "Distrax.Spline.C70_true_derivative_at_knot",
    "Distrax.Spline.C70_forward_partial",
    "Distrax.Spline.C70_forward_knot",
    "Distrax.Spline.C70_forward_knot_wrong",
    "Distrax.Spline.C70_inverse_partial",
    "Distrax.Spline.C70_inverse_knot",
    "Distrax.Spline.C70_inverse_knot_wrong",
    "Distrax.Spline.C70_spline_forward_partial",
    "Distrax.Spline.C70_spline_inverse_partial",
    "Distrax.Spline.C70_identity_init_wrong"
   ],
   "note": "The derivative claim is proved off the knots (and on the end knots for the forward output), for moving knots, slopes, parameters and inputs together (C70_forward_partial, C70_inverse_partial, C70_spline_forward_partial, C70_spline_inverse_partial). The full claim is false of the code: on knots strictly inside the range the computed tangent is the share tie (forward) or tie^2 (inverse) of the derivative (C70_forward_knot, C70_inverse_knot, C70_forward_knot_wrong, C70_inverse_knot_wrong, C70_identity_init_wrong)."
  },
  {
   "property": "C71",
   "status": "partial",
   "theorems": [
    "Distrax.HMMD.C71_values",
    "Distrax.HMMD.C71_forward_partial",
    "Distrax.HMMD.C71_smoothing_partial",
    "Distrax.HMMD.C71_score_partial",
    "Distrax.HMMD.C71_observation_gradient_partial",
    "Distrax.HMMD.C71_padding",
    "Distrax.HMMD.C71_impossible",
    "Distrax.HMMD.C71_clamped_vanishes",
    "Distrax.HMMD.C71_clamped_wrong",
    "Distrax.HMMD.C71_boundary_wrong"
   ],
   "note": "Derivatives of log-likelihood, filtering and smoothing posteriors proved for every differentiable family of models, under the guards of C41/C43 at the point and with the point inside the range of nonnegative parameters (C71_forward_partial, C71_smoothing_partial, C71_score_partial, C71_observation_gradient_partial). The full claim is false: C71_boundary_wrong (wrong sign at the edge of the simplex), C71_clamped_wrong / C71_clamped_vanishes (zero gradient below the 1e-15 clamp)."
  },
  {
   "property": "C72",
   "status": "partial",
   "theorems": [
    "Distrax.C72_sigmoid_forward_partial",
    "Distrax.C72_sigmoid_log_det_partial",
    "Distrax.C72_sigmoid_inverse_partial",
    "Distrax.C72_tanh_forward",
    "Distrax.C72_tanh_log_det",
    "Distrax.C72_gumbel_cdf_partial",
    "Distrax.C72_sigmoid_nan",
    "Distrax.C72_log_prob_partial",
    "Distrax.C72_small_scale_nan",
    "Distrax.C72_small_scale_formats",
    "Distrax.C72_cdf_partial",
    "Distrax.C72_laplace_cdf_at_loc",
    "Distrax.C72_uniform_partial",
    "Distrax.C72_sigmoid_forward_accurate",
    "Distrax.C72_sigmoid_log_det_accurate",
    "Distrax.C72_tanh_forward_accurate",
    "Distrax.C72_tanh_log_det_accurate",
    "Distrax.C72_normal_value_accurate",
    "Distrax.C72_normal_scale_accurate",
    "Distrax.C72_laplace_value_accurate",
    "Distrax.C72_logistic_value_accurate",
    "Distrax.C72_sigmoid_inverse_nan"
   ],
   "note": "Positive part proved for every format: C72_tanh_forward, C72_tanh_log_det, C72_log_prob_partial, C72_cdf_partial, C72_uniform_partial, exact nan conditions for Sigmoid and GumbelCDF (C72_sigmoid_*_partial, C72_gumbel_cdf_partial), agreement with the exact derivatives (C72_*_accurate). The full claim is false of the code: C72_sigmoid_nan, C72_sigmoid_inverse_nan, C72_small_scale_nan, C72_small_scale_formats, C72_laplace_cdf_at_loc."
  },
  {
   "property": "C73",
   "status": "proved",
   "theorems": [
    "Distrax.C73_values",
    "Distrax.C73_values_classes",
    "Distrax.C73_density",
    "Distrax.C73_score",
    "Distrax.C73_score_zero",
    "Distrax.C73_mc_kl",
    "Distrax.C73_mc_kl_default",
    "Distrax.C73_reparam_normal",
    "Distrax.C73_reparam_log_stddev_normal",
    "Distrax.C73_reparam_laplace",
    "Distrax.C73_reparam_logistic",
    "Distrax.C73_reparam_gumbel",
    "Distrax.C73_von_mises",
    "Distrax.C73_uniform_bias",
    "Distrax.C73_uniform_biased",
    "Distrax.C73_reparam_not_reparameterized",
    "Distrax.C73_reparam_mixture_weight_wrong",
    "Distrax.C73_independent_score",
    "Distrax.C73_independent_mc_kl",
    "Distrax.C73_values_gamma_beta_dirichlet",
    "Distrax.C73_gamma",
    "Distrax.C73_gamma_mc_kl",
    "Distrax.C73_dirichlet",
    "Distrax.C73_dirichlet_mc_kl",
    "Distrax.C73_beta",
    "Distrax.C73_beta_mc_kl"
   ],
   "note": "Full statement, exceptions included: C73_score (all nested mixtures), C73_score_zero, C73_von_mises, C73_gamma, C73_beta, C73_dirichlet, C73_{gamma,beta,dirichlet}_mc_kl, C73_independent_score, C73_mc_kl, C73_mc_kl_default, C73_independent_mc_kl, C73_reparam_{normal,log_stddev_normal,laplace,logistic,gumbel}; exceptions C73_uniform_bias / C73_uniform_biased, C73_reparam_not_reparameterized / C73_reparam_mixture_weight_wrong. For the KL estimators a Gumbel component in b is allowed when a has Normal/LogStddevNormal/Gumbel components only (otherwise the divergence can be infinite). jax's derivative rules are assumptions stated in Model/Pathwise and Model/ScoreGrad."
  },
  {
   "property": "C74",
   "status": "proved",
   "theorems": [
    "Distrax.C74_values",
    "Distrax.C74_score",
    "Distrax.C74_mc_kl",
    "Distrax.C74_kl_closed",
    "Distrax.C74_pathwise",
    "Distrax.C74_reparam_kl",
    "Distrax.C74_log_prob_deriv",
    "Distrax.C74_sample_values",
    "Distrax.C74_cholesky"
   ],
   "note": "Full statement: C74_values, C74_sample_values, C74_log_prob_deriv, C74_pathwise, C74_score, C74_mc_kl, C74_reparam_kl; C74_kl_closed identifies the divergence with the closed form that kl_divergence computes, C74_cholesky shows that the hypothesis on the Cholesky routine can be met. Derivative rules of solve, slogdet and cholesky are jax's (from memory, stated at the head of Model/MVNGrad); that they are the true derivatives is proved (CA.solve, CA.slogdet, CA.cholesky)."
  },
  {
   "property": "C75",
   "status": "partial",
   "theorems": [
    "Distrax.C75_normal_entropy",
    "Distrax.C75_normal_kl",
    "Distrax.C75_log_stddev_normal_entropy",
    "Distrax.C75_log_stddev_normal_kl",
    "Distrax.C75_laplace_entropy",
    "Distrax.C75_laplace_kl",
    "Distrax.C75_logistic_entropy",
    "Distrax.C75_gumbel_entropy",
    "Distrax.C75_gumbel_kl",
    "Distrax.C75_uniform_entropy",
    "Distrax.C75_uniform_kl",
    "Distrax.C75_uniform_kl_edge",
    "Distrax.C75_gamma_entropy",
    "Distrax.C75_gamma_kl",
    "Distrax.C75_beta_entropy",
    "Distrax.C75_beta_kl",
    "Distrax.C75_dirichlet_entropy",
    "Distrax.C75_dirichlet_kl",
    "Distrax.C75_von_mises_entropy_partial",
    "Distrax.C75_von_mises_entropy",
    "Distrax.C75_von_mises_entropy_zero",
    "Distrax.C75_von_mises_kl_partial",
    "Distrax.C75_von_mises_kl",
    "Distrax.C75_von_mises_kl_zero",
    "Distrax.C75_mvn_entropy",
    "Distrax.C75_mvn_kl"
   ],
   "note": "Proved against the integrals for every family and every legal parameter at which the divergence is finite: C75_normal_*, C75_log_stddev_normal_*, C75_laplace_* (also at equal locations), C75_logistic_entropy, C75_gumbel_*, C75_uniform_* (within the set where the divergence is finite; C75_uniform_kl_edge says what happens across the edge), C75_gamma_*, C75_beta_*, C75_dirichlet_*, C75_mvn_*, and C75_von_mises_entropy(_partial) / C75_von_mises_kl(_partial) for positive concentrations above the switch point of jax's rule for i1e. The full claim is false of the code at VonMises concentration 0 (the uniform distribution): C75_von_mises_entropy_zero, C75_von_mises_kl_zero."
  },
  {
   "property": "C76",
   "status": "proved",
   "theorems": [
    "Distrax.C76_forward",
    "Distrax.C76_log_likelihood",
    "Distrax.C76_padding",
    "Distrax.C76_backward",
    "Distrax.C76_smoothing",
    "Distrax.C76_forward_regular",
    "Distrax.C76_backward_regular",
    "Distrax.C76_smoothing_regular",
    "Distrax.C76_float32_filtering",
    "Distrax.C76_float32_smoothing"
   ],
   "note": "C76_forward, C76_log_likelihood, C76_padding, C76_backward, C76_smoothing for every format, order of summation, number of states, model and length, under the stated provisos; C76_forward_regular, C76_backward_regular, C76_smoothing_regular show that the provisos hold for all sequences when the probabilities are bounded away from zero; C76_float32_filtering and C76_float32_smoothing are the single-precision numbers. The component probabilities are floats given to the recursion; the error is against the model these floats describe exactly. What happens when the clamp acts is C42."
  },
  {
   "property": "C77",
   "status": "proved",
   "theorems": [
    "Distrax.FVit.C77_maximises",
    "Distrax.FVit.C77_discrete",
    "Distrax.FVit.C77_relative",
    "Distrax.FVit.C77_absolute",
    "Distrax.FVit.C77_exact",
    "Distrax.FVit.C77_categorical",
    "Distrax.FVit.C77_float32"
   ],
   "note": "C77_maximises (exact optimality for the rounded score), C77_discrete and C77_categorical (no proviso), C77_relative, C77_absolute, C77_exact, C77_float32. The log-probabilities are the floats that log_softmax and obs_dist.log_prob return; their own rounding is C63_log_softmax."
  },
  {
   "property": "C78",
   "status": "partial",
   "theorems": [
    "Distrax.C78_uniform_partial",
    "Distrax.C78_uniform_overflow",
    "Distrax.C78_uniform_joint_partial",
    "Distrax.C78_bernoulli_support",
    "Distrax.C78_bernoulli_probs",
    "Distrax.C78_bernoulli_logits",
    "Distrax.C78_bernoulli_law",
    "Distrax.C78_bernoulli_rare",
    "Distrax.C78_location_scale",
    "Distrax.C78_normal_joint",
    "Distrax.C78_laplace_joint",
    "Distrax.C78_gumbel_joint",
    "Distrax.C78_normal_own_partial",
    "Distrax.C78_laplace_own_partial",
    "Distrax.C78_own_bounded",
    "Distrax.C78_joint_disagree",
    "Distrax.C78_logistic_noise",
    "Distrax.C78_categorical",
    "Distrax.C78_categorical_unreachable",
    "Distrax.C78_categorical_never",
    "Distrax.C78_quantized",
    "Distrax.C78_saturates",
    "Distrax.C78_saturated_nan",
    "Distrax.C78_joint_no_nan",
    "Distrax.C78_interior_partial",
    "Distrax.C78_float32",
    "Distrax.C78_logistic",
    "Distrax.C78_gumbel_max",
    "Distrax.C78_sigmoid_joint",
    "Distrax.C78_tanh_joint",
    "Distrax.C78_transformed_sample"
   ],
   "note": "Proved as stated for Bernoulli, location-scale families, Logistic noise, Categorical, Quantized, sample_and_log_prob of Transformed. False of the code, with proofs: Uniform whose range overflows (C78_uniform_overflow: nan or samples above high; C78_uniform_partial and C78_uniform_joint_partial need a finite range), agreement of log_prob(sample) with sample_and_log_prob when |loc| >> scale (C78_joint_disagree; C78_normal_own_partial and C78_laplace_own_partial give the exact extent), log_prob of saturated samples of Sigmoid/Tanh-transformed distributions (C78_saturates, C78_saturated_nan; documented; C78_interior_partial excludes the ends), frequencies of events rarer than 2^-m (C78_bernoulli_rare) and categories whose logit is far below the largest (C78_categorical_unreachable, C78_categorical_never). C78_float32 instantiates the main parts."
  },
  {
   "property": "C79",
   "status": "partial",
   "theorems": [
    "Distrax.C79_forward_tails",
    "Distrax.C79_forward_finite",
    "Distrax.C79_forward_knots",
    "Distrax.C79_forward_bins",
    "Distrax.C79_inverse_tails",
    "Distrax.C79_inverse_finite",
    "Distrax.C79_inverse_knots",
    "Distrax.C79_inverse_bins",
    "Distrax.C79_tails_monotone",
    "Distrax.C79_accepts",
    "Distrax.C79_ends",
    "Distrax.C79_knots",
    "Distrax.C79_slopes",
    "Distrax.C79_constructed",
    "Distrax.C79_zero_width_nan",
    "Distrax.C79_min_bin_size_lost",
    "Distrax.C79_constructed_finite",
    "Distrax.C79_forward_accurate",
    "Distrax.C79_split",
    "Distrax.C79_knot_logdets",
    "Distrax.C79_forward_logdet",
    "Distrax.C79_inverse_accurate"
   ],
   "note": "Proved for every format with the standard error model: finiteness, knots exact, bins, tails (under GoodKnots and Room), and that a constructed spline has good knots when min_bin_size is at least 128*K roundoffs of the range (C79_knots, C79_slopes, C79_constructed, C79_constructed_finite); the ends exactly (C79_ends). Without that condition the promise about min_bin_size is false of the code (C79_min_bin_size_lost, float32, range [2048, 4096], min_bin_size 1e-4: a bin of width zero, and the inverse is nan inside the range; C79_zero_width_nan in general). Inside a bin the forward value is within u*(|y| + 256*(h + w*(d0+d1))) of the exact rational-quadratic value y (C79_forward_accurate); each block of parameters affects only its own part (C79_split). At every knot both log-determinants are plus or minus the logarithm of its slope up to 8*u*log(4*B^2) (C79_knot_logdets), and inside a bin the forward log-determinant is the logarithm of the derivative of the exact segment up to u*(24*log(64*B^2) + 600*T/rho) as long as 256*u*T <= rho, T the sum and rho the least of the three slopes (C79_forward_logdet). The computed inverse is within u*(|x| + 1000*w*(T/rho)^4) of the exact x as long as 8192*u*(T/rho)^4 <= 1 (C79_inverse_accurate). Missing: an accuracy bound for the inverse log-determinant inside a bin, and monotonicity inside a bin (not claimed)."
  }
 ]
}