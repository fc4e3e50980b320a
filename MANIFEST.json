{
 "claims": [
  {
   "property": "C01",
   "status": "proved",
   "theorems": [
    "HOL.C01_chebyshev_nodes"
   ],
   "note": ""
  },
  {
   "property": "C02",
   "status": "proved",
   "theorems": [
    "HOL.C02_cardinal"
   ],
   "note": ""
  },
  {
   "property": "C03",
   "status": "proved",
   "theorems": [
    "HOL.C03_partition_of_unity"
   ],
   "note": ""
  },
  {
   "property": "C04",
   "status": "proved",
   "theorems": [
    "HOL.C04_reproduces_polynomials",
    "HOL.C04_unique_interpolant"
   ],
   "note": ""
  },
  {
   "property": "C05",
   "status": "proved",
   "theorems": [
    "HOL.C05_length_scaling"
   ],
   "note": ""
  },
  {
   "property": "C06",
   "status": "proved",
   "theorems": [
    "HOL.C06_polynomial_layer"
   ],
   "note": ""
  },
  {
   "property": "C07",
   "status": "proved",
   "theorems": [
    "HOL.C07_segment_in_range",
    "HOL.C07_segment_correct"
   ],
   "note": ""
  },
  {
   "property": "C08",
   "status": "proved",
   "theorems": [
    "HOL.C08_no_index_error"
   ],
   "note": ""
  },
  {
   "property": "C09",
   "status": "proved",
   "theorems": [
    "HOL.C09_piecewise_layer",
    "HOL.C09_spec_total"
   ],
   "note": ""
  },
  {
   "property": "C10",
   "status": "proved",
   "theorems": [
    "HOL.C10_weights_are_values"
   ],
   "note": ""
  },
  {
   "property": "C11",
   "status": "proved",
   "theorems": [
    "HOL.C11_continuous"
   ],
   "note": ""
  },
  {
   "property": "C12",
   "status": "proved",
   "theorems": [
    "HOL.C12_extrapolation"
   ],
   "note": ""
  },
  {
   "property": "C13",
   "status": "proved",
   "theorems": [
    "HOL.C13_locality"
   ],
   "note": ""
  },
  {
   "property": "C14",
   "status": "proved",
   "theorems": [
    "HOL.C14_batch_independence",
    "HOL.C14_batch_independence_polynomial",
    "HOL.C14_batch_independence_product"
   ],
   "note": ""
  },
  {
   "property": "C15",
   "status": "proved",
   "theorems": [
    "HOL.C15_linear_in_weights",
    "HOL.C15_linear_in_weights_polynomial"
   ],
   "note": ""
  },
  {
   "property": "C16",
   "status": "proved",
   "theorems": [
    "HOL.C16_discontinuous_layer",
    "HOL.C16_one_sided_limits"
   ],
   "note": ""
  },
  {
   "property": "C17",
   "status": "proved",
   "theorems": [
    "HOL.C17_mirror_periodic"
   ],
   "note": ""
  },
  {
   "property": "C18",
   "status": "proved",
   "theorems": [
    "HOL.C18_periodic_layer",
    "HOL.C18_periodic_function_layer"
   ],
   "note": ""
  },
  {
   "property": "C19",
   "status": "proved",
   "theorems": [
    "HOL.C19_constant_initialization"
   ],
   "note": ""
  },
  {
   "property": "C20",
   "status": "proved",
   "theorems": [
    "HOL.C20_p_refinement_exact",
    "HOL.C20_product_classes_raise"
   ],
   "note": ""
  },
  {
   "property": "C21",
   "status": "proved",
   "theorems": [
    "HOL.C21_p_coarsening_nodal",
    "HOL.C21_fails_for_one_node"
   ],
   "note": ""
  },
  {
   "property": "C22",
   "status": "proved",
   "theorems": [
    "HOL.C22_segment_mismatch"
   ],
   "note": ""
  },
  {
   "property": "C23",
   "status": "proved",
   "theorems": [
    "HOL.C23_h_refinement_exact",
    "HOL.C23_fails_for_small_periodicity"
   ],
   "note": ""
  },
  {
   "property": "C24",
   "status": "proved",
   "theorems": [
    "HOL.C24_h_refinement_nodal"
   ],
   "note": ""
  },
  {
   "property": "C25",
   "status": "proved",
   "theorems": [
    "HOL.C25_discontinuous_refine_refuses"
   ],
   "note": ""
  },
  {
   "property": "C26",
   "status": "proved",
   "theorems": [
    "HOL.C26_network_p_refinement",
    "HOL.C26_resnet_limit",
    "HOL.C26_unsupported_types",
    "HOL.C26_resnet_counterexample"
   ],
   "note": ""
  },
  {
   "property": "C27",
   "status": "proved",
   "theorems": [
    "HOL.C27_network_hp_refinement"
   ],
   "note": ""
  },
  {
   "property": "C28",
   "status": "proved",
   "theorems": [
    "HOL.C28_smoothing_weights",
    "HOL.C28_smoothing_functions",
    "HOL.C28_factor_one_continuous",
    "HOL.C28_one_node_raises"
   ],
   "note": ""
  },
  {
   "property": "C29",
   "status": "proved",
   "theorems": [
    "HOL.C29_repeated_smoothing",
    "HOL.C29_jumps_vanish"
   ],
   "note": ""
  },
  {
   "property": "C30",
   "status": "proved",
   "theorems": [
    "HOL.C30_linear_initialization",
    "HOL.C30_product_layer_unchanged"
   ],
   "note": ""
  },
  {
   "property": "C31",
   "status": "proved",
   "theorems": [
    "HOL.C31_network_initialization",
    "HOL.C31_layers_affine",
    "HOL.C31_network_affine"
   ],
   "note": ""
  },
  {
   "property": "C32",
   "status": "proved",
   "theorems": [
    "HOL.C32_product_layer",
    "HOL.C32_product_without_bias_raises",
    "HOL.C32_piecewise_product_layer",
    "HOL.C32_interpolation_alpha",
    "HOL.C32_polynomial_prod_raises"
   ],
   "note": ""
  },
  {
   "property": "C33",
   "status": "proved",
   "theorems": [
    "HOL.C33_switch",
    "HOL.C33_constructor"
   ],
   "note": ""
  },
  {
   "property": "C34",
   "status": "proved",
   "theorems": [
    "HOL.C34_trainable",
    "HOL.C34_switch_untrainable",
    "HOL.C34_resnet_untrainable"
   ],
   "note": ""
  },
  {
   "property": "C35",
   "status": "proved",
   "theorems": [
    "HOL.C35_entry",
    "HOL.C35_residual",
    "HOL.C35_sum",
    "HOL.C35_not_residual"
   ],
   "note": ""
  },
  {
   "property": "C36",
   "status": "proved",
   "theorems": [
    "HOL.C36_max_abs",
    "HOL.C36_max_abs_scale_invariant"
   ],
   "note": ""
  },
  {
   "property": "C37",
   "status": "proved",
   "theorems": [
    "HOL.C37_max_center",
    "HOL.C37_max_center_shift_invariant"
   ],
   "note": ""
  },
  {
   "property": "C38",
   "status": "proved",
   "theorems": [
    "HOL.C38_l2"
   ],
   "note": ""
  },
  {
   "property": "C39",
   "status": "proved",
   "theorems": [
    "HOL.C39_max_abs_nd",
    "HOL.C39_max_center_nd",
    "HOL.C39_last_axis"
   ],
   "note": ""
  },
  {
   "property": "C40",
   "status": "proved",
   "theorems": [
    "HOL.C40_rejects",
    "HOL.C40_rotation_layer",
    "HOL.C40_normalized_range"
   ],
   "note": ""
  },
  {
   "property": "C41",
   "status": "proved",
   "theorems": [
    "HOL.C41_values",
    "HOL.C41_range",
    "HOL.C41_y_axis_missing",
    "HOL.C41_errors"
   ],
   "note": ""
  },
  {
   "property": "C42",
   "status": "proved",
   "theorems": [
    "HOL.C42_errors",
    "HOL.C42_values",
    "HOL.C42_rotation",
    "HOL.C42_inner_product",
    "HOL.C42_layer_embeddings"
   ],
   "note": ""
  },
  {
   "property": "C43",
   "status": "proved",
   "theorems": [
    "HOL.C43_fourier_layer",
    "HOL.C43_periodic",
    "HOL.C43_layer_periodic"
   ],
   "note": ""
  },
  {
   "property": "C44",
   "status": "proved",
   "theorems": [
    "HOL.C44_orthogonal"
   ],
   "note": ""
  },
  {
   "property": "C45",
   "status": "proved",
   "theorems": [
    "HOL.C45_inactive_entries"
   ],
   "note": ""
  },
  {
   "property": "C46",
   "status": "proved",
   "theorems": [
    "HOL.C46_step_moves_by_lr",
    "HOL.C46_total_movement",
    "HOL.C46_constructor"
   ],
   "note": ""
  },
  {
   "property": "C47",
   "status": "proved",
   "theorems": [
    "HOL.C47_weight_decay_ignored",
    "HOL.C47_weight_decay_counterexample"
   ],
   "note": ""
  },
  {
   "property": "C48",
   "status": "proved",
   "theorems": [
    "HOL.C48_agrees_with_lion",
    "HOL.C48_zero_gradient_differs"
   ],
   "note": ""
  },
  {
   "property": "C49",
   "status": "proved",
   "theorems": [
    "HOL.C49_expansion2d",
    "HOL.C49_expansion1d",
    "HOL.C49_plain_values",
    "HOL.C49_constructor",
    "HOL.C49_rejects"
   ],
   "note": ""
  },
  {
   "property": "C50",
   "status": "proved",
   "theorems": [
    "HOL.C50_piecewise_expansion",
    "HOL.C50_same_as_layer"
   ],
   "note": ""
  },
  {
   "property": "C51",
   "status": "proved",
   "theorems": [
    "HOL.C51_one_segment_expansion",
    "HOL.C51_one_segment_layer",
    "HOL.C51_other_length"
   ],
   "note": ""
  },
  {
   "property": "C52",
   "status": "proved",
   "theorems": [
    "HOL.C52_constant_initialization",
    "HOL.C52_uniform_initialization",
    "HOL.C52_wrapper"
   ],
   "note": ""
  },
  {
   "property": "C53",
   "status": "proved",
   "theorems": [
    "HOL.C53_conv2d",
    "HOL.C53_conv1d",
    "HOL.C53_transpose2d",
    "HOL.C53_rejects"
   ],
   "note": ""
  },
  {
   "property": "C54",
   "status": "proved",
   "theorems": [
    "HOL.C54_translation2d",
    "HOL.C54_translation1d"
   ],
   "note": ""
  },
  {
   "property": "C55",
   "status": "proved",
   "theorems": [
    "HOL.C55_forward",
    "HOL.C55_compute_sizes",
    "HOL.C55_sizes_match",
    "HOL.C55_limits"
   ],
   "note": ""
  },
  {
   "property": "C56",
   "status": "proved",
   "theorems": [
    "HOL.C56_fully_convolutional",
    "HOL.C56_checks",
    "HOL.C56_single_values"
   ],
   "note": ""
  },
  {
   "property": "C57",
   "status": "proved",
   "theorems": [
    "HOL.C57_structure",
    "HOL.C57_arguments",
    "HOL.C57_unknown_type",
    "HOL.C57_shape"
   ],
   "note": ""
  },
  {
   "property": "C58",
   "status": "proved",
   "theorems": [
    "HOL.C58_first_layer_only",
    "HOL.C58_errors",
    "HOL.C58_shape"
   ],
   "note": ""
  },
  {
   "property": "C59",
   "status": "proved",
   "theorems": [
    "HOL.C59_never_constructed",
    "HOL.C59_no_replicas",
    "HOL.C59_recursion"
   ],
   "note": ""
  },
  {
   "property": "C60",
   "status": "proved",
   "theorems": [
    "HOL.C60_unknown",
    "HOL.C60_fc",
    "HOL.C60_fc_nd",
    "HOL.C60_conv"
   ],
   "note": ""
  },
  {
   "property": "C61",
   "status": "proved",
   "theorems": [
    "HOL.C61_options_ignored",
    "HOL.C61_switch_periodicity"
   ],
   "note": ""
  },
  {
   "property": "C62",
   "status": "proved",
   "theorems": [
    "HOL.C62_basis_values",
    "HOL.C62_node_values",
    "HOL.C62_layer",
    "HOL.C62_reproduces_products",
    "HOL.C62_errors",
    "HOL.C62_sign_counterexample"
   ],
   "note": ""
  },
  {
   "property": "C63",
   "status": "proved",
   "theorems": [
    "HOL.C63_value",
    "HOL.C63_outputs_equal",
    "HOL.C63_unused_weights",
    "HOL.C63_errors",
    "HOL.C63_no_own_function"
   ],
   "note": ""
  },
  {
   "property": "C64",
   "status": "proved",
   "theorems": [
    "HOL.C64_weights",
    "HOL.C64_permutation",
    "HOL.C64_sizes",
    "HOL.C64_dot",
    "HOL.C64_additive",
    "HOL.C64_additive_init",
    "HOL.C64_additive_width"
   ],
   "note": ""
  },
  {
   "property": "C65",
   "status": "proved",
   "theorems": [
    "HOL.C65_heads",
    "HOL.C65_mask_rows",
    "HOL.C65_mask_right",
    "HOL.C65_mask_misplaced",
    "HOL.C65_key_mask",
    "HOL.C65_init",
    "HOL.C65_width"
   ],
   "note": ""
  },
  {
   "property": "C66",
   "status": "proved",
   "theorems": [
    "HOL.C66_shift",
    "HOL.C66_shift_general",
    "HOL.C66_forward",
    "HOL.C66_masked",
    "HOL.C66_init",
    "HOL.C66_width"
   ],
   "note": ""
  },
  {
   "property": "C67",
   "status": "proved",
   "theorems": [
    "HOL.C67_location",
    "HOL.C67_multi",
    "HOL.C67_multi_right",
    "HOL.C67_multi_mixed",
    "HOL.C67_customizing",
    "HOL.C67_customizing_type"
   ],
   "note": ""
  },
  {
   "property": "C68",
   "status": "proved",
   "theorems": [
    "HOL.C68_divergence",
    "HOL.C68_loss"
   ],
   "note": ""
  },
  {
   "property": "C69",
   "status": "proved",
   "theorems": [
    "HOL.C69_accuracy",
    "HOL.C69_regression"
   ],
   "note": ""
  },
  {
   "property": "C70",
   "status": "proved",
   "theorems": [
    "HOL.C70_function",
    "HOL.C70_one_segment",
    "HOL.C70_discontinuous",
    "HOL.C70_continuous_iff"
   ],
   "note": ""
  },
  {
   "property": "C71",
   "status": "proved",
   "theorems": [
    "HOL.C71_network_smoothing",
    "HOL.C71_factor_one_continuous"
   ],
   "note": ""
  },
  {
   "property": "C72",
   "status": "proved",
   "theorems": [
    "HOL.C72_network_continuous"
   ],
   "note": ""
  },
  {
   "property": "C73",
   "status": "proved",
   "theorems": [
    "HOL.C73_conv_continuous",
    "HOL.C73_transpose_continuous"
   ],
   "note": ""
  },
  {
   "property": "C74",
   "status": "proved",
   "theorems": [
    "HOL.C74_deconvolution",
    "HOL.C74_mirrored"
   ],
   "note": ""
  },
  {
   "property": "C75",
   "status": "proved",
   "theorems": [
    "HOL.C75_reparameterize",
    "HOL.C75_shapes"
   ],
   "note": ""
  },
  {
   "property": "C76",
   "status": "proved",
   "theorems": [
    "HOL.C76_structure",
    "HOL.C76_shape",
    "HOL.C76_continuous",
    "HOL.C76_affine"
   ],
   "note": ""
  },
  {
   "property": "C77",
   "status": "proved",
   "theorems": [
    "HOL.C77_errors",
    "HOL.C77_structure",
    "HOL.C77_arguments",
    "HOL.C77_not_refinable",
    "HOL.C77_low_structure",
    "HOL.C77_shape",
    "HOL.C77_continuous",
    "HOL.C77_one_rotation"
   ],
   "note": ""
  },
  {
   "property": "C78",
   "status": "proved",
   "theorems": [
    "HOL.C78_high_order",
    "HOL.C78_hidden_order",
    "HOL.C78_unknown_type",
    "HOL.C78_missing",
    "HOL.C78_input_output_width",
    "HOL.C78_input_structure",
    "HOL.C78_shape",
    "HOL.C78_batch_of_one"
   ],
   "note": ""
  },
  {
   "property": "C79",
   "status": "proved",
   "theorems": [
    "HOL.C79_choice",
    "HOL.C79_errors",
    "HOL.C79_monitor",
    "HOL.C79_switch"
   ],
   "note": ""
  },
  {
   "property": "C80",
   "status": "proved",
   "theorems": [
    "HOL.C80_rejects",
    "HOL.C80_statistics",
    "HOL.C80_conv",
    "HOL.C80_tail_focus",
    "HOL.C80_first_call",
    "HOL.C80_epsilon",
    "HOL.C80_shape",
    "HOL.C80_two_dimensional"
   ],
   "note": ""
  },
  {
   "property": "C81",
   "status": "proved",
   "theorems": [
    "HOL.C81_first_call",
    "HOL.C81_later_calls",
    "HOL.C81_values",
    "HOL.C81_table",
    "HOL.C81_modules"
   ],
   "note": ""
  },
  {
   "property": "C82",
   "status": "proved",
   "theorems": [
    "HOL.C82_cross_entropy",
    "HOL.C82_errors",
    "HOL.C82_shift",
    "HOL.C82_accuracy_bound",
    "HOL.C82_ignored",
    "HOL.C82_regression",
    "HOL.C82_construction"
   ],
   "note": ""
  },
  {
   "property": "C83",
   "status": "proved",
   "theorems": [
    "HOL.C83_gradient",
    "HOL.C83_unused_weights",
    "HOL.C83_no_forgetting",
    "HOL.C83_neighbours_change"
   ],
   "note": ""
  },
  {
   "property": "C84",
   "status": "proved",
   "theorems": [
    "HOL.C84_order",
    "HOL.C84_sampled_weights",
    "HOL.C84_convergence",
    "HOL.C84_sharp"
   ],
   "note": ""
  },
  {
   "property": "C85",
   "status": "proved",
   "theorems": [
    "HOL.C85_hull",
    "HOL.C85_slopes",
    "HOL.C85_monotone",
    "HOL.C85_overshoot"
   ],
   "note": ""
  },
  {
   "property": "C86",
   "status": "proved",
   "theorems": [
    "HOL.C86_continuous_stack",
    "HOL.C86_layer",
    "HOL.C86_discontinuous_jump"
   ],
   "note": ""
  },
  {
   "property": "C87",
   "status": "proved",
   "theorems": [
    "HOL.C87_universal",
    "HOL.C87_no_interaction",
    "HOL.C87_product_needs_depth"
   ],
   "note": ""
  },
  {
   "property": "C88",
   "status": "proved",
   "theorems": [
    "HOL.C88_p_round_trip",
    "HOL.C88_h_round_trip",
    "HOL.C88_p_stages",
    "HOL.C88_h_stages",
    "HOL.C88_coarsening_loses"
   ],
   "note": ""
  },
  {
   "property": "C89",
   "status": "proved",
   "theorems": [
    "HOL.C89_same_function_iff",
    "HOL.C89_one_input",
    "HOL.C89_product_rescaling"
   ],
   "note": ""
  },
  {
   "property": "C90",
   "status": "proved",
   "theorems": [
    "HOL.C90_sum_layers",
    "HOL.C90_product_layers",
    "HOL.C90_weights_from_outputs",
    "HOL.C90_extrapolation"
   ],
   "note": ""
  },
  {
   "property": "C91",
   "status": "proved",
   "theorems": [
    "HOL.C91_input_gradient",
    "HOL.C91_right_derivative",
    "HOL.C91_one_point",
    "HOL.C91_linear",
    "HOL.C91_kink",
    "HOL.C91_turning_points"
   ],
   "note": ""
  },
  {
   "property": "C92",
   "status": "proved",
   "theorems": [
    "HOL.C92_parameter_gradients",
    "HOL.C92_layer_gradients"
   ],
   "note": ""
  },
  {
   "property": "C93",
   "status": "proved",
   "theorems": [
    "HOL.C93_backpropagation",
    "HOL.C93_mlp_is_sequential"
   ],
   "note": ""
  },
  {
   "property": "C94",
   "status": "proved",
   "theorems": [
    "HOL.C94_loss_bound",
    "HOL.C94_stationary_iff",
    "HOL.C94_products_get_stuck",
    "HOL.C94_depth_gets_stuck"
   ],
   "note": ""
  },
  {
   "property": "C95",
   "status": "proved",
   "theorems": [
    "HOL.C95_fits_any_targets",
    "HOL.C95_stationary_means_fitted",
    "HOL.C95_capacity_is_exact",
    "HOL.C95_samples_at_most_weights"
   ],
   "note": ""
  },
  {
   "property": "C96",
   "status": "proved",
   "theorems": [
    "HOL.C96_one_group",
    "HOL.C96_separate_layers2d",
    "HOL.C96_separate_layers1d",
    "HOL.C96_separate_layers_transpose",
    "HOL.C96_reads1d",
    "HOL.C96_defaults",
    "HOL.C96_no_groups_2d",
    "HOL.C96_no_groups_2d_error",
    "HOL.C96_divisibility",
    "HOL.C96_accepts",
    "HOL.C96_link_functions1d",
    "HOL.C96_link_functions2d",
    "HOL.C96_split_channel"
   ],
   "note": ""
  },
  {
   "property": "C97",
   "status": "proved",
   "theorems": [
    "HOL.C97_extends_the_image1d",
    "HOL.C97_extends_the_image2d",
    "HOL.C97_rejects",
    "HOL.C97_constructors",
    "HOL.C97_link_functions1d",
    "HOL.C97_link_functions2d",
    "HOL.C97_circular1d",
    "HOL.C97_circular2d"
   ],
   "note": ""
  },
  {
   "property": "C98",
   "status": "proved",
   "theorems": [
    "HOL.C98_network",
    "HOL.C98_piecewise_line",
    "HOL.C98_polynomial_line",
    "HOL.C98_two_nodes_affine",
    "HOL.C98_oscillation",
    "HOL.C98_depth",
    "HOL.C98_single_layer_needs_segments"
   ],
   "note": ""
  },
  {
   "property": "C99",
   "status": "proved",
   "theorems": [
    "HOL.C99_high_order",
    "HOL.C99_features_in_range",
    "HOL.C99_standard",
    "HOL.C99_normalization_required",
    "HOL.C99_rejected"
   ],
   "note": ""
  },
  {
   "property": "C100",
   "status": "proved",
   "theorems": [
    "HOL.C100_cifar",
    "HOL.C100_errors"
   ],
   "note": ""
  },
  {
   "property": "C101",
   "status": "proved",
   "theorems": [
    "HOL.C101_sum_over_pixels",
    "HOL.C101_order_and_bound",
    "HOL.C101_no_interaction",
    "HOL.C101_collate",
    "HOL.C101_errors"
   ],
   "note": ""
  },
  {
   "property": "C102",
   "status": "proved",
   "theorems": [
    "HOL.C102_piecewise_shapes",
    "HOL.C102_piecewise_mixes",
    "HOL.C102_piecewise_spreads",
    "HOL.C102_samples_interact",
    "HOL.C102_flat",
    "HOL.C102_product"
   ],
   "note": ""
  },
  {
   "property": "C103",
   "status": "proved",
   "theorems": [
    "HOL.C103_normalizations",
    "HOL.C103_layers_stay_inside",
    "HOL.C103_outputs_bounded",
    "HOL.C103_nonlinearities",
    "HOL.C103_unbounded_without"
   ],
   "note": ""
  },
  {
   "property": "C104",
   "status": "proved",
   "theorems": [
    "HOL.C104_schedule",
    "HOL.C104_nothing_carried_over",
    "HOL.C104_product_layers",
    "HOL.C104_no_room",
    "HOL.C104_plain"
   ],
   "note": ""
  },
  {
   "property": "C105",
   "status": "proved",
   "theorems": [
    "HOL.C105_functions",
    "HOL.C105_solvable",
    "HOL.C105_not_solvable",
    "HOL.C105_affine_loss",
    "HOL.C105_exact",
    "HOL.C105_nd",
    "HOL.C105_nd_represents",
    "HOL.C105_errors"
   ],
   "note": ""
  },
  {
   "property": "C106",
   "status": "proved",
   "theorems": [
    "HOL.C106_basis_squares",
    "HOL.C106_inside",
    "HOL.C106_outside",
    "HOL.C106_outside_attained",
    "HOL.C106_growth",
    "HOL.C106_polynomial"
   ],
   "note": ""
  },
  {
   "property": "C107",
   "status": "proved",
   "theorems": [
    "HOL.C107_step",
    "HOL.C107_descent",
    "HOL.C107_rate",
    "HOL.C107_converges",
    "HOL.C107_sharp"
   ],
   "note": ""
  },
  {
   "property": "C108",
   "status": "proved",
   "theorems": [
    "HOL.C108_pooled",
    "HOL.C108_signals",
    "HOL.C108_latent",
    "HOL.C108_decoder",
    "HOL.C108_reconstruction"
   ],
   "note": ""
  },
  {
   "property": "C109",
   "status": "proved",
   "theorems": [
    "HOL.C109_training",
    "HOL.C109_evaluation",
    "HOL.C109_shown"
   ],
   "note": ""
  },
  {
   "property": "C110",
   "status": "proved",
   "theorems": [
    "HOL.C110_layer",
    "HOL.C110_periodic",
    "HOL.C110_same_segments",
    "HOL.C110_growth",
    "HOL.C110_discontinuous",
    "HOL.C110_sequential",
    "HOL.C110_network"
   ],
   "note": ""
  },
  {
   "property": "C111",
   "status": "proved",
   "theorems": [
    "HOL.C111_cannot_follow",
    "HOL.C111_enough_segments",
    "HOL.C111_runs",
    "HOL.C111_optimizer_ignored",
    "HOL.C111_errors"
   ],
   "note": ""
  },
  {
   "property": "C112",
   "status": "proved",
   "theorems": [
    "HOL.C112_grid",
    "HOL.C112_predictions",
    "HOL.C112_stuck",
    "HOL.C112_speed"
   ],
   "note": ""
  },
  {
   "property": "C113",
   "status": "proved",
   "theorems": [
    "HOL.C113_mlp",
    "HOL.C113_low_order",
    "HOL.C113_several_variables",
    "HOL.C113_comparison"
   ],
   "note": ""
  },
  {
   "property": "C114",
   "status": "proved",
   "theorems": [
    "HOL.C114_disjoint",
    "HOL.C114_sizes",
    "HOL.C114_all",
    "HOL.C114_above_one",
    "HOL.C114_negative",
    "HOL.C114_other_fraction",
    "HOL.C114_cifar100"
   ],
   "note": ""
  },
  {
   "property": "C115",
   "status": "proved",
   "theorems": [
    "HOL.C115_high_order",
    "HOL.C115_high_order_input",
    "HOL.C115_conv"
   ],
   "note": ""
  },
  {
   "property": "C116",
   "status": "proved",
   "theorems": [
    "HOL.C116_samples",
    "HOL.C116_accumulation",
    "HOL.C116_mean",
    "HOL.C116_unequal"
   ],
   "note": ""
  },
  {
   "property": "C117",
   "status": "proved",
   "theorems": [
    "HOL.C117_restored",
    "HOL.C117_switch_lost",
    "HOL.C117_resnet_kept",
    "HOL.C117_load",
    "HOL.C117_resnet_lost"
   ],
   "note": ""
  },
  {
   "property": "C118",
   "status": "proved",
   "theorems": [
    "HOL.C118_interpolate",
    "HOL.C118_refine",
    "HOL.C118_larger",
    "HOL.C118_fewer_outputs",
    "HOL.C118_fewer_inputs",
    "HOL.C118_to_continuous",
    "HOL.C118_to_discontinuous",
    "HOL.C118_one_segment",
    "HOL.C118_classes_differ"
   ],
   "note": ""
  },
  {
   "property": "C119",
   "status": "proved",
   "theorems": [
    "HOL.C119_convolutional",
    "HOL.C119_deconvolutional",
    "HOL.C119_tail_focus",
    "HOL.C119_autoencoder",
    "HOL.C119_normalizations",
    "HOL.C119_losses",
    "HOL.C119_example"
   ],
   "note": ""
  },
  {
   "property": "C120",
   "status": "proved",
   "theorems": [
    "HOL.C120_modules",
    "HOL.C120_backpropagation",
    "HOL.C120_unused",
    "HOL.C120_fully_convolutional",
    "HOL.C120_fully_deconvolutional"
   ],
   "note": ""
  },
  {
   "property": "C121",
   "status": "proved",
   "theorems": [
    "HOL.C121_modules",
    "HOL.C121_backpropagation",
    "HOL.C121_mlp",
    "HOL.C121_ties"
   ],
   "note": ""
  },
  {
   "property": "C122",
   "status": "proved",
   "theorems": [
    "HOL.C122_backpropagation",
    "HOL.C122_mlp",
    "HOL.C122_mlp_gradients"
   ],
   "note": ""
  },
  {
   "property": "C123",
   "status": "proved",
   "theorems": [
    "HOL.C123_step",
    "HOL.C123_mlp"
   ],
   "note": ""
  },
  {
   "property": "C124",
   "status": "proved",
   "theorems": [
    "HOL.C124_interpolate",
    "HOL.C124_refine",
    "HOL.C124_attribute_error",
    "HOL.C124_counterexample",
    "HOL.C124_shift"
   ],
   "note": ""
  },
  {
   "property": "C125",
   "status": "proved",
   "theorems": [
    "HOL.C125_sequential",
    "HOL.C125_layer",
    "HOL.C125_network",
    "HOL.C125_sparse_lion",
    "HOL.C125_discontinuous"
   ],
   "note": ""
  },
  {
   "property": "C126",
   "status": "proved",
   "theorems": [
    "HOL.C126_folded_input",
    "HOL.C126_ignored",
    "HOL.C126_network",
    "HOL.C126_fit",
    "HOL.C126_convolutional",
    "HOL.C126_deconvolutional",
    "HOL.C126_tail_focus"
   ],
   "note": ""
  },
  {
   "property": "C127",
   "status": "proved",
   "theorems": [
    "HOL.C127_images",
    "HOL.C127_signals",
    "HOL.C127_crops",
    "HOL.C127_batch_norm",
    "HOL.C127_max_abs"
   ],
   "note": ""
  },
  {
   "property": "C128",
   "status": "proved",
   "theorems": [
    "HOL.C128_step",
    "HOL.C128_first",
    "HOL.C128_agreeing",
    "HOL.C128_opposing",
    "HOL.C128_mlp",
    "HOL.C128_momentum"
   ],
   "note": ""
  },
  {
   "property": "C129",
   "status": "proved",
   "theorems": [
    "HOL.C129_same",
    "HOL.C129_integers",
    "HOL.C129_distance"
   ],
   "note": ""
  },
  {
   "property": "C130",
   "status": "proved",
   "theorems": [
    "HOL.C130_fully_convolutional",
    "HOL.C130_fully_deconvolutional",
    "HOL.C130_directions",
    "HOL.C130_step"
   ],
   "note": ""
  },
  {
   "property": "C131",
   "status": "proved",
   "theorems": [
    "HOL.C131_layer",
    "HOL.C131_expression",
    "HOL.C131_mlp",
    "HOL.C131_mlp_weights",
    "HOL.C131_hidden_units",
    "HOL.C131_layer_norm"
   ],
   "note": ""
  },
  {
   "property": "C132",
   "status": "proved",
   "theorems": [
    "HOL.C132_lion_step",
    "HOL.C132_lion_training",
    "HOL.C132_lion_equal_units",
    "HOL.C132_gradients",
    "HOL.C132_step",
    "HOL.C132_training",
    "HOL.C132_equal_units",
    "HOL.C132_mlp"
   ],
   "note": ""
  },
  {
   "property": "C133",
   "status": "proved",
   "theorems": [
    "HOL.C133_piecewise",
    "HOL.C133_polynomial",
    "HOL.C133_fourier",
    "HOL.C133_step",
    "HOL.C133_training",
    "HOL.C133_determined",
    "HOL.C133_two_runs",
    "HOL.C133_mlp",
    "HOL.C133_lion",
    "HOL.C133_product"
   ],
   "note": ""
  },
  {
   "property": "C134",
   "status": "proved",
   "theorems": [
    "HOL.C134_runs",
    "HOL.C134_gradient",
    "HOL.C134_step",
    "HOL.C134_training",
    "HOL.C134_fully_convolutional",
    "HOL.C134_fully_deconvolutional",
    "HOL.C134_same_function",
    "HOL.C134_padding"
   ],
   "note": ""
  },
  {
   "property": "C135",
   "status": "proved",
   "theorems": [
    "HOL.C135_layer",
    "HOL.C135_discontinuous",
    "HOL.C135_expression",
    "HOL.C135_common_end",
    "HOL.C135_relu",
    "HOL.C135_mlp",
    "HOL.C135_hidden_units"
   ],
   "note": ""
  },
  {
   "property": "C136",
   "status": "proved",
   "theorems": [
    "HOL.C136_lion_step",
    "HOL.C136_lion_training",
    "HOL.C136_lion_hidden_units",
    "HOL.C136_lion_dead_units",
    "HOL.C136_gradients",
    "HOL.C136_parameters",
    "HOL.C136_training",
    "HOL.C136_hidden_units",
    "HOL.C136_dead_units",
    "HOL.C136_kink",
    "HOL.C136_mlp"
   ],
   "note": ""
  },
  {
   "property": "C137",
   "status": "proved",
   "theorems": [
    "HOL.C137_order",
    "HOL.C137_lion_order",
    "HOL.C137_symmetric",
    "HOL.C137_lion_symmetric",
    "HOL.C137_asymmetric",
    "HOL.C137_mlp",
    "HOL.C137_mlp_symmetric"
   ],
   "note": ""
  },
  {
   "property": "C138",
   "status": "proved",
   "theorems": [
    "HOL.C138_training",
    "HOL.C138_lion_training",
    "HOL.C138_mlp"
   ],
   "note": ""
  },
  {
   "property": "C139",
   "status": "proved",
   "theorems": [
    "HOL.C139_copies",
    "HOL.C139_lion_copies",
    "HOL.C139_unweighted",
    "HOL.C139_mlp"
   ],
   "note": ""
  },
  {
   "property": "C140",
   "status": "proved",
   "theorems": [
    "HOL.C140_sgd",
    "HOL.C140_lion",
    "HOL.C140_lion_first",
    "HOL.C140_rate",
    "HOL.C140_mlp"
   ],
   "note": ""
  },
  {
   "property": "C141",
   "status": "proved",
   "theorems": [
    "HOL.C141_sgd",
    "HOL.C141_lion"
   ],
   "note": ""
  }
 ]
}