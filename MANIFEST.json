{
 "claims": [
  {
   "property": "C01",
   "status": "proved",
   "theorems": [
    "Pytspl.C01_incidence1_exact",
    "Pytspl.C01_incidence1_loop",
    "Pytspl.C01_construction_indexError"
   ],
   "note": ""
  },
  {
   "property": "C02",
   "status": "proved",
   "theorems": [
    "Pytspl.C02_incidence2_exact",
    "Pytspl.C02_construction_valueError"
   ],
   "note": ""
  },
  {
   "property": "C03",
   "status": "partial",
   "theorems": [
    "Pytspl.C03_boundary_of_boundary_partial",
    "Pytspl.C03_counterexample"
   ],
   "note": "Holds whenever triangles are stored consistently oriented (ascending edges). C03_counterexample shows the constructor accepts complexes where B1 B2 is not zero, and shipped datasets are among them."
  },
  {
   "property": "C04",
   "status": "proved",
   "theorems": [
    "Pytspl.C04_boundary_zero_iff"
   ],
   "note": ""
  },
  {
   "property": "C05",
   "status": "proved",
   "theorems": [
    "Pytspl.C05_ascending_builds"
   ],
   "note": ""
  },
  {
   "property": "C06",
   "status": "proved",
   "theorems": [
    "Pytspl.C06_order",
    "Pytspl.C06_shape_simplices",
    "Pytspl.C06_max_dim"
   ],
   "note": ""
  },
  {
   "property": "C07",
   "status": "proved",
   "theorems": [
    "Pytspl.C07_faces_exact",
    "Pytspl.C07_faces_singleton"
   ],
   "note": ""
  },
  {
   "property": "C08",
   "status": "proved",
   "theorems": [
    "Pytspl.C08_adjacency_exact",
    "Pytspl.C08_adjacency_loop"
   ],
   "note": ""
  },
  {
   "property": "C09",
   "status": "proved",
   "theorems": [
    "Pytspl.C09_laplacian_exact"
   ],
   "note": ""
  },
  {
   "property": "C10",
   "status": "proved",
   "theorems": [
    "Pytspl.C10_laplacian_quadratic",
    "Pytspl.C10_laplacian_kernel"
   ],
   "note": ""
  },
  {
   "property": "C11",
   "status": "proved",
   "theorems": [
    "Pytspl.C11_laplacians_psd",
    "Pytspl.C11_laplacian_values"
   ],
   "note": ""
  },
  {
   "property": "C12",
   "status": "proved",
   "theorems": [
    "Pytspl.C12_lower_upper_annihilate",
    "Pytspl.C12_hodge_kernel"
   ],
   "note": ""
  },
  {
   "property": "C13",
   "status": "proved",
   "theorems": [
    "Pytspl.C13_rank_validation"
   ],
   "note": ""
  },
  {
   "property": "C14",
   "status": "partial",
   "theorems": [
    "Pytspl.C14_k_step_partial",
    "Pytspl.C14_steps_ge_three",
    "Pytspl.C14_counterexample"
   ],
   "note": "Proved for steps 1 and 2. For any other value the code applies two steps (C14_steps_ge_three), so the claim fails for k >= 3 (C14_counterexample)."
  },
  {
   "property": "C15",
   "status": "proved",
   "theorems": [
    "Pytspl.C15_divergence"
   ],
   "note": ""
  },
  {
   "property": "C16",
   "status": "proved",
   "theorems": [
    "Pytspl.C16_curl_exact",
    "Pytspl.C16_curl_of_gradient"
   ],
   "note": ""
  },
  {
   "property": "C17",
   "status": "proved",
   "theorems": [
    "Pytspl.C17_edge_features"
   ],
   "note": ""
  },
  {
   "property": "C18",
   "status": "proved",
   "theorems": [
    "Pytspl.C18_components_sum"
   ],
   "note": ""
  },
  {
   "property": "C19",
   "status": "proved",
   "theorems": [
    "Pytspl.C19_orthogonal"
   ],
   "note": ""
  },
  {
   "property": "C20",
   "status": "proved",
   "theorems": [
    "Pytspl.C20_component_behaviour"
   ],
   "note": ""
  },
  {
   "property": "C21",
   "status": "proved",
   "theorems": [
    "Pytspl.C21_best_approximation",
    "Pytspl.C21_solver_independent"
   ],
   "note": ""
  },
  {
   "property": "C22",
   "status": "proved",
   "theorems": [
    "Pytspl.C22_linear",
    "Pytspl.C22_idempotent",
    "Pytspl.C22_cross"
   ],
   "note": ""
  },
  {
   "property": "C23",
   "status": "proved",
   "theorems": [
    "Pytspl.C23_unique"
   ],
   "note": ""
  },
  {
   "property": "C24",
   "status": "proved",
   "theorems": [
    "Pytspl.C24_round_entry",
    "Pytspl.C24_rounded_components",
    "Pytspl.C24_equality_can_fail",
    "Pytspl.C24_defaults"
   ],
   "note": ""
  },
  {
   "property": "C25",
   "status": "proved",
   "theorems": [
    "Pytspl.C25_component_eigenpair_names",
    "Pytspl.C25_component_flow_names"
   ],
   "note": ""
  },
  {
   "property": "C26",
   "status": "proved",
   "theorems": [
    "Pytspl.C26_eigendecomposition",
    "Pytspl.C26_rejects"
   ],
   "note": ""
  },
  {
   "property": "C27",
   "status": "proved",
   "theorems": [
    "Pytspl.C27_counts"
   ],
   "note": ""
  },
  {
   "property": "C28",
   "status": "proved",
   "theorems": [
    "Pytspl.C28_orthonormal",
    "Pytspl.C28_kinds",
    "Pytspl.C28_cross_orthogonal"
   ],
   "note": ""
  },
  {
   "property": "C29",
   "status": "proved",
   "theorems": [
    "Pytspl.C29_spectrum"
   ],
   "note": ""
  },
  {
   "property": "C30",
   "status": "proved",
   "theorems": [
    "Pytspl.C30_embeddings"
   ],
   "note": ""
  },
  {
   "property": "C31",
   "status": "partial",
   "theorems": [
    "Pytspl.C31_default_tolerance_fails",
    "Pytspl.C31_harmonic_space_partial"
   ],
   "note": "The claim is false for complexes with a Hodge eigenvalue in (0, 1e-3]: C31_default_tolerance_fails proves it for every path with at least 2000 edges. C31_harmonic_space_partial proves it for all other consistently oriented complexes with an edge. C185 shows that without filled triangles the condition holds for every network of up to 99 nodes, and fails for one with 100."
  },
  {
   "property": "C32",
   "status": "partial",
   "theorems": [
    "Pytspl.C32_method_always_raises",
    "Pytspl.C32_total_variance_partial"
   ],
   "note": "The method raises AssertionError on every complex (C32_method_always_raises). C32_total_variance_partial proves the claim for the free function on dense Laplacians."
  },
  {
   "property": "C33",
   "status": "proved",
   "theorems": [
    "Pytspl.C33_triangles_exact"
   ],
   "note": ""
  },
  {
   "property": "C34",
   "status": "proved",
   "theorems": [
    "Pytspl.C34_triangles_order_independent"
   ],
   "note": ""
  },
  {
   "property": "C35",
   "status": "proved",
   "theorems": [
    "Pytspl.C35_distance_general",
    "Pytspl.C35_distance_keyError",
    "Pytspl.C35_distance_outcome",
    "Pytspl.C35_distance_exact",
    "Pytspl.C35_distance_missing"
   ],
   "note": ""
  },
  {
   "property": "C36",
   "status": "proved",
   "theorems": [
    "Pytspl.C36_dispatch",
    "Pytspl.C36_pass_through",
    "Pytspl.C36_all_never_raises",
    "Pytspl.C36_defaults"
   ],
   "note": ""
  },
  {
   "property": "C37",
   "status": "proved",
   "theorems": [
    "Pytspl.C37_extraction",
    "Pytspl.C37_only_links",
    "Pytspl.C37_read_csv",
    "Pytspl.C37_read_tntp",
    "Pytspl.C37_read_csv_returns"
   ],
   "note": ""
  },
  {
   "property": "C38",
   "status": "proved",
   "theorems": [
    "Pytspl.C38_empty",
    "Pytspl.C38_missing_column",
    "Pytspl.C38_only_failures",
    "Pytspl.C38_default_features",
    "Pytspl.C38_missing_file",
    "Pytspl.C38_tntp_markers"
   ],
   "note": ""
  },
  {
   "property": "C39",
   "status": "partial",
   "theorems": [
    "Pytspl.C39_positional",
    "Pytspl.C39_read_csv_partial",
    "Pytspl.C39_converse",
    "Pytspl.C39_counterexample",
    "Pytspl.C39_read_tntp_partial"
   ],
   "note": "The property is false for unsorted tables (C39_counterexample). Proved when the rows introducing an edge come first in sorted order, and C39_converse shows that condition is necessary as soon as one feature column tells the rows apart. Missing: nothing true; the full statement is refuted."
  },
  {
   "property": "C40",
   "status": "proved",
   "theorems": [
    "Pytspl.C40_round_trip",
    "Pytspl.C40_no_triangles",
    "Pytspl.C40_unsorted_counterexample"
   ],
   "note": ""
  },
  {
   "property": "C41",
   "status": "proved",
   "theorems": [
    "Pytspl.C41_coordinates",
    "Pytspl.C41_totality"
   ],
   "note": ""
  },
  {
   "property": "C42",
   "status": "proved",
   "theorems": [
    "Pytspl.C42_loaded_flow",
    "Pytspl.C42_every_table",
    "Pytspl.C42_loaded_every_table",
    "Pytspl.C42_net_flow",
    "Pytspl.C42_no_flow",
    "Pytspl.C42_unsorted_counterexample"
   ],
   "note": ""
  },
  {
   "property": "C43",
   "status": "proved",
   "theorems": [
    "Pytspl.C43_summary",
    "Pytspl.C43_names",
    "Pytspl.C43_unknown_name",
    "Pytspl.C43_dispatch",
    "Pytspl.C43_checked",
    "Pytspl.C43_generated_coordinates"
   ],
   "note": ""
  },
  {
   "property": "C44",
   "status": "proved",
   "theorems": [
    "Pytspl.C44_loaded_flow",
    "Pytspl.C44_positional_flow",
    "Pytspl.C44_create_edge_flow"
   ],
   "note": ""
  },
  {
   "property": "C45",
   "status": "proved",
   "theorems": [
    "Pytspl.C45_random_complex"
   ],
   "note": ""
  },
  {
   "property": "C46",
   "status": "proved",
   "theorems": [
    "Pytspl.C46_p_matrix"
   ],
   "note": ""
  },
  {
   "property": "C47",
   "status": "proved",
   "theorems": [
    "Pytspl.C47_nrmse",
    "Pytspl.C47_zero_reference"
   ],
   "note": ""
  },
  {
   "property": "C48",
   "status": "proved",
   "theorems": [
    "Pytspl.C48_default",
    "Pytspl.C48_logistic"
   ],
   "note": ""
  },
  {
   "property": "C49",
   "status": "proved",
   "theorems": [
    "Pytspl.C49_masks",
    "Pytspl.C49_names"
   ],
   "note": ""
  },
  {
   "property": "C50",
   "status": "proved",
   "theorems": [
    "Pytspl.C50_power_iteration",
    "Pytspl.C50_finite_iff",
    "Pytspl.C50_degenerate"
   ],
   "note": ""
  },
  {
   "property": "C51",
   "status": "proved",
   "theorems": [
    "Pytspl.C51_type_one",
    "Pytspl.C51_type_two",
    "Pytspl.C51_grid_extraction",
    "Pytspl.C51_grid_denoise",
    "Pytspl.C51_consequences"
   ],
   "note": ""
  },
  {
   "property": "C52",
   "status": "proved",
   "theorems": [
    "Pytspl.C52_residual"
   ],
   "note": ""
  },
  {
   "property": "C53",
   "status": "proved",
   "theorems": [
    "Pytspl.C53_gradient",
    "Pytspl.C53_curl",
    "Pytspl.C53_without_zero_eigenvalue",
    "Pytspl.C53_fails_on_path"
   ],
   "note": ""
  },
  {
   "property": "C54",
   "status": "proved",
   "theorems": [
    "Pytspl.C54_harmonic",
    "Pytspl.C54_gradient_curl",
    "Pytspl.C54_shared_never_exact",
    "Pytspl.C54_fails_on_filled_triangle"
   ],
   "note": ""
  },
  {
   "property": "C55",
   "status": "proved",
   "theorems": [
    "Pytspl.C55_ls",
    "Pytspl.C55_grid",
    "Pytspl.C55_skip",
    "Pytspl.C55_ls_total"
   ],
   "note": ""
  },
  {
   "property": "C56",
   "status": "proved",
   "theorems": [
    "Pytspl.C56_ls_history"
   ],
   "note": ""
  },
  {
   "property": "C57",
   "status": "partial",
   "theorems": [
    "Pytspl.C57_aliasing",
    "Pytspl.C57_single_design_partial",
    "Pytspl.C57_counterexample"
   ],
   "note": "False when both sizes are positive: history['L1'] and history['L2'] are the same dictionary (C57_aliasing), and C57_counterexample shows on a filled triangle that history['L1'] is not the gradient design whenever the sizes differ. C57_single_design_partial proves the claim when at most one size is positive."
  },
  {
   "property": "C58",
   "status": "proved",
   "theorems": [
    "Pytspl.C58_history"
   ],
   "note": ""
  },
  {
   "property": "C59",
   "status": "proved",
   "theorems": [
    "Pytspl.C59_denoise",
    "Pytspl.C59_domain"
   ],
   "note": ""
  },
  {
   "property": "C60",
   "status": "proved",
   "theorems": [
    "Pytspl.C60_minimiser",
    "Pytspl.C60_default"
   ],
   "note": ""
  },
  {
   "property": "C61",
   "status": "proved",
   "theorems": [
    "Pytspl.C61_response",
    "Pytspl.C61_low_pass",
    "Pytspl.C61_rows",
    "Pytspl.C61_failures"
   ],
   "note": ""
  },
  {
   "property": "C62",
   "status": "proved",
   "theorems": [
    "Pytspl.C62_series",
    "Pytspl.C62_response"
   ],
   "note": ""
  },
  {
   "property": "C63",
   "status": "partial",
   "theorems": [
    "Pytspl.C63_index",
    "Pytspl.C63_last_partial",
    "Pytspl.C63_shifted",
    "Pytspl.C63_counterexample"
   ],
   "note": "False for L >= 2: the i-th stored filter uses min(i+2, L) coefficients (C63_index), and C63_counterexample gives a complex where the first one differs from the approximation with one coefficient. C63_last_partial proves the claim for the last stored filter."
  },
  {
   "property": "C64",
   "status": "proved",
   "theorems": [
    "Pytspl.C64_shortage",
    "Pytspl.C64_stack"
   ],
   "note": ""
  },
  {
   "property": "C65",
   "status": "proved",
   "theorems": [
    "Pytspl.C65_harmonic",
    "Pytspl.C65_gradient_curl"
   ],
   "note": ""
  },
  {
   "property": "C66",
   "status": "proved",
   "theorems": [
    "Pytspl.C66_kernel",
    "Pytspl.C66_alternates",
    "Pytspl.C66_negative_order"
   ],
   "note": ""
  },
  {
   "property": "C67",
   "status": "partial",
   "theorems": [
    "Pytspl.C67_divergence_partial",
    "Pytspl.C67_curl_untouched",
    "Pytspl.C67_component_ignored",
    "Pytspl.C67_no_realisations",
    "Pytspl.C67_counterexample",
    "Pytspl.C67_singular"
   ],
   "note": "False as stated for component='curl' (C67_counterexample, C67_curl_untouched: the curl of the noisy flow is left as it is). Proved for the divergence, together with the exact filter, the failure cases and the independence of the component."
  },
  {
   "property": "C68",
   "status": "proved",
   "theorems": [
    "Pytspl.C68_minimiser",
    "Pytspl.C68_consequences",
    "Pytspl.C68_negative_weight"
   ],
   "note": ""
  },
  {
   "property": "C69",
   "status": "proved",
   "theorems": [
    "Pytspl.C69_interpolation",
    "Pytspl.C69_bad_ratio"
   ],
   "note": ""
  },
  {
   "property": "C70",
   "status": "proved",
   "theorems": [
    "Pytspl.C70_shift_operator",
    "Pytspl.C70_rejected",
    "Pytspl.C70_negative_order"
   ],
   "note": ""
  },
  {
   "property": "C71",
   "status": "proved",
   "theorems": [
    "Pytspl.C71_power",
    "Pytspl.C71_monotone"
   ],
   "note": ""
  },
  {
   "property": "C72",
   "status": "proved",
   "theorems": [
    "Pytspl.C72_psd",
    "Pytspl.C72_prior",
    "Pytspl.C72_positive_definite"
   ],
   "note": ""
  },
  {
   "property": "C73",
   "status": "proved",
   "theorems": [
    "Pytspl.C73_spectral_action"
   ],
   "note": ""
  },
  {
   "property": "C74",
   "status": "proved",
   "theorems": [
    "Pytspl.C74_slices",
    "Pytspl.C74_diag",
    "Pytspl.C74_failures"
   ],
   "note": ""
  },
  {
   "property": "C75",
   "status": "proved",
   "theorems": [
    "Pytspl.C75_positive",
    "Pytspl.C75_set_get",
    "Pytspl.C75_sequence",
    "Pytspl.C75_refused_and_initial",
    "Pytspl.C75_parameters"
   ],
   "note": ""
  },
  {
   "property": "C76",
   "status": "partial",
   "theorems": [
    "Pytspl.C76_table_partial",
    "Pytspl.C76_counterexample",
    "Pytspl.C76_types"
   ],
   "note": "False for 'laplacian_non_hc', which is an advertised kernel name and raises KeyError (C76_counterexample). Proved for every other pair of strings."
  },
  {
   "property": "C77",
   "status": "proved",
   "theorems": [
    "Pytspl.C77_partition",
    "Pytspl.C77_count",
    "Pytspl.C77_fails",
    "Pytspl.C77_default"
   ],
   "note": ""
  },
  {
   "property": "C78",
   "status": "proved",
   "theorems": [
    "Pytspl.C78_split",
    "Pytspl.C78_affine",
    "Pytspl.C78_degenerate"
   ],
   "note": ""
  },
  {
   "property": "C79",
   "status": "proved",
   "theorems": [
    "Pytspl.C79_export"
   ],
   "note": ""
  },
  {
   "property": "C80",
   "status": "partial",
   "theorems": [
    "Pytspl.C80_before_training_partial",
    "Pytspl.C80_training",
    "Pytspl.C80_iterations",
    "Pytspl.C80_after_training"
   ],
   "note": "False as stated: before training AttributeError is raised instead of ValueError, because the attribute is never initialised (C80_before_training_partial). The rest of the call-order behaviour is proved."
  },
  {
   "property": "C81",
   "status": "proved",
   "theorems": [
    "Pytspl.C81_grid_sampling"
   ],
   "note": ""
  },
  {
   "property": "C82",
   "status": "proved",
   "theorems": [
    "Pytspl.C82_flow_colors",
    "Pytspl.C82_plain",
    "Pytspl.C82_color_list"
   ],
   "note": ""
  },
  {
   "property": "C83",
   "status": "proved",
   "theorems": [
    "Pytspl.C83_position",
    "Pytspl.C83_symmetric",
    "Pytspl.C83_labels"
   ],
   "note": ""
  },
  {
   "property": "C84",
   "status": "partial",
   "theorems": [
    "Pytspl.C84_rejects_partial",
    "Pytspl.C84_counterexample",
    "Pytspl.C84_routes"
   ],
   "note": "False for the undocumented keyword edge_labels, which passes validation and then raises TypeError when labels are drawn (C84_counterexample). Proved for every other keyword, and the routing of all documented keywords is proved (C84_routes)."
  },
  {
   "property": "C85",
   "status": "proved",
   "theorems": [
    "Pytspl.C85_grid",
    "Pytspl.C85_empty",
    "Pytspl.C85_no_eigenvectors"
   ],
   "note": ""
  },
  {
   "property": "C86",
   "status": "proved",
   "theorems": [
    "Pytspl.C86_bounding_box",
    "Pytspl.C86_spring_layout",
    "Pytspl.C86_no_coordinates",
    "Pytspl.C86_nodes_visible"
   ],
   "note": ""
  },
  {
   "property": "C87",
   "status": "proved",
   "theorems": [
    "Pytspl.C87_general_filter_exact"
   ],
   "note": ""
  },
  {
   "property": "C88",
   "status": "proved",
   "theorems": [
    "Pytspl.C88_saved_history",
    "Pytspl.C88_grid_overwrites"
   ],
   "note": ""
  },
  {
   "property": "C89",
   "status": "proved",
   "theorems": [
    "Pytspl.C89_one_edge"
   ],
   "note": ""
  },
  {
   "property": "C90",
   "status": "proved",
   "theorems": [
    "Pytspl.C90_history",
    "Pytspl.C90_filter_error"
   ],
   "note": ""
  },
  {
   "property": "C91",
   "status": "proved",
   "theorems": [
    "Pytspl.C91_bounded",
    "Pytspl.C91_defined",
    "Pytspl.C91_affine"
   ],
   "note": ""
  },
  {
   "property": "C92",
   "status": "proved",
   "theorems": [
    "Pytspl.C92_given_coordinates",
    "Pytspl.C92_automatic_layout",
    "Pytspl.C92_same_points"
   ],
   "note": ""
  },
  {
   "property": "C93",
   "status": "proved",
   "theorems": [
    "Pytspl.C93_all_components",
    "Pytspl.C93_one_component",
    "Pytspl.C93_invalid",
    "Pytspl.C93_succeeds"
   ],
   "note": ""
  },
  {
   "property": "C94",
   "status": "partial",
   "theorems": [
    "Pytspl.C94_axes_partial",
    "Pytspl.C94_axes_current",
    "Pytspl.C94_counterexample"
   ],
   "note": "False: node labels go to pyplot's current axes (C94_counterexample). Everything else goes to the given axes (C94_axes_partial), and everything does when the given axes are current or labels are off (C94_axes_current)."
  },
  {
   "property": "C95",
   "status": "partial",
   "theorems": [
    "Pytspl.C95_keywords_partial",
    "Pytspl.C95_counterexample"
   ],
   "note": "False for cmap, which only reaches the colour bar and never the nodes (C95_counterexample). Proved for every other documented style keyword."
  },
  {
   "property": "C96",
   "status": "proved",
   "theorems": [
    "Pytspl.C96_panels",
    "Pytspl.C96_figure_size",
    "Pytspl.C96_defaults",
    "Pytspl.C96_succeeds",
    "Pytspl.C96_rejects"
   ],
   "note": ""
  },
  {
   "property": "C97",
   "status": "proved",
   "theorems": [
    "Pytspl.C97_succeeds",
    "Pytspl.C97_options",
    "Pytspl.C97_missing_position",
    "Pytspl.C97_automatic_layout"
   ],
   "note": ""
  },
  {
   "property": "C98",
   "status": "proved",
   "theorems": [
    "Pytspl.C98_components",
    "Pytspl.C98_euler",
    "Pytspl.C98_eigenvectors",
    "Pytspl.C98_forest"
   ],
   "note": "rank and components for every complex on valid edges; Euler formula and eigenvector counts for consistently oriented complexes (C03 explains why that is needed)."
  },
  {
   "property": "C99",
   "status": "proved",
   "theorems": [
    "Pytspl.C99_incidence",
    "Pytspl.C99_laplacians",
    "Pytspl.C99_flows",
    "Pytspl.C99_spectrum"
   ],
   "note": ""
  },
  {
   "property": "C100",
   "status": "partial",
   "theorems": [
    "Pytspl.C100_incidence",
    "Pytspl.C100_gradient_partial",
    "Pytspl.C100_components_partial",
    "Pytspl.C100_curl_counterexample"
   ],
   "note": "Proved for divergence, node Laplacian and the gradient component for any set of reversed edges, and for everything when the reversed edges bound no triangle. C100_curl_counterexample shows the curl part is false of the code."
  },
  {
   "property": "C101",
   "status": "proved",
   "theorems": [
    "Pytspl.C101_untrained",
    "Pytspl.C101_best_prediction",
    "Pytspl.C101_variance",
    "Pytspl.C101_more_data",
    "Pytspl.C101_order",
    "Pytspl.C101_fit",
    "Pytspl.C101_index_error",
    "Pytspl.C101_training_length"
   ],
   "note": "Exact Gaussian conditioning (gpytorch's documented formulas without its fast approximation), for every kernel the serializer can build."
  },
  {
   "property": "C102",
   "status": "partial",
   "theorems": [
    "Pytspl.C102_metrics_partial",
    "Pytspl.C102_too_few",
    "Pytspl.C102_length",
    "Pytspl.C102_r2_counterexample"
   ],
   "note": "Mean absolute and squared error are proved; the reported R2 uses the spread of the predictions, not of the data (C102_r2_counterexample). The likelihood metrics are C116."
  },
  {
   "property": "C103",
   "status": "partial",
   "theorems": [
    "Pytspl.C103_operators_fixed",
    "Pytspl.C103_consistent_partial",
    "Pytspl.C103_counterexample"
   ],
   "note": "Proved for every program that does not change the lists after the complex is created; C103_counterexample shows the rest is false."
  },
  {
   "property": "C104",
   "status": "partial",
   "theorems": [
    "Pytspl.C104_independent_partial",
    "Pytspl.C104_shared",
    "Pytspl.C104_build_references",
    "Pytspl.C104_constructor_references",
    "Pytspl.C104_counterexample"
   ],
   "note": "False because of shared default arguments and references (C104_counterexample); who shares what is exact in C104_shared, C104_build_references and C104_constructor_references."
  },
  {
   "property": "C105",
   "status": "proved",
   "theorems": [
    "Pytspl.C105_monotone",
    "Pytspl.C105_limit"
   ],
   "note": ""
  },
  {
   "property": "C106",
   "status": "proved",
   "theorems": [
    "Pytspl.C106_accuracy",
    "Pytspl.C106_logistic",
    "Pytspl.C106_component_ignored",
    "Pytspl.C106_leak",
    "Pytspl.C106_default_leak"
   ],
   "note": ""
  },
  {
   "property": "C107",
   "status": "proved",
   "theorems": [
    "Pytspl.C107_series",
    "Pytspl.C107_series_is_filter",
    "Pytspl.C107_response",
    "Pytspl.C107_before",
    "Pytspl.C107_empty",
    "Pytspl.C107_denoising"
   ],
   "note": ""
  },
  {
   "property": "C108",
   "status": "proved",
   "theorems": [
    "Pytspl.C108_paper",
    "Pytspl.C108_transportation",
    "Pytspl.C108_forex",
    "Pytspl.C108_lastfm",
    "Pytspl.C108_chicago",
    "Pytspl.C108_wsn",
    "Pytspl.C108_sorted_columns",
    "Pytspl.C108_unsorted_counterexample"
   ],
   "note": ""
  },
  {
   "property": "C109",
   "status": "proved",
   "theorems": [
    "Pytspl.C109_failure",
    "Pytspl.C109_outcome",
    "Pytspl.C109_last_success",
    "Pytspl.C109_trend"
   ],
   "note": ""
  },
  {
   "property": "C110",
   "status": "proved",
   "theorems": [
    "Pytspl.C110_statistics"
   ],
   "note": ""
  },
  {
   "property": "C111",
   "status": "proved",
   "theorems": [
    "Pytspl.C111_laplacians_exact",
    "Pytspl.C111_boundary_exact"
   ],
   "note": "Doubles are described by structure Rounding (no overflow); rounding to 53 digits is proved to satisfy it."
  },
  {
   "property": "C112",
   "status": "proved",
   "theorems": [
    "Pytspl.C112_divergence",
    "Pytspl.C112_divergence_simple",
    "Pytspl.C112_curl",
    "Pytspl.C112_integer_flows"
   ],
   "note": "Same description of doubles as C111; curl stated for the stored edge positions as in C16."
  },
  {
   "property": "C113",
   "status": "proved",
   "theorems": [
    "Pytspl.C113_shifting"
   ],
   "note": "Same description of doubles as C111."
  },
  {
   "property": "C114",
   "status": "proved",
   "theorems": [
    "Pytspl.C114_operators",
    "Pytspl.C114_components",
    "Pytspl.C114_unknown_component",
    "Pytspl.C114_embeddings"
   ],
   "note": "Arrays of three or more dimensions are not modelled."
  },
  {
   "property": "C115",
   "status": "proved",
   "theorems": [
    "Pytspl.C115_ordinary",
    "Pytspl.C115_accepted",
    "Pytspl.C115_wrong_flow",
    "Pytspl.C115_constant",
    "Pytspl.C115_column",
    "Pytspl.C115_column_counterexample"
   ],
   "note": "Users would expect a reference of the wrong shape to be rejected; C115_column_counterexample shows it is not (DESIGN.md section 6)."
  },
  {
   "property": "C116",
   "status": "proved",
   "theorems": [
    "Pytspl.C116_densities",
    "Pytspl.C116_best_targets"
   ],
   "note": "gpytorch's metrics are modelled by their documented formulas in exact arithmetic."
  },
  {
   "property": "C117",
   "status": "proved",
   "theorems": [
    "Pytspl.C117_complex",
    "Pytspl.C117_empty",
    "Pytspl.C117_builder"
   ],
   "note": "Programs that change the default arguments are the subject of C104_counterexample."
  },
  {
   "property": "C118",
   "status": "proved",
   "theorems": [
    "Pytspl.C118_type_one",
    "Pytspl.C118_type_two",
    "Pytspl.C118_grid_extraction",
    "Pytspl.C118_grid_denoise",
    "Pytspl.C118_chebyshev",
    "Pytspl.C118_local",
    "Pytspl.C118_shifting",
    "Pytspl.C118_path"
   ],
   "note": ""
  },
  {
   "property": "C119",
   "status": "proved",
   "theorems": [
    "Pytspl.C119_lower",
    "Pytspl.C119_lower_cases",
    "Pytspl.C119_upper",
    "Pytspl.C119_upper_cases",
    "Pytspl.C119_hodge"
   ],
   "note": ""
  },
  {
   "property": "C120",
   "status": "proved",
   "theorems": [
    "Pytspl.C120_tensors",
    "Pytspl.C120_consistent"
   ],
   "note": "The rounding is any function that fixes whole numbers up to 2^24; printing and device placement are not modelled."
  },
  {
   "property": "C121",
   "status": "proved",
   "theorems": [
    "Pytspl.C121_lower",
    "Pytspl.C121_upper",
    "Pytspl.C121_gap",
    "Pytspl.C121_default_tolerance",
    "Pytspl.C121_32_nodes"
   ],
   "note": ""
  },
  {
   "property": "C122",
   "status": "proved",
   "theorems": [
    "Pytspl.C122_gradient",
    "Pytspl.C122_curl",
    "Pytspl.C122_harmonic"
   ],
   "note": "The computed flows are B1.T @ p and B2 @ w for arbitrary p, w, in exact arithmetic."
  },
  {
   "property": "C123",
   "status": "proved",
   "theorems": [
    "Pytspl.C123_gradient",
    "Pytspl.C123_curl",
    "Pytspl.C123_harmonic",
    "Pytspl.C123_million"
   ],
   "note": "Rounding errors of LAPACK are not modelled; C122 bounds the effect of any inaccuracy of the solution."
  },
  {
   "property": "C124",
   "status": "proved",
   "theorems": [
    "Pytspl.C124_gradient",
    "Pytspl.C124_filling",
    "Pytspl.C124_same"
   ],
   "note": ""
  },
  {
   "property": "C125",
   "status": "proved",
   "theorems": [
    "Pytspl.C125_restrict",
    "Pytspl.C125_independent",
    "Pytspl.C125_part"
   ],
   "note": ""
  },
  {
   "property": "C126",
   "status": "proved",
   "theorems": [
    "Pytspl.C126_edges",
    "Pytspl.C126_nodes",
    "Pytspl.C126_no_clipping",
    "Pytspl.C126_network"
   ],
   "note": "The colour map of the nodes is not the one of the colour bar: see C95."
  },
  {
   "property": "C127",
   "status": "proved",
   "theorems": [
    "Pytspl.C127_exact",
    "Pytspl.C127_ok",
    "Pytspl.C127_counts",
    "Pytspl.C127_components",
    "Pytspl.C127_embeddings",
    "Pytspl.C127_nearly_harmonic",
    "Pytspl.C127_32_nodes"
   ],
   "note": ""
  },
  {
   "property": "C128",
   "status": "proved",
   "theorems": [
    "Pytspl.C128_text_id",
    "Pytspl.C128_coordinates",
    "Pytspl.C128_flow_columns",
    "Pytspl.C128_wsn",
    "Pytspl.C128_no_colours",
    "Pytspl.C128_grid_size",
    "Pytspl.C128_least_squares_size"
   ],
   "note": ""
  },
  {
   "property": "C129",
   "status": "proved",
   "theorems": [
    "Pytspl.C129_flows",
    "Pytspl.C129_drawing",
    "Pytspl.C129_eigenvalues",
    "Pytspl.C129_eigenpairs",
    "Pytspl.C129_projector",
    "Pytspl.C129_gp_eigenpairs",
    "Pytspl.C129_kernel",
    "Pytspl.C129_predict",
    "Pytspl.C129_matern",
    "Pytspl.C129_ls_type_two",
    "Pytspl.C129_ls_general",
    "Pytspl.C129_grid",
    "Pytspl.C129_edge_flow",
    "Pytspl.C129_ls_type_one",
    "Pytspl.C129_chebyshev"
   ],
   "note": "The arrays that really depend on the chosen basis (eigenvectors, embeddings themselves, Chebyshev frequency responses and filter errors) are not part of the claim; NumLib.flip_ne shows that correct libraries do differ there."
  },
  {
   "property": "C130",
   "status": "proved",
   "theorems": [
    "Pytspl.C130_gain",
    "Pytspl.C130_gain_edge_flow",
    "Pytspl.C130_noise",
    "Pytspl.C130_components",
    "Pytspl.C130_removed"
   ],
   "note": ""
  },
  {
   "property": "C131",
   "status": "proved",
   "theorems": [
    "Pytspl.C131_ls_type_two",
    "Pytspl.C131_ls_general",
    "Pytspl.C131_grid",
    "Pytspl.C131_edge_flow",
    "Pytspl.C131_plot",
    "Pytspl.C131_ls_type_one",
    "Pytspl.C131_chebyshev"
   ],
   "note": ""
  },
  {
   "property": "C132",
   "status": "proved",
   "theorems": [
    "Pytspl.C132_eigenpairs",
    "Pytspl.C132_kernel",
    "Pytspl.C132_predict",
    "Pytspl.C132_matern"
   ],
   "note": ""
  },
  {
   "property": "C133",
   "status": "partial",
   "theorems": [
    "Pytspl.C133_direction_partial",
    "Pytspl.C133_counterexample"
   ],
   "note": "The full claim is false: C133_counterexample gives two correct solvers with different answers. C133_direction_partial proves that all answers have the same objective and deviate from the noisy flow in the same direction."
  },
  {
   "property": "C134",
   "status": "proved",
   "theorems": [
    "Pytspl.C134_small",
    "Pytspl.C134_small_order_zero",
    "Pytspl.C134_large"
   ],
   "note": ""
  },
  {
   "property": "C135",
   "status": "partial",
   "theorems": [
    "Pytspl.C135_l2",
    "Pytspl.C135_shift_operator",
    "Pytspl.C135_l1_partial"
   ],
   "note": "The l2 part and the shift operators are complete. For the l1 filter equality is false (C133_counterexample), C135_l1_partial proves equal objectives and equal directions."
  },
  {
   "property": "C136",
   "status": "proved",
   "theorems": [
    "Pytspl.C136_text",
    "Pytspl.C136_dimension",
    "Pytspl.C136_same"
   ],
   "note": ""
  },
  {
   "property": "C137",
   "status": "proved",
   "theorems": [
    "Pytspl.C137_l1",
    "Pytspl.C137_l2",
    "Pytspl.C137_interpolation",
    "Pytspl.C137_interpolation_small"
   ],
   "note": ""
  },
  {
   "property": "C138",
   "status": "proved",
   "theorems": [
    "Pytspl.C138_visits",
    "Pytspl.C138_exponential",
    "Pytspl.C138_bound"
   ],
   "note": ""
  },
  {
   "property": "C139",
   "status": "proved",
   "theorems": [
    "Pytspl.C139_fit",
    "Pytspl.C139_gradient",
    "Pytspl.C139_curl"
   ],
   "note": ""
  },
  {
   "property": "C140",
   "status": "proved",
   "theorems": [
    "Pytspl.C140_exact",
    "Pytspl.C140_edge_flow",
    "Pytspl.C140_trend_l2"
   ],
   "note": ""
  },
  {
   "property": "C141",
   "status": "partial",
   "theorems": [
    "Pytspl.C141_loss_partial",
    "Pytspl.C141_mode",
    "Pytspl.C141_other_inputs",
    "Pytspl.C141_refines",
    "Pytspl.C141_after_predict",
    "Pytspl.C141_reset",
    "Pytspl.C141_reset_predict"
   ],
   "note": "The full claim is false: C141_after_predict proves that the first loss after predict is always too small. C141_loss_partial is the claim for a model in training mode, in which every model starts and to which model.train() returns (C141_reset)."
  },
  {
   "property": "C142",
   "status": "proved",
   "theorems": [
    "Pytspl.C142_type_one",
    "Pytspl.C142_type_two",
    "Pytspl.C142_grid_extraction",
    "Pytspl.C142_grid_denoise",
    "Pytspl.C142_edge_flow",
    "Pytspl.C142_trend_l2",
    "Pytspl.C142_chebyshev"
   ],
   "note": ""
  },
  {
   "property": "C143",
   "status": "proved",
   "theorems": [
    "Pytspl.C143_shifting",
    "Pytspl.C143_edge_flow",
    "Pytspl.C143_filters",
    "Pytspl.C143_splits",
    "Pytspl.C143_prior",
    "Pytspl.C143_predict",
    "Pytspl.C143_matern"
   ],
   "note": ""
  },
  {
   "property": "C144",
   "status": "proved",
   "theorems": [
    "Pytspl.C144_counts",
    "Pytspl.C144_tolerances",
    "Pytspl.C144_spectrum",
    "Pytspl.C144_kinds",
    "Pytspl.C144_basis",
    "Pytspl.C144_embeddings",
    "Pytspl.C144_harmonic",
    "Pytspl.C144_integer_tolerance",
    "Pytspl.C144_trainer",
    "Pytspl.C144_masks"
   ],
   "note": ""
  },
  {
   "property": "C145",
   "status": "proved",
   "theorems": [
    "Pytspl.C145_untrained",
    "Pytspl.C145_parameters",
    "Pytspl.C145_reading",
    "Pytspl.C145_predict_noise",
    "Pytspl.C145_other_likelihood",
    "Pytspl.C145_own_likelihood",
    "Pytspl.C145_own_predict",
    "Pytspl.C145_loss",
    "Pytspl.C145_noise_positive"
   ],
   "note": "C145_parameters and C145_untrained are about arbitrary programs from the empty heap; C145_reading, C145_predict_noise, C145_other_likelihood, C145_loss, C145_own_likelihood and C145_own_predict are about one call in an arbitrary heap."
  },
  {
   "property": "C146",
   "status": "partial",
   "theorems": [
    "Pytspl.C146_frame_partial",
    "Pytspl.C146_counterexample"
   ],
   "note": "Partial because the unconditional claim is false (C146_counterexample): two models on one kernel object, training the first changes what the trainer of the second reports."
  },
  {
   "property": "C147",
   "status": "partial",
   "theorems": [
    "Pytspl.C147_graph_partial",
    "Pytspl.C147_triangles_partial",
    "Pytspl.C147_seeded",
    "Pytspl.C147_state",
    "Pytspl.C147_numpy_seed",
    "Pytspl.C147_counterexample"
   ],
   "note": "The full claim fails (C147_counterexample): the weights that decide about the triangles are drawn from Python's unseeded generator. C147_graph_partial, C147_triangles_partial, C147_seeded and C147_state are what holds."
  },
  {
   "property": "C148",
   "status": "proved",
   "theorems": [
    "Pytspl.C148_estimate",
    "Pytspl.C148_complex"
   ],
   "note": ""
  },
  {
   "property": "C149",
   "status": "proved",
   "theorems": [
    "Pytspl.C149_estimate"
   ],
   "note": ""
  },
  {
   "property": "C150",
   "status": "proved",
   "theorems": [
    "Pytspl.C150_sum",
    "Pytspl.C150_round",
    "Pytspl.C150_rounded"
   ],
   "note": ""
  },
  {
   "property": "C151",
   "status": "proved",
   "theorems": [
    "Pytspl.C151_gradient",
    "Pytspl.C151_curl_free",
    "Pytspl.C151_divergence_free",
    "Pytspl.C151_parts"
   ],
   "note": ""
  },
  {
   "property": "C152",
   "status": "partial",
   "theorems": [
    "Pytspl.C152_estimate_partial",
    "Pytspl.C152_alpha_partial",
    "Pytspl.C152_counterexample",
    "Pytspl.C152_triangle"
   ],
   "note": "False in full: C152_counterexample (path with two edges: estimate 1, eigenvalue 3, series evaluated at 5, grid stops at 1). Proved: the estimate is within an explicit distance of the largest eigenvalue whose eigenspace meets the all-ones flow. Missing: that this is the largest eigenvalue of the matrix."
  },
  {
   "property": "C153",
   "status": "proved",
   "theorems": [
    "Pytspl.C153_gradient",
    "Pytspl.C153_curl",
    "Pytspl.C153_harmonic"
   ],
   "note": ""
  },
  {
   "property": "C154",
   "status": "proved",
   "theorems": [
    "Pytspl.C154_components",
    "Pytspl.C154_ls",
    "Pytspl.C154_grid",
    "Pytspl.C154_edge_flow_chebyshev",
    "Pytspl.C154_default_rounding",
    "Pytspl.C154_l2",
    "Pytspl.C154_l1",
    "Pytspl.C154_trainer"
   ],
   "note": ""
  },
  {
   "property": "C155",
   "status": "proved",
   "theorems": [
    "Pytspl.C155_ls",
    "Pytspl.C155_grid",
    "Pytspl.C155_edge_flow_chebyshev",
    "Pytspl.C155_entries",
    "Pytspl.C155_filter"
   ],
   "note": ""
  },
  {
   "property": "C156",
   "status": "proved",
   "theorems": [
    "Pytspl.C156_norm",
    "Pytspl.C156_nrmse",
    "Pytspl.C156_zero",
    "Pytspl.C156_estimate",
    "Pytspl.C156_mean"
   ],
   "note": ""
  },
  {
   "property": "C157",
   "status": "partial",
   "theorems": [
    "Pytspl.C157_ls_partial",
    "Pytspl.C157_grid_partial",
    "Pytspl.C157_sizes",
    "Pytspl.C157_edge_flow",
    "Pytspl.C157_edge_flow_fails",
    "Pytspl.C157_chebyshev_partial",
    "Pytspl.C157_l2_partial",
    "Pytspl.C157_l1_partial",
    "Pytspl.C157_interpolation",
    "Pytspl.C157_last",
    "Pytspl.C157_counterexample"
   ],
   "note": "The full statement is false (C157_sizes, C157_counterexample): the printed filter sizes are too small, the SNR is a ratio labelled dB, and the l2 filter's noisy error is divided by the number of settings from this one on. Proved: every line carries the recorded errors and correlations of its setting; the edge-flow and interpolation lines are right in full; lines stay when a later mu fails."
  },
  {
   "property": "C158",
   "status": "proved",
   "theorems": [
    "Pytspl.C158_ls",
    "Pytspl.C158_grid"
   ],
   "note": ""
  },
  {
   "property": "C159",
   "status": "proved",
   "theorems": [
    "Pytspl.C159_best",
    "Pytspl.C159_responses",
    "Pytspl.C159_returns",
    "Pytspl.C159_triangle"
   ],
   "note": ""
  },
  {
   "property": "C160",
   "status": "proved",
   "theorems": [
    "Pytspl.C160_prior",
    "Pytspl.C160_posterior",
    "Pytspl.C160_parameters",
    "Pytspl.C160_one_edge",
    "Pytspl.C160_triangle_edge"
   ],
   "note": ""
  },
  {
   "property": "C161",
   "status": "proved",
   "theorems": [
    "Pytspl.C161_diffusion_non_hc",
    "Pytspl.C161_matern_non_hc",
    "Pytspl.C161_matern_integer",
    "Pytspl.C161_diffusion",
    "Pytspl.C161_laplacian"
   ],
   "note": ""
  },
  {
   "property": "C162",
   "status": "proved",
   "theorems": [
    "Pytspl.C162_read_csv",
    "Pytspl.C162_one_way_counterexample",
    "Pytspl.C162_read_tntp",
    "Pytspl.C162_layouts",
    "Pytspl.C162_any_condition",
    "Pytspl.C162_dataset",
    "Pytspl.C162_matrix_dataset"
   ],
   "note": ""
  },
  {
   "property": "C163",
   "status": "partial",
   "theorems": [
    "Pytspl.C163_response_error_partial",
    "Pytspl.C163_counterexample",
    "Pytspl.C163_exact_filter"
   ],
   "note": "The full statement is false (C163_counterexample, C163_exact_filter): with the upper Laplacian the gains and the ideal response are listed in different orders. Proved: with the Hodge Laplacian, or with the lower one and no triangles, the printed number is the relative Frobenius distance from the ideal filter."
  },
  {
   "property": "C164",
   "status": "partial",
   "theorems": [
    "Pytspl.C164_gain",
    "Pytspl.C164_harmonic_lost",
    "Pytspl.C164_counterexample",
    "Pytspl.C164_moderate_partial"
   ],
   "note": "False in full: with numpy's default rcond the harmonic filter of any size from 64 on loses 99.9% of every harmonic flow, on every complex (C164_counterexample, C164_harmonic_lost, C164_gain). Proved: the explicit error bound for moderate sizes."
  },
  {
   "property": "C165",
   "status": "proved",
   "theorems": [
    "Pytspl.C165_energy",
    "Pytspl.C165_energy_complete",
    "Pytspl.C165_hodge",
    "Pytspl.C165_hodge_complete",
    "Pytspl.C165_degree",
    "Pytspl.C165_triangles",
    "Pytspl.C165_hodge_degree",
    "Pytspl.C165_sum",
    "Pytspl.C165_largest"
   ],
   "note": ""
  },
  {
   "property": "C166",
   "status": "proved",
   "theorems": [
    "Pytspl.C166_denoise",
    "Pytspl.C166_geometric",
    "Pytspl.C166_extraction"
   ],
   "note": ""
  },
  {
   "property": "C167",
   "status": "partial",
   "theorems": [
    "Pytspl.C167_lost",
    "Pytspl.C167_counterexample",
    "Pytspl.C167_moderate_partial"
   ],
   "note": "False in full (C167_counterexample). Proved instead: a bound of the distance to edge-flow denoising with the cut-off included, useful while the powers of the estimate are moderate."
  },
  {
   "property": "C168",
   "status": "proved",
   "theorems": [
    "Pytspl.C168_denoising",
    "Pytspl.C168_every_strength"
   ],
   "note": ""
  },
  {
   "property": "C169",
   "status": "proved",
   "theorems": [
    "Pytspl.C169_residual",
    "Pytspl.C169_matern",
    "Pytspl.C169_diffusion",
    "Pytspl.C169_more_noise"
   ],
   "note": ""
  },
  {
   "property": "C170",
   "status": "proved",
   "theorems": [
    "Pytspl.C170_closed_walks",
    "Pytspl.C170_cuts",
    "Pytspl.C170_complete"
   ],
   "note": ""
  },
  {
   "property": "C171",
   "status": "proved",
   "theorems": [
    "Pytspl.C171_mean_error",
    "Pytspl.C171_helps",
    "Pytspl.C171_recorded",
    "Pytspl.C171_too_much",
    "Pytspl.C171_trend"
   ],
   "note": ""
  },
  {
   "property": "C172",
   "status": "partial",
   "theorems": [
    "Pytspl.C172_ratio_partial",
    "Pytspl.C172_counterexample"
   ],
   "note": "The full claim is false (C172_counterexample): with at least two edges and dB >= 0 the flows are less noisy than requested by at least the factor E. C172_ratio_partial gives the actual ratio for both denoising functions and says exactly when it is the requested one."
  },
  {
   "property": "C173",
   "status": "proved",
   "theorems": [
    "Pytspl.C173_split",
    "Pytspl.C173_gradient_flow"
   ],
   "note": ""
  },
  {
   "property": "C174",
   "status": "partial",
   "theorems": [
    "Pytspl.C174_recovery_partial",
    "Pytspl.C174_blind",
    "Pytspl.C174_forest",
    "Pytspl.C174_counterexample"
   ],
   "note": "The property is false for the default weight (C174_counterexample); proved for every weight above a threshold that depends on the complex, component and order only (C174_recovery_partial), with the graph-theoretic condition (C174_forest) and the flows no weight recovers (C174_blind)."
  },
  {
   "property": "C175",
   "status": "partial",
   "theorems": [
    "Pytspl.C175_samples",
    "Pytspl.C175_leak_partial",
    "Pytspl.C175_general",
    "Pytspl.C175_counterexample"
   ],
   "note": "False as stated: the logistic response at frequency zero is 1/(1+exp(steep*cut_off)), which is 1/(1+e), about 0.27, with the defaults, and a filter with as many coefficients as samples reproduces it exactly. C175_counterexample exhibits a harmonic flow returned with non-zero gradient and curl components and less than half of its harmonic one. C175_leak_partial proves the exact factor and that it is at most exp(-steep*cut_off)."
  },
  {
   "property": "C176",
   "status": "partial",
   "theorems": [
    "Pytspl.C176_ideal_partial",
    "Pytspl.C176_shared",
    "Pytspl.C176_counterexample"
   ],
   "note": "False as stated: where a gradient and a curl flow share a non-zero frequency (already on a filled triangle) the mask selects some of the eigenvectors of that eigenspace, and which flows these are is up to the eigensolver; C176_shared exhibits a gradient flow that the ideal gradient filter keeps with one correct library and removes with another. C176_ideal_partial proves the claim for the harmonic filter always and for the others when no frequency is shared."
  },
  {
   "property": "C177",
   "status": "proved",
   "theorems": [
    "Pytspl.C177_least_squares",
    "Pytspl.C177_grid",
    "Pytspl.C177_exact_gradient"
   ],
   "note": ""
  },
  {
   "property": "C178",
   "status": "proved",
   "theorems": [
    "Pytspl.C178_calibrated",
    "Pytspl.C178_metrics"
   ],
   "note": ""
  },
  {
   "property": "C179",
   "status": "proved",
   "theorems": [
    "Pytspl.C179_laplacian",
    "Pytspl.C179_dimension",
    "Pytspl.C179_type_one",
    "Pytspl.C179_denoise",
    "Pytspl.C179_polynomial",
    "Pytspl.C179_grid",
    "Pytspl.C179_regression"
   ],
   "note": ""
  },
  {
   "property": "C180",
   "status": "proved",
   "theorems": [
    "Pytspl.C180_shares",
    "Pytspl.C180_total",
    "Pytspl.C180_shared"
   ],
   "note": ""
  },
  {
   "property": "C181",
   "status": "proved",
   "theorems": [
    "Pytspl.C181_components",
    "Pytspl.C181_harmonic_space",
    "Pytspl.C181_frequencies",
    "Pytspl.C181_spectrum",
    "Pytspl.C181_gap",
    "Pytspl.C181_default",
    "Pytspl.C181_tolerance"
   ],
   "note": ""
  },
  {
   "property": "C182",
   "status": "proved",
   "theorems": [
    "Pytspl.C182_components",
    "Pytspl.C182_harmonic_space",
    "Pytspl.C182_frequencies",
    "Pytspl.C182_spectrum",
    "Pytspl.C182_gap",
    "Pytspl.C182_default",
    "Pytspl.C182_tolerance"
   ],
   "note": ""
  },
  {
   "property": "C183",
   "status": "proved",
   "theorems": [
    "Pytspl.C183_harmonic",
    "Pytspl.C183_others",
    "Pytspl.C183_chain"
   ],
   "note": ""
  },
  {
   "property": "C184",
   "status": "proved",
   "theorems": [
    "Pytspl.C184_enough",
    "Pytspl.C184_needed"
   ],
   "note": ""
  },
  {
   "property": "C185",
   "status": "proved",
   "theorems": [
    "Pytspl.C185_bound",
    "Pytspl.C185_attained",
    "Pytspl.C185_gap",
    "Pytspl.C185_default_tolerance",
    "Pytspl.C185_hollow",
    "Pytspl.C185_99_nodes",
    "Pytspl.C185_100_nodes"
   ],
   "note": ""
  },
  {
   "property": "C186",
   "status": "proved",
   "theorems": [
    "Pytspl.C186_gradient",
    "Pytspl.C186_best",
    "Pytspl.C186_98_nodes",
    "Pytspl.C186_embeddings"
   ],
   "note": ""
  },
  {
   "property": "C187",
   "status": "proved",
   "theorems": [
    "Pytspl.C187_at_most",
    "Pytspl.C187_at_least",
    "Pytspl.C187_chain"
   ],
   "note": ""
  },
  {
   "property": "C188",
   "status": "proved",
   "theorems": [
    "Pytspl.C188_distinct",
    "Pytspl.C188_type_two",
    "Pytspl.C188_forest",
    "Pytspl.C188_type_one"
   ],
   "note": ""
  },
  {
   "property": "C189",
   "status": "proved",
   "theorems": [
    "Pytspl.C189_at_most",
    "Pytspl.C189_at_least"
   ],
   "note": ""
  },
  {
   "property": "C190",
   "status": "proved",
   "theorems": [
    "Pytspl.C190_diameter",
    "Pytspl.C190_nodes",
    "Pytspl.C190_best",
    "Pytspl.C190_default_weight"
   ],
   "note": ""
  },
  {
   "property": "C191",
   "status": "proved",
   "theorems": [
    "Pytspl.C191_depth",
    "Pytspl.C191_apart",
    "Pytspl.C191_best",
    "Pytspl.C191_default_weight"
   ],
   "note": ""
  },
  {
   "property": "C192",
   "status": "proved",
   "theorems": [
    "Pytspl.C192_best",
    "Pytspl.C192_default_weight"
   ],
   "note": ""
  },
  {
   "property": "C193",
   "status": "proved",
   "theorems": [
    "Pytspl.C193_recovered",
    "Pytspl.C193_lost",
    "Pytspl.C193_ring"
   ],
   "note": ""
  },
  {
   "property": "C194",
   "status": "proved",
   "theorems": [
    "Pytspl.C194_nested",
    "Pytspl.C194_same"
   ],
   "note": ""
  },
  {
   "property": "C195",
   "status": "proved",
   "theorems": [
    "Pytspl.C195_share"
   ],
   "note": ""
  }
 ]
}
