{
 "claims": [
  {
   "property": "C21",
   "status": "proved",
   "theorems": [
    "GSplines.Props.C21_legendre_eval",
    "GSplines.Props.C21_legendre_eval_small"
   ],
   "note": "All dimensions >= 2; dimension < 2 is undefined behaviour in the code and modelled as such."
  },
  {
   "property": "C22",
   "status": "proved",
   "theorems": [
    "GSplines.Props.C22_legendre_derivatives",
    "GSplines.Props.C22_legendre_time_derivatives",
    "GSplines.Props.C22_legendre_derivative_wrt_tau",
    "GSplines.Props.C22_legendre_derivatives_out_of_range"
   ],
   "note": ""
  },
  {
   "property": "C23",
   "status": "proved",
   "theorems": [
    "GSplines.Props.C23_legendre_derivative_matrix",
    "GSplines.Props.C23_legendre_derivative_matrix_rows"
   ],
   "note": ""
  },
  {
   "property": "C24",
   "status": "partial",
   "theorems": [
    "GSplines.Props.C24_legendre_sobolev_partial",
    "GSplines.Props.C24_legendre_sobolev_false",
    "GSplines.Props.C24_legendre_sobolev_intended"
   ],
   "note": "The code violates the property for every order 1 <= d < dim (D L D^T instead of D^T L D): refuted for all such orders; proved for d = 0 and d >= dim."
  },
  {
   "property": "C26",
   "status": "proved",
   "theorems": [
    "GSplines.Props.C26_lagrange_eval",
    "GSplines.Props.C26_lagrange_eval_node",
    "GSplines.Props.C26_lagrange_eval_near_node",
    "GSplines.Props.C26_lagrange_sum_one",
    "GSplines.Props.C26_lagrange_reproduces"
   ],
   "note": "Nodes are distinct (distinguishable by the code's 1e-9 comparison where the node snap matters); points within 1e-9 of a node get the node's unit vector, stated separately."
  },
  {
   "property": "C27",
   "status": "proved",
   "theorems": [
    "GSplines.Props.C27_lagrange_derivative_matrix",
    "GSplines.Props.C27_lagrange_derivative_matrix_action",
    "GSplines.Props.C27_lagrange_eval_derivative",
    "GSplines.Props.C27_lagrange_eval_derivative_wrt_tau"
   ],
   "note": ""
  },
  {
   "property": "C28",
   "status": "partial",
   "theorems": [
    "GSplines.Props.C28_change_points_partial",
    "GSplines.Props.C28_change_points_false"
   ],
   "note": "The code violates the property: once a new point coincides with an old one, later rows that match no old point are zero (the flag is not reset). Refuted in general; the other rows are proved."
  },
  {
   "property": "C56",
   "status": "partial",
   "theorems": [
    "GSplines.Props.C56_lagrange_sobolev_partial",
    "GSplines.Props.C56_lagrange_sobolev_false",
    "GSplines.Props.C56_zero_memory_false",
    "GSplines.Props.C56_lagrange_sobolev_iff"
   ],
   "note": "The code violates the property (diagonal quadrature matrix with uninitialised off-diagonal entries, D L D^T). Exact extent: with two or more nodes it holds exactly for orders d >= number of nodes; for the orders 1 <= d < n it fails for all nodes even if the memory contains zeros."
  },
  {
   "property": "C29",
   "status": "proved",
   "theorems": [
    "GSplines.Props.C29_basis0101_eval",
    "GSplines.Props.C29_basis0101_derivatives",
    "GSplines.Props.C29_basis0101_derivative_wrt_tau"
   ],
   "note": "For parameters 0 <= alpha < 1 (outside the code takes roots of negative numbers)."
  },
  {
   "property": "C30",
   "status": "partial",
   "theorems": [
    "GSplines.Props.C30_basis0101_derivative_matrix_partial",
    "GSplines.Props.C30_basis0101_derivative_matrix_false",
    "GSplines.Props.C30_basis0101_derivative_matrix_iff"
   ],
   "note": "The code violates the property (repeated squaring). The exact extent is proved: the matrix of order d is right if and only if d <= 2, or alpha = 1/2 and 8 divides d (a coincidence)."
  },
  {
   "property": "C31",
   "status": "partial",
   "theorems": [
    "GSplines.Props.C31_basis0101_sobolev_partial",
    "GSplines.Props.C31_basis0101_sobolev_order_two",
    "GSplines.Props.C31_basis0101_sobolev_false",
    "GSplines.Props.C25_basis0101_sobolev_dtau"
   ],
   "note": "The code violates the property for order 2 (extra factor tau^2/4): refuted for every tau other than 2; the other orders, the throws and the tau derivatives are proved."
  },
  {
   "property": "C25",
   "status": "proved",
   "theorems": [
    "GSplines.Props.C25_legendre_sobolev_dtau",
    "GSplines.Props.C25_lagrange_sobolev_dtau",
    "GSplines.Props.C25_basis0101_sobolev_dtau"
   ],
   "note": "All orders for Legendre and Lagrange; for Basis0101 orders 1 and 3, the others throw."
  },
  {
   "property": "C32",
   "status": "proved",
   "theorems": [
    "GSplines.Props.C32_cache"
   ],
   "note": "All histories of requests, copies and moves of the per-object derivative matrix cache."
  },
  {
   "property": "C33",
   "status": "partial",
   "theorems": [
    "GSplines.Props.C33_continuity_matrix_history",
    "GSplines.Props.C33_continuity_matrix_lagrange_rows_exact",
    "GSplines.Props.C33_continuity_matrix_lagrange_partial",
    "GSplines.Props.C33_continuity_matrix_lagrange_rows_partial",
    "GSplines.Props.C33_continuity_matrix_lagrange_order_zero_partial",
    "GSplines.Props.C33_continuity_matrix_two_nodes_partial",
    "GSplines.Props.C33_continuity_matrix_lagrange_false",
    "GSplines.Props.C33_continuity_matrix_legendre_partial",
    "GSplines.Props.C33_continuity_matrix_legendre_false",
    "GSplines.Props.C33_continuity_matrix_basis0101_iff",
    "GSplines.Props.C33_continuity_matrix_basis0101_false"
   ],
   "note": "History independence for every basis. What the rows are is stated exactly for every Lagrange basis. The criterion holds for Lagrange bases with end nodes -1 and 1 (all orders), for two nodes anywhere, for every Lagrange basis and for Legendre at order 0. It is refuted for the other Lagrange bases with nodes in the window and for Legendre at every order >= 1, and for Basis0101 it holds if and only if the order is 0 and all lengths are 2."
  },
  {
   "property": "C34",
   "status": "proved",
   "theorems": [
    "GSplines.Props.C34_derivative_matrix",
    "GSplines.Props.C34_derivative_matrix_history",
    "GSplines.Props.C34_basis0101_extra_factor"
   ],
   "note": "Polynomial bases, as the property says; the extra factor for Basis0101 is recorded in C34_basis0101_extra_factor."
  },
  {
   "property": "C35",
   "status": "proved",
   "theorems": [
    "GSplines.Props.C35_get_basis",
    "GSplines.Props.C35_get_basis_round_trip"
   ],
   "note": ""
  },
  {
   "property": "C36",
   "status": "proved",
   "theorems": [
    "GSplines.Props.C36_basis_eq_refl",
    "GSplines.Props.C36_basis_eq_symm",
    "GSplines.Props.C36_basis_eq_sound",
    "GSplines.Props.C36_basis_eq_kinds"
   ],
   "note": ""
  },
  {
   "property": "C11",
   "status": "proved",
   "theorems": [
    "GSplines.Props.C11_interval",
    "GSplines.Props.C11_interval_unique"
   ],
   "note": ""
  },
  {
   "property": "C12",
   "status": "proved",
   "theorems": [
    "GSplines.Props.C12_value",
    "GSplines.Props.C12_value_near_node",
    "GSplines.Props.C12_curve"
   ],
   "note": "Points within 1e-9 of a Lagrange node, where the code returns the node value, are treated in C12_value_near_node."
  },
  {
   "property": "C13",
   "status": "partial",
   "theorems": [
    "GSplines.Props.C13_constructor",
    "GSplines.Props.C13_no_out_of_bounds_partial",
    "GSplines.Props.C13_no_out_of_bounds_false",
    "GSplines.Props.C13_no_intervals_false"
   ],
   "note": "The size check is characterised exactly. Evaluation is total when the number of intervals is the number of lengths and positive; refuted otherwise (the constructor does not check it)."
  },
  {
   "property": "C14",
   "status": "partial",
   "theorems": [
    "GSplines.Props.C14_derivative_partial",
    "GSplines.Props.C14_derivative_of_values_partial",
    "GSplines.Props.C14_derivative_basis0101_false",
    "GSplines.Props.C14_derivative_basis0101_iff"
   ],
   "note": "All orders for Legendre and Lagrange. For Basis0101 the exact extent is proved: deriv(n) is right for all splines if and only if n <= 2, or alpha = 1/2 and 8 divides n."
  },
  {
   "property": "C15",
   "status": "partial",
   "theorems": [
    "GSplines.Props.C15_same_vector_space_sound",
    "GSplines.Props.C15_same_vector_space_complete",
    "GSplines.Props.C15_incompatible",
    "GSplines.Props.C15_throws_iff",
    "GSplines.Props.C15_pointwise_partial",
    "GSplines.Props.C15_scalar",
    "GSplines.Props.C15_neg",
    "GSplines.Props.C15_pointwise_false"
   ],
   "note": "Pointwise for splines with the same start, basis, and lengths; refuted for splines that start at different instants, which the check accepts."
  },
  {
   "property": "C16",
   "status": "proved",
   "theorems": [
    "GSplines.Props.C16_linear_scaling",
    "GSplines.Props.C16_linear_scaling_end"
   ],
   "note": ""
  },
  {
   "property": "C17",
   "status": "partial",
   "theorems": [
    "GSplines.Props.C17_arguments",
    "GSplines.Props.C17_samples",
    "GSplines.Props.C17_bounds_partial",
    "GSplines.Props.C17_missing_bound_false",
    "GSplines.Props.C17_still_false"
   ],
   "note": "With both bounds and a spline that moves; refuted for a missing bound (bad_optional_access) and for a spline standing still at the samples (zero duration)."
  },
  {
   "property": "C18",
   "status": "proved",
   "theorems": [
    "GSplines.Props.C18_breakpoints",
    "GSplines.Props.C18_breakpoints_lengths",
    "GSplines.Props.C18_waypoints"
   ],
   "note": ""
  },
  {
   "property": "C19",
   "status": "proved",
   "theorems": [
    "GSplines.Props.C19_approx_equal_refl",
    "GSplines.Props.C19_approx_equal_symm",
    "GSplines.Props.C19_approx_equal_bound",
    "GSplines.Props.C19_approx_equal_accepts",
    "GSplines.Props.C19_approx_equal_matrix_accepts",
    "GSplines.Props.C19_approx_zero",
    "GSplines.Props.C19_approx_equal_separates",
    "GSplines.Props.C19_approx_equal_matrix_refl",
    "GSplines.Props.C19_approx_equal_matrix_symm",
    "GSplines.Props.C19_approx_equal_matrix_bound",
    "GSplines.Props.C19_history_independent",
    "GSplines.Props.C19_approx_equal_gspline_refl",
    "GSplines.Props.C19_approx_equal_gspline_symm",
    "GSplines.Props.C19_gspline_eq"
   ],
   "note": ""
  },
  {
   "property": "C20",
   "status": "partial",
   "theorems": [
    "GSplines.Props.C20_eq_sound",
    "GSplines.Props.C20_eq_close_partial",
    "GSplines.Props.C20_eq_domain_false",
    "GSplines.Props.C20_eq_jump_false"
   ],
   "note": "Quantitative closeness for equal start, basis and lengths; the start of the domain is not compared, which refutes the full claim; and with lengths that differ by 1e-8 two splines that compare equal differ by any amount near a jump."
  },
  {
   "property": "C01",
   "status": "proved",
   "theorems": [
    "GSplines.Props.C01_sum"
   ],
   "note": ""
  },
  {
   "property": "C02",
   "status": "partial",
   "theorems": [
    "GSplines.Props.C02_neg_partial",
    "GSplines.Props.C02_sub_partial",
    "GSplines.Props.C02_neg_false",
    "GSplines.Props.C02_neg_sum_false",
    "GSplines.Props.C02_neg_neg_false"
   ],
   "note": "Proved for operands that are plain functions or wrap one; refuted for minus of a sum, product, composition, concatenation or negation."
  },
  {
   "property": "C03",
   "status": "proved",
   "theorems": [
    "GSplines.Props.C03_product",
    "GSplines.Props.C03_scalar"
   ],
   "note": ""
  },
  {
   "property": "C04",
   "status": "partial",
   "theorems": [
    "GSplines.Props.C04_compose_partial",
    "GSplines.Props.C04_domain_false"
   ],
   "note": "Everything except the domain for one overload (rvalue composition composed with an lvalue), where the claim is refuted."
  },
  {
   "property": "C05",
   "status": "partial",
   "theorems": [
    "GSplines.Props.C05_throws",
    "GSplines.Props.C05_concat_partial",
    "GSplines.Props.C05_chain",
    "GSplines.Props.C05_domain_false",
    "GSplines.Props.C05_gap_throws"
   ],
   "note": "Values for all overloads; the domain is wrong for rvalue concatenations (refuted)."
  },
  {
   "property": "C09",
   "status": "proved",
   "theorems": [
    "GSplines.Props.C09_history",
    "GSplines.Props.C09_add_unchecked",
    "GSplines.Props.C09_mul_unchecked"
   ],
   "note": ""
  },
  {
   "property": "C10",
   "status": "proved",
   "theorems": [
    "GSplines.Props.C10_row_wise",
    "GSplines.Props.C10_shape"
   ],
   "note": ""
  },
  {
   "property": "C06",
   "status": "partial",
   "theorems": [
    "GSplines.Props.C06_derivative_partial",
    "GSplines.Props.C06_value",
    "GSplines.Props.C06_derivative_le_two",
    "GSplines.Props.C06_derivate_partial",
    "GSplines.Props.C06_repeated",
    "GSplines.Props.C06_repeated_step",
    "GSplines.Props.C06_order_by_order",
    "GSplines.Props.C06_product_rule",
    "GSplines.Props.C06_smooth",
    "GSplines.Props.C06_basis0101_false"
   ],
   "note": "All expressions built by the interface from operands that fit, all orders; deriv(n) with n >= 3 that reaches a Basis0101 spline directly is wrong in the code (proved). Repeated first derivatives are right for every basis."
  },
  {
   "property": "C07",
   "status": "proved",
   "theorems": [
    "GSplines.Props.C07_const",
    "GSplines.Props.C07_dilation",
    "GSplines.Props.C07_identity",
    "GSplines.Props.C07_exp",
    "GSplines.Props.C07_cos",
    "GSplines.Props.C07_sin",
    "GSplines.Props.C07_polynomial",
    "GSplines.Props.C07_values"
   ],
   "note": "All orders, points, constants, factors and coefficient lists."
  },
  {
   "property": "C08",
   "status": "proved",
   "theorems": [
    "GSplines.Props.C08_dot_value",
    "GSplines.Props.C08_dot_derivative",
    "GSplines.Props.C08_dot_derivative_iff"
   ],
   "note": "Value for any points; n-th derivative at smooth points for every n; derivation succeeds iff the domains agree within 1e-9."
  },
  {
   "property": "C37",
   "status": "proved",
   "theorems": [
    "GSplines.Props.C37_interpolate",
    "GSplines.Props.C57_always_interpolates"
   ],
   "note": "The sparse LU solver is a parameter: it is assumed that solutions it reports solve the system."
  },
  {
   "property": "C38",
   "status": "proved",
   "theorems": [
    "GSplines.Props.C38_rows",
    "GSplines.Props.C38_system"
   ],
   "note": ""
  },
  {
   "property": "C39",
   "status": "proved",
   "theorems": [
    "GSplines.Props.C39_coefficient_derivative",
    "GSplines.Props.C39_bad_index"
   ],
   "note": "For every history of the object; the solver is assumed to succeed on invertible matrices. C39_bad_index: an index out of range silently returns the previous result."
  },
  {
   "property": "C40",
   "status": "partial",
   "theorems": [
    "GSplines.Props.C40_odd_dimension",
    "GSplines.Props.C40_guards",
    "GSplines.Props.C40_guard_derivative",
    "GSplines.Props.C40_failure_returns_previous",
    "GSplines.Props.C40_first_failure",
    "GSplines.Props.C40_never_stale_partial",
    "GSplines.Props.C40_stale_false"
   ],
   "note": "The guards are proved. The clause on failed factorisations is refuted (C40_stale_false); it holds when the solver succeeds on every invertible matrix."
  },
  {
   "property": "C57",
   "status": "proved",
   "theorems": [
    "GSplines.Props.C57_pw_polynomial",
    "GSplines.Props.C57_unique_solution",
    "GSplines.Props.C57_always_interpolates",
    "GSplines.Props.C57_interpolate_function"
   ],
   "note": ""
  },
  {
   "property": "C44",
   "status": "proved",
   "theorems": [
    "GSplines.Props.C44_q_and_evaluation",
    "GSplines.Props.C44_q_derivative",
    "GSplines.Props.C44_small"
   ],
   "note": "n < 2 reads an unassigned variable (C44_small)."
  },
  {
   "property": "C45",
   "status": "proved",
   "theorems": [
    "GSplines.Props.C45_returns",
    "GSplines.Props.C45_points_weights",
    "GSplines.Props.C45_order",
    "GSplines.Props.C45_accuracy",
    "GSplines.Props.C45_initialised",
    "GSplines.Props.C45_newton"
   ],
   "note": "For every n >= 2 and in exact arithmetic. Convergence of Newton's method is proved for every point (a phase function of the Legendre polynomials bounds the iterates)."
  },
  {
   "property": "C46",
   "status": "partial",
   "theorems": [
    "GSplines.Props.C46_uniform_points",
    "GSplines.Props.C46_uniform_weights",
    "GSplines.Props.C46_lengths_weights",
    "GSplines.Props.C46_uniform_weights_sum",
    "GSplines.Props.C46_lengths_weights_sum",
    "GSplines.Props.C46_lengths_points_partial",
    "GSplines.Props.C46_lengths_points_false"
   ],
   "note": "Uniform grids and all weights are proved. The points of grids with different lengths are refuted (C46_lengths_points_false); they are right where iv times the length is the sum of the lengths before."
  },
  {
   "property": "C41",
   "status": "partial",
   "theorems": [
    "GSplines.Props.C41_effective_weights",
    "GSplines.Props.C41_sobolev_norm_partial",
    "GSplines.Props.C41_two_weights_false",
    "GSplines.Props.C41_legendre_false",
    "GSplines.Props.C41_basis0101_refuses"
   ],
   "note": "Proved for lists whose weights after the first are one and orders whose Sobolev matrix is right; refuted for general lists and for the orders 1..dim-1 of Legendre bases. C41_effective_weights says exactly which weights the code applies."
  },
  {
   "property": "C42",
   "status": "partial",
   "theorems": [
    "GSplines.Props.C42_gradient_partial",
    "GSplines.Props.C42_basis0101_refuses",
    "GSplines.Props.C42_memory_false"
   ],
   "note": "All bases, orders and histories, except Basis0101 with orders 0 and 2 (throws) and Lagrange bases with unsymmetric unassigned memory, for which the property is false (C42_memory_false)."
  },
  {
   "property": "C43",
   "status": "proved",
   "theorems": [
    "GSplines.Props.C43_integral",
    "GSplines.Props.C43_sum",
    "GSplines.Props.C43_scalar",
    "GSplines.Props.C43_pieces",
    "GSplines.Props.C43_semi_inner_product",
    "GSplines.Props.C43_semi_inner_product_smooth",
    "GSplines.Props.C43_semi_inner_codim",
    "GSplines.Props.C43_symmetric",
    "GSplines.Props.C43_symmetric_domain",
    "GSplines.Props.C43_inner_add",
    "GSplines.Props.C43_inner_smul",
    "GSplines.Props.C43_inner_linear_right",
    "GSplines.Props.C43_norms",
    "GSplines.Props.C43_norm_nonneg"
   ],
   "note": "At all points, including breaks of splines and concatenations. Symmetry is about functions with one domain: otherwise the domain of the first function is used (C43_symmetric_domain)."
  },
  {
   "property": "C47",
   "status": "partial",
   "theorems": [
    "GSplines.Props.C47_approximate",
    "GSplines.Props.C47_value_at",
    "GSplines.Props.C47_value_at_range",
    "GSplines.Props.C47_interpolates",
    "GSplines.Props.C47_collocation",
    "GSplines.Props.C47_polynomial_partial",
    "GSplines.Props.C47_near_node",
    "GSplines.Props.C47_polynomial_close",
    "GSplines.Props.C47_constructor_false"
   ],
   "note": "approximate and value_at for every function, size and domain. Polynomial reproduction (C47_polynomial_partial) at points that are not within 1e-9 of a node in the local window; near a node the nodal value is returned (C47_near_node), within 1e-9\u00b7L\u00b7h/2 of the function (C47_polynomial_close). The constructor from a function swaps its arguments (C47_constructor_false)."
  },
  {
   "property": "C48",
   "status": "partial",
   "theorems": [
    "GSplines.Props.C48_product",
    "GSplines.Props.C48_product_values",
    "GSplines.Props.C48_scalar",
    "GSplines.Props.C48_neg",
    "GSplines.Props.C48_add_vector",
    "GSplines.Props.C48_vector_sub",
    "GSplines.Props.C48_sub_vector",
    "GSplines.Props.C48_divide",
    "GSplines.Props.C48_pow",
    "GSplines.Props.C48_norm",
    "GSplines.Props.C48_sum_partial",
    "GSplines.Props.C48_sum_domain_false",
    "GSplines.Props.C48_product_lengths_false"
   ],
   "note": "All operations and overloads nodewise, with the exact conditions of the exceptions. Refuted: sums do not compare domains, products do not compare interval lengths."
  },
  {
   "property": "C58",
   "status": "partial",
   "theorems": [
    "GSplines.Props.C58_assign_function",
    "GSplines.Props.C58_assign_function_codim",
    "GSplines.Props.C58_assign",
    "GSplines.Props.C58_assign_partial",
    "GSplines.Props.C58_assign_lengths_false",
    "GSplines.Props.C58_set_from_array_partial",
    "GSplines.Props.C58_set_from_array_false"
   ],
   "note": "Assignment of functions proved in full. Assignment of splines proved for equal interval lengths and refuted otherwise; set_from_array proved for vectors of the right size and refuted otherwise."
  },
  {
   "property": "C49",
   "status": "partial",
   "theorems": [
    "GSplines.Props.C49_derivative",
    "GSplines.Props.C49_derivative_curves",
    "GSplines.Props.C49_derivative_of_spline",
    "GSplines.Props.C49_derivative_of_domain",
    "GSplines.Props.C49_integral",
    "GSplines.Props.C49_integral_of_function",
    "GSplines.Props.C49_integral_update_lengths_false",
    "GSplines.Props.C49_integral_lengths_false",
    "GSplines.Props.C49_transpose",
    "GSplines.Props.C49_transpose_assign",
    "GSplines.Props.C49_matrix",
    "GSplines.Props.C49_matrix_update",
    "GSplines.Props.C49_matrix_all_partial",
    "GSplines.Props.C49_matrix_all_tall_false",
    "GSplines.Props.C49_matrix_all_wide_false",
    "GSplines.Props.C49_matrix_all_false"
   ],
   "note": "Derivative, transpose and per-node matrix functionals for all sizes and all histories of updates. Integral for equal lengths; Integral::update(lengths) always throws and Integral(spline) ignores lengths (refuted). MatrixLeftMultiplication::update(matrix) applies the transposed matrix, leaves the other rows as they were if there are more rows than columns and reads out of bounds if there are fewer (refuted; right for symmetric matrices)."
  },
  {
   "property": "C50",
   "status": "partial",
   "theorems": [
    "GSplines.Props.C50_value",
    "GSplines.Props.C50_differential",
    "GSplines.Props.C50_constructor",
    "GSplines.Props.C50_differential_shared_false",
    "GSplines.Props.C50_order_ignored"
   ],
   "note": "Value and differential for every function, size, spline and direction; a differential that is kept is overwritten by the next call (refuted), and the requested order of derivatives is not used."
  },
  {
   "property": "C59",
   "status": "proved",
   "theorems": [
    "GSplines.Props.C59_compose",
    "GSplines.Props.C59_linear"
   ],
   "note": ""
  },
  {
   "property": "C51",
   "status": "proved",
   "theorems": [
    "GSplines.Props.C51_options"
   ],
   "note": ""
  },
  {
   "property": "C52",
   "status": "partial",
   "theorems": [
    "GSplines.Props.C52_one_interval",
    "GSplines.Props.C52_optimal",
    "GSplines.Props.C52_success_false",
    "GSplines.Props.C52_named",
    "GSplines.Props.C55_rojas_path"
   ],
   "note": "For every behaviour of the external solver: throws, other status, success. Success with an interval shorter than 1e-6, which the bounds allow, makes the call throw instead of returning a curve (refuted)."
  },
  {
   "property": "C53",
   "status": "proved",
   "theorems": [
    "GSplines.Props.C53_start_feasible",
    "GSplines.Props.C53_constraint_jacobian"
   ],
   "note": ""
  },
  {
   "property": "C55",
   "status": "proved",
   "theorems": [
    "GSplines.Props.C55_alpha",
    "GSplines.Props.C55_rojas_path"
   ],
   "note": ""
  },
  {
   "property": "C60",
   "status": "partial",
   "theorems": [
    "GSplines.Props.C60_cost_jacobian_partial",
    "GSplines.Props.C60_memory_false"
   ],
   "note": "For Legendre and Lagrange bases all weights, for Basis0101 the orders 1 and 3 (the others throw); every history of calls. For Lagrange the memory left uninitialised by the constructor must be symmetric; otherwise the property is false (C60_memory_false)."
  },
  {
   "property": "C61",
   "status": "partial",
   "theorems": [
    "GSplines.Props.C61_cost",
    "GSplines.Props.C61_cost_false"
   ],
   "note": "The cost really used is determined for all inputs; it is not the documented one whenever two consecutive way points differ (refuted)."
  },
  {
   "property": "C54",
   "status": "partial",
   "theorems": [
    "GSplines.Props.C54_basis_round_trip",
    "GSplines.Props.C54_gspline_round_trip",
    "GSplines.Props.C54_wrong_type",
    "GSplines.Props.C54_basis_outcomes",
    "GSplines.Props.C54_gspline_outcomes",
    "GSplines.Props.C54_basis_accepts_iff",
    "GSplines.Props.C54_gspline_accepts_iff",
    "GSplines.Props.C54_malformed_false"
   ],
   "note": "Round trips for every basis and spline. The accepted dictionaries are characterised exactly. Missing keys and wrong types give TypeError for every dictionary. Other malformed dictionaries give ValueError or are accepted (refuted)."
  },
  {
   "property": "C62",
   "status": "partial",
   "theorems": [
    "GSplines.Props.C62_random_gspline_partial",
    "GSplines.Props.C62_default_basis_partial",
    "GSplines.Props.C62_domain_false"
   ],
   "note": "Everything except the start of the domain, which is always 0 (refuted for every domain that starts elsewhere)."
  },
  {
   "property": "C63",
   "status": "proved",
   "theorems": [
    "GSplines.Props.C63_jumps",
    "GSplines.Props.C63_jumps_of_spline"
   ],
   "note": "For nodes that are pairwise distinguished by the 1e-9 comparison (Nodes); lengths different from zero."
  },
  {
   "property": "C64",
   "status": "partial",
   "theorems": [
    "GSplines.Props.C64_variable",
    "GSplines.Props.C64_constraint_linear",
    "GSplines.Props.C64_cost_linear",
    "GSplines.Props.C64_cost_sobolev",
    "GSplines.Props.C64_errors",
    "GSplines.Props.C64_wrong_size",
    "GSplines.Props.C64_continuity_constraint",
    "GSplines.Props.C64_rows_false"
   ],
   "note": "Values and exact Jacobians for linear functionals and SobolevDistance. Vectors of another size are accepted by SetVariables, and a wrapped ContinuityError updated to another number of intervals announces the old number of rows (refuted)."
  },
  {
   "property": "C65",
   "status": "proved",
   "theorems": [
    "GSplines.Props.C65_path_integral"
   ],
   "note": "For every pair of functions built with the operations of the library, given that the ten Gauss-Lobatto points could be computed."
  },
  {
   "property": "C66",
   "status": "proved",
   "theorems": [
    "GSplines.Props.C66_least_cost",
    "GSplines.Props.C66_interpolate_function",
    "GSplines.Props.C66_named",
    "GSplines.Props.C66_rojas_path"
   ],
   "note": "For a linear solver that solves invertible systems; intervals of at least 1e-6; the bases for which interpolation is set up (Interpolable). For the optimisers the external solver is assumed to return a vector of the right size."
  },
  {
   "property": "C67",
   "status": "proved",
   "theorems": [
    "GSplines.Props.C67_reference",
    "GSplines.Props.C67_weights",
    "GSplines.Props.C67_integral",
    "GSplines.Props.C67_exact",
    "GSplines.Props.C67_functional",
    "GSplines.Props.C67_inner_product"
   ],
   "note": "The error bound contains a Lipschitz constant and a bound of the function; it is the effect of points that are accurate to 1e-9 only."
  },
  {
   "property": "C68",
   "status": "partial",
   "theorems": [
    "GSplines.Props.C68_turns_partial",
    "GSplines.Props.C68_private",
    "GSplines.Props.C68_finishes",
    "GSplines.Props.C68_shared_false",
    "GSplines.Props.C68_shared_line_false"
   ],
   "note": "Objects of their own and turns: proved for every interleaving. Refuted for a shared object: for every spline and two points of one interval there is a schedule in which one thread returns the value at the point of the other."
  },
  {
   "property": "C69",
   "status": "partial",
   "theorems": [
    "GSplines.Props.C69_minimum_exists",
    "GSplines.Props.C69_returns",
    "GSplines.Props.C69_optimal_partial",
    "GSplines.Props.C69_broken_lines_false"
   ],
   "note": "Proved for Basis0101 with the weights that mean its cost after the multiplication of C41. Refuted for broken_lines_path (wrong Sobolev matrix of the Legendre basis)."
  },
  {
   "property": "C70",
   "status": "proved",
   "theorems": [
    "GSplines.Props.C70_in_range",
    "GSplines.Props.C70_exact",
    "GSplines.Props.C70_converges",
    "GSplines.Props.C70_converges_to_value",
    "GSplines.Props.C70_interpolated",
    "GSplines.Props.C70_jump_false"
   ],
   "note": "C70_jump_false shows the case of a jump that the property allows. Overflow is not modelled; a division by zero is the outcome notFinite."
  },
  {
   "property": "C71",
   "status": "partial",
   "theorems": [
    "GSplines.Props.C71_turns_partial",
    "GSplines.Props.C71_private",
    "GSplines.Props.C71_shared",
    "GSplines.Props.C71_shared_held",
    "GSplines.Props.C71_finishes",
    "GSplines.Props.C71_deriv",
    "GSplines.Props.C71_shared_false"
   ],
   "note": "True for threads with their own objects, for threads that take turns, and on a shared object for all orders up to the first one it does not hold yet. False beyond (C71_shared_false, for every basis): two threads that ask for the next order but one can store a matrix twice, and the object then answers that order wrongly for good."
  },
  {
   "property": "C72",
   "status": "partial",
   "theorems": [
    "GSplines.Props.C72_now",
    "GSplines.Props.C72_block_stays_partial",
    "GSplines.Props.C72_block_dangles_false",
    "GSplines.Props.C72_matrix_last_partial",
    "GSplines.Props.C72_matrix_overwritten_false"
   ],
   "note": "The code violates the full property: a request of a higher order can move the cached blocks, which leaves earlier references dangling (C72_block_dangles_false, for every history and growth rule), and a request with the same sizes and other interval lengths overwrites the matrix behind earlier references (C72_matrix_overwritten_false). The partial theorems say exactly while what the references stay good."
  },
  {
   "property": "C73",
   "status": "proved",
   "theorems": [
    "GSplines.Props.C73_determined",
    "GSplines.Props.C73_affine",
    "GSplines.Props.C73_superposition",
    "GSplines.Props.C73_weights",
    "GSplines.Props.C73_stable",
    "GSplines.Props.C73_basis",
    "GSplines.Props.C73_time",
    "GSplines.Props.C73_reverse",
    "GSplines.Props.C73_insert"
   ],
   "note": "Interpolable: usable basis with an even number of functions whose end points are not confused with Lagrange nodes, alpha > 0 (as in C57). Away: always true for Legendre and Basis0101."
  },
  {
   "property": "C74",
   "status": "partial",
   "theorems": [
    "GSplines.Props.C74_similarity",
    "GSplines.Props.C74_components",
    "GSplines.Props.C74_parallelogram",
    "GSplines.Props.C74_time",
    "GSplines.Props.C74_reverse",
    "GSplines.Props.C74_translate_partial",
    "GSplines.Props.C74_translate_false"
   ],
   "note": "All laws but translation hold for the code as it is (for Legendre bases with every list of weights, although the matrices of the orders 1 ... dim - 1 are wrong). Translation invariance is false for these orders (C74_translate_false): standing still at 1 costs more than standing still at 0. C74_time and C74_reverse: every order for Legendre, orders with a right matrix for the other bases."
  },
  {
   "property": "C75",
   "status": "partial",
   "theorems": [
    "GSplines.Props.C75_arithmetic",
    "GSplines.Props.C75_evaluate_total",
    "GSplines.Props.C75_evaluate_finite",
    "GSplines.Props.C75_evaluate_nan",
    "GSplines.Props.C75_evaluate_infinite",
    "GSplines.Props.C75_coefficient",
    "GSplines.Props.C75_length_nan",
    "GSplines.Props.C75_length_infinite",
    "GSplines.Props.C75_approx_equal",
    "GSplines.Props.C75_approx_equal_finite",
    "GSplines.Props.C75_vectors_finite",
    "GSplines.Props.C75_interpolate_finite",
    "GSplines.Props.C75_scaling_finite",
    "GSplines.Props.C75_vectors_partial",
    "GSplines.Props.C75_vectors_false",
    "GSplines.Props.C75_interpolate_partial",
    "GSplines.Props.C75_interpolate_false",
    "GSplines.Props.C75_scaling_partial",
    "GSplines.Props.C75_scaling_false",
    "GSplines.Props.C75_segments_partial",
    "GSplines.Props.C75_segments_false"
   ],
   "note": "The part on evaluation and the scalar comparison hold. The refusals do not: infinite lengths and execution times are accepted, values that are not a number only meet an assertion (nothing in a build without assertions), and a sampling period that is not a number is converted to an integer (undefined behaviour). A vector with entries that are not a number may compare equal to a different one (C75_vectors_false). Finite numbers are exact here and zeros have no sign."
  },
  {
   "property": "C76",
   "status": "partial",
   "theorems": [
    "GSplines.Props.C76_same_calls",
    "GSplines.Props.C76_interpolator_kept",
    "GSplines.Props.C76_interpolator",
    "GSplines.Props.C76_sobolev",
    "GSplines.Props.C76_gradient_buffer",
    "GSplines.Props.C76_kept",
    "GSplines.Props.C76_assign_function_partial",
    "GSplines.Props.C76_update_each_partial",
    "GSplines.Props.C76_assign_function_false",
    "GSplines.Props.C76_set_from_array_false",
    "GSplines.Props.C76_update_each_false"
   ],
   "note": "True for Interpolator, SobolevNorm, assignment of splines and most functionals. False for the assignment of a function to a collocation spline, set_from_array and the update of MatrixLeftMultiplication with a matrix per node, which change the object before they throw (the three _false theorems); for these the sizes are kept and a later complete call works as if the failed ones had not been made (the _partial theorems; domains of the failed calls of positive length)."
  },
  {
   "property": "C77",
   "status": "partial",
   "theorems": [
    "GSplines.Props.C77_collocation",
    "GSplines.Props.C77_integrals",
    "GSplines.Props.C77_functionals",
    "GSplines.Props.C77_integral_functional",
    "GSplines.Props.C77_distance",
    "GSplines.Props.C77_change_points",
    "GSplines.Props.C77_interpolate",
    "GSplines.Props.C77_interpolator_partial",
    "GSplines.Props.C77_interpolator_false",
    "GSplines.Props.C77_sobolev_partial",
    "GSplines.Props.C77_sobolev_false",
    "GSplines.Props.C77_cost_term_partial",
    "GSplines.Props.C77_optimisers"
   ],
   "note": "True everywhere but in two places. A new interpolator that is asked for the derivative with respect to an interval that does not exist returns its uninitialised vector (C77_interpolator_false). The value of a SobolevNorm over a Lagrange basis contains entries of the Gram matrix that the constructor of the basis never assigns (C77_sobolev_false; the cost term of an optimisation with it too). C77_optimisers: for solvers that know the cost term only from its answers; all named optimisers."
  },
  {
   "property": "C78",
   "status": "partial",
   "theorems": [
    "GSplines.Props.C78_values_partial",
    "GSplines.Props.C78_assertion_partial",
    "GSplines.Props.C78_unchanged",
    "GSplines.Props.C78_throw",
    "GSplines.Props.C78_self_add",
    "GSplines.Props.C78_self_mul",
    "GSplines.Props.C78_move_and_copy_false",
    "GSplines.Props.C78_move_twice_false",
    "GSplines.Props.C78_self_add_move_false",
    "GSplines.Props.C78_sub_move_false",
    "GSplines.Props.C78_concat_endless_false"
   ],
   "note": "Holds for all programs in which no statement moves from an object that it also uses (C78_values_partial); the parts on unchanged operands and on exceptions hold without conditions. False if the same object is named twice and moved from: std::move(f) + f and std::move(f) + std::move(f) dereference an empty pointer, f += std::move(f) and f - std::move(f) lose a term, std::move(f).concat(f) does not end if the domain of the concatenation f has (almost) no length."
  },
  {
   "property": "C79",
   "status": "partial",
   "theorems": [
    "GSplines.Props.C79_views_partial",
    "GSplines.Props.C79_apart_partial",
    "GSplines.Props.C79_overwritten_false",
    "GSplines.Props.C79_passed_on_false"
   ],
   "note": "Holds for the last vector of each of the two functions, and for passing on the result of the last solve_interpolation, which is how the library itself uses them (C79_views_partial), and calls of one function never touch the vectors of the other (C79_apart_partial). False otherwise: the next solve_interpolation overwrites the vectors that were returned before (C79_overwritten_false), and get_coeff_derivative_wrt_tau called with its own result silently returns zeros instead of the second derivative (C79_passed_on_false)."
  },
  {
   "property": "C80",
   "status": "partial",
   "theorems": [
    "GSplines.Props.C80_discretization_partial",
    "GSplines.Props.C80_approximation",
    "GSplines.Props.C80_lengths_false",
    "GSplines.Props.C80_basis_false"
   ],
   "note": "Proved for splines with equal intervals over the Gauss-Lobatto nodes (up to 44000 per interval), and for all approximations. Refuted for unequal intervals, which the constructor accepts, and for other bases, which the conversion from GSpline accepts."
  },
  {
   "property": "C81",
   "status": "partial",
   "theorems": [
    "GSplines.Props.C81_typeError_iff",
    "GSplines.Props.C81_operators_partial",
    "GSplines.Props.C81_programs_partial",
    "GSplines.Props.C81_sum_partial",
    "GSplines.Props.C81_difference_partial",
    "GSplines.Props.C81_product_partial",
    "GSplines.Props.C81_dot_partial",
    "GSplines.Props.C81_compose_partial",
    "GSplines.Props.C81_concat_partial",
    "GSplines.Props.C81_chain_partial",
    "GSplines.Props.C81_derivative_partial",
    "GSplines.Props.C81_spline_false",
    "GSplines.Props.C81_spline_argument_false",
    "GSplines.Props.C81_scripted_false"
   ],
   "note": "Proved for all programs on functions that are neither splines nor written in Python; dot, deriv, compose and concat also on splines where they are accepted. The exact condition for TypeError is proved: all arithmetic with splines is refused, and a spline as argument of concat or compose of another function; functions written in Python can only be evaluated (the bindings treat a Python object as owned by C++)."
  },
  {
   "property": "C82",
   "status": "proved",
   "theorems": [
    "GSplines.Props.C82_derivative",
    "GSplines.Props.C82_approximation",
    "GSplines.Props.C82_converges",
    "GSplines.Props.C82_integral",
    "GSplines.Props.C82_inner_product"
   ],
   "note": "Explicit error bounds for all functions with the stated smoothness and all derivatives, with up to 44000 nodes per interval (20000 for the integrals), and uniform convergence of the approximation and its derivatives. The effect of the 1e-9 comparison with the nodes is a term 1e-9 L h / 2; the precision of the points and weights is the one proved for C45 and C67."
  },
  {
   "property": "C83",
   "status": "proved",
   "theorems": [
    "GSplines.Props.C83_sampled",
    "GSplines.Props.C83_rival",
    "GSplines.Props.C83_interpolate_function",
    "GSplines.Props.C83_uniform"
   ],
   "note": "Explicit error bounds, at every time for orders below m and in the mean also for order m. Since interval lengths below 1e-6 are refused there is a bound but no limit. For Lagrange bases the times where the 1e-9 comparison with the nodes replaces the value are excluded (C12_value_near_node says what is returned there). The linear solver is exact (LUContract)."
  },
  {
   "property": "C84",
   "status": "proved",
   "theorems": [
    "GSplines.Props.C84_conditions",
    "GSplines.Props.C84_close",
    "GSplines.Props.C84_backward",
    "GSplines.Props.C84_coefficient_derivative",
    "GSplines.Props.C84_cost",
    "GSplines.Props.C84_gradient"
   ],
   "note": "Relaxes the assumption of an exact linear solver (LUContract) under which C38-C42, C57 and C83 are proved. The constants are shown to exist for each basis, list of lengths and order; they are not computed. The arithmetic that sets up the system is exact here."
  },
  {
   "property": "C85",
   "status": "proved",
   "theorems": [
    "GSplines.Props.C85_in_range",
    "GSplines.Props.C85_exact",
    "GSplines.Props.C85_converges",
    "GSplines.Props.C85_values"
   ],
   "note": "Each operation on doubles returns any number within a relative plus an absolute error, sums are taken in any order, and the linear solver has a backward error and may fail on badly conditioned matrices. Convergence for given input, without a rate. Overflow is not modelled here."
  },
  {
   "property": "C86",
   "status": "proved",
   "theorems": [
    "GSplines.Props.C86_in_range",
    "GSplines.Props.C86_exact",
    "GSplines.Props.C86_symmetric",
    "GSplines.Props.C86_initialised",
    "GSplines.Props.C86_accuracy",
    "GSplines.Props.C86_order",
    "GSplines.Props.C86_quadrature"
   ],
   "note": "Each operation on doubles, the cosine and the power included, returns any number within a relative plus an absolute error. Convergence for given n (the rate is C100); the 1e-9 is that of the stopping test. Overflow is not modelled here."
  },
  {
   "property": "C87",
   "status": "proved",
   "theorems": [
    "GSplines.Props.C87_in_range",
    "GSplines.Props.C87_exact",
    "GSplines.Props.C87_derivative",
    "GSplines.Props.C87_interpolated",
    "GSplines.Props.C87_sum",
    "GSplines.Props.C87_multiple"
   ],
   "note": "Each operation on doubles returns any number within a relative plus an absolute error, and the sums in the matrix products are taken in any order. Convergence for given operands, without a rate. The comparison of the two vector spaces before a sum is exact here (it has a tolerance, C15, C75). Orders above two with basis 0101 give wrong derivatives in exact arithmetic already (C14). Overflow is not modelled here."
  },
  {
   "property": "C88",
   "status": "proved",
   "theorems": [
    "GSplines.Props.C88_value_in_range",
    "GSplines.Props.C88_gradient_in_range",
    "GSplines.Props.C88_solver_failure_out_of_range",
    "GSplines.Props.C88_value_exact",
    "GSplines.Props.C88_gradient_exact",
    "GSplines.Props.C88_value",
    "GSplines.Props.C88_gradient",
    "GSplines.Props.C88_integral"
   ],
   "note": "Each operation on doubles returns any number within a relative plus an absolute error, sums are taken in any order, the linear solver has a backward error. Convergence for given basis, weights, lengths and way points; the rate is C98. Without the condition that the solver does not report a failure the first call of a new object reads memory that it does not have (C88_solver_failure_out_of_range). C88_integral is for the orders and weights of C41. The derivative matrices that the bases compute once and keep are computed anew in each call of the model, which only adds outcomes. Overflow is not modelled here."
  },
  {
   "property": "C89",
   "status": "partial",
   "theorems": [
    "GSplines.Props.C89_values",
    "GSplines.Props.C89_unchanged",
    "GSplines.Props.C89_throw",
    "GSplines.Props.C89_pointwise_partial",
    "GSplines.Props.C89_assign_partial",
    "GSplines.Props.C89_overload_false"
   ],
   "note": "Proved for all programs and all aliasing, except that the code violates one part: same_vector_space does not compare the domains, so that for operands that start at different instants the result of a sum depends on whether the right operand is an rvalue (C89_overload_false); assignment does not assign the interval lengths (C58). Objects that were moved from are not described."
  },
  {
   "property": "C90",
   "status": "partial",
   "theorems": [
    "GSplines.Props.C90_values",
    "GSplines.Props.C90_linear",
    "GSplines.Props.C90_codim_partial",
    "GSplines.Props.C90_set_dense_false",
    "GSplines.Props.C90_codim_false"
   ],
   "note": "Proved for all programs that do not put a dense functional into a sparse one; false there (set throws, C90_set_dense_false), and get_codom_dim is stale after a set that changes the number of values (C90_codim_false)."
  },
  {
   "property": "C91",
   "status": "proved",
   "theorems": [
    "GSplines.Props.C91_pieces",
    "GSplines.Props.C91_values",
    "GSplines.Props.C91_waypoints",
    "GSplines.Props.C91_cost"
   ],
   "note": "Exact arithmetic, exact linear solver; continuity without a rate in the lengths, Lipschitz in the way points. C91_values is for orders below half the dimension, the ones for which the spline is continuous across breakpoints (with a Lagrange basis at times away from the 1e-9 tolerance of the nodes); C91_pieces is for all orders. C91_cost is for weights on orders that the basis implements."
  },
  {
   "property": "C92",
   "status": "proved",
   "theorems": [
    "GSplines.Props.C92_tracking"
   ],
   "note": "Combines C83 (error of exact interpolation), C91 (influence of the samples) and C85 (rounding, inexact solver). The bound on the rounding errors depends on the data; C96 gives the rate. Overflow is not modelled here."
  },
  {
   "property": "C93",
   "status": "proved",
   "theorems": [
    "GSplines.Props.C93_in_range",
    "GSplines.Props.C93_exact",
    "GSplines.Props.C93_uniform",
    "GSplines.Props.C93_inexact_points",
    "GSplines.Props.C93_continuous",
    "GSplines.Props.C93_jump_false"
   ],
   "note": "Rounded evaluation of every function object (Model/RoundingFn.lean). C93_jump_false shows that the hypothesis on jumps (Spec.Steady) is needed: inside a composition rounding may select the other piece of a concatenation. The rate is C99. Overflow is not modelled here."
  },
  {
   "property": "C94",
   "status": "proved",
   "theorems": [
    "GSplines.Props.C94_in_range",
    "GSplines.Props.C94_exact",
    "GSplines.Props.C94_accuracy"
   ],
   "note": "The rule itself is computed with rounding (C86). The rate is C100. Overflow is not modelled here."
  },
  {
   "property": "C95",
   "status": "proved",
   "theorems": [
    "GSplines.Props.C95_inexact_point",
    "GSplines.Props.C95_uniform",
    "GSplines.Props.C95_interpolated",
    "GSplines.Props.C95_node_false"
   ],
   "note": "Existence of the constant; it is not computed. C95_node_false is the exception for Lagrange nodes that the property names. Overflow is not modelled here."
  },
  {
   "property": "C96",
   "status": "proved",
   "theorems": [
    "GSplines.Props.C96_conditions",
    "GSplines.Props.C96_uniform",
    "GSplines.Props.C96_tracking"
   ],
   "note": "Existence of the constants; they are not computed. The bound on the errors depends on the data (it has to be small against the condition of the linear system). Overflow is not modelled here."
  },
  {
   "property": "C97",
   "status": "proved",
   "theorems": [
    "GSplines.Props.C97_derivative",
    "GSplines.Props.C97_derivative_uniform",
    "GSplines.Props.C97_interpolated",
    "GSplines.Props.C97_sum",
    "GSplines.Props.C97_multiple"
   ],
   "note": "Existence of the constants; they are not computed. Sums and multiples are stated for splines without jumps. The order of basis 0101 is at most two because of C14. Overflow is not modelled here."
  },
  {
   "property": "C98",
   "status": "proved",
   "theorems": [
    "GSplines.Props.C98_value",
    "GSplines.Props.C98_gradient",
    "GSplines.Props.C98_integral",
    "GSplines.Props.C98_decrease"
   ],
   "note": "Existence of the constants; they are not computed. The bound on the errors depends on the data. C98_integral is for the orders and weights of C41. Overflow is not modelled here."
  },
  {
   "property": "C99",
   "status": "proved",
   "theorems": [
    "GSplines.Props.C99_uniform",
    "GSplines.Props.C99_inexact_points",
    "GSplines.Props.C99_lipschitz",
    "GSplines.Props.C99_root_false"
   ],
   "note": "Existence of the constants; they are not computed. Spec.Calm is the hypothesis on the points; C99_root_false is the exception that the property names. Functions of the user are evaluated with one rounding of each component. Overflow is not modelled here."
  },
  {
   "property": "C100",
   "status": "proved",
   "theorems": [
    "GSplines.Props.C100_points",
    "GSplines.Props.C100_integral"
   ],
   "note": "Existence of the constants; they are not computed. The 1e-9 is that of the stopping test of Newton's method. Overflow is not modelled here."
  },
  {
   "property": "C101",
   "status": "proved",
   "theorems": [
    "GSplines.Props.C101_exact",
    "GSplines.Props.C101_nodes",
    "GSplines.Props.C101_value"
   ],
   "note": "Existence of the constants; they are not computed. The returned spline is evaluated in exact arithmetic here. Overflow is not modelled."
  },
  {
   "property": "C102",
   "status": "proved",
   "theorems": [
    "GSplines.Props.C102_computed",
    "GSplines.Props.C102_identity"
   ],
   "note": "Existence of the constants; they are not computed. Overflow is not modelled."
  },
  {
   "property": "C103",
   "status": "proved",
   "theorems": [
    "GSplines.Props.C103_near",
    "GSplines.Props.C103_scaled",
    "GSplines.Props.C103_interpolated",
    "GSplines.Props.C103_arguments"
   ],
   "note": "Existence of the constants; they are not computed. Overflow is not modelled. The start of the domain is exact. Basis0101 needs a positive parameter."
  },
  {
   "property": "C104",
   "status": "proved",
   "theorems": [
    "GSplines.Props.C104_bounds",
    "GSplines.Props.C104_perturbed",
    "GSplines.Props.C104_interpolated",
    "GSplines.Props.C104_arguments",
    "GSplines.Props.C104_exact"
   ],
   "note": "Existence of the constants; they are not computed. Overflow is not modelled. Bounds are those at the sampled instants only, as in C17; a missing bound and a spline at rest are treated there."
  },
  {
   "property": "C105",
   "status": "proved",
   "theorems": [
    "GSplines.Props.C105_inner_product",
    "GSplines.Props.C105_l2",
    "GSplines.Props.C105_order_zero",
    "GSplines.Props.C105_norms",
    "GSplines.Props.C105_in_range",
    "GSplines.Props.C105_exact"
   ],
   "note": "Existence of the constants; they are not computed. Overflow is not modelled. The coefficients of derivatives of polynomials and splines in the integrand are computed without rounding; there is no such computation in the L2 products (C105_l2)."
  },
  {
   "property": "C106",
   "status": "proved",
   "theorems": [
    "GSplines.Props.C106_value",
    "GSplines.Props.C106_product",
    "GSplines.Props.C106_compose",
    "GSplines.Props.C106_arithmetic",
    "GSplines.Props.C106_sizes",
    "GSplines.Props.C106_exact",
    "GSplines.Props.C106_integral",
    "GSplines.Props.C106_integral_polynomials",
    "GSplines.Props.C106_integral_exact",
    "GSplines.Props.C106_derivative",
    "GSplines.Props.C106_derivative_value",
    "GSplines.Props.C106_derivative_exact",
    "GSplines.Props.C106_derivative_sizes",
    "GSplines.Props.C106_stored",
    "GSplines.Props.C106_transpose",
    "GSplines.Props.C106_matrix"
   ],
   "note": "Explicit bounds, except for Derivative, where the constant is some number that does not depend on the rounding. The nodes of the basis of Derivative are taken as given. Overflow is not modelled. Integral built from interval lengths fails in any case (C49)."
  }
 ]
}