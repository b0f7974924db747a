{"id": "C01", "title": "Sum of functions evaluates to the pointwise sum", "statement": "For functions f and g, `f + g` throws std::invalid_argument exactly when their domain end points differ by 1e-9 or more or their codomain dimensions differ. Otherwise, the result has f's domain and codomain, and evaluating it at t gives f(t)+g(t), however deeply f and g are themselves built from sums, products, compositions, concatenations, and whichever lvalue/rvalue overload was selected.", "quantifier": "every pair of functions (expression trees of any depth and width), every evaluation point, all four value-category overloads", "why_tests_cant": "The expression is flattened while it is built, so correctness depends on the shape of both operands; the set of shapes is infinite.", "anchors": ["src/Functions/FunctionSum.cpp: sum_throw, FunctionExpression::operator+, eval_sum_functions", "src/Functions/FunctionGenericOperations.cpp: *_operation_handler", "src/Functions/FunctionBase.cpp: operator+, same_domain, same_codomain"]}
{"id": "C02", "title": "Negation and subtraction evaluate to the pointwise negation and difference", "statement": "For functions f and g with equal domain and codomain, `-f` evaluates to -f(t) and `f - g` evaluates to f(t)-g(t) for every t, whatever operations f and g were built with.", "quantifier": "every function expression (any operation at its root), every evaluation point", "why_tests_cant": "The result depends on which operation is at the root of the operand; tests only negate leaves.", "anchors": ["src/Functions/FunctionMul.cpp: FunctionExpression::operator-", "src/Functions/FunctionSum.cpp: FunctionExpression::operator-", "src/Functions/FunctionExpression.cpp: eval_negative_functions"]}
{"id": "C03", "title": "Product of functions evaluates to the pointwise product", "statement": "`f * g` throws std::invalid_argument exactly when the domains differ or both factors are vector valued. Otherwise the value at t is the product of the scalar factor and the (scalar or vector) other factor, in whichever order they were written, for any nesting and any overload, and the codomain dimension is the larger one.", "quantifier": "every pair of functions, every point, all four value-category overloads, both operand orders", "why_tests_cant": "Factors are flattened and reordered at construction; the operand shapes are unbounded.", "anchors": ["src/Functions/FunctionMul.cpp: compatibility_mul, return_first_or_max_codom_dim, FunctionExpression::operator*, eval_mul_functions"]}
{"id": "C04", "title": "Composition evaluates to the composed function", "statement": "`f.compose(g)` throws std::invalid_argument exactly when g is vector valued. Otherwise it evaluates at t to f(g(t)), for chains of any length and any nesting, it has f's codomain dimension, and its domain is g's domain, whichever overload was used.", "quantifier": "every pair of functions, every point, all four overloads", "why_tests_cant": "Chains are spliced in reverse order during construction and depend on operand types; unbounded shapes.", "anchors": ["src/Functions/FunctionsComp.cpp: comp_throw, FunctionExpression::compose, eval_compose_functions"]}
{"id": "C05", "title": "Concatenation evaluates piecewise and chains", "statement": "`f.concat(g)` throws std::invalid_argument exactly when codomains differ or f's end and g's start differ by more than 1e-9. When the joint is exact, the result equals f before the joint, g from the joint on, is clamped to f's first and g's last value outside, and its domain runs from f's start to g's end, so that further functions can be concatenated, for any number of pieces.", "quantifier": "every chain of functions of any length, every point, all overloads", "why_tests_cant": "The number of pieces and the way they were nested is unbounded; joints and clamping are boundary cases for each of them.", "anchors": ["src/Functions/FunctionsConcat.cpp: concat_throw, FunctionExpression::concat, get_interval_function, eval_concat_functions"]}
{"id": "C06", "title": "Symbolic derivative is the analytic derivative", "statement": "For every expression built with the function algebra and every order n, the object returned by deriv(n) evaluates, at every point where the pieces are smooth, to the n-th derivative of the function the expression evaluates to.", "quantifier": "every expression tree, every derivative order, every point that is not a joint", "why_tests_cant": "Product and chain rules are implemented by tree rewriting and iterated; unbounded trees, orders and points.", "anchors": ["src/Functions/FunctionSum.cpp: deriv_sum_functions", "src/Functions/FunctionMul.cpp: first_deriv_mul_functions, deriv_mul_functions", "src/Functions/FunctionsComp.cpp: first_deriv_compose_functions, deriv_compose_functions", "src/Functions/FunctionsConcat.cpp: deriv_concat_functions", "src/Functions/FunctionExpression.cpp: deriv_unique_functions, deriv_negative_functions"]}
{"id": "C07", "title": "Elementary functions differentiate correctly for every order", "statement": "ConstFunction, DomainLinearDilation, Identity, Exponential, Cos, Sin and CanonicPolynomial (with at least one coefficient): deriv(n) evaluates to the n-th derivative of the function for every n.", "quantifier": "every order n, every point, every constant/factor/coefficient vector of any length", "why_tests_cant": "Orders and coefficient counts are unbounded; the sine/cosine table is periodic and the polynomial loop has a size-dependent early exit.", "anchors": ["src/Functions/ElementalFunctions.cpp: *::value_impl, *::deriv_impl"]}
{"id": "C08", "title": "Dot product value and derivative", "statement": "`f.dot(g)` evaluates to sum_i f_i(t) g_i(t), and its n-th derivative evaluates to the n-th derivative of that sum; differentiating succeeds exactly when the domains agree.", "quantifier": "every pair of functions with equal codomain dimension, every order, every point", "why_tests_cant": "Derivative is produced by rewriting and iterated, with operand order swapped for some overloads.", "anchors": ["src/Functions/ElementalFunctions.cpp: DotProduct::value_impl, DotProduct::first_deriv_impl, DotProduct::deriv_impl", "src/Functions/FunctionBase.cpp: FunctionBase::dot"]}
{"id": "C09", "title": "In-place accumulation", "statement": "Any sequence f += g1; f += g2; ...; f += gk yields a function whose value is f(t)+g1(t)+...+gk(t); likewise *= with scalar functions yields the product, whatever the initial expression type of f.", "quantifier": "every history of in-place updates of any length, every start expression", "why_tests_cant": "Histories are unbounded; the first update changes the expression's type in place.", "anchors": ["src/Functions/FunctionSum.cpp: FunctionExpression::operator+=", "src/Functions/FunctionMul.cpp: FunctionExpression::operator*="]}
{"id": "C10", "title": "Batch evaluation is row-wise", "statement": "Evaluating a function on a vector of points gives, in row i, exactly what evaluating it on the single point i gives, independently of the other points and of their order.", "quantifier": "every expression, every list of points of any length", "why_tests_cant": "Intermediate buffers are shared by all points of a batch; batch sizes are unbounded.", "anchors": ["include/gsplines/Functions/FunctionBase.hpp: FunctionBase::value, operator()", "src/Functions/FunctionSum.cpp: eval_sum_functions", "src/Functions/FunctionMul.cpp: eval_mul_functions", "src/Functions/FunctionsComp.cpp: eval_compose_functions", "src/Functions/FunctionsConcat.cpp: eval_concat_functions"]}
{"id": "C11", "title": "Interval location in a piecewise function", "statement": "For a GSpline with positive interval lengths, the piece used to evaluate at t is the one with break_i < t <= break_{i+1}; points at or before the start use the first piece and points past the last breakpoint use the last one.", "quantifier": "every number of intervals, every vector of positive lengths, every t", "why_tests_cant": "A scan with accumulated break points; unbounded number of intervals and boundary cases at each breakpoint.", "anchors": ["src/GSpline.cpp: GSplineBase::get_interval, interval_to_window"]}
{"id": "C12", "title": "Evaluation of a generalized spline", "statement": "The value of a GSpline at t is, component by component, the inner product of the coefficient block of t's interval with the basis evaluated at the local coordinate 2(t-break_i)/tau_i - 1; every coefficient read is inside the coefficient vector when the constructor's sizes are consistent.", "quantifier": "every basis, codomain dimension, number of intervals, coefficient vector, t", "why_tests_cant": "Index arithmetic over three unbounded dimensions.", "anchors": ["src/GSpline.cpp: GSplineBase::value_impl, coefficient_segment, interval_to_window"]}
{"id": "C13", "title": "Size check of the GSpline constructor rules out out-of-bounds reads", "statement": "Constructing a GSpline throws std::invalid_argument exactly when the number of coefficients differs from n_intervals*basis_dim*codom_dim, and a GSpline that was constructed can be evaluated at every point without reading outside its vectors.", "quantifier": "every combination of sizes and every evaluation point", "why_tests_cant": "The check involves the product of three independent sizes; the bad combinations are not enumerable.", "anchors": ["src/GSpline.cpp: GSplineBase::GSplineBase, value_impl", "include/gsplines/GSpline.hpp: get_number_of_intervals"]}
{"id": "C14", "title": "Derivative of a GSpline", "statement": "For Legendre, Lagrange and Basis0101 splines, the GSpline returned by deriv(n) has the same domain, basis and interval lengths and evaluates, in the interior of each interval, to the n-th derivative of the original spline.", "quantifier": "every spline (any basis dimension, any number of intervals, any codomain), every order n, every point in the interior of an interval", "why_tests_cant": "Unbounded orders and dimensions; coefficient-space differentiation must agree with analysis.", "anchors": ["include/gsplines/GSpline.hpp: GSplineInheritanceHelper::deriv_impl", "src/Basis/BasisLegendre.cpp: derivative_matrix_impl", "src/Basis/BasisLagrange.cpp: derivative_matrix_impl", "src/Basis/Basis0101.cpp: derivative_matrix_impl"]}
{"id": "C15", "title": "GSplines form a vector space", "statement": "+, -, +=, -=, scalar multiplication and unary minus on compatible GSplines act pointwise on values at every t, and throw std::invalid_argument exactly when the splines are not in the same vector space (basis, codomain, interval lengths).", "quantifier": "all pairs of splines, all scalars, all points", "why_tests_cant": "Unbounded sizes; several move/copy overloads.", "anchors": ["include/gsplines/GSpline.hpp: GSplineInheritanceHelper::operator+,-,+=,-=", "src/GSpline.cpp: operator*, operator-, same_vector_space"]}
{"id": "C16", "title": "Linear time scaling reparametrises the curve", "statement": "linear_scaling_new_execution_time(T) throws exactly when T < 1e-8 and otherwise returns a spline of domain length T (same start) with g'(t0 + c(t-t0)) = g(t), c = T/length, for all bases including Basis0101 whose parameter is recomputed; so the geometric curve and the way points are unchanged.", "quantifier": "every spline, every new execution time >= 1e-8, every point", "why_tests_cant": "Holds for every point and spline; the Basis0101 branch changes the basis itself.", "anchors": ["include/gsplines/GSpline.hpp: linear_scaling_new_execution_time"]}
{"id": "C17", "title": "Velocity/acceleration scaling respects the bounds at the sampled instants", "statement": "linear_scaling_new_execution_time_max_velocity_max_acceleration(vb, ab, dt) returns a time-scaled spline whose velocity and acceleration components, at the images of the sampled instants, do not exceed the given bounds, with equality for at least one; it accepts a missing bound as 'no bound'.", "quantifier": "every spline, every positive bounds, every dt", "why_tests_cant": "Maximum over unboundedly many samples and components; optional arguments.", "anchors": ["include/gsplines/GSpline.hpp: linear_scaling_new_execution_time_max_velocity_max_acceleration"]}
{"id": "C18", "title": "Breakpoints and way points", "statement": "get_domain_breakpoints returns n+1 points, the first is the domain start and consecutive ones differ by the interval lengths; get_waypoints returns the spline's values there.", "quantifier": "every spline", "why_tests_cant": "Unbounded number of intervals.", "anchors": ["src/GSpline.cpp: get_domain_breakpoints, get_waypoints"]}
{"id": "C19", "title": "Approximate comparison is reflexive and symmetric", "statement": "tools::approx_equal on numbers, matrices and GSplines (and GSpline ==) is reflexive for positive tolerance and symmetric; numbers it equates differ by less than tol*max(1,|a|,|b|), and numbers that differ by less than tol*min(1,|a|,|b|) are equated (entrywise, with the largest entries, for matrices of the same shape). tools::approx_zero accepts exactly the numbers, and the non-empty matrices all of whose entries, are smaller than tol. The answer does not depend on earlier comparisons.", "quantifier": "every pair of values of any shape, every positive tolerance, every history of earlier calls", "why_tests_cant": "Mixed absolute/relative tolerance with global bookkeeping variables; unbounded shapes.", "anchors": ["src/Tools.cpp: approx_equal, approx_zero", "src/GSpline.cpp: GSplineBase::operator=="]}
{"id": "C20", "title": "GSpline equality implies nearby curves", "statement": "If two GSplines compare equal with ==, they describe the same curve up to tolerance, in particular on the same domain.", "quantifier": "all pairs of splines", "why_tests_cant": "Equality is decided on stored vectors; whether those determine the function is a semantic question.", "anchors": ["src/GSpline.cpp: GSplineBase::operator==, same_vector_space", "src/Tools.cpp: approx_equal(GSplineBase)"]}
{"id": "C21", "title": "Legendre basis evaluates Legendre polynomials", "statement": "For every dimension n >= 2 and every s, eval_on_window of the Legendre basis writes P_0(s),...,P_{n-1}(s), where P_i is the i-th Legendre polynomial (Rodrigues' formula).", "quantifier": "every dimension, every window coordinate s, every interval length", "why_tests_cant": "Three-term recurrence over unbounded degree.", "anchors": ["src/Basis/BasisLegendre.cpp: BasisLegendre::eval_on_window"]}
{"id": "C22", "title": "Legendre basis derivatives", "statement": "For every dimension n >= 2 and derivative order d < n, eval_derivative_on_window(s, tau, d) writes (2/tau)^d P_i^{(d)}(s) for all i; the derivative with respect to the interval length is the analytic one.", "quantifier": "every dimension, derivative order below it, s and tau > 0", "why_tests_cant": "Nested recurrences over two unbounded indices with a reused buffer.", "anchors": ["src/Basis/BasisLegendre.cpp: eval_derivative_on_window, eval_derivative_wrt_tau_on_window"]}
{"id": "C23", "title": "Legendre derivative matrix", "statement": "The derivative matrix block of order d of the Legendre basis maps coefficients to coefficients of the d-th derivative (in the window variable): sum_i (D^d y)_i P_i = d^d/ds^d sum_i y_i P_i, for every dimension and order.", "quantifier": "every dimension, order, coefficient vector and s", "why_tests_cant": "Recurrence filling of a matrix of unbounded size.", "anchors": ["src/Basis/BasisLegendre.cpp: gsplines_legendre_dmat, derivative_matrix, derivative_matrix_impl"]}
{"id": "C24", "title": "Legendre Sobolev matrices", "statement": "add_derivative_matrix(tau, d, M) adds to M the matrix with entries \\int over an interval of length tau of the d-th time derivatives of basis functions i and j, so that y^T Q y is the integral of the squared d-th derivative.", "quantifier": "every dimension, order d, tau > 0", "why_tests_cant": "An integral identity over unbounded dimension and order; the corresponding project tests are disabled.", "anchors": ["src/Basis/BasisLegendre.cpp: BasisLegendre::BasisLegendre, add_derivative_matrix"]}
{"id": "C25", "title": "Sobolev matrix derivative with respect to the interval length", "statement": "add_derivative_matrix_deriv_wrt_tau adds the derivative with respect to tau of what add_derivative_matrix adds, for every basis.", "quantifier": "every basis, order supported, tau > 0", "why_tests_cant": "A derivative identity over the reals.", "anchors": ["src/Basis/BasisLegendre.cpp: add_derivative_matrix_deriv_wrt_tau", "src/Basis/BasisLagrange.cpp: add_derivative_matrix_deriv_wrt_tau", "src/Basis/Basis0101.cpp: add_derivative_matrix_deriv_wrt_tau"]}
{"id": "C26", "title": "Lagrange basis interpolates", "statement": "For distinct nodes, eval_on_window of the Lagrange basis writes the cardinal polynomials: a node gives a unit vector, and away from the 1e-9 neighbourhood of the nodes the values are prod_{k!=j}(s-x_k)/(x_j-x_k); they sum to one and reproduce every polynomial of degree < n.", "quantifier": "every number and position of distinct nodes, every s", "why_tests_cant": "Barycentric formula with a snap-to-node branch; unbounded number of nodes.", "anchors": ["src/Basis/BasisLagrange.cpp: eval_on_window, barycentric_weights, almost_equal"]}
{"id": "C27", "title": "Lagrange derivative matrices", "statement": "For distinct nodes and every order d, derivative_matrix(points, d) has entries l_j^{(d)}(x_i), hence maps nodal values of a polynomial of degree < n to nodal values of its d-th derivative; eval_derivative_on_window and the derivative with respect to tau follow.", "quantifier": "every set of distinct nodes, every order d", "why_tests_cant": "Recurrence over the order with negative-sum diagonal; unbounded nodes and order.", "anchors": ["src/Basis/BasisLagrange.cpp: derivative_matrix, eval_derivative_on_window, eval_derivative_wrt_tau_on_window"]}
{"id": "C28", "title": "Change of interpolation points", "statement": "change_interpolation_points(old, new) maps values of a polynomial of degree < n at the old points to its values at the new points.", "quantifier": "every pair of point sets (old ones distinct), including sets that share points", "why_tests_cant": "Depends on whether any earlier row matched a node; combinations are unbounded.", "anchors": ["src/Basis/BasisLagrange.cpp: change_interpolation_points"]}
{"id": "C29", "title": "Basis0101 values and derivatives", "statement": "Basis0101's eval_derivative_on_window(s,tau,d) is the d-th derivative with respect to time of its basis functions for every d, and eval_derivative_wrt_tau_on_window is the derivative with respect to tau at fixed s.", "quantifier": "every alpha in (0,1), tau > 0, s, order d", "why_tests_cant": "Analytic identities for every order.", "anchors": ["src/Basis/Basis0101.cpp: eval_on_window, eval_derivative_on_window, eval_derivative_wrt_tau_on_window"]}
{"id": "C30", "title": "Basis0101 derivative matrix", "statement": "The derivative matrix of order d of Basis0101 maps coefficients of a function to coefficients of its d-th time derivative, for every order d.", "quantifier": "every order d, alpha, coefficient vector", "why_tests_cant": "Every order; the implementation multiplies in a loop.", "anchors": ["src/Basis/Basis0101.cpp: derivative_matrix_impl"]}
{"id": "C31", "title": "Basis0101 Sobolev matrices", "statement": "For d = 0,1,2,3 add_derivative_matrix of Basis0101 adds \\int of products of d-th time derivatives over an interval of length tau; other orders throw std::invalid_argument; the tau derivatives for d = 1, 3 are the derivatives of those.", "quantifier": "every alpha in (0,1), every tau > 0", "why_tests_cant": "36 closed-form entries per matrix, each a function of two reals; tests compare at one tau.", "anchors": ["src/Basis/Basis0101.cpp: compute_Q_block, compute_Qd1_block, compute_Qd2_block, compute_Qd3_block, *_dtau_block, add_derivative_matrix"]}
{"id": "C32", "title": "Derivative matrix cache is history independent", "statement": "get_derivative_matrix_block(d) returns the same matrix whatever sequence of orders was requested before.", "quantifier": "every history of requests of any length", "why_tests_cant": "Histories are unbounded; the cache grows on demand.", "anchors": ["include/gsplines/Basis/Basis.hpp: get_derivative_matrix_block"]}
{"id": "C33", "title": "Continuity matrix characterises continuity", "statement": "Applying continuity_matrix(n, codim, order, tau) to a coefficient vector gives zero exactly when the spline and its derivatives up to `order` agree from both sides at every interior breakpoint; the returned matrix does not depend on earlier calls.", "quantifier": "every number of intervals, codomain, order, interval lengths, coefficient vector, history of calls, and every basis", "why_tests_cant": "Index arithmetic over four unbounded dimensions and cached state.", "anchors": ["src/Basis/Basis.cpp: Basis::continuity_matrix"]}
{"id": "C34", "title": "GSpline derivative matrix", "statement": "gspline_derivative_matrix(n, codim, d, tau) times the coefficients gives the coefficients of the d-th derivative GSpline for polynomial bases, independent of earlier calls.", "quantifier": "all sizes, orders, histories", "why_tests_cant": "Index arithmetic and cached state.", "anchors": ["src/Basis/Basis.cpp: Basis::gspline_derivative_matrix"]}
{"id": "C35", "title": "Basis factory", "statement": "get_basis returns the Legendre basis of the given dimension, the Lagrange basis with the given nodes (two or more; fewer is undefined behaviour), Basis0101 with the given single parameter, and throws std::invalid_argument for any other name or for a wrong number of parameters of basis0101.", "quantifier": "every name, dimension and parameter vector", "why_tests_cant": "The input space (strings, vectors) is infinite.", "anchors": ["src/Basis/Basis.cpp: get_basis"]}
{"id": "C36", "title": "Basis equality", "statement": "Basis == is reflexive and symmetric and distinguishes bases of different kind, dimension or parameters.", "quantifier": "every pair of bases", "why_tests_cant": "Unbounded parameter vectors; tolerance comparison.", "anchors": ["src/Basis/Basis.cpp: Basis::operator=="]}
{"id": "C37", "title": "Interpolation meets the way points with smooth joins", "statement": "If the linear solver returns a solution of the system it is given, the spline returned by interpolate(tau, waypoints, basis) starts at the first way point, reaches way point i at breakpoint i, ends at the last, has continuous derivatives of orders 1..dim-2 at interior breakpoints and zero derivatives of orders 1..dim/2-1 at both ends.", "quantifier": "every even basis dimension, codomain dimension, number of intervals, lengths >= 1e-6 and way points", "why_tests_cant": "Row and column layout over three unbounded dimensions; tests sample a few sizes.", "anchors": ["src/Interpolator.cpp: fill_interpolating_matrix, fill_interpolating_vector, solve_interpolation, interpolate"]}
{"id": "C38", "title": "The interpolation system states exactly the interpolation conditions", "statement": "A coefficient vector solves the assembled system if and only if its spline satisfies the interpolation, continuity and boundary conditions; every row of the matrix states exactly one condition and the matrix is square with every row filled.", "quantifier": "every even basis dimension, codomain dimension, number of intervals, lengths, way points", "why_tests_cant": "Requires the row layout to be a bijection onto the conditions for every size.", "anchors": ["src/Interpolator.cpp: fill_interpolating_matrix, fill_*_block"]}
{"id": "C39", "title": "Derivative of the interpolating coefficients with respect to interval lengths", "statement": "get_coeff_derivative_wrt_tau(y, tau, i), with y the interpolating coefficients for tau, returns dy/dtau_i, when the interpolation matrix is invertible; it does not depend on earlier calls.", "quantifier": "every size, lengths >= 1e-6, index, way points, history", "why_tests_cant": "Derivative of an implicitly defined vector of unbounded dimension.", "anchors": ["src/Interpolator.cpp: get_coeff_derivative_wrt_tau"]}
{"id": "C40", "title": "Interpolator guards", "statement": "The interpolator throws std::invalid_argument for odd basis dimension or an interval shorter than 1e-6 and std::logic_error for a wrong number of lengths; a failed factorisation is never reported as a valid new solution.", "quantifier": "every call and every history of calls", "why_tests_cant": "Failure histories: the object keeps buffers from earlier calls.", "anchors": ["src/Interpolator.cpp: Interpolator::Interpolator, solve_interpolation, fill_interpolating_matrix"]}
{"id": "C41", "title": "Sobolev cost is the weighted sum of squared derivative norms", "statement": "SobolevNorm(waypoints, basis, weights)(tau) equals sum_k w_k \\int |q^{(k)}|^2 dt of the interpolating spline, for every list of weights.", "quantifier": "every basis, weights list of any length, lengths and way points", "why_tests_cant": "Sum over an unbounded list of weights, intervals and components; the project's tests of it are disabled.", "anchors": ["src/FunctionalAnalysis/Sobolev.cpp: SobolevNorm::operator(), inner_prod"]}
{"id": "C42", "title": "Sobolev cost gradient", "statement": "SobolevNorm::deriv_wrt_interval_len returns, for each i, the partial derivative with respect to tau_i of the value returned by SobolevNorm::operator().", "quantifier": "every basis, list of weights, lengths, way points, component i", "why_tests_cant": "Derivative identity through an implicitly defined coefficient vector.", "anchors": ["src/FunctionalAnalysis/Sobolev.cpp: SobolevNorm::deriv_wrt_interval_len"]}
{"id": "C43", "title": "Quadrature based integral and Sobolev products", "statement": "integral(f, n, k) is linear in f, additive over the domain pieces and equals the Gauss-Lobatto sum; sobolev inner products of functions with one domain computed from it are symmetric and bilinear and the norm of a function is its inner product with itself.", "quantifier": "every scalar function, number of points and intervals, list of weights", "why_tests_cant": "Laws over all functions.", "anchors": ["src/FunctionalAnalysis/Integral.cpp: integral", "src/FunctionalAnalysis/Sobolev.cpp: sobolev_semi_inner_product, inner_product, l2_norm"]}
{"id": "C44", "title": "q_and_evaluation implements the Legendre identities", "statement": "q_and_evaluation(t, n) returns q(t)=P_{n+1}(t)-P_{n-1}(t), q'(t)=(2n+1)P_n(t) (the derivative of q) and P_n(t) for every n >= 2.", "quantifier": "every n >= 2 and t", "why_tests_cant": "Two coupled recurrences over unbounded n.", "anchors": ["src/Collocation/GaussLobattoPointsWeights.cpp: q_and_evaluation"]}
{"id": "C45", "title": "Gauss-Lobatto points and weights", "statement": "legendre_gauss_lobatto_points_and_weights(n) returns for every n >= 2 increasing points in [-1, 1], the first -1 and the last 1, antisymmetric, each within a relative 1e-9 of the zero with the same index of (1 - x^2) P_{n-1}'(x), and positive symmetric weights that are 2/(n(n-1)P_{n-1}(x)^2) at each point; every entry is assigned.", "quantifier": "every n >= 2, every previous content of the memory", "why_tests_cant": "Newton's method could stop too early or jump to another zero for some n; only a convergence proof covers all n.", "anchors": ["src/Collocation/GaussLobattoPointsWeights.cpp: legendre_gauss_lobatto_points_and_weights"]}
{"id": "C46", "title": "Composite collocation grids", "statement": "The composite grids place, in each interval, the affine images of the Gauss-Lobatto points; the first point of each interval is its left end, the last is its right end, and composite weights sum to the domain length when the reference weights sum to two; also for intervals of different lengths.", "quantifier": "every number of points, intervals, lengths", "why_tests_cant": "Index arithmetic and running sums over unbounded intervals.", "anchors": ["src/Collocation/GaussLobattoPointsWeights.cpp: legendre_gauss_lobatto_points, legendre_gauss_lobatto_weights"]}
{"id": "C47", "title": "Collocation approximation interpolates the function at the grid", "statement": "GaussLobattoLagrangeSpline::approximate(f, n_glp, n_int) returns a spline that agrees with f at every collocation point and equals f everywhere when f is polynomial of degree < n_glp on each piece; value_at(i) is its value at the i-th point.", "quantifier": "every function, n_glp, n_int", "why_tests_cant": "Every function and size.", "anchors": ["src/Collocation/GaussLobattoLagrange.cpp: approximate, value_at, get_value_block"]}
{"id": "C48", "title": "Collocation spline arithmetic is nodewise", "statement": "Products, sums, scalar operations, pow and norm of Gauss-Lobatto splines hold nodewise and throw std::invalid_argument exactly on incompatible discretisation, domain or codomains.", "quantifier": "every pair of splines and all sizes", "why_tests_cant": "Index arithmetic over three unbounded dimensions; four overloads.", "anchors": ["src/Collocation/GaussLobattoLagrange.cpp: operator*, norm, pow, operator+,-"]}
{"id": "C49", "title": "Collocation linear functionals", "statement": "The matrices of Derivative, Integral, TransposeLeftMultiplication and MatrixLeftMultiplication applied to a spline's coefficients give the derivative's coefficients, the quadrature of the spline, the nodewise dot product with the fixed spline and the nodewise product with the given matrices.", "quantifier": "every size and every spline, every way of updating the functional", "why_tests_cant": "Index arithmetic over four unbounded dimensions.", "anchors": ["include/gsplines/Collocation/GaussLobattoLagrangeFunctionals.hpp: Derivative, Integral, TransposeLeftMultiplication, MatrixLeftMultiplication", "src/Collocation/GaussLobattoLagrangeFunctionals.cpp"]}
{"id": "C50", "title": "Sobolev distance and its differential", "statement": "SobolevDistance(f,..)(g) is the quadrature of |f-g|^2+|f'-g'|^2 and its differential is the derivative of that value with respect to g's coefficients.", "quantifier": "every approximated function, every argument, every direction", "why_tests_cant": "Derivative identity over unbounded dimension.", "anchors": ["src/Collocation/GaussLobattoLagrangeFunctionals.cpp: SobolevDistance"]}
{"id": "C51", "title": "Solver options: last write wins", "statement": "After any sequence of set_option calls, each option name of each kind is forwarded to the solver exactly once with the last value set for it (defaults included), in the order string, int, double options.", "quantifier": "every history of set_option calls", "why_tests_cant": "Histories are unbounded.", "anchors": ["src/Optimization/ipopt_solver.cpp: IpoptSolverOptions::set_option, set_options_on_interface", "include/gsplines/Optimization/ipopt_solver.hpp"]}
{"id": "C52", "title": "Optimised curves satisfy their constraints", "statement": "optimal_sobolev_norm and the named optimisers return a value exactly when the solver reports success (or there is a single interval), and then the curve passes through all way points in order with total time as requested (1 for the named minimum-derivative optimisers).", "quantifier": "every way point matrix, every solver outcome satisfying the exposed constraint", "why_tests_cant": "Depends on an external solver; must hold for every outcome.", "anchors": ["src/Optimization/ipopt_solver.cpp: optimal_sobolev_norm, broken_lines_path, minimum_*_path, rojas_path"]}
{"id": "C53", "title": "Optimisation problem set-up", "statement": "The exposed time variables start at a feasible point of the exposed bounds and time constraint whenever there is one, the constraint's Jacobian is the derivative of its value and bounds are lower <= upper.", "quantifier": "every number of intervals and execution time", "why_tests_cant": "All sizes.", "anchors": ["src/Optimization/ipopt_interface.cpp: TimeSegmentLenghtsVar, ExecTimeConstraint, SobolevNorm cost"]}
{"id": "C54", "title": "Serialization round trip", "statement": "dict_to_gspline(gspline_to_dict(g)) gives a spline equal to g in domain, codomain, basis, coefficients and interval lengths, and dict_to_basis(basis_to_dict(b)) gives a basis equal to b, for every basis kind (a Lagrange basis having at least two nodes); malformed dictionaries raise TypeError.", "quantifier": "every spline and basis; every dictionary", "why_tests_cant": "Infinite input space; each basis kind stores its parameters differently.", "anchors": ["python/gsplines/serialization.py", "src/Basis/Basis.cpp: get_basis"]}
{"id": "C55", "title": "Rojas path parameter", "statement": "rojas_path uses the parameter alpha with alpha/(1-alpha) = k^4, which lies in (0,1), for every non-zero k and number of way points, and the curve it returns has duration exactly 1, passes through the way points and has the basis parameter that fits the scaled time.", "quantifier": "every k > 0 and number of intervals", "why_tests_cant": "All reals.", "anchors": ["src/Optimization/ipopt_solver.cpp: rojas_path"]}
{"id": "C56", "title": "Sobolev matrices of the Lagrange basis", "statement": "For every vector of distinct nodes and every order d, add_derivative_matrix of the Lagrange basis adds to entry (i,j) the integral over an interval of length tau of the product of the d-th time derivatives of cardinal functions i and j.", "quantifier": "every node vector, every order, every tau > 0, every entry", "why_tests_cant": "All node vectors, orders and lengths; wrong entries depend on the content of uninitialised memory.", "anchors": ["src/Basis/BasisLagrange.cpp: BasisLagrange::BasisLagrange, add_derivative_matrix"]}
{"id": "C57", "title": "The interpolation problem always has exactly one solution", "statement": "For every supported basis of even dimension (Basis0101 with alpha > 0), every number of intervals and components, all positive interval lengths and all way points there is exactly one spline with these intervals that satisfies the interpolation conditions; hence interpolate never fails for lengths of at least 1e-6 and way points of matching size, provided the linear solver succeeds on invertible matrices.", "quantifier": "every basis, n, codim, lengths and way points", "why_tests_cant": "Invertibility of a matrix of unbounded size for all parameter values.", "anchors": ["src/Interpolator.cpp: Interpolator::interpolate, solve_interpolation, gsplines::interpolate"]}
{"id": "C58", "title": "Assignment to collocation splines", "statement": "After s = f, for a function f with the same number of components, s has the domain of f, interval lengths in the old proportions, and the values of f at its nodes; after s = other, s is the same curve as other; after set_from_array the nodal values are the given vectors. Operands that do not fit are refused with an exception (invalid_argument, or runtime_error for a wrong number of vectors) and never reach undefined behaviour.", "quantifier": "every spline, function, array and domain", "why_tests_cant": "All sizes, domains, lengths and values.", "anchors": ["src/Collocation/GaussLobattoLagrange.cpp: operator=", "include/gsplines/Collocation/GaussLobattoLagrange.hpp: set_from_array"]}
{"id": "C59", "title": "Arithmetic of functionals", "statement": "The product of two linear functionals on collocation splines acts as one applied after the other; sums, differences, negation and scalar multiples act as such on every coefficient vector. They exist exactly if the sizes fit.", "quantifier": "every pair of functionals, scalar and coefficient vector", "why_tests_cant": "All sizes and values.", "anchors": ["include/gsplines/Collocation/GaussLobattoLagrangeFunctionals.hpp: LinearFunctional::operator*, operator+, operator-"]}
{"id": "C60", "title": "Gradient given to the optimiser", "statement": "In every state of the cost term of the optimisation problem, the Jacobian it reports is the derivative of the cost it reports with respect to the interval lengths.", "quantifier": "every basis, weights, way points, interval lengths and history of calls", "why_tests_cant": "Infinite input space; a wrong gradient only slows down or misleads the optimiser.", "anchors": ["src/Optimization/ipopt_interface.cpp: SobolevNorm::FillJacobianBlock, GetCost"]}
{"id": "C61", "title": "Cost minimised by rojas_path", "statement": "The cost that rojas_path gives to the optimiser is alpha times the integral of the squared velocity plus (1-alpha) times the integral of the squared jerk of the interpolating curve, as its weights say.", "quantifier": "every way point matrix, alpha and interval lengths", "why_tests_cant": "A wrong weight still gives smooth curves through the way points.", "anchors": ["src/Optimization/ipopt_solver.cpp: rojas_path", "src/FunctionalAnalysis/Sobolev.cpp", "src/Optimization/ipopt_interface.cpp: SobolevNorm::GetCost"]}
{"id": "C62", "title": "Random splines", "statement": "random_gspline(domain, codim, basis) returns a spline with the requested domain, number of components and kind of basis, for every outcome of the random numbers.", "quantifier": "every domain, number of components, basis and random numbers", "why_tests_cant": "The numbers of intervals, lengths and way points are drawn at random.", "anchors": ["src/GSpline.cpp: random_gspline"]}
{"id": "C63", "title": "Continuity error of collocation splines", "statement": "A ContinuityError of order k, built from interval lengths or from a spline and updated any number of times, maps a collocation spline with the present interval lengths to the list of the jumps of its derivatives of order 0 to k at the interior breakpoints; the result is zero exactly if all these derivatives match.", "quantifier": "every number of nodes, intervals and components, every order, all interval lengths, splines and histories of updates", "why_tests_cant": "Infinite input space; a wrong scaling of one block shows only for particular lengths and orders.", "anchors": ["include/gsplines/Collocation/GaussLobattoLagrangeFunctionals.hpp: ContinuityError", "src/Basis/Basis.cpp: Basis::continuity_matrix"]}
{"id": "C64", "title": "Functionals as costs and constraints of an optimisation problem", "statement": "A functional wrapped as cost or constraint reports the value of the functional at the collocation spline with the current variables, and its Jacobian block is the derivative of what it reports with respect to these variables; asking for another set of variables throws logic_error; the number of rows and bounds fit the values.", "quantifier": "every functional and spline, all current variables, all histories of SetVariables, all sets of other variables", "why_tests_cant": "A wrong Jacobian only slows down or misleads the optimiser.", "anchors": ["include/gsplines/Collocation/GaussLobattoLagrangeFunctionals.hpp: CostWrapper, ConstraintWrapper, GLLSplineVariable", "src/Collocation/GaussLobattoLagrangeFunctionals.cpp: GLLSplineVariable"]}
{"id": "C65", "title": "Integral along a change of parameter", "statement": "collocation::integral(diffeo, path) is the quadrature over the domain of diffeo of the squared norm of path at diffeo(t); it throws invalid_argument if diffeo is not scalar.", "quantifier": "every pair of functions", "why_tests_cant": "Infinite input space; depends on the overloads selected by temporaries.", "anchors": ["src/Collocation/GaussLobattoLagrange.cpp: integral", "src/Functions/FunctionBase.cpp: dot, to_expression", "src/Functions/FunctionsComp.cpp"]}
{"id": "C66", "title": "Interpolating splines have least cost", "statement": "For given interval lengths and way points, the spline returned by the interpolator for a polynomial basis with 2m functions has the least integral of the squared m-th derivative of all piecewise C^m curves through the way points in these times that are C^(m-1) and at rest at both ends; for Basis0101 with parameter alpha it has the least alpha*(integral of squared velocity) + (1-alpha)*(integral of squared jerk). Every other such curve costs strictly more. The curves returned by the named optimisers and rojas_path have this property for their own interval lengths, whatever the solver finds.", "quantifier": "every basis of even dimension, number of intervals and components, interval lengths, way points, history of the interpolator, behaviour of the external solver and rival curve", "why_tests_cant": "Quantifies over an infinite dimensional space of rival curves.", "anchors": ["src/Interpolator.cpp: Interpolator::interpolate", "src/Optimization/ipopt_solver.cpp: minimum_jerk_path, rojas_path", "src/Basis/Basis0101.cpp"]}
{"id": "C67", "title": "Gauss-Lobatto quadrature integrates polynomials", "statement": "integral(f, n, k) of a scalar function that is on each of the k equal intervals a polynomial of degree at most 2n-3 returns its integral: exactly for n = 2 and n = 3, otherwise up to an explicit error due to the tolerance of Newton's method; the reference weights sum to two within the same error.", "quantifier": "every number of intervals, every n from 2 to 20000, every domain and every such function", "why_tests_cant": "Infinite input space; a slightly wrong point or weight changes only the last digits.", "anchors": ["src/FunctionalAnalysis/Integral.cpp: integral", "src/Collocation/GaussLobattoPointsWeights.cpp"]}
{"id": "C68", "title": "Concurrent evaluation", "statement": "Evaluating a const spline from several threads gives every thread the values that it would get alone: for threads with objects of their own (also copies of one spline), for threads that take turns on one object, and for threads that evaluate one const object at the same time.", "quantifier": "every number of threads and points, every distribution of the threads over objects, every interleaving of their memory accesses", "why_tests_cant": "Depends on the schedule; a wrong value appears only if the accesses of two threads to a member are interleaved in particular ways.", "anchors": ["include/gsplines/GSpline.hpp: GSplineBase::basis_buffer_", "src/GSpline.cpp: GSplineBase::value_impl"]}
{"id": "C69", "title": "Best times between way points", "statement": "The optimisation problem given to the solver has a global minimum; if the solver finds it, the curve returned by optimal_sobolev_norm, or by a named optimiser, has the least cost of all sufficiently smooth curves through the way points in the total time, whatever the instants at which they pass the inner way points.", "quantifier": "all way points (two or more), parameters, total times, solvers that report success only at global minima, and rival curves with their own times (of at least 1e-6 each)", "why_tests_cant": "Quantifies over an infinite dimensional space of rival curves and their times.", "anchors": ["src/Optimization/ipopt_solver.cpp: optimal_sobolev_norm, broken_lines_path", "src/Optimization/ipopt_interface.cpp", "src/FunctionalAnalysis/Sobolev.cpp", "src/Interpolator.cpp"]}
{"id": "C70", "title": "Rounding errors of the evaluation", "statement": "Evaluating a spline with floating point arithmetic never reads outside its vectors, whatever the operations round to; and as the rounding errors get smaller the result of every evaluation approaches the value of the curve, in particular the one of exact arithmetic wherever the curve is continuous. At a jump (the pieces differ at a breakpoint) the result may be the value of either side.", "quantifier": "All splines with positive interval lengths and an admissible basis (Lagrange: times whose place in the window is a node or farther than 1e-9 (1 + |s|) from it), all times, all sizes of the relative and absolute errors, all roundings within them, all orders in which the sums are taken.", "why_tests_cant": "Tests see the rounding of one processor, one compiler and one build of Eigen on sampled inputs; the claim is about every rounding.", "anchors": ["src/GSpline.cpp: value_impl, get_interval, interval_to_window", "src/Basis/BasisLegendre.cpp: eval_on_window", "src/Basis/BasisLagrange.cpp: eval_on_window, almost_equal, barycentric_weights", "src/Basis/Basis0101.cpp: eval_on_window"]}
{"id": "C71", "title": "Concurrent derivation", "statement": "Deriving a const spline, or asking a const basis for derivative matrices, from several threads gives every thread what it would get alone, and leaves the object as it should be.", "quantifier": "All bases, all numbers of threads, all distributions of threads over objects (own objects, copies, one shared object), all sequences of orders, all histories of the objects, all interleavings of the accesses to the cached matrices.", "why_tests_cant": "A race shows up in a test only if the scheduler happens to produce it; the claim is about every schedule.", "anchors": ["include/gsplines/Basis/Basis.hpp: get_derivative_matrix_block, derivative_matrix_array_", "include/gsplines/GSpline.hpp: deriv_impl"]}
{"id": "C72", "title": "Matrices returned by reference", "statement": "A matrix that a basis returns by reference (derivative matrix block, continuity matrix, derivative matrix of splines) is right when the call returns and stays what it was as long as the basis object lives, whatever is asked of the object later.", "quantifier": "All bases, all histories of the object before and after the call, all sizes, orders and interval lengths, all rules by which the implementation of std::vector may choose its capacity.", "why_tests_cant": "Whether a later call moves or overwrites a matrix depends on the whole history of the object and on the capacity chosen by the standard library; a dangling reference often still shows the old values in a test.", "anchors": ["include/gsplines/Basis/Basis.hpp: get_derivative_matrix_block", "src/Basis/Basis.cpp: continuity_matrix, gspline_derivative_matrix"]}
{"id": "C73", "title": "Symmetries of interpolation", "statement": "The curve returned by interpolate depends on nothing but its arguments and follows their symmetries: it is a sum of the way points weighted by fixed continuous functions that add up to one (so an affine map applied to all way points is applied to the whole curve, components do not influence each other, curves superpose, and small errors of the way points stay small); it does not depend on which polynomial basis of a given dimension is used; with all lengths multiplied by one factor it is what linear_scaling_new_execution_time makes of the original; way points and lengths in the opposite order give the curve run backwards; adding a point of the curve to the way points does not change it.", "quantifier": "All numbers of way points, dimensions, interval lengths of at least 1e-6, usable bases, affine maps, factors, places of the additional way point, linear solvers that solve, contents of uninitialised memory, and instants (inside or outside the domain; with Lagrange bases those that the code does not take for a node).", "why_tests_cant": "Relations between pairs of calls over all inputs; tests compare a few pairs up to a tolerance that hides small asymmetries.", "anchors": ["src/Interpolator.cpp: interpolate, Interpolator::solve_interpolation", "include/gsplines/GSpline.hpp: linear_scaling_new_execution_time", "src/GSpline.cpp: value_impl"]}
{"id": "C74", "title": "Laws of the Sobolev cost", "statement": "The value returned by a SobolevNorm object follows the symmetries of its data: it is a quadratic form of the way points (parallelogram law); a linear map that multiplies all lengths by r multiplies it by r squared, so the coordinate system and the unit of length do not matter to an optimiser; it is the sum of the costs of the coordinates; with all interval lengths multiplied by f the cost of a single order k is multiplied by f^(1-2k); way points and lengths in the opposite order cost the same; and for orders of at least one moving all way points by the same vector does not change it.", "quantifier": "All usable bases, lists of weights, numbers of way points and coordinates, interval lengths of at least 1e-6, maps, factors, and states of the objects.", "why_tests_cant": "Relations between pairs of calls over all inputs; a test compares a few pairs, and the symmetry that fails (translation) was never among them.", "anchors": ["src/FunctionalAnalysis/Sobolev.cpp: SobolevNorm::operator(), SobolevNorm::inner_prod", "src/Basis/BasisLegendre.cpp: BasisLegendre::add_derivative_matrix", "src/Basis/Basis0101.cpp: Basis0101::add_derivative_matrix"]}
{"id": "C75", "title": "Infinities and values that are not a number", "statement": "A spline can be evaluated at any double without reading outside its vectors. At an instant that is not a number every component is not a number, at an infinite instant none is finite. A coefficient that is not finite spoils its own component in its own interval and nothing else; a length that is not a number leaves the earlier intervals alone and makes everything from there on not a number. Two numbers that compare equal are finite. Arguments that are no finite number (interval lengths, execution time, sampling period) are refused instead of giving a spline.", "quantifier": "All doubles (finite, infinite, not a number) as instant, domain, lengths, coefficients, parameters of the basis, execution time, sampling period; all sizes; builds with and without assertions; all permitted results of Eigen's maxCoeff on vectors with entries that are not a number.", "why_tests_cant": "Special values go through every branch in their own way (comparisons are false, zero times infinity is not a number); a test tries a few of them in a few places.", "anchors": ["src/GSpline.cpp: value_impl, get_interval, interval_to_window", "include/gsplines/GSpline.hpp: linear_scaling_new_execution_time, linear_scaling_new_execution_time_max_velocity_max_acceleration", "src/Interpolator.cpp: interpolate, solve_interpolation", "src/Tools.cpp: approx_equal", "src/Basis/BasisLegendre.cpp: eval_on_window", "src/Basis/BasisLagrange.cpp: eval_on_window", "src/Basis/Basis0101.cpp: eval_on_window"]}
{"id": "C76", "title": "Objects after an exception", "statement": "A call that throws an exception leaves the object that it was made on, and the buffers of the caller, as they were before the call; when the exception has been caught the object can be used as if the call had never been made.", "quantifier": "Interpolator (solve_interpolation, interpolate, derivatives of the coefficients), SobolevNorm (value, gradient), collocation splines (assignment of splines and functions, set_from_array) and the linear functionals on them, in every state reachable by any sequence of calls, returned or thrown, with all arguments, functions (also functions of the caller that throw) and linear solvers.", "why_tests_cant": "Every point at which a call can throw, after every history, has to be followed by every later call; tests check that an exception is thrown, not what is left behind.", "anchors": ["src/Interpolator.cpp: solve_interpolation, interpolate, get_coeff_derivative_wrt_tau", "src/FunctionalAnalysis/Sobolev.cpp: SobolevNorm::operator(), SobolevNorm::deriv_wrt_interval_len", "src/Collocation/GaussLobattoLagrange.cpp: operator=", "include/gsplines/Collocation/GaussLobattoLagrange.hpp: set_from_array", "include/gsplines/Collocation/GaussLobattoLagrangeFunctionals.hpp: TransposeLeftMultiplication::operator=, MatrixLeftMultiplication::update", "src/Collocation/GaussLobattoLagrangeFunctionals.cpp: Integral::update"]}
{"id": "C77", "title": "Results do not depend on uninitialised memory", "statement": "What the library returns is determined by what the caller passes: two runs of a program that differ only in the contents of the memory that the library allocates without initialising it give the same values, throw the same exceptions and leave the same buffers.", "quantifier": "All contents of freshly allocated memory in the two runs; collocation splines, integrals and norms, functionals, interpolation, random splines and optimisers with all arguments; interpolators, Sobolev norms and cost terms with all sequences of calls (also calls that throw).", "why_tests_cant": "A test runs in one process where fresh memory usually contains zeros; the claim is about every content and every history.", "anchors": ["src/Interpolator.cpp: Interpolator::Interpolator, get_coeff_derivative_wrt_tau", "src/Basis/BasisLagrange.cpp: BasisLagrange::BasisLagrange, change_interpolation_points", "src/Collocation/GaussLobattoPointsWeights.cpp", "src/Collocation/GaussLobattoLagrange.cpp: approximate, norm", "src/Collocation/GaussLobattoLagrangeFunctionals.cpp: SobolevDistance", "src/Optimization/ipopt_interface.cpp: SobolevNorm::SobolevNorm"]}
{"id": "C78", "title": "Function expressions own their parts", "statement": "A program that builds function expressions with copies, moves, +, -, *, unary minus, compose, concat, += and *=, with any mixture of lvalue and rvalue operands, computes the functions that it would compute with values: an operation does not change an operand that was not moved from, the result shares nothing with its operands, an operation that throws changes nothing (not even rvalue operands), every loop ends, and no variable that is still valid ever evaluates an empty pointer. This includes operations that name the same object twice.", "quantifier": "All programs of any length over any number of variables, all functions, all overloads (lvalue or rvalue receiver and argument), all types of expressions, states after exceptions.", "why_tests_cant": "There are four overloads of each operation for each type of both operands, with different code that moves pointers one by one; whether a pointer is empty shows only in a later statement, and sharing only when one of the objects changes.", "anchors": ["src/Functions/FunctionGenericOperations.cpp", "src/Functions/FunctionSum.cpp: operator+, operator-, operator+=", "src/Functions/FunctionMul.cpp: operator*, operator*=", "src/Functions/FunctionsComp.cpp: compose", "src/Functions/FunctionsConcat.cpp: concat", "src/Functions/FunctionExpression.cpp: copy and move constructors"]}
{"id": "C79", "title": "Vectors returned by an interpolator", "statement": "The vectors that solve_interpolation and get_coeff_derivative_wrt_tau return can be kept and passed on: later calls on the object do not change them, and passing one of them to get_coeff_derivative_wrt_tau gives the same result as passing a copy of it.", "quantifier": "All sequences of calls on an interpolator (also calls that throw), all arguments, all vectors that earlier calls returned, all linear solvers.", "why_tests_cant": "The vectors are references to buffers of the object; whether a later call writes into one of them, or into the argument it is reading, depends on the history. A test that copies the result into a vector of its own, as tests do, cannot see it.", "anchors": ["src/Interpolator.cpp: solve_interpolation, get_coeff_derivative_wrt_tau", "include/gsplines/Interpolator.hpp: sol_buffer_, coefficients_vector_"]}
{"id": "C80", "title": "Discretisation times of a collocation spline", "statement": "get_domain_discretization() of a Gauss-Lobatto spline returns, in increasing order from the start to the end of the domain, the times of value_at(0), value_at(1), ...: evaluating the spline at these times gives these values, and for approximate(f, n, m) also the values of f.", "quantifier": "every spline that the constructors, the conversion from GSpline and approximate produce; every number of points and intervals; every function that can be evaluated on its domain", "why_tests_cant": "The test evaluates one approximation with equal intervals of one trajectory; lengths, basis, number of points and function range over infinite sets, and the constructors accept splines for which it fails.", "anchors": ["include/gsplines/Collocation/GaussLobattoLagrange.hpp: get_domain_discretization", "src/Collocation/GaussLobattoLagrange.cpp: value_at, approximate, GaussLobattoLagrangeSpline(const GSpline &)", "src/Collocation/GaussLobattoPointsWeights.cpp: legendre_gauss_lobatto_points"]}
{"id": "C81", "title": "Functions in Python programs", "statement": "In Python, f + g, f - g, f * g, -f, f.compose(g), f.concat(g), f.dot(g) and f.deriv(n) work for all functions of the module - elementary functions, expressions, dot products, splines, functions written in Python as subclasses of Function - on either side, and do what the C++ operation does for named variables. TypeError is raised only if an operand is not a function.", "quantifier": "All function objects of all registered classes, all operators and methods, all Python expressions of any size and nesting, all evaluation points.", "why_tests_cant": "The class hierarchy and the overloads registered with pybind11 decide which of several hundred combinations of operand classes is accepted and which C++ overload runs; the tests of the bindings use a few.", "anchors": ["bindings/bindings.cpp: FunctionBase, FunctionExpression, Function, GSplineBase, GSpline", "bindings/pyfunctions.hpp: PyFunction::clone_impl", "src/Functions/FunctionBase.cpp: operator+, operator-, operator*, compose, concat, to_expression"]}
{"id": "C82", "title": "Accuracy of collocation and quadrature", "statement": "GaussLobattoLagrangeSpline::approximate(f, n, m) and its derivatives converge to f and its derivatives when the number of intervals m grows: for f n times continuously differentiable on each interval of length h, the derivative of order k <= n of the approximation is everywhere within M h^(n-k)/(n-k)! of the derivative of f, M being a bound of the derivative of order n, up to the effect of the 1e-9 comparison with the nodes. integral and the inner products with n points per interval are within a term of order h^(2n-2) of the integral, up to the precision of the points and weights.", "quantifier": "every function with the stated smoothness (also with corners where intervals meet), every number of points per interval (up to 44000, up to 20000 for the integrals), every number of intervals, every order of derivative, every point of the domain", "why_tests_cant": "A test compares a few functions at a few points; an error bound is about all functions and all points.", "anchors": ["src/Collocation/GaussLobattoLagrange.cpp: approximate", "src/GSpline.cpp: deriv, value", "src/FunctionalAnalysis/Integral.cpp: integral", "src/FunctionalAnalysis/Sobolev.cpp: sobolev_semi_inner_product", "src/Collocation/GaussLobattoPointsWeights.cpp"]}
{"id": "C83", "title": "Accuracy of interpolating a sampled curve", "statement": "Way points that are samples q(t_0), ..., q(t_n) of a smooth curve q at rest at both ends give back the curve: with intervals not longer than h, the spline that interpolate returns, and its derivatives of orders d < m = dim/2, are at every time close to q and its derivatives, with a squared error of at most h^(4m-2d-1) times the integral of the squared residual of q (the derivative of order 2m for polynomial bases, q^(6) + alpha/(1-alpha) q'' for Basis0101); for curves with only m derivatives, of at most h^(2m-2d-1) times the cost of q.", "quantifier": "every curve with the stated smoothness, every list of interval lengths of at least 1e-6, every number of intervals and components, every basis that can interpolate, every time in the domain, every order of derivative below m, every state of the interpolator object", "why_tests_cant": "A test interpolates a few samples and looks at the way points; what happens between the samples, for all curves, is an error bound.", "anchors": ["src/Interpolator.cpp: Interpolator::interpolate, interpolate", "src/GSpline.cpp: value, deriv"]}
{"id": "C84", "title": "Rounding errors of the linear solver", "statement": "interpolate and SobolevNorm do not need an exact solution of the linear system: if the coefficients that a call found satisfy every equation up to eps, the spline passes within eps of the way points, its value jumps by at most 2 eps and its derivatives by at most eps where intervals meet, its derivatives at both ends are at most eps, and the spline and its derivatives are within a constant times eps of the exact interpolating spline. With a solver of small backward error eta the error is a constant times eta times the size of the way points, and the value and the gradient of the Sobolev cost have an error of a constant times eta times the square of that size.", "quantifier": "every linear solver, every residual, every basis that can interpolate, all way points, every list of interval lengths of at least 1e-6, every state of the objects, every time and every order of derivative; the constants depend on the basis, the lengths and the order only", "why_tests_cant": "A test compares with a tolerance on a few inputs; whether a small residual can be amplified without bound by some way points or some history of the object is a statement about all of them.", "anchors": ["src/Interpolator.cpp: solve_interpolation, interpolate, get_coeff_derivative_wrt_tau", "src/FunctionalAnalysis/Sobolev.cpp: operator(), deriv_wrt_interval_len"]}
{"id": "C85", "title": "Interpolation in floating point arithmetic", "statement": "Interpolation with rounded arithmetic does what interpolation with exact arithmetic does, up to a small error: whatever the rounding errors no memory outside the buffers is accessed; the exact outcome is one of the possible ones; and for given basis, interval lengths and way points, if the errors of the operations and the backward error of the linear solver are small enough, every call of interpolate succeeds, whatever the object was used for before, and the spline and its derivatives are as close as wanted to the exact interpolating spline, pass as close as wanted to the way points, and evaluating the spline (again with rounding errors) gives values as close as wanted.", "quantifier": "every basis that can interpolate (Lagrange bases whose nodes are not within the 1e-9 tolerance of an end point without being there), all way points, every list of interval lengths of at least 1e-6, every state of the object reached by calls with any errors and solvers, every sequence of rounding errors within the bound, every order of summation, every time and order of derivative", "why_tests_cant": "A test sees one rounding of one input; rounding modes, fused operations, vectorised sums and other platforms give other ones.", "anchors": ["src/Interpolator.cpp: interpolate, solve_interpolation, fill_interpolating_matrix, fill_buffers", "src/Basis/BasisLegendre.cpp: eval_derivative_on_window", "src/Basis/BasisLagrange.cpp: eval_derivative_on_window, derivative_matrix, barycentric_weights", "src/Basis/Basis0101.cpp: eval_derivative_on_window", "src/GSpline.cpp: value_impl"]}
{"id": "C86", "title": "Gauss-Lobatto points in floating point arithmetic", "statement": "legendre_gauss_lobatto_points_and_weights(n) with rounded arithmetic: whatever the rounding errors, for n >= 2 no variable is read before it is assigned and no index is out of range, the points run from exactly -1 to exactly 1 and are exactly antisymmetric, the weights are exactly symmetric, every entry is assigned, and the exact outcome is one of the possible ones. If the errors of the operations are small enough for n, every call returns; the points increase and keep a distance of 1/(n-1/2)^2; each is within 1e-9 (relative, up to an arbitrarily small excess) of the zero of (1-x^2) P'_(n-1)(x) with the same index; the weights are positive and as close as wanted to 2/(N(N+1)P_N(x)^2); and the rule integrates polynomials of degree at most 2n-3 up to the error of the exact-arithmetic rule plus as little as wanted.", "quantifier": "every number of points (up to 20000 for the quadrature), every sequence of rounding errors within the bound, every content of the memory, every outcome of the stopping test of Newton's iteration, all polynomials of degree at most 2n-3", "why_tests_cant": "The stopping test of Newton's iteration compares rounded numbers and may stop earlier or later than with exact numbers; a test sees one rounding for a few n.", "anchors": ["src/Collocation/GaussLobattoPointsWeights.cpp: q_and_evaluation, legendre_gauss_lobatto_points_and_weights"]}
{"id": "C87", "title": "Derivatives and arithmetic of splines in floating point arithmetic", "statement": "deriv(n), a + b, a - b and k * g of splines with rounded arithmetic do what they do with exact arithmetic, up to a small error: whatever the rounding errors no array is accessed out of range; the exact outcome is one of the possible ones; and for given operands, if the errors of the operations are small enough, every call succeeds, the result has the domain, intervals, basis and number of components of the operand, and evaluating it (again with rounding errors) gives numbers as close as wanted to the derivative, the sum, the difference or the multiple of the curves. The same holds for the whole chain interpolate, deriv, value. For Basis0101 orders up to two.", "quantifier": "every basis, all coefficients, all positive interval lengths, every order of derivative (up to two for Basis0101), every time that is not within the 1e-9 tolerance of a Lagrange node without being there, every sequence of rounding errors within the bound, every order of summation; at a breakpoint either neighbouring piece", "why_tests_cant": "A test sees one rounding of one input; rounding modes, fused operations, vectorised products and other platforms give other ones.", "anchors": ["include/gsplines/GSpline.hpp: deriv_impl, operator+, operator-", "src/GSpline.cpp: operator*", "src/Basis/BasisLegendre.cpp: derivative_matrix_impl, gsplines_legendre_dmat, alpha, gamma", "src/Basis/Basis0101.cpp: derivative_matrix_impl", "src/Basis/BasisLagrange.cpp: derivative_matrix_impl"]}
{"id": "C88", "title": "Value and gradient of the cost in floating point arithmetic", "statement": "SobolevNorm::operator() and deriv_wrt_interval_len with rounded arithmetic do what they do with exact arithmetic, up to a small error: whatever the rounding errors, if the linear solver does not report a failure, no array is accessed out of range; the exact value and gradient are possible outcomes; and for given basis, weights, interval lengths and way points, if the errors of the operations and the backward error of the linear solver are small enough, every call succeeds, whatever the object was used for before, the value and every entry of the gradient are as close as wanted to those of exact arithmetic, the rest of the output buffer is not touched, and (for orders and weights for which the exact value is right) the value is as close as wanted to the weighted sum of the integrals of the squared derivatives of the interpolating curve.", "quantifier": "every basis that can interpolate (Lagrange bases whose nodes are not within the 1e-9 tolerance of an end point without being there), all weights for orders that the basis implements, all way points, every list of interval lengths of at least 1e-6, every history of calls with any errors and solvers, every sequence of rounding errors within the bound, every order of summation", "why_tests_cant": "An optimiser evaluates value and gradient thousands of times at points that no test visits, with results that depend on rounding and on the buffers left by previous calls.", "anchors": ["src/FunctionalAnalysis/Sobolev.cpp: operator(), deriv_wrt_interval_len, inner_prod", "src/Interpolator.cpp: solve_interpolation, get_coeff_derivative_wrt_tau, fill_position_block_der, fill_buffers", "src/Basis/BasisLegendre.cpp: add_derivative_matrix, add_derivative_matrix_deriv_wrt_tau", "src/Basis/Basis0101.cpp: add_derivative_matrix, add_derivative_matrix_deriv_wrt_tau, eval_derivative_wrt_tau_on_window"]}
{"id": "C89", "title": "Spline objects behave like values in every program", "statement": "In a program that constructs, copies, moves, adds, subtracts, negates, scales, multiplies and assigns spline objects in any order, with lvalue and rvalue operands and also with the same object named twice in one statement, every object that was not handed over as an rvalue holds the spline that the same program computes on values: an operation does not change its lvalue operands or any other object, the overloads for rvalues give the same result as those for lvalues, std::invalid_argument is thrown at the same statements and leaves every object, also the rvalue operands, as it was, and every object has the number of coefficients that its sizes require.", "quantifier": "every program (finite sequence of statements), every state of the objects, every combination of lvalue and rvalue operands, every aliasing of the operands", "why_tests_cant": "There are infinitely many programs; the rvalue overloads compute in the memory of an operand while they read it, so that the answer depends on which names denote the same object.", "anchors": ["include/gsplines/GSpline.hpp: operator+, operator-, operator+=, operator-=", "src/GSpline.cpp: copy and move constructor, operator*, operator-", "src/Collocation/GaussLobattoLagrange.cpp: operator*, operator-, operator="]}
{"id": "C90", "title": "Linear functionals behave like functions in every program", "statement": "In a program that constructs linear functionals on collocation splines from dense or sparse matrices, copies them, takes differentials, converts their storage, multiplies, adds, subtracts, negates and scales them and replaces one by another with set, every functional computes the function that the program describes: the composition for a product, values entry by entry for sums, differences, negatives and multiples, the values of the other functional after set. All of them are linear, and get_codom_dim() is the number of values that operator() returns.", "quantifier": "every program (finite sequence of statements), all matrices and sizes that fit, every combination of storage types that compiles, all coefficient vectors", "why_tests_cant": "There are infinitely many programs; whether an object still reports the right number of values depends on its history.", "anchors": ["include/gsplines/Collocation/GaussLobattoLagrangeFunctionals.hpp: Functional, LinearFunctional, set, operator*, operator+, operator-, to_dense_matrix, to_sparse_matrix, differential, get_codom_dim"]}
{"id": "C91", "title": "Interpolation is well posed", "statement": "The spline that interpolate(intervals, waypoints, basis) returns depends continuously on the interval lengths and on the way points, whatever linear solver is used and whatever memory it starts from: if lengths and way points of a second call are close enough to those of a first one, the pieces with equal number agree with all their derivatives, as functions on any bounded set of times, as closely as wanted; the values and derivatives (below half the dimension of the basis) of the two splines at close times agree as closely as wanted, also when the times fall on different sides of a breakpoint; the value of SobolevNorm::operator() at close lengths and way points agrees as closely as wanted. In the way points the dependence is Lipschitz: with equal lengths the two splines differ by at most a constant times the largest change of a way point coordinate.", "quantifier": "every basis that can interpolate, all lists of interval lengths of at least 1e-6, all way points, all small changes of both, any two exact linear solvers, all times in a bounded set", "why_tests_cant": "A test compares a few pairs of nearby inputs; a jump of the answer shows only between two inputs that are arbitrarily close.", "anchors": ["src/Interpolator.cpp: interpolate, solve_interpolation, fill_interpolating_matrix, fill_interpolating_vector", "src/GSpline.cpp: value_impl, get_interval", "src/FunctionalAnalysis/Sobolev.cpp: operator()"]}
{"id": "C92", "title": "From a sampled curve back to the curve", "statement": "Sample a curve that is at rest at both ends (and has dim continuous derivatives) at the breakpoints, with an error of at most mu in each sample, interpolate the samples with rounded arithmetic and an inexact linear solver, and evaluate the result with rounded arithmetic at a time of the domain: if the rounding errors and the backward error of the solver are small enough, both calls succeed and the numbers that come out differ from the position of the curve by at most the error of exact interpolation (which goes to zero like the step to the power dim - 1/2) plus a constant times mu plus a number as small as wanted.", "quantifier": "every basis that can interpolate (Lagrange bases with nodes away from the 1e-9 tolerance of the end points), every curve that is smooth enough and at rest at both ends, every list of interval lengths of at least 1e-6, every error of the samples, every time in the domain (away from the tolerance of Lagrange nodes), every sequence of rounding errors and linear solver within the bound, every history of the interpolator", "why_tests_cant": "A test sees one curve, one set of samples and one rounding.", "anchors": ["src/Interpolator.cpp: interpolate", "src/GSpline.cpp: value_impl", "src/Basis/BasisLegendre.cpp: eval_on_window", "src/Basis/BasisLagrange.cpp: eval_on_window", "src/Basis/Basis0101.cpp: eval_on_window"]}
{"id": "C93", "title": "Function expressions in floating point arithmetic", "statement": "operator() of any function object (elementary functions, splines, user functions, and sums, products, compositions, concatenations, negatives and scalar products of functions, nested to any depth) with rounded arithmetic does what it does with exact arithmetic, up to a small error: whatever the rounding errors, no array is accessed out of range, and if the call returns then the matrix has one row for each point and one column for each component; the exact values are a possible outcome; and on every bounded closed set of times at which the function does not jump, if the errors of the operations are small enough, a call with any number of points of the set succeeds and every entry is as close as wanted to the exact value, also if the points themselves carry small errors. At a time where the function jumps this is false.", "quantifier": "all function objects that the public interface can build, all points, every sequence of rounding errors within the bound, every order of summation in scalar products", "why_tests_cant": "A test sees one rounding at a few points; which piece of a concatenation is evaluated inside a composition depends on the rounding of the inner function.", "anchors": ["src/Functions/ElementalFunctions.cpp: value_impl", "src/Functions/FunctionSum.cpp: eval_sum_functions", "src/Functions/FunctionMul.cpp: eval_mul_functions", "src/Functions/FunctionsComp.cpp: eval_compose_functions", "src/Functions/FunctionsConcat.cpp: eval_concat_functions", "src/Functions/FunctionExpression.cpp: eval_unique_functions, eval_negative_functions", "src/GSpline.cpp: value_impl"]}
{"id": "C94", "title": "Integrals in floating point arithmetic", "statement": "integral(f, n, k) with rounded arithmetic, which computes its Gauss-Lobatto points and weights in the same arithmetic, does what it does with exact arithmetic, up to a small error: whatever the rounding errors, with two or more points nothing is accessed out of range; the exact result is a possible outcome; and for a scalar function that does not jump on its domain and is 2n-2 times continuously differentiable on each of the k intervals, if the errors of the operations are small enough, every run succeeds and returns the integral of f over its domain up to (b-a)(2 D h^(2n-2)/(2n-2)! + 1e-9 L h/2 + 2 (n-1/2)^4 1e-18 M), the error of exact arithmetic, plus a number as small as wanted, where h is the length of the intervals, D a bound of the derivative of order 2n-2, L a Lipschitz constant and M a bound of f.", "quantifier": "all scalar function objects that the public interface can build and that do not jump on their domain, all numbers of points (2 to 20000 for the accuracy) and of intervals, every content of fresh memory, every sequence of rounding errors within the bound, every order of summation", "why_tests_cant": "A test compares one integral on one platform with one known value.", "anchors": ["src/FunctionalAnalysis/Integral.cpp: integral", "src/Collocation/GaussLobattoPointsWeights.cpp: legendre_gauss_lobatto_points_and_weights"]}
{"id": "C95", "title": "Rounding changes the values of a spline in proportion to the rounding errors", "statement": "For a spline without jumps there are a constant C and a bound such that, whenever the errors of the operations are below the bound, every evaluation succeeds and every component of its result differs from the result of exact arithmetic by at most C times the size of the errors (relative plus absolute). One C serves all times of a bounded interval, breakpoints included. If the time itself is only known approximately, the error is at most C times the size of the errors plus the error of the time. With a Lagrange basis this is claimed only at times where rounding does not decide whether a node is hit: there, a result may be off by 1e-9 however small the errors.", "quantifier": "all splines with positive interval lengths and an admissible basis, all times of a compact set (Lagrange: whose places in the window are nodes or farther than 1e-9 (1 + |s|) from the nodes), all relative and absolute errors below the bound, all roundings within them, all orders in which the sums are taken", "why_tests_cant": "A test sees the rounding of one processor on sampled times; a constant for all times and all roundings cannot be sampled.", "anchors": ["src/GSpline.cpp: value_impl, get_interval, interval_to_window", "src/Basis/BasisLegendre.cpp: eval_on_window", "src/Basis/BasisLagrange.cpp: eval_on_window, almost_equal, barycentric_weights", "src/Basis/Basis0101.cpp: eval_on_window"]}
{"id": "C96", "title": "The error of interpolation is proportional to the rounding errors", "statement": "For a basis, interval lengths and way points there are a constant C and a bound such that, whenever the errors of the operations and the backward error of the linear solver are below the bound, every call of interpolate succeeds, whatever the interpolator was used for before, and meets the conditions of the interpolation problem (way points, continuity of the derivatives, rest at the ends) up to C times the sum of those errors; the curve and its derivatives up to any chosen order are that near to the interpolating curve of exact arithmetic. Evaluating the result with rounded arithmetic gives values that differ from the exact ones by at most C times the sum of the errors of interpolation, evaluation and solver, with one C for all times of a bounded interval. If the way points are samples of a smooth curve at rest at both ends, with errors of at most mu, the values differ from the curve by at most the error of exact interpolation plus a constant times mu plus a constant times the sum of the errors.", "quantifier": "every basis that can interpolate (Lagrange bases with nodes away from the 1e-9 tolerance of the end points), every list of interval lengths of at least 1e-6, all way points, every history of the interpolator, all errors below the bound, all roundings within them, every linear solver with that backward error, all times of a compact set (Lagrange: away from the tolerance of the nodes)", "why_tests_cant": "A test sees one rounding and one solver; that halving the unit roundoff halves the error, for all roundings, cannot be sampled.", "anchors": ["src/Interpolator.cpp: interpolate, solve_interpolation, fill_interpolating_matrix, fill_interpolating_vector, fill_buffers", "src/GSpline.cpp: value_impl, get_interval, interval_to_window", "src/Basis/BasisLegendre.cpp: eval_derivative_on_window", "src/Basis/BasisLagrange.cpp: eval_derivative_on_window, derivative_matrix", "src/Basis/Basis0101.cpp: eval_derivative_on_window"]}
{"id": "C97", "title": "The errors of derivatives and arithmetic of splines are proportional to the rounding errors", "statement": "For a spline and an order of differentiation there are a constant C and a bound such that, whenever the errors of the operations are below the bound, deriv succeeds with a spline that has the same domain, intervals, basis and components, and evaluating it gives, in every component, the derivative of a piece whose interval touches the time, up to C times the sum of the errors of differentiation and evaluation. Where the derivatives of the pieces agree at the breakpoints, one C serves all times of a bounded interval. The same holds for sums, differences and multiples of splines. Interpolating way points, differentiating up to dim - 2 times and evaluating, each with rounded arithmetic, gives the position, velocity, acceleration and so on of the interpolating curve of exact arithmetic up to a constant times the sum of the errors of the three steps and the backward error of the linear solver, with one constant for all times of a bounded interval.", "quantifier": "all splines with positive interval lengths and an admissible basis, all orders (basis 0101: up to two), all numbers, all way points and interval lengths of at least 1e-6, every history of the interpolator, all times of a compact set (Lagrange: away from the tolerance of the nodes), all errors below the bound, all roundings within them, every linear solver with that backward error", "why_tests_cant": "A test sees one rounding and one solver at sampled times; that the error shrinks in proportion to the unit roundoff, for all roundings, cannot be sampled.", "anchors": ["src/GSpline.cpp: deriv, value_impl, get_interval, interval_to_window", "src/GSpline.cpp: operator+, operator-, operator*", "src/Interpolator.cpp: interpolate", "src/Basis/BasisLegendre.cpp: derivative_matrix", "src/Basis/BasisLagrange.cpp: derivative_matrix", "src/Basis/Basis0101.cpp: derivative_matrix"]}
{"id": "C98", "title": "The errors of the cost and its gradient are proportional to the rounding errors", "statement": "For a basis, weights, interval lengths and way points there are a constant C and a bound such that, whenever the errors of the operations and the backward error of the linear solver are below the bound, every evaluation of the Sobolev norm and every call of deriv_wrt_interval_len succeeds, whatever the object was used for before; the value, and each entry of the gradient, differs from that of exact arithmetic by at most C times the sum of the errors, and the other entries of the buffer are not touched. Where the exact value is the weighted sum of the integrals of the squared derivatives of the interpolating curve (see C41), the computed value is that near to this sum. If the exact cost decreases from one list of interval lengths to another by more than a constant times the errors, then so does the computed cost.", "quantifier": "every basis that can interpolate (Lagrange bases with nodes away from the 1e-9 tolerance of the end points), all weights of orders that the basis implements, every list of interval lengths of at least 1e-6, all way points, every history of the object, all errors below the bound, all roundings within them, every linear solver with that backward error", "why_tests_cant": "A test sees one rounding and one solver; finite differences cannot tell an error of the gradient from their own.", "anchors": ["src/FunctionalAnalysis/Sobolev.cpp: operator(), deriv_wrt_interval_len, inner_prod", "src/Interpolator.cpp: solve_interpolation, get_coeff_derivative_wrt_tau", "src/Basis/BasisLegendre.cpp: add_derivative_matrix", "src/Basis/BasisLagrange.cpp: add_derivative_matrix", "src/Basis/Basis0101.cpp: add_derivative_matrix, add_derivative_matrix_deriv_wrt_tau"]}
{"id": "C99", "title": "Rounding changes the values of function expressions in proportion to the rounding errors", "statement": "For a function expression and a bounded closed set of points at which it does not jump and the functions of the user in it are Lipschitz, there are a constant C and a bound such that, whenever the errors of the operations are below the bound, the evaluation at any list of points of the set succeeds and every component differs from the value of exact arithmetic by at most C times the size of the errors (relative plus absolute). If the points themselves carry errors, the error of the value is at most C times the size of the errors plus the error of the point. In exact arithmetic the function is Lipschitz on every bounded interval of such points. Where a function of the user is only continuous (a square root at zero) the error need not be proportional.", "quantifier": "all function objects that the public interface can build (constants, polynomials, elementary functions, functions of the user, splines, sums, products, scalar products, compositions, concatenations, in any nesting), all compact sets of such points (the junctions of concatenations and splines included), all lists of points, all errors below the bound, all roundings within them", "why_tests_cant": "A test sees the rounding of one processor at sampled points; a constant for all points, nestings and roundings cannot be sampled.", "anchors": ["src/Functions/FunctionExpression.cpp: eval_unique_functions, eval_negative_functions", "src/Functions/FunctionSum.cpp: eval_sum_functions", "src/Functions/FunctionMul.cpp: eval_mul_functions", "src/Functions/FunctionsComp.cpp: eval_compose_functions", "src/Functions/FunctionsConcat.cpp: eval_concat_functions", "src/Functions/ElementalFunctions.cpp: value_impl", "src/GSpline.cpp: value_impl"]}
{"id": "C100", "title": "The errors of the Gauss-Lobatto rule and of integrals are proportional to the rounding errors", "statement": "For a number n of at least two points there are a constant C and a bound such that, whenever the errors of the operations are below the bound, every computation of the points and weights succeeds; each point is within 1e-9 plus C times the size of the errors (relative to the point) of the zero of (1 - x^2) P'_{n-1} with the same index, and each weight is positive and within C times the size of the errors of 2 / (N (N + 1) P_N(x)^2), N = n - 1, at the returned point. For a scalar function without jumps that is smooth on each of the k intervals, and n up to 20000, integral(f, n, k), with points, weights and values all computed with rounding, returns the integral up to the error of exact arithmetic plus a constant times the size of the errors.", "quantifier": "all n >= 2 (integrals: n <= 20000), all k >= 1, all scalar function objects that the public interface can build, without jumps, Lipschitz and smooth on the pieces, all errors below the bound, all roundings within them, all previous contents of the memory", "why_tests_cant": "A test sees one rounding; Newton's iteration may stop one step earlier or later under another rounding, and that the result is still in proportion cannot be sampled.", "anchors": ["src/Collocation/GaussLobattoPointsWeights.cpp: legendre_gauss_lobatto_points_and_weights, q_and_evaluation", "src/FunctionalAnalysis/Integral.cpp: integral"]}
{"id": "C101", "title": "The errors of collocation are proportional to the rounding errors", "statement": "For a function without jumps, a number n of at least two points per interval and a number m of at least one interval there are a constant C and a bound such that, whenever the errors of the operations are below the bound, GaussLobattoLagrangeSpline::approximate(f, n, m) succeeds with a spline that has the domain and components of f and m intervals, each as long as an m-th of the domain up to C times the size of the errors; the basis is the Lagrange basis at points as near to the Gauss-Lobatto points as the rule computes them (C100), and the value stored for a point of an interval is that of f at this point, up to C times the size of the errors. If f is n times continuously differentiable on the intervals with the n-th derivative bounded by M, and Lipschitz with constant L, then (n up to 44000) the spline is, at every time of the domain, that near to f as the spline of exact arithmetic, M h^n / n! + 1e-9 L h / 2 with h the length of the intervals, plus C times the size of the errors. The result of exact arithmetic is one of the possible results.", "quantifier": "all function objects that the public interface can build, without jumps and with Lipschitz functions of the user, all n >= 2 (values between the points: n <= 44000), all m >= 1, all errors below the bound, all roundings within them, all previous contents of the memory, all times of the domain", "why_tests_cant": "A test sees one rounding at sampled times; that rounded points and breakpoints never move a sample to a wrong place, for all functions, sizes and times, cannot be sampled.", "anchors": ["src/Collocation/GaussLobattoLagrange.cpp: approximate, identity", "src/Collocation/GaussLobattoPointsWeights.cpp: legendre_gauss_lobatto_points_and_weights", "src/GSpline.cpp: value_impl, get_interval, interval_to_window"]}
{"id": "C102", "title": "Approximating a function and evaluating the result is accurate when both are done with rounded arithmetic", "statement": "For a function without jumps that is n times continuously differentiable on each of m equal intervals of its domain, with n between 2 and 44000, there are a constant C and a bound such that, whenever the errors of the operations are below the bound, GaussLobattoLagrangeSpline::approximate(f, n, m) succeeds, and every evaluation of the returned spline at any time of the domain, again with errors below the bound, returns as many components as f has, each within M h^n / n! + 1e-9 L h / 2 + C times the sum of the errors of both steps of the value of f, where h is the length of an interval, M bounds the n-th derivative on the pieces and L is a Lipschitz constant. This holds although the nodes and the breakpoints are themselves rounded, so that the comparisons with them can come out either way. In particular evaluating identity(domain, n, m) returns the time up to 1e-9 h / 2 plus C times the errors.", "quantifier": "all function objects that the public interface can build, without jumps, Lipschitz and smooth on the pieces, all n from 2 to 44000, all m >= 1, all times of the domain (those at and near nodes and breakpoints included), all errors below the bound, all roundings within them, all previous contents of the memory", "why_tests_cant": "A test sees one rounding at sampled times; the dangerous times are those next to rounded nodes and breakpoints, and a bound for all of them and all roundings cannot be sampled.", "anchors": ["src/Collocation/GaussLobattoLagrange.cpp: approximate", "src/GSpline.cpp: value_impl, get_interval, interval_to_window", "src/Basis/BasisLagrange.cpp: eval_on_window, barycentric_weights, almost_equal"]}
{"id": "C103", "title": "The values of a spline change in proportion to the errors of its data; scaling in time is accurate with rounded arithmetic", "statement": "For a spline g without jumps and a compact set of times there are a constant C and a bound such that, if the interval lengths, the coefficients, the parameter of Basis0101 and the time are each off by at most eps and the operations have errors u, both below the bound, every evaluation succeeds and every component is within C (u + eps) of the value of g at the intended time. Scaling such a spline with linear_scaling_new_execution_time(T), T at least 1e-8, with rounded operations succeeds with a spline that has the same start, number of components, number of intervals and coefficients, whose domain ends within C (u + eps) of start + T and whose values are, at the scaled times, within C times the sum of all errors of the values of g. In particular this holds for the result of a rounded interpolation with a backward stable solver, compared with the curve that interpolates exactly.", "quantifier": "all splines without jumps with positive interval lengths, valid basis (positive parameter for Basis0101), all T >= 1e-8, all compact sets of times at which rounding does not decide whether a Lagrange node is hit, all errors below the bound, all roundings within them", "why_tests_cant": "A test sees one spline, one perturbation and one rounding; near a breakpoint the perturbed lengths move the time to the other interval, and a bound for all perturbations cannot be sampled.", "anchors": ["include/gsplines/GSpline.hpp: linear_scaling_new_execution_time", "src/GSpline.cpp: value_impl, get_interval, interval_to_window", "src/Basis/Basis0101.cpp: eval_on_window", "src/Interpolator.cpp: interpolate"]}
{"id": "C104", "title": "Scaling to bounds of velocity and acceleration is accurate with rounded arithmetic", "statement": "For a spline of which position, velocity and acceleration have no jumps, positive bounds of the velocity and of the acceleration for each component and a step of at least 1e-8 there are a constant C and a bound such that, whenever the errors of the operations are below the bound and the spline moves at some sampled instant, linear_scaling_new_execution_time_max_velocity_max_acceleration succeeds. Let n be the number of segments: the integer part of length / step, or one less if this quotient is an integer. The result has the coefficients of the original; its interval lengths, its end and the parameter of its basis are within C times the size of the errors of those of a curve that is the original run some factor f slower, respects both bounds in all components at the n + 1 equally spaced instants and attains one of them. Evaluating the result, again with rounded operations, at a time off by at most eps gives the original at the corresponding time up to C times the sum of all errors. The same holds if the coefficients and the end of the spline are themselves slightly off, with this error in the sum; in particular for a spline with at least four basis functions that a rounded interpolation with a backward stable solver returned, compared with the curve that interpolates exactly. With a step below 1e-8 or a wrong number of bounds the only outcome is invalid_argument.", "quantifier": "all splines with positive interval lengths, valid basis (positive parameter for Basis0101) and continuous first and second derivative, all positive bounds, all steps >= 1e-8, all compact sets of times, all errors below the bound, all roundings within them", "why_tests_cant": "A test sees one spline and one rounding; rounding can change the number of samples and move samples across breakpoints, and the square root is not Lipschitz at zero, so a bound for all roundings cannot be sampled.", "anchors": ["include/gsplines/GSpline.hpp: linear_scaling_new_execution_time_max_velocity_max_acceleration", "src/GSpline.cpp: value_impl, get_interval, deriv_impl"]}
{"id": "C105", "title": "Inner products and norms of functions are accurate with rounded arithmetic", "statement": "For two functions with the same domain and number of components, if the weighted sum of the scalar products of their derivatives is smooth on each of k equal intervals and the derivatives that occur have no jumps, there are a constant C and a bound such that, whenever the errors of the operations are below the bound, sobolev_semi_inner_product returns the integral of this sum up to the error of exact arithmetic plus C times the size of the errors (errors made while the coefficients of differentiated polynomials and splines are computed are not counted; see C87 for them). For l2_inner_product and l2_norm nothing is assumed of the derivatives: derivate(0) returns an object that evaluates like the function itself, at every point, corners and breakpoints included. No run accesses memory out of range whatever the errors, and the result of exact arithmetic is one of the possible results.", "quantifier": "all function objects that the public interface can build, all lists of orders and weights for which the derivatives are computed correctly (C06), all 2 <= n <= 20000, all k >= 1, all errors below the bound, all roundings within them, all previous contents of the memory", "why_tests_cant": "A test sees one pair of functions and one rounding; a bound for all functions and roundings cannot be sampled.", "anchors": ["src/FunctionalAnalysis/Sobolev.cpp: sobolev_semi_inner_product, sobolev_semi_norm, sobolev_inner_product, sobolev_norm, l2_norm, l2_inner_product", "src/FunctionalAnalysis/Integral.cpp: integral", "src/Functions/FunctionBase.cpp: derivate, dot"]}
{"id": "C106", "title": "Linear functionals on collocation splines have explicit error bounds with rounded arithmetic", "statement": "If each operation on doubles has a relative error of at most u plus an absolute error of at most e, a linear functional with m columns, dense or sparse, applied to a spline returns in each component the sum of the products of the entries of its row and the coefficients, up to (1 + u)^m - 1 times the sum of the sizes of these products plus 2 m (1 + u)^m e. The product of two functionals has the entries of the product of the matrices up to the error of the same form, and applied to a spline it gives what one functional gives on the values of the other, with the powers of the two numbers of columns added. Entries of sums, differences, negatives and multiples are off by one rounding. Operands whose sizes do not fit are combined with undefined behaviour. Integral, built with n points on m intervals, returns on a scalar spline the sum of half the length times the weighted sum of the values on each interval, up to the error of the same form with n m + 4 in place of m; if the values are those of polynomials of degree at most 2 n - 3 at the computed points, it returns the integrals of the polynomials up to the error of the points and weights. Derivative of any order has, for positive interval lengths and a polynomial basis, the entries of the matrix that maps the coefficients of each spline to those of its derivative, up to a constant times u + e, and so has the derivative it returns. TransposeLeftMultiplication and MatrixLeftMultiplication give at each node the scalar product with the last assigned spline and the product with the last given matrix, up to the error of a sum of as many products as there are components.", "quantifier": "all matrices, dense and sparse with any stored entries that include the non-zero ones, all coefficients, all u, e >= 0, all roundings within them, all orders of summation", "why_tests_cant": "A test sees one matrix, one order of summation and one rounding; the bound is over all of them, and sparse and dense storage add the same products in different orders.", "anchors": ["include/gsplines/Collocation/GaussLobattoLagrangeFunctionals.hpp: LinearFunctional::operator(), operator*, operator+, operator-", "src/Collocation/GaussLobattoLagrangeFunctionals.cpp: Integral::Integral, Derivative::Derivative", "include/gsplines/Collocation/GaussLobattoLagrangeFunctionals.hpp: TransposeLeftMultiplication, MatrixLeftMultiplication", "src/Basis/Basis.cpp: gspline_derivative_matrix", "src/Collocation/GaussLobattoPointsWeights.cpp: legendre_gauss_lobatto_weights"]}
