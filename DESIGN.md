# Formal model of gsplines_cpp in Lean 4

## 1. Conventions

* `double` is modelled by the real numbers `ℝ`. Rounding is modelled only for the evaluation of splines (`Model/Rounding.lean`, C70), for interpolation (`Model/RoundingInterp.lean`, C85), for the Gauss-Lobatto points and weights (`Model/RoundingGLL.lean`, C86), for collocation (`Model/RoundingColloc.lean`, C101), for scaling in time (`Model/RoundingScaling.lean`, C103, C104), for derivatives, sums and multiples of splines (`Model/RoundingSpline.lean`, C87) for the evaluation and integration of function expressions (`Model/RoundingFn.lean`, C93, C94; inner products `Model/RoundingProducts.lean`, C105; linear functionals `Model/RoundingFunctionals.lean`, C106) and for the value and the gradient of the cost (`Model/RoundingSobolev.lean`, C88): there each operation returns any
  number within a relative plus an absolute error of the exact result, and a program has a set of outcomes. Overflow, NaN and infinities are not modelled; a division by
  zero is the outcome `notFinite`.
  Decimal literals that stand for irrational constants (`0.35355339059327379`) are read as the constant they
  approximate (`√2/4`).
* `Eigen::VectorXd` is modelled by `List ℝ` where its size matters and by `ℕ → ℝ` where the size is carried separately.
  Dense and sparse matrices are functions `ℕ → ℕ → ℝ` with the sizes carried separately.
* `std::size_t` / `unsigned` are `ℕ`. Where the code subtracts unsigned numbers and may wrap around, the wrap-around
  is modelled as an explicit outcome.
* Exceptions, failed `assert`s and undefined behaviour (out-of-range access, use of `front()` of an empty list, shape
  mismatch of an Eigen buffer) are different outcomes of the type `Err`. A function that can fail returns `Except Err _`.
  The model is the build with assertions on (no build type is set by default in CMakeLists.txt, and only
  `CMAKE_CXX_FLAGS_RELEASE` contains `-DNDEBUG`); what happens without assertions is stated separately where it matters.
* Value semantics: objects are immutable values; an in-place update returns the new value; a `mutable` cache becomes a
  state passed in and out.
* External code is a parameter with a stated contract: `Eigen::SparseLU` (returns `some x` with `A x = b`, or `none` for failure),
  ipopt (returns a status and a vector), Newton's iteration is modelled as it is; its convergence is proved.
* A division by zero in double arithmetic does not stop the program; it continues with inf or NaN. The model has no such numbers: the outcome is the
  distinct error `notFinite`.

## 2. Layout of the Lean project

* `Verif/Model/*`  definitions that model the code; each cites file and lines of /repo.
* `Verif/Spec/*`   small, independent specifications (mathematical meaning).
* `Verif/Proofs/*` helper lemmas.
* `Verif/Props/*`  the property theorems, each followed by an `example` showing its hypotheses are met by a concrete case.

## 3. Plan per property

C01-C06, C08-C10  function algebra. `Model/Fn.lean` has an inductive type of function objects (leaves: the elementary
functions, GSplines, an arbitrary user function given by its tower of derivatives; nodes: `FunctionExpression` with its type tag, domain,
codomain dimension and children; `DotProduct`), `eval` (value at a point) and the operators exactly as they flatten and
reorder children. Evaluation laws are proved by induction over the children list and a well-formedness invariant that is
proved to be preserved by every operator. C06: `deriv n` is proved to be the analytic derivative (`HasDerivAt`) by structural induction for
first derivatives and induction over `n`. C02, C04, C05 are false of the code in some cases: the negation is proved with a witness, and the largest true part is `_partial`.
C10: a batch evaluator that follows the code's buffers is proved equal to point-wise evaluation.

C07  elementary functions: induction over the order; polynomials through Mathlib's `Polynomial.derivative`.

C11-C18, C20  GSplines: `Model/GSpline.lean`. Scan loop by induction over the list of lengths. Derivative through the
basis derivative-matrix theorems. C13, C14, C17, C20 have false parts, treated as above. C20: `==` ignores the domain, and near a jump splines that
compare equal can differ by any amount (`C20_eq_jump_false`).

C19  `Model/Tools.lean`, direct case analysis; state = the two globals.

C21-C25  Legendre: `Model/Legendre.lean`; specification by Rodrigues' formula on `Polynomial ℝ`. Recurrences by strong
induction. C24 is false for order >= 1: negation + order 0 as partial.

C26-C28  Lagrange: specification by Mathlib's `Lagrange.basis`. C28 false when a new point coincides with an old one before another that does not.

C29-C31  Basis0101: specification with `Real.exp/cos/sin` and interval integrals. C30 right exactly for order <= 2, or alpha = 1/2 and order divisible by eight (`C30_basis0101_derivative_matrix_iff`), C31 false for order 2 and tau ≠ 2.

C32-C34  caches: state machine over histories.

C35, C36  decision logic.

C57 exactly one interpolating spline: an energy argument (the derivative of order dim/2 of a solution of the homogeneous problem has norm zero).
C37-C40  Interpolator: the loops that write the sparse matrix are modelled as written; rows are characterised by an
index bijection; the solver is a parameter.

C41-C43  Sobolev norms; C41 false for more than one weight (and inherits C24); gradient through the product rule. Homogeneity of the inner products of C43 at points that are not smooth: the values of all repeated first derivatives at a point form a power series, and the one of a product is the product (`Proofs/FnJet.lean`); the same argument gives `C06_product_rule`.

C44-C46  Gauss-Lobatto: recurrences; Newton iteration kept as code. Its convergence for every n (C45): with x = -cos t, sqrt(sin t) P_N and its derivative
        are written with a phase that grows between two bounds (`Proofs/GLLPhase.lean`); each starting guess lies in a window around one zero where the
        iteration is a contraction (`Proofs/GLLNewton.lean`). The zeros are all the zeros of (1-x²)P_N' by counting (`Proofs/GLLQuad.lean`).

C47-C50, C58, C59  collocation splines, their arithmetic and assignment, and functionals: the model acts on the coefficient list block by block as the code does; the theorems speak of `value_at` and of values of the curve. C58 is false for interval lengths (not assigned) and for vectors of another size.

C51-C53, C55, C60, C61  options, optimisation problem and optimisers: ipopt is a parameter (a function from options and problem to a status and a vector, or an exception); the theorems hold for every such function. C52 is false for intervals below 1e-6, C61 is false.

C54  serialization: Python values as a tree, `isinstance` checks as in the code; round trip by case analysis on the kind of basis; the accepted dictionaries are characterised exactly (`Spec/Serial.lean`).

C56  Sobolev matrices of the Lagrange basis by the change of basis from Legendre; exactly for which orders the result is right.

C62  `random_gspline`: the random numbers are a parameter; everything but the start of the domain is proved, the start is refuted.

C63, C64  `ContinuityError` and the ifopt wrappers (`Model/Wrappers.lean`): jumps through the rows of `continuity_matrix` (C33), exact Jacobians by linearity
and by C50. C64 is false for vectors of another size and after an update to another number of intervals.

C65  `collocation::integral(diffeo, path)`: composition of C04, C08, C43.

C66  Least cost: rivals are specified as piecewise C^m curves (`Spec/Minimal.lean`), independent of splines; the proof integrates by parts over the pieces
(`Proofs/Minimal.lean`), using the differential equation of the basis functions and the conditions of C37.

C67  Quadrature: the exact rule integrates degree 2N-1 by Christoffel's kernel (`Proofs/GLLQuad.lean`, `exact`), the difference between computed and exact
     points and weights is bounded (`Proofs/GLLError.lean`), and the composite rule is a substitution on each interval. Props/GLLNodes.lean; for collocation splines and the Integral functional Props/CollocQuad.lean.
C68  A call is the list of its accesses to the buffer (`Model/Threads.lean`); an invariant (`OnTrack`: executing the rest of the call alone gives the goal) is preserved by every
     step as long as threads on one object take turns. For a shared object a schedule is constructed for every spline and two points. Props/Threads.lean.
C69  The cost is a continuous function of the lengths (Cramer's rule on the system of C57) on the compact set of lengths of at least 1e-6 with the given sum, so a global minimum
     exists; at the minimum the value of the cost is that of the spline (C41), and the spline is best for its own times (C66), so it is best for all times. The solver is a
     parameter, assumed to report success only at global minima. Where the cost is wrong (Legendre) a counterexample with three way points.
C70  `Model/Rounding.lean` repeats `value_impl` and `eval_on_window` of the three bases with rounded operations. In range: the index found by `get_interval` is in range on every path.
     Convergence: a predicate transformer (`ConvAt`) says that all outcomes tend to a limit as the errors and the change of the input tend to zero; it is closed under
     sequencing and loops, and holds for each operation by continuity. The search of the interval is not continuous; its outcomes are the intervals that touch the time.
C71  `Model/ThreadsCache.lean` splits `get_derivative_matrix_block` into its accesses to the cached vector. Invariant in every schedule: entry `k` of the vector of an object that held the orders below `n` is the
     matrix of an order between `min k n` and `k`, and the local counter of a thread lies between `n` and the size. With turns the invariant is that the vector is a prefix of the right sequence. The refutation
     schedules two threads explicitly.
C72  `Model/Refs.lean` gives the vector of blocks an allocation number and a capacity (rule of growth as parameter) and lets a reference name an entry of one allocation or a value of a map. Invariants on the caches
     (those of C32-C34, and that the vector holds the orders of all keys of the maps) give the validity of references; the refutations are a request of the order equal to the capacity, and a concrete overwritten matrix.
C73  One lemma on families of analytic pieces: two families that solve the same differential equation with the same way points, end and joining conditions are equal (the energy identity of C57, then analytic
     continuation). Solutions are closed under affine combinations, changes of time, reversal and cutting a piece; the curve of an interpolating spline is a solution. Each symmetry follows by uniqueness.
C74  The cost is a sum over intervals and components of forms of coefficients (C41, `cost_spline`). Linear relations between way points become linear relations between
     coefficients (C73 and the independence of the basis functions), so similarities, components and the parallelogram law are algebra and hold whatever matrices are used. Time: how
     each matrix scales. Reversal: the matrices of Legendre bases, right or wrong, have no entries between an even and an odd function (induction over the powers of the derivative
     matrix); for the other bases the integrals are substituted. Translation: integrals of derivatives; refuted for Legendre bases with C41's witness and the similarity law with r = 0.
C75  `Model/Special.lean` repeats the evaluation, the comparisons and the checks of arguments over doubles with infinities and "not a number" (IEEE 754 rules, finite numbers exact, zeros without
     sign). On finite data it is proved to agree with the model over the reals. The rest follows how special values spread through sums, products and the scan for the interval. The refusals
     are refuted with infinite lengths and with "not a number"; the permitted results of Eigen's `maxCoeff` are a relation.
C76  `Model/Failure.lean` repeats the member functions that change their object, with the object at the end of the call beside the outcome, also when the outcome is an exception; `C76_same_calls` shows
     that dropping the object gives the functions of the rest of the model. Histories with caught exceptions (`Spec/Failure.lean`) are shown to reach only states that are reachable without them
     (Interpolator, SobolevNorm), and the outcome does not depend on the state. For the loops that write piece by piece: every place is either untouched or overwritten by the complete call. Props/Failure.lean.
C77  Every allocation without initialisation is a parameter of the model (`jp`, `jw`, `junk`, `buff`, `LagMem.junk`, `Memory`). `Spec/Uninit.lean`: lists of calls and their answers. Proved by relating two runs: equality of the
     results of functions; for objects a relation "differ at most in that member" that every call preserves, by induction on the list of calls. Disproved for `get_coeff_derivative_wrt_tau` with the number of an interval
     that does not exist and for Lagrange Gram matrices, by evaluating the answers.
C78  `Model/Own.lean`: `FunctionExpression` as an object that owns a list of pointers (a `unique_ptr` is represented by what it owns, or is empty); every overload moves or clones them in the order of the code; loops
     that write into the list they walk through are loops that may not end. `Spec/Own.lean`: the same programs on values. Proved by a refinement, statement by statement: every valid variable is an object without empty
     pointers that represents its function. Frame and exception parts by a syntactic invariant of the computations, in every state. False for objects named twice and moved from: concrete programs.
C79  `Model/Views.lean`: the two functions return references to members, and the argument of `get_coeff_derivative_wrt_tau` may be such a reference; the product is the loop of Eigen (result set to zero, then column by
     column), which reads its right hand side while it writes the result. `Spec/Views.lean`: the same programs with copies. Proved by induction on the program: same object, and the references that are current show the
     copies. False: two solutions with different way points; the loop with the result as right hand side computes zero (induction), and for Legendre bases the row of the first velocity shows that zero is wrong.
C80  `Model/Colloc.lean` `discretization`, `valueAt`, `ofGSpline`: the list is computed index by index; the values at the nodes come from C47. False for unequal intervals and for other bases.
C81  `Model/Bindings.lean`: the classes and overloads that bindings.cpp registers, attribute lookup and overload selection of pybind11, and what each overload executes (operations of `Model/Fn.lean`).
     Equality with the C++ operations by cases on the classes, programs by induction; values from C01-C08. False for splines (exact condition for TypeError) and for functions written in Python.
C82  No new model. The remainder of polynomial interpolation by repeated use of Rolle's theorem on the zeros of the error at the nodes (`Proofs/Approx.lean`); near nodes C47_near_node; the quadrature by comparison
     with an interpolating polynomial of degree `2 n - 3` and the exactness of the Gauss-Lobatto rule (C67).
C83  No new model. The error vanishes at the way points and is at rest at both ends, so `∫ e^(d)² ≤ h² ∫ e^(d+1)²` by integration by parts over all pieces (`Proofs/SplineError.lean`); the spline is orthogonal to the
     error (C66), hence `∫ e^(m)²` is bounded by the residual of the curve; pointwise bounds by integrating `2 e e'` from both ends; what the object returns from C14.
C84  No new model: the solver `LU` is an arbitrary function already. `Spec/Residual.lean` says what an approximate solution and a stable solver are. The rows of the system that a call sets up are those of the
     conditions in every state (`call_system`, `call_derivative`), so a residual is an error in a condition; the inverse of the system bounds the error of the coefficients, and the basis functions and Sobolev
     matrices, which are bounded for given lengths, bound the error of curve, cost and gradient (`Props/Residual.lean`).
C85  `Model/RoundingInterp.lean` repeats `eval_derivative_on_window` of the three bases, the filling of the matrix, `solve_interpolation` and `interpolate` with rounded operations; the linear solver stays a
     parameter (`StableLU`: small backward error, succeeds on matrices that are well conditioned relative to it). Every outcome of the filling is the exact filling of some buffers (`fillMatrix_out`), the
     buffers converge to those of the exact run (`evalDeriv_conv`), so the matrices do; a matrix near the regular exact one is well conditioned and its approximate solutions are near the exact solution
     (`perturbed`); evaluation with approximate coefficients (`value_near`). A fused multiplication and addition is one of the outcomes of the two operations.
C86  `Model/RoundingGLL.lean` repeats `q_and_evaluation` and `legendre_gauss_lobatto_points_and_weights` with rounded operations. Newton's iteration may stop one or more steps earlier or later than with
     exact numbers: `Stops` lists the values at which it can stop, all in the window of the exact iteration and within 1e-9 of the zero (`newton_ev`, `stops_good`); symmetry and assignment of every entry
     hold for every outcome (`pointsWeights_any`, `result_spec`); accuracy, order and quadrature from nearby exact arrays (`PwOk.arr`) and the error analysis of C67 (`quad_error_arr`).

C87  `Model/RoundingSpline.lean` repeats the derivative matrices of the three bases, `deriv_impl` and the arithmetic of splines with rounded operations, every product of matrices with sums in
any order. No index is out of range for any errors (`C87_in_range`), the exact outcome is possible (`C87_exact`), and derivative followed by evaluation converges to the derivative of the curve when
the errors go to zero (`C87_derivative`, uniform in a perturbation of the coefficients). With C85 this gives the chain interpolate, differentiate, evaluate (`C87_interpolated`). Sums,
differences, multiples: `C87_sum`, `C87_multiple`.

C88  `Model/RoundingSobolev.lean` repeats `SobolevNorm::operator()`, `deriv_wrt_interval_len`, `get_coeff_derivative_wrt_tau` and the functions of the bases that they call (the expressions of
Basis0101.cpp:181-911 as terms `Ex` with the parentheses of C++) with rounded operations. No index is out of range (`C88_value_in_range`, `C88_gradient_in_range`) unless the solver reports a failure
in the first call (`C88_solver_failure_out_of_range`). The exact outcome is possible (`C88_value_exact`, `C88_gradient_exact`). Convergence for every history of the object: `C88_value`,
`C88_gradient`; with C41 to the integrals: `C88_integral`. Proof: continuity of each step in (errors, arguments) at (0, exact arguments), and the perturbation lemma of C84 for the two linear systems.

C89  `Model/SplineObj.lean`: splines as the objects of a program. The rvalue overloads of GSpline.hpp:150-231, GSpline.cpp:203-222 and GaussLobattoLagrange.cpp:223-388 run their loops in the memory of an operand, entry by entry, and
then move it out. `Spec/SplineObj.lean`: the same programs on values. Refinement for every program, by induction on the program; the loops by an invariant that says which entries have been replaced, which also covers operands that
are the same object (`C89_values`). `C89_unchanged`, `C89_throw` in every state. `C89_pointwise_partial`, `C89_assign_partial`: what the results evaluate to. `C89_overload_false`: `x + y` and `x + std::move(y)` differ if the domains differ.

C90  `Model/LinFun.lean`: linear functionals as objects with a storage type, a matrix and the number `codom_dim_`; programs of constructions, copies, algebra, conversions and `set`. The
specification (Spec/LinFun.lean) runs the same program on functions. Refinement by induction over the program. False for `set` of a dense functional into a sparse one (it throws) and for
`get_codom_dim()` after a `set` that changes the number of values. Combinations of storage types that Eigen rejects are a distinct outcome of the model.

C91  Proofs/WellPosed.lean: the coefficients are a continuous function of lengths and way points together (the inverse of a regular matrix that depends continuously on them), the pieces are
jointly continuous in data and time, and a uniform bound on compact sets follows. At different sides of a breakpoint the continuity of the spline (C05) closes the gap. Lipschitz in the way points by
the inverse of the system.

C92  Triangle inequality over C83, C91 and C85, with the constants and quantifiers in the order that makes the constant of the samples independent of samples, errors and time.

C93  `Model/RoundingFn.lean` follows `value_impl` of every class operation by operation, as a nondeterministic program (`Nd`) on one point. `Spec.Steady f t` says, by recursion on the object, that the function does not jump at `t`. By induction on the object: the exact result is possible (`row_has`), all results have the right shape (`row_fit`), and the program converges jointly in the error bound and in the point (`cv_of_good`); compactness makes the bound uniform. The concatenation is the case where the branch taken may change: the two pieces that meet at the joint have limits that agree. The negation at a jump is proved with a witness.

C94  The program after the computation of the rule (`given`) converges at every rule with points in [-1, 1] (C93 at the points of the grid), and these rules with bounded weights form a compact set, so the convergence is uniform (`conv_uniform`). The computed rule is close to one that satisfies the hypotheses of the error bound of C82 (C86), and the composite sum is Lipschitz in the rule (`quadrature_close`).
C95  `Proofs/Rate.lean` defines distances on numbers, pairs, vectors and lists (`Gauge`), functions that are Lipschitz near a point (`LLip`) and programs whose outcomes have an error proportional to the rounding errors (`RateAt`: the distance of any two outcomes for nearby inputs is at most C times their errors plus the distance of the inputs). Rounded operations, sequences, loops and sums are such programs (`RateAt.near`, `.bind`, `.loop`, `.sum`), hence so are the evaluation of the three bases and of one piece (`Proofs/RateSpline.lean`). `get_interval` finds the right interval up to an error of its ends proportional to the rounding errors (`getInterval_rate`); when it takes the neighbour, the time is that near to the breakpoint, where the two pieces agree. Compactness gives one constant for all times.
C96  `Proofs/RateDeriv.lean` extends C95's rates to the derivatives of the basis functions, `Proofs/RateSolve.lean` to the entries of the interpolation matrix and, by `perturbed_rate` (a perturbation bound for linear systems with a backward error), to the coefficients. `Proofs/RateCurve.lean` evaluates one piece as a function of time and coefficients. `C96_conditions` and `C96_uniform` combine them as C85 does; `C96_tracking` adds C83 and C91 as C92 does.

C97  `Proofs/RateSplineOps.lean` has rates for the derivative matrices of the three bases and for the loops of `deriv` (C87 had convergence); `Props/RateOps.lean` combines them with the rates of evaluation (C95, C96). Where the pieces may jump, the statement is for one time and one of the pieces that touch it; otherwise it is uniform on a compact set.
C98  `Proofs/RateBlocks.lean` and `RateInner.lean` have rates for the Sobolev matrices, the weighted sums and the quadratic forms (C88 had convergence), `Proofs/RateCost.lean` combines them with the rate of the coefficients (C96) and that of the second linear system, whose right hand side also carries errors. `Props/RateSobolev.lean` states the results; `C98_decrease` compares two lists of interval lengths.

C99  `Spec/RateFn.lean` has the hypothesis (`Calm`: as `Steady` of C93, with Lipschitz functions of the user). `Proofs/RateList.lean` has rates for programs on lists, `Proofs/RateFn.lean` goes through the classes; `RateAt.switch` treats programs that run one of several others depending on the side of a point (the pieces of a spline or of a concatenation): two runs on different sides are both near the point, in proportion to the errors and the distance of their arguments. `C99_root_false` shows that continuity of the functions of the user is not enough.
C100  `Proofs/RateGLL.lean` carries the constants through the computation of the points. The stopping test of Newton's method may go either way on its boundary, so the outcomes are near one of finitely many exact iterates (`Stops` of C86); `RateP` says that every outcome is good with a tolerance proportional to the errors. `Proofs/RateIntegral.lean` has the integral for given points and weights, with one constant for all of them (compactness of the finitely many entries that are read).

C101  `Model/RoundingColloc.lean` follows `approximate` with rounding. `Proofs/RateColloc.lean` has the values of `f` at the points of an interval, with one constant for all points in `[-1, 1]` and all lengths near the exact one (compactness), and the loop over the blocks of coefficients. `Proofs/CollocError.lean` bounds the Lagrange basis functions and their differences slightly outside `[-1, 1]` in terms of the distance of the nodes. A time may belong to a neighbouring interval of the computed spline: the piece is then evaluated just outside of its interval, and the difference is proportional to the errors too.

C102  Both steps are the rounded programs of C101 and C70. `Proofs/RateLagrange.lean` has the rate theorems with the nodes as variables: the barycentric weights and formula are Lipschitz on the compact set of nodes in `[-1, 1]` that are 1e-9 apart and points that are 1e-19 away from them (`RateAt.compact` gives one constant for a compact set), and a point that the rounded comparison keeps away from the nodes is in this set; a point that it takes for a node is within 1e-9 plus rounding of it. The scan for the interval with rounded lengths is a scan of equal lengths with larger errors. `C102_computed` puts them together with the interpolation error.

C103  `Model/RoundingScaling.lean` is `linear_scaling_new_execution_time` with an error per operation; `Spec/Perturb.lean` says what data within `ε` means. `Proofs/RatePerturb.lean` has the evaluation of a piece as a rounded function of the time, the lengths, the parameter and the coefficients, with its rate, and shows that a scan of perturbed lengths is a scan of the exact ones with larger errors. `C103_near` follows as C95 does; `C103_scaled` applies it to the exactly scaled spline, `C103_interpolated` adds C96.

C104  `Model/RoundingScaling.lean` also has `linear_scaling_new_execution_time_max_velocity_max_acceleration`: the number of segments, Eigen's `LinSpaced`, both derivatives, the values at the samples, the ratios and the scaled spline, with an error per operation; a rounded quotient of numbers that are not negative is not negative, as with IEEE 754. `Spec/Samples.lean` says what the samples are. The count is stable because the quotient is near the exact one (`segments_count`); the values at rounded samples of rounded derivatives come from `C103_near` (`factorAt_near`); the factor is near the exact one since the entry that attains the maximum is positive, where the root is Lipschitz, and ratios of zero stay below the maximum (`factor_rate`). `C104_perturbed` lets the coefficients and the end be off as well; with C96 it gives `C104_interpolated`, for interpolation, scaling to bounds and evaluation in a row. `C104_exact` shows that the result of the exact model (C17) is among the outcomes.

C105  `Model/RoundingProducts.lean` is `sobolev_semi_inner_product` and the functions that call it: the integrand is built as in the exact model (`Model/Integral.lean`) and integrated with the rounded `integral` of C94. Simplified: coefficients of derivatives of polynomials and splines are not rounded. The integrand is a regular function object without jumps if the derivatives have none (`semiFold_calm`, by induction over the terms), so C100 applies. `deriv_same` shows by induction over the object that the derivative of order zero evaluates like the object and has no jumps where the object has none; with it `C105_l2` needs no hypothesis on derivatives.

C106  `Model/RoundingFunctionals.lean` is `LinearFunctional` (application, product, sum, difference, negative, multiple) with rounded operations. A pattern says which entries of a matrix are stored, so that one definition covers dense and sparse matrices; products leave out the others and add up in any order. `C106_value` and `C106_product` bound the errors explicitly (`Spec.productError`), `C106_compose` bounds the error of a computed product applied to a spline, `C106_arithmetic` the other operations; `C106_sizes` says what happens if sizes do not fit, `C106_exact` that exact arithmetic is one of the runs. Proved by induction over the sums in any order. `integralMatrix` is the constructor of Integral with the rounded points and weights of C86; an entry takes four more roundings (`weight_bound`), and `C106_integral_polynomials` joins the bound with `C86_quadrature`. `derivativeMatrix` is `gspline_derivative_matrix`, the matrix of Derivative, with the rounded blocks of C87 and rounded factors; `C106_derivative` bounds the distance to the matrix of the exact program, whose meaning is C34, by a constant times the rounding errors (`Proofs/RateFunctionals.lean`), and `C106_derivative_value` the distance to the coefficients of the derivative. The nodes of the basis are those it was built with. TransposeLeftMultiplication and MatrixLeftMultiplication copy numbers into the entries of `nodePattern`; `C106_transpose` and `C106_matrix` say after any history that a node takes a sum of as many products as there are components (`C106_stored`).

## 4. Trusted base

* Lean's kernel (version 4.33.0).
* The axioms `propext`, `Classical.choice` and `Quot.sound`; no theorem depends on any other axiom. No `sorry`, no `native_decide`, no `bv_decide`, no axiom of our own.
* Mathlib's definitions of `ℝ`, `deriv`, `iteratedDeriv`, `intervalIntegral`, `Polynomial`, `Lagrange.basis`, `Real.exp/cos/sin/sqrt`.
* The reading of the sources recorded in the comments of `Verif/Model` (each definition cites file and lines) and the specifications in `Verif/Spec`.
* Contracts of external code, always explicit hypotheses or parameters of the theorems that need them:
  `Eigen::SparseLU` (`LUContract`: a successful factorisation solves the system, and a regular system is factorised; C84 replaces this by a residual or a backward error), ipopt (any function from problem and options to a status and a
  vector, `Optim.Solver`), ifopt (`GetComponent` finds a component by its name), the random number generator (`Draw`, any sequence within the declared ranges).
* `Eigen`'s product of a sparse matrix and a vector without a temporary (`noalias`), as written in `SparseDenseProduct.h` (C79 only; elsewhere it is the product).
* pybind11 and Python, as described at the head of `Model/Bindings.lean` (C81 only): attribute lookup along the base classes, overloads in the order of registration, no implicit conversions, values returned as
  objects of their registered class, and that a pointer obtained from a Python object does not own it.
* Assumptions on the language that are not checked: the unqualified `abs` in FunctionBase.cpp:29, 31 and FunctionsConcat.cpp:14 is the overload for `double`;
  two overloads that differ only in value category are selected as the standard says (the choice is the parameter `Ov`).

## 5. What is modelled and what is not

| Source | Model | Not modelled |
| --- | --- | --- |
| `src/Tools.cpp` | `Model/Tools.lean`, all functions | |
| `src/Basis/Basis.cpp`, `Basis.hpp` | `Model/Basis.lean`: `get_basis`, the caches, `continuity_matrix`, `gspline_derivative_matrix`, `==` | printing |
| `src/Basis/BasisLegendre.cpp` | `Model/Legendre.lean`, all functions; for `tau ≠ 0` | |
| `src/Basis/BasisLagrange.cpp` | `Model/Lagrange.lean`, all functions; for `tau ≠ 0` and at least two nodes | |
| `src/Basis/Basis0101.cpp` | `Model/B0101.lean`, all functions, entry by entry; for `tau ≠ 0` and `0 < alpha < 1` | |
| `src/GSpline.cpp`, `GSpline.hpp` | `Model/GSpline.lean`, `Model/Random.lean`: constructors, evaluation, derivative, arithmetic, comparison, scaling, concatenation data, `random_gspline`; `Model/SplineObj.lean`: objects, moves and aliasing in arithmetic | printing; the contents of objects that were moved from |
| `src/Functions/*.cpp` | `Model/Fn.lean`: all classes and operators, evaluation with its buffers, derivation; `Model/Own.lean`: ownership, copies, moves and aliasing of `FunctionExpression` | printing; allocation failure; declared and undefined members |
| `src/Interpolator.cpp` | `Model/Interp.lean`: the matrix and right hand side as written, the solver as parameter, `interpolate` over any history; `Model/Views.lean`: results returned by reference | the algorithm of SparseLU; references to members passed as lengths or way points |
| `src/FunctionalAnalysis/Sobolev.cpp` | `Model/Sobolev.lean`, `Model/Integral.lean` | |
| `src/FunctionalAnalysis/Integral.cpp` | `Model/Integral.lean` | |
| `src/Collocation/GaussLobattoPointsWeights.cpp` | `Model/GLL.lean`, all functions; Newton's iteration with its stopping rule; `Model/RoundingGLL.lean` | rounding of the grids for several intervals |
| `src/Collocation/GaussLobattoLagrange.cpp` | `Model/Colloc.lean`, `Model/PathIntegral.lean` | the overload `set_from_array(domain, begin, end)`, which cannot be instantiated |
| `src/Collocation/GaussLobattoLagrangeFunctionals.cpp`, `.hpp` | `Model/Functionals.lean`, `Model/LinFun.lean`, `Model/Wrappers.lean` | names of the ifopt components, layout of sparse matrices |
| `src/Optimization/*.cpp` | `Model/Optim.lean` | the algorithm of ipopt; the options are a record of those that the code sets |
| `python/gsplines/serialization.py` | `Model/Serial.lean` | |
| `bindings/bindings.cpp`, `pyfunctions.hpp` | `Model/Bindings.lean`: the classes of functions, their operators and methods | the conversion of numbers and arrays; Python classes derived from `FunctionBase` or `GSplineBase`; the bindings of bases, interpolators, norms and optimisers, which forward their arguments |
| `python/gsplines/plot/*`, `examples/*` | | not modelled (drawing) |

Floating point rounding is modelled for the evaluation of splines (C70), for interpolation (C85), for the Gauss-Lobatto points and weights (C86), for derivatives, sums, differences and multiples of splines (C87), for the value and gradient of the cost (C88) and for the evaluation and integration of function expressions (C93, C94) only; infinities and NaN for the evaluation of splines, the comparisons of `src/Tools.cpp` and the checks of arguments (`Model/Special.lean`, C75). What a call that throws leaves behind is modelled in `Model/Failure.lean` (C76); elsewhere the object after an exception is dropped. Overflow is not modelled; elsewhere a division by zero is the outcome `notFinite`. Threads: no class has any synchronisation. The model is sequential, except `Model/ThreadsCache.lean` (accesses to the cached derivative matrices, C71) and `Model/Threads.lean`, which splits `GSplineBase::value_impl` into its accesses to the buffer and interleaves those of several threads in any order (sequentially consistent memory, atomic doubles).
Basis level functions are specified for `tau ≠ 0` only; at the level of splines and of the matrices of a basis a zero length is the outcome `notFinite`.

## 6. Where the code disagrees with its properties

Each item is proved by a theorem (named `..._false`, or named here) with a concrete witness.

1. Unary minus (and subtraction) of an expression with several elements cannot be evaluated; `-(-f)` is `-f` (C02).
2. Concatenating onto a temporary concatenation keeps the old domain (C05); so does composing a temporary composition (C04).
3. A concatenation with a gap of at most 1e-9 is accepted and throws inside the gap (C05).
4. `+=` and `*=` of functions check nothing (C09).
5. Derivatives of order three and more over Basis0101 are wrong (C06, C14, C30; only for alpha = 1/2 and orders divisible by eight do they come out right, by coincidence); `gspline_derivative_matrix` scales them as if the basis lived on [-1, 1] (C34 excludes it).
6. Bounds of velocity or acceleration: with one bound only `bad_optional_access`; a spline that stands still cannot be scaled (C17 notes).
7. `random_gspline` ignores the start of the domain (C62).
8. `==` and `same_vector_space` of splines ignore the start of the domain (C15).
9. `continuity_matrix` is wrong for orders ≥ 1 for Legendre, for Lagrange bases whose end nodes are not −1 and 1 (it takes the derivatives at the
   first and last node) and for Basis0101, where it is right exactly for order 0 and lengths 2 (C33).
10. The Sobolev matrices of Legendre are wrong for order ≥ 1 (C24), and with them those of Lagrange (C56): for every Lagrange basis of dimension n ≥ 2 they are right for every content of the memory exactly for the orders d ≥ n, where they vanish.
11. `change_interpolation_points` of Lagrange is wrong when a new point coincides with an old one before another that does not (C28).
12. After a failed factorisation `solve_interpolation` returns the previous solution (C40).
13. The derivative of the Sobolev matrix of order 2 of Basis0101 is off by the factor `tau²/4` (C31).
14. `SobolevNorm` with more than one weight is not the weighted sum (C41, C61).
15. Gauss-Lobatto grids of intervals of different lengths start at wrong points (C46).
16. The constructor of a collocation spline from a function exchanges the numbers of nodes and intervals (C47).
17. Assignment of collocation splines does not copy the interval lengths; a vector of another size changes the domain before the exception (C58).
18. Products and sums of collocation splines compare neither lengths nor nodes (C48).
19. `MatrixLeftMultiplication::update(matrix)` stores the transpose in the first `cols` rows of each block, leaves the rows below as they were, and is undefined for wide matrices (C49).
20. `Integral::update(lengths)` always throws, and `Integral(spline)` ignores different lengths (C49).
21. `SobolevDistance::differential` returns one shared object; the order argument is ignored (C50).
22. The inner products use the domain of the first function (C43).
23. `optimal_sobolev_norm` throws although the solver succeeded if one interval is below 1e-6 (C52).
24. `rojas_path` minimises `α(1-α) E1 + (1-α) E3` (C61).
25. Malformed dictionaries give other exceptions than TypeError or are accepted (C54).
26. `approx_zero` of an empty matrix is false (C19).
27. `GLLSplineVariable::SetVariables` accepts vectors of another size; a wrapped `ContinuityError` updated to another number of intervals announces the old number of rows (C64).
28. Undefined behaviour without a check: Legendre of dimension < 2, Lagrange with fewer than two nodes, the empty polynomial, splines and interpolators without intervals, fewer than two Gauss-Lobatto points, way point matrices of another size.
29. Evaluating one const spline from two threads can return the value at the point of the other thread (C68).
30. `broken_lines_path` does not return the curve of least integrated squared velocity even if the solver finds the minimum of its problem, because of item 10 (C69).
31. Two threads that derive one const spline (or a spline and its basis) at once can leave a wrong matrix in the cache of its basis; all later derivatives of that order are then wrong (C71).
32. The reference returned by `get_derivative_matrix_block` dangles after a request of a higher order, and the references returned by `continuity_matrix` and `gspline_derivative_matrix` show the matrix of the last lengths (C72).
33. Standing still at another place changes the value of a `SobolevNorm` over a Legendre basis, because of item 10 (C74).
34. Infinite interval lengths and execution times are accepted; lengths and times that are not a number only meet an assertion (none in Release builds); a sampling period that is not a number is converted to `std::size_t` (C75).
35. The assignment of a function to a collocation spline, `set_from_array` and `MatrixLeftMultiplication::update` with a matrix per node change the object before they throw (C76): after `set_from_array` with a wrong number
    of elements the domain is the new one and the interval lengths are the old ones.
36. The constructor of a Lagrange basis assigns only the diagonal of its Gram matrix. If the rest of the memory is not symmetric, `deriv_wrt_interval_len` and the Jacobian given to ipopt
    are not the derivative of the cost (C42, C60); the value itself depends on that memory (C77).
37. `get_coeff_derivative_wrt_tau` of a new interpolator returns uninitialised memory if the index is not the number of an interval or the number of lengths is wrong (C77).
38. An object named twice in one operation and moved from (C78): `std::move(f) + f` and `std::move(f) + std::move(f)` leave or dereference empty pointers, `f += std::move(f)` gives f instead of 2f, `f - std::move(f)` gives -f
    instead of 0, and `std::move(f).concat(f)` adds elements for ever to the list it walks through (only possible if the domain of f is shorter than 1e-9). `f += f` and `f *= f` are right.
39. `solve_interpolation` and `get_coeff_derivative_wrt_tau` return references to buffers of the interpolator: a later call overwrites the vectors that the caller keeps (`auto y = ...`, or an array in Python), and
    `get_coeff_derivative_wrt_tau` called with its own result, as for second derivatives, uses `noalias()` on a product that does alias and returns zeros without any error (C79).
40. `get_domain_discretization` places the points as if all intervals had the same length, although the constructors accept others; and the conversion from `GSpline` accepts any basis, after which
    `value_at` returns coefficients, not values (C80).
41. The Python module registers `GSplineBase` as derived from `FunctionBase`, not from `Function`: in Python all arithmetic with splines raises TypeError, and so do `f.concat(spline)` and `f.compose(spline)` if f is not a
    spline, while `spline.concat(f)` works. A function written in Python can be evaluated, but every operation on it hands an object that belongs to Python to a `unique_ptr` (use after free or double free). On the other hand the
    errors of C04 and C05 on temporary objects cannot be reached from Python (C81).
42. If the linear solver reports a failure in the first call of a new `SobolevNorm`, `operator()` goes on with an empty vector of coefficients and reads outside of it (`C88_solver_failure_out_of_range`);
    `Interpolator::solve_interpolation` prints a message and returns its buffer instead of throwing.
43. For splines that start at different instants `x + y` and `x + std::move(y)` are different functions, since `same_vector_space` does not compare the domains (`C89_overload_false`, cf. C15).
44. `LinearFunctional::set` of a dense functional into a sparse one throws `std::runtime_error`: the last branch repeats the condition of the branch before it (`C90_set_dense_false`). `set` does not update what `get_codom_dim()` reports (`C90_codim_false`).

Defects seen in the text that the model cannot express: `best_approximation` is declared and never defined; `typing.List.__name__` does not exist before Python 3.10;
`CostWrapper::counter__` is never incremented; the bindings misspell `__ne__`; `PyBasis::clone` and `move_clone` return null pointers; the Python override of `deriv_impl` is not told the order;
vectors returned to Python by reference do not keep the interpolator alive.
