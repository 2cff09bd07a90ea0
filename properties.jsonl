{"id": "C01", "title": "Polynomial arithmetic is exact", "statement": "For Polynomials p,q with the same number of variables and any scalar c, the results of p+q, p-q, -p, p*q, c*p, c+p, c-p and p**k (k a non-negative integer) take, at every point where all negative powers are defined, exactly the value obtained by doing the same operation on the values of p and q.", "quantifier": "all polynomials (any number of terms and variables, negative exponents, zero coefficients, repeated rows), all scalars, all k, all evaluation points", "why_tests_cant": "infinitely many polynomials; the in-place merge loop depends on interleavings of zero and cancelling terms", "anchors": ["pySecDec/algebra.py:Polynomial._sub_or_add", "pySecDec/algebra.py:Polynomial.__mul__", "pySecDec/algebra.py:Polynomial.__pow__", "pySecDec/algebra.py:Polynomial.__neg__"]}
{"id": "C02", "title": "Polynomial.simplify is a value-preserving normal form", "statement": "simplify() keeps the value, leaves at most one term per exponent vector, leaves no zero coefficient except for the single term 0 of the zero polynomial, sorts the exponent vectors strictly increasing lexicographically, is idempotent, and two polynomials with the same coefficient for every exponent vector simplify to the same object contents.", "quantifier": "all polynomials over any commutative ring, any order and repetition of terms", "why_tests_cant": "the merging loop with distance_to_nonzero_previous is sensitive to every pattern of zeros/cancellations", "anchors": ["pySecDec/algebra.py:Polynomial.simplify", "pySecDec/misc.py:argsort_2D_array"]}
{"id": "C03", "title": "Polynomial.derive is the partial derivative", "statement": "p.derive(i) evaluates to the partial derivative of p with respect to variable i at every point where p is defined (negative exponents included).", "quantifier": "all polynomials, indices and points", "why_tests_cant": "infinite domain; calculus statement", "anchors": ["pySecDec/algebra.py:Polynomial.derive"]}
{"id": "C04", "title": "Polynomial.replace is substitution", "statement": "p.replace(i,v) (with or without remove=True) evaluates to p at x_i=v; for v=0 negative powers of x_i are dropped silently, and nested expression coefficients are not substituted when v=0.", "quantifier": "all polynomials, indices, values and points", "why_tests_cant": "infinite domain; the v=0 and v=1 shortcuts are separate branches", "anchors": ["pySecDec/algebra.py:Polynomial.replace"]}
{"id": "C05", "title": "refactorize factors out the greatest monomial", "statement": "refactorize(monomial*poly, params) preserves the value of the product, and afterwards every selected parameter has minimal exponent zero in the polynomial, unselected parameters are untouched; repeating it changes nothing.", "quantifier": "all monomial*polynomial products and parameter selections", "why_tests_cant": "infinite domain", "anchors": ["pySecDec/algebra.py:refactorize", "pySecDec/decomposition/common.py:refactorize"]}
{"id": "C06", "title": "Expression trees differentiate correctly", "statement": "For every expression built from Polynomial, ExponentiatedPolynomial, LogOfPolynomial, Sum, Product, Pow, Log, Exp, derive(i) evaluates to the partial derivative of the expression's value at every point where all logarithm arguments and power bases are positive.", "quantifier": "all expression trees of any depth, all indices and points", "why_tests_cant": "structural induction over unbounded trees", "anchors": ["pySecDec/algebra.py:Sum.derive", "pySecDec/algebra.py:Product.derive", "pySecDec/algebra.py:Pow.derive", "pySecDec/algebra.py:Log.derive", "pySecDec/algebra.py:Exp.derive", "pySecDec/algebra.py:ExponentiatedPolynomial.derive", "pySecDec/algebra.py:LogOfPolynomial.derive"]}
{"id": "C07", "title": "Expression simplification preserves values", "statement": "simplify() of Sum, Product, Pow, Log, Exp, ExponentiatedPolynomial and LogOfPolynomial never changes the value of the expression.", "quantifier": "all expression trees and evaluation points", "why_tests_cant": "structural induction over unbounded trees; many shortcut branches", "anchors": ["pySecDec/algebra.py:Sum.simplify", "pySecDec/algebra.py:Product.simplify", "pySecDec/algebra.py:Pow.simplify", "pySecDec/algebra.py:Log.simplify", "pySecDec/algebra.py:ExponentiatedPolynomial.simplify"]}
{"id": "C08", "title": "ProductRule tracks derivatives exactly", "statement": "A ProductRule built from factors and derived by any sequence of indices equals the corresponding iterated derivative of the product; simplify, to_sum and replace preserve that.", "quantifier": "all factor lists, all derivative sequences", "why_tests_cant": "unbounded histories of derive/simplify calls", "anchors": ["pySecDec/algebra.py:ProductRule"]}
{"id": "C09", "title": "Enumeration helpers are exact", "statement": "powerset, rangecomb, all_pairs, chunks and missing enumerate precisely the subsets (of the requested sizes), integer box points, perfect matchings, consecutive slices and multiset difference, each exactly once; missing/all_pairs raise exactly on invalid input.", "quantifier": "all input lists and bounds", "why_tests_cant": "infinite domain", "anchors": ["pySecDec/misc.py:powerset", "pySecDec/misc.py:rangecomb", "pySecDec/misc.py:all_pairs", "pySecDec/misc.py:chunks", "pySecDec/misc.py:missing"]}
{"id": "C10", "title": "det and adjugate are the determinant and adjugate", "statement": "misc.det(M) is the determinant of every square matrix; the adjugate satisfies M*adj(M)=det(M)*1.", "quantifier": "all square matrices of any size over any commutative ring", "why_tests_cant": "unbounded matrix size", "anchors": ["pySecDec/misc.py:det", "pySecDec/misc.py:adjugate"]}
{"id": "C11", "title": "argsort_2D_array is a stable lexicographic sort", "statement": "The returned index list is a permutation, sorts the rows lexicographically and keeps equal rows in input order.", "quantifier": "all integer matrices", "why_tests_cant": "infinite domain", "anchors": ["pySecDec/misc.py:argsort_2D_array"]}
{"id": "C12", "title": "rec_subs returns a fixpoint or raises", "statement": "rec_subs returns an expression which no substitution changes, obtained from the input by applying the replacement rules, or raises after the iteration limit; never a partially substituted result.", "quantifier": "all expressions and replacement lists", "why_tests_cant": "unbounded iteration histories", "anchors": ["pySecDec/misc.py:rec_subs"]}
{"id": "C13", "title": "Matrix sorts only permute", "statement": "iterative_sort, light_Pak_sort and Pak_sort return matrices that differ from the input only by permuting rows and permuting columns other than the first; iterative_sort terminates.", "quantifier": "all integer matrices and index selections", "why_tests_cant": "unbounded matrices; termination of a while loop", "anchors": ["pySecDec/matrix_sort.py:iterative_sort", "pySecDec/matrix_sort.py:Pak_sort", "pySecDec/matrix_sort.py:light_Pak_sort"]}
{"id": "C14", "title": "Symmetry squashing preserves the total integral", "statement": "squash_symmetry_redundant_sectors_sort only merges sectors that are equal up to a permutation of integration variables; the Jacobian coefficients of merged sectors are added so that the sum over sectors of coefficient times integral is unchanged for every permutation-invariant integration.", "quantifier": "all lists of sectors, all sort functions that only permute", "why_tests_cant": "infinite domain; needs symmetry argument", "anchors": ["pySecDec/decomposition/common.py:squash_symmetry_redundant_sectors_sort", "pySecDec/decomposition/common.py:_sector2array", "pySecDec/decomposition/common.py:_collision_safe_hash"]}
{"id": "C15", "title": "Iterative decomposition step covers the domain", "statement": "iteration_step replaces a sector by one sub-sector per element of the singular set such that the sum of the sub-sector integrands, after the variable transformation with the Jacobian, integrates to the original integral over the unit hypercube.", "quantifier": "all sectors and singular sets, all numbers of variables", "why_tests_cant": "measure theoretic statement for all integrands", "anchors": ["pySecDec/decomposition/iterative.py:iteration_step", "pySecDec/decomposition/iterative.py:remap_parameters"]}
{"id": "C16", "title": "Decomposed sectors are in standard form", "statement": "Every sector returned by iterative_decomposition has all `cast` polynomials of the form monomial*(constant + ...), and find_singular_set never fails its internal assertion on refactorized sectors.", "quantifier": "all initial sectors", "why_tests_cant": "unbounded recursion", "anchors": ["pySecDec/decomposition/iterative.py:iterative_decomposition", "pySecDec/decomposition/iterative.py:find_singular_set"]}
{"id": "C17", "title": "Primary decomposition covers the simplex", "statement": "primary_decomposition yields one sector per selected variable, setting that variable to one, and the sum of the sectors' unit-cube integrals equals the projective (delta-function) integral for homogeneous integrands.", "quantifier": "all homogeneous polynomial sectors", "why_tests_cant": "measure theoretic statement", "anchors": ["pySecDec/decomposition/iterative.py:primary_decomposition"]}
{"id": "C18", "title": "Endpoint remapping and splitting are exact", "statement": "remap_one_to_zero(p, i...) evaluates to p with x_i -> 1-x_i, and split at x = k yields two sectors per variable whose unit-cube integrals sum to the original one.", "quantifier": "all polynomials, index sets and split points in (0,1)", "why_tests_cant": "binomial expansion for all degrees; integral statement", "anchors": ["pySecDec/decomposition/splitting.py:remap_one_to_zero", "pySecDec/decomposition/splitting.py:split"]}
{"id": "C19", "title": "Geometric variable transformation is a monomial substitution", "statement": "transform_variables(p,T) evaluates at y to p at x_i = prod_j y_j**T_ij, and Cheng_Wu sets the chosen variable to one everywhere.", "quantifier": "all polynomials and integer transformation matrices", "why_tests_cant": "infinite domain", "anchors": ["pySecDec/decomposition/geometric.py:transform_variables", "pySecDec/decomposition/geometric.py:Cheng_Wu"]}
{"id": "C20", "title": "Pole subtraction is exact", "statement": "integrate_pole_part applied to a product of monomials with regulated powers, regulator poles and a smooth function returns terms whose integrals over the unit cube add up to the original integral for every regulator value where the original converges; in every term the coefficient of the pole factor is integrable also for vanishing regulators; the pole factor is the original one times one factor per extracted pole; '1/0' is raised only if the power of a treated parameter has a negative constant term and does not depend on the regulators, and then the function never succeeds. (Deviation proved: this also rejects unregulated integrable singularities such as x**(-1/2).) pole_structure returns the powers at vanishing regulators.", "quantifier": "all exponents, subtraction orders, smooth functions, parameters and regulator values", "why_tests_cant": "calculus statement over all functions", "anchors": ["pySecDec/subtraction.py:integrate_pole_part", "pySecDec/subtraction.py:_integrate_pole_part_single_index", "pySecDec/subtraction.py:pole_structure"]}
{"id": "C21", "title": "Integration by parts is exact and reaches the goal", "statement": "integrate_by_parts returns terms whose x_j exponents all have constant part >= the requested goal and whose integrals sum to the original integral.", "quantifier": "all exponents, goals and smooth functions", "why_tests_cant": "calculus statement, unbounded recursion", "anchors": ["pySecDec/subtraction.py:integrate_by_parts"]}
{"id": "C22", "title": "Laurent expansion is correct and complete", "statement": "For a product of polynomials with exponents 1 and -1, expand_singular in one variable returns precisely the Laurent coefficients, starting with the leading one, up to the requested order, for all values of the other variables at which the leading coefficients do not vanish, and raises OrderError exactly if the requested order is below the leading one; in several variables the returned terms are the iterated expansion, at generic values of the remaining variables; these expansions are unique. expand_Taylor returns the Taylor coefficients up to the requested orders of every expression it is applied to. (Defect proved: in several variables OrderError is also raised if only one of the coefficients starts beyond the requested order.)", "quantifier": "all products of polynomials with exponents, all orders", "why_tests_cant": "infinite domain; power series identity", "anchors": ["pySecDec/expansion.py:_expand_singular_step", "pySecDec/expansion.py:_expand_Taylor_step"]}
{"id": "C23", "title": "Expansion by regions is correct", "statement": "apply_region evaluates to the polynomial at the rescaled variables; derive_prod returns the derivative of prod P_j**a_j * N(x, P(x)) in the same form; expand_region yields exactly the Taylor coefficients up to the requested order, and the error is of the next order; for each region, the packages made by make_regions (their prefactors times their integrands) add up to the integrand rescaled by the region, including the Jacobian, up to and including the requested order of the expansion parameter. This needs polynomials whose leading coefficient in the region is not on the branch cut. (Defect proved: the term of order zero is wrong if the numerator refers to a polynomial whose exponent is zero.)", "quantifier": "all polynomials, exponents with regulators, numerators, region vectors, orders and points", "why_tests_cant": "infinite domain; analytic statement for all orders", "anchors": ["pySecDec/make_regions.py:apply_region", "pySecDec/make_regions.py:derive_prod", "pySecDec/make_regions.py:expand_region", "pySecDec/make_regions.py:make_regions"]}
{"id": "C24", "title": "Every worker response reaches its own caller, once", "statement": "For every history of call/multicall/cancel and worker responses, a response with token t triggers the callback registered for t, exactly once, and no other; cancelled calls never trigger theirs. Histories are those the caller can produce legally: fresh request labels, a non-empty multicall is issued only when the directly preceding call has been answered (the code reuses that call's token - outside this condition the pending call is stolen, which is shown as a defect), and the worker answers each message at most once.", "quantifier": "all interleavings of requests, cancellations and responses", "why_tests_cant": "unbounded schedules", "anchors": ["pySecDec/disteval.py:Worker"]}
{"id": "C25", "title": "The scheduler's pending count is exact and drain waits", "statement": "npending equals the number of scheduled, not yet answered and not cancelled jobs after every history, and drain() returns only when all jobs are finished or cancelled, with no lost wakeups. Legal histories: as for C24, no unanswered request is cancelled twice (otherwise the count drifts, shown as a defect), callbacks do not raise.", "quantifier": "all schedules of call/cancel/respond", "why_tests_cant": "unbounded schedules", "anchors": ["pySecDec/disteval.py:RandomScheduler"]}
{"id": "C26", "title": "NaN retries never mix results", "statement": "After a shift of a kernel returned NaN, results of cancelled shifts of the old deformation never contribute; when drained each kernel's value is computed by one set of deformation parameters. Holds when the main loop restarts a kernel only with no open requests (not after a timeout, shown as a defect).", "quantifier": "all orders of shift results and NaNs", "why_tests_cant": "unbounded schedules", "anchors": ["pySecDec/disteval.py:do_eval"]}
{"id": "C27", "title": "Truncated bracket multiplication is exact", "statement": "bracket_mul(a,b,maxorders) returns for every order vector within maxorders exactly the convolution sum, and nothing beyond maxorders.", "quantifier": "all coefficient dictionaries and order bounds", "why_tests_cant": "infinite domain", "anchors": ["pySecDec/disteval.py:bracket_mul"]}
{"id": "C28", "title": "Sampling plan is the cheapest one that meets its target", "statement": "In exact real arithmetic: without a cap on lattice sizes, adjust_1d_n succeeds and its numbers of samples (before the conversion to integers) are at least the minima, give a predicted variance of at most the target, and have the lowest cost sum(tau*n) among all such plans; after the conversion the minima still hold and one sample more per kernel meets the target. With the cap, the maxima are always respected, and the target is met whenever the maximal numbers of samples meet it with a margin. adjust_n meets the targets of all amplitudes and orders. (Deviation proved: an early return for an unreachable target may go below the minima.)", "quantifier": "all weights, variances, taus, bounds", "why_tests_cant": "real-valued optimisation for all inputs; loop termination", "anchors": ["pySecDec/disteval.py:adjust_1d_n", "pySecDec/disteval.py:adjust_n"]}
{"id": "C29", "title": "Lattice selection is minimal and sufficient", "statement": "For an integer n, generating_vector(d, n) returns a tabulated lattice with at least n points, the smallest such one, with d components, each coprime to the number of points; it raises exactly if none exists; max_lattice_size(d) is the largest n that succeeds. (Deviation proved: a request that is not an integer is truncated.)", "quantifier": "all dimensions and sizes", "why_tests_cant": "infinite domain of requests", "anchors": ["pySecDec/generating_vectors.py:generating_vector", "pySecDec/generating_vectors.py:max_lattice_size"]}
{"id": "C30", "title": "Order bookkeeping in amplitude sums loses nothing", "statement": "Whatever the leading orders of prefactors, coefficients and integrals, the amplitude reported by disteval at a requested order p is exactly the coefficient of p in the sum of prefactor*coefficient*integral, provided p is covered by each integral's kernels; with packages written by sum_package this covers all the requested orders if there is one regulator, or if one coefficient has the lowest order in each regulator. Nothing beyond the requested orders is reported. (Defect proved: with several regulators sum_package takes the lexicographic minimum of the leading orders, and a requested order can be reported with a contribution missing.)", "quantifier": "all leading orders, requested orders, numbers of terms and worker answers", "why_tests_cant": "all Laurent series", "anchors": ["pySecDec/disteval.py:split_integral_into_orders", "pySecDec/code_writer/sum_package.py:_generate_one_term"]}
{"id": "C31", "title": "U and F from graphs enumerate spanning trees and 2-forests", "statement": "For a graph with at least one loop, the first Symanzik polynomial U of LoopIntegralFromGraph has exactly one term for every spanning tree, with coefficient 1, namely the product of the Feynman parameters of the lines that are not in the tree, and no other term. If the external momenta add up to zero, F is the sum over all two-forests of minus the square of the momentum that flows between the two trees, times the product of the Feynman parameters of the lines that are not in the forest, plus U times the sum of the squared masses times the Feynman parameters.", "quantifier": "all graphs (multiple lines and self-loops included), all momenta with momentum conservation, all masses", "why_tests_cant": "unbounded graphs", "anchors": ["pySecDec/loop_integral/from_graph.py:LoopIntegralFromGraph.preliminary_U", "pySecDec/loop_integral/from_graph.py:LoopIntegralFromGraph.preliminary_F"]}
{"id": "C32", "title": "Propagators with powers that are not positive", "statement": "A propagator power whose value for vanishing regulators is less than one is raised by as many derivatives as make an integer zero and any other number lie between one and two. U, F, numerator, measure and integration_variables drop the same Feynman parameters, those whose power is a nonpositive integer. The integrand U^exponent_U * F^exponent_F * numerator is the derivative (as often as needed, with respect to each Feynman parameter) of the integrand with the given powers, with the dropped parameters set to zero, provided U_derivatives counts the derivatives with respect to parameters on which U depends. For graphs the exponent of U is right exactly if every line with derivatives is missing in some spanning tree (which contains the dropped lines behind it). (Deviation proved: for a bridge with negative power LoopIntegralFromGraph gives a wrong exponent of U.)", "quantifier": "all polynomials U, F, numerators, power lists, dimensions, all points where U and F are off the branch cut", "why_tests_cant": "infinite domain, analytic statement", "anchors": ["pySecDec/loop_integral/common.py:LoopIntegral.set_common_properties", "pySecDec/loop_integral/common.py:LoopIntegral.numerator", "pySecDec/loop_integral/common.py:LoopIntegral.exponent_U", "pySecDec/loop_integral/common.py:LoopIntegral.U", "pySecDec/loop_integral/common.py:LoopIntegral.F"]}
{"id": "C33", "title": "Laurent series arithmetic in secdecutil is truncation-consistent", "statement": "If truncated or exact Series stand for exact Laurent series A and B, then +, -, *, / (leading coefficient invertible), unary -, and the operations with scalars succeed and their result is the expansion of the exact result; the order of the neglected terms is the one big-O arithmetic prescribes, exact operands give exact results (except quotients by more than one term), and different expansion parameters are an error. Coefficients may themselves be such series, to any depth.", "quantifier": "all truncated and exact series, all nesting depths", "why_tests_cant": "infinite domain of series and orders", "anchors": ["pySecDecContrib/util/secdecutil/series.hpp:Series"]}
{"id": "C34", "title": "Name validation and template substitution", "statement": "A name without commas and newlines is accepted exactly if it is an identifier (without underscores where they are not allowed), no reserved word and without a reserved prefix; no accepted name is a reserved word or begins with the internal prefix. (Deviation proved: names with commas or a final newline are accepted.) parse_template_file replaces every %(key)s by the text of its value (nested lists are joined), %(key)i, %(key)d by integers, %% by %, copies everything else, and raises exactly if a key is missing or not an integer where one is needed. (Deviation proved: %%(key)s raises.) parse_template_tree makes the renamed tree, without the omitted files and directories. validate_pylink_qmc_transforms returns the requested transforms without duplicates and raises exactly if one is not documented.", "quantifier": "all strings, templates, replacements and directory trees", "why_tests_cant": "infinite domain", "anchors": ["pySecDec/code_writer/make_package.py:_validate", "pySecDec/code_writer/template_parser.py:parse_template_file", "pySecDec/code_writer/template_parser.py:parse_template_tree", "pySecDec/code_writer/template_parser.py:validate_pylink_qmc_transforms"]}
{"id": "C35", "title": "U and F from propagators are the Symanzik polynomials of the momentum-space integrand", "statement": "det and adjugate return the determinant and the adjugate of a matrix of polynomials. For LoopIntegralFromPropagators every term of U has degree L and every term of F degree L+1 in the Feynman parameters; a propagator without quadratic loop-momentum terms has dU/dx_i = 0. Completing the square: whenever the quadratic form has integer coefficients, sum_i x_i P_i = sum_ab A_ab (k_a - v_a)(k_b - v_b) - F/U with det A = U for every choice of momenta. (Deviations proved: non-integer entries of the quadratic form, as for the propagator k1*k2, are truncated, so U is wrong; a quadratic propagator may have dU/dx = 0 although it is treated as non-zero.)", "quantifier": "all numbers of loops, propagators and kinematics, all values of the momenta", "why_tests_cant": "infinite domain of matrices and momenta", "anchors": ["pySecDec/loop_integral/from_propagators.py:LoopIntegralFromPropagators", "pySecDec/misc.py:det", "pySecDec/misc.py:adjugate"]}
{"id": "C36", "title": "Errors of sums and integrals are propagated linearly", "statement": "If the results of the kernels are random numbers whose real and imaginary parts are uncorrelated and whose variances are the ones the integrator stores, then the squared errors disteval reports for every order of every sum and of every integral are the variances of the real and imaginary parts of the reported values, and errors are reported for exactly the same orders as values.", "quantifier": "all coefficients, prefactors, kernels and probability distributions", "why_tests_cant": "infinite domain, statement about distributions", "anchors": ["pySecDec/disteval.py:mul_variance", "pySecDec/disteval.py:bracket_mul", "pySecDec/disteval.py:do_eval"]}
{"id": "C37", "title": "Expression methods, subtraction, integration by parts and Taylor expansion always terminate", "statement": "simplify(), derive(i) and replace(i,v) of every expression in which every Sum, Product and ProductRule has an operand terminate with such an expression; in particular the while-changed loops of Sum.simplify and Product.simplify end. Together with C06: the derivative of every meaningful expression exists as an expression and has the value of the partial derivative. (An empty Sum makes simplify raise.) integrate_pole_part, integrate_by_parts (for every power goal) and expand_Taylor of products of such expressions end too: with a result, or with one of their documented exceptions and only if that exception is justified.", "quantifier": "all expression trees of any depth and size", "why_tests_cant": "termination for all inputs", "anchors": ["pySecDec/algebra.py:Sum.simplify", "pySecDec/algebra.py:Product.simplify", "pySecDec/algebra.py:Polynomial.simplify", "pySecDec/algebra.py:Pow.derive", "pySecDec/subtraction.py:integrate_pole_part", "pySecDec/subtraction.py:integrate_by_parts", "pySecDec/expansion.py:expand_Taylor"]}
{"id": "C38", "title": "The coefficient parser returns the value of the text", "statement": "For every text of the form which ginsh prints for an expanded coefficient (signed sum of products and quotients of integers, substituted names, regulators, and integer powers of these), in which no minus sign stands directly in front of a regulator and no regulator follows a division sign, read_coefficient returns a nested Laurent series which has the value of the text for all values of the regulators, and it returns whenever no number in the text is zero. In the excluded cases the parser is wrong: 1-eps is read as 1+eps and 1/eps as eps; numbers with a decimal point and unknown names are silently read as zero.", "quantifier": "all texts, tables of names and values of the regulators", "why_tests_cant": "the parser must be right for every text and every length", "anchors": ["pySecDecContrib/exparse.hpp:Exparse::parse_expression", "pySecDecContrib/exparse.hpp:exparse_pow", "pySecDecContrib/util/secdecutil/coefficient_parser.hpp:ex_to_nested_series"]}
{"id": "C39", "title": "Numbers with uncertainties propagate the error correctly", "statement": "For independent random numbers with the given means and standard deviations, the operators +, -, * and / (by a number) of UncorrelatedDeviation return the mean and the standard deviation of the result; for complex numbers whose real and imaginary parts are uncorrelated this holds for the real and the imaginary part. In particular compute_sum returns the mean and the standard deviation of the sum of the independent integrals times their coefficients. (Multiplying a result again by a complex number is not covered: the parts are then correlated and the stated error is wrong.)", "quantifier": "all probability spaces, random numbers with finite variance, coefficients and numbers of terms", "why_tests_cant": "a statement about all distributions", "anchors": ["pySecDecContrib/util/secdecutil/uncertainties.hpp:UncorrelatedDeviation", "pySecDecContrib/util/secdecutil/amplitude.hpp:compute_sum"]}
{"id": "C40", "title": "Refining the integrals of an amplitude ends and reaches the error goals", "statement": "refine_integrals terminates for every behaviour of the integrators (which use at least the number of points asked for) if every sum allows the number of points to double in a round; when it ends without a time limit, for each sum and each part of the error selected by the error mode, the error is at most the goal max(epsrel*max(value,error), epsabs) up to the rounding of one evaluation, or some integral of the sum cannot be refined any further (integrator, maxeval, or its own lower limit of the error), for real coefficients or the error mode abs. Numbers of evaluations never decrease and errors of QMC integrals never increase. The planned numbers of evaluations suffice if errors fall like n^-scaleexpo. With a time limit, the estimated time of every round is at most the remaining time and nothing is evaluated when no time remains. += and *= of sums act as they should and keep integrals distinct. Known exceptions are proved: maxincreasefac=1 loops forever, a sum with an integral that cannot be refined may be given up although the goal could be reached, and for complex coefficients the real/imag modes may miss the goal.", "quantifier": "all integrals, sums, settings, answers of the integrators and clocks in every round", "why_tests_cant": "an invariant and a ranking function over an unbounded loop with an arbitrary environment", "anchors": ["pySecDecContrib/util/secdecutil/amplitude.hpp:WeightedIntegralHandler::refine_integrals", "pySecDecContrib/util/secdecutil/amplitude.hpp:Integral", "pySecDecContrib/util/secdecutil/amplitude.hpp:operator+="]}
{"id": "C41", "title": "Deformation parameters are chosen within the allowed range and reduced until the sign check passes", "statement": "optimize_deformation_parameters returns a power of the decrease factor times the largest parameters in [minimum, maximum] which no sample forbids; the last sample passes the sign check, and all do if the check is monotonic; it terminates if the check passes for all small parameters. evaluate_integrals, when the sign check fails, repeats an integration with parameters multiplied by the decrease factor (but not reduced below the minimum) until it succeeds, and returns the result of the first successful integration, or raises an error exactly if the integration also failed with all parameters at the minimum. Known exceptions are proved: the sign check may push the parameters below the minimum, samples are not checked again, and for Divonne, CQuad and exhausted lattices the repetition silently does nothing.", "quantifier": "all samples, sign checks, parameters, factors and integrators", "why_tests_cant": "unbounded loops with an arbitrary integrand", "anchors": ["pySecDecContrib/util/secdecutil/sector_container.hpp:optimize_deformation_parameters", "pySecDecContrib/util/secdecutil/amplitude.hpp:evaluate_integrals"]}
{"id": "C42", "title": "The integration kernels sum the integrand over every lattice point once, and are unbiased", "statement": "For every lattice size below 2^53, generating vector, shift, integrand and integral transform: the generated CPU kernel called for the whole lattice, and the CUDA worker (batches, blocks, threads and repeated reductions in two buffers of fixed size) for every range of it, return the sum of the weighted integrand over exactly the lattice points {i z/n + s}, and NaN exactly if a sign check fails at one of them. mulmod is exact in spite of 64-bit overflow and rounding. Each of the twelve transforms preserves the integral of every integrable function over the unit cube in every dimension; so the average of the result over the random shift, divided by the number of points, is the integral, and almost no shift gives NaN if the sign checks fail on a null set at most.", "quantifier": "every lattice size below 2^53, generating vector, shift, dimension, transform, integrand (integrable function), range of points and size of the buffers", "why_tests_cant": "tests compare a few integrals within errors; a wrong point, weight or coefficient of a transform changes results below the error bars", "anchors": ["pySecDecContrib/disteval/common_cpu.h:mulmod,korobov*_f", "pySecDecContrib/disteval/common_cuda.h:mulmod", "pySecDecContrib/bin/export_sector:DIST_SECTOR_ORDER_CPP", "pySecDecContrib/disteval/cudaworker.cpp:cuLaunchKernel", "pySecDecContrib/disteval/builtin.cu:sum_kernel"]}
{"id": "C43", "title": "The value and the error reported for an integral are those of the estimate", "statement": "For independent uniform shifts the expectation of the value which the distributed evaluator computes for an integral is int(n)/n times the integral, where n is the (floating-point) lattice size: it is unbiased for integer sizes (and biased for the fractional sizes proposed for median lattices). The expectation of the reported variance is 1-1/m times the variance of the value for m shifts, for real and imaginary part alike (so it is zero for one shift). A new result replaces the old one only if its real variance is not larger (the imaginary one is ignored).", "quantifier": "every integrand which is integrable (square-integrable for the variance), lattice, generating vector, transform and number of shifts", "why_tests_cant": "bias of an estimator cannot be seen in a finite number of runs", "anchors": ["pySecDec/disteval.py:do_eval"]}
{"id": "C44", "title": "Symbolic functions and the derivatives they keep track of", "statement": "derive of a Function or MaxDegreeFunction object is the chain rule: its value is the partial derivative of the value of the object, whatever the history of derive, replace, simplify and copy that led to it, if the declared maximal degrees are right; the degrees found by get_maxdegrees are right. compute_derivatives(e) terminates, knows a definition for every function object that can appear in an expression, and each definition is the mixed partial derivative of e given by its multiindex, whatever the order in which the derivatives were taken; so inserting the definitions in a derivative gives the derivative of the inserted expression. The generated name determines function and multiindex if no function name begins with d. Known exceptions are proved: the derivative dfd0 of f is also a legal name of another function; functions with more arguments than variables make derive fail.", "quantifier": "every history of operations, expression, number of variables and arguments, choice of derivatives", "why_tests_cant": "the histories are unbounded and the identity is analytic", "anchors": ["pySecDec/algebra.py:Function", "pySecDec/code_writer/make_package.py:MaxDegreeFunction", "pySecDec/code_writer/make_package.py:_derivative_muliindex_to_name"]}
{"id": "C45", "title": "The contour deformation does not change the integral and realises the prescription -i*0", "statement": "For every analytic polynomial for the deformation, real deformation parameters of any size, factored-out monomials whose integral converges, and other factors holomorphic in a neighbourhood of the contours for all parameters t*lambda, 0<=t<=1: the integral of the generated integrand (monomials, Jacobian determinant, additional factors, other factors at the deformed point) over the unit cube is the integral of the undeformed integrand. If Im F<=0 on all these contours and F has no zero on the final one, the integral of the generated integrand is the limit of the undeformed integrals with F - i*delta, delta->0+, also if F vanishes inside the cube; log and pow of the generated code are the continuation from below and integer powers are exact. The determinant is that of the Jacobian matrix; endpoints are fixed; the calls replaced by constants have these values; sufficiently small positive parameters pass the sign check at every point, so that the search for the parameters always ends.", "quantifier": "every number of variables, analytic function F, deformation parameters, list of monomials with complex exponents, holomorphic remainder, integer exponent", "why_tests_cant": "a statement about integrals over contours (Cauchy's theorem in several variables); numerical checks cannot separate errors from integration noise", "anchors": ["pySecDec/code_writer/make_package.py:_process_secondary_sector", "pySecDec/code_writer/make_package.py:RealPartFunction", "pySecDec/code_writer/templates/make_package/src/SecDecInternalFunctions.hpp:SecDecInternalPow"]}
{"id": "C46", "title": "The coefficients handed to the integrator are the Laurent coefficients of the integral", "statement": "For one sector and one regulator: make_package's chain of integration by parts (for the powers below the goals), subtraction, expansion of the poles, expansion of the remainder and collection of the orders gives, for every order from the lowest pole to the required order, an integrand which is integrable over the unit cube, and the integrals are the coefficients of the Laurent expansion at zero of the analytic continuation of the sector's integral; terms whose expansion raises OrderError do contribute nothing, so replacing them by zero is right; the orders for which files are written are complete. The subtracted terms are the analytic continuation. The chain does not raise an exception if every negative power is regulated.", "quantifier": "all sectors in the documented form (any number of parameters, any integrands smooth on the cube), all required orders, all values of the recursion bound for which the functions return", "why_tests_cant": "a test compares a few integrals with known values; the claim is about every integrand, interchanges expansion and integration, and involves analytic continuation", "anchors": ["pySecDec/code_writer/make_package.py:_process_secondary_sector", "pySecDec/code_writer/make_package.py:_make_sector_order_names", "pySecDec/subtraction.py:integrate_pole_part", "pySecDec/expansion.py:expand_singular", "pySecDec/expansion.py:expand_Taylor"]}
{"id": "C47", "title": "Long expressions are split into FORM definitions without changing them; file names never collide", "statement": "Whatever the expression, the maximal line length and the way subexpressions are printed: applying the written definitions one after the other gives the function the value of the expression, no name is defined twice or left undefined, definitions of different functions do not interfere, every printed piece is short or of a type which cannot be split, and the splitting ends; it succeeds if every term with a plain-number coefficient fits on a line (and raises an AttributeError if a polynomial with one such term does not). The source files of all sectors and orders have pairwise different names.", "quantifier": "for every expression (any nesting, any number of terms), limit, printing length function, name, values of the variables; for every list of sectors with distinct indices and any orders, including negative ones", "why_tests_cant": "tests look at a handful of expressions and limits; correctness of the recursion, the slicing and the names is a statement about all nestings", "anchors": ["pySecDec/code_writer/make_package.py:_make_FORM_function_definition", "pySecDec/code_writer/make_package.py:_make_sector_order_names", "pySecDec/code_writer/make_package.py:_make_sector_cpp_files", "pySecDec/code_writer/make_package.py:_make_sector_distsrc_files", "pySecDec/algebra.py:ProductRule.to_sum"]}
{"id": "C48", "title": "Series text is read and converted without changing its value", "statement": "For every series in any number of nested variables, with any orders, truncated or not, real or complex coefficients with or without uncertainties: the text written by the C++ library is read back with exactly its coefficients, exponents, variables and truncation orders; the ginac, sympy and maple conversions return two expressions whose values by the usual precedence rules are the series of the means and of the uncertainties; the Mathematica conversion too, unless an untruncated series contains series (then parentheses are missing and the value changes); the JSON conversion returns the regulators and a table with each coefficient under its exponents exactly once, and nothing else.", "quantifier": "all nested series, all printers of numbers which can be read back, all values of the variables", "why_tests_cant": "Unit tests convert a few fixed strings and compare with fixed strings; nesting depth, signs, missing truncation and number formats are unbounded, and comparing strings does not show that the value is kept.", "anchors": ["pySecDec/integral_interface.py:_parse_series", "pySecDec/integral_interface.py:_parse_series_coefficient", "pySecDec/integral_interface.py:_convert_series", "pySecDec/integral_interface.py:series_to_ginac", "pySecDec/integral_interface.py:series_to_sympy", "pySecDec/integral_interface.py:series_to_maple", "pySecDec/integral_interface.py:series_to_mathematica", "pySecDec/integral_interface.py:series_to_json", "pySecDecContrib/util/secdecutil/series.hpp:operator<<", "pySecDecContrib/util/secdecutil/uncertainties.hpp:operator<<"]}
{"id": "C49", "title": "Results of disteval are written, read back and converted without changing their value", "statement": "For every result of disteval (any regulators, any orders, any finite complex coefficients and errors, any number of sums with at least one term): the text which is returned in the format sympy is converted by series_to_ginac, series_to_sympy and series_to_maple into two expressions per sum whose values are the sum of all values and of all errors times their products of powers of the regulators, as nested series truncated after the highest order. (Defects: coefficients which are not finite are left out without notice, so that a series with such a coefficient looks like one with the coefficient zero; a sum without terms raises an exception.)", "quantifier": "all results with finite coefficients, all printers of floats with sign and exponent, all values of the regulators", "why_tests_cant": "Unit tests convert one fixed text; the pattern which splits real and imaginary parts must be right for every sign and exponent, and the grouping for every set of orders.", "anchors": ["pySecDec/integral_interface.py:_parse_disteval_series", "pySecDec/integral_interface.py:_convert_series", "pySecDec/disteval.py:result_to_sympy", "pySecDec/disteval.py:do_eval"]}
{"id": "C50", "title": "Tensor numerators", "statement": "For every loop integral given by propagators and every numerator that is a sum of products of loop momenta k_i(mu), external momenta p_j(nu) and scalar factors: the numerator is accepted exactly if no listed Lorentz index occurs more than twice in a term, and then the integral over the loop momenta in momentum space (Euclidean region, convergent by power counting) is pi^(dL/2)/Gamma(N) * Gamma(Gamma_argument) * U^exponent_U * F^exponent_F times the numerator which the object returns, with Einstein's summation convention on both sides; a metric tensor left in the result carries only free indices.", "quantifier": "all numbers of loops and external momenta, all ranks, all terms, all indices and index values, all kinematics with positive definite M and F > 0, all integer dimensions; the algebraic form for every diagonal metric", "why_tests_cant": "Unit tests compare the expanded numerator of a few fixed integrals of rank up to four with stored strings; the sum over all subsets and pairings with the contraction of indices has to be Wick's theorem for every rank.", "anchors": ["pySecDec/loop_integral/from_propagators.py:LoopIntegralFromPropagators.preliminary_numerator", "pySecDec/loop_integral/from_propagators.py:LoopIntegralFromPropagators._numerator_tensors", "pySecDec/loop_integral/common.py:LoopIntegral.exponent_U", "pySecDec/loop_integral/common.py:LoopIntegral.exponent_F", "pySecDec/loop_integral/common.py:LoopIntegral.Gamma_argument"]}
{"id": "C51", "title": "The Feynman-parameter integral is the loop integral", "statement": "For every list of propagators with positive powers and every tensor numerator, in the region where all propagators are negative after the rotation to imaginary energies (M(x) positive definite and F(x) > 0 for positive Feynman parameters): if the loop integral over the momenta converges absolutely, then the integral over the Feynman parameters with the Dirac delta of measure * numerator * U**exponent_U * F**exponent_F, all as returned by the object, converges, is projective, and the loop integral is pi^(dL/2) * Gamma_factor times it; it is also the sum over the primary sectors of the integrals over the unit cube.", "quantifier": "all numbers of propagators, loops and external momenta, all kinematics and masses in this region, all positive real powers, all numerators of every rank, all integer dimensions", "why_tests_cant": "Unit tests compare U, F, measure and exponents of single integrals with stored expressions; that together they are the momentum-space integral, with all Gamma functions and the phase, is a statement about integrals for every input.", "anchors": ["pySecDec/loop_integral/common.py:LoopIntegral.measure", "pySecDec/loop_integral/common.py:LoopIntegral.Gamma_factor", "pySecDec/loop_integral/common.py:LoopIntegral.exponent_U", "pySecDec/loop_integral/common.py:LoopIntegral.exponent_F", "pySecDec/loop_integral/from_propagators.py:LoopIntegralFromPropagators"]}
{"id": "C52", "title": "The suggested extra regulator regulates all regions", "statement": "For every integral that is expanded by regions: the constraints returned by extra_regulator_constraints for a region are exactly the normals of its facets through the origin that are shared with the opposite facet of another region, and the entry 'all' holds one direction of each, so exponents satisfy 'all' iff they satisfy the constraints of every region; suggested_extra_regulator_exponent terminates for every polynomial with nonnegative exponents and proper facets, and either returns None, when there is no such facet, or exponents with vanishing sum that are orthogonal to none of the normals.  The search itself ends iff suitable exponents exist.", "quantifier": "all polynomials (numbers of variables, exponents), all regions, powers and orders; all lists of constraints; facets as returned by any correct normaliz", "why_tests_cant": "The search loop has no bound; the tests do not call the two functions at all, an example prints the result for one integral.", "anchors": ["pySecDec/loop_integral/loop_regions.py:suggested_extra_regulator_exponent", "pySecDec/loop_integral/loop_regions.py:extra_regulator_constraints"]}
{"id": "C53", "title": "The estimated leading order is a lower bound of the Laurent expansion", "statement": "For every list of sectors: leading_order (with faster=False) returns an integer L such that the Gamma function of the loop integral times the sum of the analytically regulated sector integrals is regulator^L times a function analytic at zero, i.e. all orders below the returned one vanish; it returns such a number for every list of valid sectors; the regulated sector integrals exist for all small nonzero values of the regulator, are unique, and agree with the ordinary integral wherever that converges.", "quantifier": "all numbers of parameters, names, factors, numerators and sectors; all exponents linear in the regulator, all polynomials with nonnegative exponents whose rests avoid the negative real axis on the closed cube; all values of the regulator near zero", "why_tests_cant": "The claim is about the analytic continuation of an integral; tests compare the returned number with known results for a few integrals.", "anchors": ["pySecDec/loop_integral/leading_order.py:leading_order"]}
{"id": "C54", "title": "Memory settings for FORM fit in the requested memory", "statement": "make_package's form_memory_use and the formset tool: the settings obtained satisfy all of FORM's constraints on its buffers, and calling calc again changes neither them nor the estimate; Setup.scale never fails an assertion (although the usage need not be monotonic in the scale), its result uses at most the given memory whenever the lowest scale uses less, a slightly larger scale would use at least that much, and otherwise the lowest scale is returned; formset writes settings only if they fit, and as many jobs as fit on the CPUs together use at most the given percentage of the memory; rounded numbers have three digits, are on the right side within one percent, and their text denotes them.", "quantifier": "all settings, memory sizes, thread numbers, scale factors (including every rounding of the products)", "why_tests_cant": "a test tries a few memory sizes; the search is over a function that is only hoped to be monotonic, and the adjustments influence each other", "anchors": ["pySecDec/formset.py:Setup.calc", "pySecDec/formset.py:Setup.scale", "pySecDec/formset.py:round_human_readable", "pySecDec/formset.py:main", "pySecDec/code_writer/make_package.py:_convert_input"]}
{"id": "C55", "title": "The loop over lattice sizes integrates every kernel with a valid lattice and ends", "statement": "disteval's iteration over lattice sizes: every integration job ever sent carries a generating vector with one component per dimension, each coprime to the number of points of this job, for tabulated and for median lattices, in every history of proposals, random numbers and answers (as long as no timeout occurs and, without median lattices, no size beyond the table is proposed); the median rule selects a candidate whose value is a median of the values of all candidates; with tabulated lattices every job uses a tabulated lattice, the loop ends after at most 165 iterations per kernel even if the precision is never reached, and the value and error of a kernel are always the mean and the variance of one integration that was sent, divided by the number of points of that job.", "quantifier": "all numbers of kernels, dimensions, starting sizes, candidates, histories of worker answers, random numbers and proposals", "why_tests_cant": "a test runs a few integrals to completion; the claim is about every history, including those in which the precision is never reached", "anchors": ["pySecDec/disteval.py:do_eval", "pySecDec/generating_vectors.py:generating_vector", "pySecDec/generating_vectors.py:max_lattice_size"]}
{"id": "C56", "title": "Parameter values and options reach the integrator unchanged", "statement": "For every history of calls of any libraries in one process: a call of DistevalLibrary with a value for each of the parameters in real_parameters and complex_parameters sends exactly these values, each integral in the order of its own parameters, whatever was passed to earlier calls; a call with the caller's own dictionary uses exactly the values the caller has assigned to it, changes no dictionary, and reports a parameter that has no value; a call without a dictionary uses its own list values and otherwise those of the last earlier call with lists (which is a defect: missing parameters are not reported); too many values are refused; the text handed to the evaluation of the coefficients denotes the same number as the one handed to the integrals. On the command line, the last of the arguments x=, int-x= (coeff-x=) for a variable counts; n x value stands for n copies; units of time are s, m, h, d.", "quantifier": "all libraries, histories of calls and assignments, values, command lines", "why_tests_cant": "a test makes a few calls in a fresh process; state shared between calls shows up only in histories", "anchors": ["pySecDec/integral_interface.py:DistevalLibrary.__call__", "pySecDec/disteval.py:do_eval", "pySecDec/disteval.py:main", "pySecDec/disteval.py:parse_array_shorthand", "pySecDec/disteval.py:parse_unit"]}
{"id": "C57", "title": "The whole package computes the Laurent coefficients of the integral", "statement": "For every list of polynomials with positive coefficients and exponents a + b*regulator, every choice of symmetry searches, every hash function, every ibp_power_goal that is either met or applied to exponents which are not positive integers, and every required order: if make_package (iterative strategy) produces the package, and the integral with the Dirac delta is projective and converges for the regulators of some open set, then its analytic continuation exists and is unique, all integrals handed to the numerical integration exist, every sector reaches the required order, and the sums over the sectors of the integrals of the orders are exactly the coefficients of the Laurent expansion of the continuation up to and including the required order. The package is produced whenever the decomposition ends and each parameter with a negative power is regulated.", "quantifier": "all integrals with Euclidean kinematics and one regulator, all options, all orders", "why_tests_cant": "a test compares a few integrals with known results to a few digits; this needs the composition of decomposition, symmetry search, integration by parts, subtraction and expansion for all integrals", "anchors": ["pySecDec/code_writer/make_package.py:make_package", "pySecDec/code_writer/make_package.py:_reduce_sectors_by_symmetries", "pySecDec/code_writer/make_package.py:_process_secondary_sector", "pySecDec/decomposition/iterative.py", "pySecDec/subtraction.py"]}
{"id": "C58", "title": "A loop package computes the Laurent coefficients of the loop integral", "statement": "For every list of propagators (any number of loops) in an integer number of dimensions, with powers a + b*regulator that need no derivatives, numerator one and polynomials U and F with positive coefficients, in the region where the propagators are negative after the rotation to imaginary energies: if the loop integral over the momenta converges absolutely for the regulators of some interval and loop_package (iterative strategy) produces the package, then the loop integral divided by pi^(dL/2)*prefactor has an analytic continuation to the neighbourhood of the value zero of the regulator, and for every such continuation the sums over the sectors of the integrals handed to the numerical integration are exactly its Laurent coefficients up to and including the required order.", "quantifier": "all lists of propagators with Euclidean kinematics, all powers linear in the regulator, all options, all orders", "why_tests_cant": "a test compares a few integrals with literature values to a few digits; this needs Feynman's formula, the decomposition, subtraction and expansion for all integrals", "anchors": ["pySecDec/loop_integral/loop_package.py:loop_package", "pySecDec/loop_integral/loop_package.py:LoopPackage", "pySecDec/loop_integral/common.py:measure", "pySecDec/loop_integral/common.py:Gamma_factor", "pySecDec/loop_integral/common.py:exponent_U", "pySecDec/code_writer/make_package.py:make_package"]}
{"id": "C59", "title": "The amplitudes reported by disteval are the Laurent expansions of sums of coefficient * prefactor * integral", "statement": "For one regulator, every set of amplitudes built from any integrals with any coefficients and prefactors with poles of any order: if each package is generated for the orders which sum_package requests, prefactor and coefficients are expanded as far as make_package and disteval demand, and every kernel has its exact value, then the evaluation does not fail and the list of orders and values reported for each amplitude is exactly the Laurent expansion of the analytically continued sum of coefficient * prefactor * integral up to and including the requested order (also if some coefficient vanishes up to the order to which it is expanded). The report of a single integral is the expansion of prefactor * integral.", "quantifier": "all sums of integrals (any number of amplitudes, terms, sectors), all leading orders, all requested orders", "why_tests_cant": "a test can only compare a few amplitudes numerically; the truncation orders of four independent programs must fit together for all leading orders", "anchors": ["pySecDec/code_writer/make_package.py:make_package", "pySecDec/code_writer/sum_package.py:_generate_one_term", "pySecDec/disteval.py:do_eval", "pySecDec/disteval.py:split_integral_into_orders", "pySecDecContrib/disteval/cpuworker.cpp:parse_cmd_evalf", "pySecDecContrib/disteval/cpuworker.cpp:ginac_bracket"]}
{"id": "C60", "title": "geometric_decomposition_ku splits the unit hypercube into sectors with factorized polynomials", "statement": "For polynomials in any number of variables (none of them empty, none listing an exponent vector twice), and given that normaliz returns triangulations of the cones it is asked about: the cones of generate_fan cover almost all of the positive orthant and do not overlap, geometric_decomposition_ku succeeds, in every sector each polynomial is a monomial times (constant + terms with non-negative powers), and if the integral over the unit hypercube exists then the integrals of all sectors exist and add up to it. If a polynomial lists an exponent vector twice a region is counted twice.", "quantifier": "all lists of polynomials, all integrands built from them, all valid triangulations", "why_tests_cant": "the number of cones is exponential and the integral identity is a statement about real functions; a test can only compare a few numbers", "anchors": ["pySecDec/decomposition/geometric.py:generate_fan", "pySecDec/decomposition/geometric.py:geometric_decomposition_ku", "pySecDec/decomposition/geometric.py:transform_variables", "pySecDec/polytope.py:triangulate"]}
{"id": "C61", "title": "geometric_decomposition splits the positive orthant into sectors with factorized polynomials; with Cheng_Wu it reproduces the loop integral", "statement": "For polynomials in any number of variables (none of them empty, none listing an exponent vector twice) whose Newton polytope has full dimension, and given that normaliz returns the vertices, facets and triangulations it is asked for: geometric_decomposition succeeds, in every sector each polynomial is a monomial times (constant + terms with non-negative powers), and if the integral over the positive orthant exists then the integrals of all sectors over the unit hypercube exist and add up to it; after Cheng_Wu for the last parameter they add up to the integral with the Dirac delta. Dropping the terms of the product of the polynomials with coefficients different from one in convex_hull does not lose a vertex.", "quantifier": "all lists of polynomials with full dimensional polytope, all integrands built from them, all valid triangulations", "why_tests_cant": "the statement is about all polytopes and all integrable functions; a test can only compare a few numbers", "anchors": ["pySecDec/decomposition/geometric.py:geometric_decomposition", "pySecDec/decomposition/geometric.py:Cheng_Wu", "pySecDec/polytope.py:convex_hull", "pySecDec/polytope.py:Polytope", "pySecDec/polytope.py:triangulate"]}
{"id": "C62", "title": "the results do not depend on the decomposition strategy", "statement": "For one regulator and Euclidean kinematics, whatever decomposition strategy is chosen (iterative, geometric, geometric_ku, and their no_primary variants on the unit cube or the positive orthant), with or without the symmetry finders, with any integration-by-parts goals: if a package is generated, its coefficients are those of the Laurent expansion of the continued integral; two packages generated with different strategies and required orders compute the same numbers for all common orders. The no_primary strategies compute the integral over the region they document. The geometric strategies always end.", "quantifier": "all lists of polynomials with positive coefficients, all pairs of strategies and options, all required orders", "why_tests_cant": "the strategies give completely different integrands whose integrals must agree for every input; a test compares a few examples numerically", "anchors": ["pySecDec/code_writer/make_package.py:make_package", "pySecDec/code_writer/make_package.py:get_decomposition_routines", "pySecDec/decomposition/geometric.py", "pySecDec/decomposition/iterative.py"]}
{"id": "C63", "title": "the regions of an expansion by regions are complete and none is scaleless", "statement": "With a correct Normaliz, the region vectors found for an expansion by regions (find_regions with ascending indices, and make_regions with or without polytope_from_sum_of) are exactly the scalings of the integration variables and of the smallness parameter whose leading terms are not homogeneous in another direction, each up to normalization exactly once; the error 'Input integral is scaleless' is raised only if the leading terms of all scalings are scaleless. The leading terms are the limit of the rescaled polynomial, and the integral of a scaleless region with positive coefficients converges for no exponents, so that no contribution is lost.", "quantifier": "all lists of polynomials, all numbers of variables, all scalings", "why_tests_cant": "a missed region gives a wrong result silently, and completeness quantifies over all real scalings", "anchors": ["pySecDec/make_regions.py:find_regions", "pySecDec/make_regions.py:make_regions", "pySecDec/polytope.py:Polytope"]}
{"id": "C64", "title": "the option split removes all endpoint zeros without changing the integral", "statement": "If make_package with split returns the sectors (strategies iterative_no_primary and geometric_no_primary, and the secondary step of iterative and geometric_ku), then in every sector each decomposed polynomial has a constant term and is different from zero at every corner of the unit hypercube, and for any function of the polynomials that is integrated the integrals of the sectors exist and add up to the integral over the unit hypercube.", "quantifier": "all polynomials with real coefficients (also of mixed sign), all numbers of variables, all seeds, all depths of the recursion", "why_tests_cant": "an invariant of an unbounded recursion of decomposition and splitting, and integrals of arbitrary functions", "anchors": ["pySecDec/code_writer/make_package.py:make_package", "pySecDec/decomposition/splitting.py:split_singular", "pySecDec/decomposition/splitting.py:split"]}
{"id": "C65", "title": "the exchange of files with Normaliz loses nothing", "statement": "The words of the run card written for an array are the dimension, the keyword, the number of rows and all entries in order, however numpy aligns columns and breaks long rows; reading a Normaliz output file with several arrays returns these arrays; triangulate returns the rays of the simplicial cones listed in the table, and refuses cones with too few rays and simplicial ones; complete_representation returns the vertices, facets and equations written by Normaliz. The latter fails for a polytope given by facets with vertices that are not integers (a machine-checked counterexample).", "quantifier": "all arrays of integers, all layouts, all numbers of arrays in a file, all triangulations", "why_tests_cant": "round trips through text for arrays of every shape and size", "anchors": ["pySecDec/polytope.py:normaliz_runcard", "pySecDec/polytope.py:read_normaliz_file", "pySecDec/polytope.py:triangulate", "pySecDec/polytope.py:Polytope.complete_representation"]}
{"id": "C66", "title": "coefficients of an amplitude: text, leading orders, expansion", "statement": "The expression of a Coefficient is the quotient of the products of its factors, whatever sums the factors are; python powers are converted without any other change; from_string takes as parameters exactly the words which are not regulators or constants; leading_orders ends for every coefficient and returns the lowest order in every regulator unless the random numbers are a zero of certain polynomials (a fraction of at most (n+1)(deg N + deg D)/|S| of the choices); a coefficient zero is dropped and the sum is not changed by this; the expansion which the C++ library makes of a coefficient is long enough for the requested orders if the leading order of the coefficient is at most one. The latter fails from leading order two on, leading_orders returns 0 above maxorder, and coefficients on several lines lose all but the last line (machine-checked counterexamples).", "quantifier": "all factors and texts, all rational functions in any number of regulators and parameters, all random numbers, all orders", "why_tests_cant": "the rational functions, orders and texts are unbounded; the random numbers change with every run", "anchors": ["pySecDec/code_writer/sum_package.py:Coefficient", "pySecDec/code_writer/sum_package.py:sum_package", "pySecDec/code_writer/templates/sum_package/src/name_weighted_integral.cpp:compute_required_orders", "pySecDecContrib/util/secdecutil/coefficient_parser.hpp:run_ginsh"]}
{"id": "C67", "title": "the transforms of the quasi-Monte Carlo integrator keep the integral", "statement": "For every number of variables the transformed integrand which the Qmc integrator samples is integrable over the unit cube and has the integral of the original one: Korobov<r0,r1> for all r0 and r1, Sidi<r> for all r, Baker, and the fit function PolySingular for all parameters with the poles outside of the unit interval, even if the fitted change of variables is not monotone or leaves the unit interval; and their composition as Qmc::integrate applies it. The transformed integrand is periodic (Korobov with positive weights and Sidi vanish on the boundary, Baker agrees on opposite faces).", "quantifier": "all weights r0, r1, r, all fit parameters, all numbers of variables, all integrable (for the fit function: bounded) integrands", "why_tests_cant": "the weights are template parameters, of which a test can instantiate only a few; the fit parameters depend on the integrand and on random numbers", "anchors": ["pySecDecContrib/qmc.hpp:Korobov", "pySecDecContrib/qmc.hpp:Sidi", "pySecDecContrib/qmc.hpp:Baker", "pySecDecContrib/qmc.hpp:PolySingularTransform", "pySecDecContrib/qmc.hpp:Qmc::integrate"]}
{"id": "C68", "title": "the quasi-Monte Carlo integrator: every schedule of the workers gives the mean over all shifts and its standard error", "statement": "For every number of worker threads and devices, every interleaving of their steps, every maxnperpackage and maxmperpackage: each lattice point is evaluated in exactly one work package and once for each shift; batched points fill their array exactly; the workers end and do not deadlock; the result of a lattice size is the mean of the averages over all its shifts, the error is the standard error of this mean (unbiased variance over the number of shifts), for the real and the imaginary part, also when more shifts are added later. integrate ends after at most maxeval+1 rounds for every integrand and every choice of random numbers, and returns an estimate from at least two shifts of one lattice size which meets the error goal or has used maxeval evaluations, or raises the exception for too large lattices (never with tabulated lattices below the limit). The median rule finds a candidate with at least half of the values on each side.", "quantifier": "all numbers of threads, devices, points, packages, shifts; all schedules; all integrands and random shifts; all options with minm >= 2, maxmperpackage >= 2, epsabs > 0", "why_tests_cant": "the schedules of the threads, the values of the integrand and the random shifts cannot be enumerated; the loop of the integrator adapts to the values", "anchors": ["pySecDecContrib/qmc.hpp:Qmc::sample", "pySecDecContrib/qmc.hpp:Qmc::sample_worker", "pySecDecContrib/qmc.hpp:core::reduce", "pySecDecContrib/qmc.hpp:Qmc::update", "pySecDecContrib/qmc.hpp:Qmc::get_next_n", "pySecDecContrib/qmc.hpp:Qmc::integrate_no_fit_no_transform", "pySecDecContrib/qmc.hpp:Qmc::get_median_z"]}
{"id": "C69", "title": "integrand containers: arithmetic in every program, integrals of sums, and errors under every schedule", "statement": "For every program of definitions, copies, assignments, + - * / (also compound), real and imaginary parts and ends of lifetimes, each IntegrandContainer evaluates at every point to the expression it stands for and files the sign check failures of all its operands; with unary minus only if its operand stays alive and unchanged (otherwise false: the address of the operand is captured). A sum or difference of containers with different numbers of variables, integrated over the larger cube, gives the sum or difference of the integrals; so does the dimension at least 2 used for Cuba; separate integration of real and imaginary part gives the complex integral. For every number of threads and every interleaving an error is thrown after the integration exactly if some evaluation reported one, and it is one of the reports.", "quantifier": "all programs over containers, all integrands, parameters and points; all numbers of variables; all numbers of threads, reports and interleavings", "why_tests_cant": "programs, points and schedules cannot be enumerated; aliasing and lost updates only show in particular histories", "anchors": ["pySecDecContrib/util/secdecutil/integrand_container.hpp:IntegrandContainer", "pySecDecContrib/util/secdecutil/integrand_container.hpp:ResultInfo", "pySecDecContrib/util/secdecutil/integrators/integrator.hpp:Integrator", "pySecDecContrib/util/secdecutil/integrators/integrator.hpp:MultiIntegrator", "pySecDecContrib/util/secdecutil/integrators/cuba.hpp:CUBA_INTEGRATE_BODY", "pySecDecContrib/util/secdecutil/integrators/cquad.hpp:CQuad"]}
{"id": "C70", "title": "lines with power zero of a graph are contracted", "statement": "For every connected graph and every list of powers with an entry that is not zero, the loop integral keeps, in their order, exactly the masses, powers, derivative orders and Feynman parameters of the lines whose power is not zero; every vertex of a remaining internal or external line gets a number. If the lines with power zero contain no closed loop, then the number of loops is unchanged, and U and F are U and F of the full graph with the Feynman parameters of these lines set to zero. The number of loops is unchanged only in this case: if the lines with power zero contain a closed loop, the integral is scaleless (U of the full graph vanishes), but the code makes an integral with fewer loops of it.", "quantifier": "all connected multigraphs with internal and external lines, names of vertices, masses, momenta and powers, and all orders in which the vertices may be numbered", "why_tests_cant": "graphs, power lists and iteration orders of sets cannot be enumerated; contractions of several lines interact", "anchors": ["pySecDec/loop_integral/from_graph.py:LoopIntegralFromGraph.__init__", "pySecDec/loop_integral/from_graph.py:LoopIntegralFromGraph.intverts", "pySecDec/loop_integral/from_graph.py:LoopIntegralFromGraph.preliminary_U", "pySecDec/loop_integral/from_graph.py:LoopIntegralFromGraph.preliminary_F"]}
{"id": "C71", "title": "make_regions: input polynomials in the variables of the decomposition", "statement": "Every polynomial, power or expression handed to make_regions becomes, in the order given, a base and an exponent that are polynomials in the variables of the decomposition, in the order of these, with coefficients that do not contain them; base and exponent have the values of the input at every point where no symbol is zero. Variables of the input that are no variables of the decomposition go into the coefficients (or are set to one, if that is asked for), and variables that occur in the coefficients are taken out of them.", "quantifier": "all polynomials and Laurent polynomial coefficients, all lists of old and new variables in any order, all points", "why_tests_cant": "old and new variables overlap in many ways and orders; wrong index tables show only for particular orders", "anchors": ["pySecDec/make_regions.py:_poly_variable_transform", "pySecDec/make_regions.py:_parse_expressions", "pySecDec/algebra.py:Polynomial.from_expression"]}
{"id": "C72", "title": "the expanded prefactor and its C++ series", "statement": "expand_ginac and expand_sympy return the Laurent expansion, in any number of regulators, up to the requested orders of what GiNaC or sympy expands: powers that do not occur are filled with zeros, and a level is marked as complete (not truncated) only if nothing was left out. The series generated from it for the package is constructed without an exception and has exactly these coefficients, regulators and truncation flags; the names of the parameters in it stand for the parameters at the same positions. expand_sympy raises OrderError exactly if the requested order is below the lowest order; expand_ginac does not fail if the requested orders are not negative (with negative orders it can fail although there is something to return).", "quantifier": "all numbers of regulators, expressions, requested orders, parameter lists, and all sequences of terms produced by the series generators", "why_tests_cant": "expansions with gaps, several regulators and negative orders cannot be enumerated", "anchors": ["pySecDec/expansion.py:expand_sympy", "pySecDec/expansion.py:expand_ginac", "pySecDec/expansion.py:sympy_to_nested_Polynomial", "pySecDec/code_writer/make_package.py:_make_prefactor_function", "pySecDecContrib/util/secdecutil/series.hpp:Series"]}
{"id": "C73", "title": "squashing symmetric sectors with dreadnaut", "statement": "Squashing with dreadnaut never changes the sum of the integrals of the sectors (Jacobian coefficient times integral), whatever hashes dreadnaut reports and for every labelling of the graphs: sectors are merged only if their canonical graphs are equal, and then they agree up to a permutation of the integration variables. If dreadnaut reports the same canonical graph for isomorphic graphs, and the hashes do not collide, then no two returned sectors are permutations of each other: every symmetry is found in one pass.", "quantifier": "all lists of sectors in any number of variables, with any coefficients and exponents, all integrals that are invariant under permutations of the variables, all labellings and hashes of dreadnaut", "why_tests_cant": "the graphs grow with the polynomials; that equal canonical graphs imply equal integrals concerns all polynomials, and hash collisions cannot be produced in tests", "anchors": ["pySecDec/decomposition/common.py:squash_symmetry_redundant_sectors_dreadnaut", "pySecDec/decomposition/common.py:_array_to_dreadnaut"]}
{"id": "C74", "title": "conversion of sympy expressions", "statement": "Expression(e, polysymbols) returns an expression that has, as a function of the variables polysymbols, the value of e, for all values of the other symbols and all functions and for all nonzero values of the variables. It does not fail for expressions built from numbers, symbols, sums, products, powers, logarithms, exponentials and functions if there is at least one variable, and always raises an exception if there is none. With follow_functions, the functions returned are exactly those that occur in the result, one for each different function call of e.", "quantifier": "all sympy expressions of any depth, all lists of variables, all values of the symbols and functions", "why_tests_cant": "expression trees of any shape; the result must agree as a function of the variables, not on samples", "anchors": ["pySecDec/algebra.py:Expression"]}
{"id": "C75", "title": "choosing an integrator and calling an integral library", "statement": "After every history of use_Vegas, use_Suave, use_Divonne, use_Cuhre (this one only for libraries not compiled for CUDA), use_CQuad and use_Qmc, a call of an IntegralLibrary with the right numbers of parameters uses the integrator chosen last (Qmc if none was chosen; use_CQuad combines CQuad in one dimension with the last integrator for more dimensions), with the settings of the call or else those of the integrator, and passes all parameters in their order. Whatever the schedule of the two threads, the call returns exactly the strings of a successful C routine, raises the RuntimeError only if the routine has failed, and always ends once the routine has returned; if the thread ends with an exception before (for example for a wrong number of parameters), the call never ends.", "quantifier": "all histories of choices, all arguments of the call, all return values of the C routine and all schedules of the two threads", "why_tests_cant": "histories of any length and all interleavings of the threads", "anchors": ["pySecDec/integral_interface.py:IntegralLibrary", "pySecDec/integral_interface.py:MultiIntegrator"]}
