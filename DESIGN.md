# Formal model of pySecDec in Lean 4 — design

## Method
Each modelled function becomes a Lean function (exceptions are values of `Except`/`Option`), with a
comment citing file and lines of /repo and naming every simplification.  Layout:

* `lean/Verif/Model/*`  the model of the code, function by function;
* `lean/Verif/Spec/*`   small specifications, written without reference to the model's helpers;
* `lean/Verif/Proof/*`  auxiliary lemmas;
* `lean/Verif/Props/*`  the property theorems `Cxx_…`, each with an `example` beside it showing that a
  concrete, non-trivial input meets its hypotheses.

Loops whose termination is not structural are modelled with fuel (`Option`/`Err.outOfFuel`); theorems
about results are then for every fuel with which the function returns, and separate theorems (C13, C16,
C21, C25, C37) settle whether some fuel always suffices.  Where the code violates the property a user would expect,
the failing case is a machine-checked theorem (`…_defect`, or listed under "Defects" below) and the positive theorem
has the exact condition as a hypothesis; the English statement in properties.jsonl names both.

## Trusted base
* Lean 4.33.0's kernel; Mathlib's definitions (ℝ, ℂ, `HasDerivAt`, `MeasureTheory`, `Matrix.det`, `SimpleGraph`, …).
* Axioms: at most `propext`, `Classical.choice`, `Quot.sound`; AXIOMS.md lists them for every theorem.  No own axioms,
  no compiled code.
* The reading of the sources: the code is not run.  The idealisations, everywhere the same:
  numpy integer arrays are unbounded integers; sympy coefficients are elements of a commutative ring or field (sympy's
  own arithmetic, `sympify`, `expand`, `Poly` are trusted); floats are exact real numbers; text files and processes
  are values; Python object identity and in-place mutation of shared objects are not modelled, except where a property
  is about it (the cache of ProductRule, C08; the state machines C24–C26).

## Properties: model and proof
| id | model (code) | proof |
|----|-------|-------|
| C01–C05 | `Model/Poly` = list of (exponent vector `Fin n → ℤ`, coefficient); methods of `Polynomial`, `refactorize` (algebra.py) | induction over the terms, evaluation homomorphism; formal coefficients for C02 |
| C06, C07 | `Model/Expr`: tree of all expression classes (algebra.py) | structural induction with `HasDerivAt`; almost-everywhere and analytic-continuation arguments for `simplify`; C07 partial: the claim is false in the code, see Defects |
| C08 | `Model/ProductRule`: factor lists and the cache of derivatives | invariant over all sequences of `derive` |
| C09–C12 | `Model/Misc`, `Model/ArgSort` (misc.py) | induction; Laplace expansion for `det`; `rec_subs` for an abstract substitution function |
| C13, C14 | `Model/MatrixSort`, `Model/Squash` (matrix_sort.py, decomposition/common.py) | permutation invariants; weighted sum of the classes; canonical form of Pak's algorithm |
| C15, C16 | `Model/Decomp` (iterative.py) | change of variables in Mathlib's measure theory; standard form by invariants; non-termination witness |
| C17, C19 | `Model/Primary`, `Model/Geometric` (iterative.py, geometric.py) | projective integral by the coordinate change x→(x/x_i,x_i); monomial substitutions. In C19 the fans are inputs; how they are computed is in C60 and C61 |
| C18 | `Model/Splitting` (splitting.py) | binomial theorem, interval integrals |
| C20, C21 | `Model/Subtraction` (subtraction.py) | Taylor subtraction / integration by parts with interval integrals and analyticity in the regulators; C21 partial for the same reason as C07; the value is preserved also in the sense of analytic regularisation, i.e. where the integrals diverge |
| C22 | `Model/Expansion` (expansion.py) | germs of analytic functions, uniqueness of Laurent expansions |
| C23 | `Model/Regions` (make_regions.py) | Taylor's formula with remainder in the expansion parameter |
| C24–C26 | `Model/Worker`, `Scheduler`, `NanRetry` (disteval.py) | state machines, invariants over all histories; witnesses where the code breaks outside the legal histories |
| C27, C30, C36 | `Model/Orders`, `Variance` (disteval.py, sum_package.py) | convolution sums; expectations and variances of random variables |
| C28 | `Model/AdjustN` (disteval.py) | Lagrange multipliers replaced by Hölder's inequality; invariants of the clipping loops |
| C29 | `Model/GenVec`, `GenVecTables` (generating_vectors.py, all the tables) | facts about the tables by kernel computation, everything else for all arguments |
| C31 | `Model/FromGraph` (from_graph.py) | matrix powers ↔ walks ↔ connectivity, counting edges of forests |
| C32 | `Model/LoopCommon` (loop_integral/common.py) | induction over the derivatives, branch of the powers |
| C33 | `Model/Series` (secdecutil/series.hpp) | big-O arithmetic; class of coefficient rings closed under `Series` |
| C34 | `Model/Template` (make_package.py, template_parser.py) | scanner for Python's % formatting, induction over trees |
| C35 | `Model/FromProps` (from_propagators.py, misc.py) | Laplace expansion, completing the square |
| C37 | the fuelled models of Expr, Subtraction, Expansion | decreasing measures; exact conditions of the exceptions |
| C38 | `Model/Exparse` (exparse.hpp, coefficient_parser.hpp) | grammar of the printed text, induction over it |
| C39 | `Model/Uncertainties` (uncertainties.hpp, compute_sum) | random variables with given mean and standard deviation; variance of sums and products |
| C40 | `Model/Refine` (amplitude.hpp) | ranking function for the loops, fixed point of the factor loop, per-sum analysis of the last round |
| C41 | `Model/Deform` (sector_container.hpp, amplitude.hpp) | induction over samples and attempts |
| C42 | `Model/Qmc` (common_cpu.h, common_cuda.h, builtin.cu, cudaworker.cpp, kernel templates of export_sector); doubles rounded to 53 bits in `mulmod`, exact reals elsewhere; integrand = partial function | the loops are sums over intervals of lattice points (induction over vectors, threads, blocks, reduction passes, batches); the transforms push the weighted measure on the cube to Lebesgue measure; the shifted lattice point is uniform |
| C43 | `Model/Qmc` (disteval.py 653-666, 759-762, 778-780) | expectation and variance over the product measure of the shifts |
| C44 | `Model/Func` (algebra.py 98-331, make_package.py 620-634, 694-806) | invariant over histories of the recipes; commuting partial derivatives of analytic functions; unique decoding of names |
| C45 | `Model/Contour` (make_package.py 694-707, 1085-1130, 1328-1335, 2031-2086, SecDecInternalFunctions.hpp) | Stokes' theorem for the box with the homotopy parameter as an additional variable; analytic continuation in the powers of the monomials; dominated convergence for the prescription |
| C46 | `Model/Sector` (make_package.py 1135-1188, 1362-1367) on top of `Model/Subtraction`, `Model/Expansion` | the regular part of every term is jointly analytic in the regulator and dominated near zero, so its Taylor coefficients may be integrated (parametric integrals); product of Laurent and Taylor series; identity theorem for the analytic continuation; success from the termination theorems of C37. `Proof/RegAlgebra`, `Proof/RegPole`, `Proof/RegParts`: the same with the analytically regulated value (`Spec/AnalyticReg`), where no value of the regulator needs to converge, and with integration by parts (where the exponents inside `cal_I` must not be positive integers at regulator zero — `SmoothNonint0`, the class of expressions on which the boundary terms are right, see C21 — and the chain provably succeeds). One regulator |
| C47 | `Model/FormDef` (make_package.py 451-557, 577-608; ProductRule.to_sum) | names as paths below the name of the function (injective); induction on the depth with the semantics of sequential substitution from the last line to the first; termination by the weight of an expression; file names decoded digit by digit |
| C48 | `Model/SeriesText` (integral_interface.py 21-320; series.hpp and uncertainties.hpp `operator<<`); numbers are an abstract type with a printer and a reader which inverts it; regular expressions are transcribed by hand | text of terms is balanced in parentheses, so that the scanner of terms splits it at the top level only; induction on the nesting; value of the converted text by an evaluator for tokens with the usual precedence, in every context; table by induction with the keys of the terms kept apart |
| C49 | `Model/DistText` (disteval.py 973-988, integral_interface.py 87-161); floats are an abstract type with a printer `%+.16e` of which only the shape is assumed | the split into real and imaginary part is unique since a sign inside a number never follows a digit; lines one by one; grouping by powers by an invariant of the loop; value of the nested series by induction on the regulators |
| C50 | `Model/Numerator` (from_propagators.py 246-556, exponents and Gamma argument of common.py) at values of the Feynman parameters; external momenta and metric tensors symbolic | Wick's theorem by induction on the number of loop momenta from the integration-by-parts relations of the moments, matched with the enumeration by subsets and pairings; each contraction step preserves the value under Einstein's convention; Gaussian integrals by the substitution with a square root of M; Fubini for the common scale |
| C51 | `Model/LoopMeasure` (measure and Gamma_factor of common.py 289-354) together with the polynomials of `Model/FromProps` and the numerator of `Model/Numerator` | Feynman's formula from Schwinger parameters (Tonelli, scaling of all but the last parameter), exchange with the loop momenta by absolute convergence, C50 at every point of the Feynman parameters, Cheng-Wu for the Dirac delta (C17).  Not covered: complex powers, powers < 1 (derivatives, C32), non-integer dimension (there the right-hand side is the definition), physical thresholds |
| C52 | `Model/ExtraReg` (loop_regions.py 292-458); the facets of polytopes come from an oracle (normaliz), `indices=None` | the loop as a fuelled function; soundness by induction; termination because sums of multiples of inverses of different large primes do not vanish; internal facets have components of both signs since the exponents of the polynomial are nonnegative |
| C53 | `Model/LeadingOrder` (leading_order.py 37-138); the sectors are the input (the decomposition is C06-C08), sympy's expansion is the model's polynomial arithmetic, one regulator; `Spec/Regulated`: value of an analytically regulated integral | continuation in the powers by integration by parts, with the regular part analytic near the cube; each parameter with a negative power gives at most a simple pole; refactorization gives the monomial of the numerators; 1/Gamma is entire |
| C54 | `Model/Formset` (formset.py 121-195, 278-615, 759-847; make_package.py 243-249): all of `calc`, `scale`, `round_human_readable` for numbers of at least three digits; the product `int(n * x)` is left open, the factors are exact | the result of every adjustment is a fixed point of the others (`Spec/Formset`: the constraints); invariant of the bracketing search, without monotonicity |
| C55 | `Model/Iterate` (disteval.py 434-435, 576-590, 634-648, 689-826): the state of `iterate_integration`; random numbers, answers, clock and proposals are an arbitrary strategy depending on the iteration and the state; scheduling and NaN retries are C24-C26, the values of the jobs C42/C43 | invariant: kernels with a tabulated size have its vector; number of tabulated sizes above the current ones decreases; middle of a sorted list |
| C56 | `Model/Params` (integral_interface.py 1661-1706, disteval.py 439-469, 496-498, 947-971, 1072-1083): the dictionaries of the process are a heap, number 0 is the default value of `parameters`; values carry the number and Python's texts of it; `sympify`, `float`, `int` and the reader of coefficient files are abstract | characterisation of the content of each dictionary after any history, by induction on the history |
| C57 | `Model/Package` (make_package.py 1424-1443, 1839, 1935-1957, 2097-2150, 1083-1186): composition of the models of C13-C17, C32, C33, C46 (constructor, primary decomposition, symmetries, iterative or geometric decomposition, symmetries, sector processing) for one regulator, Euclidean kinematics, no `split`, contour deformation, `other_polynomials`, `remainder_expression` | chain of the theorems of the parts; the powers in a sector are bounded by the convergence (Fubini); regulated values of the sectors are analytic, so their sum is the continuation by the identity theorem on the complement of a closed countable set; uniqueness of expansions |
| C58 | `Model/LoopPackage` (loop_package.py 20-120, 358-382; exponents, measure and Gamma_factor of common.py) on top of `Model/FromProps`, `Model/Package`; one regulator, integer dimension, powers `a + b*regulator` without derivatives, numerator one | C51 at every regulator of the interval of convergence, extended to the strip above it (the modulus of the integrand depends only on the real part; homogeneity from two values of the regulator), then C57; identity theorem from an interval of the real axis |
| C59 | `Model/Amplitude` (make_package.py 1798-1802, 1893, 2136-2152, 2228-2267; sum_package.py 140-160; disteval.py 471-509, 782; cpuworker.cpp 463-489), on top of `Model/Package`, `Model/Orders`; one regulator; the expansions made by GiNaC and the values of the kernels are inputs | C57 and C58 for each integral, the sum over the rows of the table as an invariant of the loops of `split_integral_into_orders`, error estimate for a product of three truncated expansions |
| C60 | `Model/Geometric` (geometric.py 45-86, 253-344), `indices` all variables; the triangulations of Normaliz (polytope.py 155-236) are an oracle with the specification `TriangulatesDual` | each positive direction off finitely many walls has one minimal exponent per polynomial; walls and faces are null sets (images of proper subspaces under exp); C19 for the integrals |
| C61 | `Model/Geometric` (geometric.py 130-250; polytope.py 18-41, 349-363), `indices` all variables; vertices, facets and triangulations of Normaliz are an oracle with the specifications `PolytopeOf`, `TriangulatesRays` | a generic direction has a unique minimal vertex with a unique representation; by density no minimum is lost; Hahn-Banach separation and a null boundary show that it lies in the normal cone; C19 for the integrals |
| C62 | `Model/Package` with all strategies of code_writer/make_package.py 306-334 (`Method`, `primarySectors`, `secondarySectors`, `sectorsNoPrimary`); Normaliz is an oracle, its contract is the hypothesis `Decomposable` | the sectors of every strategy are in standard form and their integrals add up to the original one (C13, C17, C60, C61); the core of C57 (`Proof/PackageCore`) then applies to all; uniqueness of Laurent coefficients |
| C63 | `Model/FindRegions`: `find_regions` (selection of facets or of the equation, projection to `indices`, negative indices) and the polytope of `make_regions`; Normaliz is an oracle with the contract `FacetsOf` (facets and affine hull of the convex hull) | a weight whose leading terms have no second homogeneity is a multiple of a facet normal (finitely generated polar cone, Farkas); exponents of products and sums of polynomials with positive coefficients do not cancel; a divergent one-parameter orbit of scalings for the scaleless integrals |
| C64 | `Model/SplitDecomp`: the recursion `secondary_decomposition_with_splitting` (make_package.py 1873-1884) on top of `Model/Splitting` and the decompositions of `Model/Package`; the polynomial of the Jacobian travels as one of the other polynomials, which all decompositions transform alike | invariant: the polynomials stay simplified with no common powers (a polynomial with distinct terms is not the zero function, hence survives x -> 1-x; the decompositions act on exponents by injective maps); no singular set at one is left where the recursion stops, so no corner is a zero; integrals by C15, C18, C60 |
| C65 | `Model/Normaliz` (polytope.py 43-101, 155-236, 286-347), text as lists of characters; the white space numpy puts into `str(data)` is a parameter (any layout); the program `normaliz` is a function from the run card to the contents of its output files; the format of these files is specified in Spec/Normaliz | words and lines of concatenated texts by induction; `replace` only removes white space next to white space; reshape inverts flatten |
| C66 | `Model/Coefficient` (sum_package.py 41-127, 270-320; name_weighted_integral.cpp 31-47; coefficient_parser.hpp 174-195); the meaning of a text is a grammar (Spec/Coefficient, proved unambiguous); `ginsh` is an oracle for Laurent series of rational functions in one variable | induction on derivations (split at the last operator outside of parentheses); words by induction on the text; order of a quotient of Laurent series; Schwartz-Zippel |
| C67 | `Model/Transforms` (qmc.hpp 230-360, 440-1120, 3359-3367): the template recursions `IPow`, `Binomial`, `KorobovTerm`, `SidiTerm`, the loops over the variables; real numbers, no rounding | closed forms of the recursions by induction; the weight is the derivative, the end points by the beta integral and Wallis' products; change of variables on the cube by pushing measures forward; for the fit the fundamental theorem of calculus with the sign of the derivative and uniqueness of finite measures |
| C68 | `Model/Sampler` (qmc.hpp 1300-1343, 2145-2170, 2557-2610, 2667-2925, 3225-3417): work packages, the worker threads as a transition system (the read and the write of `r += point` are separate steps; the access to the queue is one step, guarded by the mutex), `reduce`, `sample`, `update`, `get_next_n`, the loop of `integrate`, the choice of the median; exact real numbers, unbounded `U`; `keeplattices` and the internal parallelism of one GPU kernel are not modelled | invariant of the transition system (results + pending + queued = all); a lexicographic measure for termination; the online algorithm is the sum of squared deviations, recovered from the error; induction on the fuel with `n * m > 0` new evaluations in each round |
| C69 | `Model/Container` (integrand_container.hpp; integrator.hpp 116-127, 271-277; cuba.hpp 45-48; cquad.hpp 139-143): objects at addresses, closures with captured copies or the captured address `this`, programs as lists of statements; `ResultInfo` as a transition system (compare-and-exchange, then two writes). Not modelled: `parameters_ptr`, `extra_parameters`, the libraries Cuba and GSL | invariant: each closure denotes a function, through objects that are not changed any more; Fubini for unused variables; invariant of the transition system (one thread writes) |
| C70 | `Model/Pinch` (from_graph.py 81-125): the loop that removes lines with power zero and renames vertices, and the numbering of the vertices in an arbitrary order (iteration over a `set`); U and F as in C31. Not modelled: sympy's comparison of a power with zero (a decidable equality) | induction over the loop: the renamings identify exactly the vertices joined by removed lines; spanning trees and two-forests of the contracted graph correspond to those of the full graph that contain the removed lines |
| C71 | `Model/ParseRegions` (make_regions.py 20-97, algebra.py 424-457): symbols by name, expressions as sums of numbers times powers of symbols, the index tables of `_poly_variable_transform`. Not modelled: sympy's parser and printer (`sympify_expression(str(...))`), the order of the terms of `sp.poly` | the missing and the new variables are a permutation of the old and the extra ones; collection of terms by induction |
| C72 | `Model/Prefactor` (expansion.py 320-440, code_writer/make_package.py 639-674): the recursions over the regulators, the loop over the terms, the initializer of the C++ series and the constructor of `Series`. Oracles with a contract: the generator of `sp.series` yields the terms in increasing order, `ginsh` yields the terms up to the requested orders. Not modelled: printing of numbers (20 digits), translation of function names between sympy and GiNaC | induction over the regulators; loop invariant |
| C73 | `Model/Dreadnaut` (decomposition/common.py 204-552): the graph that is written (vertices, edges, colours), the argsort of the hashes, the merging loop. Oracle with a contract: the program `dreadnaut` prints, for a graph whose cells list the vertices in order, the graph relabelled compatibly with the colours (`Relabels`), for completeness the same one for isomorphic graphs (`Complete`); the hash is arbitrary. A canonical graph with these properties is constructed. Simplification: coefficients have the same `str` exactly if they are equal. Not modelled: the text of the input file, the work directory, the subprocess | an isomorphism of the graphs is a permutation of the columns and one of the rows, and vice versa; loop invariant |
| C74 | `Model/Convert` (algebra.py 1779-1853): `recursive_call` with the list of followed functions, and the constructors that refuse empty lists. Oracle with a contract: `Polynomial.from_expression` (`sp.poly`) either fails or returns a polynomial with the value of the expression whose coefficients do not contain the variables (`Faithful`), and it accepts numbers and symbols; a parser for linear expressions is shown to meet the contract. Not modelled: parsing of strings, copying of the operands, `number_of_variables` checks (all operands have the same) | induction over the expression; invariant of the list of calls |
| C75 | `Model/LibraryCall` (integral_interface.py 412-467, 1175-1491): the attributes `_cuda`, `_integrator`, `high_dimensional_integrator` under the `use_...` methods, the arguments of the C routine, and a transition system of the two threads and the two queues. Not modelled: the remaining settings (`number_of_presamples`, ...), which are passed on unchanged, the allocation of the C objects, retries of `str_result` with larger buffers. The claim holds without `use_Cuhre` for CUDA libraries and without assignments to `integrator`, and ends if the thread does not raise; for the rest there are counterexamples | induction over the history against a specification by the latest choice; invariant of the reachable states and a decreasing number of steps |

## What is not modelled
* sympy, numpy, ginsh, Normaliz, dreadnaut, FORM, CUDA, GSL, Cuba and the C++ integrators themselves; the generated C++ and FORM
  code; `loop_integral/draw.py`; plotting and examples.
* In the pipeline, `cal_I` contains symbols of class `Function` with their derivatives; the expression model has all the other
  classes, and `Function` has a model of its own (C44).  C20/C21 quantify over every expression of the model in the place of `cal_I`.
* make_package.py: modelled are the name validation, transforms, orders bookkeeping, derivatives of functions, contour deformation, the decomposition
  with all strategies, the expansion of a sector, the splitting into FORM definitions, the file names and, for one regulator and Euclidean kinematics, the
  whole chain from the polynomials to the coefficients (C57-C59, C62); `split` up to the sectors (C64); not modelled are the subtraction of the sectors obtained with `split`, `remainder_expression`, several regulators in the whole chain.
  integral_interface.py: only the conversion of series and the parameters of `DistevalLibrary` (C48, C49, C56).
* numpy overflow (for example `np.linalg.matrix_power` of 64 bit integers in from_graph.py) and floating point rounding.
* asyncio: the scheduler's interleavings are histories of atomic steps, one per callback; process failures are not modelled.
* The algorithm of Normaliz: an oracle; C60-C62 assume the contract `NormalizCorrect` of Spec/Package, C63 the contract `FacetsOf` of Spec/FindRegions (in terms of arrays; C65 is about the files).

## Defects found (machine-checked unless marked "by reading")
* algebra.py: `simplify` can change a value when a base is a sum of ones raised to a positive integer (C07_simplify_changes_value);
  consequence for integration by parts (C21_boundary_term_wrong).  `Sum()` without operands raises in `simplify` (C37_empty_sum).
* algebra.py `replace(i,0)`: drops poles silently, and does not enter nested coefficients (C04_replace_zero_…).
* iterative decomposition may run forever (C16_iterative_decomposition_may_not_terminate); documented by the project.
* subtraction.py rejects unregulated integrable singularities as '1/0' (C20_one_over_zero…).
* expansion.py raises OrderError spuriously with several variables (C22_spurious_order_error…).
* make_regions.py: order zero wrong for exponent zero (C23_zero_exponent); by reading: `other_polynomials` overwritten (line 540),
  numerator dropped without regions (550-555).
* disteval.py: multicall steals the token of an unanswered call (C24_multicall_steals_pending_call), two errors in one multicall;
  cancelling twice breaks npending (C25_double_cancel_breaks_count); after a timeout two deformations mix (C26_timeout_mixes_parameters);
  adjust_1d_n may return less than the minima (C28).
* sum_package.py: lexicographic minimum of leading orders (C30_two_regulators…).
* from_graph.py: exponent of U wrong for a bridge with negative power (C32_bridge_defect).
* from_propagators.py: fractional entries of the quadratic form truncated (C35_truncation_defect), U_derivatives (C35_U_derivatives_defect).
* SecDecInternalFunctions.hpp: the macro SecDecInternalDenominator(x) expands to the unparenthesised 1.0/(x), so a division by it or a power of it is wrong (the generated code only multiplies by it).
* make_package.py accepts names with commas or a final newline (C34_validate_accepts_comma); `%%(key)s` raises (C34_escaped_instruction).
* make_package.py `_make_FORM_function_definition`: a polynomial with a single term and a long plain-number (sympy) coefficient raises `AttributeError` (`clear_cache` on the coefficient) instead of being written (C47_single_term_raises).
* make_package.py with two regulators: for a pole part like 1/(ε1+ε2) and required orders (1,-2) `expand_singular` raises `OrderError` and the whole term is replaced by zero, although -ε1/ε2² is within the required orders (same mechanism as C22_spurious_order_error; not a theorem of its own).
* amplitude.hpp: `maxincreasefac = 1` never ends (C40_maxincreasefac_defect), goal given up when one term cannot be refined (C40_unrefinable_defect), complex coefficients with the modes real/imag (C40_complex_coefficient_defect); by reading: the loop for the time limit uses `scaleexpo` of the last term, uninitialised if there is none, and the loop for `fac` compares its first value with 1 so that the plan depends on the unit of time; exceptions thrown in a worker thread terminate the program.
* sector_container.hpp / amplitude.hpp: minimum not respected, samples not checked again (C41_minimum_defect); after a failed sign check Divonne and CQuad integrals are never computed (C41_once_defect). By reading: `complex_to_real::real` copies pointers to the parameters of the original container, sums of containers have no parameters.
* disteval.py: fractional lattice sizes bias the values (C43_value_defect, C43_proposal_defect); one shift gives the error zero (C43_single_shift_defect); complex variances are compared lexicographically (C43_update_defect). By reading: line 815 swallows the missing generating vector also without lattice candidates, so that `None` is sent to the worker as the generating vector. export_sector: the CPU kernel evaluates up to three points after the end of its range, whose sign checks can fail (no effect for whole lattices, C42_cpu).
* algebra.py `Function`: derivative names can collide with function names that begin with `d` (C44_name_collision); `IndexError` in `derive` with more arguments than variables (C44_too_many_arguments).
* integral_interface.py `series_to_mathematica`: nested series without truncation lose their parentheses, `(1+2*eps)*alpha` and `1+2*eps*alpha` become the same text (C48_mathematica_missing_parentheses); `series_to_json` reports the regulator `null` for an untruncated series with one term of order zero (example in Props/SeriesText).
* integral_interface.py `_parse_disteval_series`: coefficients `nan` or `inf` do not match the pattern and are left out without notice (C49_nan_dropped); a sum without terms raises (C49_empty_sum_raises).
* loop_regions.py: `suggested_extra_regulator_exponent` never ends for a constraint on a single variable (or one that is constant on the variables that occur), although suitable exponents exist (`C52_endless_defect`); for proper facets this does not happen (`C52_suggested`).
* leading_order.py: with `faster=True` only the monomials of U and F are inserted in the numerators, which can cancel although the polynomials do not, and the returned order is too high (`C53_faster_defect`); powers which are not linear in the regulator give higher poles than counted (`C53_nonlinear_defect`). `nvars` counts the eliminated parameter too, so that the first regulator is treated as a parameter (harmless).
* formset.py 175-195: for numbers below 100, `10 ** (int(...) - 2)` is a floating point number, so that `round_human_readable` returns a floating point number below the given one (for example 63.900000000000006 for 64, rounding down; this is written to form.set with `-H parentheses=64`), and the number zero raises ValueError (`-H largesize=0`). Not proved (floating point), C54 is about numbers of at least three digits.
* disteval.py 653-666, 811-815: the sizes proposed in the first phase are not limited to the tabulated ones; without median lattices the `ValueError` of `generating_vector` is swallowed and jobs without generating vector are sent (`C55_first_phase_defect`).
* integral_interface.py 1662: the default value `parameters={}` of `DistevalLibrary.__call__` is one object shared by all calls of all libraries, and the lists are written into it: a later call with fewer values silently uses stale ones (`C56_stale_values`), a value that is not a number breaks all later calls of other libraries (`C56_poisoned`), and a dictionary of the caller is modified (`C56_callers_dictionary_changed`).
* integral_interface.py 1473-1474: `use_Cuhre` does not reset `_cuda`; after `use_Qmc` with a CUDA library it makes every call fail (`C75_cuhre_after_cuda_fails`).
* integral_interface.py 440-447, 1301-1304: the assignment `integral_library.integrator = MultiIntegrator(...)` of the documentation leaves `high_dimensional_integrator` unset, so that a call with default settings fails (`C75_assigned_integrator_fails`).
* integral_interface.py 1348, 1382-1385: if the integration thread ends with an exception, for example for a wrong number of parameters, the caller waits for ever for the return value (`C75_hangs`, `C75_wrong_number`).
* geometric.py 60: `generate_fan` takes every listed exponent vector as a choice, so an unsimplified polynomial like x + x yields the same cone twice and the Kaneko-Ueda decomposition counts the region twice (C60_duplicate_exponents).
* polytope.py 36-41: `convex_hull` drops a vertex if an unsimplified polynomial lists it twice (C61_duplicate_exponents).
* make_regions.py 158-173: `find_regions` with `indices` that are not in ascending order puts the components of the regions in the wrong places (`C63_unsorted_indices_defect`); with a negative index of the expansion parameter and no `indices`, `equations[0,exp_param_index]` is the constant of the equation, and regions are lost (`C63_negative_index_defect`).
* polytope.py 342-343: `complete_representation` discards the common denominators of the vertices; for a polytope given by facets whose vertices are not integers, the vertices are wrong (`C65_rational_vertices_defect`).  pySecDec itself only starts from integer vertices.
* sum_package.py 111-115: `leading_orders` returns 0, not `maxorder`, for an order above `maxorder + 1` (`C66_maxorder_defect`).  coefficient_parser.hpp 179-182: of a coefficient with line breaks only the last line is used (`C66_lines_defect`).  By reading: sum_package.py 155 writes the characters of the string `999999` as orders, `{9,9,9,9,9,9}`, for an amplitude without this integral; harmless up to six regulators because the file of the coefficient does not exist and is read as zero.
* name_weighted_integral.cpp 37-43 (C++ interface; disteval is not affected): the number of orders to which a coefficient is expanded has the leading order of the coefficient subtracted, although `ginsh` counts orders from zero; a coefficient of order two or more in a regulator loses contributions, e.g. `eps^2` times an integral `1/eps^2 + ...` gives 0 (`C66_required_orders_defect`).
* By reading: qmc.hpp 1080, the batched evaluation of `Sidi<r>` for even r multiplies the pointer `wgts` instead of `wgts[i]`, and does not compile when it is instantiated.  qmc.hpp 356-383, the batched evaluation of `PolySingular` evaluates the integrand at points outside of the unit cube and multiplies by 0, which is NaN if the integrand is not finite there (the unbatched one returns 0 before).
* By reading: qmc.hpp 3256, `update` computes the number of additional shifts from the number of shifts of the last call, not from the number of all shifts for this lattice, so it may add too few; the loop still ends (C68). qmc.hpp 3265: the lattice size is rounded up to the next tabulated one, so maxeval may be exceeded by any factor. qmc.hpp 2790: without `keeplattices` the median lattice is constructed again in every iteration over the shifts.
* integrand_container.hpp 186: the unary minus captures `this`. After `b = -a; a = c` the container b is -c (`C69_minus_defect`), `a = -a` calls itself without end (`C69_minus_self_defect`), and `-(a+b)` uses a destroyed object (`C69_minus_temporary_defect`). By reading: there is no copy assignment, so `parameters_ptr` of an assigned container points into the parameters of the other one; integrators do not call `clear_errors`, so an error is thrown again by every later integration of a container or of its copies until it is cleared.
* from_graph.py 81-98: if lines with power zero contain a closed loop, the integral is scaleless, but the loop is silently dropped and the integral of a graph with fewer loops is computed: a sunrise with powers 1, 0, 0 becomes a one-loop tadpole (`C70_sunrise`, `C70_zero_loop`). By reading: if all powers are zero, then `P = 0`, `V = 0` and `L = 1`, so the test `L > 0` does not notice it.
* expansion.py 436: for a negative requested order, a vanishing intermediate coefficient is turned into a polynomial without terms, and `expand_ginac` fails with an `AssertionError` although there is something to return: `1/b**2 + a**2/b` to the orders (2, -1) (`C72_gap`).
* exparse.hpp: sign and division lost in front of regulators (C38_sign_lost_defect, C38_division_defect), unknown names read as 0.

## Tests against wrong programs
`seeded/LOG.jsonl`: one line per seeded bug in a scratch copy (definition, edit, broken claim, theorems that failed, theorems
tightened as a consequence).
