{"id": "C01", "title": "Reduced Matsubara frequencies are validated exactly", "statement": "A Matsubara-axis evaluation (uhat(n), MatsubaraSampling(points), augmentation .hat(n)) proceeds if and only if every supplied number is an integer (given as an integer, or as a float with integral value) and, where the object has definite statistics, has its parity (odd for fermions, even for bosons); otherwise it raises ValueError. Accepted values are passed on unchanged. NaN, infinities and non-integral floats are always rejected.", "quantifier": "every list of numbers (integers of any sign, finite floats, NaN, infinities) and every required parity (none, 0, 1)", "why_tests_cant": "The input domain is unbounded and includes negative integers, where bitwise parity is easy to get wrong; tests sample a few points.", "anchors": ["src/sparse_ir/_util.py:check_reduced_matsubara", "src/sparse_ir/poly.py:PiecewiseLegendreFT.__call__", "src/sparse_ir/augment.py:TauConst.hat", "src/sparse_ir/augment.py:TauLinear.hat", "src/sparse_ir/sampling.py:MatsubaraSampling.__init__"]}
{"id": "C02", "title": "Out-of-range and NaN arguments are rejected before evaluation", "statement": "Evaluating a basis function or a kernel raises ValueError if and only if some argument lies outside the closed domain or is NaN; arguments inside the closed domain, including both end points, are always accepted; the domain of a kernel is [-1, 1] in both arguments, that of its even and odd part [0, 1]. (The DLR functions of tau reject with RuntimeError instead, and with ValueError for NaN.)", "quantifier": "every array of IEEE values (finite, +-inf, NaN) and every domain [xmin, xmax]", "why_tests_cant": "Boundary and NaN behaviour concerns every element position of every array.", "anchors": ["src/sparse_ir/_util.py:check_range", "src/sparse_ir/kernel.py:_check_domain", "src/sparse_ir/dlr.py:TauPoles.__call__"]}
{"id": "C03", "title": "Array-shape lifting is element-wise", "statement": "Calling a Matsubara function with an array of any shape returns an array of shape basis.shape + n.shape whose entry at (l..., i...) is the value of function l at n[i...]; the time-like wrapper returns n.shape + rest. No element is permuted by the ravel/reshape round trip.", "quantifier": "every array shape (any number of dimensions, any extents including zero), every multi-index, every per-element function", "why_tests_cant": "Row-major ravel/reshape correctness must hold for all shapes.", "anchors": ["src/sparse_ir/_util.py:ravel_argument", "src/sparse_ir/_util.py:RavelArgumentDecorator.__call__"]}
{"id": "C04", "title": "A bound evaluator always evaluates the object it was taken from", "statement": "If f is obtained by attribute access from object A (e.g. f = modelA.giw), then calling f later evaluates A, whatever other evaluators were obtained or called in between, by whichever thread.", "quantifier": "every finite history of attribute accesses and calls over any number of objects sharing the class", "why_tests_cant": "The wrapper keeps one mutable 'current instance' per class, so the claim is about histories; single-object tests cannot see it.", "anchors": ["src/sparse_ir/_util.py:RavelArgumentDecorator.__get__", "src/sparse_ir/_util.py:RavelArgumentDecorator.__call__"]}
{"id": "C05", "title": "Discrete sign-change search is sound, complete and terminates", "statement": "On a strictly increasing integer grid, the discrete root search terminates and returns an ascending list consisting of exactly the grid points where f vanishes, plus exactly one integer m for every pair of neighbouring grid points with non-zero values of opposite sign; that m lies in the bracket and f has different sign bits at m and m+1.", "quantifier": "every real-valued function on the integers and every strictly increasing integer grid of any length", "why_tests_cant": "Requires all functions and grids; termination of the simultaneous (vectorised) bisection is not testable.", "anchors": ["src/sparse_ir/_roots.py:find_all", "src/sparse_ir/_roots.py:_bisect_discr", "src/sparse_ir/poly.py:PiecewiseLegendreFT.sign_changes"]}
{"id": "C06", "title": "Continuous root search terminates and brackets a root to tolerance", "statement": "For a positive tolerance the vectorised bisection terminates; find_all returns an ascending list with all grid zeros and exactly one point per strict sign change between neighbouring grid points, and for continuous f a true root of f lies within the tolerance of that point.", "quantifier": "every function, every ascending grid, every positive tolerance (in exact arithmetic)", "why_tests_cant": "Termination and the bracketing invariant hold per iteration of an unbounded loop.", "anchors": ["src/sparse_ir/_roots.py:find_all", "src/sparse_ir/_roots.py:_bisect_cont", "src/sparse_ir/poly.py:PiecewiseLegendrePoly.roots"]}
{"id": "C07", "title": "Discrete extremum search terminates inside its bracket and finds the peak", "statement": "The discrete extremum bisection on (a, b) with b - a >= 2 terminates and returns an integer strictly between a and b; if |f| increases up to an interior point and decreases strictly afterwards, it returns exactly that point.", "quantifier": "every function on the integers, every bracket", "why_tests_cant": "Unbounded recursion over all functions and brackets.", "anchors": ["src/sparse_ir/_roots.py:_bisect_discr_extremum", "src/sparse_ir/_roots.py:discrete_extrema"]}
{"id": "C08", "title": "Extrema are reported in ascending order", "statement": "discrete_extrema (and hence uhat[l].extrema()) returns its points in ascending order for every function and every ascending grid, so the subsequent symmetrisation never fails with 'points not ordered'.", "quantifier": "every function on the integers and every strictly increasing integer grid", "why_tests_cant": "Depends on the relative position of neighbouring brackets for all functions.", "anchors": ["src/sparse_ir/_roots.py:discrete_extrema", "src/sparse_ir/poly.py:_symmetrize_matsubara", "src/sparse_ir/poly.py:PiecewiseLegendreFT.extrema"]}
{"id": "C09", "title": "Piecewise evaluation selects the right segment", "statement": "For strictly increasing knots, evaluating a piecewise polynomial at any x in [xmin, xmax] uses the unique segment with knots[i] <= x < knots[i+1] (the last one for x == xmax), with local coordinate in [-1, 1], and returns the normalised Legendre sum of that segment; outside, it raises.", "quantifier": "every knot vector, every coefficient array, every x", "why_tests_cant": "All knots/positions, including x exactly on a knot and at both ends.", "anchors": ["src/sparse_ir/poly.py:PiecewiseLegendrePoly.__init__", "src/sparse_ir/poly.py:PiecewiseLegendrePoly._split", "src/sparse_ir/poly.py:PiecewiseLegendrePoly.__call__"]}
{"id": "C10", "title": "Selection commutes with evaluation", "statement": "p[l](x) == p(x)[l] == p.value(l, x) for polynomials, and uhat[l](n) == uhat(n)[l] for their Fourier transforms (including in the asymptotic regime), for any index or index vector l.", "quantifier": "every polynomial set, every selection map, every argument", "why_tests_cant": "Quantifies over all selections and arguments; the asymptotic model must be sliced consistently.", "anchors": ["src/sparse_ir/poly.py:PiecewiseLegendrePoly.__getitem__", "src/sparse_ir/poly.py:PiecewiseLegendrePoly.value", "src/sparse_ir/poly.py:PiecewiseLegendreFT.__getitem__", "src/sparse_ir/poly.py:_PowerModel.__getitem__"]}
{"id": "C11", "title": "deriv(n) is the n-th derivative", "statement": "p.deriv(n)(x) is the n-th derivative of p at every x in the interior of a segment, for every n >= 0, and the reported parity of deriv(n) is (-1)**n times the parity of p.", "quantifier": "every piecewise polynomial, every order n, every interior x", "why_tests_cant": "An analytic statement over all coefficients, orders and points.", "anchors": ["src/sparse_ir/poly.py:PiecewiseLegendrePoly.deriv"]}
{"id": "C12", "title": "Root finding of symmetric functions is mirror symmetric", "statement": "For a function marked even or odd, roots() returns a list which is symmetric about the midpoint of the interval and ascending; for odd functions it contains the midpoint exactly once; without symmetry it is the plain root search on the refined knots grid.", "quantifier": "every piecewise polynomial, every refinement factor", "why_tests_cant": "All polynomials and grids.", "anchors": ["src/sparse_ir/poly.py:PiecewiseLegendrePoly.roots", "src/sparse_ir/poly.py:_refine_grid"]}
{"id": "C13", "title": "Grid refinement keeps the knots", "statement": "Refining a grid by alpha inserts exactly alpha - 1 equidistant points strictly inside every interval and keeps all original knots, in ascending order; the last knot is included exactly once.", "quantifier": "every strictly increasing knot vector and every alpha >= 1", "why_tests_cant": "All lengths and all alpha.", "anchors": ["src/sparse_ir/poly.py:_refine_grid"]}
{"id": "C14", "title": "uhat is the Fourier transform of u", "statement": "For the polynomial p on [-1, 1] the transform object returns (1/sqrt 2) * integral of exp(i pi n (x+1)/2) p(x) over [-1, 1] below the asymptotic threshold, so that basis.uhat[l](n) == integral over [0, beta] of exp(i pi n tau / beta) u[l](tau).", "quantifier": "every piecewise polynomial on [-1, 1] (any order, any knots), every integer n of either sign, every beta > 0", "why_tests_cant": "An exact analytic identity for all n; numerical tests only see rounding-level agreement at samples.", "anchors": ["src/sparse_ir/poly.py:_compute_unl_inner", "src/sparse_ir/poly.py:_get_tnl", "src/sparse_ir/poly.py:_phase_stable", "src/sparse_ir/poly.py:_shift_xmid", "src/sparse_ir/poly.py:_imag_power", "src/sparse_ir/basis.py:FiniteTempBasis.__init__"]}
{"id": "C15", "title": "The stable phase factor equals the naive one", "statement": "The shifted, cancellation-free phase factor equals exp(i pi/2 * n * (xmid + 1)) for every segment midpoint and every integer n; the shift is in {-1, 0, 1}, so no index error can occur.", "quantifier": "every partition of [-1, 1], every integer n", "why_tests_cant": "All partitions and all n of either sign (modular indexing of negatives).", "anchors": ["src/sparse_ir/poly.py:_phase_stable", "src/sparse_ir/poly.py:_shift_xmid", "src/sparse_ir/poly.py:_imag_power"]}
{"id": "C16", "title": "High-frequency model is the exact moment expansion", "statement": "The asymptotic model used for |n| >= n_asymp equals sum_m A_m/(i pi n/2)**(m+1) for n != 0, is zero for n == 0, and, for polynomials without interior knots having parity (-1)**l, equals the exact Fourier transform for every n of the matching parity.", "quantifier": "every polynomial order, every l, every n", "why_tests_cant": "Requires integration by parts of every order.", "anchors": ["src/sparse_ir/poly.py:_PowerModel.giw", "src/sparse_ir/poly.py:_power_moments", "src/sparse_ir/poly.py:_power_model", "src/sparse_ir/poly.py:_derivs"]}
{"id": "C17", "title": "Building a transform from a selected polynomial equals selecting from the transform", "statement": "PiecewiseLegendreFT(p[l], freq, n_asymp) evaluates to the same values as PiecewiseLegendreFT(p, freq, n_asymp)[l] for every l.", "quantifier": "every polynomial set, l and n", "why_tests_cant": "Parity of l enters the asymptotic model through the position in the array.", "anchors": ["src/sparse_ir/poly.py:_power_moments", "src/sparse_ir/poly.py:PiecewiseLegendreFT.__init__", "src/sparse_ir/poly.py:PiecewiseLegendreFT.__getitem__"]}
{"id": "C18", "title": "Conjugation symmetry and reality of the transform", "statement": "uhat[l](-n) == conj(uhat[l](n)) for all n; for even/odd polynomials the transform is purely real or purely imaginary, exactly as assumed when locating sign changes and extrema.", "quantifier": "every real piecewise polynomial, every n", "why_tests_cant": "All n and all polynomials.", "anchors": ["src/sparse_ir/poly.py:PiecewiseLegendreFT._func_for_part", "src/sparse_ir/poly.py:_get_tnl", "src/sparse_ir/poly.py:_symmetrize_matsubara"]}
{"id": "C19", "title": "Symmetrisation of frequency sets", "statement": "Given ascending non-negative frequencies, symmetrisation returns an ascending list, closed under n -> -n, whose non-negative part is the input, with zero appearing once if it appeared once; anything else is rejected with ValueError.", "quantifier": "every list of integers", "why_tests_cant": "All list lengths and contents.", "anchors": ["src/sparse_ir/poly.py:_symmetrize_matsubara"]}
{"id": "C20", "title": "Default Matsubara sampling points have the right structure", "statement": "Default Matsubara points are strictly increasing integers of the basis' parity, closed under negation (or all non-negative with positive_only), and in the fall-back branch a bosonic basis always includes zero; a size different from the expected one is always announced by a warning.  If function l has the parity of l, the non-negative points of the regular branch are where the transform of the function of the requested index vanishes or changes sign before the next frequency, and there is one for every change of sign between neighbouring grid frequencies.", "quantifier": "every transform (any basis functions), every requested size, both statistics, both positive_only settings", "why_tests_cant": "Must hold whatever the basis functions look like.", "anchors": ["src/sparse_ir/basis.py:_default_matsubara_sampling_points", "src/sparse_ir/poly.py:PiecewiseLegendreFT.sign_changes", "src/sparse_ir/poly.py:PiecewiseLegendreFT.extrema"]}
{"id": "C21", "title": "Fencing keeps parity, order and reflection symmetry", "statement": "Adding fence points to a set of Matsubara points keeps all original points, keeps the parity, returns strictly increasing points, and keeps the set closed under n -> -n.", "quantifier": "every set of Matsubara points of any size", "why_tests_cant": "Depends on sign handling for all sizes (thresholds 20 and 42).", "anchors": ["src/sparse_ir/basis.py:_fence_matsubara_sampling"]}
{"id": "C22", "title": "Default tau/omega sampling points lie strictly inside the interval", "statement": "Default tau points lie in [0, beta] in ascending order; in the fall-back branch they lie strictly inside and number two more than the extrema found; a count different from the requested one is announced by a warning.", "quantifier": "every basis, every requested number of points", "why_tests_cant": "All basis functions and sizes.", "anchors": ["src/sparse_ir/basis.py:_default_sampling_points", "src/sparse_ir/basis.py:FiniteTempBasis.default_tau_sampling_points", "src/sparse_ir/basis.py:FiniteTempBasis.default_omega_sampling_points"]}
{"id": "C23", "title": "Quadrature-rule algebra preserves exactness", "statement": "Reseating, scaling, piecewise subdivision and joining turn a rule exact for polynomials of degree <= d on [-1,1] into rules exact for (piecewise) polynomials of degree <= d on the target interval; nodes stay inside and ascending, weights keep their sign, and x_forward / x_backward stay equal to x - a and b - x.", "quantifier": "every rule, every sequence of edges of any length, every polynomial of degree <= d", "why_tests_cant": "Induction over the number of segments and all polynomials.", "anchors": ["src/sparse_ir/_gauss.py:Rule.reseat", "src/sparse_ir/_gauss.py:Rule.scale", "src/sparse_ir/_gauss.py:Rule.piecewise", "src/sparse_ir/_gauss.py:Rule.join"]}
{"id": "C24", "title": "Rules that do not connect are refused", "statement": "join raises ValueError unless every rule starts exactly where the previous one ended; piecewise raises ValueError exactly when the edges are not strictly increasing.", "quantifier": "every list of rules / edges", "why_tests_cant": "All lists.", "anchors": ["src/sparse_ir/_gauss.py:Rule.join", "src/sparse_ir/_gauss.py:Rule.piecewise"]}
{"id": "C25", "title": "Gauss-Legendre rules are exact to degree 2n-1", "statement": "If the Newton-polished nodes are the n roots of the n-th Legendre polynomial, the returned weights integrate every polynomial of degree <= 2n-1 over [-1,1] exactly; in any case the weights sum to b - a.", "quantifier": "every n >= 1 and every polynomial of degree <= 2n-1", "why_tests_cant": "All orders and all polynomials.", "anchors": ["src/sparse_ir/_gauss.py:legendre", "src/sparse_ir/_gauss.py:rule_from_recurrence", "src/sparse_ir/_gauss.py:_legendre_recurrence"]}
{"id": "C26", "title": "Three-term recurrence evaluation returns value and derivative", "statement": "The recurrence evaluator returns the values and the true derivatives of the highest and second-highest orthogonal polynomial, and for the Legendre coefficients these are the monic Legendre polynomials.", "quantifier": "every pair of coefficient sequences, every order, every x", "why_tests_cant": "All orders and coefficients.", "anchors": ["src/sparse_ir/_gauss.py:_polyvalderiv", "src/sparse_ir/_gauss.py:_legendre_recurrence"]}
{"id": "C27", "title": "Node polishing terminates and non-convergence is only a warning", "statement": "Building a Gauss rule performs at most five Newton steps and, if these do not converge, emits a warning and still returns a rule.", "quantifier": "every start vector and every recurrence", "why_tests_cant": "The non-convergence path depends on data no test triggers.", "anchors": ["src/sparse_ir/_gauss.py:rule_from_recurrence"]}
{"id": "C28", "title": "Collocation inverts Legendre evaluation", "statement": "For a rule exact to degree 2n-2, the n x n collocation matrix maps the values of any polynomial of degree < n at the nodes to its Legendre coefficients.", "quantifier": "every order n, every rule exact to 2n-2, every polynomial of degree < n", "why_tests_cant": "All orders.", "anchors": ["src/sparse_ir/_gauss.py:legendre_collocation"]}
{"id": "C29", "title": "Nested Kronrod table", "statement": "The 31-point table and its embedded 15-point rule (every second node) are symmetric, have positive weights and integrate every polynomial of degree <= 46 resp. <= 29 with error at most 1e-14 times the l1 norm of the coefficients.", "quantifier": "all polynomials up to the stated degree (the finite table is checked completely)", "why_tests_cant": "A statement over all polynomials about hard-coded constants.", "anchors": ["src/sparse_ir/_gauss.py:kronrod_31_15", "src/sparse_ir/_gauss.py:NestedRule"]}
{"id": "C30", "title": "Logistic kernel equals its defining formula without overflow", "statement": "LogisticKernel(L)(x, y) == exp(-L y (x+1)/2)/(1+exp(-L y)) for all (x, y) in the square, is centrosymmetric and lies in (0, 1); every exponential is taken of a non-positive argument.", "quantifier": "every Lambda >= 0, every (x, y) in [-1,1]^2, with or without explicit x_plus / x_minus", "why_tests_cant": "An identity over a continuum, and absence of overflow for all Lambda.", "anchors": ["src/sparse_ir/kernel.py:LogisticKernel._compute", "src/sparse_ir/kernel.py:_compute_uv", "src/sparse_ir/kernel.py:LogisticKernel.__call__"]}
{"id": "C31", "title": "Regularised Bose kernel equals its formula and its limit at y = 0", "statement": "RegularizedBoseKernel(L)(x, y) == y exp(-L y (x+1)/2)/(1 - exp(-L y)) for y != 0 (above the denormal threshold), equals 1/L at y == 0, which is the limit, is positive and centrosymmetric.", "quantifier": "every Lambda > 0 and (x, y) in the square", "why_tests_cant": "A removable singularity must be treated for all arguments.", "anchors": ["src/sparse_ir/kernel.py:RegularizedBoseKernel._compute"]}
{"id": "C32", "title": "Symmetrised kernels equal K(x,y) +- K(x,-y)", "statement": "get_symmetrized(+-1) evaluates to K(x,y) +- K(x,-y) on [0,1]^2 for any switch-over between closed form and difference; the closed forms are sinh/cosh and y sinh/sinh expressions, and where K is centrosymmetric the even/odd kernels determine K.", "quantifier": "every Lambda > 0 and (x, y) in [0,1]^2", "why_tests_cant": "The code switches formula by region; identity must hold in every region.", "anchors": ["src/sparse_ir/kernel.py:ReducedKernel.__call__", "src/sparse_ir/kernel.py:_LogisticKernelOdd.__call__", "src/sparse_ir/kernel.py:_RegularizedBoseKernelOdd.__call__"]}
{"id": "C33", "title": "Kernel discretisation grids are valid", "statement": "The hint grids for every Lambda are strictly increasing, symmetric, run from -1 to 1 and contain 0, so that they form legal piecewise polynomials; the symmetric half starts at 0 and ends at 1 and is again strictly increasing.  On either side of zero they have 15 log10(Lambda) (x) or 20 log10(Lambda) (y) points, rounded to the nearest integer but at least 1, 2 (logistic) or 15, 20 (bosonic), with spacings in the documented proportions.", "quantifier": "every number of segments (hence every Lambda)", "why_tests_cant": "All Lambda.", "anchors": ["src/sparse_ir/kernel.py:_SVEHintsLogistic.segments_x", "src/sparse_ir/kernel.py:_SVEHintsLogistic.segments_y", "src/sparse_ir/kernel.py:_SVEHintsRegularizedBose", "src/sparse_ir/kernel.py:_symm_segments"]}
{"id": "C34", "title": "Truncation keeps exactly the most significant singular values", "statement": "Truncating an SVE keeps in every block a prefix consisting of exactly the singular values above the cut-off, keeps u, s, v aligned, never keeps more than n_sv values, never splits a degenerate level, and every kept value is larger than every dropped one.", "quantifier": "every list of blocks of non-increasing singular values, every tolerance in [0,1], every n_sv", "why_tests_cant": "All spectra including ties.", "anchors": ["src/sparse_ir/sve.py:_truncate"]}
{"id": "C35", "title": "part(eps, max_size) returns the significant prefix", "statement": "SVEResult.part returns equally long prefixes of u, s, v with exactly min(max_size, #{s >= eps s0}) entries for non-increasing s, and the defaults are the stored accuracy and no limit.", "quantifier": "every non-increasing spectrum, every eps, every non-negative max_size", "why_tests_cant": "All spectra.", "anchors": ["src/sparse_ir/sve.py:SVEResult.part"]}
{"id": "C36", "title": "Sampling SVE yields orthonormal functions interpolating the singular vectors", "statement": "With an exact Gauss rule and exact SVD, the returned u (and v) are orthonormal on their interval, take the value u[i,l]/sqrt(w_i) at the Gauss nodes, and reproduce the kernel at all pairs of nodes when nothing is truncated.", "quantifier": "every kernel, every segment grid, every Gauss order, every exact SVD", "why_tests_cant": "All kernels and sizes.", "anchors": ["src/sparse_ir/sve.py:SamplingSVE.matrices", "src/sparse_ir/sve.py:SamplingSVE.postprocess"]}
{"id": "C37", "title": "Even/odd recombination yields the SVE of the full kernel", "statement": "For a centrosymmetric kernel the recombined functions have definite parity u(-x) == sign u(x), are orthonormal on [-1,1] if the halves were on [0,1], are singular functions of the full kernel with unchanged singular values, and s is non-increasing with (u, s, v, sign) permuted consistently.", "quantifier": "every centrosymmetric kernel, every pair of half-interval expansions", "why_tests_cant": "All kernels, sizes, sort orders.", "anchors": ["src/sparse_ir/sve.py:CentrosymmSVE.postprocess", "src/sparse_ir/sve.py:CentrosymmSVE.__init__"]}
{"id": "C38", "title": "Canonicalisation fixes the gauge without changing the expansion", "statement": "After canonicalisation u[l](1) > 0 whenever it was non-zero, and every product u[l](x) v[l](y) is unchanged.", "quantifier": "every pair of function sets", "why_tests_cant": "All coefficient arrays.", "anchors": ["src/sparse_ir/sve.py:_canonicalize"]}
{"id": "C39", "title": "Physical units: the basis expands the physical kernel", "statement": "If the dimensionless SVE expands K, then sum_l u[l](tau) s[l] v[l](omega) == exp(-tau omega)/(1+exp(-beta omega)) for the logistic kernel, and u (v) are orthonormal on [0, beta] ([-wmax, wmax]).", "quantifier": "every beta > 0, wmax > 0, every SVE, tau in [0,beta], omega in [-wmax,wmax]", "why_tests_cant": "Scaling factors must be right for all parameters.", "anchors": ["src/sparse_ir/basis.py:FiniteTempBasis.__init__"]}
{"id": "C40", "title": "accuracy and significance are consistent", "statement": "significance is non-increasing from 1 and non-negative, and 0 < accuracy <= significance[-1]; accuracy is the first discarded relative singular value if there is one.", "quantifier": "every positive non-increasing spectrum, every truncation", "why_tests_cant": "All spectra.", "anchors": ["src/sparse_ir/basis.py:FiniteTempBasis.__init__", "src/sparse_ir/basis.py:FiniteTempBasis.significance", "src/sparse_ir/basis.py:FiniteTempBasis.accuracy"]}
{"id": "C41", "title": "basis[:n] truncates like a Python slice", "statement": "basis[:n] has min(n, basis.size) functions which are the first ones of basis, basis[:] is equivalent to basis, and indices that do not start at zero or step by one are refused.", "quantifier": "every basis, however constructed, and every slice", "why_tests_cant": "Depends on eps with which basis and SVE were built.", "anchors": ["src/sparse_ir/basis.py:FiniteTempBasis.__getitem__", "src/sparse_ir/basis.py:_slice_to_size", "src/sparse_ir/sve.py:SVEResult.part"]}
{"id": "C42", "title": "rescale keeps the dimensionless basis", "statement": "rescale(new_beta) returns a basis with the same lambda, the same size and the same dimensionless singular values and functions, for every new_beta > 0, and never fails the lambda consistency check.", "quantifier": "every basis and every new_beta > 0 (including rounding of beta*wmax in floating point)", "why_tests_cant": "Size depends on the eps stored in the SVE result; the check must survive rounding for all floats.", "anchors": ["src/sparse_ir/basis.py:FiniteTempBasis.rescale", "src/sparse_ir/basis.py:_get_kernel"]}
{"id": "C43", "title": "fit is a least-squares fit and inverts evaluate", "statement": "fit(x) minimises ||A y - x|| over all y (and has minimal norm among the minimisers), is linear, and fit(evaluate(a)) == a whenever the sampling matrix has full column rank; dropping exactly-zero singular values does not change this.", "quantifier": "every matrix, every valid thin SVD of it, every right-hand side", "why_tests_cant": "All matrices incl. rank deficient.", "anchors": ["src/sparse_ir/sampling.py:DecomposedMatrix.__init__", "src/sparse_ir/sampling.py:DecomposedMatrix._lstsq", "src/sparse_ir/sampling.py:AbstractSampling.fit"]}
{"id": "C44", "title": "positive_only fitting is the least-squares fit over real coefficients", "statement": "With positive_only, fit(x) minimises ||A y - x|| over real y, for complex data x of any kind, provided the zero-frequency row (if present) is real, which it is for every basis of this library; fit(evaluate(a)) == a for full rank.", "quantifier": "every complex matrix, every data vector, with and without zero frequency", "why_tests_cant": "All matrices.", "anchors": ["src/sparse_ir/sampling.py:_split_complex", "src/sparse_ir/sampling.py:SplitDecomposedMatrix"]}
{"id": "C45", "title": "Transformation along an axis", "statement": "evaluate/fit with axis=k applies the matrix to every fibre along axis k and leaves all other axes in place, for arrays of any rank and any valid axis; the documented default is the last axis.", "quantifier": "every rank, shape, axis (negative axes included)", "why_tests_cant": "All ranks and axes.", "anchors": ["src/sparse_ir/sampling.py:_matop_along_axis", "src/sparse_ir/sampling.py:AbstractSampling.evaluate"]}
{"id": "C46", "title": "Values are returned in the order of the given points", "statement": "evaluate(al, points=p)[n] is the value at p[n] and fit(ax, points=p) interprets ax[n] as the value at p[n], for any sampling object and any order of p.", "quantifier": "every list of points in any order", "why_tests_cant": "All orders; tests use sorted points.", "anchors": ["src/sparse_ir/sampling.py:MatsubaraSampling.__init__", "src/sparse_ir/sampling.py:TauSampling.__init__", "src/sparse_ir/sampling.py:AbstractSampling.evaluate", "src/sparse_ir/sampling.py:AbstractSampling.fit"]}
{"id": "C47", "title": "Augmented basis ordering and indexing", "statement": "For an augmented basis u(x)[l] is the l-th augmentation for l < naug and basis function l - naug otherwise, u[l](x) == u(x)[l] for every valid index, size == naug + basis.size, and slices [:n] keep the augmentations and the first n - naug functions.", "quantifier": "every basis, every number of augmentations, every index", "why_tests_cant": "All sizes and indices.", "anchors": ["src/sparse_ir/augment.py:_AugmentedFunction", "src/sparse_ir/augment.py:AugmentedBasis"]}
{"id": "C48", "title": "Augmentations are normalised Fourier pairs", "statement": "TauConst and TauLinear have unit norm on [0,beta], and their hat(n) equals the Fourier integral for every even n; deriv(n) is the n-th derivative; they refuse fermionic bases.", "quantifier": "every beta > 0, every even n, every derivative order", "why_tests_cant": "Analytic identities for all n.", "anchors": ["src/sparse_ir/augment.py:TauConst", "src/sparse_ir/augment.py:TauLinear", "src/sparse_ir/augment.py:_check_bosonic_statistics"]}
{"id": "C49", "title": "Augmented basis metadata", "statement": "statistics, xmin, xmax and deriv of an augmented basis behave as for the underlying basis.", "quantifier": "every augmented basis", "why_tests_cant": "Accessor code paths no test calls.", "anchors": ["src/sparse_ir/augment.py:AugmentedBasis.statistics", "src/sparse_ir/augment.py:AugmentedTauFunction.xmax", "src/sparse_ir/augment.py:AugmentedTauFunction.deriv"]}
{"id": "C50", "title": "DLR basis functions are Fourier pairs", "statement": "DLR u_i(tau) == -exp(-tau w_i)/(1+exp(-beta w_i)), independent of the normalisation of the poles, and uhat_i(n) is its Fourier transform: 1/(iv - w_i) for fermions and tanh(beta w_i/2)/(iv - w_i) for bosons.", "quantifier": "every beta > 0, every list of poles, every tau, every n of matching parity", "why_tests_cant": "All poles and n, including the point pole = 0, n = 0.", "anchors": ["src/sparse_ir/dlr.py:TauPoles", "src/sparse_ir/dlr.py:MatsubaraPoles"]}
{"id": "C51", "title": "DLR <-> IR conversion", "statement": "to_IR maps DLR coefficients to IR coefficients of the same function of tau (if the IR expands the kernel), from_IR is the least-squares inverse, and to_IR(from_IR(to_IR(g))) == to_IR(g).", "quantifier": "every coefficient array, every set of poles", "why_tests_cant": "All inputs.", "anchors": ["src/sparse_ir/dlr.py:DiscreteLehmannRepresentation"]}
{"id": "C52", "title": "SVD strategies agree on the contract", "statement": "svd.compute returns factors with A == (U*s) @ V.T for every strategy, shape (wide or tall) and availability of optional libraries, given that the underlying solver is correct; unknown strategies raise ValueError.", "quantifier": "every real matrix of either aspect ratio, every strategy, every library availability", "why_tests_cant": "Branches depend on installed libraries.", "anchors": ["src/sparse_ir/svd.py:compute", "src/sparse_ir/svd.py:_dgejsv", "src/sparse_ir/svd.py:_ddouble_svd_trunc"]}
{"id": "C53", "title": "Working precision selection", "statement": "The working precision chosen guarantees the requested accuracy when the available types allow it, a warning is emitted exactly when no strategy was given and the request lies below the achievable accuracy, and explicit user choices are respected.", "quantifier": "every eps, work_dtype, strategy and library availability", "why_tests_cant": "Decision table over a continuum of eps.", "anchors": ["src/sparse_ir/sve.py:_safe_eps", "src/sparse_ir/sve.py:compute"]}
{"id": "C54", "title": "Construction rejects invalid physical parameters", "statement": "FiniteTempBasis raises ValueError unless beta > 0, wmax >= 0 and statistics is exactly 'F' or 'B'; kernel.weight_func does the same for its statistics argument.", "quantifier": "every string and every pair of numbers incl. NaN", "why_tests_cant": "All strings.", "anchors": ["src/sparse_ir/basis.py:FiniteTempBasis.__init__", "src/sparse_ir/basis.py:_get_kernel", "src/sparse_ir/kernel.py:LogisticKernel.weight_func", "src/sparse_ir/kernel.py:AbstractKernel.weight_func"]}
{"id": "C55", "title": "Fermionic and bosonic members of a basis set share grids", "statement": "In a FiniteTempBasisSet both bases come from one SVE result, so sizes, singular values and tau sampling points coincide.", "quantifier": "every beta, wmax, eps and SVE result", "why_tests_cant": "All parameters.", "anchors": ["src/sparse_ir/basis_set.py:FiniteTempBasisSet", "src/sparse_ir/basis.py:finite_temp_bases"]}
{"id": "C56", "title": "overlap accounts for the whole interval", "statement": "The adaptive overlap integral always terminates; the segments it adds up together with the pending ones always partition the interval; if it finishes without warning the result is the sum over a partition with every local relative error below rtol, and it is exact for integrands the rule integrates exactly.", "quantifier": "every integrand, every tolerance, every refinement history", "why_tests_cant": "The refinement history is data dependent and unbounded a priori.", "anchors": ["src/sparse_ir/poly.py:_compute_overlap", "src/sparse_ir/poly.py:PiecewiseLegendrePoly.overlap"]}
{"id": "C57", "title": "irbasis-compatible Matsubara sampling points", "statement": "The adapter's Matsubara sampling points are strictly increasing, reflection symmetric (n -> -n-1 for fermions, n -> -n for bosons), contain zero for bosons, and there is exactly one per sign-definite run of the basis function on the probe grid, at a maximum of its magnitude.", "quantifier": "every function sampled on any grid", "why_tests_cant": "All functions.", "anchors": ["src/sparse_ir/adapter.py:_sampling_points", "src/sparse_ir/adapter.py:_full_interval", "src/sparse_ir/adapter.py:_get_mats_sampling"]}
{"id": "C58", "title": "irbasis-compatible x/y sampling points interleave the roots", "statement": "The adapter's root bisection terminates with one bracketed root per strict sign change on a symmetric grid with steps below 0.001 from -1+1e-12 to 1-1e-12, so that it finds every root that is isolated by 0.001 and not itself a grid point; and sampling_points_x returns one point strictly between each pair of neighbouring roots (end points included), so one more than the number of roots.", "quantifier": "every function", "why_tests_cant": "All functions.", "anchors": ["src/sparse_ir/adapter.py:_find_roots", "src/sparse_ir/adapter.py:sampling_points_x", "src/sparse_ir/adapter.py:sampling_points_y"]}
{"id": "C59", "title": "uhat is the Fourier transform of u", "statement": "For every basis function, uhat[l](n) of a FiniteTempBasis equals the integral over [0, beta] of exp(i pi n tau/beta) u[l](tau), for every n of the parity of the statistics below the radius 40*lambda beyond which the asymptotic model takes over; other n are refused.", "quantifier": "every valid construction, every index, every frequency index of matching parity", "why_tests_cant": "All frequencies; the code combines polynomial moments, spherical Bessel functions and phases of the dimensionless functions.", "anchors": ["src/sparse_ir/basis.py:FiniteTempBasis.__init__", "src/sparse_ir/poly.py:PiecewiseLegendreFT.__call__"]}
{"id": "C60", "title": "Condition number of the fit and its warning", "statement": "cond of a sampling matrix is the ratio of its largest to its smallest non-zero singular value, and fit emits a ConditioningWarning if and only if the basis claims to be well-conditioned and that ratio exceeds 1e8. FiniteTempBasis claims this, as does the basis augmented by MatsubaraConst alone; the DLR and all other augmented bases, also that without any augmentation, do not and so never warn.", "quantifier": "every matrix, every data array", "why_tests_cant": "All matrices; tests only see well-conditioned ones.", "anchors": ["src/sparse_ir/sampling.py:AbstractSampling.fit", "src/sparse_ir/sampling.py:DecomposedMatrix.cond"]}
{"id": "C61", "title": "A supplied decomposition is checked for shape and kept faithfully", "statement": "A decomposed matrix accepts a triple (u, s, vH) if and only if its shapes agree with each other and with the matrix, and raises ValueError otherwise; if accepted, exactly the non-zero singular values are kept, in order, with their columns of u and rows of vH, and the product (u*s) @ vH is unchanged.", "quantifier": "every shape and every value of the triple, complex and split form", "why_tests_cant": "All shapes; tests supply matching ones.", "anchors": ["src/sparse_ir/_util.py:check_svd_result", "src/sparse_ir/sampling.py:DecomposedMatrix.__init__", "src/sparse_ir/sampling.py:SplitDecomposedMatrix.__init__"]}
{"id": "C62", "title": "Kernel times weight function is the kernel of the statistics", "statement": "For the logistic kernel, K(x,y) times weight_func('F') is exp(-lambda*y*(x+1)/2)/(1+exp(-lambda*y)) and K(x,y) times weight_func('B') is exp(-lambda*y*(x+1)/2)/(1-exp(-lambda*y)) wherever lambda*y != 0; for the regularised Bose kernel with array y, K(x,y) times weight_func('B') is the same bosonic kernel wherever |lambda*y| >= 1e-200.", "quantifier": "every lambda, every array of points of the square", "why_tests_cant": "All points; tests compare at a few.", "anchors": ["src/sparse_ir/kernel.py:LogisticKernel.weight_func", "src/sparse_ir/kernel.py:RegularizedBoseKernel.weight_func"]}
{"id": "C63", "title": "Sampling objects accept exactly valid points and hold the basis at them", "statement": "MatsubaraSampling accepts exactly vectors of integers at which the basis can be evaluated (with positive_only: non-empty and without negative ones), stores them in ascending order together with the values of the basis functions there, and raises otherwise (ValueError for non-integers, other dimensions and negative frequencies with positive_only, IndexError for an empty vector with positive_only); TauSampling accepts vectors of times and keeps their order; without points the default ones of the basis are used.", "quantifier": "every array of points, every basis, positive_only or not", "why_tests_cant": "All arrays; tests use default points.", "anchors": ["src/sparse_ir/sampling.py:MatsubaraSampling.__init__", "src/sparse_ir/sampling.py:TauSampling.__init__"]}
{"id": "C64", "title": "Default sampling points of a basis", "statement": "default_tau_sampling_points of a FiniteTempBasis returns ascending times in [0, beta], default_omega_sampling_points ascending frequencies in [-wmax, wmax], with a warning if and only if their number is not the requested one (default: the size of the basis); if the expansion has a further function, they are its roots in physical units.  If it has a further function for the requested parity, default_matsubara_sampling_points returns strictly ascending, reflection-symmetric integers of the parity of the statistics, not fenced, with a warning if and only if they are not as many as expected; with positive_only exactly the non-negative ones of these.", "quantifier": "every valid construction, every number of points, every function value seen by the root search", "why_tests_cant": "All bases; tests compare counts for a few.", "anchors": ["src/sparse_ir/basis.py:FiniteTempBasis.default_tau_sampling_points", "src/sparse_ir/basis.py:FiniteTempBasis.default_omega_sampling_points", "src/sparse_ir/basis.py:FiniteTempBasis.default_matsubara_sampling_points"]}
{"id": "C65", "title": "compute returns a singular value expansion of the kernel", "statement": "For the logistic and the regularised Bose kernel, unless a singular function vanishes at x=1 (the gauge is then NaN), sve.compute returns an expansion on [-1,1]x[-1,1] with positive non-increasing singular values, orthonormal piecewise polynomials u and v and u_l(1) > 0; with the centrosymmetric strategy every function is even or odd.  The singular values are exactly those of the kernel on the Gauss nodes (of its even and odd parts on the quarter) that exceed the cut-off and are within the requested number, never splitting equal ones; and if the SVD is exact, u and v are orthonormal and satisfy the equations of singular functions on the nodes, with sums in place of integrals, and the squared error of any number of terms at the nodes is the sum of the squares of the omitted singular values.", "quantifier": "every lambda > 0, every accuracy, cut-off in [0,1], number of values, Gauss order, work type, both strategies", "why_tests_cant": "All parameters and the pipeline as a whole; tests look at a few lambdas.", "anchors": ["src/sparse_ir/sve.py:compute", "src/sparse_ir/sve.py:SamplingSVE.matrices", "src/sparse_ir/sve.py:SamplingSVE.postprocess", "src/sparse_ir/sve.py:CentrosymmSVE.matrices", "src/sparse_ir/sve.py:CentrosymmSVE.postprocess", "src/sparse_ir/sve.py:_truncate"]}
{"id": "C66", "title": "A basis constructed from scratch", "statement": "FiniteTempBasis(statistics, beta, wmax, eps, max_size), for the default kernel and for RegularizedBoseKernel(beta*wmax), either stops because a singular function vanishes at x=1 (the gauge is then NaN) or returns a basis with at least one and at most max_size functions: u orthonormal on [0,beta], v on [-wmax,wmax], u_l(beta) > 0, each pair even or odd under reflection, positive non-increasing singular values not below eps times the first one, uhat the Fourier transform of u for frequencies of the right parity below the asymptotic region.  Its singular values are the largest ones of the kernel on the Gauss nodes, in physical units; without max_size every omitted one is at most max(eps, cut-off) times the first; and if the SVD is exact, the squared error of the expansion of exp(-tau omega)/(1+exp(-beta omega)) (or of the Bose kernel) over the nodes is the sum of the squares of the omitted singular values.", "quantifier": "every beta, wmax > 0, both statistics, every accuracy at most 1 (or none), every positive max_size (or none)", "why_tests_cant": "All parameters and the whole pipeline; tests construct a few bases.", "anchors": ["src/sparse_ir/basis.py:FiniteTempBasis.__init__", "src/sparse_ir/sve.py:compute"]}
{"id": "C67", "title": "The replacement of irbasis", "statement": "adapter.load('F', Lambda) and load('B', Lambda) give the basis of the kernel exp(-Lambda x y/2)/(2 cosh(Lambda y/2)) and y exp(-Lambda x y/2)/(2 sinh(Lambda y/2)) in the conventions of irbasis: orthonormal functions on [-1,1] that are even or odd and positive at 1, positive non-increasing singular values not below the accuracy of the work type times the first one (other statistics: KeyError).  sl, ulx, vly give singular values and functions by index from the front or the back, d_ulx and d_vly their derivatives inside the sections, IndexError for an index out of range and ValueError for a point outside [-1,1]; compute_unl(n, l) is 1/sqrt(2) times the integral of exp(i pi (n+zeta/2)(x+1)) u_l(x) below the asymptotic region; and if function l has the parity of l, sampling_points_matsubara(l) passes its assertion and returns ascending symmetric indices, one largest value per run of one sign.", "quantifier": "every Lambda > 0, both statistics, every index, point, derivative order and frequency", "why_tests_cant": "All parameters; tests compare with irbasis for a few Lambdas.", "anchors": ["src/sparse_ir/adapter.py:load", "src/sparse_ir/adapter.py:Basis.__init__", "src/sparse_ir/adapter.py:Basis.ulx", "src/sparse_ir/adapter.py:Basis.d_ulx", "src/sparse_ir/adapter.py:Basis.vly", "src/sparse_ir/adapter.py:Basis.d_vly", "src/sparse_ir/adapter.py:Basis.sl", "src/sparse_ir/adapter.py:Basis.compute_unl", "src/sparse_ir/adapter.py:Basis.sampling_points_matsubara"]}
{"id": "C68", "title": "Sparse sampling of the functions of a basis", "statement": "TauSampling(basis, p) refuses times outside [0, beta]; otherwise evaluate along an axis gives the values sum_l g_l u_l(tau) at these times in the given order, and fit gets the coefficients back if no non-zero combination vanishes at all of them.  MatsubaraSampling(basis, n, positive_only) refuses frequencies of the wrong parity; otherwise it sorts them, evaluate gives the Fourier integrals of sum_l g_l u_l over [0, beta], and fit gets back complex coefficients (positive_only: real ones) if the frequencies determine them.  Fitting on the one kind of points and evaluating on the other is the Fourier transform and its inverse on the span of the basis.", "quantifier": "every basis from a valid construction, every list of points (frequencies below the asymptotic region), every array of coefficients, every axis", "why_tests_cant": "All points, arrays and axes; tests use the default points.", "anchors": ["src/sparse_ir/sampling.py:TauSampling.__init__", "src/sparse_ir/sampling.py:MatsubaraSampling.__init__", "src/sparse_ir/sampling.py:AbstractSampling.evaluate", "src/sparse_ir/sampling.py:AbstractSampling.fit", "src/sparse_ir/sampling.py:TauSampling.eval_matrix", "src/sparse_ir/sampling.py:MatsubaraSampling.eval_matrix"]}
{"id": "C69", "title": "Noise amplification of the fit", "statement": "cond is the largest factor by which the relative error of the data is amplified by the fit, and it is attained; for the split matrix of positive_only the same with real coefficients.  If the truncated expansion of a basis with the logistic kernel approximates the kernel to within delta and sigma is a lower bound of the sampling matrix, then fitting the Green's function of a pole at omega in [-wmax, wmax], given at m sampling times with errors at most eta, returns coefficients whose distance to s_l v_l(omega) is at most sqrt(m)(delta+eta)/sigma; likewise from its Matsubara values 1/(omega - i nu) for fermions and tanh(beta omega/2)/(omega - i nu) for bosons, with beta*delta in place of delta, with and without positive_only.", "quantifier": "every matrix of full column rank, every basis, points, pole position and perturbation of the data", "why_tests_cant": "All perturbations; tests add noise to a few samples.", "anchors": ["src/sparse_ir/sampling.py:DecomposedMatrix.cond", "src/sparse_ir/sampling.py:SplitDecomposedMatrix.__init__", "src/sparse_ir/sampling.py:AbstractSampling.fit", "src/sparse_ir/sampling.py:AbstractSampling.cond", "src/sparse_ir/sampling.py:TauSampling.__init__", "src/sparse_ir/sampling.py:MatsubaraSampling.__init__"]}
{"id": "C70", "title": "The basis set", "statement": "FiniteTempBasisSet: the two bases share parameters and expansion and differ in statistics and transforms only; the sampling points are the default points of the bases; points, sampling and fit in time are the same for fermions and bosons.  With an expansion which has at least two more functions than are kept, the set can be constructed, its times are ascending in [0, beta] and its frequencies strictly ascending, symmetric and odd for fermions, even for bosons.  Sampling then is evaluation of the function and its Fourier transform, and fit followed by sampling leads from times to frequencies and back whenever the points determine the coefficients.", "quantifier": "every beta, wmax, accuracy and singular value expansion, every array and axis", "why_tests_cant": "All expansions and arrays; tests use one basis set.", "anchors": ["src/sparse_ir/basis_set.py:FiniteTempBasisSet.__init__", "src/sparse_ir/basis_set.py:FiniteTempBasisSet.beta", "src/sparse_ir/basis_set.py:FiniteTempBasisSet.tau", "src/sparse_ir/basis_set.py:FiniteTempBasisSet.wn_f", "src/sparse_ir/basis.py:finite_temp_bases", "src/sparse_ir/sampling.py:TauSampling.__init__", "src/sparse_ir/sampling.py:MatsubaraSampling.__init__"]}
{"id": "C71", "title": "Sparse sampling with the DLR and with augmented bases", "statement": "With a DLR (some pole nonzero) TauSampling refuses times outside [0, beta] and otherwise evaluates the function with the given pole coefficients; MatsubaraSampling at frequencies of the right parity evaluates its Fourier transform, unless zero is both a pole and a bosonic frequency, which is refused.  With a bosonic basis augmented by TauConst and TauLinear, sampling evaluates the combined function and its transform; with a vertex basis (MatsubaraConst) it evaluates the constant plus the transform, and cannot be done in time.  In all cases fit returns the coefficients whenever the points determine them, without warning for the DLR and for TauConst, TauLinear.  Frequencies of the wrong parity are not refused by the DLR.", "quantifier": "every DLR, basis, list of points, array and axis", "why_tests_cant": "All poles, points and arrays; tests use a few.", "anchors": ["src/sparse_ir/dlr.py:DiscreteLehmannRepresentation", "src/sparse_ir/dlr.py:MatsubaraPoles.__call__", "src/sparse_ir/dlr.py:TauPoles.__call__", "src/sparse_ir/augment.py:AugmentedBasis", "src/sparse_ir/augment.py:_AugmentedFunction.__call__", "src/sparse_ir/sampling.py:TauSampling.__init__", "src/sparse_ir/sampling.py:MatsubaraSampling.__init__"]}
{"id": "C72", "title": "How many sampling points are needed", "statement": "For a basis of orthonormal functions there are L = basis.size times in [0, beta] at which TauSampling is without loss: fit(evaluate(g)) = g.  The norm of the Fourier transform over all frequencies of one parity is that of the coefficients times sqrt(beta), so also L Matsubara frequencies of the right parity, or for real coefficients at most L non-negative ones, determine the coefficients, and MatsubaraSampling is without loss if they are below the asymptotic region.  With fewer than L points (positive_only: fewer than L real conditions, two for each nonzero frequency and one for zero) some coefficients are not recovered by fit.  Points determine the coefficients exactly if the smallest singular value of the sampling matrix is above zero.", "quantifier": "every valid basis with orthonormal functions, every choice of points, every array and axis", "why_tests_cant": "Existence over the continuum of points and failure for every too small set.", "anchors": ["src/sparse_ir/sampling.py:TauSampling.__init__", "src/sparse_ir/sampling.py:MatsubaraSampling.__init__", "src/sparse_ir/sampling.py:AbstractSampling.evaluate", "src/sparse_ir/sampling.py:AbstractSampling.fit", "src/sparse_ir/basis.py:FiniteTempBasis.__init__"]}
{"id": "C73", "title": "Sampling with the DLR at any points", "statement": "For the DiscreteLehmannRepresentation at any times in [0, beta] (some pole not zero), fit(evaluate(g)) = g for all coefficients exactly if the poles are distinct and there are at least as many distinct times as poles; at any Matsubara frequencies of the right parity exactly if the poles are distinct, not zero for bosons, and there are at least as many distinct frequencies as poles; with positive_only and real coefficients each nonzero frequency counts twice.  Otherwise some coefficients are not recovered.", "quantifier": "every DLR object, every list of points, every array and axis", "why_tests_cant": "All subsets of a continuum of points; needs that exponentials form a Chebyshev system.", "anchors": ["src/sparse_ir/dlr.py:DiscreteLehmannRepresentation.__init__", "src/sparse_ir/dlr.py:TauPoles.__call__", "src/sparse_ir/dlr.py:MatsubaraPoles.__call__", "src/sparse_ir/sampling.py:AbstractSampling.evaluate", "src/sparse_ir/sampling.py:AbstractSampling.fit"]}
{"id": "C74", "title": "Transformed basis functions at high frequencies", "statement": "Let function number l of a FiniteTempBasis be even or odd about beta/2 according to l. For every non-zero n of the right parity with |n| >= 40 * lambda, where uhat uses its high-frequency model, uhat[l](n) minus the Fourier integral of u[l] over [0, beta] is exactly the sum over the orders m of derivatives and the interior knots t of (-1)^m / (i w)^(m+1) * exp(i w t) * J, w = pi n / beta, J the jump of the m-th derivative of u[l] at t; its modulus is at most the sum of |J| / |w|^(m+1). If no derivative jumps, uhat[l](n) is the Fourier integral for all n. MatsubaraSampling.evaluate at any frequencies of the right parity gives the Fourier transform of the function with the given coefficients up to the corresponding error, and exactly that below the threshold. The condition on parities is needed, and without continuous derivatives there is an error.", "quantifier": "all bases, all functions, all frequencies of the right parity, all arrays of coefficients", "why_tests_cant": "The error depends on jumps of derivatives of all orders at all knots and on the frequency; a test compares a few frequencies with quadrature.", "anchors": ["src/sparse_ir/basis.py:FiniteTempBasis.__init__", "src/sparse_ir/poly.py:PiecewiseLegendreFT.__call__", "src/sparse_ir/poly.py:_PowerModel.giw", "src/sparse_ir/poly.py:_power_moments", "src/sparse_ir/sampling.py:MatsubaraSampling"]}
{"id": "C75", "title": "Evaluating the kernels in floating-point arithmetic", "statement": "Let every operation and every elementary function have relative error at most u, and absolute error at most eta where the result may underflow. Let the numbers given as x_plus and x_minus be accurate to 3u relative to 1 + x and 1 - x. If 64 (1 + lambda) (u + eta) <= 1, then LogisticKernel returns a value within 22u + 40 (1 + lambda) eta of the kernel, with no factor lambda before u; relative to the kernel the error is at most 22 u (1 + t), t the exponent of the enumerator, besides the term with eta. Without x_plus and x_minus the absolute bound holds for the given x, but a rounding error in x itself is amplified by lambda. The RegularizedBoseKernel satisfies the same bounds with a factor 1 + 1/lambda. The symmetrised kernels have absolute error at most 48u, 44u (1 + 1/lambda), and the odd ones also relative error at most 92 u (1 + lambda y / 2) if lambda x y >= 2.1 or lambda y <= 169. For lambda y > 169 and small x the odd kernel has no relative accuracy: there are admissible arithmetics for which it evaluates to 0 though it is not 0.", "quantifier": "all arithmetics satisfying the contract, all lambda up to the order of 1/(64u), all points of the domain, all admissible x_plus and x_minus", "why_tests_cant": "Rounding errors depend on all arguments and on the arithmetic; a test compares with multi-precision values at some points of some kernels.", "anchors": ["src/sparse_ir/kernel.py:_compute_uv", "src/sparse_ir/kernel.py:LogisticKernel._compute", "src/sparse_ir/kernel.py:RegularizedBoseKernel._compute", "src/sparse_ir/kernel.py:ReducedKernel.__call__", "src/sparse_ir/kernel.py:_LogisticKernelOdd.__call__", "src/sparse_ir/kernel.py:_RegularizedBoseKernelOdd.__call__"]}
{"id": "C76", "title": "Quadrature rules and the matrix of the kernel in floating-point arithmetic", "statement": "Let the arithmetic satisfy the contract of C75 with eta <= u^2, and let a rule on [-1, 1] have nodes accurate to d relative to the distances from both ends, and weights, x_forward, x_backward accurate to d. If the edges ascend, no segment contains zero inside, and the nodes are resolved by the arithmetic (12 u <= half the length of a segment times 1 + t, 1 - t and times the weight, 44 u <= r (1 + t) and r (1 - t)), then piecewise succeeds; all nodes, weights, x_forward and x_backward of the result have relative error at most e = d + r, the last two relative to the distance from the ends of the whole interval, and no node leaves the interval. If moreover 64 (1 + lambda) (e + eta) <= 1, then SamplingSVE.matrices succeeds, and its matrix differs from that of the exact nodes and weights by at most 62 e (LogisticKernel), 65 e (even), 120 e (odd, e <= 1e-4) in the Frobenius norm, whatever lambda, the segments and the size of the matrix are; for the RegularizedBoseKernel by 62 e, 66 e, 128 e times 1 + 1/lambda, under bounds on eta.", "quantifier": "all arithmetics satisfying the contract, all rules, all resolved segments, all lambda up to the order of 1/(64 e)", "why_tests_cant": "A test sees the double precision of one machine, for the segments of some kernels; the bound is on the accumulated errors of every step, for any segments.", "anchors": ["src/sparse_ir/_gauss.py:Rule.reseat", "src/sparse_ir/_gauss.py:Rule.join", "src/sparse_ir/_gauss.py:Rule.piecewise", "src/sparse_ir/kernel.py:matrix_from_gauss", "src/sparse_ir/sve.py:SamplingSVE.matrices"]}
{"id": "C77", "title": "Accuracy of the singular values and what truncation keeps", "statement": "If the matrix given to the SVD differs from the exact one by at most E in the Frobenius norm, every singular value differs from the exact one of the same number by at most E (and no smaller bound holds in general); so with the matrices of C76 and an SVD which is exact for a matrix within E of the given one, all singular values are accurate to the bound of C76 plus E. For the even and odd parts together and a tolerance t, _truncate keeps every singular value whose exact counterpart exceeds t T + (1 + t) E, T the largest exact one, and none whose exact counterpart is at most t T - (1 + t) E; all kept values are accurate to E.", "quantifier": "all matrices, all singular value decompositions of them, all tolerances in [0, 1]", "why_tests_cant": "The number of singular values near the cut-off and their errors differ from machine to machine; a test sees one outcome and one pair of matrices.", "anchors": ["src/sparse_ir/sve.py:SamplingSVE.matrices", "src/sparse_ir/sve.py:_truncate", "src/sparse_ir/svd.py:compute"]}
{"id": "C78", "title": "Accuracy of the singular vectors", "statement": "Let the matrix given to the SVD differ from the exact one by at most E in the Frobenius norm. A singular value of the exact matrix which is separated from all others and from zero by delta >= 4 E has a counterpart of the same number in every SVD of the perturbed matrix, and its left and right vectors, up to one common sign, have a joint error of at most 3 E / delta; with C76 this bounds the error of the singular functions in the norm of the quadrature rule, if the SVD is exact for a matrix close to the given one. Without separation there is no such bound: vectors of the same number may be orthogonal though the matrices are equal.", "quantifier": "all matrices, all singular value decompositions of them, all separated singular values", "why_tests_cant": "Vectors differ by signs and rounding from machine to machine; a test compares those of one machine with reference values.", "anchors": ["src/sparse_ir/sve.py:SamplingSVE.matrices", "src/sparse_ir/sve.py:SamplingSVE.postprocess", "src/sparse_ir/svd.py:compute"]}
{"id": "C79", "title": "Evaluating piecewise Legendre polynomials in floating-point arithmetic", "statement": "Let the arithmetic satisfy the contract of C75. For a piecewise Legendre polynomial with ascending knots whose stored dx fits the knots up to their rounding errors, and any x in [xmin, xmax], p(x) and p.value(l, x) return, for every function l, the value of the polynomial of the segment [a, b] which contains x, up to 75 n^2 k (u C + eta) sqrt(2/(b-a)) + eta: n is the number of coefficients, C the sum of their magnitudes, k = (|a| + |b|) / (b - a), provided 400 n^2 k u <= 1. The dx which the constructor computes by default fits, so do those which FiniteTempBasis gives for u and v. The factor k cannot be avoided: on every segment there is an admissible arithmetic with error at least u k sqrt(2/(b-a)) for coefficients 0, 1. Outside of the interval ValueError is raised whatever the arithmetic.", "quantifier": "all arithmetics satisfying the contract, all polynomials with any number of segments and coefficients, all points", "why_tests_cant": "The error of a recurrence depends on all coefficients, on the point and on the arithmetic; a test compares a few values on one machine.", "anchors": ["src/sparse_ir/poly.py:PiecewiseLegendrePoly.__init__", "src/sparse_ir/poly.py:PiecewiseLegendrePoly.__call__", "src/sparse_ir/poly.py:PiecewiseLegendrePoly.value", "src/sparse_ir/poly.py:PiecewiseLegendrePoly._split", "src/sparse_ir/basis.py:FiniteTempBasis.__init__"]}
{"id": "C80", "title": "Evaluating and fitting in floating-point arithmetic", "statement": "Let A be a sampling matrix with m rows and n columns whose SVD is computed with a backward error: U, s, V^H with s between smin > 0 and smax, U and V orthonormal up to delta <= 1/10 in the operator norm, and U S V^H within e smax of A, e <= 1/10. Let matrix products, row divisions and sums of arrays be computed with relative errors gamma <= 1/12 (for products, relative to the norms of the factors) and eps <= 1/10 and absolute errors H. Then evaluate() of coefficients c differs from A c by at most 1.22 gamma smax |c| + H, fit() of data x differs from c by at most 5 (smax/smin)(delta + e + gamma + eps) |c| + 2 |x - A c| / smin + 3 H (1 + 1/smin), and fit(evaluate(c)) differs from c by at most 8 (smax/smin)(delta + e + gamma + eps) |c| + 4 H (1 + 1/smin), where smax/smin is the cond the object reports; for positive_only the constants are 8, 2, 3 and 10, 5 and the result is real. This holds along any valid axis of an array of any shape. The contract is met by products which round every multiplication and addition of the C75 arithmetic, whatever the order of summation: gamma is then sqrt(max(m, n)) 2 (D + 5) u with D the depth of the summation tree. With exact operations the rounded functions are the functions of C03 to C08.", "quantifier": "all matrices, all shapes and axes, all orders of summation, all arithmetics satisfying the contract, all computed SVDs with the stated backward error", "why_tests_cant": "The order of summation depends on the BLAS library and the array layout, and the loss of accuracy on the conditioning; a test sees one library and a handful of matrices.", "anchors": ["src/sparse_ir/sampling.py:DecomposedMatrix", "src/sparse_ir/sampling.py:DecomposedMatrix.matmul", "src/sparse_ir/sampling.py:DecomposedMatrix.lstsq", "src/sparse_ir/sampling.py:SplitDecomposedMatrix.matmul", "src/sparse_ir/sampling.py:SplitDecomposedMatrix.lstsq"]}
{"id": "C81", "title": "The root search in floating-point arithmetic", "statement": "Let operations be rounded to the nearest binary number of p digits (any rule for ties, subnormal numbers included, no overflow). For every function f, as computed, and every grid of floating-point numbers at least 2^(1-p) M apart, where M >= 2^(emin + 2p) is the largest magnitude, find_all terminates; its result is strictly ascending and consists of the grid zeros and exactly one floating-point number for each sign change between neighbouring grid points, an end of a bracket narrower than eps M on which the sign bit of f changes. If f is continuous g with an error of at most E, every reported point is within eps M of a point where |g| <= E, and between neighbours where |g| > E with different signs exactly one point is reported; for piecewise polynomials E is the bound of C79 plus the jump at the knots. For tiny magnitudes the search need not terminate: with a sign change between 0 and the smallest positive number it loops forever.", "quantifier": "all functions, all grids, all precisions p and exponents emin, all rules for ties", "why_tests_cant": "Termination of a loop whose exit condition compares a rounded difference with the machine precision cannot be concluded from runs which ended; whether a rounded midpoint may fall on an end of the bracket depends on the last digit.", "anchors": ["src/sparse_ir/_roots.py:find_all", "src/sparse_ir/_roots.py:_bisect_cont", "src/sparse_ir/poly.py:PiecewiseLegendrePoly.roots"]}
{"id": "C82", "title": "Accuracy of sparse sampling in floating-point arithmetic", "statement": "TauSampling and MatsubaraSampling (with and without positive_only), constructed from basis functions which are computed with errors up to E at the m sampling points and with a singular value decomposition of finite accuracy, exist, and along any axis of any array: evaluate returns the exact values of the expansion up to (61/50 gamma smax + sqrt(m n) E) ||c|| and underflow; fit, applied to any data x, returns any coefficients c up to (5 kappa (delta + e + gamma + eps) + 2 sqrt(m n) E / smin) ||c|| + 2 ||x - (exact values of c)|| / smin and underflow (8 instead of 5 with positive_only and real c); fitting what was evaluated does not depend on E at all; fit warns exactly if the basis claims to be well-conditioned and kappa > 1e8. Passing from one set of points to another by fit and evaluate is off by the error of the coefficients times the norm of the second matrix and by the bound on values. For piecewise Legendre polynomials E is explicit.", "quantifier": "all bases, all lists of points, all arrays and axes, all data, all arithmetics, matrix products and decompositions within the stated contracts", "why_tests_cant": "The bound is for the worst case over data, noise and rounding; tests compare round trips, in which the error of the basis functions cancels.", "anchors": ["src/sparse_ir/sampling.py:TauSampling.__init__", "src/sparse_ir/sampling.py:MatsubaraSampling.__init__", "src/sparse_ir/sampling.py:AbstractSampling.evaluate", "src/sparse_ir/sampling.py:AbstractSampling.fit"]}
{"id": "C83", "title": "Accuracy of the singular value expansion over the whole square", "statement": "With exact matrix decompositions, the result of sve.compute expands the kernel over all of [-1, 1] x [-1, 1], not only at the Gauss nodes: for every m, the root of the integral of the squared difference between the kernel and the first m terms is at most sqrt(sum of the squares of the singular values that are not used) + 4 (ex + ey), where ex (ey) bounds how far the kernel as a function of x (of y) is, uniformly, from piecewise polynomials with n_gauss coefficients on the hinted segments. For LogisticKernel with 10 <= lambda <= 10^6 the hinted segments are so fine that with n >= 10 nodes ex = 8^-n and ey = 2 (3/25)^n / (1 - 3/25); so the discretisation contributes at most 1e-8 with the 10 nodes used for eps >= 1e-8, and at most 4e-14 with the 16 nodes used otherwise.", "quantifier": "all continuous kernels and segments (general bound); all lambda from 10 to 10^6, all eps, cutoffs and n_sv; both SVE strategies", "why_tests_cant": "The difference is an integral over a square; tests can look at finitely many points and values of lambda.", "anchors": ["src/sparse_ir/sve.py:compute", "src/sparse_ir/sve.py:SamplingSVE.__init__", "src/sparse_ir/sve.py:SamplingSVE.postprocess", "src/sparse_ir/sve.py:CentrosymmSVE.postprocess", "src/sparse_ir/kernel.py:_SVEHintsLogistic.segments_x", "src/sparse_ir/kernel.py:_SVEHintsLogistic.segments_y", "src/sparse_ir/kernel.py:_SVEHintsLogistic.ngauss"]}
{"id": "C84", "title": "Accuracy of a basis constructed from scratch for Green's functions", "statement": "For 10 <= beta wmax <= 10^6, with exact matrix decompositions, FiniteTempBasis(statistics, beta, wmax, eps, max_size=...) either fails because the sign of a singular function cannot be fixed, or is a basis with: the root of the integral over [0, beta] x [-wmax, wmax] of the squared difference between the kernel and the expansion sum_l s_l u_l(tau) v_l(omega) is at most D = sqrt(sum of squares of the omitted singular values) + sqrt(beta wmax / 2) times 1e-8 (accuracy 1e-8 or worse) or 4e-14; every Green's function G(tau) = -int K(tau, omega) rho(omega) with a square integrable spectral function is reproduced by the coefficients -s_l int v_l rho with an error, in the mean over [0, beta], of at most D ||rho||; and its Fourier transform at every frequency of the right parity below 40 beta wmax is reproduced by the same coefficients and uhat up to sqrt(beta) D ||rho||. The omitted singular values are those of the discretised kernel that the basis does not contain; none is greater than any contained one, and without a limit on the size none exceeds max(eps, cutoff) s_0.", "quantifier": "all beta and wmax with 10 <= beta wmax <= 10^6, all eps, sizes and both statistics; all square integrable spectral functions; all frequencies within the range of uhat", "why_tests_cant": "Spectral functions form an infinite-dimensional space; tests can only look at some of them.", "anchors": ["src/sparse_ir/basis.py:FiniteTempBasis.__init__", "src/sparse_ir/sve.py:compute", "src/sparse_ir/kernel.py:LogisticKernel", "src/sparse_ir/kernel.py:_SVEHintsLogistic.segments_x", "src/sparse_ir/kernel.py:_SVEHintsLogistic.segments_y", "src/sparse_ir/poly.py:PiecewiseLegendreFT.__call__"]}
{"id": "C85", "title": "Accuracy with inexact matrix decompositions", "statement": "If the SVD routine returns orthonormal factors whose product differs from the matrix by at most delta times the norm of the matrix (Frobenius), then the computed singular values deviate from those of an exact decomposition at most by delta times that norm, and the error of sve.compute over the whole square is at most that with exact decompositions plus 2 M delta, M being a bound of the kernel, for both strategies. For the logistic kernel with 10 <= lambda <= 10^6: omitted singular values + 2 delta + 1e-8 (4e-14). For FiniteTempBasis: the error of the expansion of the kernel over [0, beta] x [-wmax, wmax], of Green's functions in time and on the Matsubara axis grows at most by sqrt(beta wmax / 2) 2 delta (times the norm of the spectral function).", "quantifier": "all kernels that are described by a centrosymmetric bounded function and are close to piecewise polynomials on their segments, all errors delta, all accuracies, cut-offs and numbers of singular values", "why_tests_cant": "The routines are accurate to rounding for the matrices of a test; what an error means for the basis is not visible there.", "anchors": ["src/sparse_ir/sve.py:compute", "src/sparse_ir/svd.py:compute", "src/sparse_ir/sve.py:SamplingSVE.postprocess", "src/sparse_ir/sve.py:CentrosymmSVE.postprocess", "src/sparse_ir/basis.py:FiniteTempBasis.__init__"]}
{"id": "C86", "title": "Accuracy of the expansion for the regularized Bose kernel", "statement": "For RegularizedBoseKernel(lambda) with 0 < lambda <= 10^12 the segments hinted by the kernel resolve it: over the whole square [-1, 1]^2 the first m terms of sve.compute deviate from y exp(-lambda y (x+1)/2) / (1 - exp(-lambda y)) (value 1/lambda at y = 0) in the mean at most by the omitted singular values plus (1 + 1/lambda) (3 delta + 2.5e-8), or 1e-13 instead of 2.5e-8 with 16 nodes per segment, delta being the backward error of the matrix decompositions; the special case of the code for |lambda y| < 1e-200 is included. For FiniteTempBasis(stat, beta, wmax, eps, kernel=RegularizedBoseKernel(beta*wmax)) the same holds, times sqrt(beta wmax / 2) / wmax, for the kernel omega exp(-tau omega) / (1 - exp(-beta omega)) / wmax^2 over [0, beta] x [-wmax, wmax], and for Green's functions in time and on the Matsubara axis, times the norm of the spectral function.", "quantifier": "all cut-offs 0 < lambda <= 10^12, all accuracies, cut-offs of singular values and numbers of singular values, all spectral functions, all errors delta", "why_tests_cant": "Tests compare singular values and functions for a few cut-offs with stored ones; the error between the nodes is not examined, nor is every cut-off.", "anchors": ["src/sparse_ir/kernel.py:RegularizedBoseKernel", "src/sparse_ir/kernel.py:_SVEHintsRegularizedBose.segments_x", "src/sparse_ir/kernel.py:_SVEHintsRegularizedBose.segments_y", "src/sparse_ir/kernel.py:_SVEHintsRegularizedBose.ngauss", "src/sparse_ir/sve.py:compute", "src/sparse_ir/basis.py:FiniteTempBasis.__init__"]}
{"id": "C87", "title": "Accuracy of the expansion at every point", "statement": "For FiniteTempBasis(stat, beta, wmax, eps, max_size) with 10 <= L = beta wmax <= 10^6, unless the sign of a singular function cannot be fixed: at every tau in [0, beta] and omega in [-wmax, wmax], end points and knots included, sum_l s[l] u[l](tau) v[l](omega) deviates from exp(-tau omega) / (1 + exp(-beta omega)) at most by E = n^2 (16 L^(5/8) O + 23 L^(9/8) delta) + tail, where n is the number of nodes per segment (10 or 16), O the root of the sum of the squares of the omitted singular values, delta the backward error of the matrix decompositions, and tail = 2e-7 or 2e-12. Every omitted singular value is at most every kept one, and at most max(eps, cutoff) s[0] without max_size. The expansion of every Green's function with spectral function rho deviates at every tau at most by E times the integral of |rho|, and with uhat on the Matsubara axis at most by beta times as much. to_IR of a DLR with any poles within the bandwidth preserves the function of tau up to E sum |g_i|.", "quantifier": "all beta and wmax with product between 10 and 10^6, all points tau and omega, all spectral functions, all Matsubara frequencies below the switch to the model, all poles and coefficients, all errors delta", "why_tests_cant": "Tests compare the expansion with the kernel at a few random points for a few cut-offs, and a few Green's functions at sampling points.", "anchors": ["src/sparse_ir/kernel.py:LogisticKernel", "src/sparse_ir/kernel.py:_SVEHintsLogistic.segments_x", "src/sparse_ir/kernel.py:_SVEHintsLogistic.segments_y", "src/sparse_ir/sve.py:compute", "src/sparse_ir/basis.py:FiniteTempBasis.__init__", "src/sparse_ir/dlr.py:DiscreteLehmannRepresentation.to_IR"]}
{"id": "C88", "title": "Accuracy for large cut-offs", "statement": "For LogisticKernel(lambda) with 10 <= lambda <= 10^9 the error of the expansion over the square, as in C83 and C85, is at most the omitted singular values plus 2 delta plus 8e-8 with 10 nodes per segment or 1.5e-12 with 16; with 10 <= lambda <= 10^14 it is 4e-6 or 1e-9 instead. The same holds for FiniteTempBasis in the mean as in C85, times sqrt(beta wmax / 2), and at every point as in C87 with tails 4e-7 or 8e-12, respectively 1.1e-5 or 4.2e-9.", "quantifier": "all cut-offs in the two ranges, all accuracies, cut-offs of singular values and numbers of singular values, all points, all spectral functions, all errors delta", "why_tests_cant": "Computing a basis for cut-offs like 10^9 is not part of the tests; the hints are heuristics tuned for moderate cut-offs, and whether the segments still resolve the kernel cannot be seen from singular values.", "anchors": ["src/sparse_ir/kernel.py:LogisticKernel", "src/sparse_ir/kernel.py:_SVEHintsLogistic.segments_x", "src/sparse_ir/kernel.py:_SVEHintsLogistic.segments_y", "src/sparse_ir/sve.py:compute", "src/sparse_ir/basis.py:FiniteTempBasis.__init__"]}
{"id": "C89", "title": "The expansion stays accurate with a kernel evaluated in floating point", "statement": "sve.compute for a centrosymmetric kernel whose symmetrised values deviate from the true ones by an absolute error of at most eps_k returns an expansion whose mean-square error over the whole square exceeds that of C85 by about 2 eps_k. LogisticKernel evaluated in floating-point arithmetic (both symmetrised kernels, including the sinh/cosh form of the odd one) deviates by at most 74 units of rounding, plus a term for underflow, so a FiniteTempBasis made from it reproduces the kernel and every Green's function to the accuracy of C85 plus 148 u sqrt(beta wmax / 2), in tau and at every Matsubara frequency below the convergence radius.", "quantifier": "for every arithmetic with relative error u and underflow threshold eta (64 (1 + lam)(u + eta) <= 1, 10000 (1 + lam) eta <= exp(-lam/722)), every SVD routine with backward error delta, all eps, max_size, and all beta, wmax with 10 <= beta wmax <= 1e6", "why_tests_cant": "Tests compare the expansion with the same rounded kernel at a few points and for a few cut-offs; the claim is about the exact kernel, all points, and every rounding of every value.", "anchors": ["src/sparse_ir/sve.py:compute", "src/sparse_ir/kernel.py:LogisticKernel", "src/sparse_ir/kernel.py:ReducedKernel", "src/sparse_ir/kernel.py:_LogisticKernelOdd", "src/sparse_ir/basis.py:FiniteTempBasis"]}
{"id": "C90", "title": "The expansion stays accurate with the regularized Bose kernel evaluated in floating point", "statement": "RegularizedBoseKernel evaluated in floating-point arithmetic (both symmetrised kernels, including the sinh form of the odd one and the replacement of the denominator for |lam y| < 1e-200) deviates from the kernel itself by at most 72 u (1 + 1/lam) plus a term for underflow. So sve.compute returns an expansion whose mean-square error over the whole square is that of the omitted singular values plus (1 + 1/lam) times 2 delta + 144 u + 2.45e-8 (9.4e-14 for eps < 1e-8), and a FiniteTempBasis made from it reproduces the kernel in physical units and every Green's function accordingly, in tau and at every Matsubara frequency below the convergence radius.", "quantifier": "for every arithmetic with relative error u and underflow threshold eta (1e-199 <= u <= 1e-4, eta <= 1e-240 u, 64 (1 + lam)(u + eta) <= 1, 10000 (1 + lam)^3 eta <= exp(-lam/722)), every SVD routine with backward error delta, all eps, max_size, and all beta, wmax with 0 < beta wmax <= 1e12", "why_tests_cant": "The error includes cancellation in x * y, expm1 near zero and underflow of the exponentials; no test can evaluate all points, cut-offs and roundings.", "anchors": ["src/sparse_ir/sve.py:compute", "src/sparse_ir/kernel.py:RegularizedBoseKernel", "src/sparse_ir/kernel.py:ReducedKernel", "src/sparse_ir/kernel.py:_RegularizedBoseKernelOdd", "src/sparse_ir/basis.py:FiniteTempBasis"]}
{"id": "C91", "title": "The expansion stays accurate at every point with a kernel evaluated in floating point", "statement": "A FiniteTempBasis made from LogisticKernel evaluated in floating-point arithmetic reproduces the exact kernel at every imaginary time and frequency, every Green's function at every imaginary time and (with uhat) at every Matsubara frequency below the convergence radius, with the errors of C87 (C88 for large cut-offs) in which the backward error delta of the SVD is replaced by delta + (1 + delta)(74 u + underflow). A DLR with any poles on top of it is mapped to the IR coefficients by to_IR with an error at most this times the sum of the absolute values of its coefficients, at every imaginary time.", "quantifier": "for every arithmetic with relative error u and underflow threshold eta (64 (1 + lam)(u + eta) <= 1, u <= 1e-4, 10000 (1 + lam) eta <= exp(-lam/722)), every SVD routine with backward error delta, all eps, max_size, poles, all beta, wmax with 10 <= beta wmax <= 1e6 (1e14 with the constants of C88), all tau, omega, spectral functions and frequencies", "why_tests_cant": "A maximum over all points of the domain for every rounding of every value of the kernel is out of reach of sampling.", "anchors": ["src/sparse_ir/basis.py:FiniteTempBasis", "src/sparse_ir/sve.py:compute", "src/sparse_ir/kernel.py:LogisticKernel", "src/sparse_ir/kernel.py:_LogisticKernelOdd", "src/sparse_ir/dlr.py:DiscreteLehmannRepresentation.to_IR"]}
{"id": "C92", "title": "The expansion with the regularized Bose kernel is accurate at every point", "statement": "A FiniteTempBasis made with kernel=RegularizedBoseKernel(beta*wmax) reproduces the kernel at every imaginary time and frequency, every Green's function at every imaginary time and (with uhat) at every Matsubara frequency below the convergence radius, up to 26 n^2 max(lam, 10)^(3/2) times (the norm of the omitted singular values / sqrt(lam/2) plus the errors e / wmax of the SVD and of the values of the kernel) plus (1 + 1/lam) / wmax times 5e-7 (n = 10) or 4.6e-12 (n = 16). This holds for the kernel in exact arithmetic and for the kernel evaluated in floating-point arithmetic with the error of C90.", "quantifier": "for all beta, wmax > 0 with lam = beta wmax <= 1e12, both statistics, all eps, max_size, every SVD routine with backward error delta, (rounded) every arithmetic with the hypotheses of C90, all tau, omega, spectral functions and frequencies", "why_tests_cant": "A maximum over a continuum of points for every cut-off and every rounding is out of reach of sampling.", "anchors": ["src/sparse_ir/basis.py:FiniteTempBasis", "src/sparse_ir/sve.py:compute", "src/sparse_ir/kernel.py:RegularizedBoseKernel", "src/sparse_ir/kernel.py:_RegularizedBoseKernelOdd", "src/sparse_ir/kernel.py:_SVEHintsRegularizedBose"]}
{"id": "C93", "title": "Sparse sampling of Green's functions with a basis constructed from scratch", "statement": "Let D be the error of C87, C91 or C92 of a FiniteTempBasis for a Green's function with spectral function rho (error at a point times the integral of |rho|). TauSampling.fit maps the values of the Green's function at m times, each with an error of at most eta, to its coefficients -s_l int v_l rho with an error of at most sqrt(m)(D + eta)/sigma in the Euclidean norm, sigma being a lower bound of the sampling matrix, and the function with the fitted coefficients deviates from the Green's function by at most D + |u(tau)| sqrt(m)(D + eta)/sigma at every imaginary time. MatsubaraSampling.fit does the same from values on the Matsubara axis with beta D in place of D inside the bracket, with and without positive_only. For every such basis there are finitely many sampling times at which the sampling matrix has a positive lower bound.", "quantifier": "every basis of C87, C91, C92 (logistic or Bose kernel, exact or rounded), every square integrable spectral function, all sampling points at which the sampling matrix has full column rank, all perturbations of the data, every imaginary time", "why_tests_cant": "The bound relates all spectral functions, all times and all errors of the data to the omitted singular values.", "anchors": ["src/sparse_ir/sampling.py:TauSampling", "src/sparse_ir/sampling.py:MatsubaraSampling", "src/sparse_ir/sampling.py:AbstractSampling.fit", "src/sparse_ir/basis.py:FiniteTempBasis"]}
{"id": "C94", "title": "Completeness of the discrete Lehmann representation", "statement": "If no non-zero combination of the functions v vanishes at all poles of a DiscreteLehmannRepresentation, then to_IR(from_IR(gl)) == gl for arrays of every shape, the norm of from_IR(gl) is at most that of gl divided by a lower bound of the matrix s_l v_l(pole) (there is a positive one), and the DLR with the coefficients from_IR(G_l) deviates from the Green's function at every imaginary time by at most the error of the basis at a point (C87, C91) times (the integral of |rho| plus the sum of the absolute values of the coefficients), and with uhat of the DLR at every Matsubara frequency by at most beta times as much (for bosons not at zero frequency with a pole at zero). For every basis there are finitely many poles in [-wmax, wmax] of this kind.", "quantifier": "every basis of C87 or C91 with the logistic kernel, every list of poles that determines the functions v, every array of coefficients and axis, every square integrable spectral function, every imaginary time", "why_tests_cant": "Losslessness for all coefficient vectors and the existence of the poles for every basis are not visible from samples.", "anchors": ["src/sparse_ir/dlr.py:DiscreteLehmannRepresentation.from_IR", "src/sparse_ir/dlr.py:DiscreteLehmannRepresentation.to_IR", "src/sparse_ir/basis.py:FiniteTempBasis"]}
