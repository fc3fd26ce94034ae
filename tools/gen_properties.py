#!/usr/bin/env python3
"""Writes /verif/properties.jsonl (kept as a script so that entries stay reviewable)."""
import json, os
P = []
def prop(id, title, statement, quantifier, why, anchors):
    P.append(dict(id=id, title=title, statement=statement, quantifier=quantifier,
                  why_tests_cant=why, anchors=anchors))
S = "src/sparse_ir/"

prop("C01", "Reduced Matsubara frequencies are validated exactly",
 "A Matsubara-axis evaluation (uhat(n), MatsubaraSampling(points), augmentation .hat(n)) proceeds if and only if every supplied number is an integer (given as an integer, or as a float with integral value) and, where the object has definite statistics, has its parity (odd for fermions, even for bosons); otherwise it raises ValueError. Accepted values are passed on unchanged. NaN, infinities and non-integral floats are always rejected.",
 "every list of numbers (integers of any sign, finite floats, NaN, infinities) and every required parity (none, 0, 1)",
 "The input domain is unbounded and includes negative integers, where bitwise parity is easy to get wrong; tests sample a few points.",
 [S+"_util.py:check_reduced_matsubara", S+"poly.py:PiecewiseLegendreFT.__call__", S+"augment.py:TauConst.hat", S+"augment.py:TauLinear.hat", S+"sampling.py:MatsubaraSampling.__init__"])
prop("C02", "Out-of-range and NaN arguments are rejected before evaluation",
 "Evaluating a basis function or a kernel raises ValueError if and only if some argument lies outside the closed domain or is NaN; arguments inside the closed domain, including both end points, are always accepted; the domain of a kernel is [-1, 1] in both arguments, that of its even and odd part [0, 1]. (The DLR functions of tau reject with RuntimeError instead, and with ValueError for NaN.)",
 "every array of IEEE values (finite, +-inf, NaN) and every domain [xmin, xmax]",
 "Boundary and NaN behaviour concerns every element position of every array.",
 [S+"_util.py:check_range", S+"kernel.py:_check_domain", S+"dlr.py:TauPoles.__call__"])
prop("C03", "Array-shape lifting is element-wise",
 "Calling a Matsubara function with an array of any shape returns an array of shape basis.shape + n.shape whose entry at (l..., i...) is the value of function l at n[i...]; the time-like wrapper returns n.shape + rest. No element is permuted by the ravel/reshape round trip.",
 "every array shape (any number of dimensions, any extents including zero), every multi-index, every per-element function",
 "Row-major ravel/reshape correctness must hold for all shapes.",
 [S+"_util.py:ravel_argument", S+"_util.py:RavelArgumentDecorator.__call__"])
prop("C04", "A bound evaluator always evaluates the object it was taken from",
 "If f is obtained by attribute access from object A (e.g. f = modelA.giw), then calling f later evaluates A, whatever other evaluators were obtained or called in between, by whichever thread.",
 "every finite history of attribute accesses and calls over any number of objects sharing the class",
 "The wrapper keeps one mutable 'current instance' per class, so the claim is about histories; single-object tests cannot see it.",
 [S+"_util.py:RavelArgumentDecorator.__get__", S+"_util.py:RavelArgumentDecorator.__call__"])
prop("C05", "Discrete sign-change search is sound, complete and terminates",
 "On a strictly increasing integer grid, the discrete root search terminates and returns an ascending list consisting of exactly the grid points where f vanishes, plus exactly one integer m for every pair of neighbouring grid points with non-zero values of opposite sign; that m lies in the bracket and f has different sign bits at m and m+1.",
 "every real-valued function on the integers and every strictly increasing integer grid of any length",
 "Requires all functions and grids; termination of the simultaneous (vectorised) bisection is not testable.",
 [S+"_roots.py:find_all", S+"_roots.py:_bisect_discr", S+"poly.py:PiecewiseLegendreFT.sign_changes"])
prop("C06", "Continuous root search terminates and brackets a root to tolerance",
 "For a positive tolerance the vectorised bisection terminates; find_all returns an ascending list with all grid zeros and exactly one point per strict sign change between neighbouring grid points, and for continuous f a true root of f lies within the tolerance of that point.",
 "every function, every ascending grid, every positive tolerance (in exact arithmetic)",
 "Termination and the bracketing invariant hold per iteration of an unbounded loop.",
 [S+"_roots.py:find_all", S+"_roots.py:_bisect_cont", S+"poly.py:PiecewiseLegendrePoly.roots"])
prop("C07", "Discrete extremum search terminates inside its bracket and finds the peak",
 "The discrete extremum bisection on (a, b) with b - a >= 2 terminates and returns an integer strictly between a and b; if |f| increases up to an interior point and decreases strictly afterwards, it returns exactly that point.",
 "every function on the integers, every bracket",
 "Unbounded recursion over all functions and brackets.",
 [S+"_roots.py:_bisect_discr_extremum", S+"_roots.py:discrete_extrema"])
prop("C08", "Extrema are reported in ascending order",
 "discrete_extrema (and hence uhat[l].extrema()) returns its points in ascending order for every function and every ascending grid, so the subsequent symmetrisation never fails with 'points not ordered'.",
 "every function on the integers and every strictly increasing integer grid",
 "Depends on the relative position of neighbouring brackets for all functions.",
 [S+"_roots.py:discrete_extrema", S+"poly.py:_symmetrize_matsubara", S+"poly.py:PiecewiseLegendreFT.extrema"])
prop("C09", "Piecewise evaluation selects the right segment",
 "For strictly increasing knots, evaluating a piecewise polynomial at any x in [xmin, xmax] uses the unique segment with knots[i] <= x < knots[i+1] (the last one for x == xmax), with local coordinate in [-1, 1], and returns the normalised Legendre sum of that segment; outside, it raises.",
 "every knot vector, every coefficient array, every x",
 "All knots/positions, including x exactly on a knot and at both ends.",
 [S+"poly.py:PiecewiseLegendrePoly.__init__", S+"poly.py:PiecewiseLegendrePoly._split", S+"poly.py:PiecewiseLegendrePoly.__call__"])
prop("C10", "Selection commutes with evaluation",
 "p[l](x) == p(x)[l] == p.value(l, x) for polynomials, and uhat[l](n) == uhat(n)[l] for their Fourier transforms (including in the asymptotic regime), for any index or index vector l.",
 "every polynomial set, every selection map, every argument",
 "Quantifies over all selections and arguments; the asymptotic model must be sliced consistently.",
 [S+"poly.py:PiecewiseLegendrePoly.__getitem__", S+"poly.py:PiecewiseLegendrePoly.value", S+"poly.py:PiecewiseLegendreFT.__getitem__", S+"poly.py:_PowerModel.__getitem__"])
prop("C11", "deriv(n) is the n-th derivative",
 "p.deriv(n)(x) is the n-th derivative of p at every x in the interior of a segment, for every n >= 0, and the reported parity of deriv(n) is (-1)**n times the parity of p.",
 "every piecewise polynomial, every order n, every interior x",
 "An analytic statement over all coefficients, orders and points.",
 [S+"poly.py:PiecewiseLegendrePoly.deriv"])
prop("C12", "Root finding of symmetric functions is mirror symmetric",
 "For a function marked even or odd, roots() returns a list which is symmetric about the midpoint of the interval and ascending; for odd functions it contains the midpoint exactly once; without symmetry it is the plain root search on the refined knots grid.",
 "every piecewise polynomial, every refinement factor",
 "All polynomials and grids.",
 [S+"poly.py:PiecewiseLegendrePoly.roots", S+"poly.py:_refine_grid"])
prop("C13", "Grid refinement keeps the knots",
 "Refining a grid by alpha inserts exactly alpha - 1 equidistant points strictly inside every interval and keeps all original knots, in ascending order; the last knot is included exactly once.",
 "every strictly increasing knot vector and every alpha >= 1",
 "All lengths and all alpha.",
 [S+"poly.py:_refine_grid"])
prop("C14", "uhat is the Fourier transform of u",
 "For the polynomial p on [-1, 1] the transform object returns (1/sqrt 2) * integral of exp(i pi n (x+1)/2) p(x) over [-1, 1] below the asymptotic threshold, so that basis.uhat[l](n) == integral over [0, beta] of exp(i pi n tau / beta) u[l](tau).",
 "every piecewise polynomial on [-1, 1] (any order, any knots), every integer n of either sign, every beta > 0",
 "An exact analytic identity for all n; numerical tests only see rounding-level agreement at samples.",
 [S+"poly.py:_compute_unl_inner", S+"poly.py:_get_tnl", S+"poly.py:_phase_stable", S+"poly.py:_shift_xmid", S+"poly.py:_imag_power", S+"basis.py:FiniteTempBasis.__init__"])
prop("C15", "The stable phase factor equals the naive one",
 "The shifted, cancellation-free phase factor equals exp(i pi/2 * n * (xmid + 1)) for every segment midpoint and every integer n; the shift is in {-1, 0, 1}, so no index error can occur.",
 "every partition of [-1, 1], every integer n",
 "All partitions and all n of either sign (modular indexing of negatives).",
 [S+"poly.py:_phase_stable", S+"poly.py:_shift_xmid", S+"poly.py:_imag_power"])
prop("C16", "High-frequency model is the exact moment expansion",
 "The asymptotic model used for |n| >= n_asymp equals sum_m A_m/(i pi n/2)**(m+1) for n != 0, is zero for n == 0, and, for polynomials without interior knots having parity (-1)**l, equals the exact Fourier transform for every n of the matching parity.",
 "every polynomial order, every l, every n",
 "Requires integration by parts of every order.",
 [S+"poly.py:_PowerModel.giw", S+"poly.py:_power_moments", S+"poly.py:_power_model", S+"poly.py:_derivs"])
prop("C17", "Building a transform from a selected polynomial equals selecting from the transform",
 "PiecewiseLegendreFT(p[l], freq, n_asymp) evaluates to the same values as PiecewiseLegendreFT(p, freq, n_asymp)[l] for every l.",
 "every polynomial set, l and n",
 "Parity of l enters the asymptotic model through the position in the array.",
 [S+"poly.py:_power_moments", S+"poly.py:PiecewiseLegendreFT.__init__", S+"poly.py:PiecewiseLegendreFT.__getitem__"])
prop("C18", "Conjugation symmetry and reality of the transform",
 "uhat[l](-n) == conj(uhat[l](n)) for all n; for even/odd polynomials the transform is purely real or purely imaginary, exactly as assumed when locating sign changes and extrema.",
 "every real piecewise polynomial, every n",
 "All n and all polynomials.",
 [S+"poly.py:PiecewiseLegendreFT._func_for_part", S+"poly.py:_get_tnl", S+"poly.py:_symmetrize_matsubara"])
prop("C19", "Symmetrisation of frequency sets",
 "Given ascending non-negative frequencies, symmetrisation returns an ascending list, closed under n -> -n, whose non-negative part is the input, with zero appearing once if it appeared once; anything else is rejected with ValueError.",
 "every list of integers",
 "All list lengths and contents.",
 [S+"poly.py:_symmetrize_matsubara"])
prop("C20", "Default Matsubara sampling points have the right structure",
 "Default Matsubara points are strictly increasing integers of the basis' parity, closed under negation (or all non-negative with positive_only), and in the fall-back branch a bosonic basis always includes zero; a size different from the expected one is always announced by a warning.  If function l has the parity of l, the non-negative points of the regular branch are where the transform of the function of the requested index vanishes or changes sign before the next frequency, and there is one for every change of sign between neighbouring grid frequencies.",
 "every transform (any basis functions), every requested size, both statistics, both positive_only settings",
 "Must hold whatever the basis functions look like.",
 [S+"basis.py:_default_matsubara_sampling_points", S+"poly.py:PiecewiseLegendreFT.sign_changes", S+"poly.py:PiecewiseLegendreFT.extrema"])
prop("C21", "Fencing keeps parity, order and reflection symmetry",
 "Adding fence points to a set of Matsubara points keeps all original points, keeps the parity, returns strictly increasing points, and keeps the set closed under n -> -n.",
 "every set of Matsubara points of any size",
 "Depends on sign handling for all sizes (thresholds 20 and 42).",
 [S+"basis.py:_fence_matsubara_sampling"])
prop("C22", "Default tau/omega sampling points lie strictly inside the interval",
 "Default tau points lie in [0, beta] in ascending order; in the fall-back branch they lie strictly inside and number two more than the extrema found; a count different from the requested one is announced by a warning.",
 "every basis, every requested number of points",
 "All basis functions and sizes.",
 [S+"basis.py:_default_sampling_points", S+"basis.py:FiniteTempBasis.default_tau_sampling_points", S+"basis.py:FiniteTempBasis.default_omega_sampling_points"])
prop("C23", "Quadrature-rule algebra preserves exactness",
 "Reseating, scaling, piecewise subdivision and joining turn a rule exact for polynomials of degree <= d on [-1,1] into rules exact for (piecewise) polynomials of degree <= d on the target interval; nodes stay inside and ascending, weights keep their sign, and x_forward / x_backward stay equal to x - a and b - x.",
 "every rule, every sequence of edges of any length, every polynomial of degree <= d",
 "Induction over the number of segments and all polynomials.",
 [S+"_gauss.py:Rule.reseat", S+"_gauss.py:Rule.scale", S+"_gauss.py:Rule.piecewise", S+"_gauss.py:Rule.join"])
prop("C24", "Rules that do not connect are refused",
 "join raises ValueError unless every rule starts exactly where the previous one ended; piecewise raises ValueError exactly when the edges are not strictly increasing.",
 "every list of rules / edges",
 "All lists.",
 [S+"_gauss.py:Rule.join", S+"_gauss.py:Rule.piecewise"])
prop("C25", "Gauss-Legendre rules are exact to degree 2n-1",
 "If the Newton-polished nodes are the n roots of the n-th Legendre polynomial, the returned weights integrate every polynomial of degree <= 2n-1 over [-1,1] exactly; in any case the weights sum to b - a.",
 "every n >= 1 and every polynomial of degree <= 2n-1",
 "All orders and all polynomials.",
 [S+"_gauss.py:legendre", S+"_gauss.py:rule_from_recurrence", S+"_gauss.py:_legendre_recurrence"])
prop("C26", "Three-term recurrence evaluation returns value and derivative",
 "The recurrence evaluator returns the values and the true derivatives of the highest and second-highest orthogonal polynomial, and for the Legendre coefficients these are the monic Legendre polynomials.",
 "every pair of coefficient sequences, every order, every x",
 "All orders and coefficients.",
 [S+"_gauss.py:_polyvalderiv", S+"_gauss.py:_legendre_recurrence"])
prop("C27", "Node polishing terminates and non-convergence is only a warning",
 "Building a Gauss rule performs at most five Newton steps and, if these do not converge, emits a warning and still returns a rule.",
 "every start vector and every recurrence",
 "The non-convergence path depends on data no test triggers.",
 [S+"_gauss.py:rule_from_recurrence"])
prop("C28", "Collocation inverts Legendre evaluation",
 "For a rule exact to degree 2n-2, the n x n collocation matrix maps the values of any polynomial of degree < n at the nodes to its Legendre coefficients.",
 "every order n, every rule exact to 2n-2, every polynomial of degree < n",
 "All orders.",
 [S+"_gauss.py:legendre_collocation"])
prop("C29", "Nested Kronrod table",
 "The 31-point table and its embedded 15-point rule (every second node) are symmetric, have positive weights and integrate every polynomial of degree <= 46 resp. <= 29 with error at most 1e-14 times the l1 norm of the coefficients.",
 "all polynomials up to the stated degree (the finite table is checked completely)",
 "A statement over all polynomials about hard-coded constants.",
 [S+"_gauss.py:kronrod_31_15", S+"_gauss.py:NestedRule"])
prop("C30", "Logistic kernel equals its defining formula without overflow",
 "LogisticKernel(L)(x, y) == exp(-L y (x+1)/2)/(1+exp(-L y)) for all (x, y) in the square, is centrosymmetric and lies in (0, 1); every exponential is taken of a non-positive argument.",
 "every Lambda >= 0, every (x, y) in [-1,1]^2, with or without explicit x_plus / x_minus",
 "An identity over a continuum, and absence of overflow for all Lambda.",
 [S+"kernel.py:LogisticKernel._compute", S+"kernel.py:_compute_uv", S+"kernel.py:LogisticKernel.__call__"])
prop("C31", "Regularised Bose kernel equals its formula and its limit at y = 0",
 "RegularizedBoseKernel(L)(x, y) == y exp(-L y (x+1)/2)/(1 - exp(-L y)) for y != 0 (above the denormal threshold), equals 1/L at y == 0, which is the limit, is positive and centrosymmetric.",
 "every Lambda > 0 and (x, y) in the square",
 "A removable singularity must be treated for all arguments.",
 [S+"kernel.py:RegularizedBoseKernel._compute"])
prop("C32", "Symmetrised kernels equal K(x,y) +- K(x,-y)",
 "get_symmetrized(+-1) evaluates to K(x,y) +- K(x,-y) on [0,1]^2 for any switch-over between closed form and difference; the closed forms are sinh/cosh and y sinh/sinh expressions, and where K is centrosymmetric the even/odd kernels determine K.",
 "every Lambda > 0 and (x, y) in [0,1]^2",
 "The code switches formula by region; identity must hold in every region.",
 [S+"kernel.py:ReducedKernel.__call__", S+"kernel.py:_LogisticKernelOdd.__call__", S+"kernel.py:_RegularizedBoseKernelOdd.__call__"])
prop("C33", "Kernel discretisation grids are valid",
 "The hint grids for every Lambda are strictly increasing, symmetric, run from -1 to 1 and contain 0, so that they form legal piecewise polynomials; the symmetric half starts at 0 and ends at 1 and is again strictly increasing.  On either side of zero they have 15 log10(Lambda) (x) or 20 log10(Lambda) (y) points, rounded to the nearest integer but at least 1, 2 (logistic) or 15, 20 (bosonic), with spacings in the documented proportions.",
 "every number of segments (hence every Lambda)",
 "All Lambda.",
 [S+"kernel.py:_SVEHintsLogistic.segments_x", S+"kernel.py:_SVEHintsLogistic.segments_y", S+"kernel.py:_SVEHintsRegularizedBose", S+"kernel.py:_symm_segments"])
prop("C34", "Truncation keeps exactly the most significant singular values",
 "Truncating an SVE keeps in every block a prefix consisting of exactly the singular values above the cut-off, keeps u, s, v aligned, never keeps more than n_sv values, never splits a degenerate level, and every kept value is larger than every dropped one.",
 "every list of blocks of non-increasing singular values, every tolerance in [0,1], every n_sv",
 "All spectra including ties.",
 [S+"sve.py:_truncate"])
prop("C35", "part(eps, max_size) returns the significant prefix",
 "SVEResult.part returns equally long prefixes of u, s, v with exactly min(max_size, #{s >= eps s0}) entries for non-increasing s, and the defaults are the stored accuracy and no limit.",
 "every non-increasing spectrum, every eps, every non-negative max_size",
 "All spectra.",
 [S+"sve.py:SVEResult.part"])
prop("C36", "Sampling SVE yields orthonormal functions interpolating the singular vectors",
 "With an exact Gauss rule and exact SVD, the returned u (and v) are orthonormal on their interval, take the value u[i,l]/sqrt(w_i) at the Gauss nodes, and reproduce the kernel at all pairs of nodes when nothing is truncated.",
 "every kernel, every segment grid, every Gauss order, every exact SVD",
 "All kernels and sizes.",
 [S+"sve.py:SamplingSVE.matrices", S+"sve.py:SamplingSVE.postprocess"])
prop("C37", "Even/odd recombination yields the SVE of the full kernel",
 "For a centrosymmetric kernel the recombined functions have definite parity u(-x) == sign u(x), are orthonormal on [-1,1] if the halves were on [0,1], are singular functions of the full kernel with unchanged singular values, and s is non-increasing with (u, s, v, sign) permuted consistently.",
 "every centrosymmetric kernel, every pair of half-interval expansions",
 "All kernels, sizes, sort orders.",
 [S+"sve.py:CentrosymmSVE.postprocess", S+"sve.py:CentrosymmSVE.__init__"])
prop("C38", "Canonicalisation fixes the gauge without changing the expansion",
 "After canonicalisation u[l](1) > 0 whenever it was non-zero, and every product u[l](x) v[l](y) is unchanged.",
 "every pair of function sets",
 "All coefficient arrays.",
 [S+"sve.py:_canonicalize"])
prop("C39", "Physical units: the basis expands the physical kernel",
 "If the dimensionless SVE expands K, then sum_l u[l](tau) s[l] v[l](omega) == exp(-tau omega)/(1+exp(-beta omega)) for the logistic kernel, and u (v) are orthonormal on [0, beta] ([-wmax, wmax]).",
 "every beta > 0, wmax > 0, every SVE, tau in [0,beta], omega in [-wmax,wmax]",
 "Scaling factors must be right for all parameters.",
 [S+"basis.py:FiniteTempBasis.__init__"])
prop("C40", "accuracy and significance are consistent",
 "significance is non-increasing from 1 and non-negative, and 0 < accuracy <= significance[-1]; accuracy is the first discarded relative singular value if there is one.",
 "every positive non-increasing spectrum, every truncation",
 "All spectra.",
 [S+"basis.py:FiniteTempBasis.__init__", S+"basis.py:FiniteTempBasis.significance", S+"basis.py:FiniteTempBasis.accuracy"])
prop("C41", "basis[:n] truncates like a Python slice",
 "basis[:n] has min(n, basis.size) functions which are the first ones of basis, basis[:] is equivalent to basis, and indices that do not start at zero or step by one are refused.",
 "every basis, however constructed, and every slice",
 "Depends on eps with which basis and SVE were built.",
 [S+"basis.py:FiniteTempBasis.__getitem__", S+"basis.py:_slice_to_size", S+"sve.py:SVEResult.part"])
prop("C42", "rescale keeps the dimensionless basis",
 "rescale(new_beta) returns a basis with the same lambda, the same size and the same dimensionless singular values and functions, for every new_beta > 0, and never fails the lambda consistency check.",
 "every basis and every new_beta > 0 (including rounding of beta*wmax in floating point)",
 "Size depends on the eps stored in the SVE result; the check must survive rounding for all floats.",
 [S+"basis.py:FiniteTempBasis.rescale", S+"basis.py:_get_kernel"])
prop("C43", "fit is a least-squares fit and inverts evaluate",
 "fit(x) minimises ||A y - x|| over all y (and has minimal norm among the minimisers), is linear, and fit(evaluate(a)) == a whenever the sampling matrix has full column rank; dropping exactly-zero singular values does not change this.",
 "every matrix, every valid thin SVD of it, every right-hand side",
 "All matrices incl. rank deficient.",
 [S+"sampling.py:DecomposedMatrix.__init__", S+"sampling.py:DecomposedMatrix._lstsq", S+"sampling.py:AbstractSampling.fit"])
prop("C44", "positive_only fitting is the least-squares fit over real coefficients",
 "With positive_only, fit(x) minimises ||A y - x|| over real y, for complex data x of any kind, provided the zero-frequency row (if present) is real, which it is for every basis of this library; fit(evaluate(a)) == a for full rank.",
 "every complex matrix, every data vector, with and without zero frequency",
 "All matrices.",
 [S+"sampling.py:_split_complex", S+"sampling.py:SplitDecomposedMatrix"])
prop("C45", "Transformation along an axis",
 "evaluate/fit with axis=k applies the matrix to every fibre along axis k and leaves all other axes in place, for arrays of any rank and any valid axis; the documented default is the last axis.",
 "every rank, shape, axis (negative axes included)",
 "All ranks and axes.",
 [S+"sampling.py:_matop_along_axis", S+"sampling.py:AbstractSampling.evaluate"])
prop("C46", "Values are returned in the order of the given points",
 "evaluate(al, points=p)[n] is the value at p[n] and fit(ax, points=p) interprets ax[n] as the value at p[n], for any sampling object and any order of p.",
 "every list of points in any order",
 "All orders; tests use sorted points.",
 [S+"sampling.py:MatsubaraSampling.__init__", S+"sampling.py:TauSampling.__init__", S+"sampling.py:AbstractSampling.evaluate", S+"sampling.py:AbstractSampling.fit"])
prop("C47", "Augmented basis ordering and indexing",
 "For an augmented basis u(x)[l] is the l-th augmentation for l < naug and basis function l - naug otherwise, u[l](x) == u(x)[l] for every valid index, size == naug + basis.size, and slices [:n] keep the augmentations and the first n - naug functions.",
 "every basis, every number of augmentations, every index",
 "All sizes and indices.",
 [S+"augment.py:_AugmentedFunction", S+"augment.py:AugmentedBasis"])
prop("C48", "Augmentations are normalised Fourier pairs",
 "TauConst and TauLinear have unit norm on [0,beta], and their hat(n) equals the Fourier integral for every even n; deriv(n) is the n-th derivative; they refuse fermionic bases.",
 "every beta > 0, every even n, every derivative order",
 "Analytic identities for all n.",
 [S+"augment.py:TauConst", S+"augment.py:TauLinear", S+"augment.py:_check_bosonic_statistics"])
prop("C49", "Augmented basis metadata",
 "statistics, xmin, xmax and deriv of an augmented basis behave as for the underlying basis.",
 "every augmented basis",
 "Accessor code paths no test calls.",
 [S+"augment.py:AugmentedBasis.statistics", S+"augment.py:AugmentedTauFunction.xmax", S+"augment.py:AugmentedTauFunction.deriv"])
prop("C50", "DLR basis functions are Fourier pairs",
 "DLR u_i(tau) == -exp(-tau w_i)/(1+exp(-beta w_i)), independent of the normalisation of the poles, and uhat_i(n) is its Fourier transform: 1/(iv - w_i) for fermions and tanh(beta w_i/2)/(iv - w_i) for bosons.",
 "every beta > 0, every list of poles, every tau, every n of matching parity",
 "All poles and n, including the point pole = 0, n = 0.",
 [S+"dlr.py:TauPoles", S+"dlr.py:MatsubaraPoles"])
prop("C51", "DLR <-> IR conversion",
 "to_IR maps DLR coefficients to IR coefficients of the same function of tau (if the IR expands the kernel), from_IR is the least-squares inverse, and to_IR(from_IR(to_IR(g))) == to_IR(g).",
 "every coefficient array, every set of poles",
 "All inputs.",
 [S+"dlr.py:DiscreteLehmannRepresentation"])
prop("C52", "SVD strategies agree on the contract",
 "svd.compute returns factors with A == (U*s) @ V.T for every strategy, shape (wide or tall) and availability of optional libraries, given that the underlying solver is correct; unknown strategies raise ValueError.",
 "every real matrix of either aspect ratio, every strategy, every library availability",
 "Branches depend on installed libraries.",
 [S+"svd.py:compute", S+"svd.py:_dgejsv", S+"svd.py:_ddouble_svd_trunc"])
prop("C53", "Working precision selection",
 "The working precision chosen guarantees the requested accuracy when the available types allow it, a warning is emitted exactly when no strategy was given and the request lies below the achievable accuracy, and explicit user choices are respected.",
 "every eps, work_dtype, strategy and library availability",
 "Decision table over a continuum of eps.",
 [S+"sve.py:_safe_eps", S+"sve.py:compute"])
prop("C54", "Construction rejects invalid physical parameters",
 "FiniteTempBasis raises ValueError unless beta > 0, wmax >= 0 and statistics is exactly 'F' or 'B'; kernel.weight_func does the same for its statistics argument.",
 "every string and every pair of numbers incl. NaN",
 "All strings.",
 [S+"basis.py:FiniteTempBasis.__init__", S+"basis.py:_get_kernel", S+"kernel.py:LogisticKernel.weight_func", S+"kernel.py:AbstractKernel.weight_func"])
prop("C55", "Fermionic and bosonic members of a basis set share grids",
 "In a FiniteTempBasisSet both bases come from one SVE result, so sizes, singular values and tau sampling points coincide.",
 "every beta, wmax, eps and SVE result",
 "All parameters.",
 [S+"basis_set.py:FiniteTempBasisSet", S+"basis.py:finite_temp_bases"])
prop("C56", "overlap accounts for the whole interval",
 "The adaptive overlap integral always terminates; the segments it adds up together with the pending ones always partition the interval; if it finishes without warning the result is the sum over a partition with every local relative error below rtol, and it is exact for integrands the rule integrates exactly.",
 "every integrand, every tolerance, every refinement history",
 "The refinement history is data dependent and unbounded a priori.",
 [S+"poly.py:_compute_overlap", S+"poly.py:PiecewiseLegendrePoly.overlap"])
prop("C57", "irbasis-compatible Matsubara sampling points",
 "The adapter's Matsubara sampling points are strictly increasing, reflection symmetric (n -> -n-1 for fermions, n -> -n for bosons), contain zero for bosons, and there is exactly one per sign-definite run of the basis function on the probe grid, at a maximum of its magnitude.",
 "every function sampled on any grid",
 "All functions.",
 [S+"adapter.py:_sampling_points", S+"adapter.py:_full_interval", S+"adapter.py:_get_mats_sampling"])
prop("C58", "irbasis-compatible x/y sampling points interleave the roots",
 "The adapter's root bisection terminates with one bracketed root per strict sign change on a symmetric grid with steps below 0.001 from -1+1e-12 to 1-1e-12, so that it finds every root that is isolated by 0.001 and not itself a grid point; and sampling_points_x returns one point strictly between each pair of neighbouring roots (end points included), so one more than the number of roots.",
 "every function",
 "All functions.",
 [S+"adapter.py:_find_roots", S+"adapter.py:sampling_points_x", S+"adapter.py:sampling_points_y"])
prop("C59", "uhat is the Fourier transform of u",
 "For every basis function, uhat[l](n) of a FiniteTempBasis equals the integral over [0, beta] of exp(i pi n tau/beta) u[l](tau), for every n of the parity of the statistics below the radius 40*lambda beyond which the asymptotic model takes over; other n are refused.",
 "every valid construction, every index, every frequency index of matching parity",
 "All frequencies; the code combines polynomial moments, spherical Bessel functions and phases of the dimensionless functions.",
 [S+"basis.py:FiniteTempBasis.__init__", S+"poly.py:PiecewiseLegendreFT.__call__"])
prop("C60", "Condition number of the fit and its warning",
 "cond of a sampling matrix is the ratio of its largest to its smallest non-zero singular value, and fit emits a ConditioningWarning if and only if the basis claims to be well-conditioned and that ratio exceeds 1e8. FiniteTempBasis claims this, as does the basis augmented by MatsubaraConst alone; the DLR and all other augmented bases, also that without any augmentation, do not and so never warn.",
 "every matrix, every data array",
 "All matrices; tests only see well-conditioned ones.",
 [S+"sampling.py:AbstractSampling.fit", S+"sampling.py:DecomposedMatrix.cond"])
prop("C61", "A supplied decomposition is checked for shape and kept faithfully",
 "A decomposed matrix accepts a triple (u, s, vH) if and only if its shapes agree with each other and with the matrix, and raises ValueError otherwise; if accepted, exactly the non-zero singular values are kept, in order, with their columns of u and rows of vH, and the product (u*s) @ vH is unchanged.",
 "every shape and every value of the triple, complex and split form",
 "All shapes; tests supply matching ones.",
 [S+"_util.py:check_svd_result", S+"sampling.py:DecomposedMatrix.__init__", S+"sampling.py:SplitDecomposedMatrix.__init__"])
prop("C62", "Kernel times weight function is the kernel of the statistics",
 "For the logistic kernel, K(x,y) times weight_func('F') is exp(-lambda*y*(x+1)/2)/(1+exp(-lambda*y)) and K(x,y) times weight_func('B') is exp(-lambda*y*(x+1)/2)/(1-exp(-lambda*y)) wherever lambda*y != 0; for the regularised Bose kernel with array y, K(x,y) times weight_func('B') is the same bosonic kernel wherever |lambda*y| >= 1e-200.",
 "every lambda, every array of points of the square",
 "All points; tests compare at a few.",
 [S+"kernel.py:LogisticKernel.weight_func", S+"kernel.py:RegularizedBoseKernel.weight_func"])
prop("C63", "Sampling objects accept exactly valid points and hold the basis at them",
 "MatsubaraSampling accepts exactly vectors of integers at which the basis can be evaluated (with positive_only: non-empty and without negative ones), stores them in ascending order together with the values of the basis functions there, and raises otherwise (ValueError for non-integers, other dimensions and negative frequencies with positive_only, IndexError for an empty vector with positive_only); TauSampling accepts vectors of times and keeps their order; without points the default ones of the basis are used.",
 "every array of points, every basis, positive_only or not",
 "All arrays; tests use default points.",
 [S+"sampling.py:MatsubaraSampling.__init__", S+"sampling.py:TauSampling.__init__"])
prop("C64", "Default sampling points of a basis",
 "default_tau_sampling_points of a FiniteTempBasis returns ascending times in [0, beta], default_omega_sampling_points ascending frequencies in [-wmax, wmax], with a warning if and only if their number is not the requested one (default: the size of the basis); if the expansion has a further function, they are its roots in physical units.  If it has a further function for the requested parity, default_matsubara_sampling_points returns strictly ascending, reflection-symmetric integers of the parity of the statistics, not fenced, with a warning if and only if they are not as many as expected; with positive_only exactly the non-negative ones of these.",
 "every valid construction, every number of points, every function value seen by the root search",
 "All bases; tests compare counts for a few.",
 [S+"basis.py:FiniteTempBasis.default_tau_sampling_points", S+"basis.py:FiniteTempBasis.default_omega_sampling_points", S+"basis.py:FiniteTempBasis.default_matsubara_sampling_points"])
prop("C65", "compute returns a singular value expansion of the kernel",
 "For the logistic and the regularised Bose kernel, unless a singular function vanishes at x=1 (the gauge is then NaN), sve.compute returns an expansion on [-1,1]x[-1,1] with positive non-increasing singular values, orthonormal piecewise polynomials u and v and u_l(1) > 0; with the centrosymmetric strategy every function is even or odd.  The singular values are exactly those of the kernel on the Gauss nodes (of its even and odd parts on the quarter) that exceed the cut-off and are within the requested number, never splitting equal ones; and if the SVD is exact, u and v are orthonormal and satisfy the equations of singular functions on the nodes, with sums in place of integrals, and the squared error of any number of terms at the nodes is the sum of the squares of the omitted singular values.",
 "every lambda > 0, every accuracy, cut-off in [0,1], number of values, Gauss order, work type, both strategies",
 "All parameters and the pipeline as a whole; tests look at a few lambdas.",
 [S+"sve.py:compute", S+"sve.py:SamplingSVE.matrices", S+"sve.py:SamplingSVE.postprocess", S+"sve.py:CentrosymmSVE.matrices", S+"sve.py:CentrosymmSVE.postprocess", S+"sve.py:_truncate"])
prop("C66", "A basis constructed from scratch",
 "FiniteTempBasis(statistics, beta, wmax, eps, max_size), for the default kernel and for RegularizedBoseKernel(beta*wmax), either stops because a singular function vanishes at x=1 (the gauge is then NaN) or returns a basis with at least one and at most max_size functions: u orthonormal on [0,beta], v on [-wmax,wmax], u_l(beta) > 0, each pair even or odd under reflection, positive non-increasing singular values not below eps times the first one, uhat the Fourier transform of u for frequencies of the right parity below the asymptotic region.  Its singular values are the largest ones of the kernel on the Gauss nodes, in physical units; without max_size every omitted one is at most max(eps, cut-off) times the first; and if the SVD is exact, the squared error of the expansion of exp(-tau omega)/(1+exp(-beta omega)) (or of the Bose kernel) over the nodes is the sum of the squares of the omitted singular values.",
 "every beta, wmax > 0, both statistics, every accuracy at most 1 (or none), every positive max_size (or none)",
 "All parameters and the whole pipeline; tests construct a few bases.",
 [S+"basis.py:FiniteTempBasis.__init__", S+"sve.py:compute"])
prop("C67", "The replacement of irbasis",
 "adapter.load('F', Lambda) and load('B', Lambda) give the basis of the kernel exp(-Lambda x y/2)/(2 cosh(Lambda y/2)) and y exp(-Lambda x y/2)/(2 sinh(Lambda y/2)) in the conventions of irbasis: orthonormal functions on [-1,1] that are even or odd and positive at 1, positive non-increasing singular values not below the accuracy of the work type times the first one (other statistics: KeyError).  sl, ulx, vly give singular values and functions by index from the front or the back, d_ulx and d_vly their derivatives inside the sections, IndexError for an index out of range and ValueError for a point outside [-1,1]; compute_unl(n, l) is 1/sqrt(2) times the integral of exp(i pi (n+zeta/2)(x+1)) u_l(x) below the asymptotic region; and if function l has the parity of l, sampling_points_matsubara(l) passes its assertion and returns ascending symmetric indices, one largest value per run of one sign.",
 "every Lambda > 0, both statistics, every index, point, derivative order and frequency",
 "All parameters; tests compare with irbasis for a few Lambdas.",
 [S+"adapter.py:load", S+"adapter.py:Basis.__init__", S+"adapter.py:Basis.ulx", S+"adapter.py:Basis.d_ulx", S+"adapter.py:Basis.vly", S+"adapter.py:Basis.d_vly", S+"adapter.py:Basis.sl", S+"adapter.py:Basis.compute_unl", S+"adapter.py:Basis.sampling_points_matsubara"])
prop("C68", "Sparse sampling of the functions of a basis",
 "TauSampling(basis, p) refuses times outside [0, beta]; otherwise evaluate along an axis gives the values sum_l g_l u_l(tau) at these times in the given order, and fit gets the coefficients back if no non-zero combination vanishes at all of them.  MatsubaraSampling(basis, n, positive_only) refuses frequencies of the wrong parity; otherwise it sorts them, evaluate gives the Fourier integrals of sum_l g_l u_l over [0, beta], and fit gets back complex coefficients (positive_only: real ones) if the frequencies determine them.  Fitting on the one kind of points and evaluating on the other is the Fourier transform and its inverse on the span of the basis.",
 "every basis from a valid construction, every list of points (frequencies below the asymptotic region), every array of coefficients, every axis",
 "All points, arrays and axes; tests use the default points.",
 [S+"sampling.py:TauSampling.__init__", S+"sampling.py:MatsubaraSampling.__init__", S+"sampling.py:AbstractSampling.evaluate", S+"sampling.py:AbstractSampling.fit", S+"sampling.py:TauSampling.eval_matrix", S+"sampling.py:MatsubaraSampling.eval_matrix"])
prop("C69", "Noise amplification of the fit",
 "cond is the largest factor by which the relative error of the data is amplified by the fit, and it is attained; for the split matrix of positive_only the same with real coefficients.  If the truncated expansion of a basis with the logistic kernel approximates the kernel to within delta and sigma is a lower bound of the sampling matrix, then fitting the Green's function of a pole at omega in [-wmax, wmax], given at m sampling times with errors at most eta, returns coefficients whose distance to s_l v_l(omega) is at most sqrt(m)(delta+eta)/sigma; likewise from its Matsubara values 1/(omega - i nu) for fermions and tanh(beta omega/2)/(omega - i nu) for bosons, with beta*delta in place of delta, with and without positive_only.",
 "every matrix of full column rank, every basis, points, pole position and perturbation of the data",
 "All perturbations; tests add noise to a few samples.",
 [S+"sampling.py:DecomposedMatrix.cond", S+"sampling.py:SplitDecomposedMatrix.__init__", S+"sampling.py:AbstractSampling.fit", S+"sampling.py:AbstractSampling.cond", S+"sampling.py:TauSampling.__init__", S+"sampling.py:MatsubaraSampling.__init__"])
prop("C70", "The basis set",
 "FiniteTempBasisSet: the two bases share parameters and expansion and differ in statistics and transforms only; the sampling points are the default points of the bases; points, sampling and fit in time are the same for fermions and bosons.  With an expansion which has at least two more functions than are kept, the set can be constructed, its times are ascending in [0, beta] and its frequencies strictly ascending, symmetric and odd for fermions, even for bosons.  Sampling then is evaluation of the function and its Fourier transform, and fit followed by sampling leads from times to frequencies and back whenever the points determine the coefficients.",
 "every beta, wmax, accuracy and singular value expansion, every array and axis",
 "All expansions and arrays; tests use one basis set.",
 [S+"basis_set.py:FiniteTempBasisSet.__init__", S+"basis_set.py:FiniteTempBasisSet.beta", S+"basis_set.py:FiniteTempBasisSet.tau", S+"basis_set.py:FiniteTempBasisSet.wn_f", S+"basis.py:finite_temp_bases", S+"sampling.py:TauSampling.__init__", S+"sampling.py:MatsubaraSampling.__init__"])
prop("C71", "Sparse sampling with the DLR and with augmented bases",
 "With a DLR (some pole nonzero) TauSampling refuses times outside [0, beta] and otherwise evaluates the function with the given pole coefficients; MatsubaraSampling at frequencies of the right parity evaluates its Fourier transform, unless zero is both a pole and a bosonic frequency, which is refused.  With a bosonic basis augmented by TauConst and TauLinear, sampling evaluates the combined function and its transform; with a vertex basis (MatsubaraConst) it evaluates the constant plus the transform, and cannot be done in time.  In all cases fit returns the coefficients whenever the points determine them, without warning for the DLR and for TauConst, TauLinear.  Frequencies of the wrong parity are not refused by the DLR.",
 "every DLR, basis, list of points, array and axis",
 "All poles, points and arrays; tests use a few.",
 [S+"dlr.py:DiscreteLehmannRepresentation", S+"dlr.py:MatsubaraPoles.__call__", S+"dlr.py:TauPoles.__call__", S+"augment.py:AugmentedBasis", S+"augment.py:_AugmentedFunction.__call__", S+"sampling.py:TauSampling.__init__", S+"sampling.py:MatsubaraSampling.__init__"])
prop("C72", "How many sampling points are needed",
 "For a basis of orthonormal functions there are L = basis.size times in [0, beta] at which TauSampling is without loss: fit(evaluate(g)) = g.  The norm of the Fourier transform over all frequencies of one parity is that of the coefficients times sqrt(beta), so also L Matsubara frequencies of the right parity, or for real coefficients at most L non-negative ones, determine the coefficients, and MatsubaraSampling is without loss if they are below the asymptotic region.  With fewer than L points (positive_only: fewer than L real conditions, two for each nonzero frequency and one for zero) some coefficients are not recovered by fit.  Points determine the coefficients exactly if the smallest singular value of the sampling matrix is above zero.",
 "every valid basis with orthonormal functions, every choice of points, every array and axis",
 "Existence over the continuum of points and failure for every too small set.",
 [S+"sampling.py:TauSampling.__init__", S+"sampling.py:MatsubaraSampling.__init__", S+"sampling.py:AbstractSampling.evaluate", S+"sampling.py:AbstractSampling.fit", S+"basis.py:FiniteTempBasis.__init__"])
prop("C73", "Sampling with the DLR at any points",
 "For the DiscreteLehmannRepresentation at any times in [0, beta] (some pole not zero), fit(evaluate(g)) = g for all coefficients exactly if the poles are distinct and there are at least as many distinct times as poles; at any Matsubara frequencies of the right parity exactly if the poles are distinct, not zero for bosons, and there are at least as many distinct frequencies as poles; with positive_only and real coefficients each nonzero frequency counts twice.  Otherwise some coefficients are not recovered.",
 "every DLR object, every list of points, every array and axis",
 "All subsets of a continuum of points; needs that exponentials form a Chebyshev system.",
 [S+"dlr.py:DiscreteLehmannRepresentation.__init__", S+"dlr.py:TauPoles.__call__", S+"dlr.py:MatsubaraPoles.__call__", S+"sampling.py:AbstractSampling.evaluate", S+"sampling.py:AbstractSampling.fit"])


prop("C74", "Transformed basis functions at high frequencies",
  "Let function number l of a FiniteTempBasis be even or odd about beta/2 according to l. For every non-zero n of the right parity with |n| >= 40 * lambda, where uhat uses its high-frequency model, uhat[l](n) minus the Fourier integral of u[l] over [0, beta] is exactly the sum over the orders m of derivatives and the interior knots t of (-1)^m / (i w)^(m+1) * exp(i w t) * J, w = pi n / beta, J the jump of the m-th derivative of u[l] at t; its modulus is at most the sum of |J| / |w|^(m+1). If no derivative jumps, uhat[l](n) is the Fourier integral for all n. MatsubaraSampling.evaluate at any frequencies of the right parity gives the Fourier transform of the function with the given coefficients up to the corresponding error, and exactly that below the threshold. The condition on parities is needed, and without continuous derivatives there is an error.",
  "all bases, all functions, all frequencies of the right parity, all arrays of coefficients",
  "The error depends on jumps of derivatives of all orders at all knots and on the frequency; a test compares a few frequencies with quadrature.",
  [S+"basis.py:FiniteTempBasis.__init__", S+"poly.py:PiecewiseLegendreFT.__call__", S+"poly.py:_PowerModel.giw", S+"poly.py:_power_moments", S+"sampling.py:MatsubaraSampling"])

prop("C75", "Evaluating the kernels in floating-point arithmetic",
  "Let every operation and every elementary function have relative error at most u, and absolute error at most eta where the result may underflow. Let the numbers given as x_plus and x_minus be accurate to 3u relative to 1 + x and 1 - x. If 64 (1 + lambda) (u + eta) <= 1, then LogisticKernel returns a value within 22u + 40 (1 + lambda) eta of the kernel, with no factor lambda before u; relative to the kernel the error is at most 22 u (1 + t), t the exponent of the enumerator, besides the term with eta. Without x_plus and x_minus the absolute bound holds for the given x, but a rounding error in x itself is amplified by lambda. The RegularizedBoseKernel satisfies the same bounds with a factor 1 + 1/lambda. The symmetrised kernels have absolute error at most 48u, 44u (1 + 1/lambda), and the odd ones also relative error at most 92 u (1 + lambda y / 2) if lambda x y >= 2.1 or lambda y <= 169. For lambda y > 169 and small x the odd kernel has no relative accuracy: there are admissible arithmetics for which it evaluates to 0 though it is not 0.",
  "all arithmetics satisfying the contract, all lambda up to the order of 1/(64u), all points of the domain, all admissible x_plus and x_minus",
  "Rounding errors depend on all arguments and on the arithmetic; a test compares with multi-precision values at some points of some kernels.",
  [S+"kernel.py:_compute_uv", S+"kernel.py:LogisticKernel._compute", S+"kernel.py:RegularizedBoseKernel._compute", S+"kernel.py:ReducedKernel.__call__", S+"kernel.py:_LogisticKernelOdd.__call__", S+"kernel.py:_RegularizedBoseKernelOdd.__call__"])

prop("C76", "Quadrature rules and the matrix of the kernel in floating-point arithmetic",
  "Let the arithmetic satisfy the contract of C75 with eta <= u^2, and let a rule on [-1, 1] have nodes accurate to d relative to the distances from both ends, and weights, x_forward, x_backward accurate to d. If the edges ascend, no segment contains zero inside, and the nodes are resolved by the arithmetic (12 u <= half the length of a segment times 1 + t, 1 - t and times the weight, 44 u <= r (1 + t) and r (1 - t)), then piecewise succeeds; all nodes, weights, x_forward and x_backward of the result have relative error at most e = d + r, the last two relative to the distance from the ends of the whole interval, and no node leaves the interval. If moreover 64 (1 + lambda) (e + eta) <= 1, then SamplingSVE.matrices succeeds, and its matrix differs from that of the exact nodes and weights by at most 62 e (LogisticKernel), 65 e (even), 120 e (odd, e <= 1e-4) in the Frobenius norm, whatever lambda, the segments and the size of the matrix are; for the RegularizedBoseKernel by 62 e, 66 e, 128 e times 1 + 1/lambda, under bounds on eta.",
  "all arithmetics satisfying the contract, all rules, all resolved segments, all lambda up to the order of 1/(64 e)",
  "A test sees the double precision of one machine, for the segments of some kernels; the bound is on the accumulated errors of every step, for any segments.",
  [S+"_gauss.py:Rule.reseat", S+"_gauss.py:Rule.join", S+"_gauss.py:Rule.piecewise", S+"kernel.py:matrix_from_gauss", S+"sve.py:SamplingSVE.matrices"])

prop("C77", "Accuracy of the singular values and what truncation keeps",
  "If the matrix given to the SVD differs from the exact one by at most E in the Frobenius norm, every singular value differs from the exact one of the same number by at most E (and no smaller bound holds in general); so with the matrices of C76 and an SVD which is exact for a matrix within E of the given one, all singular values are accurate to the bound of C76 plus E. For the even and odd parts together and a tolerance t, _truncate keeps every singular value whose exact counterpart exceeds t T + (1 + t) E, T the largest exact one, and none whose exact counterpart is at most t T - (1 + t) E; all kept values are accurate to E.",
  "all matrices, all singular value decompositions of them, all tolerances in [0, 1]",
  "The number of singular values near the cut-off and their errors differ from machine to machine; a test sees one outcome and one pair of matrices.",
  [S+"sve.py:SamplingSVE.matrices", S+"sve.py:_truncate", S+"svd.py:compute"])

prop("C78", "Accuracy of the singular vectors",
  "Let the matrix given to the SVD differ from the exact one by at most E in the Frobenius norm. A singular value of the exact matrix which is separated from all others and from zero by delta >= 4 E has a counterpart of the same number in every SVD of the perturbed matrix, and its left and right vectors, up to one common sign, have a joint error of at most 3 E / delta; with C76 this bounds the error of the singular functions in the norm of the quadrature rule, if the SVD is exact for a matrix close to the given one. Without separation there is no such bound: vectors of the same number may be orthogonal though the matrices are equal.",
  "all matrices, all singular value decompositions of them, all separated singular values",
  "Vectors differ by signs and rounding from machine to machine; a test compares those of one machine with reference values.",
  [S+"sve.py:SamplingSVE.matrices", S+"sve.py:SamplingSVE.postprocess", S+"svd.py:compute"])

prop("C79", "Evaluating piecewise Legendre polynomials in floating-point arithmetic",
  "Let the arithmetic satisfy the contract of C75. For a piecewise Legendre polynomial with ascending knots whose stored dx fits the knots up to their rounding errors, and any x in [xmin, xmax], p(x) and p.value(l, x) return, for every function l, the value of the polynomial of the segment [a, b] which contains x, up to 75 n^2 k (u C + eta) sqrt(2/(b-a)) + eta: n is the number of coefficients, C the sum of their magnitudes, k = (|a| + |b|) / (b - a), provided 400 n^2 k u <= 1. The dx which the constructor computes by default fits, so do those which FiniteTempBasis gives for u and v. The factor k cannot be avoided: on every segment there is an admissible arithmetic with error at least u k sqrt(2/(b-a)) for coefficients 0, 1. Outside of the interval ValueError is raised whatever the arithmetic.",
  "all arithmetics satisfying the contract, all polynomials with any number of segments and coefficients, all points",
  "The error of a recurrence depends on all coefficients, on the point and on the arithmetic; a test compares a few values on one machine.",
  [S+"poly.py:PiecewiseLegendrePoly.__init__", S+"poly.py:PiecewiseLegendrePoly.__call__", S+"poly.py:PiecewiseLegendrePoly.value", S+"poly.py:PiecewiseLegendrePoly._split", S+"basis.py:FiniteTempBasis.__init__"])

prop("C80", "Evaluating and fitting in floating-point arithmetic",
  "Let A be a sampling matrix with m rows and n columns whose SVD is computed with a backward error: U, s, V^H with s between smin > 0 and smax, U and V orthonormal up to delta <= 1/10 in the operator norm, and U S V^H within e smax of A, e <= 1/10. Let matrix products, row divisions and sums of arrays be computed with relative errors gamma <= 1/12 (for products, relative to the norms of the factors) and eps <= 1/10 and absolute errors H. Then evaluate() of coefficients c differs from A c by at most 1.22 gamma smax |c| + H, fit() of data x differs from c by at most 5 (smax/smin)(delta + e + gamma + eps) |c| + 2 |x - A c| / smin + 3 H (1 + 1/smin), and fit(evaluate(c)) differs from c by at most 8 (smax/smin)(delta + e + gamma + eps) |c| + 4 H (1 + 1/smin), where smax/smin is the cond the object reports; for positive_only the constants are 8, 2, 3 and 10, 5 and the result is real. This holds along any valid axis of an array of any shape. The contract is met by products which round every multiplication and addition of the C75 arithmetic, whatever the order of summation: gamma is then sqrt(max(m, n)) 2 (D + 5) u with D the depth of the summation tree. With exact operations the rounded functions are the functions of C03 to C08.",
  "all matrices, all shapes and axes, all orders of summation, all arithmetics satisfying the contract, all computed SVDs with the stated backward error",
  "The order of summation depends on the BLAS library and the array layout, and the loss of accuracy on the conditioning; a test sees one library and a handful of matrices.",
  [S+"sampling.py:DecomposedMatrix", S+"sampling.py:DecomposedMatrix.matmul", S+"sampling.py:DecomposedMatrix.lstsq", S+"sampling.py:SplitDecomposedMatrix.matmul", S+"sampling.py:SplitDecomposedMatrix.lstsq"])

prop("C81", "The root search in floating-point arithmetic",
  "Let operations be rounded to the nearest binary number of p digits (any rule for ties, subnormal numbers included, no overflow). For every function f, as computed, and every grid of floating-point numbers at least 2^(1-p) M apart, where M >= 2^(emin + 2p) is the largest magnitude, find_all terminates; its result is strictly ascending and consists of the grid zeros and exactly one floating-point number for each sign change between neighbouring grid points, an end of a bracket narrower than eps M on which the sign bit of f changes. If f is continuous g with an error of at most E, every reported point is within eps M of a point where |g| <= E, and between neighbours where |g| > E with different signs exactly one point is reported; for piecewise polynomials E is the bound of C79 plus the jump at the knots. For tiny magnitudes the search need not terminate: with a sign change between 0 and the smallest positive number it loops forever.",
  "all functions, all grids, all precisions p and exponents emin, all rules for ties",
  "Termination of a loop whose exit condition compares a rounded difference with the machine precision cannot be concluded from runs which ended; whether a rounded midpoint may fall on an end of the bracket depends on the last digit.",
  [S+"_roots.py:find_all", S+"_roots.py:_bisect_cont", S+"poly.py:PiecewiseLegendrePoly.roots"])

prop("C82", "Accuracy of sparse sampling in floating-point arithmetic",
  "TauSampling and MatsubaraSampling (with and without positive_only), constructed from basis functions which are computed with errors up to E at the m sampling points and with a singular value decomposition of finite accuracy, exist, and along any axis of any array: evaluate returns the exact values of the expansion up to (61/50 gamma smax + sqrt(m n) E) ||c|| and underflow; fit, applied to any data x, returns any coefficients c up to (5 kappa (delta + e + gamma + eps) + 2 sqrt(m n) E / smin) ||c|| + 2 ||x - (exact values of c)|| / smin and underflow (8 instead of 5 with positive_only and real c); fitting what was evaluated does not depend on E at all; fit warns exactly if the basis claims to be well-conditioned and kappa > 1e8. Passing from one set of points to another by fit and evaluate is off by the error of the coefficients times the norm of the second matrix and by the bound on values. For piecewise Legendre polynomials E is explicit.",
  "all bases, all lists of points, all arrays and axes, all data, all arithmetics, matrix products and decompositions within the stated contracts",
  "The bound is for the worst case over data, noise and rounding; tests compare round trips, in which the error of the basis functions cancels.",
  [S+"sampling.py:TauSampling.__init__", S+"sampling.py:MatsubaraSampling.__init__", S+"sampling.py:AbstractSampling.evaluate", S+"sampling.py:AbstractSampling.fit"])

prop("C83", "Accuracy of the singular value expansion over the whole square",
  "With exact matrix decompositions, the result of sve.compute expands the kernel over all of [-1, 1] x [-1, 1], not only at the Gauss nodes: for every m, the root of the integral of the squared difference between the kernel and the first m terms is at most sqrt(sum of the squares of the singular values that are not used) + 4 (ex + ey), where ex (ey) bounds how far the kernel as a function of x (of y) is, uniformly, from piecewise polynomials with n_gauss coefficients on the hinted segments. For LogisticKernel with 10 <= lambda <= 10^6 the hinted segments are so fine that with n >= 10 nodes ex = 8^-n and ey = 2 (3/25)^n / (1 - 3/25); so the discretisation contributes at most 1e-8 with the 10 nodes used for eps >= 1e-8, and at most 4e-14 with the 16 nodes used otherwise.",
  "all continuous kernels and segments (general bound); all lambda from 10 to 10^6, all eps, cutoffs and n_sv; both SVE strategies",
  "The difference is an integral over a square; tests can look at finitely many points and values of lambda.",
  [S+"sve.py:compute", S+"sve.py:SamplingSVE.__init__", S+"sve.py:SamplingSVE.postprocess", S+"sve.py:CentrosymmSVE.postprocess", S+"kernel.py:_SVEHintsLogistic.segments_x", S+"kernel.py:_SVEHintsLogistic.segments_y", S+"kernel.py:_SVEHintsLogistic.ngauss"])

prop("C84", "Accuracy of a basis constructed from scratch for Green's functions",
  "For 10 <= beta wmax <= 10^6, with exact matrix decompositions, FiniteTempBasis(statistics, beta, wmax, eps, max_size=...) either fails because the sign of a singular function cannot be fixed, or is a basis with: the root of the integral over [0, beta] x [-wmax, wmax] of the squared difference between the kernel and the expansion sum_l s_l u_l(tau) v_l(omega) is at most D = sqrt(sum of squares of the omitted singular values) + sqrt(beta wmax / 2) times 1e-8 (accuracy 1e-8 or worse) or 4e-14; every Green's function G(tau) = -int K(tau, omega) rho(omega) with a square integrable spectral function is reproduced by the coefficients -s_l int v_l rho with an error, in the mean over [0, beta], of at most D ||rho||; and its Fourier transform at every frequency of the right parity below 40 beta wmax is reproduced by the same coefficients and uhat up to sqrt(beta) D ||rho||. The omitted singular values are those of the discretised kernel that the basis does not contain; none is greater than any contained one, and without a limit on the size none exceeds max(eps, cutoff) s_0.",
  "all beta and wmax with 10 <= beta wmax <= 10^6, all eps, sizes and both statistics; all square integrable spectral functions; all frequencies within the range of uhat",
  "Spectral functions form an infinite-dimensional space; tests can only look at some of them.",
  [S+"basis.py:FiniteTempBasis.__init__", S+"sve.py:compute", S+"kernel.py:LogisticKernel", S+"kernel.py:_SVEHintsLogistic.segments_x", S+"kernel.py:_SVEHintsLogistic.segments_y", S+"poly.py:PiecewiseLegendreFT.__call__"])

prop("C85", "Accuracy with inexact matrix decompositions",
  "If the SVD routine returns orthonormal factors whose product differs from the matrix by at most delta times the norm of the matrix (Frobenius), then the computed singular values deviate from those of an exact decomposition at most by delta times that norm, and the error of sve.compute over the whole square is at most that with exact decompositions plus 2 M delta, M being a bound of the kernel, for both strategies. For the logistic kernel with 10 <= lambda <= 10^6: omitted singular values + 2 delta + 1e-8 (4e-14). For FiniteTempBasis: the error of the expansion of the kernel over [0, beta] x [-wmax, wmax], of Green's functions in time and on the Matsubara axis grows at most by sqrt(beta wmax / 2) 2 delta (times the norm of the spectral function).",
  "all kernels that are described by a centrosymmetric bounded function and are close to piecewise polynomials on their segments, all errors delta, all accuracies, cut-offs and numbers of singular values",
  "The routines are accurate to rounding for the matrices of a test; what an error means for the basis is not visible there.",
  [S+"sve.py:compute", S+"svd.py:compute", S+"sve.py:SamplingSVE.postprocess", S+"sve.py:CentrosymmSVE.postprocess", S+"basis.py:FiniteTempBasis.__init__"])

prop("C86", "Accuracy of the expansion for the regularized Bose kernel",
  "For RegularizedBoseKernel(lambda) with 0 < lambda <= 10^12 the segments hinted by the kernel resolve it: over the whole square [-1, 1]^2 the first m terms of sve.compute deviate from y exp(-lambda y (x+1)/2) / (1 - exp(-lambda y)) (value 1/lambda at y = 0) in the mean at most by the omitted singular values plus (1 + 1/lambda) (3 delta + 2.5e-8), or 1e-13 instead of 2.5e-8 with 16 nodes per segment, delta being the backward error of the matrix decompositions; the special case of the code for |lambda y| < 1e-200 is included. For FiniteTempBasis(stat, beta, wmax, eps, kernel=RegularizedBoseKernel(beta*wmax)) the same holds, times sqrt(beta wmax / 2) / wmax, for the kernel omega exp(-tau omega) / (1 - exp(-beta omega)) / wmax^2 over [0, beta] x [-wmax, wmax], and for Green's functions in time and on the Matsubara axis, times the norm of the spectral function.",
  "all cut-offs 0 < lambda <= 10^12, all accuracies, cut-offs of singular values and numbers of singular values, all spectral functions, all errors delta",
  "Tests compare singular values and functions for a few cut-offs with stored ones; the error between the nodes is not examined, nor is every cut-off.",
  [S+"kernel.py:RegularizedBoseKernel", S+"kernel.py:_SVEHintsRegularizedBose.segments_x", S+"kernel.py:_SVEHintsRegularizedBose.segments_y", S+"kernel.py:_SVEHintsRegularizedBose.ngauss", S+"sve.py:compute", S+"basis.py:FiniteTempBasis.__init__"])

prop("C87", "Accuracy of the expansion at every point",
  "For FiniteTempBasis(stat, beta, wmax, eps, max_size) with 10 <= L = beta wmax <= 10^6, unless the sign of a singular function cannot be fixed: at every tau in [0, beta] and omega in [-wmax, wmax], end points and knots included, sum_l s[l] u[l](tau) v[l](omega) deviates from exp(-tau omega) / (1 + exp(-beta omega)) at most by E = n^2 (16 L^(5/8) O + 23 L^(9/8) delta) + tail, where n is the number of nodes per segment (10 or 16), O the root of the sum of the squares of the omitted singular values, delta the backward error of the matrix decompositions, and tail = 2e-7 or 2e-12. Every omitted singular value is at most every kept one, and at most max(eps, cutoff) s[0] without max_size. The expansion of every Green's function with spectral function rho deviates at every tau at most by E times the integral of |rho|, and with uhat on the Matsubara axis at most by beta times as much. to_IR of a DLR with any poles within the bandwidth preserves the function of tau up to E sum |g_i|.",
  "all beta and wmax with product between 10 and 10^6, all points tau and omega, all spectral functions, all Matsubara frequencies below the switch to the model, all poles and coefficients, all errors delta",
  "Tests compare the expansion with the kernel at a few random points for a few cut-offs, and a few Green's functions at sampling points.",
  [S+"kernel.py:LogisticKernel", S+"kernel.py:_SVEHintsLogistic.segments_x", S+"kernel.py:_SVEHintsLogistic.segments_y", S+"sve.py:compute", S+"basis.py:FiniteTempBasis.__init__", S+"dlr.py:DiscreteLehmannRepresentation.to_IR"])

prop("C88", "Accuracy for large cut-offs",
  "For LogisticKernel(lambda) with 10 <= lambda <= 10^9 the error of the expansion over the square, as in C83 and C85, is at most the omitted singular values plus 2 delta plus 8e-8 with 10 nodes per segment or 1.5e-12 with 16; with 10 <= lambda <= 10^14 it is 4e-6 or 1e-9 instead. The same holds for FiniteTempBasis in the mean as in C85, times sqrt(beta wmax / 2), and at every point as in C87 with tails 4e-7 or 8e-12, respectively 1.1e-5 or 4.2e-9.",
  "all cut-offs in the two ranges, all accuracies, cut-offs of singular values and numbers of singular values, all points, all spectral functions, all errors delta",
  "Computing a basis for cut-offs like 10^9 is not part of the tests; the hints are heuristics tuned for moderate cut-offs, and whether the segments still resolve the kernel cannot be seen from singular values.",
  [S+"kernel.py:LogisticKernel", S+"kernel.py:_SVEHintsLogistic.segments_x", S+"kernel.py:_SVEHintsLogistic.segments_y", S+"sve.py:compute", S+"basis.py:FiniteTempBasis.__init__"])

prop("C89", "The expansion stays accurate with a kernel evaluated in floating point",
     "sve.compute for a centrosymmetric kernel whose symmetrised values deviate from the true ones by an absolute error of at "
     "most eps_k returns an expansion whose mean-square error over the whole square exceeds that of C85 by about 2 eps_k. "
     "LogisticKernel evaluated in floating-point arithmetic (both symmetrised kernels, including the sinh/cosh form of the odd "
     "one) deviates by at most 74 units of rounding, plus a term for underflow, so a FiniteTempBasis made from it reproduces the kernel "
     "and every Green's function to the accuracy of C85 plus 148 u sqrt(beta wmax / 2), in tau and at every Matsubara frequency "
     "below the convergence radius.",
     "for every arithmetic with relative error u and underflow threshold eta (64 (1 + lam)(u + eta) <= 1, "
     "10000 (1 + lam) eta <= exp(-lam/722)), every SVD routine with backward error delta, all eps, max_size, "
     "and all beta, wmax with 10 <= beta wmax <= 1e6",
     "Tests compare the expansion with the same rounded kernel at a few points and for a few cut-offs; the claim is about the "
     "exact kernel, all points, and every rounding of every value.",
     [S+"sve.py:compute", S+"kernel.py:LogisticKernel", S+"kernel.py:ReducedKernel", S+"kernel.py:_LogisticKernelOdd",
      S+"basis.py:FiniteTempBasis"])

prop("C90", "The expansion stays accurate with the regularized Bose kernel evaluated in floating point",
     "RegularizedBoseKernel evaluated in floating-point arithmetic (both symmetrised kernels, including the sinh form of the "
     "odd one and the replacement of the denominator for |lam y| < 1e-200) deviates from the kernel itself by at most "
     "72 u (1 + 1/lam) plus a term for underflow. So sve.compute returns an expansion whose mean-square error over the whole "
     "square is that of the omitted singular values plus (1 + 1/lam) times 2 delta + 144 u + 2.45e-8 (9.4e-14 for eps < 1e-8), "
     "and a FiniteTempBasis made from it reproduces the kernel in physical units and every Green's function accordingly, in tau and "
     "at every Matsubara frequency below the convergence radius.",
     "for every arithmetic with relative error u and underflow threshold eta (1e-199 <= u <= 1e-4, eta <= 1e-240 u, "
     "64 (1 + lam)(u + eta) <= 1, 10000 (1 + lam)^3 eta <= exp(-lam/722)), every SVD routine with backward error delta, all eps, "
     "max_size, and all beta, wmax with 0 < beta wmax <= 1e12",
     "The error includes cancellation in x * y, expm1 near zero and underflow of the exponentials; no test can evaluate all "
     "points, cut-offs and roundings.",
     [S+"sve.py:compute", S+"kernel.py:RegularizedBoseKernel", S+"kernel.py:ReducedKernel", S+"kernel.py:_RegularizedBoseKernelOdd",
      S+"basis.py:FiniteTempBasis"])

prop("C91", "The expansion stays accurate at every point with a kernel evaluated in floating point",
     "A FiniteTempBasis made from LogisticKernel evaluated in floating-point arithmetic reproduces the exact kernel at every "
     "imaginary time and frequency, every Green's function at every imaginary time and (with uhat) at every Matsubara frequency "
     "below the convergence radius, with the errors of C87 (C88 for large cut-offs) in which the backward error delta of the SVD is "
     "replaced by delta + (1 + delta)(74 u + underflow). A DLR with any poles on top of it is mapped to the IR coefficients by to_IR "
     "with an error at most this times the sum of the absolute values of its coefficients, at every imaginary time.",
     "for every arithmetic with relative error u and underflow threshold eta (64 (1 + lam)(u + eta) <= 1, u <= 1e-4, "
     "10000 (1 + lam) eta <= exp(-lam/722)), every SVD routine with backward error delta, all eps, max_size, poles, all "
     "beta, wmax with 10 <= beta wmax <= 1e6 (1e14 with the constants of C88), all tau, omega, spectral functions and frequencies",
     "A maximum over all points of the domain for every rounding of every value of the kernel is out of reach of sampling.",
     [S+"basis.py:FiniteTempBasis", S+"sve.py:compute", S+"kernel.py:LogisticKernel", S+"kernel.py:_LogisticKernelOdd",
      S+"dlr.py:DiscreteLehmannRepresentation.to_IR"])

prop("C92", "The expansion with the regularized Bose kernel is accurate at every point",
     "A FiniteTempBasis made with kernel=RegularizedBoseKernel(beta*wmax) reproduces the kernel at every imaginary time and "
     "frequency, every Green's function at every imaginary time and (with uhat) at every Matsubara frequency below the "
     "convergence radius, up to 26 n^2 max(lam, 10)^(3/2) times (the norm of the omitted singular values / sqrt(lam/2) plus the "
     "errors e / wmax of the SVD and of the values of the kernel) plus (1 + 1/lam) / wmax times 5e-7 (n = 10) or 4.6e-12 (n = 16). "
     "This holds for the kernel in exact arithmetic and for the kernel evaluated in floating-point arithmetic with the error of C90.",
     "for all beta, wmax > 0 with lam = beta wmax <= 1e12, both statistics, all eps, max_size, every SVD routine with backward error "
     "delta, (rounded) every arithmetic with the hypotheses of C90, all tau, omega, spectral functions and frequencies",
     "A maximum over a continuum of points for every cut-off and every rounding is out of reach of sampling.",
     [S+"basis.py:FiniteTempBasis", S+"sve.py:compute", S+"kernel.py:RegularizedBoseKernel", S+"kernel.py:_RegularizedBoseKernelOdd",
      S+"kernel.py:_SVEHintsRegularizedBose"])

prop("C93", "Sparse sampling of Green's functions with a basis constructed from scratch",
     "Let D be the error of C87, C91 or C92 of a FiniteTempBasis for a Green's function with spectral function rho (error at a point "
     "times the integral of |rho|). TauSampling.fit maps the values of the Green's function at m times, each with an error of at "
     "most eta, to its coefficients -s_l int v_l rho with an error of at most sqrt(m)(D + eta)/sigma in the Euclidean norm, sigma "
     "being a lower bound of the sampling matrix, and the function with the fitted coefficients deviates from the Green's function by "
     "at most D + |u(tau)| sqrt(m)(D + eta)/sigma at every imaginary time. MatsubaraSampling.fit does the same from values on the "
     "Matsubara axis with beta D in place of D inside the bracket, with and without positive_only. For every such basis there are "
     "finitely many sampling times at which the sampling matrix has a positive lower bound.",
     "every basis of C87, C91, C92 (logistic or Bose kernel, exact or rounded), every square integrable spectral function, all sampling "
     "points at which the sampling matrix has full column rank, all perturbations of the data, every imaginary time",
     "The bound relates all spectral functions, all times and all errors of the data to the omitted singular values.",
     [S+"sampling.py:TauSampling", S+"sampling.py:MatsubaraSampling", S+"sampling.py:AbstractSampling.fit", S+"basis.py:FiniteTempBasis"])

prop("C94", "Completeness of the discrete Lehmann representation",
     "If no non-zero combination of the functions v vanishes at all poles of a DiscreteLehmannRepresentation, then "
     "to_IR(from_IR(gl)) == gl for arrays of every shape, the norm of from_IR(gl) is at most that of gl divided by a lower bound of "
     "the matrix s_l v_l(pole) (there is a positive one), and the DLR with the coefficients from_IR(G_l) deviates from the Green's "
     "function at every imaginary time by at most the error of the basis at a point (C87, C91) times (the integral of |rho| plus the "
     "sum of the absolute values of the coefficients), and with uhat of the DLR at every Matsubara frequency by at most beta times as much "
     "(for bosons not at zero frequency with a pole at zero). For every basis there are finitely many poles in [-wmax, wmax] of this kind.",
     "every basis of C87 or C91 with the logistic kernel, every list of poles that determines the functions v, every array of coefficients "
     "and axis, every square integrable spectral function, every imaginary time",
     "Losslessness for all coefficient vectors and the existence of the poles for every basis are not visible from samples.",
     [S+"dlr.py:DiscreteLehmannRepresentation.from_IR", S+"dlr.py:DiscreteLehmannRepresentation.to_IR", S+"basis.py:FiniteTempBasis"])

with open(os.path.join(os.path.dirname(__file__), "..", "properties.jsonl"), "w") as f:
    for p in P:
        f.write(json.dumps(p, ensure_ascii=False) + "\n")
print(len(P))
