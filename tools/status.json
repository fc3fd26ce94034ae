{
 "C01": [
  "proved",
  "check_reduced_matsubara accepts exactly the arrays of integers (of the requested parity) and returns them unchanged as integers; everything else raises ValueError. Floats are IEEE values, integer range 64 bit."
 ],
 "C02": [
  "proved",
  "check_range, _check_domain and the DLR tau check over IEEE values: accepted iff every element is a number in the closed domain. DLR functions raise RuntimeError (ValueError for NaN)."
 ],
 "C03": [
  "proved",
  "For every shape, ravel/reshape lifting is element-wise; both last_dim variants, errors passed on."
 ],
 "C04": [
  "partial",
  "The claim is false of the code (C04_negation: the shared descriptor stores the last accessed instance). C04_last_access characterises all histories; the full claim is proved for immediate calls and for a single object."
 ],
 "C05": [
  "proved",
  "Termination, soundness, completeness and order of find_all(type='discrete') for every function and strictly increasing grid, including signed zeros."
 ],
 "C06": [
  "proved",
  "Termination and correctness of the vectorised continuous bisection in exact arithmetic over any Archimedean ordered field; true root within the tolerance over the reals (intermediate value theorem)."
 ],
 "C07": [
  "proved",
  "Total by well-founded recursion; inside the bracket; exact peak for unimodal magnitude; local-peak property without unimodality."
 ],
 "C08": [
  "partial",
  "The claim is false of the code (C08_negation: overlapping brackets on coarse grids cross). Proved when adjacent secant changes only occur at unit spacing, in particular on unit grids."
 ],
 "C09": [
  "proved",
  "Constructor plus evaluation for any strictly increasing knots; exact arithmetic. Zero-width segments (allowed by the constructor) give NaN: C09_zero_width_nan."
 ],
 "C10": [
  "partial",
  "Selection commutes with evaluation, derivative and transform, except freq='any' without n_asymp, where uhat[l] raises KeyError (C10_any_select_raises)."
 ],
 "C11": [
  "proved",
  "numpy legder proved to be the derivative of Legendre series; interior of segments, every order."
 ],
 "C12": [
  "proved",
  "Even functions with a root exactly at the midpoint list it twice (C12_even_midpoint_twice), which the claim allows."
 ],
 "C13": [
  "proved",
  "All alpha >= 1, all strictly increasing grids."
 ],
 "C14": [
  "proved",
  "Exact arithmetic; scipy spherical_jn is modelled by its closed form/recurrence. C14_tau gives the scaling to imaginary time."
 ],
 "C15": [
  "proved",
  "Integer branch for all n. C15_float_branch shows that the (unreachable) float branch has a wrong phase for non-integers."
 ],
 "C16": [
  "proved",
  "The power model reproduces the boundary derivative sums; its error is exactly the interior-knot jump terms plus the remainder; exact for smooth piecewise polynomials."
 ],
 "C17": [
  "partial",
  "False in general (C17_negation); true for even order or below the asymptotic threshold."
 ],
 "C18": [
  "proved",
  "Conjugation and reflection symmetry, and which part is nonzero."
 ],
 "C19": [
  "proved",
  "Symmetrisation of Matsubara frequencies."
 ],
 "C20": [
  "partial",
  "Regular (sign-change) branch proved. Fall-back branch: bosonic points are good when extrema ascend; witnesses for repeated frequencies, ValueError and IndexError (C20_fallback_repeats, _raises, _empty)."
 ],
 "C21": [
  "partial",
  "False for 20-39 points (C21_negation); symmetric otherwise."
 ],
 "C22": [
  "partial",
  "Points, symmetry and count proved; false provisos kept as witnesses: no extrema gives no points, and a derivative vanishing at an interval edge yields edge points"
 ],
 "C23": [
  "proved",
  "reseat, scale, join, piecewise preserve exactness; single edge raises"
 ],
 "C24": [
  "proved",
  "join/piecewise raise exactly on disconnected or unordered input"
 ],
 "C25": [
  "proved",
  "Exactness to degree 2n-1 for arbitrary solver/rounding whenever the final nodes are the roots; positive weights; existence for every order; weight sum in every case"
 ],
 "C26": [
  "proved",
  "value and derivative of the monic orthogonal polynomials, and Legendre specialisation"
 ],
 "C27": [
  "partial",
  "False as stated: non-convergence raises AttributeError (bad format string); at most five steps proved"
 ],
 "C28": [
  "proved",
  ""
 ],
 "C29": [
  "proved",
  "complete table checked by kernel arithmetic over the rationals; binary rounding of the decimals not modelled"
 ],
 "C30": [
  "proved",
  ""
 ],
 "C31": [
  "partial",
  "Formula, limit, positivity, symmetry proved for array y; scalar y raises TypeError (C31_scalar_raises)"
 ],
 "C32": [
  "partial",
  "Proved for array calls with explicit x_plus; without x_plus, or with two scalars for the odd kernels, the call raises TypeError"
 ],
 "C33": [
  "proved",
  ""
 ],
 "C34": [
  "proved",
  "For integer or absent n_sv; C34_float_limit: a finite float n_sv (which the signature allows) makes the partition index a float and raises."
 ],
 "C35": [
  "proved",
  "C35_negative: a negative max_size behaves like a Python slice bound and is not rejected."
 ],
 "C36": [
  "proved",
  ""
 ],
 "C37": [
  "proved",
  "Parity holds away from the segment boundaries, where evaluation takes the right segment."
 ],
 "C38": [
  "proved",
  "C38_vanishing: where u(1) = 0 the division gives NaN."
 ],
 "C39": [
  "proved",
  "Relative to the contract of the expansion (Good, Describes). For the regularised Bose kernel the code gives wmax^(-2) times the physical kernel (C39_bose), which the claim does not mention."
 ],
 "C40": [
  "proved",
  ""
 ],
 "C41": [
  "partial",
  "False of the code: basis[:n] can enlarge a basis (it slices the stored SVE again), basis[:0] raises IndexError, negative stops count from the stored expansion (C41_negation, C41_empty, C41_negative). Proved when the stored expansion is not cut by max_size."
 ],
 "C42": [
  "partial",
  "False of the code: rescale re-derives the size from eps (C42_negation). Proved: the same dimensionless functions, never fails the lambda check under rounding, same size if no max_size had been given."
 ],
 "C43": [
  "proved",
  "for every matrix, array, axis and SVD routine meeting its contract (existence of such a routine is proved)"
 ],
 "C44": [
  "proved",
  "least squares over real coefficients; hypothesis that the zero-frequency row is real is shown for bosonic IR bases (C44_zero_row)"
 ],
 "C45": [
  "partial",
  "explicit axes proved for all ranks; the documented default (last axis) is false of the code for rank >= 2 (C45_negation, C45_silent): axis=None transforms the last but one axis"
 ],
 "C46": [
  "partial",
  "imaginary time proved for every order; Matsubara points are sorted by the code, so claim is false for unsorted points (C46_negation, C46_swapped), proved for increasing ones and characterised in general"
 ],
 "C47": [
  "partial",
  "Values, size, slices and non-negative indices proved for all inputs; the claim for negative indices is false (negation proved: they count from the end of the augmentations)."
 ],
 "C48": [
  "partial",
  "Unit norm, Fourier pairs, derivatives and refusal of non-bosonic bases proved; false for zero-dimensional n (TauLinear.hat), for numpy without np.complex (TauConst.hat) and for integer tau (TauLinear.deriv): negations proved."
 ],
 "C49": [
  "partial",
  "statistics, xmax and deriv do not behave as claimed for any augmented basis (negation proved for all); xmin, beta, wmax, lambda_, accuracy and sampling points do."
 ],
 "C50": [
  "partial",
  "u and uhat are the stated pole functions and Fourier pairs for all poles, times and frequencies of matching parity, except when all poles are zero (ValueError, C50_tau_negation) and for a bosonic pole at zero at frequency zero (not finite, C50_boson_negation)."
 ],
 "C51": [
  "proved",
  "Under the contract of the SVD routines; the error of to_IR is bounded by the error of the IR expansion of the kernel times the sum of the moduli of the coefficients."
 ],
 "C52": [
  "partial",
  "All strategies give an SVD of the matrix under the contract of the LAPACK/double-double routines. Unknown strategies are refused except for double-double input, where the strategy is ignored (C52_unknown_negation)."
 ],
 "C53": [
  "partial",
  "The chosen type meets the request; the docstring relation between accuracy, cutoff and epsilon is false (C53_documented_negation), the part that holds is C53_documented_partial."
 ],
 "C54": [
  "partial",
  "False of the code for '' and 'BF' (KeyError; C54_negation), weight_func accepts '' and 'FB'."
 ],
 "C55": [
  "proved",
  ""
 ],
 "C56": [
  "proved",
  "For every integrand, tolerance and limits. The result is the 15-point sum; more than 2000 initial segments raise TypeError (C56_too_many) and an integrand whose 15-point sums vanish always ends in a warning (C56_zero)."
 ],
 "C57": [
  "partial",
  "Strictly increasing, mirror symmetric, zero for bosons, exactly one point (the first largest magnitude) per piece between strict sign changes: proved for every sampled function, every probe grid. These pieces are the sign-definite runs when no sample is exactly zero (C57_sign_partial); with an exact zero between two runs one run gets no point, shown by C57_sign_negation."
 ],
 "C58": [
  "proved",
  "Termination, one bracketed root per strict sign change on the grid, interleaving for x and y, counts and mirror symmetry; within half the tolerance of a true root for a continuous function. Real arithmetic: rounding in the bisection is not modelled."
 ],
 "C59": [
  "proved",
  ""
 ],
 "C60": [
  "proved",
  "zero matrix: fit raises IndexError, stated in the theorem"
 ],
 "C61": [
  "proved",
  "Shapes, order, columns and product, for complex and split form. The dtype checks of the split form are part of the type of the triple.  Values are not checked by the code: C61_values_negation."
 ],
 "C62": [
  "proved",
  "Regularised Bose kernel: array y and |lambda*y| >= 1e-200, as stated (C31); the kernel diverges at y = 0: C62_singular."
 ],
 "C63": [
  "proved",
  "Values of the basis at the points are given by any partial function; acceptance, order, matrix and errors."
 ],
 "C64": [
  "proved",
  "Functions of the expansion have definite parity (Matsubara) or parity 0, 1, -1 (tau, omega), as the SVE returns them. The fall-back branch of the Matsubara points is C20."
 ],
 "C65": [
  "proved",
  "External routines (SVD libraries, argsort, Gauss-Legendre rules) enter with contracts, shown satisfiable; C65_logistic and C65_bose show that both kernels meet the hypotheses, C65_libs that correct libraries do. Exact arithmetic."
 ],
 "C66": [
  "proved",
  "The contracts of C65 for SVD libraries, argsort and Gauss-Legendre rules; the product beta*wmax is assumed to be computed exactly, all other arithmetic is exact in the model. That no singular function vanishes at 1 is not proved: it is the alternative in the conclusion."
 ],
 "C67": [
  "proved",
  "load for both statistics, methods by index, Fourier convention, sampling; a negative whichl with an odd number of functions fails the assertion (C67_negative), and the documented accuracy 1e-9 is 1e-8 (C67_accuracy)"
 ],
 "C68": [
  "proved",
  "For frequencies below the asymptotic region (40 Lambda); the SVD is a parameter with a contract."
 ],
 "C69": [
  "proved",
  "The accuracy of the truncated expansion and the lower bound of the sampling matrix are hypotheses."
 ],
 "C70": [
  "proved",
  "C70_transform: the default frequencies are assumed to lie below the asymptotic region, where uhat is the transform of u."
 ],
 "C71": [
  "proved",
  "Frequencies of augmented bases below the asymptotic region; NaN in the sampling matrix is modelled as refusal."
 ],
 "C72": [
  "proved",
  "existence of lossless points, Parseval, lower bounds on the number of points"
 ],
 "C73": [
  "proved",
  "iff: lossless for enough distinct points and distinct poles, otherwise coefficients are lost; times, Matsubara frequencies, positive_only"
 ],
 "C74": [
  "proved",
  "Parities and jumps are hypotheses on the functions of the basis; exact arithmetic. C74_inexact and C74_parity_needed show that both matter."
 ],
 "C75": [
  "proved",
  "For every arithmetic satisfying Arith.Ok u eta. C75_cancellation proves that the odd logistic kernel has no relative accuracy for large lambda*y and small x; C75_needs_x_plus that x_plus/x_minus are needed for an error without factor lambda. Overflow is not modelled."
 ],
 "C76": [
  "proved",
  "All arithmetics, rules and segments as in the statement; the accuracy of the rule on [-1, 1] is a hypothesis."
 ],
 "C77": [
  "proved",
  "Backward stability of the SVD is a hypothesis."
 ],
 "C78": [
  "proved",
  "Backward stability of the SVD is a hypothesis; without separation the negation is proved."
 ],
 "C79": [
  "proved",
  "Backward error analysis of the Clenshaw recurrence: the loop is exact for perturbed coefficients; the intermediate values are bounded by the growth of solutions of the Legendre recurrence, which is proved from a non-increasing quadratic form (also |P_n| <= 1)."
 ],
 "C80": [
  "proved",
  "Rounding errors of evaluate and fit for any order of summation and any SVD with a stated backward error; overflow is not modelled."
 ],
 "C81": [
  "proved",
  "Termination and accuracy of the bisection in binary floating-point arithmetic with rounding to nearest, for normal magnitudes; for tiny magnitudes non-termination is proved (C81_tiny)."
 ],
 "C82": [
  "proved",
  "C82_tau, C82_matsubara, C82_positive: construction, evaluation and fit with all errors; C82_transform: from one set of points to another; C82_poly: the error of the basis functions; C82_exact: reduction to the model without rounding."
 ],
 "C83": [
  "proved",
  "General bound for both strategies; numbers for the logistic kernel with 10 <= lambda <= 10^6. The regularised Bose kernel is covered by the general bound only."
 ],
 "C84": [
  "proved",
  "Logistic kernel, 10 <= beta wmax <= 10^6; square integrable spectral functions."
 ],
 "C85": [
  "proved",
  "Factors with exactly orthonormal columns, product within delta of the matrix (relative, Frobenius)."
 ],
 "C86": [
  "proved",
  "All cut-offs up to 10^12. Analytic continuation with the removable singularity at y = 0, Cauchy estimates on discs around the hinted segments. Inexact decompositions as in C85."
 ],
 "C87": [
  "proved",
  "Pointwise error of the expansion for the logistic kernel with 10 <= beta*wmax <= 10^6, for any backward error of the decompositions; Green functions at every time and to_IR of the DLR. The rest of the arithmetic is exact."
 ],
 "C88": [
  "proved",
  "Cut-offs from 10 to 10^9 and to 10^14, each with its own tail. Same method and assumptions as C83, C85 and C87."
 ],
 "C89": [
  "proved",
  "The nodes and weights of the quadrature, and the factors sqrt(w) of the matrix, are exact here (their rounding: C76); the Bose kernel is C90."
 ],
 "C90": [
  "proved",
  "Nodes, weights and square roots of weights are exact; the underflow condition limits the cut-off to about 5e5 in double precision."
 ],
 "C91": [
  "proved",
  "Nodes, weights and square roots of weights are exact (as C89); so are the evaluations of the basis functions (their rounding: C79)."
 ],
 "C92": [
  "proved",
  "For the exact and the rounded kernel; lam <= 1e12. Only the kernel values are rounded; the SVD enters through its backward error."
 ],
 "C93": [
  "proved",
  "For any points with a lower bound of the sampling matrix; such times exist for every basis (C93_points). That the default points provide one is not part of the claim."
 ],
 "C94": [
  "proved",
  "For any poles that determine the functions v; such poles exist for every basis (C94_poles). That the default poles are of this kind is not part of the claim."
 ]
}