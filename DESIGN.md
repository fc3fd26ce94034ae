# Formal model of sparse-ir (pinned commit in /repo) in Lean 4

## 1. Layout

* `lean/Verif/Py.lean` — Python exceptions / warnings as values.
* `lean/Verif/Np/*` — the numpy/scipy/Python primitives the code calls (IEEE comparisons, sort, unique,
  searchsorted, cumsum, moveaxis, ravel/reshape, legval, legder, spherical_jn, allclose ...).
* `lean/Verif/Model/*` — one file per file of `/repo/src/sparse_ir`, function by function; each definition cites
  the lines it models and says what is simplified.
* `lean/Verif/Spec/*` — small specifications that do not use the model's helpers (textbook formulas,
  integrals, "is a thin SVD", "is sorted", ...).
* `lean/Verif/Lemmas/*` — mathematics needed (Legendre polynomials, quadrature, list lemmas ...).
* `lean/Verif/Props/Cxx*.lean` — the property theorems, each followed by `example`s showing that a concrete,
  non-trivial case meets the hypotheses.

## 2. What "the code" is, and what is idealised

* Numbers: real numbers (or any linearly ordered field where no analysis is needed, so the model is executable
  over ℚ). IEEE rounding is **not** modelled, except (a) NaN/±inf in the argument checks (C01, C02, C54), where
  IEEE comparison semantics decide the outcome, and (b) the lambda consistency check of `rescale` (C42), which is
  proved for every rounding function with relative error ≤ 2⁻⁵³.
* Division by zero that the code can reach is made explicit (an error/NaN value or a hypothesis), never silently
  Lean's `x/0 = 0`.
* numpy arrays: vectors are `List` (when the length is data dependent) or `Fin n → α`; functions vectorised over
  trailing axes are modelled over an arbitrary index type. The shape logic itself (ravel/reshape, moveaxis) is
  modelled separately on arrays with explicit shapes (C03, C45).
* External numerical solvers (LAPACK SVD/dgejsv, interpolative SVD, tridiagonal eigenvalues, xprec) are parameters;
  theorems assume exactly their documented contract (e.g. `IsThinSVD`). `argsort` is any sorting permutation.
* `while` loops are well-founded recursions, or partial fixpoints into `Option` where `none` means divergence;
  termination is proved, not assumed.
* Python exceptions are values of `PyErr`; warnings are part of the returned value. `nanResult` stands for an array
  element that is not a finite number.
* Not modelled: rounding errors (except as said above), array memory layout, performance, printing, the text of
  messages, `__init__.py`, pickling, and the numerical accuracy of the external solvers.

## 3. Trusted base

* Lean 4.33.0 kernel; Mathlib definitions (ℝ, ℂ, interval integral, derivative, matrices).
* Axioms: every theorem depends on at most `propext`, `Classical.choice`, `Quot.sound` (checked with
  `#print axioms`; the list per theorem is in `AXIOMS.md`, written by `tools/axioms.py`). No axioms are added; no
  `sorry`, `native_decide`, `bv_decide`.
* The reading of the Python source into the model (no code was run), and of numpy/scipy semantics as documented in
  `Np/*`.

## 4. Plan per property

| id | modelled | proof |
|---|---|---|
| C01 | `check_reduced_matsubara` over integers and IEEE values | case analysis; `Int` parity incl. negatives |
| C02 | `check_range`, `_check_domain`, `TauPoles` check over IEEE values | list induction |
| C03 | `RavelArgumentDecorator.__call__` on row-major arrays | flat-index bijection by induction on the shape |
| C04 | decorator as a state machine (get/call events) | false: witness history; partial: immediate calls |
| C05 | `find_all(type='discrete')`, `_bisect_discr` vectorised loop | well-founded recursion, invariant, permutation |
| C06 | `find_all(type='continuous')`, `_bisect_cont` | halving measure, IVT |
| C07 | `_bisect_discr_extremum` | well-founded recursion, unimodality invariant |
| C08 | `discrete_extrema` | false: witness; partial: unit grids / separated brackets |
| C09–C13 | `PiecewiseLegendrePoly` | `Fin` vectors, Legendre theory, `HasDerivAt` |
| C14–C18 | `PiecewiseLegendreFT`, `_PowerModel`, spherical Bessel by recurrence | integration by parts, parity |
| C19–C22 | sampling-point construction | list lemmas |
| C23–C29 | `_gauss.py` | Legendre orthogonality, Lagrange interpolation; finite tables by kernel arithmetic |
| C30–C33 | `kernel.py` | real analysis of exp/sinh/cosh |
| C34–C38 | `sve.py` | counting lemmas, quadrature exactness, interval integrals |
| C39–C42 | `basis.py` | scaling of integrals; `part` |
| C43–C46 | `sampling.py` | matrices over ℝ/ℂ with `IsThinSVD`; arrays with explicit shape |
| C47–C49 | `augment.py` | list indexing; integrals; error paths |
| C50–C51 | `dlr.py` | integrals of exponentials; C43 |
| C52–C53 | `svd.py`, `_safe_eps` | case analysis |
| C54–C55 | constructors, basis set | case analysis |
| C56 | `_compute_overlap` loop | invariant over refinement levels |
| C57–C58 | `adapter.py` | list lemmas, bisection |
| C59 | constructor of `FiniteTempBasis` with `PiecewiseLegendreFT` | C14 carried to imaginary time |
| C60 | `cond`, `fit` warning | order of retained singular values |
| C61 | `check_svd_result`, decomposed matrices from a supplied triple | case analysis, sums over retained indices |
| C62 | `weight_func` of the kernels | real analysis of tanh/exp |
| C63 | constructors of the sampling objects | case analysis, C46 |
| C64 | default points of `FiniteTempBasis` | C20, C22 carried through the constructor |
| C65 | `sve.compute` with both strategies, for kernels with a contract | C23, C30–C38, C52, C53 put together; Frobenius norms |
| C66 | `FiniteTempBasis.__init__` with `sve.compute` (`computeOf`) | C65 and C39–C42, C59 put together |
| C67 | `adapter.load` and `adapter.Basis` (`Model/AdapterBasis.lean`) | Without `xprec` singular values reach down to 1e-8, not the documented 1e-9 (`C67_accuracy`); with an odd number of functions a negative `whichl` fails the assertion of `_get_unl_real` (`C67_negative`); that function `l` has the parity of `l` is a hypothesis of `C67_sampling` |
| C68 | `TauSampling`/`MatsubaraSampling` of a `FiniteTempBasis` (`Basis.sampled` in `Model/BasisSet.lean`) | C09, C43–C45, C54, C63 put together; that the points determine the coefficients is a hypothesis of the fit |
| C69 | the same, with perturbed data | the bound `σ` of the sampling matrix and the accuracy `δ` of the truncated expansion are hypotheses of `C69_pole`, `C69_pole_matsubara` |
| C70 | `basis_set.py` (`Model/BasisSet.lean`) | refers to C55, C63, C64, C68; default frequencies below the asymptotic region are a hypothesis of `C70_transform` |
| C71 | `dlr.py` and `augment.py` as bases of `sampling.py` (`Model/SampledBases.lean`) | a matrix with NaNs is refused by the SVD (`nanResult` stands for LinAlgError); `np.complex` is assumed to exist (see C48) |
| C72 | `sampling.py` on the functions of `basis.py` | orthonormality of the basis functions is a hypothesis (established by C39, C66); frequencies below the cutoff of the asymptotic model, as in C68 |
| C73 | `sampling.py` on the functions of `dlr.py` | the DLR object is one returned by the model of `DiscreteLehmannRepresentation.__init__`; real arithmetic (the matrices are invertible but may be ill conditioned in floating point) |
| C74 | `uhat` of `basis.py` above `n_asymp` (`poly.py:_PowerModel`) and `sampling.py` on it | jumps of derivatives are defined by one-sided limits (`IsJump`); parities of the functions are a hypothesis (`C74_parity_needed`: they are needed; `C74_inexact`: kinks give an error); real arithmetic |
| C75 | `kernel.py` in floating-point arithmetic (`_compute_uv`, `_compute`, the symmetrised kernels) | `Model/KernelFl.lean` repeats the functions of `Model/Kernel.lean` for one point with every operation replaced by one of a given arithmetic (`C75_exact*`: with real arithmetic both agree); `Arith.Ok u eta` is the contract; overflow, NaN and the sign of zero are not modelled; the elementary functions of NumPy and `xprec` are assumed to satisfy the contract |
| C76 | `_gauss.py:34-85`, `kernel.py:488-508`, `sve.py:176-184` in floating-point arithmetic | `Model/GaussFl.lean` repeats `reseat`, `join`, `piecewise` and `SamplingSVE.matrices` with every operation replaced by one of a given arithmetic (`C76_exact*`: with real arithmetic they agree with `Model/Gauss.lean`, `Model/Sve.lean`); contract as for C75, and `np.sqrt` has relative error at most `u`; the accuracy of the rule on `[-1, 1]` (`RuleNear`) is a hypothesis; the exact nodes and weights are specified as those of the composite rule (`compositeNodes`, `compositeWeights`), for the edges as given |
| C77 | `sve.py:353-385`, `svd.py` on perturbed matrices | Uses `truncate` of `Model/Sve.lean` and the specification `IsSvdFactors` of C52; Weyl's inequality is proved in `Lemmas/Weyl.lean` by intersecting subspaces; rounding errors of the SVD are covered by a matrix within `E` of the given one (backward stability), which is a hypothesis |
| C78 | `svd.py` on perturbed matrices | Specification `IsSvdFactors` of C52; Wedin's bound for one pair of vectors is proved in `Lemmas/Wedin.lean`; nothing is modelled beyond C76 and C77 |
| C79 | `poly.py` `__call__`, `value`, `_split` in floating-point arithmetic | `Model/PolyFl.lean`: numpy's `legval` and the local coordinate, operation by operation, over an arbitrary arithmetic with the contract of C75; coefficients, knots and `dx` are given numbers. Transcribed is the order of operations `(c1*(nd-1))/nd` of numpy |
| C80 | `sampling.py` `DecomposedMatrix`/`SplitDecomposedMatrix` `matmul`, `lstsq` in floating-point arithmetic | `Model/SamplingFl.lean`: `matmul` and `lstsq` with every product, row division and array sum replaced by an operation of a record `FlMat`; its contract `FlMat.Ok` bounds the errors of the three operations. `complexDot`/`realDot` derive the contract from the scalar arithmetic of C75 for an arbitrary binary tree of additions per entry. Simplified: each fibre of an array is multiplied by the same operation (a library may choose another order for another layout; the contract covers any fixed choice); a fused multiply-add is not among the derived products, though within the contract; complex/real division is multiplication by the rounded reciprocal; the SVD is a parameter with a backward-error contract (`ComputedSvd`), with full column rank; overflow is not modelled |
| C81 | `_roots.py` `find_all`, `_bisect_cont` in floating-point arithmetic | `Spec/Float.lean`: the binary numbers of `p` digits and exponents from `emin` on, and rounding to nearest; `Model/RootsFl.lean`: the loop with the sum, the halving, the width and the tolerance rounded. The function is given by its computed values (with sign bit). Not modelled: overflow, NaN, the double-double type (its sum is not rounded to nearest), the rounding in `_refine_grid` (the grid is a given list) |
| C82 | `sampling.py`: constructors, `evaluate`, `fit` in floating-point arithmetic | `Model/SamplingFl.lean`: `Obj.evaluateHereFl`, `Obj.fitHereFl` on the objects built by `tauInit`, `matsInit` from basis functions as they are computed (any function within `E` of the exact one; `C82_poly` gives `E` for piecewise polynomials) and a singular value decomposition with the contract of C80. Not modelled: the rounding of the quotient `cond`, overflow; for `uhat` the error `E` is a hypothesis |
| C83 | `sve.py` `compute` and `kernel.py` `_SVEHintsLogistic`: error over the whole square | no new model; `Spec/Discretise.lean`: rules exact for piecewise polynomials, closeness to piecewise polynomials. `Lemmas/Discretise.lean`: from the nodes to the square; `Lemmas/LogisticApprox.lean`, `Lemmas/LogisticGrid.lean`: Taylor expansion of the logistic kernel on the hinted segments. Decompositions are exact here (`SvdExact`); the logistic kernel is covered for `10 ≤ lam ≤ 10⁶`, the regularised Bose kernel only by the general bound |
| C84 | `basis.py` `FiniteTempBasis` from scratch: the kernel over the whole region, Green's functions in time and frequency | no new model; C66 with C83. `SquareIntegrable` spectral functions (not sums of delta functions); decompositions are exact (`SvdExact`), `beta * wmax` is computed exactly (`hfp`) and lies between 10 and 10⁶ |
| C85 | `svd.py` with a backward error: what it means for `sve.compute` and `FiniteTempBasis` | no new model; C83 and C84 with `SvdNear δ` in place of `SvdExact`. The factors still have exactly orthonormal columns (a backward stable routine returns factors close to such ones); the rest of the pipeline is in exact arithmetic |
| C86 | the regularized Bose kernel in C83 – C85 | no new model; `boseLim` (`Spec/BoseLimit.lean`) is the kernel with its limit at `y = 0`, the code's value for `|Λ y| < 1e-200` is compared with it. Cut-offs up to `10¹²` (the spacings in `y` shrink faster than geometrically, for huge cut-offs the factor 1/8 per node is lost); exact arithmetic apart from the error of the decompositions |
| C87 | the logistic kernel of C83 – C85 at single points; `to_IR` of C51 without its hypothesis on the expansion | no new model; the mean over the nodes bounds single values because the residual is nearly a piecewise polynomial and no segment is shorter than `1/(16 Λ)` in `x` or `1/(8 Λ^(5/4))` in `y` (`Lemmas/Pointwise.lean`, `Lemmas/MinSegment.lean`); knots by one-sided limits. `10 ≤ Λ ≤ 10⁶`; exact arithmetic apart from the error of the decompositions. The powers of `Λ` are an upper bound from this argument, not claimed to be sharp |
| C88 | the logistic kernel with cut-offs up to `10⁹` and `10¹⁴` in C83, C85 and C87 | no new model; the shortest segments in `x` shrink only as `Λ^(-0.93)`, so the factor per node is 1/6 (1/4) instead of 1/8. The numbers are upper bounds from Taylor and Cauchy estimates |
| C89 | `sve.compute` and `FiniteTempBasis` with the logistic kernel evaluated in floating-point arithmetic | `Model/SveComputeFl.lean`: the kernel objects of C65 with the values of `Model/KernelFl.lean` (equal to them in real arithmetic, `C89_exact`). Nodes, weights and `sqrt(w)` stay exact here; their rounding is C76. `DescribesHalf` (C65) is what `compute` needs of the symmetrised kernels; the underflow condition only serves to show that the even matrix is not zero |
| C90 | as C89 for the regularized Bose kernel | `Model/SveComputeFl.lean`: `boseKernFl`, equal to `boseKern` in real arithmetic for all arguments (`C90_exact`). The expansion is compared with the kernel itself (`boseLim`, `1/lam` at `y = 0`). In double precision the underflow condition allows cut-offs up to about `5·10⁵` |
| C91 | C87 and C88 (every point, large cut-offs, DLR on top) with the logistic kernel in floating-point arithmetic | Nothing new is modelled; rounding of the kernel enters as an additional backward error of the decompositions |
| C92 | C87 (every point) for `RegularizedBoseKernel(beta * wmax)` up to `Λ = 10¹²`, exact and in floating-point arithmetic | Nothing new is modelled; no segment is shorter than `1/(14 L^(4/3))` in `x` or `1/(45 L^(5/3))` in `y`, `L = max(Λ, 10)` (`Lemmas/MinSegmentBose.lean`). The power `3/2` of `L` is an upper bound from this argument, not claimed to be sharp. Only kernel values are rounded, the rest of `compute` is exact apart from the backward error of the decompositions |
| C93 | C69 for bases constructed from scratch and every spectral function: `TauSampling.fit` and `MatsubaraSampling.fit` after C87, C91 or C92 | Nothing new is modelled. The lower bound `σ` of the sampling matrix is a hypothesis; `C93_points` shows that some sampling times provide one for every basis, but not that the default ones do. The sampling itself is in exact arithmetic |
| C94 | `to_IR(from_IR(gl)) == gl` for poles that determine `v`, and the accuracy of the resulting DLR of a Green's function | Nothing new is modelled. That the poles determine `v` is a hypothesis; `C94_poles` shows that such poles exist for every basis, but not that the default ones are of this kind. Exact arithmetic in `from_IR` and `to_IR` |

Properties whose English statement is false of the code are kept; the negation is proved with a concrete witness and
the true part is proved as a `_partial` theorem (section 5).

## 5. Disagreements between documentation/expectation and code

Each line is a theorem about the model; the code was read, not run. "False" refers to the English claim of the same
number.

| claim | what the code does | theorem |
|---|---|---|
| C04 | the shared descriptor of `ravel_argument` stores the last accessed instance: a bound evaluator kept in a variable evaluates another object later | `C04_negation`, `C04_last_access` |
| C08 | on coarse grids overlapping brackets give extrema out of order | `C08_negation` |
| C09 | a zero-width segment, which the constructor accepts, evaluates to NaN | `C09_zero_width_nan` |
| C10 | `uhat[l]` raises KeyError for `freq='any'` without `n_asymp` | `C10_any_select_raises` |
| C12 | an even function with a root at the midpoint reports it twice | `C12_even_midpoint_twice` |
| C15 | the float branch of the phase factor is wrong for non-integers (not reached through the API) | `C15_float_branch` |
| C17 | transforming a selected polynomial is not selecting from the transform, beyond the asymptotic threshold | `C17_negation` |
| C20 | the fall-back for sampling points can repeat frequencies, or raise ValueError/IndexError | `C20_fallback_repeats`, `_raises`, `_empty` |
| C21 | fencing 20 to 39 points breaks the reflection symmetry | `C21_negation` |
| C22 | no extrema: no sampling points; a derivative vanishing at the edge: points on the edge | theorems of `C22_TauPoints` |
| C23 | `piecewise` with a single edge raises | `C23` theorems |
| C27 | non-convergence raises AttributeError from the format string instead of a warning; `legendre(1)` always does | `C27_nonconvergence_raises`, `C27_exact_raises` |
| C31 | scalar `y` raises TypeError; sign in the docstring | `C31_scalar_raises` |
| C32 | two scalars raise TypeError for the odd kernels, and so does a missing `x_plus` | `C32_scalar_raises` |
| C34 | a float `n_sv` raises | `C34_float_limit` |
| C35 | a negative `max_size` acts like a slice bound | `C35_negative` |
| C38 | where `u(1) = 0` the gauge is NaN | `C38_vanishing` |
| C39 | for the regularised Bose kernel the expansion carries a factor `wmax^-2` | `C39` theorems |
| C41 | `basis[:n]` can enlarge the basis, `basis[:0]` raises, negative stops count from the stored expansion | `C41_negation`, `C41_empty`, `C41_negative` |
| C42 | `rescale` re-derives the size | `C42_negation` |
| C45 | the default axis is the last but one, not the last | `C45_negation`, `C45_silent` |
| C46 | Matsubara points are sorted, so values come in another order than the points given | `C46_negation`, `C46_swapped` |
| C47 | negative indices of an augmented basis count from the end of the augmentations | `C47_negation`, `C47_index_negative` |
| C48 | `TauConst.hat` uses `np.complex`; a zero-dimensional `n` raises for `TauLinear.hat`; integer `tau` breaks `deriv` | `C48_hat_negation`, `C48_linear_deriv_negation` |
| C49 | `statistics`, `xmax` and `deriv` of an augmented basis | `C49_negation` |
| C50 | all poles zero: ValueError; bosonic pole zero at frequency zero: not finite | `C50_tau_negation`, `C50_boson_negation` |
| C52 | double-double input ignores the strategy, also an unknown one | `C52_unknown_negation` |
| C53 | the documented relation between accuracy, cutoff and machine epsilon | `C53_documented_negation` |
| C54 | statistics `''` and `'BF'` pass the check and raise KeyError later | `C54_negation` |
| C56 | more than 2000 initial segments raise TypeError; a vanishing integrand always warns | `C56_too_many`, `C56_zero` |
| C57 | an exact zero between two sign-definite runs hides one of them | `C57_sign_negation` |
| C58 | a root that is a point of the search grid is missed | `C58_missed` |
| C60 | the zero matrix: IndexError from `cond` | `C60` theorems |
| C61 | values of a supplied decomposition are not checked | `C61_values_negation` |

## 6. Mutation tests

`tools/mutate.py` applies the mutants of `seeded/round*.json` one by one to a scratch copy of the Lean sources and
rebuilds. `seeded/LOG.jsonl` has one line per attempt, with the theorems that failed and those tightened after a
mutant survived.
