# Formal model of krypy in Lean 4

Source: `/repo/krypy` (linsys.py, utils.py, deflation.py, _convenience.py,
recycling/). Properties: `properties.jsonl`. Claims: `MANIFEST.json`.

## 1. Trusted base

* Lean 4.33.0 kernel and the installed Mathlib.
* Axioms: only `propext`, `Classical.choice`, `Quot.sound`. No own axioms, no
  `sorry`, no `native_decide`, no `bv_decide`. `AXIOMS.md` lists the axioms of every theorem
  named in the manifest (regenerate with `tools/axioms.sh`).
* The hand-written model: each definition under `lean/Verif/Model/` cites the lines of
  `/repo` it mirrors and says where it simplifies.

### Arithmetic

Two kinds of theorem are kept apart.

1. **Any-arithmetic theorems** (solver driver, restarts, convenience wrappers,
   recycling, subset selection, timings). The scalar type `F` is an arbitrary
   type with arbitrary comparison and division: no laws are assumed. These theorems therefore
   hold for IEEE doubles including NaN/Inf (`F := Float` is an instance).
2. **Exact-arithmetic theorems** (Arnoldi, GMRES, CG, MINRES, projections, QR,
   Householder, Givens, deflation, Ritz). Scalars are `𝕜` with `[RCLike 𝕜]` (`ℝ` or `ℂ`),
   norms are in `ℝ`. *Floating-point round-off is not modelled.* The code's thresholds
   (`1e-14`, `1e-15`) are kept as real numbers. A division whose denominator is zero
   (Inf/NaN in numpy) is an explicit outcome of the model (`Err.nonFinite`),
   never Lean's `x/0 = 0`.

C77 to C87 lie between the two: they assume only bounds for the rounding errors of the elementary operations (`FlPar`, `FlFormat`, `FlResNorm`, `FlVec`, `FlArnVec`, `FlArnIp`, `FlRotation`, `FlSolve`, `FlQrAcc`, `FlMinresVec`, `FlRotR`, `FlHouseAcc`, `FlProjAcc`, `FlSolveAcc`), no
particular format.  That IEEE arithmetic and BLAS respect these bounds is part of the trusted base.

### Data representation

* An `(N,1)` array is an element of a `𝕜`-module `E`; statements needing the
  dimension assume `Module.finrank`. Coordinates (`Fin n → 𝕜`) are used where
  the code indexes components (House, Givens, matrices, operators).
* An `(N,k)` array is a family of columns (`ℕ → E` for preallocated storage which the code
  fills, `Fin k → E` for fixed arrays). 2-d scalar arrays are `ℕ → ℕ → 𝕜`
  (preallocated with zeros) or `Matrix`.
* `ip_B` (None, matrix, operator, or callable) is a function `E → E → 𝕜`; `IsInner ip` says it is
  an inner product (conjugate-linear in the first argument). `utils.inner` itself is modelled separately.
* A linear operator used by a solver is a `𝕜`-linear map; the operator classes themselves
  are modelled in `Model/Operators.lean` on matrices with dynamic shapes.
* Exceptions are values (`Except Err α`, or an `Outcome` with the solver state attached for `ConvergenceError`).

### External routines (contracts)

* BLAS `drotg`/`zrotg`: contract `c` real, `c²+|s|²=1`, `-conj(s)a+cb=0`; the reference
  BLAS algorithm is defined and proved to satisfy it.
* `scipy.linalg.solve_triangular`: back substitution, error on a zero diagonal entry.
* `scipy.linalg.qr`, `svd`, `eig(h)`: results are arguments constrained by the documented contract.  `Proofs/Contracts` proves that
  the contracts of `qr` and `eigh` can be met for all arguments.
* The library's own `qr` is modelled.  It obeys the contract of C12, C13 and C36-C38, C88, C89 if no column is closer than `1e-15` to the
  span of the preceding ones (`C11_own_qr`, `C12_own_qr`, `C36_own_qr`, `C40_own_qr`; examples in `Props/Witness`).  C60 and C62 (recycling
  solvers) demand the contract for all linearly independent columns; C92 proves their results for the own `qr`, because recycled Ritz vectors are orthonormal.
* numpy 2-norm of a matrix: Mathlib's L2 operator norm.
* `numpy.argsort`: any permutation that sorts (not assumed stable).
* Python `set` iteration order: arbitrary.

### Not modelled

Round-off outside C77 to C87 and C91 (which cover the driver, restarts, the evaluation of residual norms, the recurrences of `Cg`, the Arnoldi and Lanczos relations, `Gmres`, `Minres`, `qr`, the orthogonality of vectors which are orthogonalised twice, Householder transformations, and `Projection`); dtypes (except in C65, where the types integer, real and complex are modelled for `find_common_dtype`, Arnoldi, Gmres, Minres, Cg,
`qr` and `get_residual_norms`); memory aliasing of arrays outside C66, C90 and C93 (which cover the operators, `LinearSystem`, `qr`, projections, factories, the plain, the deflated and the recycling solvers, but not `ortho="house"` and views); warnings text; wall clock values (the clock is an arbitrary sequence of numbers in C45 and C63); `__repr__` of operators, intervals and timings; plotting; the contours of the
package pseudopy (a parameter `path` of `bound_pseudo`, about which only nonnegativity of length and maximum is assumed, and `paths` of
`bound_perturbed_gmres`; likewise the CG run on the small system in `bound_pseudo` is a parameter, related to the model of CG in C74); `numpy.matrix`; removed numpy aliases (`numpy.int`,
`numpy.complex`).

## 2. What is modelled, and where

| id | part of krypy | model | theorems (proof idea) |
|---|---|---|---|
| C01-C03 | utils.py 1365-1636, operator classes, `get_linearoperator` | `Model/Operators`: operator expressions with the class dispatch of `__add__`, `__mul__`, ...; `dot` on dynamic-shape matrices | `Props/Operators`: induction on the expression, denotation in `Matrix` |
| C04-C07 | utils.py 1711-1844, `Interval(s)` | `Model/Intervals` over any linear order | `Props/Intervals`: invariant of the merge loop |
| C08 | utils.py 1651-1708, `gap` | `Model/Gap` | `Props/Gap` |
| C09, C10 | utils.py 332-436, `House`, `Givens` | `Model/House`, `Model/Givens` | `Props/House`, `Props/Givens` |
| C11-C13 | utils.py 439-707, `qr`, `Projection` | `Model/Qr`, `Model/Projection` | `Props/Qr`, `Props/Projection`, `Props/OwnQr`: induction over columns; Gram matrices |
| C14-C16 | linsys.py 12-176, `LinearSystem`, utils.py 160-238, 812-851, `inner`, `norm`, `hegedus` | `Model/LinearSystem`, `Model/Inner`, `Model/InnerDispatch` | `Props/LinearSystem` |
| C17-C21 | utils.py 854-1081, `Arnoldi`, `arnoldi` | `Model/Arnoldi` (mgs, dmgs, lanczos), `Model/ArnoldiHouse` | `Props/Arnoldi`, `Props/ArnoldiHouse`: invariant of `advance` |
| C22-C25 | linsys.py 277-517, `_KrylovSolver` | `Model/Driver` over arbitrary scalars | `Props/Driver`, `Props/SolverCalls`: loop induction, then applied to each solver |
| C26-C28 | linsys.py 877-1018, `Gmres` | `Model/Gmres`, `Model/Solver` | `Props/Gmres`, `Props/SolverTotal` |
| C29 | linsys.py 711-874, `Minres` | `Model/Minres` | `Props/Minres`: simulation by GMRES |
| C30-C33 | linsys.py 520-708, `Cg` | `Model/Cg` | `Props/Cg`: orthogonality induction |
| C34, C35 | linsys.py 1021-1094, restarted solvers | `Model/Restarted` | `Props/Restarted`, `Props/RestartedGmres` |
| C36-C38 | deflation.py 32-283 | `Model/Deflation`, `Model/DeflCg` | `Props/Deflation`, `Props/DeflTerm`, `Props/DeflMatrices`, `Props/DeflCg` |
| C39, C40 | utils.py 1171-1286 `ritz`, deflation.py 737-869 `Ritz` | `Model/Ritz`, `Model/DeflRitz` | `Props/Ritz`, `Props/DeflRitz` |
| C41-C43 | recycling/factories.py, generators.py | `Model/Factories` | `Props/Factories` |
| C44 | recycling/linsys.py | `Model/Recycling` | `Props/Recycling`: trace induction |
| C45 | utils.py 1289-1362, deflation.py 192-233 | `Model/Timings` | `Props/Timings` |
| C46, C53 | utils.py 1847-2003, `BoundCG`, `BoundMinres` | `Model/Bounds` | `Props/Bounds`; `Props/BoundsValid` (Chebyshev polynomials + optimality) |
| C54 | utils.py 2052-2065 `minmax_candidates`, deflation.py 676-698 (real branch) | `Model/MinMax` | `Props/MinMax` |
| C55 | utils.py 1084-1168 `arnoldi_projected` (mgs, dmgs, lanczos) | `Model/ArnoldiProjected` | `Props/ArnoldiProjected` |
| C56 | deflation.py 286-470 `Arnoldifyer` | `Model/Arnoldifyer` | `Props/Arnoldifyer` |
| C57 | recycling/evaluators.py 18-133 `RitzApriori` | `Model/Evaluators` | `Props/Evaluators` (spectral theorem for the inclusion) |
| C58 | deflation.py 473-734 `bound_pseudo` | `Model/BoundPseudo` | `Props/BoundPseudo`, `Props/PseudoLoop`, `Props/PseudoBound`, `Props/ApproxKrylov` |
| C59 | recycling/evaluators.py 136-238 `RitzApproxKrylov` | `Model/BoundPseudo` | `Props/ApproxKrylov` |
| C60 | recycling/linsys.py 52-114 `RecyclingCg` with recycling/factories.py 49-51, 166-194 and deflation.py `DeflatedCg`, `Ritz` | `Model/RecyclingRun`, `Model/Recycling`, `Model/Factories`, `Model/DeflCg` | `Props/RecyclingRun`, `Proofs/Contracts` |
| C61 | utils.py 125-143 `shape_vec(s)`, 196-238 `norm_squared`, `norm`, 276-329 `norm_MMlr`, `orthonormality`, `arnoldi_res` | `Model/Norms` | `Props/Norms` |
| C62 | recycling/linsys.py 52-103, 117-136 `RecyclingGmres`, `RecyclingMinres` with recycling/factories.py 49-51, 166-194 and deflation.py `DeflatedGmres`, `DeflatedMinres`, `Ritz` | `Model/RecyclingArn`, `Model/Recycling`, `Model/Factories` | `Props/RecyclingArn`, `Props/DeflRitzVal` |
| C63 | utils.py 1289-1318 `Timer`, 1605-1636 `TimedLinearOperator`, linsys.py 204-274 `TimedLinearSystem`, `ConvertedTimedLinearSystem` | `Model/TimedSystem` | `Props/TimedSystem` |
| C64 | utils.py 2006-2033 `bound_perturbed_gmres` | `Model/PerturbedGmres` | `Proofs/Resolvent` (Cauchy integrals in Banach algebras), `Props/PerturbedGmres` |
| C65 | utils.py 106-122 `find_common_dtype`, and the types of arrays in 680-707, 898-1048, 2103-2121, linsys.py 115-117, 369-372, 593-689, 791-853, 952-1000 | `Model/DType` | `Props/DType` |
| C66 | utils.py 891-1048, 1479-1600, linsys.py 75-161, 342-493, 593-689, 791-853, 941-1004 with arrays as objects | `Model/Heap` | `Props/Heap` |
| C67 | linsys.py 623-689, 816-853, 941-1004 for singular operators | as C26-C33 | `Props/Singular`: restriction to the range of the operator |
| C69 | linsys.py 178-201, 574-591, 771-789, 919-939 and the attribute `iter` | any arithmetic; formatting of numbers is a parameter | `Props/Repr`: invariant of C22; induction over lines |
| C70 | linsys.py 520-1018: number of iterations of `Cg`, `Minres`, `Gmres` | exact | `Props/IterCount`: polynomials in the operator annihilating the residual; optimality (C26, C29, C67) |
| C71 | linsys.py 520-1018: residual norms of `Cg` against those of `Minres`, `Gmres` | exact | `Props/CgMinres`: residuals of CG are an orthogonal affine basis of the residuals of the search space |
| C72 | linsys.py 391-403, 436-445: history of error norms of `Cg`, `Minres`, `Gmres` | exact | `Props/CgErrors`: driver lemma for the recorded errors; the minimal residual iterate as a convex combination of the iterates of CG |
| C73 | utils.py 640-677: `Projection.operator`, `operator_complement`, `matrix` | exact | `Model/ProjOperator`, `Props/ProjOperator`: the projection as an operator object of `Model/Operators`, `Den` for the Euclidean inner product |
| C74 | deflation.py 560-573, 631-647: the polynomials of `bound_pseudo` | `Model/BoundPseudo`, `Model/ResNorms`, `Model/Cg` | `Proofs/HarmonicPoly`, `Proofs/PseudoRoutines`, `Props/PseudoPoly`: `IsMRPoly`, `IsGalerkinPoly`, `HarmonicRitz` |
| C75 | deflation.py 19-283: convergence of the deflated solvers | `Model/Deflation`, `Model/Bounds` | `Props/DeflConv`: `IsDeflEig`, `IsRemainingEig`, `ResPoly` |
| C76 | linsys.py 41-127, 520-1018: equivalent systems | `Model/LinearSystem`, `Model/Gmres`, `Model/Minres`, `Model/Cg` | `Props/EquivSys`: `SysMap` and the transformed systems |
| C77 | linsys.py 121, 149-161, 430-493 and utils.py 160-238 with rounding errors | `Model/FlArith` (possible results of sums, dot products, residuals, norms), `Model/Driver` | `Props/RoundOff`: induction over the summation tree, then the driver theorem C23 for an arbitrary method |
| C78 | linsys.py 520-708 `Cg` in an arbitrary arithmetic | `Model/FlCg` | `Props/FlCg`: simulation of the exact model, invariant of the recurrences, sum of local errors |
| C79 | utils.py 854-1081 `Arnoldi` in an arbitrary arithmetic | `Model/FlArnoldi` | `Props/FlArnoldi`: simulation of the exact model, error of one orthogonalisation loop, invariant of a run |
| C80 | linsys.py 877-1018 `Gmres` in an arbitrary arithmetic, utils.py 405-436 `Givens` | `Model/FlGmres` | `Props/FlGmres` (error of the small least squares problem), `Props/FlGmresCall` (whole calls, double precision, simulation of the exact model) |
| C81 | utils.py 680-707 `qr` with `ip_B` in an arbitrary arithmetic | `Model/FlQr` | `Props/FlQr` (the loop lemmas of C79; componentwise errors in a weighted norm) |
| C82 | linsys.py 791-853 `Minres` in an arbitrary arithmetic | `Model/FlMinres` | `Proofs/MinresErr`, `Props/FlMinres`, `Props/FlLanczos` (the Lanczos relation), `Props/FlMinresCall` |
| C83 | utils.py 695-707 (`reorthos` ≥ 1), 1012-1029 (`dmgs`) in an arbitrary arithmetic: orthogonality | `Model/FlQr`, `Model/FlArnoldi` | `Proofs/Reortho`, `Props/FlOrtho` |
| C84 | linsys.py 1021-1081 in an arbitrary arithmetic; deflation.py 58-68, 144-163 with an inaccurate projection | `Model/FlGmres`, `Model/Restarted`, `Model/Deflation` | `Props/FlRestart` |
| C85 | utils.py 332-389, 904-994 (`House`, `Arnoldi` with ortho="house") in an arbitrary arithmetic | `Model/FlHouse` | `Props/FlHouse` (relative errors of one transformation), `Props/FlArnHouse`: exact transformations of perturbed vectors (backward errors), induction over the columns |
| C86 | linsys.py 342-405, 941-1004 with utils.py 904-994 (`Gmres` with ortho="house") in an arbitrary arithmetic | `Model/FlGmresHouse` | `Props/FlGmresHouse`: the run keeps the state of `flHouseRun` and the rotations of C80 (`FlGmresHInv`); the exact orthonormal vectors of C85 preserve norms, hence the residual of a combination of the basis vectors and the residual of the rotated small system have the same norm up to rounding errors (`flHouse_rotated`), in both directions |
| C87 | utils.py 482-636 (`Projection`) in an arbitrary arithmetic | `Model/FlProjection` | `Props/FlProjection`: one step `z - _apply(z)` in terms of the exact idempotent `P` (`flCompl_step`): `P z'` depends only on the errors of this step, the other part changes by a small multiple of `z`; induction over the iterations; coefficients through a residual bound of the small system; counterexample for one iteration in `ℂ` as real plane |
| C88 | deflation.py 32-163, 236-283 (deflated solvers with an empty basis, with two bases of one space), recycling/linsys.py 98-100 | `Model/Deflation`, `Model/RecyclingArn` | `Props/DeflSpace`: a run with a log is the run without it (`run_log`, equality of whole outcomes, any arithmetic); initial residual, operator and correction are determined by the projection `IsDeflProj`, which is unique for the space |
| C89 | deflation.py 31-163, 188-233 (operations of the deflated solvers, `estimate_time`), utils.py 482-627, 641-677 | `Model/DeflCounts`: projection, correction and deflated solvers again with a counter, proved equal to the uncounted ones | `Props/DeflCounts`: cost laws as for C51, with a cost of the projection which does not depend on the vector |
| C90 | deflation.py 32-163, 236-283 (deflated solvers), utils.py 482-627, 680-707: aliasing and in-place updates | `Model/HeapDefl`: continues `Model/Heap`; `qr` in place on a copy, projections hold addresses, `DeflatedCg` works in place on columns of `C` | `Props/HeapDefl`: contents of existing arrays are unchanged, results are those of C36-C38 on values |
| C91 | linsys.py 342-405, 941-1004 with utils.py 927-1045 (`Gmres` with ortho="dmgs") in an arbitrary arithmetic | `Model/FlGmres`, `Model/FlArnoldi` | `Props/FlGmresDmgs`: the basis of the call is almost orthonormal (`DmgsInv`, the invariant of C83), combinations of such vectors have almost the norm of their coefficients (`C83_isometry`), so the residual of the Hessenberg system and the true residual agree (`C91_close`); the rotations and the back substitution are those of C80; `C91_double`: the constants in double precision |
| C92 | recycling/linsys.py 52-136, recycling/factories.py 49-51, 166-194, deflation.py 33-56 with utils.py 680-707: the recycling solvers with the own `qr` | `Model/RecyclingRun`, `Model/RecyclingArn`, `Model/DeflCounts` (`ownOblArgs`) | `Props/RecyclingOwnQr`: for columns which are apart, the own `qr` does the same as routines which obey the contracts of C60 and C62 (`OwnOk.ideal`); Ritz vectors are orthonormal (`C60_ritz_orthonormal`, `C62_ritz_orthonormal`), hence apart |
| C93 | recycling/linsys.py 52-136, recycling/factories.py 49-51, 167-194, 206-208, deflation.py 840-847: aliasing between calls | `Model/HeapRecycling`: continues `Model/HeapDefl`; `last_solver` holds addresses, factories are programs on the memory | `Props/HeapRecycling`: one call from C90, sequences by induction; factories of krypy make new arrays |
| C68 | linsys.py 1021-1081, 941-1004 for positive real operators | as C26, C34 | `Props/RestartConv`: one step in the direction of the residual, induction over cycles |
| C47 | utils.py 2036-2100, `NormalizedRootsPolynomial` | `Model/RootsPoly` | `Props/RootsPoly` |
| C48 | utils.py 2103-2121, `get_residual_norms` | `Model/ResNorms` | `Props/ResNorms` |
| C49 | utils.py 710-809, `angles` | `Model/Angles` | `Props/Angles` |
| C50 | _convenience.py | `Model/Convenience` | `Props/Convenience` |
| C51 | `operations` tables | `Model/Counts`: the solvers again with a counter, proved equal to the uncounted ones | `Props/Counts` |
| C52 | utils.py 1639, `strakos` | `Model/Bounds` | `Props/Bounds` |

Nothing in the list is considered inexpressible; statements about observed round-off
(e.g. loss of orthogonality) are deliberately not in the list.

## 3. Findings

Places where the code does not do what its documentation (or the obvious reading) promises.
The name is the theorem which proves it about the model.

Operators
* `IdentityLinearOperator * scalar` returns the scalar (`Ops.C01_identity_scalar_counterexample`); negative powers act
  as the identity (`Ops.C01_negative_power_counterexample`).
* Shapes are not checked for identities, for arrays without columns and by `*` with an array; a non-square
  `ZeroLinearOperator` returns the wrong shape; `TimedLinearOperator.dot_adj` calls `dot` for zero columns
  (`Ops.C03_*_counterexample`).

Utilities
* Queries on empty `Intervals` return an exception object instead of raising it (`C06_empty_returns_error_object`);
  `gap` returns None for an unknown mode (`C08_other_mode`).
* `qr` zeroes columns with norm below 1e-15 (`C11_threshold_counterexample`); `hegedus` returns zero below its threshold
  even if the guess is exact (`C15_threshold_counterexample`).
* `get_ip_Minv_B` for operator arguments is right iff `Minv` and `B` commute (`C16_operator_iff`).
* Arnoldi with `A v = 0` in the first step computes 0/0 (`C17_zero_product_counterexample`); the Householder variant does
  not flag the invariant space (`C19_zero_product_counterexample`).
* `arnoldi_projected`: the perturbation enters the documented relation with the wrong sign
  (`C55_documented_counterexample`); NaN if the first product vanishes (`C55_zero_product_counterexample`).
* `ritz` reports residual zero for an Arnoldi relation which was flagged invariant up to 1e-14 (`C39_arnoldi_invariant`).
* `get_residual_norms` is too small for dependent columns and singular square `H` (`C48_*_counterexample`).
* `angles(compute_vectors=True)`: the columns of `U` need not be orthonormal (`C49_vectors_counterexample`).
* `strakos(1, ...)` divides by zero (`C52_one_counterexample`).
* `BoundCG` accepts negative spectra, `BoundMinres` fails on one-sided ones, `get_step` ignores the floor in the exponent
  (`C46_*`); `BoundMinres` is not a bound for intervals of different length (`C53_minres_counterexample`).
* `norm` accepts indefinite inner products (`C61_norm_indefinite_counterexample`); `norm_MMlr` raises TypeError for every
  nonzero residual (`C61_norm_MMlr_counterexample`).
* Not modelled: `estimate_time` tries to raise the nonexistent `utils.RuntimeError`.

Solvers
* With `maxiter=0` or an invariant Krylov subspace a solver returns without convergence and without an error
  (`C22_maxiter_zero_counterexample`, `C22_invariant_counterexample`).
* `Cg`: after ConvergenceError the Lanczos data of the last step are missing (`C33_convergence_drops_last`); an exactly
  vanishing residual makes the last column of `V` NaN (`C33_nan_column_counterexample`), and then `Ritz` of a deflated `Cg` has
  NaN as residual norms, or raises `ValueError` in the mode `harmonic` (`C40_cg_nan`).
* `operations(n)` ignores the work for an initial guess, counts `n-1` vector updates too few for CG (another `2n+2` with
  `store_arnoldi`), and ignores the second pass of `dmgs` (`C51_cg_published`, `C51_gmres_dmgs`).
* The attribute `iter` is the number of iterations for `Cg`, but one less for `Gmres` and `Minres` (`RunInv.iter`).

Deflation and recycling
* `ObliqueProjection.correct` omits `Mr`; a deflated solver with `Mr` can report residual zero for a wrong solution
  (`C37_right_preconditioner_counterexample`).
* `DeflatedCg` after ConvergenceError: `C` and `B_` are too large and `Ritz` fails (`C38_cg_convergence_counterexample`).
* `deflation.Ritz`: the blocks `E` and `E^H` of the inner product matrix are exchanged, so residual norms are wrong for
  non-Hermitian `E` (`C40_resnorms_counterexample`); `get_explicit_residual` ignores its index for the values and
  lacks `M^{-1}` (`C40_explicit_counterexample`).
* `RitzFactorySimple(n_vectors=0)` selects all vectors (`C43_zero_vectors_counterexample`).
* `RitzApriori`: with a selection the "inclusion intervals for eigenvalues" need not contain an eigenvalue
  (`C57_inclusion_counterexample`); if only negative Ritz values remain, `BoundCG` predicts zero steps and `BoundMinres` raises
  a ValueError which `RitzFactory` does not catch (`C57_negative_counterexample`); without Ritz pairs the strategy `intervals`
  raises TypeError (`C57_empty_counterexample`).
* `bound_pseudo`: in the self-adjoint case the boundary of the pseudospectrum is taken to have length `2 delta`, so the result is not a bound
  (`C58_bound_counterexample`: the estimate is at most 1/20, the residual at least 99/1000); `epsilon` uses `‖Hh‖` and is too small for operators which are not self-adjoint
  (`C58_epsilon_counterexample`); the documented values `nonnormal`, `normal`, `hermitian` of `pseudo_type` have no effect
  (`C58_pseudo_type`); `contain` always raises (`C58_contain`); a remainder `Rh` without rows leads to a ValueError (`C58_no_rows`);
  `minimize_scalar` raises ValueError if its interval is empty (`epsilon < delta_max < 1.01 epsilon`); `pseudopy` is imported even if not needed.
* `RitzApproxKrylov`: mode `direct` with the default `tol=None` raises TypeError (`C59_argument`); mode `extrapolate` can give a negative number of
  steps (`C59_negative`) and fails with two bounds of `omit` (`C59_omit`); the Ritz coefficients passed on are not orthonormal for operators which are not self-adjoint,
  although `bound_pseudo` requires this; an unknown mode is detected only after `bound_pseudo` has run.
* Recycling Ritz vectors of a self-adjoint indefinite system may fail: `RecyclingMinres` raises `LinAlgError` in the second call for `x = (1,1)`,
  `diag(1,-1) x = (1,1)` (`C62_indefinite_counterexample`); Ritz vectors of Ritz value zero are unusable (`C62_get_vectors`).
* Applications of `A.adj` of a timed operator are not measured (`Timed.C63_adj_counterexample`); if a timed operator raises, the time is recorded
  without being divided by the number of columns (`Timed.C63_measure`).
* `bound_perturbed_gmres` takes the maximum over the vertices of the contour only; for any number of vertices there are polynomials for which
  the result is no bound (`C64_vertices_counterexample`).
* `Cg` raises `TypeError` in its first iteration if the initial residual has a narrower type than `A`, `M`, `Ml` or `Mr`, e.g. for a complex
  Hermitian `A` with a real `b` and no initial guess, or if `A` and `b` are integer (`C65_cg_error`, `C65_cg_complex`, `C65_cg_integer`); it
  works if zeros are passed as initial guess (`C65_cg_guess`).
* `Gmres`, `arnoldi` and `qr` ignore the type of `ip_B`: with real data and a complex inner product they raise `TypeError`
  (`C65_gmres_error`, `C65_complex_inner_product`, `C65_qr_error`); with integer data `arnoldi` truncates its basis vectors to zero
  (`C65_integer_counterexample`), `qr` raises `TypeError` (`C65_qr_integer`), `get_residual_norms` returns zeros
  (`C65_resnorms_counterexample`).
* `Gmres(...).xk` is the caller's array `x0` itself if the initial guess already satisfies the tolerance; `Cg` and `Minres`
  return a new array (`C66_gmres_alias`, `C66_cg`, `C66_minres`).
* `Projection(X, Y, orthogonalize=False)` keeps the arrays of the caller, a later change of `X` changes the projection;
  `ObliqueProjection` and `orthogonalize=True` make copies (`C90_projection`, `C90_oblique`). Whether `Projection`
  orthogonalises once or twice for an identity operator depends on object identity (`C90_same`).
* An operator which returns an array it keeps (e.g. a cached result) finds it overwritten by `Arnoldi.advance`, which
  orthogonalises the returned array in place (`C66_contract_needed`).
* A preconditioned initial residual in the kernel of the operator makes `Gmres` compute `0/0`, because the invariance test divides by the
  norm of the zero matrix `H`; a nilpotent operator gives a consistent system for which this happens (`C67_null_residual`,
  `C67_index_counterexample`).
* `ConvergenceError` is never raised for inconsistent systems once `maxiter ≥ dim`; the user sees `LinAlgError` or NaN instead
  (`C67_inconsistent`, `C67_minres_inconsistent`).  `Cg` divides by zero for directions of zero curvature (`C67_cg_breakdown`).
* `repr` of a `Gmres` object that needed no iteration raises `AttributeError` unless `store_arnoldi` is set (`C69_repr_counterexample`); `iter` of `Gmres` and `Minres` objects is one less than the number of iterations (`C69_gmres`, `C69_minres`).
* `RestartedGmres` with `maxiter=1` stagnates for ever on a nonsingular self-adjoint 2x2 system (`C68_stagnation`).
* The recorded error norms may grow: for `Minres` with an indefinite operator and for `Cg` with a preconditioner
  (`C72_minres_indefinite`, `C72_cg_precond_counterexample`).
* `estimate_time` does not count what deflated solvers do: `M` is not applied to `AU` unless `MAU` is requested, both bases are orthogonalised twice
  (`2k²` inner products), every computed approximation needs another application of `A` and `Ml` for the correction, and `Minv` is applied `k(k+1)/2` times
  although its entry is missing (`C89_gmres_estimate`).
- `Projection.operator().adj` is the adjoint in the inner product of the projection, not the conjugate
  transpose as for all other operators; the two agree iff `Pᴴ` commutes with the matrix of the inner product
  (`C73_adjoint`, `C73_adjoint_counterexample`).
* NaN ends the loop of every solver without exception or warning: an updated residual norm that is NaN is not checked explicitly, and
  neither is an explicit one reported (`C77_nan`, `C77_nan_explicit`, `C77_nan_counterexample`).
* A deflated solver that needs no iterations does not evaluate the residual of its result: the recorded norm belongs to the residual after two applications of
  the projection, the returned vector is corrected once.  A relative error `ε` of the projection gives the record `ε²` and the true value `ε` (`C84_unverified`).
* The recycling solver silently ignores an unusable factory in the first call (`C44_first`).

Convenience functions
* `Mr` is ignored (`Conv.C50_Mr_counterexample`); None is returned if the last residual norm equals `tol`
  (`Conv.C50_equal_counterexample`); `wrap_inner_product` uses only the first column (`Conv.C50_wrap_counterexample`).

## 4. Mutation tests

`seeded/LOG.jsonl` has one line per edit of the model (made in a scratch copy): the definition, the edit, the claim it
breaks, the manifest theorems which no longer prove, and theorems which were tightened because the edit survived.
