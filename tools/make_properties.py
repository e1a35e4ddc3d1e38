import json
P=[]
def p(title, statement, quantifier, why, anchors):
    P.append(dict(id="C%02d"%(len(P)+1), title=title, statement=statement, quantifier=quantifier, why_tests_cant=why, anchors=anchors))
U="krypy/utils.py"; L="krypy/linsys.py"; D="krypy/deflation.py"; CV="krypy/_convenience.py"; RF="krypy/recycling/factories.py"; RG="krypy/recycling/generators.py"; RE="krypy/recycling/evaluators.py"; RL="krypy/recycling/linsys.py"
def a(f,*s): return [f"{f}:{x}" for x in s]

p("Operator expressions act as the matrix they denote",
  "Any operator built from matrices, identities and zeros with +, -, unary minus, *, scalar multiples, ** and .adj applied to an (n,k) array returns exactly the array (denoted matrix) times X, where the denoted matrix is computed by ordinary matrix algebra.",
  "all operator expressions (any nesting depth), all shapes for which the expression is well-formed, all argument arrays",
  "the set of expression trees and shapes is infinite; tests try a handful of one-level expressions",
  a(U,"LinearOperator","_SumLinearOperator","_ProductLinearOperator","_ScaledLinearOperator","_PowerLinearOperator","_AdjointLinearOperator","IdentityLinearOperator","ZeroLinearOperator","MatrixLinearOperator"))
p("Adjoint application is the conjugate transpose",
  "For every such operator expression, dot_adj(Y) (and .adj * Y) is the conjugate transpose of the denoted matrix times Y, hence .adj is an involution and reverses products.",
  "all operator expressions, all shapes, all arrays",
  "infinite family of nested expressions; one missed reversal of factors or conjugation is invisible on symmetric test matrices",
  a(U,"LinearOperator.adj","LinearOperator.dot_adj","_ProductLinearOperator._dot_adj","_ScaledLinearOperator._dot_adj","_PowerLinearOperator._dot_adj","_AdjointLinearOperator"))
p("Operator application never returns a wrongly shaped array",
  "For an operator expression denoting an m x n matrix, dot(X) of an array with n rows and k columns returns an (m,k) array if k>=1 or m=n, and raises LinearOperatorError for any other number of rows; dot_adj likewise with the roles of m and n exchanged for k>=1; sums, products without identities and powers with incompatible shapes are rejected. The exceptions are exactly described: for k=0 and m!=n the number of rows is wrong; a non-square ZeroLinearOperator returns the wrong shape; TimedLinearOperator.dot_adj with k=0 raises for m!=n; A*Identity is accepted for every shape of the identity; A*X with a wrong number of rows yields an object array of scaled operators instead of an error.",
  "all operators, all array shapes (including k=0 and non-square operators)",
  "edge cases k=0 and m!=n are not in the test matrix family",
  a(U,"LinearOperator.dot","LinearOperator.dot_adj","LinearOperator.__mul__","IdentityLinearOperator","ZeroLinearOperator","TimedLinearOperator.dot_adj"))
p("Interval set: membership is the union of everything added and stored intervals stay disjoint",
  "After any sequence of add() calls, contains(alpha) is True exactly when alpha lies in one of the added intervals, and no two stored intervals intersect.",
  "all finite sequences of intervals over any linearly ordered set, all points alpha",
  "holds for every history of add() calls; chains of merges of arbitrary length must be covered",
  a(U,"Intervals.add","Intervals.contains","Interval.__and__","Interval.__or__"))
p("Interval set is independent of insertion order",
  "Building an Intervals object from any permutation of the same intervals yields the same set of (left,right) pairs, the same length, and the same sorted endpoint list.",
  "all lists of intervals and all permutations of them",
  "the number of permutations and merge orders is unbounded (and Python set iteration order is arbitrary)",
  a(U,"Intervals.__init__","Intervals.add","Intervals.get_endpoints","Intervals.__len__"))
p("Extremal queries of an interval set are the extrema of the represented point set",
  "For a non-empty Intervals object, min/max are the least/greatest represented points, min_pos/max_neg are the least positive/greatest negative represented points or None exactly when 0 is represented or there is no such point, min_abs/max_abs are the least/greatest absolute values.",
  "all reachable non-empty interval sets over an ordered field",
  "must hold for every reachable set; the None cases and sign mixes multiply",
  a(U,"Intervals.min","Intervals.max","Intervals.min_pos","Intervals.max_neg","Intervals.min_abs","Intervals.max_abs"))
p("Interval intersection, union and distance are set-theoretic",
  "I & J represents exactly the intersection (None iff empty), I | J is the hull and represents exactly the union when they intersect (None otherwise), distance(I,J) is the least distance of two points.",
  "all pairs of intervals",
  "all real endpoints and all relative positions",
  a(U,"Interval.__and__","Interval.__or__","Interval.distance","Interval.contains"))
p("gap() computes the documented spectral gap",
  "mode 'individual' returns the minimum of |lambda-sigma| over all pairs; mode 'interval' returns None iff some sigma lies strictly inside the hull of lamda, and otherwise the supremum of all delta for which no sigma lies in the open delta-enlarged hull.",
  "all non-empty finite real lists lamda and sigma",
  "all list lengths and orderings",
  a(U,"gap"))
p("Householder transformation maps the vector to a multiple of e1 and is unitary",
  "For every vector x, House(x).apply(x) = alpha*||x||*e1 with |alpha|=1 and xnorm=||x||; apply is an involutive isometry and coincides with multiplication by matrix(), which is Hermitian and unitary.",
  "all real or complex vectors of every dimension >= 1 (including zero vectors and multiples of e1)",
  "all dimensions and all case splits on gamma and sigma, as exact identities",
  a(U,"House.__init__","House.apply","House.matrix"))
p("Givens rotation is unitary and annihilates the second entry",
  "For every 2-vector (a,b), the rotation computed is unitary, maps (a,b) to (r,0) with |r| = sqrt(|a|^2+|b|^2).",
  "all real or complex pairs, including zeros",
  "infinitely many inputs, case splits inside rotg, real vs complex branch",
  a(U,"Givens.__init__","Givens.apply"))
p("QR with user inner product is a QR factorisation",
  "qr(X, ip_B, reorthos) with an ip_B given returns Q,R with X=QR, R upper triangular with real non-negative diagonal, and the columns of Q orthonormal in the given inner product, when no column of X is closer than the 1e-15 threshold to the span of the preceding columns (these distances are the diagonal entries of R); the result does not depend on reorthos (exact arithmetic).",
  "all N, k, all X with linearly independent columns above the threshold, all inner products, all reorthos",
  "all sizes and inner products; induction over columns",
  a(U,"qr"))
p("Projection is idempotent with the documented range and kernel",
  "Projection(X,Y,ip_B).apply is linear, idempotent, fixes every column of X, has range span(X), and its kernel is the orthogonal complement of Y in the given inner product; with Y omitted it is the orthogonal projection.",
  "all N,k (including k=0), all full rank X,Y with <Y,X> nonsingular, all inner products, orthogonalize in {True,False}, all iterations >= 1",
  "all dimensions, all iteration counts",
  a(U,"Projection.__init__","Projection._apply","Projection.apply"))
p("Complement, adjoint and iteration count of a projection are consistent",
  "apply_complement(a) = a - apply(a); apply_adj is the adjoint of apply in the inner product; the results do not depend on `iterations`; apply(a, return_Ya=True) also returns <Y,a>; iterations < 1 raises ArgumentError. For arbitrary matrices in the attributes apply and apply_complement still add up to the identity.",
  "all projections as in the previous property, all a, all iterations",
  "loop of unbounded length; exact identities",
  a(U,"Projection.apply","Projection.apply_adj","Projection.apply_complement","Projection.apply_complement_adj"))
p("Residual computation agrees with its definition",
  "get_residual(z) returns (M Ml (b-Az), Ml(b-Az)) and the norm sqrt<Ml r, M Ml r>; get_residual(None) returns the same as get_residual of the zero vector; the norm is zero iff Ml(b-Az)=0 when M is positive definite. The constructor stores self_adjoint and positive_definite as given and sets normal iff it was given as True or the system is marked self-adjoint; it never raises the ArgumentError 'self-adjointness implies normality'.",
  "all linear systems, all z",
  "quantifies over all operators and vectors",
  a(L,"LinearSystem.get_residual")+a(U,"norm","inner"))
p("Hegedus rescaling never increases and minimises the initial residual",
  "hegedus(A,b,x0,M,Ml,ip_B) returns gamma*x0 such that the preconditioned residual norm is minimal over all complex gamma (when <z,Ml A x0> > 1e-15), and in any case its residual norm is at most the norm for gamma=0.",
  "all systems, preconditioners, inner products and x0",
  "a minimum over infinitely many gamma",
  a(U,"hegedus"))
p("The inner product implied by M",
  "LinearSystem.get_ip_Minv_B returns an inner product with <x,y>_{M^-1} = <M^-1 x, y> (in particular <M u, M v>_{M^-1} = <u, M v>) if ip_B is a callable or None; if ip_B is a matrix B it does so if and only if M^-1 and B commute.",
  "all M self-adjoint positive definite with respect to ip_B, Minv its inverse, ip_B given as matrix or callable",
  "non-Hermitian but B-self-adjoint M are never tested",
  a(L,"LinearSystem.get_ip_Minv_B"))
p("Arnoldi relation and orthonormality at every iteration (mgs, dmgs)",
  "After every number k of advance() calls, the basis is orthonormal in the (preconditioned) inner product, H is upper Hessenberg with non-negative real subdiagonal, A V_k = P_{k+1} H_k (V=MP), i.e. M A V_k = V_{k+1} H_k, and if the space was flagged invariant the defect is at most 1e-14 times the norm of H (zero if the last subdiagonal entry is zero). advance() succeeds whenever the object is not exhausted, with one exception: if the very first product A M v vanishes, the invariance test is 0/0, the (invariant) space is not flagged and the basis becomes NaN.",
  "all dimensions, operators, start vectors, inner products, preconditioners and iteration counts",
  "invariant over unboundedly many iterations",
  a(U,"Arnoldi.__init__","Arnoldi.advance","Arnoldi.get"))
p("Lanczos short recurrence keeps full orthogonality for self-adjoint operators",
  "With ortho='lanczos' and a self-adjoint operator, the same relation and full orthonormality hold after every iteration, H is real symmetric tridiagonal, and the result coincides with the mgs result.",
  "all self-adjoint operators, start vectors, inner products, preconditioners, iteration counts",
  "global orthogonality from a local recurrence needs induction",
  a(U,"Arnoldi.advance"))
p("Householder Arnoldi produces an Arnoldi relation",
  "With ortho='house' the same relation and orthonormality hold in the Euclidean inner product after every iteration, first basis vector v/||v||, non-negative subdiagonal; using M or a non-Euclidean ip_B raises ArgumentError.",
  "all N, matrices, start vectors, iteration counts",
  "products of k reflectors for arbitrary k",
  a(U,"Arnoldi.advance","House"))
p("Arnoldi basis spans the Krylov subspace",
  "The first j basis vectors span K_j(MA, Mv) for every j up to the number of computed vectors; the invariant flag with zero last subdiagonal entry implies that this Krylov subspace is invariant.",
  "all operators, start vectors, iteration counts",
  "statement about subspaces of arbitrary dimension",
  a(U,"Arnoldi"))
p("arnoldi() terminates within maxiter and dimension many steps with consistent shapes; extra advance() raises",
  "arnoldi() always stops after at most min(maxiter, dim) iterations, returns V with k (invariant) or k+1 columns and H of matching shape; advance() after that raises ArgumentError and does not change the state.",
  "all inputs",
  "termination for every input",
  a(U,"arnoldi","Arnoldi.advance","Arnoldi.get"))
p("A solver call either returns a converged solver or raises ConvergenceError",
  "For tol and maxiter>=1: if Cg returns then the last relative residual is not above tol; Gmres/Minres may in addition return when the Krylov space is flagged invariant; ConvergenceError is raised exactly when the last allowed iteration ends with a residual above tol, with the last approximation attached.",
  "all linear systems, all tol, all maxiter, any arithmetic (also floating point: no arithmetic laws used)",
  "all histories of residual values",
  a(L,"_KrylovSolver.__init__","_KrylovSolver._finalize_iteration","Cg._solve","Minres._solve","Gmres._solve"))
p("The last recorded residual is the explicitly computed residual of the returned solution",
  "Whenever a solver returns converged or raises ConvergenceError, resnorms[-1] is the explicitly evaluated relative residual norm of the returned xk.",
  "all runs of all solvers, any arithmetic",
  "must hold on every path through the loop, with any combination of options",
  a(L,"_KrylovSolver._finalize_iteration","_KrylovSolver.__init__"))
p("Iteration limit and history bookkeeping",
  "resnorms has exactly one entry per iteration plus the initial one, at most maxiter+1 entries; every entry of resnorms but the last is above tol; errnorms is present iff an exact solution is given, has the same length and ends with the error of the returned approximation; the loop always terminates.",
  "all runs of all solvers, any arithmetic",
  "all lengths of histories",
  a(L,"_KrylovSolver.__init__","_KrylovSolver._finalize_iteration","Cg._solve","Minres._solve","Gmres._solve"))
p("Zero right-hand side and good initial guess need no iteration",
  "If ||M Ml b||=0 then (for tol>=0) xk is the zero vector, resnorms==[0.0] and no iteration is carried out whatever x0 was given; if the initial relative residual is not above tol then xk equals x0 and no iteration is carried out.",
  "all systems and initial guesses, any arithmetic",
  "all x0",
  a(L,"_KrylovSolver.__init__"))
p("GMRES iterates are residual-optimal over the Krylov subspace",
  "In exact arithmetic, for every iteration i the recorded residual resnorms[i] is the minimum over z in x0 + Mr K_i(M Ml A Mr, M Ml r0) of ||M Ml (b-Az)||_{M^-1}/||M Ml b||_{M^-1}, and the returned xk attains it.",
  "all systems, preconditioners, inner products, x0, tol, maxiter, iterations",
  "optimality over infinitely many vectors, for every iteration",
  a(L,"Gmres._solve","Gmres._get_xk"))
p("GMRES residual norms never increase and updated equals explicit residual",
  "In exact arithmetic resnorms is non-increasing and every updated residual equals the true residual of the corresponding iterate, so the 'updated residual is below tolerance, explicit residual is NOT' warning never fires.",
  "all GMRES runs",
  "all run lengths",
  a(L,"Gmres._solve","_KrylovSolver._finalize_iteration"))
p("GMRES finds the solution within dim iterations",
  "In exact arithmetic, for nonsingular Ml A Mr and maxiter >= N, Gmres returns with resnorms[-1] <= tol unless an approximate-invariance flag (0 < subdiagonal <= 1e-14*||H||) is raised; with exact invariance the residual is zero. For every maxiter the constructor either returns or raises ConvergenceError.",
  "all nonsingular systems of all dimensions",
  "all dimensions",
  a(L,"Gmres._solve")+a(U,"Arnoldi.advance"))
p("MINRES iterates are residual-optimal although computed with short recurrences",
  "In exact arithmetic for self-adjoint Ml A Mr, resnorms[i] is the minimum of the relative residual norm over x0 + Mr K_i and the iterate attains it; it coincides with GMRES. For nonsingular operators and every maxiter the constructor either returns or raises ConvergenceError.",
  "all self-adjoint systems, preconditioners, inner products, iterations",
  "short recurrence must reproduce a global optimum at every step",
  a(L,"Minres._solve"))
p("CG iterates minimise the energy norm of the error",
  "In exact arithmetic for self-adjoint positive definite Ml A Mr, the i-th iterate lies in x0 + Mr K_i and minimises the energy norm of the error over that space.",
  "all SPD systems, preconditioners, inner products, iterations",
  "global optimality from local recurrences",
  a(L,"Cg._solve"))
p("CG residual recursion is exact; residuals orthogonal, search directions conjugate",
  "In exact arithmetic the recursively updated residual equals Ml(b-A xk), residuals of different iterations are orthogonal in the M-inner product, search directions are A-conjugate, and resnorms[i] is the true relative residual of iterate i.",
  "all SPD systems, all pairs of iterations",
  "all pairs of iterations in runs of any length",
  a(L,"Cg._solve"))
p("CG terminates with the exact solution within dim iterations",
  "In exact arithmetic CG with maxiter >= N on an SPD system always returns (never raises ConvergenceError, never divides by zero) with resnorms[-1] <= tol.",
  "all SPD systems, all dimensions, all tol >= 0",
  "all dimensions",
  a(L,"Cg._solve"))
p("CG with store_arnoldi returns a Lanczos relation",
  "With store_arnoldi=True, V and H returned by Cg satisfy M Ml A Mr V_n = V_{n+1} H_n, V has orthonormal columns and H is real symmetric tridiagonal with non-negative subdiagonal; if the final residual is exactly zero, the last column of V is NaN and the last row of H is zero; if ConvergenceError is raised after maxiter iterations, n = maxiter-1 (the data of the last iteration are missing).",
  "all SPD systems, all iteration counts",
  "algebraic identity between CG scalars and the Lanczos matrix for every iteration",
  a(L,"Cg._solve","Cg._finalize"))
p("Restarted solver: bounded number of cycles, honest outcome",
  "RestartedGmres runs the inner solver at least once and at most max_restarts+1 times, each cycle starting from the previous approximation; it returns iff the last relative residual is not above tol and otherwise raises ConvergenceError; its resnorms is the concatenation of the cycle histories with the duplicated seam entries removed, and xk is the last cycle's approximation.",
  "all inner solver behaviours, all max_restarts, any arithmetic",
  "all sequences of inner outcomes",
  a(L,"_RestartedSolver.__init__","RestartedGmres"))
p("Restarted GMRES residual history is non-increasing",
  "In exact arithmetic the concatenated residual history of RestartedGmres is non-increasing across restarts, and each seam entry equals the removed one.",
  "all systems, all restart counts",
  "all run lengths",
  a(L,"_RestartedSolver.__init__","RestartedGmres"))
p("Deflation correction yields the deflated residual",
  "For the deflation projection with basis U and any z, the corrected approximation x=correct(z) satisfies Ml(b-Ax) = P Ml(b-Az) where P is the complementary projection onto U^perp along MlAMrU; in particular <U, Ml(b-Ax)>=0.",
  "all systems with Mr identity, all U with <U,MlAMrU> nonsingular, all z",
  "all deflation spaces",
  a(D,"ObliqueProjection.__init__","ObliqueProjection.correct"))
p("Deflated solvers report the residual of the returned solution and minimise over the augmented space",
  "For deflated solvers and right preconditioners Mr that leave the deflation space pointwise fixed (for example no Mr), the initial and updated residuals equal the residual of the corrected iterate; the iterate of deflated GMRES/MINRES has minimal projected residual over x0+K_i(M P Ml A Mr, M P Ml r0) corrected by U, the one of deflated CG minimal projected energy error; the solvers terminate. For other Mr a deflated solver can report residual norm zero for a wrong solution.",
  "all systems, deflation spaces, iterations",
  "all runs",
  a(D,"_DeflationMixin._get_initial_residual","_DeflationMixin._get_xk","_DeflationMixin._solve","DeflatedGmres"))
p("Deflation data E, C, B_ are the documented inner products",
  "After any number of iterations of a deflated solver E=<U,MlAMrU>, C=<U,MlAMrV_n>, B_=<V_{n+1},MlAMrU>; for DeflatedCg the three-term recurrence gives the same C (after a ConvergenceError C has one column more than the stored H).",
  "all systems, U and iteration counts",
  "recurrence identity for every iteration",
  a(D,"_DeflationMixin.__init__","_DeflationMixin._apply_projection","DeflatedCg._apply_projection","_DeflationMixin.B_"))
p("ritz() returns pairs satisfying the Galerkin condition with correct residual norms",
  "Given an Arnoldi relation, ritz(H,V) returns theta,z with A z - theta z orthogonal to K_n (type 'ritz') or to A K_n ('harmonic'), and resnorm equals the norm of A z - theta z for all types.",
  "all Arnoldi relations (square and extended), all eigenpairs returned by a correct eigensolver",
  "all dimensions",
  a(U,"ritz"))
p("Ritz pairs of a deflated solver",
  "Ritz(deflated_solver).values/coeffs/resnorms: with mode 'ritz' the residual M Ml A Mr z - mu z for z=[V_n,U]c is orthogonal to span[V_n,U] (with mode 'harmonic' to the image of that space), coefficient vectors have unit norm, and resnorms are the norms of these residuals in the M^-1 inner product whenever E=<U,MlAMrU> is Hermitian; for non-Hermitian E they can be wrong (E and E^H are exchanged in one block). If deflated CG ends after at least one iteration with an exactly vanishing residual, all resnorms are NaN and mode 'harmonic' raises ValueError.",
  "all deflated solver states",
  "all dimensions n, d",
  a(D,"Ritz.__init__","Ritz.get_vectors","Ritz.get_explicit_residual"))
p("Automatic selection picks the best evaluated subset and terminates",
  "RitzFactory always terminates with a list of distinct valid Ritz indices; if any subset could be evaluated, the returned one has minimal value among all evaluated subsets, otherwise the empty list is returned; AssumptionErrors of the evaluator never escape.",
  "all evaluators (arbitrary functions with failures), Ritz values, and the two shipped generators",
  "all evaluator behaviours and all numbers of Ritz values",
  a(RF,"RitzFactory._get_best_subset")+a(RG,"RitzSmall.generate","RitzExtremal.generate"))
p("Subset generators propose the documented extremal Ritz values",
  "RitzSmall proposes exactly one remaining index of smallest magnitude; RitzExtremal proposes the minimal/maximal negative and positive (self-adjoint) or smallest/largest magnitude (otherwise) remaining values; all proposals are remaining indices; nothing is proposed if at most one index remains or max_vectors are selected.",
  "all Ritz value arrays, all remaining subsets, all max_vectors",
  "all arrays, ties included",
  a(RG,"RitzSmall.generate","RitzExtremal.generate"))
p("RitzFactorySimple selects min(n_vectors,n) vectors by the criterion",
  "For every which, the selected indices are distinct, there are min(n_vectors,n) of them and every selected value is at least as extreme as every non-selected one, except that n_vectors=0 with which in {lm, lr, li} selects all n indices.",
  "all Ritz value arrays, all n_vectors >= 0, all criteria",
  "boundary n_vectors=0 with negative slices",
  a(RF,"RitzFactorySimple.get"))
p("Recycling solver state machine",
  "The first solve() uses no deflation vectors; every later solve() uses the factory (argument, else constructor default) applied to the last successfully finished solver; a solve that raises leaves last_solver unchanged; with no factory no deflation is ever used; last_solver is the returned object.",
  "all sequences of solve() calls with arbitrary outcomes",
  "all histories",
  a(RL,"_RecyclingSolver.solve","_RecyclingSolver.__init__"))
p("Timing estimates are non-negative, linear in operation counts and use the fastest measurement",
  "Timings.get(key) is the minimum recorded time or 0; get_ops is the sum of get(op)*count; once every operation involved has at least one measurement, recording more measurements never increases an estimate; estimate_time raises an error unless the system is timed.",
  "all recording histories and op dictionaries",
  "all histories",
  a(U,"Timings.get","Timings.get_ops","Timer")+a(D,"_DeflationMixin.estimate_time"))
p("A-priori bounds: range, monotonicity, step inversion",
  "BoundCG/BoundMinres constructed from real spectra have base in [0,1), eval_step is non-increasing and scale invariant, and for 0<base and 0<tol<=2 eval_step(s)<=tol iff s>=get_step(tol) (BoundCG). BoundCG accepts exactly the spectra with min > 1e-15*max >= 0, and, against its documentation, every all-negative spectrum (with base 0); empty, non-real and other spectra raise AssumptionError. BoundMinres is BoundCG on non-negative spectra and has the documented factor on indefinite ones (ignoring eigenvalues below 1e-15 in relative magnitude); if one side of zero is empty it raises ValueError; its get_step(tol) is a lower bound for, and at most 2 below, the step where eval_step falls below tol.",
  "all finite real spectra/interval sets, all steps and tolerances",
  "all spectra",
  a(U,"BoundCG","BoundMinres"))
p("Normalised roots polynomial evaluates the documented product",
  "p(x) = prod(1-x/theta_i) regardless of the interlaced multiplication order; p(0)=1; p(theta_i)=0.",
  "all root lists (nonzero), all points",
  "all lengths and all sort orders",
  a(U,"NormalizedRootsPolynomial.__call__"))
p("get_residual_norms reproduces the minimal residuals of the projected problem",
  "For an upper Hessenberg H the i-th entry is min_y ||e1 - H_i y|| if the columns of H_i are linearly independent, and a lower bound in any case; the entries do not increase; with self_adjoint=True the same values result for tridiagonal H; for square H a final 0 is appended, which is the true minimum if H is nonsingular.",
  "all Hessenberg matrices of all sizes",
  "all sizes",
  a(U,"get_residual_norms"))
p("angles() returns all principal angles",
  "theta is sorted, lies in [0,pi/2], cos(theta) are the singular values of <Q_F,Q_G>, padded with pi/2; hence the first cosine is the greatest inner product of unit vectors of the two spaces and the last sine the greatest distance of a unit vector of the smaller space from the larger one. With compute_vectors=True, U and V lie in the two spaces, <U,V>=diag(cos(theta)) and the vectors of the space with fewer columns are orthonormal; those of the other space need not be.",
  "all F,G,ip_B with a correct SVD",
  "all dimensions",
  a(U,"angles"))
p("Convenience functions return a solution iff converged and pass all options on",
  "cg/minres/gmres return (x,out) where x is out.xk reshaped to b's shape if the last residual is strictly below tol and None otherwise (also if it equals tol), and pass every documented argument on to the solver except Mr, which is ignored; the wrapper of a user inner product is correct for pairs of single vectors only.",
  "all arguments",
  "all combinations of options",
  a(CV,"cg","minres","gmres","wrap_inner_product"))
p("Published operation counts match the algorithms",
  "Constructing the linear system and running a solver with n>=1 iterations and explicit_residual=False applies A, M, Ml, Mr and computes inner products exactly as often as operations(n) says, if x0 is not given, the updated residuals are consistent and the last one is checked; every extra explicit residual (warning) costs one more of each, and a given x0 costs one more A, M, Ml and inner product than published. The published number of vector updates is exact for GMRES (mgs), an upper bound for MINRES (lanczos) and too small for CG. With explicit_residual=True one residual and one approximation are computed per iteration.",
  "all systems, preconditioners, initial guesses, tolerances, maxiter, orthogonalisation variants, all n",
  "all run lengths and option combinations",
  a(L,"Cg.operations","Minres.operations","Gmres.operations"))
p("Strakos matrix has the documented spectrum",
  "strakos(n,l_min,l_max,rho) is diagonal with non-decreasing entries in [l_min,l_max], first l_min and last l_max (n>=2, 0<l_min<l_max, 0<rho<=1), hence positive definite.",
  "all n>=2 and parameters",
  "all n",
  a(U,"strakos"))
p("The a priori bounds really bound CG and MINRES",
  "In exact arithmetic the energy norm of the CG error after n steps is at most BoundCG(spectrum).eval_step(n) times the initial one, for every spectrum or interval object accepted by BoundCG that covers the eigenvalues; the MINRES residual norms are bounded by BoundMinres(spectrum).eval_step(n) times the initial one for positive spectra and for indefinite spectra inside two intervals of equal length. For intervals of different length the promised bound is false.",
  "all SPD resp. self-adjoint systems, all n",
  "Chebyshev bound over all polynomials",
  a(U,"BoundCG","BoundMinres")+a(L,"Cg._solve","Minres._solve"))
p("The candidates of the roots polynomial contain its extrema",
  "For n>=1 roots minmax_candidates() has n-1 entries; for real roots they are real and lie between the smallest and the largest root; on every interval |p| attains its maximum at an endpoint or at a candidate inside it. Hence the maximum that bound_pseudo computes from interval endpoints and candidates is the maximum of |p| over the whole union of intervals.",
  "all root lists, all unions of intervals (contract: numpy computes the roots of the derivative)",
  "all degrees and interval sets",
  a(U,"NormalizedRootsPolynomial.minmax_candidates")+a(D,"bound_pseudo"))
p("arnoldi_projected computes an Arnoldi relation of the projected operator",
  "For an Arnoldi relation A V_n = V_(n+1) H with orthonormal V and a projection with Pt V_(n+1) = [V_n P, v_(n+1)], the returned U, G, F satisfy: W = V_n U is orthonormal and starts with the normalised Pt v_1, G is upper Hessenberg with entries <W_i, Pt A W_j>, Pt A W_j = W G_j + v_(n+1) F_j and P_(V_n) Pt A W_j = W G_j, up to the tolerance of the invariance test in the last column. If k is the dimension of the null space of P the iteration stops with an invariant space after at most n-k steps. The documented relation (Pt A + E) W = W G has the wrong sign and is violated by 2|F_j|; if P H P e_1 = 0 but P e_1 is not, the result is NaN.",
  "all H, P, k, inner products and orthogonalisation variants mgs, dmgs, lanczos",
  "all dimensions; the tests check random matrices only",
  a(U,"arnoldi_projected"))
p("Arnoldifyer returns an exact Arnoldi relation of a perturbed deflated operator",
  "For a deflated run with bases V_n and U and a choice W=[V_n,U]Wt with nonsingular <W,MAW>: Z is orthonormal and orthogonal to [V_n,U]; get() returns; the n+d-k vectors Vh are orthonormal, orthogonal to W and Z and span together with W the space [V_n,U]; Hh is upper Hessenberg with entries <Vh_i, P_W M A Vh_j>; (P_W M A + F) Vh = Vh Hh up to the part of MAU that the rank test (1e-14) drops, and exactly if nothing is dropped; F is self-adjoint, is the documented expression and has norm |Rh|; the projected initial residual is q_norm times the first vector of Vh up to a phase plus a vector of norm vdiff_norm orthogonal to Vh; PWAW_norm is the operator norm of the projection. Errors: wrong shapes of C or B_, singular E, k>=n+d, empty basis. The attributes of every deflated GMRES run satisfy the hypotheses.",
  "all deflated runs, all Wt, all dimensions (contracts for QR, Hessenberg reduction and SVD)",
  "norms are minima over infinitely many vectors; all dimensions; the tests of F and PWAW_norm cover fixed matrices",
  a(D,"Arnoldifyer","Arnoldifyer.get"))
p("RitzApriori estimates times from the remaining Ritz values, independent of set orders",
  "evaluate() depends neither on the iteration order of the index sets nor on the merge order of Intervals. With strategy simple and BoundCG it returns the estimated time for |S| deflation vectors and the number n of steps from which on 2((sqrt(k)-1)/(sqrt(k)+1))^s <= tol, k the ratio of the extreme remaining Ritz values (0 if they coincide), and raises AssumptionError if they are not positive; for BoundMinres and indefinite values n is at most 2 below that step. Strategy intervals without a selection uses exactly the intervals around the Ritz values with the residual norms as radii, each of which contains an eigenvalue for self-adjoint problems; with a selection it uses radius delta^2(1/gap+1/mu) and raises AssumptionError iff delta>=gap or mu=0. Selecting all pairs raises AssumptionError, unknown strategies ArgumentError. Findings: with a selection the intervals need not contain any eigenvalue; remaining values that are all negative give 0 steps (BoundCG) or ValueError (BoundMinres); without Ritz pairs strategy intervals raises TypeError.",
  "all Ritz values and residual norms, all subsets, all iteration orders, all self-adjoint operators of finite dimension",
  "all spectra and orders; eigenvalue inclusion over all operators",
  a(RE,"RitzApriori.evaluate","RitzApriori._estimate_eval_intervals"))
p("bound_pseudo returns residual estimates of a perturbed deflated system; omit is exact",
  "bound_pseudo raises AssumptionError iff sigma_min(<W,MAW>) <= WGW_norm or b_norm <= g_norm. With pseudo_type omit it returns for minimal residual methods a non-increasing list of n+d-k+1 numbers ending with 0; times (b_norm - g_norm) the i-th is a lower bound for, and without breakdown equal to, the least residual over the Krylov subspace of the perturbed deflated operator, and of the deflated operator itself if the perturbation vanishes. Under bounds for the norms of the differences, <W,MBW> of the next system is nonsingular, the initial residual of the next deflated system differs by at most beta, and the operators differ on the Krylov subspace by at most epsilon if the norm of <W,MA.> there is at most that of Hh (it is zero for Ritz vectors of self-adjoint operators). With pseudospectra the list begins with the same number, is not longer, does not increase and is at least the list of omit. Findings: for self-adjoint operators the length 2 delta instead of 2 pi delta makes the result smaller than the actual residual; epsilon can be too small for non-self-adjoint operators; documented values of pseudo_type other than omit and contain have no effect; contain always raises; a remainder without rows raises ValueError.",
  "all operators, perturbations and right hand sides, all bases from a deflated run, all implementations of the linear algebra and optimisation routines within their contracts",
  "statements about all perturbations and all vectors of Krylov subspaces; the function has no test at all",
  a(D,"bound_pseudo"))
p("RitzApproxKrylov turns residual bounds into an estimated time, independent of its cache",
  "With mode direct and explicit tol, evaluate returns the estimated time for |S| deflation vectors and the first index whose bound is <= tol, and raises AssumptionError if there is none or fewer than two bounds. With mode extrapolate it uses the real number s with b_0 alpha^s = tol, alpha the least number with b_i <= b_0 alpha^i for all i, and raises AssumptionError unless 0 < alpha < 1. Exceptions of bound_pseudo reach the caller. The cached Arnoldifyer never changes a result. Findings: mode direct with default tol=None raises TypeError; extrapolate gives a negative number of steps if the first bound is below tol; with pseudo_type omit and all but one Ritz vectors selected it always raises AssumptionError.",
  "all lists of bounds, tolerances, selections and sequences of calls",
  "arbitrary call sequences and lists of bounds",
  a(RE,"RitzApproxKrylov.evaluate"))
p("RecyclingCg solves every sequence of positive definite systems",
  "For any sequence of calls of RecyclingCg.solve with self-adjoint positive definite systems (all of which may differ in operator, right hand side, preconditioner and inner product), tol>=0 and maxiter>=dim: RitzFactorySimple with every valid criterion and RitzFactory with every generator of nonempty sets of remaining indices and every evaluator that raises nothing but AssumptionError return linearly independent vectors, and every call returns an approximation whose residual norm is at most tol times that of b. Whatever vectors a factory returns: a solver that returns after at least one iteration has a residual below the tolerance. If all Ritz vectors are recycled for the same system and initial guess, no iteration is carried out and the result is the same.",
  "all sequences of systems, all factories, all dimensions (contracts of qr, eigh, argsort)",
  "arbitrary sequences of different systems; the tests solve one system a few times",
  a(RL,"_RecyclingSolver.solve","RecyclingCg")+a(RF,"RitzFactorySimple.get","RitzFactory.get")+a(D,"DeflatedCg","Ritz.get_vectors"))
p("Block norms, shape_vecs and the diagnostic functions compute what they claim",
  "For every inner product form of norm that represents an inner product, norm(X) is the least c with ||X u|| <= c |u| for all u; for one column it is the norm of the vector and norm_squared is its square. orthonormality(V) is the least c with | |u|^2 - ||V u||^2 | <= c |u|^2, zero iff the columns are orthonormal, and below 1 only if they are independent. arnoldi_res is the operator norm of A V_n - V H, zero iff the Arnoldi relation holds, and raises for other shapes; for the result of any unpreconditioned Arnoldi run both are zero (at most 1e-14 ||H|| if the space was flagged invariant). shape_vecs turns exactly the flat arrays into columns and reports whether all arrays were flat. Findings: norm accepts indefinite inner products while norm_squared rejects them; norm_MMlr raises TypeError for every nonzero residual.",
  "all dimensions, blocks, inner products and argument lists",
  "least constants over all vectors; norm_MMlr and arnoldi_res are called by no production code",
  a(U,"norm","norm_squared","orthonormality","arnoldi_res","norm_MMlr","shape_vec","shape_vecs"))
p("RecyclingGmres and RecyclingMinres solve sequences of systems, and when recycled vectors are unusable",
  "For any sequence of calls of RecyclingGmres.solve or RecyclingMinres.solve with nonsingular systems of a class (all of which may differ), tol>=0 and maxiter>=dim, and factories whose vectors U are independent with nonsingular <U, Ml A U> for the systems of the class: every call returns an approximation whose residual norm is at most tol times that of b, unless the Krylov subspace was flagged invariant by the 1e-14 threshold. Independent vectors with singular <U, Ml A U> make every solver raise LinAlgError. The Ritz vectors of a run for a self-adjoint system are linearly independent, span the search space K_n + span U, and diagonalize <., Ml A .>; selected ones are usable for the same system iff none of their Ritz values is zero. For systems with self-adjoint Ml A without zero in the field of values, RitzFactorySimple with each valid criterion and RitzFactory with each generator and evaluator always return usable vectors. Finding: x=(1,1) followed by diag(1,-1)x=(1,1) with RitzFactorySimple(n_vectors=1) raises LinAlgError in the second call.",
  "all sequences of systems, all factories, all kinds of orthogonalization, all dimensions (contracts of qr, eigh, argsort)",
  "arbitrary sequences of different systems; the tests solve one system a few times and no indefinite sequence",
  a(RL,"_RecyclingSolver.solve","RecyclingGmres","RecyclingMinres")+a(RF,"RitzFactorySimple.get","RitzFactory.get")+a(D,"DeflatedGmres","DeflatedMinres","ObliqueProjection","Ritz.get_vectors"))
p("Timed operators and systems change no result, and measure each application once per column",
  "For every operator object with any TimedLinearOperators in it, dot and dot_adj return (or raise) the same at any time as the object without timers (for nonempty blocks); timers only grow, and new entries are nonnegative if the clock does not go back. Applying a timed operator to k>0 columns appends exactly one entry, the time of the call divided by k; a timer around a timer measures at least as much. The constructor of TimedLinearSystem raises iff that of LinearSystem does, otherwise all attributes agree except that the operators other than the identity are timed; MlAMr and get_residual return the same; the same holds for ConvertedTimedLinearSystem of any system, which never fails. The constructor measures Ml, M and ip_B once each (unless identities) and nothing else; get_residual measures A, Ml and M once each. Findings: applications of A.adj of a timed operator are not measured; if the operator raises, the time is recorded undivided.",
  "all operator objects, clocks, timer states, arguments of the constructors, block widths",
  "all interleavings of clock readings and nested timers; tests do not look at the recorded timings",
  a(U,"Timer","TimedLinearOperator.dot","TimedLinearOperator.dot_adj","get_linearoperator")+a(L,"TimedLinearSystem","ConvertedTimedLinearSystem","LinearSystem.get_residual"))
p("bound_perturbed_gmres bounds the influence of perturbations on GMRES if the polynomial is largest at a vertex, and only then",
  "bound_perturbed_gmres raises ArgumentError if some delta<=epsilon (and otherwise only if the contour computation does); it returns for nonzero deltas with nonempty contours, one entry per delta: epsilon/(delta-epsilon) * length/(2 pi delta) * max |p(vertices)|, nonnegative. If the delta-pseudospectrum of A lies in a disc, the length is at least that of the boundary circle and |p| on the circle is at most its maximum over the vertices, then ||p(A+E)-p(A)|| is at most the entry for every ||E||<=epsilon; hence the n-th relative residual norm of Gmres for A+E exceeds that for A by at most the entry, where p is the n-th residual polynomial (which exists). Finding: since only vertices are used, the entry is no bound in general: for any number n of equidistant vertices on the boundary there is p with p(0)=1 for which zero is returned although p(A+E) differs from p(A).",
  "all operators on Hilbert spaces (Banach algebras), perturbations, polynomials, contours, lists of deltas",
  "a statement about all perturbations; the function has no test at all",
  a(U,"bound_perturbed_gmres"))
p("Array types: when they do not matter, and when they make algorithms fail or return wrong results",
  "find_common_dtype returns the greatest type among its arrays, sparse matrices and krypy operators, None if there are none, independently of the order. If the arrays of an Arnoldi object, which have the common type of A, v and M, are not integer and (except for lanczos) not real with a complex inner product, then arnoldi, Gmres and Minres give the same result as an implementation that ignores types. Types do not matter in Cg iff the initial residual has a floating point type at least as wide as A, M, Ml and Mr; in qr if X has a floating point type at least as wide as the inner product; in get_residual_norms if H is not integer. solver.dtype is always wide enough. Findings: otherwise Cg raises TypeError in its first iteration, e.g. for a complex Hermitian A with real b and no x0 (but not if zeros are given), and for integer A and b; Gmres, arnoldi and qr with real data and a complex inner product raise TypeError; arnoldi with integer A and v sets the first basis vector to zero unless v is a multiple of a unit vector; qr raises TypeError for integer X; get_residual_norms of an integer matrix returns 0 instead of positive numbers.",
  "all assignments of types to arguments and all data of these types, all dimensions",
  "all combinations of types and data; the tests use matching types and mostly zero initial guesses",
  a(U,"find_common_dtype","Arnoldi.__init__","Arnoldi.advance","qr","get_residual_norms")+a(L,"LinearSystem.__init__","Cg._solve","Gmres._solve","Minres._solve"))
p("Solvers never modify the arrays of the caller, and aliasing does not influence results",
  "krypy's operators (identity, matrix, sum, product, multiple, power) change no existing array and return their argument or a new array; hence b, Mlb and MMlb of a system may be one array. Construct a LinearSystem from operators with this behaviour and call Cg, Gmres and Minres any number of times with it, possibly with iterates of earlier calls as initial guesses: every array that existed before a call (b, x0, exact solution, attributes of the system, earlier iterates) has the same contents afterwards, every call gives what an implementation without shared memory gives, a repeated call gives the same result, and the iterate of Cg and Minres is a new array. Findings: if the initial guess already satisfies the tolerance then the attribute xk of Gmres is the caller's array x0 itself; without the copies in Cg._solve the first iteration would overwrite b; an operator that returns an array it keeps finds it overwritten by Arnoldi.",
  "all operators with the stated behaviour, contents of the memory, sequences of calls",
  "arbitrary sharing of arrays and sequences of calls; tests compare results, not the inputs after the call",
  a(L,"LinearSystem.__init__","LinearSystem.get_residual","_KrylovSolver.__init__","_KrylovSolver._finalize_iteration","Cg._solve","Minres._solve","Gmres._solve","Gmres._get_xk")+a(U,"Arnoldi","Arnoldi.advance","IdentityLinearOperator","_ProductLinearOperator","_PowerLinearOperator"))
p("Singular systems: which are solved, and how the others fail",
  "Let B=Ml A Mr. If the system is consistent and B(M B x)=0 implies B x=0 (automatic for self-adjoint B), Gmres raises nothing but possibly ConvergenceError, and with maxiter>=rank(B) it returns, with a residual norm below the tolerance unless the 1e-14 threshold flagged invariance; the condition is necessary: Gmres with x0=None raises nothing else for all consistent right hand sides iff it holds. The same holds for Minres and every consistent self-adjoint system. Cg solves every consistent system with positive semidefinite B in at most rank(B) iterations, with the same optimality as in the definite case. For inconsistent systems whose least residual norm is above the tolerance and maxiter>=dim, Gmres raises LinAlgError or computes NaN and Minres computes NaN unless the threshold stops them; ConvergenceError is never raised. Findings: if the preconditioned initial residual is in the kernel of B, Gmres computes 0/0 in its first iteration although the Krylov subspace is invariant; Cg divides by zero if the curvature of the first direction vanishes.",
  "all (singular) operators, right hand sides, initial guesses, tolerances, dimensions",
  "an equivalence over all consistent right hand sides; the tests use nonsingular systems only",
  a(L,"Gmres._solve","Minres._solve","Cg._solve","Gmres._get_xk")+a(U,"Arnoldi.advance"))
p("RestartedGmres converges for positive real systems, and may stagnate for ever for others",
  "Measure residuals in the inner product <x, M y> and let T = Ml A Mr M satisfy Re<r, M T r> >= alpha <r, M r> with alpha > 0 and ||T r|| <= beta ||r|| (in finite dimensions such constants exist iff Re<r, M T r> > 0 for r != 0). In exact arithmetic with tol >= 0 Gmres raises nothing but ConvergenceError and every iteration reduces the recorded residual norm at least by the factor q = sqrt(1-(alpha/beta)^2) < 1. RestartedGmres with any maxiter >= 1 raises nothing but ConvergenceError; if it does, the residual norm is at most q^(max_restarts+1) times the initial one; hence for tol > 0 there is a number from which on all values of max_restarts make it return an approximation with residual norm at most tol ||Ml b||, also if cycles end early because the space is flagged invariant by the 1e-14 threshold. Finding: for A=[[0,1],[1,0]], b=(1,0) and maxiter=1 every cycle returns its initial guess, so RestartedGmres raises ConvergenceError for every max_restarts and every tol<1 although Gmres solves the system in two iterations.",
  "all positive real systems (any dimension, preconditioners, inner products), initial guesses, tol, maxiter >= 1, max_restarts, orthogonalization variants",
  "a statement about all systems and arbitrarily many restarts; tests restart a few times on a few matrices",
  a(L,"_RestartedSolver","RestartedGmres","Gmres._solve"))
p("The attribute iter and the printed form of solver objects",
  "In any arithmetic and for any arguments: the attribute iter of a returned Cg object is the number of iterations, len(resnorms)-1. For Gmres and Minres objects (returned or attached to a ConvergenceError, all orthogonalizations, also deflated) iter is one less than the number of iterations and 0 if there was none; so is iter of a Cg object attached to a ConvergenceError (maxiter-1). repr of a Cg or Minres object never raises for N>=1 and contains lines with tol, maxiter and iter; repr of a Gmres object does the same if store_arnoldi is set or there was at least one iteration, and otherwise raises AttributeError because V is missing. repr of a LinearSystem has one line for every attribute in a fixed order except None and identity operators.",
  "all systems, solver arguments, hooks of deflated solvers, number formats",
  "all runs of all lengths; the tests never look at iter and never print a solver",
  a(L,"_KrylovSolver.__init__","Cg._solve","Minres._solve","Gmres._solve","Cg.__repr__","Minres.__repr__","Gmres.__repr__","LinearSystem.__repr__"))
p("The number of iterations: smallest search space with a sufficiently good vector, and bounds by the spectrum",
  "Let T = Ml A Mr M and let the n-th search space be x0 + Mr K_n. (a) It contains a solution of the (left preconditioned) system iff some polynomial p of degree <= n with p(0)=1 satisfies p(T) Ml(b-A x0)=0. (b) If it contains a solution, then Gmres, Minres and Cg carry out at most n iterations for any tol>=0, and if maxiter>=n (and for Gmres the index of the operator is at most one) they return, with a last residual norm <= tol (Gmres, Minres: unless the Krylov subspace was flagged invariant although the subdiagonal entry of H is nonzero). (c) If Gmres or Minres returns with a residual norm <= tol, then the number of its iterations is exactly the least n such that some vector of the n-th search space has relative residual norm <= tol; for Cg with tol=0 it is the least n such that the n-th search space contains a solution. (d) n may be chosen as the number of eigenvalues whose eigenvectors are needed to represent the initial residual; as the number of distinct eigenvalues for self-adjoint T; as the degree of the minimal polynomial of T; and as k+1 if T is a multiple of the identity plus an operator of rank k.",
  "all systems, preconditioners, inner products, initial guesses, tolerances, maxiter, dimensions",
  "a minimum over all search spaces and all their vectors; tests observe counts on single matrices",
  a(L,"Gmres._solve","Minres._solve","Cg._solve"))
p("The residual norms of Cg and of Minres or Gmres determine each other",
  "For a self-adjoint positive definite system and the same initial guess let sigma_k be the residual norms of Cg and rho_k those of Minres or Gmres. For every k reached by both: rho_k <= sigma_k; sigma_k=0 iff rho_k=0; and 1/rho_k^2 is the sum of 1/sigma_j^2 over j<=k, so that 1/rho_{k+1}^2 = 1/rho_k^2 + 1/sigma_{k+1}^2: the residual norm of Cg is large exactly where Minres stagnates. Hence, with the same arguments (maxiter>=1, consistent system), if Cg returns then Minres returns as well, after at most as many iterations.",
  "all self-adjoint positive definite systems, preconditioners, inner products, initial guesses, tolerances, numbers of iterations",
  "an identity between the histories of two different algorithms, for all systems",
  a(L,"Cg._solve","Minres._solve","Gmres._solve"))
p("The recorded error norms are those of the iterates; for which systems they decrease",
  "With an exact_solution the attribute errnorms has as many entries as resnorms. For Cg the i-th entry is the norm (in the inner product of the system) of exact_solution minus the i-th iterate; for Gmres and Minres it is the norm of exact_solution minus the vector of the i-th search space at which the i-th residual norm is attained. If the operator is self-adjoint and positive definite, M and Mr are identities and exact_solution solves the system, then errnorms is strictly decreasing for Cg, Minres and Gmres, and in every iteration reached by both the error norm of Cg is at most that of Minres. With a preconditioner M the errors of Cg decrease in every inner product m with m(x, M y) = <x, y>. Findings: neither condition can be dropped: for a self-adjoint indefinite system the error norm of Minres grows in an iteration in which its residual norm decreases, and with a preconditioner M the recorded error norm of Cg grows.",
  "all systems, inner products, initial guesses, tolerances, numbers of iterations; definite unpreconditioned systems for the decrease",
  "a monotonicity statement for all systems and iterations; the tests compare the number of entries only",
  a(L,"_KrylovSolver._finalize_iteration","_KrylovSolver.__init__","Cg._solve","Minres._solve","Gmres._solve"))
p("Operators and matrix of a projection",
  "For Projection(X,Y,ip_B) with inner product x^H B y let P = X (Y^H B X)^-1 Y^H B. matrix() is P; operator() and operator_complement() are (N,N) operators that multiply every array by P and by I-P, also if X has no columns, for all values of orthogonalize and iterations; dot_adj of these operators multiplies by P' and I-P' where P' is the adjoint of P in the inner product, B P' = P^H B. For ip_B=None P' = P^H, so the operators may be used in operator expressions like matrices, e.g. operator_complement()*A acts as (I-P)A with adjoint A^H(I-P^H). Finding: for other inner products .adj of operator() is the conjugate transpose of P iff P^H commutes with B, which fails for B=diag(2,1), X=(1,1), although every other operator class uses the conjugate transpose.",
  "all X, Y with <Y,X> nonsingular, all inner products, orthogonalize in {True,False}, iterations >= 1, all arrays and operators multiplied with",
  "all arrays and expressions; the tests compare operator()*z with apply(z) for a few z and never use .adj of these operators",
  a(U,"Projection.operator","Projection.operator_complement","Projection.matrix","Projection._get_operator","Projection.apply_adj"))
p("Residual polynomials used by bound_pseudo",
  "Pass i of the loop in bound_pseudo evaluates NormalizedRootsPolynomial(roots). For GMRES and MINRES the roots are exactly the nonzero harmonic Ritz values of the first i columns of Hh (theta with Hu^H Hu z = theta H_i^H z, where Hu = Hh[:i+1,:i]), and the polynomial p minimises ||p(Hh) e_1|| among all polynomials of degree at most i with p(0)=1; the minimum is entry i of get_residual_norms(Hh), so bound and residual norm of one pass belong to the same polynomial. If Hh is Hermitian the roots are real and taking real parts (line 642) changes nothing on the real line. For CG and positive definite Hh, p has degree at most i, p(0)=1 and p(Hh) e_1 is orthogonal to the first i unit vectors, and ||p(Hh) e_1|| is entry i of resnorms of the CG run on the small system.",
  "all upper Hessenberg Hh with linearly independent leading columns, real or complex, all passes i, all routines qr, eigvals, eigvalsh which meet their specification",
  "all matrices and polynomials; the tests do not compare the polynomial with anything",
  a(D,"bound_pseudo")+a(U,"NormalizedRootsPolynomial","get_residual_norms"))

p("Deflation removes eigenvalues from the convergence behaviour",
  "Let Q be the projection of the deflated solvers and T = Q Ml A Mr M on the orthogonal complement of the deflation space span(U). The relative residual norms of DeflatedGmres and DeflatedMinres are the minima of ||q(T) Q Ml(b-A x0)|| over polynomials of degree at most i with q(0)=1. For self-adjoint operators resnorms[i] of DeflatedMinres is at most max|q(mu)| resnorms[0] and the energy norm of the i-th error of DeflatedCg at most max|q(mu)| times that of the corrected initial guess, with mu running through the eigenvalues of T only; hence BoundCG and BoundMinres of these eigenvalues bound the errors and residual norms, and at most as many iterations are carried out as there are distinct ones. If span(U) is invariant under M Ml A Mr (e.g. spanned by eigenvectors) these are the eigenvalues with eigenvectors orthogonal to U: eigenvalues whose eigenvectors are all in span(U) have no effect any more. For positive definite systems and any U they lie between the extreme Rayleigh quotients, so the usual CG bound is never lost.",
  "all systems, preconditioners and inner products, all deflation spaces with <U, Ml A Mr U> nonsingular, all x0, tol >= 0, maxiter, all steps i and polynomials",
  "all operators and spectra; the tests check only that deflated solvers converge with eigenvectors of one matrix",
  a(D,"_DeflationMixin","ObliqueProjection","DeflatedCg","DeflatedMinres","DeflatedGmres")+a(U,"BoundCG","BoundMinres"))

p("Solvers depend on the mathematical problem only, not on its presentation",
  "Two linear systems with initial guesses are equivalent if their residuals are related by a linear map R, the corrections before Mr by a linear map J, and preconditioned norms by one factor d. Then every residual norm of Gmres, Minres and Cg on the second system is d times the one on the first (as far as both run, for any tol, maxiter, ortho, explicit_residual, store_arnoldi), all Cg iterates and residuals are images of each other, the approximate solutions of runs of equal length belong to the same Krylov vector, and with corresponding tolerances the numbers of iterations agree. Equivalent in this sense are: a system and the one with Ml, Mr absorbed in A and b; starting from x0 and solving for the correction; A and t*A (x divided by t, t complex); b and t*b (x times t); M and t*M, ip_B and t*ip_B for t>0 (same x, same relative norms); any change of basis; M=L L^* and Ml=L^*, Mr=L (same x); M with ip_B and Ml=M with ip_B M^-1, the inner product of get_ip_Minv_B (same x).",
  "all systems over R or C on possibly different spaces, all preconditioners and inner products, initial guesses, options and iterations",
  "metamorphic relations between runs on all systems; the tests run each presentation separately",
  a(L,"LinearSystem.__init__","LinearSystem.get_ip_Minv_B","Gmres._solve","Minres._solve","Cg._solve"))

p("Rounding errors cannot fake convergence",
  "Let A x = b be a system without M, Ml and ip_B that is solved in floating point arithmetic by a solver whose Krylov iteration may be arbitrarily inaccurate. If it returns with a finite resnorms[-1] <= tol, then the exact residual norm of the returned vector satisfies ||b - A x|| <= c1 tol ||b|| + c2 || |A||x| ||, with c1 close to one and c2 close to n times the unit round-off: for real double precision, at most 10^6 unknowns and without underflow c1 = 1+10^-9 and c2 = 1.2*10^-10. Conversely, if ConvergenceError is raised, the exact residual norm of the attached vector is not much less than tol ||b||. If the norm of b underflows to zero, the zero vector is returned and its residual is below the underflow level. Finding: NaN is not covered: if the updated residual norm is NaN the residual is not evaluated, the loop ends and the solver returns normally without exception or warning; the same holds if the evaluated residual norm is NaN, even in the last iteration.",
  "all matrices, right hand sides, tolerances, methods, numbers of iterations and unknowns; all orders of summation and all rounding errors within the bounds of the format",
  "all possible rounding errors and summation orders; a test sees one machine and one run",
  a(L,"_KrylovSolver.__init__","_KrylovSolver._finalize_iteration","LinearSystem.get_residual")+a(U,"norm","inner"))

p("Cg with rounding errors: guarantees and residual gap",
  "Let Cg run with arbitrary inexact scalar and array operations (including Inf and NaN). It ends after at most maxiter iterations, records one residual norm per iteration, raises ConvergenceError only with an approximation whose evaluated residual norm is above tol, and reports convergence only after such an evaluation; if it reports convergence in double precision, the exact residual is small (as in the property on faked convergence). If sums, differences and multiples of arrays have relative errors of at most u and products with the operator errors of at most e||x||, then after k iterations the updated residual Mlrk differs from the true residual Ml r0 - MlAMr yk by at most k ((3 u ||MlAMr|| + 2 e) max||y_j|| + 3 u max||Mlr_j||)/(1-u)^2, whatever the errors of alpha, rho and the inner products are (e.g. after a complete loss of orthogonality); without preconditioners the residual of the returned vector differs from the last updated residual by this gap, the error of the initial residual and the error of x0+yk. Componentwise rounding errors meet these assumptions. With exact operations the model is the exact model of Cg.",
  "all operations with the stated error bounds, all systems, initial guesses, tolerances, numbers of iterations",
  "all possible rounding errors; a test sees one machine and one run",
  a(L,"Cg._solve","_KrylovSolver._get_xk","_KrylovSolver._finalize_iteration"))

p("Arnoldi relation with rounding errors",
  "Let Arnoldi run with inexact array operations (sums, differences and multiples with relative errors of at most u, products with A with errors of at most e||x||, inner products with relative errors of at most g||x|| ||y||). Then A V_n = V_{n+1} H_n holds up to a small error although the columns of V may lose their orthogonality completely: column k of the error of one step is bounded by the sizes of the vectors of this step, for mgs, dmgs and lanczos, with and without M and whatever the errors of the inner products are. For mgs and dmgs without M every column of V has norm close to one and every column of the error is at most a constant times ||A||, known in advance: for double precision, at most 10^6 unknowns and fewer than 1000 steps it is at most 1.6*10^-10 ||A||_F + 3*10^-12 ||A||. If invariant is set, the last column of A V - V H is small as well. Hence ||v - A V y|| <= sqrt(2(n+1)) ||beta e_1 - H y|| + small errors for every y, which is what GMRES relies on. Componentwise rounding errors meet the assumptions. With exact operations the model is the exact model of Arnoldi.",
  "all operations with the stated error bounds, all operators and start vectors, all numbers of steps; ortho in {mgs, dmgs, lanczos} for one step, {mgs, dmgs} for the whole run",
  "all possible rounding errors; the tests check the relation for a few matrices with tolerances chosen by hand",
  a(U,"Arnoldi.__init__","Arnoldi.advance","arnoldi"))

p("Gmres with rounding errors: guarantees and true residual",
  "Let Gmres (ortho in {mgs, dmgs, lanczos}) run with arbitrary inexact operations (including Inf and NaN). It ends after at most maxiter iterations, records one residual norm per iteration, raises ConvergenceError only with an approximation whose evaluated residual norm is above tol, and reports convergence only after such an evaluation or with an invariant Krylov subspace. If array operations, rotations, back substitution and linear combinations have small relative errors, M=Ml=Mr=None, the inner product is Euclidean and ortho is mgs or dmgs, then the true residual norm of the vector that is returned or attached to a ConvergenceError is at most sqrt(2(n+1)) times the residual norm |y[n]| which Gmres updates, plus the error of the initial residual, plus errors proportional to the rounding errors and to ||A|| sum|a_j|, where a is the solution of the triangular system; a loss of orthogonality does not matter. For real double precision, at most 1000 iterations and 10^6 unknowns: ||b-Ax|| <= 45|y[n]| + ||b-A x0-r0|| + 1.1*10^-10 ||r0|| + 2.2*10^-8 ||A||_F sum|a_j| + 2^-53 ||A||_F ||x0+yk|| plus what is neglected if the subspace was found to be invariant. Componentwise rounding errors (numpy.dot in any order, stored Givens rotations with small relative errors, row oriented back substitution) meet these assumptions. With exact operations the model is the exact model of Gmres.",
  "all operations with the stated error bounds, all systems, initial guesses, tolerances, numbers of iterations; all orders of summation",
  "all possible rounding errors; a test sees one machine and one run",
  a(L,"Gmres._solve","Gmres._get_xk","_KrylovSolver._finalize_iteration")+a(U,"Givens.__init__","Givens.apply"))

p("qr with rounding errors",
  "Let Q, R = qr(X, ip_B, reorthos) be evaluated with inexact array operations (sums, differences, multiples and quotients with relative errors of at most u, inner products and norms with errors of at most d relative to the norms, all in the norm of ip_B), and let the result be finite. Then R is exactly upper triangular with real nonnegative diagonal entries, and every column of X - Q R is at most a constant times u times the norm of the column of X, known in advance, although Q may have lost its orthogonality. A column of Q with R[i,i] >= 1e-15 is normalised up to rounding errors; otherwise it is the remainder itself, has a norm of at most about 1e-15, and X - Q R may be larger by this amount. If ip_B is a matrix B, componentwise rounding errors lead to these assumptions with u times the root of the condition number of B: in double precision, for at most 1000 columns, 10^6 rows, one reorthogonalisation and condition numbers kappa^2 <= 10^12, the columns of X - Q R are at most 1.75*10^-12 kappa times those of X, plus 1.001*10^-15. With exact operations the model is the exact one.",
  "all operations with the stated error bounds, all inner products, all arrays X, all numbers of columns and reorthogonalisations",
  "all possible rounding errors; the tests check the factorisation for a few matrices with tolerances chosen by hand",
  a(U,"qr","inner","norm"))

p("Minres with rounding errors",
  "In every arithmetic, Minres never returns normally with maxiter iterations and an approximation whose evaluated residual norm is above tol, and reports convergence only after such an evaluation or with an invariant Krylov subspace; the residual norm it records is |y[0]|, and yk is the sum of the vectors y_k z_k in the order of the iterations. If vector operations and Givens rotations have small relative errors, then for every basis P in which the tridiagonal matrix represents A up to errors delta_k, the true residual norm after n iterations is at most |y[0]| sqrt(sum_j ||P_j||^2) plus errors proportional to the rounding errors, which the three-term recurrence for z amplifies at most as the solution of a scalar recurrence with the computed coefficients R. For ortho='lanczos', M=Ml=Mr=None and the Euclidean inner product the Lanczos vectors are such a basis with sqrt(2(n+1)), whether or not they are still orthogonal: this bounds the true residual norm of the vector which is returned or attached to a ConvergenceError. Componentwise rounding errors meet the assumptions. If Minres in real double precision reports convergence, the true residual is small. With exact operations the model is the exact model of Minres.",
  "all operations with the stated error bounds, all systems, initial guesses, tolerances, numbers of iterations; all orders of summation",
  "all possible rounding errors; a test sees one machine and one run",
  a(L,"Minres._solve","_KrylovSolver._finalize_iteration")+a(U,"Givens.__init__","Givens.apply"))

p("Reorthogonalisation keeps orthogonality in floating point",
  "Let Q, R = qr(X, ip_B, reorthos) with reorthos >= 1 (the default is 1) be evaluated with inexact array operations (relative errors of at most u, errors of inner products and norms of at most d relative to the norms), and let the result be finite. With eta = 3u+2d+O(u(u+d)): if every one of the k columns satisfies R[i,i] >= 1e-15 and ||x_i|| <= kappa R[i,i], and k^3 eta kappa <= 1/1000, then |<q_i,q_j>| <= 3 k eta for i != j and | ||q_i||^2 - 1 | <= 2 eta: orthogonality at the level of the rounding errors, which does not depend on kappa. The same holds for the basis of Arnoldi with ortho='dmgs' and M=None if ||A v_n|| <= kappa H[n+1,n] in every column; for real double precision and at most 10^6 unknowns: m^3 kappa <= 4*10^6 gives inner products of at most 7.5*10^-10 m. Hence such a basis preserves the norms of coefficient vectors up to a factor 1 +- (2 + 3k^2) eta (squared norms). With reorthos=0 this is false, however accurate the arithmetic is: for every t > 0 there are operations with relative errors of at most t and two columns for which <q_0,q_1> < -0.99.",
  "all operations with the stated error bounds, all inner products, all arrays X with the stated property, all numbers of columns, all reorthos >= 1; all operators and start vectors",
  "all possible rounding errors; the tests check the orthogonality for a few matrices with tolerances chosen by hand",
  a(U,"qr","Arnoldi.advance","arnoldi"))

p("Restarts and deflation cannot fake convergence in floating point",
  "Let residual norms be evaluated in real double precision with arbitrary rounding errors, for at most 10^6 unknowns without M, Ml, ip_B, and let all other operations be arbitrary (including Inf and NaN). If RestartedGmres, or any restarted solver whose cycles evaluate the residual before they report convergence, returns normally with a finite resnorms[-1], then the exact residual of xk satisfies ||b-Ax|| <= (1+10^-9) tol ||b|| + 1.2*10^-10 || |A||x| ||: the errors of all cycles together do not matter. The same holds for deflated solvers with an arbitrarily wrong projection which return with a finite resnorms[-1] <= tol after at least one iteration. It is false for deflated solvers without iterations: with a relative error eps in the factorisation of <U,AU> the solver returns at once with the recorded residual norm eps^2, because the projection is applied twice, but the residual norm of xk is eps, because the correction is computed once; nothing checks it. With exact operations the model of RestartedGmres is the exact one.",
  "all inner solvers, all operations, all initial guesses, tolerances, numbers of restarts; all eps in (0,1)",
  "all possible rounding errors; a test sees one machine and one run",
  a(L,"_RestartedSolver.__init__","RestartedGmres.__init__","_KrylovSolver._finalize_iteration")+a(D,"_DeflationMixin._get_initial_residual","_DeflationMixin._get_xk","ObliqueProjection.correct")+a(U,"Projection.apply_complement"))

p("Householder transformations with rounding errors",
  "Let scalar operations have relative errors of at most u <= 1/1000, norms likewise, and dot products errors of at most u ||x|| ||y||; let the computed numbers be finite. For every vector x there are an exactly unitary matrix U and a number a with |a| = 1 and U x = a ||x|| e_0 such that House(x).alpha is a up to 3u, House(x).xnorm is ||x|| up to a relative error of 3u, and House(x).apply(y) is U y up to 80 u ||y|| for every y, although gamma may be arbitrarily close to zero or dominate x. Arnoldi with ortho='house' (M=None, ip_B=None) computes basis vectors with |<v_i,v_j> - delta_ij| <= (1+80u)^(i+j+4) - 1, hence at most 160 (i+j+4) u for small u, for every operator, every start vector and every number of iterations: in contrast to 'mgs' (C83) there is no assumption about nearly dependent vectors, and the operator may even be nonlinear or wrong. The Arnoldi relation A v_j = sum_i H_ij v_i holds up to the error of the product with A and (j+3)((1+80u)^(3j+8)-1) ||A||, and without the last term up to additionally |H_(j+1,j)|, also in the last column where no further direction exists and after an invariant subspace has been found. With exact operations the model is the exact model of House and of Arnoldi.",
  "all operations with the stated error bounds, all vectors, operators, start vectors, dimensions and numbers of iterations",
  "all possible rounding errors; the tests check orthogonality for a few matrices with tolerances chosen by hand",
  a(U,"House.__init__","House.apply","Arnoldi.__init__","Arnoldi.advance"))

p("Gmres(ortho='house') with rounding errors",
  "Under the error bounds of C85, with rotations of relative error g (C80), back substitution of backward error t, linear combinations of relative error c, products with A of error delta ||x|| and an initial residual norm of relative error d: after n >= 1 iterations of Gmres with ortho='house' and no preconditioners, let |y[n]| be the residual norm which the method updates and V_n the computed basis vectors. (1) |y[n]| differs from the true residual norm of the computed approximation by at most the error of the initial residual plus terms proportional to u, g, t, c, d, delta, in both directions and without a factor such as sqrt(n) (which C80 needs for 'mgs'). (2) |y[n]| is at most the residual norm of every combination of the computed basis vectors plus such terms. (3) Hence no such combination has a residual norm smaller than the one of the computed approximation by more than such terms. This includes n = N, where the Krylov space is exhausted. (4) In any arithmetic the call is honest (C22-C25): at most maxiter iterations, one residual norm each, ConvergenceError only with an evaluated residual norm above tol; in double precision resnorms[-1] <= tol implies a small exact residual (C77). With exact operations the model is the exact model of Gmres with ortho='house'.",
  "all operations with the stated error bounds, all matrices, right hand sides, start vectors, dimensions, tolerances and numbers of iterations; outcomes: return and ConvergenceError",
  "all possible rounding errors; the tests compare residual norms for a few matrices with tolerances chosen by hand",
  a(L,"Gmres._get_xk","Gmres._solve")+a(U,"Arnoldi.__init__","Arnoldi.advance","Givens.__init__","Givens.apply"))

p("Projections with rounding errors: twice is enough",
  "Let V and W be the bases which a Projection object stores, P = V <W,V>^-1 <W,.> the exact projection for them, pi and pi' bounds for the norms of P and 1-P, and let one application (_apply) have an error of at most delta relative to its argument, sums and differences relative errors of at most u; eta = delta + u(pi'+delta). (1) The result z of apply_complement(a) with n iterations satisfies ||z - (a - P a)|| <= (pi' n + pi) eta (1+2 pi') ||a||. (2) ||P z|| is at most pi eta times the norm of the last vector to which the projection was applied; hence with at least two iterations (the default) and ||a|| <= kappa ||a - P a|| with pi eta kappa <= 1/8, ||P z|| <= 2 pi eta ||z||, and the inner products of z with the columns of W are small relative to z itself. With one iteration this is false for every delta > 0. (3) A further iteration of apply replaces the error delta ||a|| by delta ||a - x||, up to errors which do not depend on delta. The same holds for apply_adj and apply_complement_adj. (4) delta is proportional to the errors of inner products, linear combinations and of the loss of orthogonality of V (orthogonal projection), or to the backward errors of scipy.linalg.qr and solve_triangular times the norm of <W,V>^-1 (general case). (5) With exact operations the methods are the exact ones.",
  "all operations with the stated error bounds, all inner products, bases, vectors, numbers of columns and iterations",
  "all possible rounding errors; the tests check P^2 = P and similar identities for a few matrices with tolerances chosen by hand",
  a(U,"Projection.__init__","Projection._apply","Projection._apply_adj","Projection.apply","Projection.apply_adj","Projection.apply_complement","Projection.apply_complement_adj"))

p("Deflated solvers depend only on the deflation space",
  "DeflatedGmres, DeflatedMinres and DeflatedCg without deflation vectors (U=None or zero columns) do exactly what Gmres, Minres and Cg do with the same arguments: same outcome (return, ConvergenceError or other exception), xk, resnorms, errnorms, number of warnings and basis vectors; so does the first call of solve of RecyclingGmres and RecyclingMinres. For two bases U and U' of the same space with invertible <U, Ml A Mr U>, the deflated solvers do the same for both, whatever the options of the projection (orthogonalize, iterations, qr_reorthos) are; the correction of every vector is the same, too.",
  "all linear systems, preconditioners, inner products, initial guesses, exact solutions, tolerances, maxiter, orthogonalisation methods; all pairs of bases (scaled, permuted, recombined) and options",
  "the tests compare deflated runs only with a few bases and check only the final residual",
  a(D,"ObliqueProjection.__init__","ObliqueProjection.correct","_DeflationMixin.__init__","_DeflationMixin._apply_projection","_DeflationMixin._get_initial_residual","_DeflationMixin._get_xk","DeflatedCg","DeflatedMinres","DeflatedGmres")+a(U,"Projection.apply_complement")+a(RL,"_RecyclingSolver.solve"))

p("Operation counts of deflated solvers and estimate_time",
  "LinearSystem(...) followed by DeflatedGmres, DeflatedMinres or DeflatedCg with k deflation vectors and the default parameters of the projection applies A, Ml and Mr k times and M not at all to set up the projection, and computes k(k+1)/2+3k^2 inner products there, k(k+1)/2 of them with an application of Minv (if there is a preconditioner M). Each of the n iterations, and the initial residual, need 2k more inner products and (for k>0) 2(k+1) more vector updates than without deflation; each computed approximation needs one more A and Ml and k more inner products. Hence, for a call which converges with at least one iteration and without warnings (explicit_residual=False), the numbers on which Ritz-based strategies rely via estimate_time(n, k) are: right for Mr; one too small for A and Ml (two if x0 is given); k-1 too large for M; 2k^2-k+1 too small for inner products; and Minv is not counted.",
  "all linear systems, deflation bases, initial guesses, tolerances, maxiter; all numbers of iterations and deflation vectors; all options of the projection and of the orthogonalisation (general formulas)",
  "the tests never count operations and never compare estimate_time with a run",
  a(D,"ObliqueProjection.__init__","ObliqueProjection.correct","_DeflationMixin.estimate_time","_DeflationMixin._apply_projection","_DeflationMixin._get_initial_residual","_DeflationMixin._get_xk")+a(U,"Projection.__init__","Projection._apply","Projection.apply_complement","qr"))

p("Deflated solvers do not modify arrays of the caller",
  "utils.qr, Projection, ObliqueProjection, DeflatedCg, DeflatedGmres and DeflatedMinres change no array which existed before the call: neither X, Y, U, b, x0, exact_solution, nor attributes of the LinearSystem, nor arrays which operators keep and return repeatedly, nor results of earlier solvers. Any sequence of plain and deflated solver calls with the same system leaves the contents of all arrays alone, and repeating a deflated call later gives the same result. Q of qr and U of ObliqueProjection are new arrays, so later changes of the passed deflation vectors have no effect; Projection(X, Y, orthogonalize=False) stores the arrays of the caller themselves. The iterate of a deflated solver is always a new array (unlike Gmres, which may return x0 itself). The recurrence for C in DeflatedCg works in place, but leaves the arrays in the list _UAps alone; without the copy in line 252 (or the copy in qr) this would be false.",
  "all initial contents of memory, all operators which return new arrays, their argument or arrays kept since before the construction, all deflation vectors (also aliased with b or x0), options, sequences of calls and outcomes (return, ConvergenceError, other exceptions)",
  "the tests never compare arrays before and after a call; all possible aliasing patterns and call sequences",
  a(D,"ObliqueProjection.__init__","ObliqueProjection.correct","_DeflationMixin.__init__","_DeflationMixin._apply_projection","_DeflationMixin._get_initial_residual","_DeflationMixin._get_xk","DeflatedCg","DeflatedMinres","DeflatedGmres")+a(U,"qr","Projection.__init__","Projection.apply_complement"))

p("Gmres(ortho='dmgs') with rounding errors is optimal",
  "Let vector operations have relative errors of at most u, inner products and norms errors of at most d relative to the norms of the arguments, rotations relative errors of at most g (C80), back substitution a backward error t and linear combinations an error c, let the computed numbers be finite, and eta the error of one orthogonalisation step (C83). Consider n >= 1 iterations of Gmres with ortho='dmgs' and without preconditioners, with at most m basis vectors V, and assume ||A v_j|| <= kappa H[j+1,j] for all columns which give a new basis vector and m^3 eta kappa <= 1/1000. (1) The basis is orthonormal up to 3 m eta. (2) The norm of the true residual of the returned xk (or of the xk of a ConvergenceError) and the residual norm |y[n]| which the method updates agree up to 8 m^2 eta |y[n]|, the error of the computed initial residual, and errors proportional to u, d, g, t, c. (3) For all coefficients z, (1 - 8 m^2 eta)|y[n]| is at most the residual norm of x0 + V z plus such errors, so no combination of the computed basis vectors has a residual which is smaller by more than that. C80 gives only an upper bound with the factor sqrt(2(n+1)) since it does not use orthogonality. (4) In real double precision without underflow, for at most a million unknowns and m^3 kappa <= 4*10^6, the loss of orthogonality in these bounds is 2e-9 m^2 and the rounding errors are at most 5e-12 ||r_0|| + 1.1e-9 ||A||_F sum |a_j|, where a solves the triangular system (plus 2.001 |a_n| H[n+1,n], the neglected part, if the Krylov subspace was found to be invariant).",
  "all operations with the stated error bounds, all operators, right hand sides, start vectors, dimensions, tolerances and numbers of iterations; outcomes: return and ConvergenceError",
  "all possible rounding errors; the tests compare residual norms for a few matrices with tolerances chosen by hand",
  a(L,"Gmres._get_xk","Gmres._solve")+a(U,"Arnoldi.__init__","Arnoldi.advance","Givens.__init__","Givens.apply"))

p("Recycling solvers with the library's own qr",
  "utils.qr treats a column as zero if less than 1e-15 of it is left after the orthogonalisation. This never happens in RecyclingCg, RecyclingMinres and RecyclingGmres with RitzFactorySimple or RitzFactory: the vectors of ritz.get_vectors(indices) with distinct indices are orthonormal in the inner product <x, M^-1 y> of the system they were computed with. Hence every sequence of calls of solve with self-adjoint positive definite systems (Cg) or self-adjoint systems with 0 outside the field of values of Ml A Mr (Minres, Gmres), which may all be different, returns approximations below the tolerance (Minres, Gmres: or stops with an invariant subspace, C62), if no vector is shrunk by more than 1e-15 by Ml A Mr or by the change from the inner product <x, M^-1 y> to <x, y> or to the one of another system of the sequence. The same holds for every factory whose vectors are orthonormal in this sense.",
  "all sequences of systems of any length, all factories and their strategies, preconditioners, inner products, orthogonalisation methods, qr_reorthos and other options of the projection",
  "all sequences of systems; the tests use a single sequence of a few systems with the Euclidean inner product",
  a(RL,"_RecyclingSolver.solve","RecyclingCg","RecyclingMinres","RecyclingGmres")+a(RF,"RitzFactorySimple.get","RitzFactory.get")+a(D,"ObliqueProjection.__init__","Ritz.get_vectors")+a(U,"qr","Projection.__init__"))

p("Recycling solvers do not modify arrays",
  "RecyclingCg, RecyclingMinres and RecyclingGmres keep the last solver, and factories read its arrays V and projection.U without copying them. Nevertheless solve changes no array which existed before the call, whatever its outcome: neither arrays of the caller, nor those of the last or of earlier solvers, nor the array of deflation vectors returned by the factory (even if this is projection.U of the last solver itself). Hence after any sequence of calls every array has the contents it had when it came into existence; in particular xk of every solver (or of the solver attached to a ConvergenceError) is a new array and keeps its contents. Ritz.get_vectors, RitzFactory, RitzFactorySimple and UnionFactory make new arrays, and the vectors are combinations of the contents of V and projection.U. The call does the same as the deflated solver with the contents of the array of the factory, without deflation vectors in the first call or without a factory; last_solver is replaced only if the solver returns.",
  "all initial contents of memory, all operators as in C90, all factories which leave existing arrays alone, all sequences of calls with different systems, options and outcomes (return, ConvergenceError, other exceptions)",
  "the tests never compare arrays before and after a call; all possible aliasing patterns and call sequences",
  a(RL,"_RecyclingSolver.solve","RecyclingCg","RecyclingMinres","RecyclingGmres")+a(RF,"RitzFactorySimple.get","RitzFactory.get","UnionFactory.get")+a(D,"ObliqueProjection.__init__","_DeflationMixin.__init__","Ritz.get_vectors"))

with open("/verif/properties.jsonl","w") as f:
    for x in P: f.write(json.dumps(x)+"\n")
print(len(P))
