import Verif.Model.InnerDispatch
import Verif.Model.Arnoldifyer

/-!
# Norms of blocks and the diagnostic functions (utils.py 125-143, 196-238, 276-329)

Arrays of shape `(N, m)` are matrices.  `numpy.linalg.norm(·, 2)` of a matrix is the largest singular value (`matNorm2`), that
of a vector the Euclidean norm (`vecNorm`).  Simplification: for arrays without columns some versions of numpy raise an error,
the model returns 0.
-/

namespace Krypy
variable {𝕜 : Type*} [RCLike 𝕜] {N m n : ℕ}
open Matrix

/-- utils.py 226-238 after line 230, i.e. `norm(x, y, ip_B=ip_B)` with both blocks given (of the same width, which is how it
is called): the check of the imaginary part of the diagonal, then `sqrt(norm(ip, 2))`. -/
noncomputable def norm2B (X Y : Matrix (Fin N) (Fin m) 𝕜) (B : IpB 𝕜 N) : Except Err ℝ :=
  let ip := innerB X Y B
  let nrmDiag := vecNorm fun i => ip i i
  let nrmDiagImag := vecNorm fun i => RCLike.im (ip i i)
  if nrmDiagImag > nrmDiag * 1e-10 then .error .innerProductError else .ok (Real.sqrt (matNorm2 ip))

/-- utils.py 214-238 with `y=None`: in the Euclidean case the spectral norm of the block itself (226-227). -/
noncomputable def norm1B (X : Matrix (Fin N) (Fin m) 𝕜) : IpB 𝕜 N → Except Err ℝ
  | .euclid => .ok (matNorm2 X)
  | B => norm2B X X B

/-- utils.py 196-211 `norm_squared(x, Mx, inner_product)`, where `rho` is the value of the inner product (199-203): the sign
and imaginary part are checked for `1 × 1` results only. -/
noncomputable def normSquared (rho : Matrix (Fin m) (Fin n) 𝕜) : Except Err ℝ :=
  open Classical in
  if (m = 1 ∧ n = 1) ∧ ∃ i j, |RCLike.im (rho i j)| > ‖rho i j‖ * 1e-10 ∨ RCLike.re (rho i j) < 0 then
    .error .innerProductError
  else .ok (matNorm2 rho)

/-- utils.py 297-305: `norm(eye(n) - inner(V, V, ip_B=ip_B))`, the outer norm is the Euclidean one. -/
noncomputable def orthonormality (V : Matrix (Fin N) (Fin n) 𝕜) (B : IpB 𝕜 N) : Except Err ℝ :=
  norm1B (1 - innerB V V B) .euclid

/-- utils.py 308-329.  `A` is the matrix of the operator.  `H.shape[0] == H.shape[1]` decides which case it is (322); other
shapes than `(n, n)` and `(n, n-1)` give an error in the subtraction (simplification: broadcasting of single columns is not
modelled). -/
noncomputable def arnoldiRes (A : Matrix (Fin N) (Fin N) 𝕜) (V : Matrix (Fin N) (Fin n) 𝕜) (H : Matrix (Fin n) (Fin m) 𝕜)
    (B : IpB 𝕜 N) : Except Err ℝ :=
  if h : n = m then norm1B (A * (V.submatrix id (Fin.cast h.symm)) - V * H) B
  else if h : n = m + 1 then norm1B (A * V.submatrix id (fun j => Fin.cast h.symm j.castSucc) - V * H) B
  else .error .valueError

/-- utils.py 276-294 `norm_MMlr`.  Single columns as `(N, 1)` arrays.  In the branch for nonzero residuals line 292 passes the
keyword argument `inner_product`, which `norm` does not have: `TypeError`. -/
noncomputable def normMMlr (Ml A Mr : Matrix (Fin N) (Fin N) 𝕜) (b x0 yk : Matrix (Fin N) (Fin 1) 𝕜) : Except Err
    (Matrix (Fin N) (Fin 1) 𝕜 × Matrix (Fin N) (Fin 1) 𝕜 × Matrix (Fin N) (Fin 1) 𝕜 × ℝ) :=
  open Classical in
  let xk := x0 + Mr * yk
  let r := b - A * xk
  let Mlr := Ml * r
  match norm1B Mlr .euclid with
  | .error e => .error e
  | .ok nMlr => if nMlr = 0 then .ok (xk, Mlr, 0, 0) else .error .typeError

/-- A Python argument as `shape_vecs` sees it (utils.py 137): `type(arg) is numpy.ndarray` with its shape and its entries in C
order, or anything else (also `None` and `numpy.matrix`). -/
inductive ShArg (F O : Type*)
  | nd (shape : List ℕ) (data : List F)
  | other (o : O)

/-- utils.py 125-127 for an array with one axis. -/
def shapeVec {F O : Type*} (n : ℕ) (data : List F) : ShArg F O := .nd [n, 1] data

/-- utils.py 136-142, the loop of `shape_vecs` with the accumulators `flat_vecs` and `ret_args`. -/
def shapeVecsLoop {F O : Type*} : List (ShArg F O) → Bool → List (ShArg F O) → Bool × List (ShArg F O)
  | [], flat, ret => (flat, ret)
  | .nd [n] data :: args, flat, ret => shapeVecsLoop args flat (ret ++ [shapeVec n data])
  | .nd sh data :: args, _, ret => shapeVecsLoop args false (ret ++ [.nd sh data])
  | .other o :: args, flat, ret => shapeVecsLoop args flat (ret ++ [.other o])

/-- utils.py 130-143. -/
def shapeVecs {F O : Type*} (args : List (ShArg F O)) : Bool × List (ShArg F O) := shapeVecsLoop args true []

end Krypy
