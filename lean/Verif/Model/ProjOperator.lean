import Verif.Model.Operators
import Verif.Model.Projection

/-!
# Model of `Projection.operator`, `operator_complement` and `matrix` (utils.py 640-677)

Vectors are columns of `n` numbers, so that the operators are objects of `Model/Operators`.
-/

namespace Krypy
open Matrix
variable {𝕜 : Type*} [RCLike 𝕜] {n k : ℕ}

/-- A method of `Projection`, which treats the columns of its argument independently, as a function of
`(n,m)` arrays.  Simplified: every exception which the method raises for one of the columns, and the
one which numpy raises for another number of rows, is represented by `ValueError` (utils.py 566-638, used at 640-643). -/
noncomputable def colFn (f : (Fin n → 𝕜) → Except Err (Fin n → 𝕜)) : Ops.Fn 𝕜 := fun X =>
  open Classical in
  if h : X.rows = n then
    if ∃ j e, f (fun i => X.data (Fin.cast h.symm i) j) = .error e then .error .value
    else .ok ⟨n, X.cols, Matrix.of fun i j => match f (fun i => X.data (Fin.cast h.symm i) j) with
      | .ok y => y i
      | .error _ => 0⟩
  else .error .value

/-- `apply(a)` without `return_Ya` (utils.py 572-597). -/
noncomputable def Proj.applyX (ip : (Fin n → 𝕜) → (Fin n → 𝕜) → 𝕜) (p : Proj 𝕜 (Fin n → 𝕜) k)
    (a : Fin n → 𝕜) : Except Err (Fin n → 𝕜) := match p.apply ip a with
  | .ok (x, _) => .ok x
  | .error e => .error e

/-- `apply_complement(a)` without `return_Ya` (utils.py 610-632). -/
noncomputable def Proj.applyComplX (ip : (Fin n → 𝕜) → (Fin n → 𝕜) → 𝕜)
    (p : Proj 𝕜 (Fin n → 𝕜) k) (a : Fin n → 𝕜) : Except Err (Fin n → 𝕜) :=
  match p.applyCompl ip a with
  | .ok (x, _) => .ok x
  | .error e => .error e

/-- utils.py 645-654 with `_get_operator` (640-643): the dtype is not modelled. -/
noncomputable def Proj.operator (ip : (Fin n → 𝕜) → (Fin n → 𝕜) → 𝕜) (p : Proj 𝕜 (Fin n → 𝕜) k) :
    Ops.Op 𝕜 :=
  if k = 0 then .zero n n
  else .user n n (some (colFn (p.applyX ip))) (some (colFn (p.applyAdj ip)))

/-- utils.py 656-665. -/
noncomputable def Proj.operatorComplement (ip : (Fin n → 𝕜) → (Fin n → 𝕜) → 𝕜)
    (p : Proj 𝕜 (Fin n → 𝕜) k) : Ops.Op 𝕜 :=
  if k = 0 then .ident n n
  else .user n n (some (colFn (p.applyComplX ip))) (some (colFn (p.applyComplAdj ip)))

/-- utils.py 667-677: `apply(numpy.eye(N))`. -/
noncomputable def Proj.matrix (ip : (Fin n → 𝕜) → (Fin n → 𝕜) → 𝕜) (p : Proj 𝕜 (Fin n → 𝕜) k) :
    Except Ops.OpErr (Ops.Arr 𝕜) :=
  colFn (p.applyX ip) ⟨n, n, 1⟩

end Krypy
